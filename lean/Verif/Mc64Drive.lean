import Verif.Mc64Compute
import Verif.PreDrive
import Verif.PrecSpec
import Mathlib.Tactic.Linarith

set_option linter.unusedVariables false
set_option linter.unusedSectionVars false
set_option linter.unusedSimpArgs false

/-!
# Proofs about the driver of the weighted matching
-/

namespace Hif
namespace Mc64

section
variable {K : Type} {R : Type} [Field R] [LinearOrder R] [IsStrictOrderedRing R] [Inhabited K]

/-- What is assumed of logarithm and exponential. -/
structure TransOK (T : Trans R) : Prop where
  pos : ∀ x, 0 < T.exp x
  add : ∀ x y, T.exp (x + y) = T.exp x * T.exp y
  inv : ∀ x, 0 < x → T.exp (T.log x) = x
  mono : ∀ x y, x ≤ y → T.exp x ≤ T.exp y

/-- A valid square matrix without repeated indices and without stored zeros. -/
structure In (nrm : K → R) (B : CS K) : Prop where
  wf : B.WF
  ssz : B.start.size = B.psize + 1
  sq : B.ssize = B.psize
  pos : ∀ k, k < B.start.get B.psize → 0 < nrm (B.vals.get k)
  inj : ∀ i, i < B.psize → ∀ k k', B.start.get i ≤ k → k < B.start.get (i + 1) → B.start.get i ≤ k' → k' < B.start.get (i + 1) →
    B.inds.get k = B.inds.get k' → k = k'

theorem In.nnz {nrm : K → R} {B : CS K} (h : In nrm B) : B.nnz = B.start.get B.psize := by
  unfold CS.nnz
  have := h.wf.start_zero
  rw [if_neg (by rw [h.ssz]; omega), this, h.ssz]; rfl

theorem In.mono {nrm : K → R} {B : CS K} (h : In nrm B) {i j : Nat} (hij : i ≤ j) (hj : j ≤ B.psize) : B.start.get i ≤ B.start.get j := by
  induction j with
  | zero => have : i = 0 := by omega
            rw [this]
  | succ j ih =>
    rcases Nat.lt_or_ge i (j + 1) with g | g
    · exact le_trans (ih (by omega) (by omega)) (h.wf.mono j (by omega))
    · have : i = j + 1 := by omega
      rw [this]

/-- The cost of entry `k` (from 0) of line `j`. -/
structure Costed (nrm : K → R) (T : Trans R) (B : CS K) (mx : Buf R) (a : Buf (D R)) (j : Nat) : Prop where
  nonneg : 0 ≤ mx.get (j + 1)
  pos : B.start.get j < B.start.get (j + 1) → 0 < mx.get (j + 1)
  cost : ∀ k, B.start.get j ≤ k → k < B.start.get (j + 1) → a.get (k + 1) = ((T.log (mx.get (j + 1)) - T.log (nrm (B.vals.get k)) : R) : D R)

/-- Frame: costs of the other lines are not touched. -/
theorem costBody_runs {nrm : K → R} {T : Trans R} {B : CS K} (h : In nrm B) {j : Nat} (h1 : 1 ≤ j) (h2 : j ≤ B.psize) {r : Buf R × Buf (D R)}
    (hm : r.1.size = B.psize + 1) (ha : r.2.size = B.nnz + 1) :
    Runs (costBody nrm T B j r) fun r' => r'.1.size = B.psize + 1 ∧ r'.2.size = B.nnz + 1 ∧
      (∀ x, x ≠ j → r'.1.get x = r.1.get x) ∧
      (∀ k, ¬ (B.start.get (j - 1) ≤ k ∧ k < B.start.get j) → r'.2.get (k + 1) = r.2.get (k + 1)) ∧ Costed nrm T B r'.1 r'.2 (j - 1) := by
  have hnz := h.nnz
  have hwf := h.wf
  have c1 := hwf.nnz_vals
  have c2 : B.start.get (j - 1) ≤ B.start.get j := h.mono (by omega) h2
  have c3 : B.start.get j ≤ B.start.get B.psize := h.mono h2 (le_refl _)
  have c4 := h.ssz
  unfold costBody
  simp only [runs_bind, runs_rd1]
  refine ⟨by omega, by show j < B.start.size + 1; omega, by omega, by show j + 1 < B.start.size + 1; omega, ?_⟩
  show Runs (forUp (B.start.get (j - 1) + 1) (B.start.get j + 1) _ _) _
  refine forUp_runs' (fun k (w : Buf (D R) × R) => w.1.size = B.nnz + 1 ∧ 0 ≤ w.2 ∧ (B.start.get (j - 1) + 1 < k → 0 < w.2) ∧
    ∀ x, w.1.get (x + 1) = if B.start.get (j - 1) ≤ x ∧ x + 1 < k then ((nrm (B.vals.get x) : R) : D R) else r.2.get (x + 1)) (by omega) ?_ ?_ ?_
  · refine ⟨ha, le_refl _, fun hh => by omega, fun x => by rw [if_neg (by omega)]⟩
  · rintro k w a b ⟨w1, w2, w3, w4⟩
    simp only [runs_bind, runs_rd1, runs_wr1, runs_pure]
    have hp := h.pos (k - 1) (by omega)
    refine ⟨by omega, by show k < B.vals.size + 1; omega, by omega, by omega, by rw [Buf.set_size]; exact w1, ?_, ?_, ?_⟩
    · split
      · exact le_of_lt hp
      · exact w2
    · intro _
      split
      · exact hp
      · rename_i hh
        show 0 < w.2
        exact lt_of_lt_of_le hp (not_lt.mp hh)
    · intro x
      simp only [Buf.set_get]
      by_cases e : x + 1 = k
      · rw [if_pos e, if_pos (by omega)]
        show ((nrm (B.vals.get (k - 1)) : R) : D R) = _
        rw [← e]; rfl
      · rw [if_neg e, w4 x]
        by_cases g : B.start.get (j - 1) ≤ x ∧ x + 1 < k
        · rw [if_pos g, if_pos (by omega)]
        · rw [if_neg g, if_neg (by omega)]
  · rintro w ⟨w1, w2, w3, w4⟩
    simp only [runs_bind, runs_wr1]
    refine ⟨by omega, by omega, ?_⟩
    by_cases hne : B.start.get (j - 1) < B.start.get j
    · have hpw := w3 (by omega)
      rw [if_pos (ne_of_gt hpw)]
      show Runs (forUp (B.start.get (j - 1) + 1) (B.start.get j + 1) _ _) _
      refine forUp_runs' (fun k (a : Buf (D R)) => a.size = B.nnz + 1 ∧
        ∀ x, a.get (x + 1) = if B.start.get (j - 1) ≤ x ∧ x + 1 < k then ((T.log w.2 - T.log (nrm (B.vals.get x)) : R) : D R) else w.1.get (x + 1)) (by omega) ?_ ?_ ?_
      · exact ⟨w1, fun x => by rw [if_neg (by omega)]⟩
      · rintro k a b1 b2 ⟨a1, a2⟩
        have hp := h.pos (k - 1) (by omega)
        have hk : a.get k = ((nrm (B.vals.get (k - 1)) : R) : D R) := by
          have := a2 (k - 1)
          rw [show k - 1 + 1 = k by omega, if_neg (by omega)] at this
          have h4 := w4 (k - 1)
          rw [show k - 1 + 1 = k by omega, if_pos (by omega)] at h4
          rw [this, h4]
        simp only [runs_bind, runs_rd1]
        refine ⟨by omega, by omega, ?_⟩
        rw [if_pos (by rw [hk]; intro e; exact absurd (WithTop.coe_injective e) (ne_of_gt hp)), hk]
        show Runs (fsub ((T.log w.2 : R) : D R) ((T.log (nrm (B.vals.get (k - 1))) : R) : D R) >>= _) _
        rw [fsub_coe]
        simp only [runs_bind, runs_pure, runs_wr1]
        refine ⟨by omega, by omega, by rw [Buf.set_size]; exact a1, ?_⟩
        intro x
        simp only [Buf.set_get]
        by_cases e : x + 1 = k
        · rw [if_pos e, if_pos (by omega), ← e]; rfl
        · rw [if_neg e, a2 x]
          by_cases g : B.start.get (j - 1) ≤ x ∧ x + 1 < k
          · rw [if_pos g, if_pos (by omega)]
          · rw [if_neg g, if_neg (by omega)]
      · rintro a ⟨a1, a2⟩
        rw [runs_pure]
        have hj : j - 1 + 1 = j := by omega
        refine ⟨by rw [Buf.set_size]; exact hm, a1, ?_, ?_, ?_, ?_, ?_⟩
        · intro x hx
          show (r.1.set j w.2).get x = _
          rw [Buf.set_get, if_neg hx]
        · intro k hk
          show a.get (k + 1) = _
          rw [a2, if_neg (by omega), w4, if_neg (by omega)]
        · show 0 ≤ (r.1.set j w.2).get _
          rw [hj, Buf.set_get, if_pos rfl]; exact w2
        · intro _
          show 0 < (r.1.set j w.2).get _
          rw [hj, Buf.set_get, if_pos rfl]; exact hpw
        · intro k k1 k2
          show a.get (k + 1) = ((T.log ((r.1.set j w.2).get _) - _ : R) : D R)
          rw [hj] at k2
          rw [hj, Buf.set_get, if_pos rfl, a2, if_pos (by omega)]
    · have he : B.start.get (j - 1) = B.start.get j := by omega
      show Runs (forUp (B.start.get (j - 1) + 1) (B.start.get j + 1) _ _) _
      rw [forUp_empty _ _ (by omega)]
      simp only [runs_pure]
      have hj : j - 1 + 1 = j := by omega
      refine ⟨by rw [Buf.set_size]; exact hm, w1, ?_, ?_, ?_, ?_, ?_⟩
      · intro x hx
        show (r.1.set j w.2).get x = _
        rw [Buf.set_get, if_neg hx]
      · intro k hk
        show w.1.get (k + 1) = _
        rw [w4, if_neg (by omega)]
      · show 0 ≤ (r.1.set j w.2).get _
        rw [hj, Buf.set_get, if_pos rfl]; exact w2
      · intro hh; rw [hj] at hh; omega
      · intro k k1 k2; rw [hj] at k2; omega

theorem costs_runs {nrm : K → R} {T : Trans R} {B : CS K} (h : In nrm B) (junk : Nat → R) :
    Runs (costs nrm T B junk) fun r => r.1.size = B.psize + 1 ∧ r.2.size = B.nnz + 1 ∧ ∀ j, j < B.psize → Costed nrm T B r.1 r.2 j := by
  unfold costs
  refine forUp_runs' (fun j (r : Buf R × Buf (D R)) => r.1.size = B.psize + 1 ∧ r.2.size = B.nnz + 1 ∧ ∀ x, x + 1 < j → Costed nrm T B r.1 r.2 x)
    (by omega) ⟨rfl, rfl, fun x hx => by omega⟩ ?_ ?_
  · rintro j r a b ⟨r1, r2, r3⟩
    refine (costBody_runs h a (by omega) r1 r2).mono ?_
    rintro r' ⟨e1, e2, e3, e4, e5⟩
    refine ⟨e1, e2, fun x hx => ?_⟩
    by_cases e : x + 1 = j
    · rw [show x = j - 1 by omega]; exact e5
    · have hc := r3 x (by omega)
      have hmx : r'.1.get (x + 1) = r.1.get (x + 1) := e3 (x + 1) e
      refine ⟨by rw [hmx]; exact hc.nonneg, by rw [hmx]; exact hc.pos, fun k k1 k2 => ?_⟩
      rw [hmx, e4 k, hc.cost k k1 k2]
      have := h.mono (i := x + 1) (j := j - 1) (by omega) (by omega)
      omega
  · rintro r ⟨r1, r2, r3⟩
    exact ⟨r1, r2, fun j hj => r3 j (by omega)⟩

/-- The matrix handed to the kernel is valid. -/
theorem In.mat {nrm : K → R} {T : Trans R} {B : CS K} (h : In nrm B) {mx : Buf R} {a : Buf (D R)} (hs : a.size = B.nnz + 1)
    (hc : ∀ j, j < B.psize → Costed nrm T B mx a j) : (Mat.mk B.psize (ipOf B) (irnOf B) a).OK B.nnz := by
  have hnz := h.nnz
  have hwf := h.wf
  have hsz := h.ssz
  have hsq := h.sq
  have c1 := hwf.nnz_inds
  have hline : ∀ k, k < B.start.get B.psize → ∃ i, i < B.psize ∧ B.start.get i ≤ k ∧ k < B.start.get (i + 1) := by
    intro k hk
    have key : ∀ m, m ≤ B.psize → k < B.start.get m → ∃ i, i < m ∧ B.start.get i ≤ k ∧ k < B.start.get (i + 1) := by
      intro m
      induction m with
      | zero => intro _ h0; rw [hwf.start_zero] at h0; omega
      | succ m ih =>
        intro hm hkm
        rcases Nat.lt_or_ge k (B.start.get m) with g | g
        · obtain ⟨i, i1, i2⟩ := ih (by omega) g
          exact ⟨i, by omega, i2⟩
        · exact ⟨m, by omega, g, hkm⟩
    exact key _ (le_refl _) hk
  refine ⟨?_, ?_, ?_, ?_, ?_, ?_, ?_, ?_, ?_⟩
  · show B.psize + 2 ≤ B.start.size + 1; omega
  · show B.start.get 0 + 1 = 1; rw [hwf.start_zero]
  · intro j a b
    show B.start.get (j - 1) + 1 ≤ B.start.get j + 1
    have := h.mono (i := j - 1) (j := j) (by omega) b
    omega
  · show B.start.get B.psize + 1 = _; omega
  · show B.nnz + 1 ≤ B.inds.size + 1; omega
  · show B.nnz + 1 ≤ a.size; omega
  · intro k a b
    show 1 ≤ B.inds.get (k - 1) + 1 ∧ B.inds.get (k - 1) + 1 ≤ B.psize
    have := hwf.inds_lt (k - 1) (by omega)
    omega
  · intro k a1 b
    obtain ⟨i, i1, i2, i3⟩ := hline (k - 1) (by omega)
    show a.get k ≠ ⊤
    have := (hc i i1).cost (k - 1) i2 i3
    rw [show k - 1 + 1 = k by omega] at this
    rw [this]; exact WithTop.coe_ne_top
  · intro j k k' j1 j2 hk hk' e
    have hk1 : B.start.get (j - 1) + 1 ≤ k ∧ k < B.start.get j + 1 := hk
    have hk2 : B.start.get (j - 1) + 1 ≤ k' ∧ k' < B.start.get j + 1 := hk'
    have e' : B.inds.get (k - 1) + 1 = B.inds.get (k' - 1) + 1 := e
    have hj : j - 1 + 1 = j := by omega
    have j2b : j ≤ B.psize := j2
    have := h.inj (j - 1) (by omega) (k - 1) (k' - 1) (by omega) (by rw [hj]; omega) (by omega) (by rw [hj]; omega) (by omega)
    omega

theorem shiftDual_runs {T : Trans R} {n num : Nat} {mx : Buf R} {d : Buf (D R)} (hm : mx.size = n + 1) (hd : d.size = n + 1)
    (hf : ∀ j, 1 ≤ j → j ≤ n → d.get j ≠ ⊤) :
    Runs (shiftDual T n num mx d) fun d' => d'.size = n + 1 ∧ (∀ j, 1 ≤ j → j ≤ n → d'.get j ≠ ⊤) ∧
      (num = n → ∀ j, 1 ≤ j → j ≤ n → mx.get j ≠ 0 → val d' j = val d j - T.log (mx.get j)) := by
  unfold shiftDual
  split
  · refine forUp_runs' (fun j (d' : Buf (D R)) => d'.size = n + 1 ∧ (∀ x, 1 ≤ x → x ≤ n → d'.get x ≠ ⊤) ∧ (∀ x, j ≤ x → d'.get x = d.get x) ∧
      ∀ x, 1 ≤ x → x < j → mx.get x ≠ 0 → val d' x = val d x - T.log (mx.get x)) (by omega)
      ⟨hd, hf, fun _ _ => rfl, fun x a b => by omega⟩ ?_ ?_
    · rintro j d' a b ⟨d1, d2, d3, d4⟩
      simp only [runs_bind, runs_rd1]
      refine ⟨by omega, by omega, ?_⟩
      split
      · rename_i hne
        simp only [runs_bind, runs_rd1]
        refine ⟨by omega, by omega, ?_⟩
        have hj := d2 j a (by omega)
        rw [val_eq hj, fsub_coe]
        simp only [runs_pure, runs_wr1]
        refine ⟨by omega, by omega, by rw [Buf.set_size]; exact d1, ?_, ?_, ?_⟩
        · intro x a1 b1
          rw [Buf.set_get]
          split
          · exact WithTop.coe_ne_top
          · exact d2 x a1 b1
        · intro x hx
          rw [Buf.set_get, if_neg (by omega)]; exact d3 x (by omega)
        · intro x a1 b1 hx
          unfold val
          rw [Buf.set_get]
          by_cases e : x = j
          · rw [if_pos e, e, ← d3 j (le_refl _)]; rfl
          · rw [if_neg e]; exact d4 x a1 (by omega) hx
      · rename_i hz
        simp only [runs_wr1]
        refine ⟨by omega, by omega, by rw [Buf.set_size]; exact d1, ?_, ?_, ?_⟩
        · intro x a1 b1
          rw [Buf.set_get]
          split
          · exact WithTop.coe_ne_top
          · exact d2 x a1 b1
        · intro x hx
          rw [Buf.set_get, if_neg (by omega)]; exact d3 x (by omega)
        · intro x a1 b1 hx
          by_cases e : x = j
          · exact absurd hx (by rw [e]; exact hz)
          · unfold val
            rw [Buf.set_get, if_neg e]; exact d4 x a1 (by omega) hx
    · rintro d' ⟨d1, d2, d3, d4⟩
      exact ⟨d1, d2, fun _ j a b => d4 j a (by omega)⟩
  · rename_i hn
    rw [runs_pure]
    exact ⟨hd, hf, fun h => absurd h hn⟩

theorem flag_runs {n num : Nat} {u d : Buf (D R)} (hu : u.size = n + 1) (hd : d.size = n + 1) (fu : ∀ j, 1 ≤ j → j ≤ n → u.get j ≠ ⊤)
    (fd : ∀ j, 1 ≤ j → j ≤ n → d.get j ≠ ⊤) : Runs (flag n num u d) fun f => f = if num < n then 1 else 0 := by
  unfold flag
  simp only [runs_bind]
  refine forUp_runs' (fun _ f => f = 0) (by omega) rfl ?_ ?_
  · rintro j f a b rfl
    rw [if_neg (by decide)]
    simp only [runs_bind, runs_rd1, runs_pure]
    refine ⟨by omega, by omega, by omega, by omega, ?_⟩
    rw [if_pos ⟨lt_top_iff_ne_top.2 (fu j a (by omega)), lt_top_iff_ne_top.2 (fd j a (by omega))⟩]
  · rintro f rfl
    rw [runs_pure]
    simp

theorem expAll_runs {T : Trans R} {n : Nat} {u : Buf (D R)} (hu : u.size = n + 1) (fu : ∀ j, 1 ≤ j → j ≤ n → u.get j ≠ ⊤) :
    Runs (expAll T n u) fun s => s.size = n ∧ ∀ i, i < n → s.get i = T.exp (val u (i + 1)) := by
  unfold expAll
  refine forUp_runs' (fun i (s : Buf R) => s.size = n ∧ ∀ x, x < i → s.get x = T.exp (val u (x + 1))) (by omega) ⟨rfl, fun x hx => by omega⟩ ?_ (fun s h => h)
  rintro i s a b ⟨s1, s2⟩
  simp only [runs_bind, runs_rd1]
  refine ⟨by omega, by omega, ?_⟩
  rw [val_eq (fu (i + 1) (by omega) (by omega))]
  show Runs (s.wr i (T.exp (val u (i + 1)))) _
  rw [runs_wr]
  refine ⟨by omega, by rw [Buf.set_size]; exact s1, fun x hx => ?_⟩
  rw [Buf.set_get]
  by_cases e : x = i
  · rw [if_pos e, e]
  · rw [if_neg e]; exact s2 x (by omega)

/-- The length condition of the lines, counted from 0. -/
def ShortLines (B : CS K) : Prop := ∀ i, i < B.psize → min (B.start.get (i + 1) - B.start.get i) (B.psize - 1) ≤ B.psize - B.psize / 2

/-- A perfect matching of the pattern: a permutation `σ` with an entry in column `σ i` of every line `i`. -/
def Matching (B : CS K) (σ : Nat → Nat) : Prop :=
  Spec.IsPerm B.psize σ ∧ ∀ i, i < B.psize → ∃ k, B.start.get i ≤ k ∧ k < B.start.get (i + 1) ∧ B.inds.get k = σ i

/-- What the matching returns. -/
structure DOut (nrm : K → R) (B : CS K) (o : Pre.MatchOut R) : Prop where
  psz : o.perm.size = B.psize
  ssz : o.s.size = B.psize
  tsz : o.t.size = B.psize
  perm : Spec.IsPerm B.psize fun i => (o.perm.get i).natAbs - 1
  rng : ∀ i, i < B.psize → 1 ≤ (o.perm.get i).natAbs ∧ (o.perm.get i).natAbs ≤ B.psize
  pos : ∀ i, i < B.psize → 0 < o.s.get i ∧ 0 < o.t.get i
  info : o.info = 0 ∨ o.info = 1
  full : o.info = 0 → ∀ i, i < B.psize → 0 < o.perm.get i
  sing : o.info = 0 ↔ ∃ σ, Matching B σ
  ent : ∀ i, i < B.psize → 0 < o.perm.get i → ∃ k, B.start.get ((o.perm.get i).natAbs - 1) ≤ k ∧ k < B.start.get ((o.perm.get i).natAbs - 1 + 1) ∧
    B.inds.get k = i ∧ (o.info = 0 → nrm (B.vals.get k) * o.t.get ((o.perm.get i).natAbs - 1) * o.s.get i = 1)
  le : o.info = 0 → ∀ i k, i < B.psize → B.start.get i ≤ k → k < B.start.get (i + 1) → nrm (B.vals.get k) * o.t.get i * o.s.get (B.inds.get k) ≤ 1
  rank : ∀ (X : Finset Nat) (f : Nat → Nat), (∀ i ∈ X, i < B.psize ∧ ∃ k, B.start.get i ≤ k ∧ k < B.start.get (i + 1) ∧ B.inds.get k = f i) →
    (∀ i ∈ X, ∀ i' ∈ X, f i = f i' → i = i') → X.card ≤ ((Finset.range B.psize).filter fun i => 0 < o.perm.get i).card

theorem TransOK.zero {T : Trans R} (h : TransOK T) : T.exp 0 = 1 := by
  have := h.add 0 0
  rw [add_zero] at this
  exact (mul_eq_left₀ (ne_of_gt (h.pos 0))).1 this.symm

theorem In.short {nrm : K → R} {B : CS K} (h : In nrm B) (hS : ShortLines B) (a : Buf (D R)) : Short (Mat.mk B.psize (ipOf B) (irnOf B) a) := by
  intro j j1 j2
  have j3 : j ≤ B.psize := j2
  have := hS (j - 1) (by omega)
  rw [show j - 1 + 1 = j by omega] at this
  have e : (ipOf B).get (j + 1) - (ipOf B).get j = B.start.get j - B.start.get (j - 1) := by
    show (B.start.get j + 1) - (B.start.get (j - 1) + 1) = _
    omega
  show min ((ipOf B).get (j + 1) - (ipOf B).get j) (B.psize - 1) ≤ B.psize - B.psize / 2
  rw [e]; exact this

theorem pos_of_full {n num : Nat} {p : Buf Int} (hn : num = ((Finset.Icc 1 n).filter fun i => 0 < p.get i).card) (h : num = n) :
    ∀ i, 1 ≤ i → i ≤ n → 0 < p.get i := by
  intro i a b
  have hc : ((Finset.Icc 1 n).filter fun i => 0 < p.get i) = Finset.Icc 1 n := by
    apply Finset.eq_of_subset_of_card_le (Finset.filter_subset _ _)
    rw [← hn, h]; simp
  have : i ∈ (Finset.Icc 1 n).filter fun i => 0 < p.get i := by rw [hc, Finset.mem_Icc]; exact ⟨a, b⟩
  exact (Finset.mem_filter.1 this).2

theorem compute_runs {nrm : K → R} {T : Trans R} (hT : TransOK T) {B : CS K} (h : In nrm B) (hS : ShortLines B) (hne : 0 < B.nnz)
    (junk : Nat → R) (junkI : Nat → Nat) : Runs (compute nrm T junk junkI B) fun o => DOut nrm B o := by
  have hn : 1 ≤ B.psize := by
    have := h.nnz
    rcases Nat.eq_zero_or_pos B.psize with e | e
    · rw [e, h.wf.start_zero] at this; omega
    · exact e
  unfold compute
  rw [if_neg (by omega), if_neg (by omega)]
  simp only [runs_bind]
  refine (costs_runs (T := T) h junk).mono ?_
  rintro ⟨mx, a⟩ ⟨r1, r2, r3⟩
  simp only at r1 r2 r3 ⊢
  have hmat := h.mat r2 r3
  refine (kernel_runs hmat (h.short hS a) junkI).mono ?_
  rintro o ⟨ho, hd⟩
  have hdz : o.d.size = B.psize + 1 := ho.dsz
  refine (shiftDual_runs (num := o.num) r1 hdz ho.dfin).mono ?_
  rintro d ⟨d1, d2, d3⟩
  refine (flag_runs (n := B.psize) (num := o.num) ho.usz d1 ho.ufin d2).mono ?_
  rintro f hf
  refine (expAll_runs (T := T) ho.usz ho.ufin).mono ?_
  rintro s ⟨s1, s2⟩
  refine (expAll_runs (T := T) d1 d2).mono ?_
  rintro t ⟨t1, t2⟩
  rw [runs_pure]
  have hpn : o.num ≤ B.psize := by
    rw [ho.num]
    refine le_trans (Finset.card_filter_le _ _) ?_
    simp
  have hfn : f = 0 ↔ o.num = B.psize := by
    rw [hf]
    split
    · constructor
      · intro e; cases e
      · intro e; omega
    · constructor
      · intro _; omega
      · intro _; rfl
  have hall : o.num = B.psize → ∀ i, 1 ≤ i → i ≤ B.psize → 0 < o.perm.get i := fun e => pos_of_full ho.num e
  have hperm : Spec.IsPerm B.psize fun i => (o.perm.get (i + 1)).natAbs - 1 := by
    refine ⟨fun i hi => ?_, fun i j hi hj e => ?_⟩
    · have := ho.rng (i + 1) (by omega) (by show i + 1 ≤ B.psize; omega)
      have h2 : (o.perm.get (i + 1)).natAbs ≤ B.psize := this.2
      show (o.perm.get (i + 1)).natAbs - 1 < B.psize
      omega
    · have h1 := ho.rng (i + 1) (by omega) (by show i + 1 ≤ B.psize; omega)
      have h2 := ho.rng (j + 1) (by omega) (by show j + 1 ≤ B.psize; omega)
      have e' : (o.perm.get (i + 1)).natAbs - 1 = (o.perm.get (j + 1)).natAbs - 1 := e
      have := ho.inj (i + 1) (j + 1) (by omega) (by show i + 1 ≤ B.psize; omega) (by omega) (by show j + 1 ≤ B.psize; omega) (by omega)
      omega
  -- the product of a scaled entry
  have key : ∀ i k, o.num = B.psize → i < B.psize → B.start.get i ≤ k → k < B.start.get (i + 1) →
      nrm (B.vals.get k) * t.get i * s.get (B.inds.get k) = T.exp (val o.u (B.inds.get k + 1) + val o.d (i + 1) - val a (k + 1)) := by
    intro i k e hi k1 k2
    have hc := r3 i hi
    have hp := hc.pos (by omega)
    have hkn : k < B.start.get B.psize := lt_of_lt_of_le k2 (h.mono (by omega) (le_refl _))
    have hv := h.pos k hkn
    have hlt := h.wf.inds_lt k hkn
    rw [h.sq] at hlt
    have hva : val a (k + 1) = T.log (mx.get (i + 1)) - T.log (nrm (B.vals.get k)) := by
      unfold val; rw [hc.cost k k1 k2]; rfl
    rw [t2 i hi, s2 _ hlt, d3 e (i + 1) (by omega) (by omega) (ne_of_gt hp)]
    conv_lhs => rw [← hT.inv _ hv]
    rw [← hT.add, ← hT.add]
    congr 1
    rw [hva]
    linarith
  have hent : ∀ i, i < B.psize → 0 < o.perm.get (i + 1) → ∃ k, B.start.get ((o.perm.get (i + 1)).natAbs - 1) ≤ k ∧
      k < B.start.get ((o.perm.get (i + 1)).natAbs - 1 + 1) ∧ B.inds.get k = i ∧
      val o.u (i + 1) + val o.d ((o.perm.get (i + 1)).natAbs - 1 + 1) = val a (k + 1) := by
    intro i hi hp
    have hr := ho.rng (i + 1) (by omega) (by show i + 1 ≤ B.psize; omega)
    obtain ⟨k, k1, k2, k3⟩ := ho.ent (i + 1) (by omega) (by show i + 1 ≤ B.psize; omega) hp
    have k1' : B.start.get ((o.perm.get (i + 1)).natAbs - 1) + 1 ≤ k ∧ k < B.start.get ((o.perm.get (i + 1)).natAbs + 1 - 1) + 1 := k1
    have k2' : B.inds.get (k - 1) + 1 = i + 1 := k2
    have e1 : (o.perm.get (i + 1)).natAbs - 1 + 1 = (o.perm.get (i + 1)).natAbs := by omega
    have e2 : (o.perm.get (i + 1)).natAbs + 1 - 1 = (o.perm.get (i + 1)).natAbs := by omega
    rw [e2] at k1'
    refine ⟨k - 1, by omega, by rw [e1]; omega, by omega, ?_⟩
    rw [e1, show k - 1 + 1 = k by omega]
    exact k3
  refine ⟨rfl, s1, t1, hperm, fun i hi => ho.rng (i + 1) (by omega) (by show i + 1 ≤ B.psize; omega), ?_, ?_, ?_, ?_, ?_, ?_, ?_⟩
  · intro i hi
    show 0 < s.get i ∧ 0 < t.get i
    rw [s2 i hi, t2 i hi]
    exact ⟨hT.pos _, hT.pos _⟩
  · show f = 0 ∨ f = 1
    rw [hf]; split
    · right; rfl
    · left; rfl
  · intro e i hi
    exact hall (hfn.1 e) (i + 1) (by omega) (by omega)
  · show f = 0 ↔ _
    rw [hfn]
    constructor
    · intro e
      have hs : ∀ j, ∃ i, j < B.psize → i < B.psize ∧ (o.perm.get (i + 1)).natAbs - 1 = j := by
        intro j
        by_cases hj : j < B.psize
        · obtain ⟨i, i1, i2⟩ := Spec.isPerm_surj hperm hj
          exact ⟨i, fun _ => ⟨i1, i2⟩⟩
        · exact ⟨0, fun h => absurd h hj⟩
      choose g hg using hs
      refine ⟨g, ⟨fun j hj => (hg j hj).1, fun j j' hj hj' e' => ?_⟩, fun j hj => ?_⟩
      · rw [← (hg j hj).2, ← (hg j' hj').2, e']
      · obtain ⟨k, k1, k2, k3, -⟩ := hent (g j) (hg j hj).1 (hall e (g j + 1) (by omega) (hg j hj).1)
        rw [(hg j hj).2] at k1 k2
        exact ⟨k, k1, k2, k3⟩
    · rintro ⟨σ, σ1, σ2⟩
      have hP : Perfect (Mat.mk B.psize (ipOf B) (irnOf B) a) (fun j => σ (j - 1) + 1) := ?_
      · have h1 : B.psize ≤ o.num := hP.le hd
        omega
      · refine ⟨?_, ?_⟩
        · intro j j1 j2
          have j3 : j ≤ B.psize := j2
          obtain ⟨k, k1, k2, k3⟩ := σ2 (j - 1) (by omega)
          rw [show j - 1 + 1 = j by omega] at k2
          refine ⟨k + 1, ⟨?_, ?_⟩, ?_⟩
          · show B.start.get (j - 1) + 1 ≤ k + 1; omega
          · show k + 1 < B.start.get j + 1; omega
          · show B.inds.get k + 1 = σ (j - 1) + 1; rw [k3]
        · intro j j' j1 j2 j3 j4 e
          have j2' : j ≤ B.psize := j2
          have j4' : j' ≤ B.psize := j4
          have e' : σ (j - 1) + 1 = σ (j' - 1) + 1 := e
          have := σ1.2 (j - 1) (j' - 1) (by omega) (by omega) (by omega)
          omega
  · intro i hi hp
    obtain ⟨k, k1, k2, k3, k4⟩ := hent i hi hp
    refine ⟨k, k1, k2, k3, fun e => ?_⟩
    have hq := hperm.1 i hi
    have := key _ k (hfn.1 e) hq k1 k2
    rw [k3] at this
    show nrm (B.vals.get k) * t.get ((o.perm.get (i + 1)).natAbs - 1) * s.get i = 1
    rw [this, k4, sub_self, hT.zero]
  · intro e i k hi k1 k2
    have hkn : k < B.start.get B.psize := lt_of_lt_of_le k2 (h.mono (by omega) (le_refl _))
    have hlt := h.wf.inds_lt k hkn
    rw [h.sq] at hlt
    show nrm (B.vals.get k) * t.get i * s.get (B.inds.get k) ≤ 1
    rw [key i k (hfn.1 e) hi k1 k2, ← hT.zero]
    apply hT.mono
    have hap := hall (hfn.1 e)
    obtain ⟨i', i1, i2⟩ := Spec.isPerm_surj hperm hi
    have hr := ho.rng (i' + 1) (by omega) (by show i' + 1 ≤ B.psize; omega)
    have i2' : (o.perm.get (i' + 1)).natAbs - 1 = i := i2
    have hp' := hap (i' + 1) (by omega) (by omega)
    have := ho.feas (B.inds.get k + 1) (i + 1) (k + 1) (by omega) (by show B.inds.get k + 1 ≤ B.psize; omega) (hap _ (by omega) (by omega)) (by omega)
      (by show i + 1 ≤ B.psize; omega) ⟨i' + 1, by omega, by show i' + 1 ≤ B.psize; omega, by omega⟩
      ⟨by show B.start.get i + 1 ≤ k + 1; omega, by show k + 1 < B.start.get (i + 1) + 1; omega⟩ rfl
    have h3 : val o.u (B.inds.get k + 1) + val o.d (i + 1) ≤ val a (k + 1) := this
    linarith
  · intro X f hX hf
    have h1 := hd (X.image (· + 1)) (fun j => f (j - 1) + 1) ?_ ?_
    · rw [Finset.card_image_of_injective _ (fun a b e => Nat.succ_injective e), ho.num] at h1
      refine le_trans h1 ?_
      refine Finset.card_le_card_of_injOn (· - 1) ?_ ?_
      · intro i hi
        rw [Finset.mem_coe, Finset.mem_filter, Finset.mem_Icc] at hi
        have hi2 : i ≤ B.psize := hi.1.2
        rw [Finset.mem_coe, Finset.mem_filter, Finset.mem_range]
        refine ⟨by show i - 1 < _; omega, ?_⟩
        show 0 < o.perm.get (i - 1 + 1)
        rw [show i - 1 + 1 = i by omega]; exact hi.2
      · intro i hi i' hi' e
        rw [Finset.mem_coe, Finset.mem_filter, Finset.mem_Icc] at hi hi'
        have e' : i - 1 = i' - 1 := e
        omega
    · intro j hj
      rw [Finset.mem_image] at hj
      obtain ⟨x, hx, rfl⟩ := hj
      obtain ⟨x1, k, k1, k2, k3⟩ := hX x hx
      refine ⟨by omega, by show x + 1 ≤ B.psize; omega, k + 1, ⟨?_, ?_⟩, ?_⟩
      · show B.start.get x + 1 ≤ k + 1; omega
      · show k + 1 < B.start.get (x + 1) + 1; omega
      · show B.inds.get k + 1 = f x + 1; rw [k3]
    · intro j hj j' hj' e
      rw [Finset.mem_image] at hj hj'
      obtain ⟨x, hx, rfl⟩ := hj
      obtain ⟨y, hy, rfl⟩ := hj'
      have e' : f x + 1 = f y + 1 := e
      rw [hf x hx y hy (by omega)]

end
end Mc64
end Hif
