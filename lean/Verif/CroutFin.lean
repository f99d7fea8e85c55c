import Verif.CroutStep

set_option linter.unusedVariables false
set_option linter.unusedSectionVars false
set_option linter.unusedSimpArgs false

/-!
# Start and end of the Crout phase (proofs)
-/

namespace Hif.Crout
open Finset
variable {K : Type _} [Field K] [DecidableEq K] {R : Type _} [LinearOrder R]
variable {pr : Par K R} {I : In K} {ΦU ΦL : Nat → Nat → Prop}

theorem lowerBound_runs (inds : Buf Nat) (v : Nat) (n : Nat) : ∀ lo, lo + n ≤ inds.size →
    (∀ k l, lo ≤ k → k < l → l < lo + n → inds.get k < inds.get l) →
    Runs (lowerBound inds v n lo) fun pos => lo ≤ pos ∧ pos ≤ lo + n ∧ (∀ k, lo ≤ k → k < pos → inds.get k < v) ∧
      ∀ k, pos ≤ k → k < lo + n → v ≤ inds.get k := by
  induction n with
  | zero =>
    intro lo h1 h2
    rw [lowerBound, runs_pure]
    exact ⟨le_refl _, by omega, fun k _ _ => by omega, fun k _ _ => by omega⟩
  | succ n ih =>
    intro lo h1 h2
    rw [lowerBound]
    simp only [runs_bind, runs_rd, runs_ite, runs_pure]
    refine ⟨by omega, ?_⟩
    by_cases hlt : inds.get lo < v
    · rw [if_pos hlt]
      refine (ih (lo + 1) (by omega) (fun k l a b c => h2 k l (by omega) b (by omega))).mono ?_
      rintro pos ⟨p1, p2, p3, p4⟩
      refine ⟨by omega, by omega, fun k k1 k2 => ?_, fun k k1 k2 => p4 k k1 (by omega)⟩
      by_cases e : k = lo
      · rw [e]; exact hlt
      · exact p3 k (by omega) k2
    · rw [if_neg hlt]
      refine ⟨le_refl _, by omega, fun k _ _ => by omega, fun k k1 k2 => ?_⟩
      by_cases e : k = lo
      · rw [e]; omega
      · have := h2 lo k (le_refl _) (by omega) k2; omega

/-- The diagonal entry found by binary search is the matrix entry. -/
theorem permDiagAt_runs (hI : InOK I) {i : Nat} (hi : i < I.n) : Runs (permDiagAt I i) fun v => v = I.B i i := by
  have hp := (hI.pinv.1 i hi).1
  have hq := (hI.qinv.1 i hi).1
  have hss := hI.cwf.start_size
  rw [hI.cp] at hss
  have hmono := hI.cwf.mono (I.q0.get i) (by rw [hI.cp]; exact hq)
  have hle : I.Accs.start.get (I.q0.get i + 1) ≤ I.Accs.inds.size ∧ I.Accs.start.get (I.q0.get i + 1) ≤ I.Accs.vals.size := by
    have hb : ∀ j, j ≤ I.n → I.Accs.start.get j ≤ I.Accs.start.get I.n := by
      intro j hj
      obtain ⟨t, he⟩ : ∃ t, I.n = j + t := ⟨I.n - j, by omega⟩
      have : ∀ t, j + t ≤ I.n → I.Accs.start.get j ≤ I.Accs.start.get (j + t) := by
        intro t
        induction t with
        | zero => intro _; exact le_refl _
        | succ t ih =>
          intro ht
          exact le_trans (ih (by omega)) (hI.cwf.mono (j + t) (by rw [hI.cp]; omega))
      have h9 := this t (by omega)
      rw [← he] at h9; exact h9
    have h1 := hb (I.q0.get i + 1) (by omega)
    have h2 := hI.cwf.nnz_inds
    have h3 := hI.cwf.nnz_vals
    rw [hI.cp] at h2 h3
    omega
  have hB : I.B i i = I.s.get (I.p0.get i) * I.Accs.entry (I.q0.get i) (I.p0.get i) * I.t.get (I.q0.get i) := by
    unfold In.B; rw [hI.same _ _ hp hq]
  unfold permDiagAt
  simp only [runs_bind, runs_rd]
  rw [hI.qsz, hI.psz]
  refine ⟨hi, hi, by omega, by omega, ?_⟩
  refine (lowerBound_runs I.Accs.inds (I.p0.get i) _ _ (by omega) ?_).mono ?_
  · intro k l h1 h2 h3
    exact hI.csorted (I.q0.get i) (by rw [hI.cp]; exact hq) k l ⟨h1, by omega⟩ ⟨by omega, by omega⟩ h2
  rintro pos ⟨p1, p2, p3, p4⟩
  have hzero : (∀ k, I.Accs.start.get (I.q0.get i) ≤ k → k < I.Accs.start.get (I.q0.get i + 1) → I.Accs.inds.get k ≠ I.p0.get i) →
      I.B i i = 0 := by
    intro hz
    rw [hB]
    unfold CS.entry
    rw [sum_eq_zero, mul_zero, zero_mul]
    intro k hk
    rw [mem_Ico] at hk
    rw [if_neg (hz k hk.1 hk.2)]
  simp only [runs_ite, runs_pure, runs_bind, runs_rd]
  by_cases hpos : pos ≠ I.Accs.start.get (I.q0.get i + 1)
  · rw [if_pos hpos]
    refine ⟨by omega, ?_⟩
    by_cases he : I.Accs.inds.get pos = I.p0.get i
    · rw [if_pos he, hI.ssz, hI.tsz]
      refine ⟨by omega, hp, hq, ?_⟩
      rw [hB]
      congr 2
      unfold CS.entry
      rw [sum_eq_single pos, if_pos he]
      · intro k hk hne
        rw [mem_Ico] at hk
        rw [if_neg]
        intro hc
        have hs := hI.csorted (I.q0.get i) (by rw [hI.cp]; exact hq)
        rcases Nat.lt_or_ge k pos with h1 | h1
        · have := hs k pos ⟨hk.1, hk.2⟩ ⟨p1, by omega⟩ h1; omega
        · have := hs pos k ⟨p1, by omega⟩ ⟨hk.1, hk.2⟩ (by omega); omega
      · intro hn; exact absurd (mem_Ico.2 ⟨p1, by omega⟩) hn
    · rw [if_neg he]
      refine (hzero fun k k1 k2 hc => ?_).symm
      rcases Nat.lt_or_ge k pos with h1 | h1
      · have := p3 k k1 h1; omega
      · by_cases e : k = pos
        · rw [e] at hc; exact he hc
        · have h5 := p4 pos (le_refl _) (by omega)
          have := hI.csorted (I.q0.get i) (by rw [hI.cp]; exact hq) pos k ⟨p1, by omega⟩ ⟨k1, k2⟩ (by omega)
          omega
  · rw [if_neg hpos]
    rw [not_not] at hpos
    refine (hzero fun k k1 k2 hc => ?_).symm
    have := p3 k k1 (by omega); omega

theorem permDiag_runs [Inhabited K] (hI : InOK I) :
    Runs (permDiag I) fun d => d.size = I.m2 ∧ ∀ i, i < I.m2 → d.get i = I.B i i := by
  have hmle := hI.mle
  unfold permDiag
  rw [if_neg (by rw [hI.cs, hI.cp]; omega)]
  refine forUp_runs' (fun k d => d.size = I.m2 ∧ ∀ i, i < k → d.get i = I.B i i) (Nat.zero_le _)
    ⟨rfl, fun i hi => by omega⟩ ?_ (fun _ q => q)
  rintro k d - hk ⟨d1, d2⟩
  rw [runs_bind]
  refine (permDiagAt_runs hI (by omega)).mono ?_
  rintro v rfl
  simp only [runs_wr, Buf.set_size, Buf.set_get]
  refine ⟨by omega, d1, fun i hi => ?_⟩
  by_cases e : i = k
  · rw [if_pos e, e]
  · rw [if_neg e]; exact d2 i (by omega)

theorem widen_runs (n : Nat) (p : Buf Nat) (hp : p.size = n) :
    Runs (widen n p) fun P => P.size = 2 * n ∧ ∀ i, i < n → P.get i = some (p.get i) := by
  unfold widen
  refine forUp_runs' (fun k P => P.size = 2 * n ∧ ∀ i, i < k → P.get i = some (p.get i)) (Nat.zero_le _)
    ⟨rfl, fun i hi => by omega⟩ ?_ (fun _ q => q)
  rintro k P - hk ⟨d1, d2⟩
  simp only [runs_bind, runs_rd, runs_wr, Buf.set_size, Buf.set_get]
  refine ⟨by omega, by omega, d1, fun i hi => ?_⟩
  by_cases e : i = k
  · rw [if_pos e, e]
  · rw [if_neg e]; exact d2 i (by omega)

theorem emptySide_side [Inhabited K] {n m2 : Nat} (h : m2 ≤ n) : Side n m2 0 0 (emptySide (K := K) n m2) := by
  refine ⟨by omega, h, ⟨rfl, rfl, fun i hi => by omega, rfl, rfl⟩, rfl, rfl, rfl, rfl, fun i hi => by omega, ?_⟩
  intro j h1 h2
  exact ⟨[], Chain.nil _, List.nodup_nil, fun i => by simp⟩

theorem new_ready [Inhabited K] (N : Nat) : SV.Ready N 0 (SV.new N : SV K) :=
  ⟨rfl, le_refl _, rfl, fun _ => rfl, fun i hi => ⟨by simp [SV.new], fun t ht => by simp [SV.new] at ht⟩⟩

/-- The initial state satisfies the invariant. -/
theorem init_runs [Inhabited K] (hI : InOK I) :
    Runs (init I) fun c => (∃ g, Inv pr I ΦU ΦL c g) ∧ c.step = 0 ∧ c.nDiag + c.nCond = c.defers := by
  have hmle := hI.mle
  unfold init
  simp only [runs_bind]
  refine (permDiag_runs hI).mono ?_
  rintro d ⟨d1, d2⟩
  refine (widen_runs I.n I.p0 hI.psz).mono ?_
  rintro P ⟨P1, P2⟩
  refine (widen_runs I.n I.q0 hI.qsz).mono ?_
  rintro Q ⟨Q1, Q2⟩
  rw [runs_pure]
  refine ⟨⟨⟨fun x => x, fun x => x, fun _ _ => 0, fun _ _ => 0, fun _ _ => 0, fun _ _ => 0⟩, ?_⟩, by tt, by tt⟩
  exact {
    le := by show 0 + 0 ≤ I.m2; omega
    m := rfl
    pos := Pos.init _ _
    perm := ⟨hI.psz, hI.pisz, P1, fun x _ h => by simp at h, fun x _ _ => rfl, fun x hx _ => P2 x hx,
      fun x hx _ => (hI.pinv.1 x hx).2, fun x _ h => by simp at h⟩
    qerm := ⟨hI.qsz, hI.qisz, Q1, fun x _ h => by simp at h, fun x _ _ => rfl, fun x hx _ => Q2 x hx,
      fun x hx _ => (hI.qinv.1 x hx).2, fun x _ h => by simp at h⟩
    U := emptySide_side hmle, L := emptySide_side hmle, dsz := d1, kUsz := rfl, kLsz := rfl
    utR := new_ready _, lR := new_ready _, utsz := rfl, lsz := rfl
    entU := fun h hh => by simp at hh
    entL := fun h hh => by simp at hh
    num := ⟨fun h hh => by simp at hh, fun h hh => by simp at hh, fun j _ hj => by simpa using d2 j hj, fun h hh => by simp at hh,
      fun h hh => by simp at hh, fun h hh => by simp at hh, fun _ h hh => by simp at hh, fun _ h hh => by simp at hh,
      fun h hh => by simp at hh, fun h hh => by simp at hh, fun h hh => by simp at hh⟩
    kapU := fun h hh => by simp at hh
    kapL := fun h hh => by simp at hh
    rulU := fun Ψ _ h hh => by simp at hh
    rulL := fun Ψ _ h hh => by simp at hh
    cntU := fun h hh => by simp at hh
    cntL := fun h hh => by simp at hh }

/-! ### End -/

theorem assignGaps_runs {n k δ : Nat} {v o : Nat → Nat} {p0 p pinv : Buf Nat} {P : Buf (Option Nat)} (h : PermI n k δ v p0 p pinv P)
    (hp : Pos n k δ v o) (hkn : k + δ ≤ n) :
    Runs (assignGaps k δ n P p) fun r => r.size = n ∧
      ∀ x, x < n → r.get (if v x < k then v x else v x - δ) = p0.get x := by
  have hsome : ∀ j, k + δ ≤ j → j < n + δ → ∃ x, x < n ∧ v x = j := by
    intro j h1 h2
    rcases Nat.lt_or_ge j n with h3 | h3
    · exact ⟨j, h3, hp.pend j h1⟩
    · obtain ⟨x, x1, x2⟩ := hp.surj j h3 h2
      exact ⟨x, by omega, x2⟩
  unfold assignGaps
  refine forUp_runs' (fun i r => r.size = n ∧ (∀ j, j < k → r.get j = p.get j) ∧
    ∀ x, x < n → k + δ ≤ v x → v x < i + δ → r.get (v x - δ) = p0.get x) (by omega) ⟨h.psz, fun _ _ => rfl, fun x _ h1 h2 => by omega⟩ ?_ ?_
  · rintro i r h1 h2 ⟨r1, r2, r3⟩
    obtain ⟨x, x1, x2⟩ := hsome (i + δ) (by omega) (by omega)
    have hb := h.big x x1 (by omega)
    rw [x2] at hb
    simp only [runs_bind, runs_rd, hb, runs_wr, Buf.set_size, Buf.set_get]
    refine ⟨by rw [h.Psz]; omega, by omega, r1, fun j hj => by rw [if_neg (by omega)]; exact r2 j hj, fun y hy y1 y2 => ?_⟩
    by_cases e : v y = i + δ
    · rw [if_pos (by omega)]
      rw [hp.inj y x hy x1 (by omega)]
    · rw [if_neg (by omega)]; exact r3 y hy y1 (by omega)
  · rintro r ⟨r1, r2, r3⟩
    refine ⟨r1, fun x hx => ?_⟩
    by_cases e : v x < k
    · rw [if_pos e, r2 _ e]; exact h.kept x hx e
    · rw [if_neg e]
      rcases hp.cases hkn hx with h1 | h1
      · omega
      · exact r3 x hx h1.1 (by omega)

/-- Final place of original position `x`. -/
def place (k δ : Nat) (v : Nat → Nat) (x : Nat) : Nat := if v x < k then v x else v x - δ

theorem place_lt {n k δ : Nat} {v o : Nat → Nat} (hp : Pos n k δ v o) (hkn : k + δ ≤ n) {x : Nat} (hx : x < n) :
    place k δ v x < n := by
  unfold place
  rcases hp.cases hkn hx with h1 | h1
  · rw [if_pos h1]; omega
  · rw [if_neg (by omega)]; omega

theorem place_inj {n k δ : Nat} {v o : Nat → Nat} (hp : Pos n k δ v o) (hkn : k + δ ≤ n) {x y : Nat} (hx : x < n) (hy : y < n)
    (e : place k δ v x = place k δ v y) : x = y := by
  refine hp.inj x y hx hy ?_
  unfold place at e
  rcases hp.cases hkn hx with h1 | h1 <;> rcases hp.cases hkn hy with h2 | h2
  · rw [if_pos h1, if_pos h2] at e; exact e
  · rw [if_pos h1, if_neg (by omega)] at e; omega
  · rw [if_pos h2, if_neg (by omega)] at e; omega
  · rw [if_neg (by omega), if_neg (by omega)] at e; omega

/-- An injective self-map of `[0,n)` is onto. -/
theorem isPerm_surj {n : Nat} {f : Nat → Nat} (h : Spec.IsPerm n f) {j : Nat} (hj : j < n) : ∃ x, x < n ∧ f x = j := by
  have h1 : (range n).image f = range n := by
    refine eq_of_subset_of_card_le (fun y hy => ?_) ?_
    · obtain ⟨x, hx, rfl⟩ := mem_image.1 hy
      exact mem_range.2 (h.1 x (mem_range.1 hx))
    · rw [card_image_of_injOn]
      intro x hx y hy e
      exact h.2 x y (by simpa using hx) (by simpa using hy) e
  obtain ⟨x, hx, e⟩ := mem_image.1 (h1 ▸ mem_range.2 hj)
  exact ⟨x, mem_range.1 hx, e⟩

theorem place_perm {n k δ : Nat} {v o : Nat → Nat} (hp : Pos n k δ v o) (hkn : k + δ ≤ n) : Spec.IsPerm n (place k δ v) :=
  ⟨fun x hx => place_lt hp hkn hx, fun x y hx hy e => place_inj hp hkn hx hy e⟩

theorem globalStart_runs {k : Nat} {T : CS K} (hT : k ≤ T.start.size) (st : Buf Nat) (hst : k ≤ st.size) :
    Runs (globalStart T st k) fun r => r.size = st.size ∧ ∀ i, i < k → r.get i = T.start.get i + st.get i := by
  unfold globalStart
  refine forUp_runs' (fun j r => r.size = st.size ∧ (∀ i, i < j → r.get i = T.start.get i + st.get i) ∧
    ∀ i, j ≤ i → r.get i = st.get i) (Nat.zero_le _) ⟨rfl, fun i hi => by omega, fun _ _ => rfl⟩ ?_ (fun r q => ⟨q.1, q.2.1⟩)
  rintro j r - hj ⟨r1, r2, r3⟩
  simp only [runs_bind, runs_rd, runs_wr, Buf.set_size, Buf.set_get]
  refine ⟨by omega, by omega, by omega, r1, fun i hi => ?_, fun i hi => ?_⟩
  · by_cases e : i = j
    · rw [if_pos e, e, r3 j (le_refl _), add_comm]
    · rw [if_neg e]; exact r2 i (by omega)
  · rw [if_neg (by omega)]; exact r3 i (by omega)

/-- Subtract the number of deferrals from tail indices. -/
theorem compressTail_runs {k δ : Nat} {T : CS K} (hT : Asm k T) (st : Buf Nat) (hsz : k ≤ st.size)
    (hst : ∀ i, i < k → T.start.get i ≤ st.get i ∧ st.get i ≤ T.start.get (i + 1)) :
    Runs (compressTail T st k δ) fun r => r.psize = T.psize ∧ r.ssize = T.ssize / 2 ∧ r.start = T.start ∧ r.vals = T.vals ∧
      r.inds.size = T.inds.size ∧
      ∀ i, i < k → ∀ p, T.start.get i ≤ p → p < T.start.get (i + 1) →
        r.inds.get p = if st.get i ≤ p then T.inds.get p - δ else T.inds.get p := by
  unfold compressTail
  by_cases hδ : δ ≠ 0
  · rw [if_pos hδ, runs_bind]
    refine (forUp_runs' (Q := fun w => w.size = T.inds.size ∧ ∀ i, i < k → ∀ p, T.start.get i ≤ p → p < T.start.get (i + 1) →
        w.get p = if st.get i ≤ p then T.inds.get p - δ else T.inds.get p) (fun j w => w.size = T.inds.size ∧
        (∀ i, i < j → ∀ p, T.start.get i ≤ p → p < T.start.get (i + 1) →
          w.get p = if st.get i ≤ p then T.inds.get p - δ else T.inds.get p) ∧
        ∀ p, T.start.get j ≤ p → w.get p = T.inds.get p) (Nat.zero_le _) ⟨rfl, fun i hi => by omega, fun _ _ => rfl⟩ ?_
        (fun w q => ⟨q.1, q.2.1⟩)).mono ?_
    · rintro j w - hj ⟨w1, w2, w3⟩
      have hss := hT.ssz
      obtain ⟨s1, s2⟩ := hst j hj
      simp only [runs_bind, runs_rd]
      refine ⟨by omega, by omega, ?_⟩
      refine forUp_runs' (fun q w' => w'.size = T.inds.size ∧ ∀ p, w'.get p =
        if st.get j ≤ p ∧ p < q then w.get p - δ else w.get p) s2 ⟨w1, fun p => by rw [if_neg (by omega)]⟩ ?_ ?_
      · rintro q w' q1 q2 ⟨v1, v2⟩
        have := (hT.lt_size hj q2).1
        simp only [runs_bind, runs_rd, runs_wr, Buf.set_size, Buf.set_get]
        refine ⟨by omega, by omega, v1, fun p => ?_⟩
        by_cases e : p = q
        · rw [if_pos e, e, v2, if_neg (by omega), if_pos (by omega)]
        · rw [if_neg e, v2]
          by_cases c : st.get j ≤ p ∧ p < q
          · rw [if_pos c, if_pos (by omega)]
          · rw [if_neg c, if_neg (by omega)]
      · rintro w' ⟨v1, v2⟩
        refine ⟨v1, fun i hi p p1 p2 => ?_, fun p hp => ?_⟩
        · rw [v2]
          by_cases e : i = j
          · subst e
            rw [w3 p p1]
            by_cases c : st.get i ≤ p
            · rw [if_pos ⟨c, p2⟩, if_pos c]
            · rw [if_neg (by omega), if_neg c]
          · have := hT.le (show i + 1 ≤ j by omega) (by omega)
            rw [if_neg (by omega)]
            exact w2 i (by omega) p p1 p2
        · have := hT.mono j hj
          rw [v2, if_neg (by omega)]; exact w3 p (by omega)
    · rintro w ⟨w1, w2⟩
      rw [runs_pure]
      exact ⟨rfl, rfl, rfl, rfl, w1, w2⟩
  · rw [if_neg hδ]
    rw [not_not] at hδ
    subst hδ
    simp only [runs_bind, runs_pure]
    exact ⟨by tt, by tt, by tt, by tt, by tt, fun i _ p _ _ => by simp⟩

/-- Renumbering of tail indices. -/
def shift (k δ : Nat) (e : Nat × K) : Nat × K := (if e.1 < k then e.1 else e.1 - δ, e.2)

/-- What is known about a factor at the end. -/
structure FinOK (n m : Nat) (T : CS K) (st : Buf Nat) (S : Nat → Nat → K) (w : Nat → Nat) (Φ : Nat → Nat → Prop) : Prop where
  wf : T.WF
  tight : T.Tight
  psz : T.psize = m
  ssz : T.ssize = n
  sorted : T.Sorted
  upper : ∀ i, i < m → ∀ e ∈ T.line i, i < e.1
  stsz : m ≤ st.size
  st : ∀ i, i < m → T.start.get i ≤ st.get i ∧ st.get i ≤ T.start.get (i + 1) ∧
    (∀ p, T.start.get i ≤ p → p < st.get i → T.inds.get p < m) ∧ ∀ p, st.get i ≤ p → p < T.start.get (i + 1) → m ≤ T.inds.get p
  ent : ∀ i, i < m → ∀ x, x < n → ent (T.line i) (w x) = S i x
  cnt : ∀ i, i < m → Φ i (T.line i).length

/-- Entries of a renumbered line. -/
theorem ent_shift {k δ hi : Nat} {l : List (Nat × K)} (hl : ∀ e ∈ l, e.1 < k ∨ (k + δ ≤ e.1 ∧ e.1 < hi)) {j : Nat}
    (hj : j < k ∨ (k + δ ≤ j ∧ j < hi)) : ent (l.map (shift k δ)) (if j < k then j else j - δ) = ent l j := by
  induction l with
  | nil => rfl
  | cons e l ih =>
    rw [List.map_cons, ent_cons, ent_cons, ih (fun x hx => hl x (by simp [hx]))]
    congr 1
    have he := hl e (by simp)
    have hiff : (shift k δ e).1 = (if j < k then j else j - δ) ↔ e.1 = j := by
      unfold shift
      simp only
      split <;> split <;> omega
    by_cases c : e.1 = j
    · rw [if_pos c, if_pos (hiff.2 c)]; rfl
    · rw [if_neg c, if_neg (fun hc => c (hiff.1 hc))]

theorem side_finish {n m2 k δ : Nat} {F : FacSide K} (h : Core n m2 k δ F) (hk : k + δ = m2) {v : Nat → Nat}
    (hp : ∀ x, x < n → v x < k ∨ (k + δ ≤ v x ∧ v x < n + δ))
    {S : Nat → Nat → K} (he : ∀ i, i < k → ∀ x, x < n → ent (F.T.line i) (v x) = S i x) {Φ : Nat → Nat → Prop}
    (hΦ : ∀ i, i < k → Φ i (F.T.line i).length) :
    Runs (globalStart F.T.endAssemble F.start k) fun st =>
      Runs (compressTail F.T.endAssemble st k δ) fun T => FinOK n k T st S (place k δ v) Φ := by
  have hmle := h.mle
  have hasm := h.asm
  have hss := hasm.ssz
  have hend : F.T.endAssemble = { F.T with psize := k } := by
    unfold CS.endAssemble
    rw [h.psz]
    by_cases e : m2 + 1 = F.T.start.size
    · rw [if_pos e]
      have : F.T.psize = k := by rw [h.psz]; omega
      rw [← this]
    · rw [if_neg e, if_neg (by omega), hss]; rfl
  rw [hend]
  have hasm' : Asm k ({ F.T with psize := k } : CS K) := ⟨hasm.ssz, hasm.zero, hasm.mono, hasm.isz, hasm.vsz⟩
  refine (globalStart_runs (T := { F.T with psize := k }) (by show k ≤ F.T.start.size; omega) F.start (by rw [h.stz]; omega)).mono ?_
  rintro st ⟨s1, s2⟩
  have s2' : ∀ i, i < k → st.get i = F.T.start.get i + F.start.get i := s2
  have hstl : ∀ i, i < k → F.T.start.get i ≤ st.get i ∧ st.get i ≤ F.T.start.get (i + 1) := by
    intro i hi
    rw [s2' i hi]
    have := (h.lines i hi).st_le
    rw [line_length] at this
    have := hasm.mono i hi
    omega
  refine (compressTail_runs hasm' st (by rw [s1, h.stz]; omega) hstl).mono ?_
  rintro T ⟨t1, t2, t3, t4, t5, t6⟩
  have t3 : T.start = F.T.start := t3
  have t4 : T.vals = F.T.vals := t4
  have t5 : T.inds.size = F.T.inds.size := t5
  have t6 : ∀ i, i < k → ∀ p, F.T.start.get i ≤ p → p < F.T.start.get (i + 1) →
        T.inds.get p = if st.get i ≤ p then F.T.inds.get p - δ else F.T.inds.get p := t6
  -- raw indices
  have hraw : ∀ i, i < k → ∀ p, F.T.start.get i ≤ p → p < F.T.start.get (i + 1) →
      (p < st.get i → i < F.T.inds.get p ∧ F.T.inds.get p < k) ∧
      (st.get i ≤ p → k + δ ≤ F.T.inds.get p ∧ F.T.inds.get p < n + δ) := by
    intro i hi p p1 p2
    have hl := h.lines i hi
    have hlen : p - F.T.start.get i < (F.T.line i).length := by rw [line_length]; omega
    have hg := line_getElem F.T i _ hlen
    rw [show F.T.start.get i + (p - F.T.start.get i) = p by omega] at hg
    constructor
    · intro hp
      rw [s2' i hi] at hp
      have hm : (F.T.inds.get p, F.T.vals.get p) ∈ (F.T.line i).take (F.start.get i) := by
        rw [← hg]
        exact List.mem_take_iff_getElem.2 ⟨p - F.T.start.get i, by omega, rfl⟩
      exact hl.before _ hm
    · intro hp
      rw [s2' i hi] at hp
      have hm : (F.T.inds.get p, F.T.vals.get p) ∈ (F.T.line i).drop (F.start.get i) := by
        rw [← hg]
        refine List.mem_drop_iff_getElem.2 ⟨p - F.T.start.get i - F.start.get i, by omega, ?_⟩
        congr 1
        omega
      exact hl.after _ hm
  have hshift : ∀ i, i < k → ∀ p, F.T.start.get i ≤ p → p < F.T.start.get (i + 1) →
      T.inds.get p = if F.T.inds.get p < k then F.T.inds.get p else F.T.inds.get p - δ := by
    intro i hi p p1 p2
    rw [t6 i hi p p1 p2]
    obtain ⟨h1, h2⟩ := hraw i hi p p1 p2
    rcases Nat.lt_or_ge p (st.get i) with c | c
    · rw [if_neg (by omega), if_pos (h1 c).2]
    · rw [if_pos c, if_neg (by have := h2 c; omega)]
  have hline : ∀ i, i < k → T.line i = (F.T.line i).map (shift k δ) := by
    intro i hi
    unfold CS.line CS.seg
    rw [t3, t4, List.map_map]
    refine List.map_congr_left fun p hp => ?_
    rw [List.mem_range'_1] at hp
    have := hshift i hi p hp.1 (by have := hasm.mono i hi; omega)
    simp only [Function.comp, shift, this]
  have hcase : ∀ i, i < k → ∀ e ∈ F.T.line i, i < e.1 ∧ (e.1 < k ∨ (k + δ ≤ e.1 ∧ e.1 < n + δ)) := by
    intro i hi e hm
    rw [← List.take_append_drop (F.start.get i) (F.T.line i), List.mem_append] at hm
    rcases hm with hm | hm
    · have := (h.lines i hi).before e hm; exact ⟨this.1, Or.inl this.2⟩
    · have := (h.lines i hi).after e hm; exact ⟨by omega, Or.inr this⟩
  refine ⟨⟨?_, ?_, ?_, ?_, ?_, ?_⟩, ⟨?_, ?_, ?_⟩, t1, ?_, ?_, ?_, by rw [s1, h.stz]; omega, ?_, ?_, ?_⟩
  · rw [t1, t3]; show k + 1 ≤ _; omega
  · rw [t3]; exact hasm.zero
  · rw [t1, t3]; exact hasm.mono
  · rw [t1, t3, t5]; exact le_of_eq hasm.isz.symm
  · rw [t1, t3, t4]; exact le_of_eq hasm.vsz.symm
  · rw [t1, t3]
    intro p hp
    have hp : p < F.T.start.get k := hp
    obtain ⟨i, hi, h1, h2⟩ : ∃ i, i < k ∧ F.T.start.get i ≤ p ∧ p < F.T.start.get (i + 1) := by
      have : ∀ j, j ≤ k → p < F.T.start.get j → ∃ i, i < j ∧ F.T.start.get i ≤ p ∧ p < F.T.start.get (i + 1) := by
        intro j
        induction j with
        | zero => intro _ hj; rw [hasm.zero] at hj; omega
        | succ j ih =>
          intro hj hpj
          rcases Nat.lt_or_ge p (F.T.start.get j) with c | c
          · obtain ⟨i, i1, i2⟩ := ih (by omega) c
            exact ⟨i, by omega, i2⟩
          · exact ⟨j, by omega, c, hpj⟩
      exact this k (le_refl _) hp
    rw [hshift i hi p h1 h2, t2]
    obtain ⟨r1, r2⟩ := hraw i hi p h1 h2
    have hsz : ({ F.T with psize := k } : CS K).ssize = 2 * n := h.ssz
    rw [hsz]
    rcases Nat.lt_or_ge p (st.get i) with c | c
    · have := r1 c; rw [if_pos this.2]; omega
    · have := r2 c; rw [if_neg (by omega)]; omega
  · rw [t1, t3]; exact hasm.ssz
  · rw [t1, t3, t5]; exact hasm.isz
  · rw [t1, t3, t4]; exact hasm.vsz
  · rw [t2]; have hsz : ({ F.T with psize := k } : CS K).ssize = 2 * n := h.ssz
    rw [hsz]; omega
  · intro i hi p q hp hq hpq
    have hi : i < k := by rw [t1] at hi; exact hi
    obtain ⟨p1, p2⟩ := hp
    obtain ⟨q1, q2⟩ := hq
    rw [t3] at p1 p2 q1 q2
    rw [hshift i hi p p1 p2, hshift i hi q q1 q2]
    have hs := (h.lines i hi).sorted
    have hlt : F.T.inds.get p < F.T.inds.get q := by
      have a1 : p - F.T.start.get i < (F.T.line i).length := by rw [line_length]; omega
      have a2 : q - F.T.start.get i < (F.T.line i).length := by rw [line_length]; omega
      have := List.pairwise_iff_getElem.1 hs _ _ a1 a2 (by omega)
      rw [line_getElem, line_getElem] at this
      simp only at this
      rw [show F.T.start.get i + (p - F.T.start.get i) = p by omega, show F.T.start.get i + (q - F.T.start.get i) = q by omega] at this
      exact this
    obtain ⟨r1, r2⟩ := hraw i hi p p1 p2
    obtain ⟨r3, r4⟩ := hraw i hi q q1 q2
    rcases Nat.lt_or_ge p (st.get i) with c | c <;> rcases Nat.lt_or_ge q (st.get i) with c' | c' <;>
      split <;> split <;> omega
  · intro i hi e hm
    rw [hline i hi, List.mem_map] at hm
    obtain ⟨e', he', rfl⟩ := hm
    obtain ⟨c1, c2⟩ := hcase i hi e' he'
    unfold shift
    simp only
    split <;> omega
  · intro i hi
    rw [t3]
    refine ⟨(hstl i hi).1, (hstl i hi).2, fun p p1 p2 => ?_, fun p p1 p2 => ?_⟩
    · have b := hstl i hi
      rw [hshift i hi p p1 (by omega)]
      have := (hraw i hi p p1 (by omega)).1 p2
      rw [if_pos this.2]; exact this.2
    · have b := hstl i hi
      rw [hshift i hi p (by omega) p2]
      have := (hraw i hi p (by omega) p2).2 p1
      rw [if_neg (by omega)]; omega
  · intro i hi x hx
    rw [hline i hi, ← he i hi x hx]
    unfold place
    exact ent_shift (hi := n + δ) (fun e hm => (hcase i hi e hm).2) (hp x hx)
  · intro i hi
    rw [hline i hi, List.length_map]; exact hΦ i hi

/-- Everything known at the end of the Crout phase. -/
structure Final (pr : Par K R) (I : In K) (ΦU ΦL : Nat → Nat → Prop) (r : Out K) (g : Gh K) : Prop where
  tot : r.m + r.defers = I.m2
  cnt : r.nDiag + r.nCond = r.defers
  pos : Pos I.n r.m r.defers g.v g.o
  psz : r.p.p.size = I.n
  qsz : r.q.p.size = I.n
  p : ∀ x, x < I.n → r.p.p.get (place r.m r.defers g.v x) = I.p0.get x
  q : ∀ x, x < I.n → r.q.p.get (place r.m r.defers g.v x) = I.q0.get x
  pinv : r.p.inv.size = I.n ∧ Spec.Inverse I.n r.p.p.get r.p.inv.get
  qinv : r.q.inv.size = I.n ∧ Spec.Inverse I.n r.q.p.get r.q.inv.get
  dsz : r.d.size = I.m2
  U : FinOK I.n r.m r.U r.Ustart g.Us (place r.m r.defers g.v) (fun i => ΦU (I.p0.get (g.o i)))
  L : FinOK I.n r.m r.L r.Lstart g.Ls (place r.m r.defers g.v) (fun i => ΦL (I.q0.get (g.o i)))
  num : Num pr I.n I.m2 r.m r.defers I.B g.v g.o g.Us g.Ut g.Ls g.Lt r.d.get
  kapU : Kap pr r.m r.kU g.Us g.o
  kapL : Kap pr r.m r.kL g.Ls g.o
  rulU : ∀ Ψ, DropRule I.n pr.dropU Ψ → ∀ h, h < r.m → ∀ x, x < I.n →
    g.Us h x = g.Ut h x ∨ (g.Us h x = 0 ∧ Ψ (r.kU.get h) (I.p0.get (g.o h)) (g.Ut h x))
  rulL : ∀ Ψ, DropRule I.n pr.dropL Ψ → ∀ h, h < r.m → ∀ x, x < I.n →
    g.Ls h x = g.Lt h x ∨ (g.Ls h x = 0 ∧ Ψ (r.kL.get h) (I.q0.get (g.o h)) (g.Lt h x))
  lR : SV.Ready (2 * I.n) r.m r.l ∧ r.l.vals.size = 2 * I.n
  utR : SV.Ready (2 * I.n) r.m r.ut ∧ r.ut.vals.size = 2 * I.n

/-- The end of the Crout phase. -/
theorem finish_runs (hI : InOK I) {c : St K} {g : Gh K} (h : Inv pr I ΦU ΦL c g) (htot : c.step + c.defers = I.m2) (hm : c.m = c.step)
    (hcnt : c.nDiag + c.nCond = c.defers) : Runs (finish I.n c) fun r => Final pr I ΦU ΦL r g ∧ r.m = c.step := by
  have hmle := hI.mle
  have hkn : c.step + c.defers ≤ I.n := by omega
  unfold finish
  simp only [runs_bind]
  refine (assignGaps_runs h.perm h.pos hkn).mono ?_
  rintro p ⟨p1, p2⟩
  refine (assignGaps_runs h.qerm h.pos hkn).mono ?_
  rintro q ⟨q1, q2⟩
  have hperm : ∀ (p p0 : Buf Nat), Spec.IsPerm I.n p0.get → (∀ x, x < I.n → p.get (if g.v x < c.step then g.v x else g.v x - c.defers) = p0.get x) →
      Spec.IsPerm I.n p.get := by
    intro p p0 hp0 he
    have hpl := place_perm h.pos hkn
    constructor
    · intro i hi
      obtain ⟨x, x1, x2⟩ := isPerm_surj hpl hi
      have := he x x1
      unfold place at x2
      rw [x2] at this
      rw [this]; exact hp0.1 x x1
    · intro i j hi hj e
      obtain ⟨x, x1, x2⟩ := isPerm_surj hpl hi
      obtain ⟨y, y1, y2⟩ := isPerm_surj hpl hj
      have e1 := he x x1
      have e2 := he y y1
      unfold place at x2 y2
      rw [x2] at e1
      rw [y2] at e2
      have := hp0.2 x y x1 y1 (by rw [← e1, ← e2, e])
      subst this
      rw [← x2, ← y2]
  refine (BiPerm.buildInv_runs I.n ⟨p, c.pinv⟩ p1 h.perm.isz (hperm p _ hI.perm_p p2)).mono ?_
  rintro bp ⟨e1, e2, e3⟩
  refine (BiPerm.buildInv_runs I.n ⟨q, c.qinv⟩ q1 h.qerm.isz (hperm q _ hI.perm_q q2)).mono ?_
  rintro bq ⟨f1, f2, f3⟩
  rw [hm]
  obtain ⟨Ls, l1, l2⟩ := side_finish h.L.core htot (fun x hx => h.pos.cases hkn hx) h.entL (Φ := fun i => ΦL (I.q0.get (g.o i))) h.cntL
  obtain ⟨Us, u1, u2⟩ := side_finish h.U.core htot (fun x hx => h.pos.cases hkn hx) h.entU (Φ := fun i => ΦU (I.p0.get (g.o i))) h.cntU
  refine ⟨Ls, l1, Us, u1, u2.mono ?_⟩
  intro UT hUT
  refine l2.mono ?_
  intro LT hLT
  rw [runs_pure]
  have hF : Final pr I ΦU ΦL ⟨c.step, c.defers, c.d, bp, bq, UT, LT, Us, Ls, c.kU, c.kL, c.nDiag, c.nCond, c.l, c.ut⟩ g := by
    constructor
    case tot => exact htot
    case cnt => exact hcnt
    case pos => exact h.pos
    case psz => exact e2
    case qsz => exact f2
    case p => intro x hx; show bp.p.get _ = _; rw [e1]; exact p2 x hx
    case q => intro x hx; show bq.p.get _ = _; rw [f1]; exact q2 x hx
    case pinv => exact e3
    case qinv => exact f3
    case dsz => exact h.dsz
    case U => exact hUT
    case L => exact hLT
    case num => exact h.num
    case kapU => exact h.kapU
    case kapL => exact h.kapL
    case rulU => exact h.rulU
    case rulL => exact h.rulL
    case lR => exact ⟨h.lR, h.lsz⟩
    case utR => exact ⟨h.utR, h.utsz⟩
  exact ⟨hF, rfl⟩

/-- The Crout phase completes and establishes `Final`. -/
theorem croutPhase_runs [Inhabited K] (hI : InOK I) (hU : DropOK I.n ΦU pr.dropU) (hL : DropOK I.n ΦL pr.dropL) :
    Runs (croutPhase pr I) fun r => ∃ g, Final pr I ΦU ΦL r g := by
  unfold croutPhase
  simp only [runs_bind]
  refine (init_runs (pr := pr) (ΦU := ΦU) (ΦL := ΦL) hI).mono ?_
  rintro c0 ⟨⟨g0, h0⟩, hs0, hc0⟩
  refine (mainLoop_runs hI hU hL I.m2 h0 hc0 (by omega)).mono ?_
  rintro c ⟨⟨g, h⟩, htot, hm, hcnt⟩
  exact (finish_runs hI h htot hm hcnt).mono fun r hr => ⟨g, hr.1⟩

end Hif.Crout
