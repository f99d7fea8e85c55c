import Verif.PrecFixed

set_option linter.unusedSectionVars false
set_option linter.unusedVariables false
set_option linter.unusedSimpArgs false

/-!
# Products with the preconditioner for every rank (helpers for `Props/PrecProd.lean`)
-/

namespace Hif.Spec
open Finset
variable {K : Type _} [Field K]

/-- The operator is linear. -/
theorem Applies.lin {S : Nat → Nat → K} (a c : K) : ∀ {lvs : List (Level K)} {k : Nat} {x x' b b' : Nat → K},
    Applies S lvs k x b → Applies S lvs k x' b' → Applies S lvs k (fun j => a * x j + c * x' j) (fun j => a * b j + c * b' j)
  | [], k, x, x', b, b', h, h' => fun i hi => by
    beta_reduce
    rw [mulVec_lin, h i hi, h' i hi]
  | v :: rest, k, x, x', b, b', ⟨h1, z, g, h2, h3, h4⟩, ⟨h1', z', g', h2', h3', h4'⟩ => by
    have hx : ∀ j, (a * x j + c * x' j) / v.t j = a * (x j / v.t j) + c * (x' j / v.t j) := fun j => by ring
    refine ⟨fun i hi => ?_, fun j => a * z j + c * z' j, fun j => a * g j + c * g' j, fun i hi => ?_, ?_, fun i hi => ?_⟩
    · simp only [hx]
      rw [ldu_lin _ _ _ _ a c (fun j => x (v.q j) / v.t (v.q j)) (fun j => x' (v.q j) / v.t (v.q j)) i,
        mulVec_lin _ _ a c (fun j => x (v.q (v.m + j)) / v.t (v.q (v.m + j))) (fun j => x' (v.q (v.m + j)) / v.t (v.q (v.m + j))) i]
      linear_combination a * h1 i hi + c * h1' i hi
    · rw [ldu_lin]
      linear_combination a * h2 i hi + c * h2' i hi
    · simp only [hx]
      exact Applies.lin a c h3 h3'
    · rw [mulVec_lin]
      linear_combination a * h4 i hi + c * h4' i hi

/-- A linear relation that is defined everywhere and determines the results multiplies by a matrix. -/
theorem matrix_of_linear {k : Nat} {R : (Nat → K) → (Nat → K) → Prop} (he : ∀ b, ∃ x, R x b)
    (hl : ∀ (a c : K) x x' b b', R x b → R x' b' → R (fun j => a * x j + c * x' j) (fun j => a * b j + c * b' j))
    (hu : ∀ x x' b b', R x b → R x' b' → (∀ i, i < k → b i = b' i) → ∀ i, i < k → x i = x' i) :
    ∃ W : Nat → Nat → K, ∀ x b, R x b → ∀ i, i < k → x i = mulVec k W b i := by
  choose f hf using fun l : Nat => he fun j => if j = l then 1 else 0
  obtain ⟨x0, h0⟩ := he fun _ => 0
  refine ⟨fun i l => f l i, fun x b h => ?_⟩
  have part : ∀ t, ∃ x, R x (fun j => ∑ l ∈ range t, b l * if j = l then 1 else 0) ∧ ∀ i, i < k → x i = ∑ l ∈ range t, b l * f l i := by
    intro t
    induction t with
    | zero =>
      refine ⟨x0, by simpa using h0, fun i hi => ?_⟩
      have h2 := hl 0 0 _ _ _ _ h0 h0
      have := hu _ _ _ _ h0 h2 (fun i _ => by ring) i hi
      rw [this]; simp
    | succ t ih =>
      obtain ⟨y, h1, h2⟩ := ih
      have := hl 1 (b t) _ _ _ _ h1 (hf t)
      refine ⟨_, by simpa only [sum_range_succ, one_mul] using this, fun i hi => ?_⟩
      beta_reduce
      rw [h2 i hi, sum_range_succ]
  obtain ⟨y, h1, h2⟩ := part k
  intro i hi
  rw [hu _ _ _ _ h h1 (fun j hj => ?_) i hi, h2 i hi]
  · unfold mulVec
    exact sum_congr rfl fun l _ => mul_comm _ _
  · rw [sum_eq_single_of_mem j (mem_range.2 hj)]
    · simp
    · intro l _ hl
      rw [if_neg (Ne.symm hl), mul_zero]

/-- With `T V T = T` on the last block, applying the inverse, the product and the inverse again is applying the inverse. -/
theorem Gives.applies_gives {T V : Nat → Nat → K} {kf : Nat}
    (h0 : ∀ y i, i < kf → mulVec kf T (mulVec kf V (mulVec kf T y)) i = mulVec kf T y i) : ∀ {lvs : List (Level K)} {k : Nat},
    Chain lvs k kf → ∀ {x b c y : Nat → K}, Gives T lvs k x b → Applies V lvs k x c → Gives T lvs k y c → ∀ i, i < k → y i = x i
  | [], k, hk, x, b, c, y, h, h', h'' => by
    have hk : k = kf := hk
    subst hk
    intro i hi
    rw [h'' i hi, mulVec_congr' (x := c) (fun j hj => (h' j hj).symm), mulVec_congr' (fun j _ => by
      rw [mulVec_congr' h j]) i, h0 b i hi, h i hi]
  | v :: rest, k, ⟨hn, ok, hc⟩, x, b, c, y, ⟨h1, z, g, h2, h3, h4⟩, ⟨h1', z', g', h2', h3', h4'⟩, ⟨h1'', z'', g'', h2'', h3'', h4''⟩ => by
    subst hn
    have hle := ok.le
    have eb : ∀ i, i < v.m → v.s (v.p i) * b (v.p i) = v.s (v.p i) * c (v.p i) := fun i hi => (h1 i hi).symm.trans (h1' i hi)
    have ez : ∀ i, i < v.m → z'' i = z' i := ldu_inj ok.lower ok.upper ok.d_ne fun i hi => by
      rw [h2'' i hi, h2' i hi]
    have eg : ∀ i, i < v.n - v.m → g'' i = g' i := fun i hi => by
      have a := h4'' i hi
      rw [← h4' i hi, mulVec_congr' ez i] at a
      exact add_left_cancel a
    have e2 := Gives.applies_gives h0 hc h3 h3' (Gives.congr hc h3'' (fun _ _ => rfl) eg)
    have e1 : ∀ i, i < v.m → y (v.q i) / v.t (v.q i) = x (v.q i) / v.t (v.q i) :=
      ldu_inj (x := fun i => y (v.q i) / v.t (v.q i)) (y := fun i => x (v.q i) / v.t (v.q i)) ok.lower ok.upper ok.d_ne
        fun i hi => by
          have a := h1'' i hi
          rw [← eb i hi, ← h1 i hi, mulVec_congr' e2 i] at a
          exact add_right_cancel a
    intro i hi
    obtain ⟨j, hj, rfl⟩ := isPerm_surj ok.q_perm hi
    have e : y (v.q j) / v.t (v.q j) = x (v.q j) / v.t (v.q j) := by
      rcases Nat.lt_or_ge j v.m with c | c
      · exact e1 j c
      · have := e2 (j - v.m) (by omega)
        rwa [show v.m + (j - v.m) = j by omega] at this
    exact (div_left_inj' (ok.t_ne _ hi)).1 e

/-- With `V T V = V` on the last block, the product, the inverse and the product again is the product. -/
theorem Applies.gives_applies {T V : Nat → Nat → K} {kf : Nat}
    (h0 : ∀ y i, i < kf → mulVec kf V (mulVec kf T (mulVec kf V y)) i = mulVec kf V y i) : ∀ {lvs : List (Level K)} {k : Nat},
    Chain lvs k kf → ∀ {x b y c : Nat → K}, Applies V lvs k x b → Gives T lvs k y b → Applies V lvs k y c → ∀ i, i < k → c i = b i
  | [], k, hk, x, b, y, c, h, h', h'' => by
    have hk : k = kf := hk
    subst hk
    intro i hi
    rw [← h'' i hi, mulVec_congr' h' i, mulVec_congr' (fun j _ => by
      rw [mulVec_congr' (fun l hl => (h l hl).symm) j]) i, h0 x i hi, h i hi]
  | v :: rest, k, ⟨hn, ok, hc⟩, x, b, y, c, ⟨h1, z, g, h2, h3, h4⟩, ⟨h1', z', g', h2', h3', h4'⟩, ⟨h1'', z'', g'', h2'', h3'', h4''⟩ => by
    subst hn
    have hle := ok.le
    have eb : ∀ i, i < v.m → v.s (v.p i) * c (v.p i) = v.s (v.p i) * b (v.p i) := fun i hi => (h1'' i hi).symm.trans (h1' i hi)
    have ez : ∀ i, i < v.m → z' i = z i := ldu_inj ok.lower ok.upper ok.d_ne fun i hi => by
      rw [h2 i hi, h2' i hi]
    have ez2 : ∀ i, i < v.m → z'' i = z i := ldu_inj ok.lower ok.upper ok.d_ne fun i hi => by
      rw [h2 i hi, h2'' i hi, eb i hi]
    have eg : ∀ i, i < v.n - v.m → g i = g' i := fun i hi => by
      have a := h4' i hi
      rw [← h4 i hi, mulVec_congr' ez i] at a
      exact (add_left_cancel a).symm
    have e2 := Applies.gives_applies h0 hc (Applies.congr hc h3 (fun _ _ => rfl) eg) h3' h3''
    intro i hi
    obtain ⟨j, hj, rfl⟩ := isPerm_surj ok.p_perm hi
    have e : v.s (v.p j) * c (v.p j) = v.s (v.p j) * b (v.p j) := by
      rcases Nat.lt_or_ge j v.m with d | d
      · exact eb j d
      · have a := h4'' (j - v.m) (by omega)
        have b := h4 (j - v.m) (by omega)
        rw [show v.m + (j - v.m) = j by omega] at a b
        rw [← a, ← b, mulVec_congr' ez2, e2 _ (by omega), eg _ (by omega)]
    exact mul_left_cancel₀ (ok.s_ne _ hi) e
end Hif.Spec

namespace Hif
open Finset Spec
variable {K : Type _} [Field K] [StarRing K]
namespace Prec

/-- What is asked of the dense solver of the last block, called with rank `r`: multiplying is with the matrix `V`, with the transpose flag with its conjugate transpose.
Nothing is asked of the matrix it was built from. -/
structure DenseMult (r k : Nat) (V : Nat → Nat → K) (D : DenseOps K) : Prop where
  multiply : ∀ y : Buf K, y.size = k → Runs (D.multiply y r false) fun x => x.size = k ∧ ∀ i, i < k → x.get i = mulVec k V y.get i
  multiplyT : ∀ y : Buf K, y.size = k → Runs (D.multiply y r true) fun x => x.size = k ∧ ∀ i, i < k → x.get i = mulVec k (herm V) y.get i

/-- The same for whichever dense solver is set. -/
def LastMult (r k : Nat) (V : Nat → Nat → K) : Last K → Prop
  | .none => k = 0
  | .dense D => DenseMult r k V D
  | .symm D => (∀ i j, i < k → j < k → herm V i j = V i j) ∧
      ∀ y : Buf K, y.size = k → Runs (D.multiply y r false) fun x => x.size = k ∧ ∀ i, i < k → x.get i = mulVec k V y.get i

/-- A complete preconditioner of dimension `k` with consistent invertible levels, whose final dense solver multiplies by `V`. -/
def Multiplies (r : Nat) (V : Nat → Nat → K) (kf : Nat) : List (Prec K) → Nat → Prop
  | [], _ => False
  | P :: rest, k => P.n = k ∧ P.OK ∧
      if P.isLast then rest = [] ∧ P.n - P.m = kf ∧ LastMult r kf V P.last else Multiplies r V kf rest (P.n - P.m)

theorem Multiplies.chain {r : Nat} {V : Nat → Nat → K} {kf : Nat} : ∀ {precs : List (Prec K)} {k : Nat},
    Multiplies r V kf precs k → Chain (precs.map toLevel) k kf
  | [], _, h => h.elim
  | P :: rest, k, ⟨h1, h2, h3⟩ => by
    refine ⟨h1, h2.level, ?_⟩
    split at h3
    · obtain ⟨rfl, h4, -⟩ := h3
      exact h4
    · exact Multiplies.chain h3

theorem last_mult {r kf : Nat} {S : Nat → Nat → K} {l : Last K} (h : LastMult r kf S l) (tran : Bool) (y : Buf K)
    (hy : y.size = kf) (hk : kf ≠ 0) :
    Runs (l.multiply y r tran) fun x => x.size = kf ∧
      ∀ i, i < kf → mulVec kf (if tran then herm S else S) y.get i = x.get i := by
  cases l with
  | none => exact absurd h hk
  | dense D =>
    cases tran with
    | false => exact (h.multiply y hy).mono fun x q => ⟨q.1, fun i hi => (q.2 i hi).symm⟩
    | true => exact (h.multiplyT y hy).mono fun x q => ⟨q.1, fun i hi => (q.2 i hi).symm⟩
  | symm D =>
    refine (h.2 y hy).mono ?_
    rintro v ⟨h1, h2⟩
    refine ⟨h1, fun i hi => ?_⟩
    rw [h2 i hi]
    cases tran with
    | false => rfl
    | true =>
      unfold mulVec
      exact sum_congr rfl fun j hj => by
        have := h.1 i j hi (mem_range.1 hj)
        simp only [if_true, this]

theorem prodLastFix_runs {P : Prec K} (ok : P.OK) {r kf : Nat} {S : Nat → Nat → K} (hk : P.n - P.m = kf)
    (h : LastMult r kf S P.last) (tran : Bool) (y work : Buf K) (hy : y.size = P.n) (hw : P.n ≤ work.size) :
    Runs (P.prodLast r tran y work) fun x => x.size = P.n ∧
      ∀ i, i < kf → mulVec kf (if tran then herm S else S) (fun j => work.get (P.m + j)) i = x.get (P.m + i) := by
  unfold prodLast
  have hle := ok.le
  simp only [runs_ite, runs_pure]
  split
  swap
  · rename_i h0
    exact ⟨hy, fun i hi => by omega⟩
  simp only [runs_bind, Buf.runs_win]
  refine ⟨by omega, by omega, ?_⟩
  refine (last_mult h tran (Buf.mk (P.n - P.m) fun i => work.get (P.m + i)) hk (by omega)).mono ?_
  rintro v ⟨h1, h2⟩
  simp only [runs_pure]
  refine ⟨hy, fun i hi => ?_⟩
  rw [h2 i hi, Buf.put_get, if_pos (by omega)]
  congr 1; omega

/-- Main lemma for `prec_prod`. -/
theorem prodFix_runs {r : Nat} {S : Nat → Nat → K} {kf : Nat} : ∀ {precs : List (Prec K)} {k : Nat}, Multiplies r S kf precs k →
    ∀ (b y work : Buf K), k ≤ b.size → y.size = k → workSpace precs ≤ work.size →
    Runs (prod r precs b y work) fun o => o.1.size = k ∧ o.2.size = work.size ∧
      Applies S (precs.map toLevel) k b.get o.1.get
  | [], _, h => h.elim
  | P :: rest, k, ⟨hk, ok, h3⟩ => by
    intro b y work hb hy hw
    subst hk
    have hle := ok.le
    have hwn : P.n + workSpace rest ≤ work.size := hw
    rw [prod]
    simp only [runs_bind]
    refine (fillRange_runs hle (by omega) (fun i => b.get (P.q.get i) / P.t.get (P.q.get i)) ?_).mono ?_
    · intro i _ hi
      have hp := (ok.q_inv.1 i (by omega)).1
      exact divAt_runs (lt_of_lt_of_le (by omega) ok.q_size) (lt_of_lt_of_le hp ok.t_size) (by omega)
    rintro w1 ⟨s1, l1⟩
    have hw1 : ∀ i, i < P.n - P.m → w1.get (P.m + i) = b.get (P.q.get (P.m + i)) / P.t.get (P.q.get (P.m + i)) := fun i hi => by
      rw [l1, if_pos (by omega)]
    have chain : Chain (rest.map toLevel) (P.n - P.m) kf := by
      split at h3
      · obtain ⟨rfl, h4, -⟩ := h3
        exact h4
      · exact Multiplies.chain h3
    have mid : Runs (P.prodStage (P.prodLast r false) (prod r rest) y w1) fun o => o.1.size = work.size ∧ o.2.size = P.n ∧
        (∀ i, i < P.n → o.1.get i = w1.get i) ∧
        Applies S (rest.map toLevel) (P.n - P.m) (fun j => w1.get (P.m + j)) (fun j => o.2.get (P.m + j)) := by
      unfold prodStage
      simp only [runs_ite]
      split
      · rename_i hlast
        rw [if_pos hlast] at h3
        obtain ⟨rfl, hkf, hL⟩ := h3
        simp only [runs_bind, runs_pure]
        refine (prodLastFix_runs ok hkf hL false y w1 (by omega) (by omega)).mono ?_
        rintro y3 ⟨q1, q2⟩
        refine ⟨by omega, q1, fun _ _ => by tt, fun i hi => ?_⟩
        have := q2 i (by omega)
        rw [hkf]; exact this
      · rename_i hlast
        rw [if_neg hlast] at h3
        simp only [runs_bind, Buf.runs_win, Buf.runs_winTail]
        refine ⟨by omega, by omega, by omega, ?_⟩
        refine (prodFix_runs h3 _ _ _ (le_refl _) rfl (by show workSpace rest ≤ w1.size - P.n; omega)).mono ?_
        rintro ⟨x, w4⟩ ⟨r1, r2, r3⟩
        simp only [runs_pure, Buf.put_size]
        refine ⟨by omega, by omega, fun i hi => ?_, ?_⟩
        · rw [Buf.put_get, if_neg (by omega)]
        · refine Applies.congr (Multiplies.chain h3) r3 (fun i hi => rfl) fun i hi => ?_
          have r1 : x.size = P.n - P.m := r1
          simp only
          rw [Buf.put_get, if_pos (by omega)]; congr 1; omega
    refine mid.mono ?_
    rintro ⟨w2, y2⟩ ⟨c1, c2, c3, c4⟩
    simp only at c1 c2 c3 c4
    refine (prodLdu_runs ok b y2 w2 hb (by omega) (by omega)).mono ?_
    rintro ⟨w3, y3⟩ ⟨d1, d2, d3, d4, d5⟩
    simp only at d1 d2 d3 d4 d5
    refine (prodF_runs ok y3 w3 (by omega) (by omega)).mono ?_
    rintro ⟨w4, y4⟩ ⟨e1, e2, e3, e4, e5, e6⟩
    simp only at e1 e2 e3 e4 e5 e6
    refine (prodE_runs ok b y4 w4 hb (by omega) (by omega)).mono ?_
    rintro w5 ⟨f1, f2, f3⟩
    refine (fillRange_runs (Nat.zero_le _) (by show P.n ≤ y4.size; omega) (fun i => w5.get (P.pinv.get i) / P.s.get i) ?_).mono ?_
    · intro i _ hi
      have hq := (ok.p_inv.2 i hi).1
      have := ok.pinv_size
      have := ok.s_size
      simp only [runs_bind, runs_rd, runs_pure]
      exact ⟨by omega, by omega, by omega, by tt⟩
    rintro y5 ⟨g1, g2⟩
    simp only [runs_pure]
    have g1 : y5.size = y4.size := g1
    refine ⟨by omega, by omega, ?_⟩
    have hout : ∀ j, j < P.n → P.s.get (P.p.get j) * y5.get (P.p.get j) = w5.get j := fun j hj => by
      have hp := ok.p_inv.1 j hj
      rw [g2, if_pos ⟨Nat.zero_le _, hp.1⟩, hp.2, mul_div_cancel₀ _ (ok.s_ne _ hp.1)]
    have hx2 : ∀ j, j < P.n - P.m → w3.get (P.m + j) = b.get (P.q.get (P.m + j)) / P.t.get (P.q.get (P.m + j)) := fun j hj => by
      rw [d4 _ (by omega), c3 _ (by omega), hw1 j hj]
    have key1 : ∀ i, i < P.m → ldu P.m P.L.ccs P.d.get P.U.ccs (fun j => b.get (P.q.get j) / P.t.get (P.q.get j)) i +
        mulVec (P.n - P.m) P.F.ccs (fun j => b.get (P.q.get (P.m + j)) / P.t.get (P.q.get (P.m + j))) i =
        P.s.get (P.p.get i) * y5.get (P.p.get i) := by
      intro i hi
      rw [hout i (by omega), f2 i hi, e3 i hi, d3 i hi, mulVec_congr' hx2 i]
    have key3 : Applies S (rest.map toLevel) (P.n - P.m)
        (fun j => b.get (P.q.get (P.m + j)) / P.t.get (P.q.get (P.m + j))) (fun j => y2.get (P.m + j)) :=
      Applies.congr chain c4 hw1 (fun _ _ => rfl)
    rcases Nat.lt_or_ge P.m P.n with hmn | hmn
    · obtain ⟨z, hz1, hz2⟩ := f3 hmn
      refine ⟨key1, z, _, fun i hi => ?_, key3, fun i hi => ?_⟩
      · refine Eq.trans ?_ (key1 i hi)
        show ldu P.m P.L.ccs P.d.get P.U.ccs z i = _
        rw [hz1 i hi, e4 hmn i hi, mulVec_congr' hx2 i]
        ring
      · have hi : i < P.n - P.m := hi
        show mulVec P.m P.E.ccs z i + y2.get (P.m + i) = P.s.get (P.p.get (P.m + i)) * y5.get (P.p.get (P.m + i))
        rw [hout _ (by omega), hz2 i hi, e6 _ (by omega), d5 _ (by omega)]
    · refine ⟨key1, fun j => b.get (P.q.get j) / P.t.get (P.q.get j), _, fun i hi => ?_, key3, fun i hi => ?_⟩
      · have := key1 i hi
        rw [show P.n - P.m = 0 by omega] at this
        simp only [mulVec, range_zero, sum_empty, add_zero] at this
        exact this
      · have : i < P.n - P.m := hi
        omega


/-- Main lemma for `prec_prod_tran`. -/
theorem prodTFix_runs {r : Nat} {S : Nat → Nat → K} {kf : Nat} : ∀ {precs : List (Prec K)} {k : Nat}, Multiplies r S kf precs k →
    ∀ (b y work : Buf K), k ≤ b.size → y.size = k → workSpace precs ≤ work.size →
    Runs (prodT r precs b y work) fun o => o.1.size = k ∧ o.2.size = work.size ∧
      Applies (herm S) ((precs.map toLevel).map Level.adj) k b.get o.1.get
  | [], _, h => h.elim
  | P :: rest, k, ⟨hk, ok, h3⟩ => by
    intro b y work hb hy hw
    subst hk
    have hle := ok.le
    have hwn : P.n + workSpace rest ≤ work.size := hw
    rw [prodT]
    simp only [runs_bind]
    refine (fillRange_runs hle (by omega) (fun i => b.get (P.p.get i) / P.s.get (P.p.get i)) ?_).mono ?_
    · intro i _ hi
      have hp := (ok.p_inv.1 i (by omega)).1
      exact divAt_runs (lt_of_lt_of_le (by omega) ok.p_size) (lt_of_lt_of_le hp ok.s_size) (by omega)
    rintro w1 ⟨s1, l1⟩
    have hw1 : ∀ i, i < P.n - P.m → w1.get (P.m + i) = b.get (P.p.get (P.m + i)) / P.s.get (P.p.get (P.m + i)) := fun i hi => by
      rw [l1, if_pos (by omega)]
    have chain : Chain (rest.map toLevel) (P.n - P.m) kf := by
      split at h3
      · obtain ⟨rfl, h4, -⟩ := h3
        exact h4
      · exact Multiplies.chain h3
    have mid : Runs (P.prodStage (P.prodLast r true) (prodT r rest) y w1) fun o => o.1.size = work.size ∧ o.2.size = P.n ∧
        (∀ i, i < P.n → o.1.get i = w1.get i) ∧
        Applies (herm S) ((rest.map toLevel).map Level.adj) (P.n - P.m) (fun j => w1.get (P.m + j)) (fun j => o.2.get (P.m + j)) := by
      unfold prodStage
      simp only [runs_ite]
      split
      · rename_i hlast
        rw [if_pos hlast] at h3
        obtain ⟨rfl, hkf, hL⟩ := h3
        simp only [runs_bind, runs_pure]
        refine (prodLastFix_runs ok hkf hL true y w1 (by omega) (by omega)).mono ?_
        rintro y3 ⟨q1, q2⟩
        refine ⟨by omega, q1, fun _ _ => by tt, fun i hi => ?_⟩
        have := q2 i (by omega)
        rw [hkf]; exact this
      · rename_i hlast
        rw [if_neg hlast] at h3
        simp only [runs_bind, Buf.runs_win, Buf.runs_winTail]
        refine ⟨by omega, by omega, by omega, ?_⟩
        refine (prodTFix_runs h3 _ _ _ (le_refl _) rfl (by show workSpace rest ≤ w1.size - P.n; omega)).mono ?_
        rintro ⟨x, w4⟩ ⟨r1, r2, r3⟩
        simp only [runs_pure, Buf.put_size]
        refine ⟨by omega, by omega, fun i hi => ?_, ?_⟩
        · rw [Buf.put_get, if_neg (by omega)]
        · refine Applies.congr (adj_chain (Multiplies.chain h3)) r3 (fun i hi => rfl) fun i hi => ?_
          have r1 : x.size = P.n - P.m := r1
          simp only
          rw [Buf.put_get, if_pos (by omega)]; congr 1; omega
    refine mid.mono ?_
    rintro ⟨w2, y2⟩ ⟨c1, c2, c3, c4⟩
    simp only at c1 c2 c3 c4
    refine (prodLduT_runs ok b y2 w2 hb (by omega) (by omega)).mono ?_
    rintro ⟨w3, y3⟩ ⟨d1, d2, d3, d4, d5⟩
    simp only at d1 d2 d3 d4 d5
    refine (prodTE_runs ok y3 w3 (by omega) (by omega)).mono ?_
    rintro ⟨w4, y4⟩ ⟨e1, e2, e3, e4, e5, e6⟩
    simp only at e1 e2 e3 e4 e5 e6
    refine (prodTF_runs ok b y4 w4 hb (by omega) (by omega)).mono ?_
    rintro w5 ⟨f1, f2, f3⟩
    refine (fillRange_runs (Nat.zero_le _) (by show P.n ≤ y4.size; omega) (fun i => w5.get (P.qinv.get i) / P.t.get i) ?_).mono ?_
    · intro i _ hi
      have hq := (ok.q_inv.2 i hi).1
      have := ok.qinv_size
      have := ok.t_size
      simp only [runs_bind, runs_rd, runs_pure]
      exact ⟨by omega, by omega, by omega, by tt⟩
    rintro y5 ⟨g1, g2⟩
    simp only [runs_pure]
    have g1 : y5.size = y4.size := g1
    refine ⟨by omega, by omega, ?_⟩
    have hout : ∀ j, j < P.n → P.t.get (P.q.get j) * y5.get (P.q.get j) = w5.get j := fun j hj => by
      have hp := ok.q_inv.1 j hj
      rw [g2, if_pos ⟨Nat.zero_le _, hp.1⟩, hp.2, mul_div_cancel₀ _ (ok.t_ne _ hp.1)]
    have hx2 : ∀ j, j < P.n - P.m → w3.get (P.m + j) = b.get (P.p.get (P.m + j)) / P.s.get (P.p.get (P.m + j)) := fun j hj => by
      rw [d4 _ (by omega), c3 _ (by omega), hw1 j hj]
    have key1 : ∀ i, i < P.m → ldu P.m (herm P.U.ccs) (fun i => star (P.d.get i)) (herm P.L.ccs) (fun j => b.get (P.p.get j) / P.s.get (P.p.get j)) i +
        mulVec (P.n - P.m) (herm P.E.ccs) (fun j => b.get (P.p.get (P.m + j)) / P.s.get (P.p.get (P.m + j))) i =
        P.t.get (P.q.get i) * y5.get (P.q.get i) := by
      intro i hi
      rw [hout i (by omega), f2 i hi, e3 i hi, d3 i hi, mulVec_congr' hx2 i]
    have key3 : Applies (herm S) ((rest.map toLevel).map Level.adj) (P.n - P.m)
        (fun j => b.get (P.p.get (P.m + j)) / P.s.get (P.p.get (P.m + j))) (fun j => y2.get (P.m + j)) :=
      Applies.congr (adj_chain chain) c4 hw1 (fun _ _ => rfl)
    rcases Nat.lt_or_ge P.m P.n with hmn | hmn
    · obtain ⟨z, hz1, hz2⟩ := f3 hmn
      refine ⟨key1, z, _, fun i hi => ?_, key3, fun i hi => ?_⟩
      · refine Eq.trans ?_ (key1 i hi)
        show ldu P.m (herm P.U.ccs) (fun i => star (P.d.get i)) (herm P.L.ccs) z i = _
        rw [hz1 i hi, e4 hmn i hi, mulVec_congr' hx2 i]
        ring
      · have hi : i < P.n - P.m := hi
        show mulVec P.m (herm P.F.ccs) z i + y2.get (P.m + i) = P.t.get (P.q.get (P.m + i)) * y5.get (P.q.get (P.m + i))
        rw [hout _ (by omega), hz2 i hi, e6 _ (by omega), d5 _ (by omega)]
    · refine ⟨key1, fun j => b.get (P.p.get j) / P.s.get (P.p.get j), _, fun i hi => ?_, key3, fun i hi => ?_⟩
      · have := key1 i hi
        rw [show P.n - P.m = 0 by omega] at this
        simp only [mulVec, range_zero, sum_empty, add_zero] at this
        exact this
      · have : i < P.n - P.m := hi
        omega


end Prec

namespace HIF
open HM

/-- What `mmultiply` does, whatever the last block. -/
theorem mmultiplyFix_does {junk : Nat → K} {h : HIF K} {r : Nat} {S : Nat → Nat → K} {kf k : Nat} (hg : Prec.Multiplies r S kf h.precs k)
    (hr : Ready h) (trans : Bool) (x y : Buf K) (hx : x.size = k) (hy : y.size = k) :
    Does (mmultiply junk x y trans r) h fun h' z => (∃ w, Prec.workSpace h.precs ≤ w.size ∧ h' = { h with work := w }) ∧
      z.size = k ∧ if trans then Applies (herm S) ((h.precs.map Prec.toLevel).map Level.adj) k x.get z.get
        else Applies S (h.precs.map Prec.toLevel) k x.get z.get := by
  unfold mmultiply
  rw [does_bind, does_read]
  have he : h.empty = false := by
    unfold empty
    cases hp : h.precs with
    | nil => rw [hp] at hg; exact hg.elim
    | cons => rfl
  simp only [he, Bool.false_eq_true, if_false]
  rw [if_neg (by omega), does_bind]
  refine ensureWork_does junk h hr fun w hw => ?_
  refine withWork_does _ _ _ ?_
  have run : Runs (if trans = true then Prec.prodT r h.precs x y w else Prec.prod r h.precs x y w) fun o =>
      o.1.size = k ∧ o.2.size = w.size ∧
      if trans then Applies (herm S) ((h.precs.map Prec.toLevel).map Level.adj) k x.get o.1.get
        else Applies S (h.precs.map Prec.toLevel) k x.get o.1.get := by
    cases trans with
    | false => exact Prec.prodFix_runs hg x y w (by omega) hy hw
    | true => exact Prec.prodTFix_runs hg x y w (by omega) hy hw
  refine run.mono ?_
  rintro ⟨z, w'⟩ ⟨h1, h2, h3⟩
  have h2 : w'.size = w.size := h2
  exact ⟨⟨⟨w.size, w'.get⟩, hw, rfl⟩, h1, h3⟩

end HIF
end Hif
