import Verif.TriSolve
import Verif.Examples

/-!
# Properties C05–C07: unit-triangular solves

`Spec.SolvesUnit n T b x` says `(I + T) x = b` for the leading `n` components.
-/

namespace Hif.Props
open Hif Spec Finset
variable {K : Type _} [CommRing K] [StarRing K]

omit [StarRing K] in
/-- Unit triangular systems have at most one solution (lower). -/
theorem solvesUnit_lower_unique {n : Nat} {T : Nat → Nat → K} (hT : StrictLower n T) {b x y : Nat → K}
    (hx : SolvesUnit n T b x) (hy : SolvesUnit n T b y) : ∀ i, i < n → x i = y i := by
  intro i
  induction i using Nat.strong_induction_on with
  | _ i ih =>
    intro hi
    have h1 := hx i hi
    have h2 := hy i hi
    have : mulVec n T x i = mulVec n T y i := CS.mulVec_congr fun c hc => by
      rcases Nat.lt_or_ge c i with h | h
      · exact Or.inr (ih c h hc)
      · exact Or.inl (hT i hi c hc h)
    rw [this] at h1
    exact add_right_cancel (h1.trans h2.symm)

omit [StarRing K] in
/-- Unit triangular systems have at most one solution (upper). -/
theorem solvesUnit_upper_unique {n : Nat} {T : Nat → Nat → K} (hT : StrictUpper n T) {b x y : Nat → K}
    (hx : SolvesUnit n T b x) (hy : SolvesUnit n T b y) : ∀ i, i < n → x i = y i := by
  suffices h : ∀ d i, i < n → n - i = d → x i = y i from fun i hi => h _ i hi rfl
  intro d
  induction d using Nat.strong_induction_on with
  | _ d ih =>
    intro i hi hd
    have h1 := hx i hi
    have h2 := hy i hi
    have : mulVec n T x i = mulVec n T y i := CS.mulVec_congr fun c hc => by
      rcases Nat.lt_or_ge i c with h | h
      · exact Or.inr (ih (n - c) (by omega) c hc rfl)
      · exact Or.inl (hT i hi c hc h)
    rw [this] at h1
    exact add_right_cancel (h1.trans h2.symm)

section C05
variable (A : CS K) (hA : A.WF) (n : Nat) (hp : A.psize = n) (hs : A.ssize = n) (y : Buf K)
  (hy : n ≤ y.size)
include hA hp hs hy

/-- C05 (CRS, lower): forward substitution solves `(I+L) x = b`. -/
theorem C05_crs_lower (hT : StrictLower n A.crs) :
    ∃ x, A.crsLower y = .ok x ∧ x.size = y.size ∧ SolvesUnit n A.crs y.get x.get ∧
      ∀ i, n ≤ i → x.get i = y.get i := by
  have hf := CS.dotStep1 hA hp hs y.size y.get (fun v t => v * t) A.crs
    (fun j x hj => by rw [CS.line_sum hA (by omega), hs]; rfl)
  obtain ⟨x, h1, h2, h3⟩ := CS.fwdDot hT hf y ⟨rfl, hy, fun _ _ => rfl⟩
  subst hp
  exact ⟨x, h1, h2.1, h3 () trivial, h2.2.2⟩

/-- C05 (CRS, upper), for a non-empty matrix (`hif_assert(_psize)` in the code). -/
theorem C05_crs_upper (hn : 0 < n) (hT : StrictUpper n A.crs) :
    ∃ x, A.crsUpper y = .ok x ∧ x.size = y.size ∧ SolvesUnit n A.crs y.get x.get ∧
      ∀ i, n ≤ i → x.get i = y.get i := by
  have hf := CS.dotStep1 hA hp hs y.size y.get (fun v t => v * t) A.crs
    (fun j x hj => by rw [CS.line_sum hA (by omega), hs]; rfl)
  obtain ⟨x, h1, h2, h3⟩ := CS.bwdDot hT hf y ⟨rfl, hy, fun _ _ => rfl⟩ (by omega)
  subst hp
  exact ⟨x, h1, h2.1, h3 () trivial, h2.2.2⟩

/-- C05 (CCS, lower). -/
theorem C05_ccs_lower (hT : StrictLower n A.ccs) :
    ∃ x, A.ccsLower y = .ok x ∧ x.size = y.size ∧ SolvesUnit n A.ccs y.get x.get ∧
      ∀ i, n ≤ i → x.get i = y.get i := by
  have hf := CS.axpyStep1 hA hp hs y.size y.get (fun v => v) A.ccs
    (fun j i t hj => CS.entry_mul A j i t)
  obtain ⟨x, h1, h2, h3⟩ := CS.fwdAxpy hT hf y ⟨rfl, hy, fun _ _ => rfl⟩
  subst hp
  exact ⟨x, h1, h2.1, h3 () trivial, h2.2.2⟩

/-- C05 (CCS, upper). -/
theorem C05_ccs_upper (hn : 0 < n) (hT : StrictUpper n A.ccs) :
    ∃ x, A.ccsUpper y = .ok x ∧ x.size = y.size ∧ SolvesUnit n A.ccs y.get x.get ∧
      ∀ i, n ≤ i → x.get i = y.get i := by
  have hf := CS.axpyStepRev1 hA hp hs y.size y.get (fun v => v) A.ccs
    (fun j i t hj => CS.entry_mul A j i t)
  obtain ⟨x, h1, h2, h3⟩ := CS.bwdAxpyTo1 hT hf y ⟨rfl, hy, fun _ _ => rfl⟩ (by omega)
  subst hp
  exact ⟨x, h1, h2.1, h3 () trivial, h2.2.2⟩

/-- C06 (CRS, lower): the transposed solve solves `(I+L)^H x = b`. -/
theorem C06_crs_lower_tran (hT : StrictLower n A.crs) :
    ∃ x, A.crsLowerT y = .ok x ∧ x.size = y.size ∧ SolvesUnit n (herm A.crs) y.get x.get ∧
      ∀ i, n ≤ i → x.get i = y.get i := by
  have hf := CS.axpyStepRev1 hA hp hs y.size y.get (fun v => star v) (herm A.crs)
    (fun j i t hj => CS.entry_star_mul A j i t)
  obtain ⟨x, h1, h2, h3⟩ := CS.bwdAxpy_aux (CS.herm_lower hT) hf y ⟨rfl, hy, fun _ _ => rfl⟩
  subst hs
  exact ⟨x, h1, h2.1, h3 () trivial, h2.2.2⟩

/-- C06 (CRS, upper). -/
theorem C06_crs_upper_tran (hT : StrictUpper n A.crs) :
    ∃ x, A.crsUpperT y = .ok x ∧ x.size = y.size ∧ SolvesUnit n (herm A.crs) y.get x.get ∧
      ∀ i, n ≤ i → x.get i = y.get i := by
  have hf := CS.axpyStep1 hA hp hs y.size y.get (fun v => star v) (herm A.crs)
    (fun j i t hj => CS.entry_star_mul A j i t)
  obtain ⟨x, h1, h2, h3⟩ := CS.fwdAxpy (CS.herm_upper hT) hf y ⟨rfl, hy, fun _ _ => rfl⟩
  subst hs
  exact ⟨x, h1, h2.1, h3 () trivial, h2.2.2⟩

/-- C06 (CCS, lower). -/
theorem C06_ccs_lower_tran (hn : 0 < n) (hT : StrictLower n A.ccs) :
    ∃ x, A.ccsLowerT y = .ok x ∧ x.size = y.size ∧ SolvesUnit n (herm A.ccs) y.get x.get ∧
      ∀ i, n ≤ i → x.get i = y.get i := by
  have hf := CS.dotStep1 hA hp hs y.size y.get (fun v t => star v * t) (herm A.ccs)
    (fun j x hj => by rw [CS.line_sum_star hA (by omega), hs]; rfl)
  obtain ⟨x, h1, h2, h3⟩ := CS.bwdDot (CS.herm_lower hT) hf y ⟨rfl, hy, fun _ _ => rfl⟩ (by omega)
  subst hs
  exact ⟨x, h1, h2.1, h3 () trivial, h2.2.2⟩

/-- C06 (CCS, upper). -/
theorem C06_ccs_upper_tran (hT : StrictUpper n A.ccs) :
    ∃ x, A.ccsUpperT y = .ok x ∧ x.size = y.size ∧ SolvesUnit n (herm A.ccs) y.get x.get ∧
      ∀ i, n ≤ i → x.get i = y.get i := by
  have hf := CS.dotStep1 hA hp hs y.size y.get (fun v t => star v * t) (herm A.ccs)
    (fun j x hj => by rw [CS.line_sum_star hA (by omega), hs]; rfl)
  obtain ⟨x, h1, h2, h3⟩ := CS.fwdDot (CS.herm_upper hT) hf y ⟨rfl, hy, fun _ _ => rfl⟩
  subst hs
  exact ⟨x, h1, h2.1, h3 () trivial, h2.2.2⟩

end C05

/-- Non-vacuity for C05/C06: a 3×3 strictly lower CRS / strictly upper CCS and its mirror image. -/
example : Ex.L3.WF ∧ StrictLower 3 Ex.L3.crs ∧ StrictUpper 3 Ex.L3.ccs ∧ Ex.U3.WF ∧
    StrictUpper 3 Ex.U3.crs ∧ StrictLower 3 Ex.U3.ccs ∧
    (Ex.L3.crsLower (Buf.ofList [1, 5, 20])).map Buf.toList = .ok [1, 3, 5] :=
  ⟨Ex.L3_wf, Ex.L3_lower, Ex.L3_ccs_upper, Ex.U3_wf, Ex.U3_upper, Ex.U3_ccs_lower, by decide⟩

/-- The non-emptiness hypothesis of `C05_crs_upper`, `C05_ccs_upper` and `C06_ccs_lower_tran` is needed:
on an empty matrix the loop counter wraps around (undefined behaviour). -/
theorem C05_empty_wraps : ∃ A : CS ℤ, A.WF ∧ A.psize = 0 ∧ A.ssize = 0 ∧
    (∃ w, A.crsUpper (Buf.ofList []) = .error (.ub w)) ∧
    (∃ w, A.ccsUpper (Buf.ofList []) = .error (.ub w)) ∧
    (∃ w, A.ccsLowerT (Buf.ofList []) = .error (.ub w)) :=
  ⟨Ex.mk 0 0 [0] [] [], by constructor <;> decide, rfl, rfl, ⟨_, rfl⟩, ⟨_, rfl⟩, ⟨_, rfl⟩⟩

/-! ## C07 -/

section C07
variable (A : CS K) (hA : A.WF) (n : Nat) (hp : A.psize = n) (hs : A.ssize = n) (N : Nat) (y : Buf K)
  (hy : n * N ≤ y.size)
include hA hp hs hy

/-- C07 (CRS, lower): every column of the multi-RHS solve is the exact solution for that column. -/
theorem C07_crs_lower_mrhs (hT : StrictLower n A.crs) :
    ∃ x, A.crsLowerMrhs N y = .ok x ∧ x.size = y.size ∧
      ∀ c, c < N → SolvesUnit n A.crs (col N y.get c) (col N x.get c) := by
  have hf := CS.dotStepN hA hp hs N y.size (fun v => v) A.crs
    (fun j x hj => by rw [CS.line_sum hA (by omega), hs]; rfl)
  obtain ⟨x, h1, h2, h3⟩ := CS.fwdDot hT hf y ⟨rfl, hy⟩
  subst hp
  exact ⟨x, h1, h2.1, h3⟩

/-- C07 (CRS, upper). -/
theorem C07_crs_upper_mrhs (hn : 0 < n) (hT : StrictUpper n A.crs) :
    ∃ x, A.crsUpperMrhs N y = .ok x ∧ x.size = y.size ∧
      ∀ c, c < N → SolvesUnit n A.crs (col N y.get c) (col N x.get c) := by
  have hf := CS.dotStepN hA hp hs N y.size (fun v => v) A.crs
    (fun j x hj => by rw [CS.line_sum hA (by omega), hs]; rfl)
  obtain ⟨x, h1, h2, h3⟩ := CS.bwdDot hT hf y ⟨rfl, hy⟩ (by omega)
  subst hp
  exact ⟨x, h1, h2.1, h3⟩

/-- C07 (CRS, upper, transposed). -/
theorem C07_crs_upper_mrhs_tran (hT : StrictUpper n A.crs) :
    ∃ x, A.crsUpperMrhsT N y = .ok x ∧ x.size = y.size ∧
      ∀ c, c < N → SolvesUnit n (herm A.crs) (col N y.get c) (col N x.get c) := by
  have hf := CS.axpyStepN hA hp hs N y.size (fun v => star v) (herm A.crs)
    (fun j i t hj => CS.entry_star_mul A j i t)
  obtain ⟨x, h1, h2, h3⟩ := CS.fwdAxpy (CS.herm_upper hT) hf y ⟨rfl, hy⟩
  subst hs
  exact ⟨x, h1, h2.1, h3⟩

/-- C07 (CCS, lower). -/
theorem C07_ccs_lower_mrhs (hT : StrictLower n A.ccs) :
    ∃ x, A.ccsLowerMrhs N y = .ok x ∧ x.size = y.size ∧
      ∀ c, c < N → SolvesUnit n A.ccs (col N y.get c) (col N x.get c) := by
  have hf := CS.axpyStepN hA hp hs N y.size (fun v => v) A.ccs
    (fun j i t hj => CS.entry_mul A j i t)
  obtain ⟨x, h1, h2, h3⟩ := CS.fwdAxpy hT hf y ⟨rfl, hy⟩
  subst hp
  exact ⟨x, h1, h2.1, h3⟩

/-- C07 (CCS, upper). -/
theorem C07_ccs_upper_mrhs (hn : 0 < n) (hT : StrictUpper n A.ccs) :
    ∃ x, A.ccsUpperMrhs N y = .ok x ∧ x.size = y.size ∧
      ∀ c, c < N → SolvesUnit n A.ccs (col N y.get c) (col N x.get c) := by
  have hf := CS.axpyStepRevN hA hp hs N y.size (fun v => v) A.ccs
    (fun j i t hj => CS.entry_mul A j i t)
  obtain ⟨x, h1, h2, h3⟩ := CS.bwdAxpyTo1 hT hf y ⟨rfl, hy⟩ (by omega)
  subst hp
  exact ⟨x, h1, h2.1, h3⟩

/-- C07 (CCS, upper, transposed). -/
theorem C07_ccs_upper_mrhs_tran (hT : StrictUpper n A.ccs) :
    ∃ x, A.ccsUpperMrhsT N y = .ok x ∧ x.size = y.size ∧
      ∀ c, c < N → SolvesUnit n (herm A.ccs) (col N y.get c) (col N x.get c) := by
  have hf := CS.dotStepN hA hp hs N y.size (fun v => star v) (herm A.ccs)
    (fun j x hj => by rw [CS.line_sum_star hA (by omega), hs]; rfl)
  obtain ⟨x, h1, h2, h3⟩ := CS.fwdDot (CS.herm_upper hT) hf y ⟨rfl, hy⟩
  subst hs
  exact ⟨x, h1, h2.1, h3⟩

/-- C07 (CRS, lower, transposed), partial: the code never processes the last row, so the result is right
only when that row of `L` is empty.  Missing: the general case, refuted by
`C07_crs_lower_mrhs_tran_witness`. -/
theorem C07_crs_lower_mrhs_tran_partial (hn : 0 < n) (hT : StrictLower n A.crs)
    (hlast : ∀ j, A.crs (n - 1) j = 0) :
    ∃ x, A.crsLowerMrhsT N y = .ok x ∧ x.size = y.size ∧
      ∀ c, c < N → SolvesUnit n (herm A.crs) (col N y.get c) (col N x.get c) := by
  have hf := CS.axpyStepRevN hA hp hs N y.size (fun v => star v) (herm A.crs)
    (fun j i t hj => CS.entry_star_mul A j i t)
  have hU := CS.herm_lower hT
  unfold CS.crsLowerMrhsT CS.forDownSkip
  rw [hs, if_neg (by omega)]
  obtain ⟨x, h1, h2, h3⟩ := forDown_runs (n := n - 1) (s := y)
    (f := fun j y => do
      let tmp ← CS.loadRow N y j
      A.forLineRev j y fun c v y => CS.axpyRow N (star v) tmp c y)
    (fun j (s' : Buf K) => (s'.size = y.size ∧ n * N ≤ y.size) ∧ ∀ c, c < N → ∀ i, i < n →
      CS.viewN N s' c i + ∑ l ∈ Ico j n, herm A.crs i l * CS.viewN N s' c l = CS.viewN N y c i)
    ⟨⟨rfl, hy⟩, fun c hc i hi => by
      rw [sum_eq_zero]
      · ring
      · intro l hl
        have hl := mem_Ico.1 hl
        have : l = n - 1 := by omega
        subst this
        simp [herm, hlast]⟩
    (by
      rintro j s' h2 ⟨hV, h3⟩
      refine (hf j s' (by omega) hV).mono ?_
      rintro s'' ⟨hV', h4⟩
      refine ⟨hV', fun c hc i hi => ?_⟩
      have hsame : ∀ l, j ≤ l → l < n → CS.viewN N s'' c l = CS.viewN N s' c l := fun l hl hln => by
        rw [h4 c hc l (by omega), hU l hln j (by omega) hl]; ring
      rw [sum_eq_sum_Ico_succ_bot (by omega), hsame j (le_refl _) (by omega),
        sum_congr rfl (fun l hl => by rw [hsame l (by have := mem_Ico.1 hl; omega)
          (by have := mem_Ico.1 hl; omega)]),
        ← h3 c hc i hi, h4 c hc i hi]
      ring)
  refine ⟨x, h1, h2.1, fun c hc i hi => ?_⟩
  have := h3 c hc i hi
  rwa [Nat.Ico_zero_eq_range] at this

end C07

/-- C07, stated as agreement: the columns of the multi-RHS solves equal the single-RHS solves (lower
and upper, both orders, and the transposed variants that are right). -/
theorem C07_agree_crs_lower (A : CS K) (hA : A.WF) (n : Nat) (hp : A.psize = n) (hs : A.ssize = n)
    (hT : StrictLower n A.crs) (N c : Nat) (hc : c < N) (y b x1 xN : Buf K) (hy : n * N ≤ y.size)
    (hb : n ≤ b.size) (hcol : ∀ i, i < n → b.get i = col N y.get c i)
    (h1 : A.crsLower b = .ok x1) (hN : A.crsLowerMrhs N y = .ok xN) :
    ∀ i, i < n → col N xN.get c i = x1.get i := by
  obtain ⟨x, e, -, h, -⟩ := C05_crs_lower A hA n hp hs b hb hT
  rw [h1] at e; cases e
  obtain ⟨x, e, -, h'⟩ := C07_crs_lower_mrhs A hA n hp hs N y hy hT
  rw [hN] at e; cases e
  exact solvesUnit_lower_unique hT (h' c hc) (fun i hi => by rw [h i hi, hcol i hi])

theorem C07_agree_crs_upper (A : CS K) (hA : A.WF) (n : Nat) (hp : A.psize = n) (hs : A.ssize = n)
    (hn : 0 < n) (hT : StrictUpper n A.crs) (N c : Nat) (hc : c < N) (y b x1 xN : Buf K)
    (hy : n * N ≤ y.size) (hb : n ≤ b.size) (hcol : ∀ i, i < n → b.get i = col N y.get c i)
    (h1 : A.crsUpper b = .ok x1) (hN : A.crsUpperMrhs N y = .ok xN) :
    ∀ i, i < n → col N xN.get c i = x1.get i := by
  obtain ⟨x, e, -, h, -⟩ := C05_crs_upper A hA n hp hs b hb hn hT
  rw [h1] at e; cases e
  obtain ⟨x, e, -, h'⟩ := C07_crs_upper_mrhs A hA n hp hs N y hy hn hT
  rw [hN] at e; cases e
  exact solvesUnit_upper_unique hT (h' c hc) (fun i hi => by rw [h i hi, hcol i hi])

theorem C07_agree_ccs_lower (A : CS K) (hA : A.WF) (n : Nat) (hp : A.psize = n) (hs : A.ssize = n)
    (hT : StrictLower n A.ccs) (N c : Nat) (hc : c < N) (y b x1 xN : Buf K) (hy : n * N ≤ y.size)
    (hb : n ≤ b.size) (hcol : ∀ i, i < n → b.get i = col N y.get c i)
    (h1 : A.ccsLower b = .ok x1) (hN : A.ccsLowerMrhs N y = .ok xN) :
    ∀ i, i < n → col N xN.get c i = x1.get i := by
  obtain ⟨x, e, -, h, -⟩ := C05_ccs_lower A hA n hp hs b hb hT
  rw [h1] at e; cases e
  obtain ⟨x, e, -, h'⟩ := C07_ccs_lower_mrhs A hA n hp hs N y hy hT
  rw [hN] at e; cases e
  exact solvesUnit_lower_unique hT (h' c hc) (fun i hi => by rw [h i hi, hcol i hi])

theorem C07_agree_ccs_upper (A : CS K) (hA : A.WF) (n : Nat) (hp : A.psize = n) (hs : A.ssize = n)
    (hn : 0 < n) (hT : StrictUpper n A.ccs) (N c : Nat) (hc : c < N) (y b x1 xN : Buf K)
    (hy : n * N ≤ y.size) (hb : n ≤ b.size) (hcol : ∀ i, i < n → b.get i = col N y.get c i)
    (h1 : A.ccsUpper b = .ok x1) (hN : A.ccsUpperMrhs N y = .ok xN) :
    ∀ i, i < n → col N xN.get c i = x1.get i := by
  obtain ⟨x, e, -, h, -⟩ := C05_ccs_upper A hA n hp hs b hb hn hT
  rw [h1] at e; cases e
  obtain ⟨x, e, -, h'⟩ := C07_ccs_upper_mrhs A hA n hp hs N y hy hn hT
  rw [hN] at e; cases e
  exact solvesUnit_upper_unique hT (h' c hc) (fun i hi => by rw [h i hi, hcol i hi])

/-- Witness: `CRS::solve_as_strict_lower_mrhs_tran` skips the last row and so does not solve
`(I+L)^H x = b`. -/
theorem C07_crs_lower_mrhs_tran_witness : ∃ (A : CS ℤ) (y x : Buf ℤ), A.WF ∧ A.psize = 3 ∧ A.ssize = 3 ∧
    StrictLower 3 A.crs ∧ y.size = 3 ∧ A.crsLowerMrhsT 1 y = .ok x ∧
    ¬ SolvesUnit 3 (herm A.crs) (col 1 y.get 0) (col 1 x.get 0) := by
  refine ⟨Ex.L3, Buf.ofList [1, 1, 1], _, Ex.L3_wf, rfl, rfl, Ex.L3_lower, rfl, rfl, ?_⟩
  unfold SolvesUnit; decide

/-- Witness: `CCS::solve_as_strict_lower_mrhs_tran` performs no update at all. -/
theorem C07_ccs_lower_mrhs_tran_witness : ∃ (A : CS ℤ) (y x : Buf ℤ), A.WF ∧ A.psize = 3 ∧ A.ssize = 3 ∧
    StrictLower 3 A.ccs ∧ y.size = 3 ∧ A.ccsLowerMrhsT 1 y = .ok x ∧
    ¬ SolvesUnit 3 (herm A.ccs) (col 1 y.get 0) (col 1 x.get 0) := by
  refine ⟨Ex.U3, Buf.ofList [1, 1, 1], _, Ex.U3_wf, rfl, rfl, Ex.U3_ccs_lower, rfl, rfl, ?_⟩
  unfold SolvesUnit; decide

/-- In full generality the CCS transposed lower multi-RHS solve returns its right-hand side unchanged. -/
theorem C07_ccs_lower_mrhs_tran_noop (A : CS K) (hA : A.WF) (n : Nat) (hp : A.psize = n)
    (hs : A.ssize = n) (hn : 0 < n) (N : Nat) (y : Buf K) (hy : n * N ≤ y.size) :
    ∃ x, A.ccsLowerMrhsT N y = .ok x ∧ ∀ c, c < N → ∀ i, col N x.get c i = col N y.get c i := by
  unfold CS.ccsLowerMrhsT CS.forDownSkip
  rw [if_neg (by omega)]
  obtain ⟨x, h1, -, h2⟩ := forDown_runs (n := A.ssize - 1) (s := y) (f := fun j1 y => do
    let lo ← A.start.rd j1
    let tmp ← forUp lo lo (Buf.mk' N (0 : K)) fun k tmp => do
      let c ← A.inds.rd k
      let v ← A.vals.rd k
      CS.accRow N (star v) y c tmp
    CS.subRow N tmp j1 y) (fun _ (s : Buf K) => s.size = y.size ∧ ∀ c, c < N → ∀ i,
      col N s.get c i = col N y.get c i) ⟨rfl, fun _ _ _ => rfl⟩ (by
    rintro j s hj ⟨h1, h2⟩
    have := hA.start_size
    simp only [runs_bind, runs_rd]
    refine ⟨by omega, ?_⟩
    rw [forUp_empty _ _ (le_refl _)]
    simp only [runs_pure]
    refine (CS.subRow_runs N n _ j s (by omega) (by omega) (by simp)).mono ?_
    rintro s' ⟨h3, h4⟩
    refine ⟨by omega, fun c hc i => ?_⟩
    rw [← h2 c hc i]
    show s'.get (i * N + c) = s.get (i * N + c)
    rw [h4 i c hc]; simp)
  exact ⟨x, h1, h2⟩

end Hif.Props
