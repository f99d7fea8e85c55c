import Verif.Props.Converge
import Verif.Props.IterScale

set_option linter.unusedSectionVars false
set_option linter.unusedVariables false

/-!
# C87: a factorization serves nearby matrices
-/

namespace Hif.Props
open Hif Level Spec HIF HM Finset
variable {K R : Type} [Field K] [StarRing K] [DecidableEq K] [Inhabited K] [Field R] [LinearOrder R] [IsStrictOrderedRing R] [FloorSemiring R]

section
variable (e : Env K R) (o : Level.Opts R) (hc : LevelContract e o) (other : Kernels K) (junk : Nat → K) (ijunk : Nat → Int)
  (opts : FacOpts) (hsy : opts.isSymm = false) (A : Input K) (raw : RawCS) (n : Nat) (hA : ValidSquare A ijunk raw n) (hsz : SizesOK e n)
include hc hsy hA hsz

/-- **C87 (end to end).** Factorize a valid nonsingular matrix `A` with nothing dropped, whatever the object held before; then refine with another matrix `A'` (any storage) such that
`‖(A - A') z‖ ≤ ρ ‖A z‖` for all `z`, `ρ < 1`.  The refinement reduces the residual of the *other* system by `ρ` per iteration, and the refinement with bounds reports success for every
right-hand side with a positive norm once enough iterations are allowed. -/
theorem C87_nearby [Archimedean R] (hpos : 0 < n) (hnd : NoDrop o n) (hinj : Injective n (mat A.rowMajor (raw.toCS n A.vals))) (rk : Nat)
    (hd : ∀ S : CS K, S.WF → S.Sorted → S.ssize = S.psize → 0 < S.psize → S.psize ≤ n → Injective S.psize (mat A.rowMajor S) →
      (other.dense false S).2 = none ∧ Prec.DenseExact rk S.psize (mat A.rowMajor S) (other.dense false S).1)
    (h : HIF K) (hw : h.empty = true → h.work.size = 0) (hns : h.nsp = none)
    (A' : Operator K) (T' : Nat → Nat → K) (hA' : OpOK A' n T') (norm : Buf K → R)
    (hnm : ∀ v w : Buf K, v.size = n → w.size = n → (∀ i, i < n → v.get i = w.get i) → norm v = norm w) (ρ : R) (h0 : 0 ≤ ρ) (h1 : ρ < 1)
    (hB : ∀ z : Nat → K, norm ⟨n, fun i => mulVec n (mat A.rowMajor (raw.toCS n A.vals)) z i - mulVec n T' z i⟩ ≤
      ρ * norm ⟨n, mulVec n (mat A.rowMajor (raw.toCS n A.vals)) z⟩) :
    ∃ h₁, factorize junk ijunk (kernels e o (opts.pivot == .auto) A.rowMajor other) opts A 0 h = (h₁, .ok ()) ∧
      (∀ N, ∀ b x : Buf K, b.size = n → x.size = n → ∃ h₂ y, hifir junk A' b N x false rk h₁ = (h₂, .ok y) ∧ y.size = n ∧
        norm ⟨n, fun i => b.get i - mulVec n T' y.get i⟩ ≤ ρ ^ max N 1 * norm b) ∧
      ∀ β₀ β₁ : R, 0 < β₀ → ρ ≤ β₁ → ∃ N₀, ∀ N, N₀ ≤ N → ∀ b x : Buf K, b.size = n → x.size = n → 0 < norm b →
        ∃ h₂ y iters, hifirBounded junk A' norm b N β₀ β₁ x false rk h₁ = (h₂, .ok (y, iters, 0)) ∧ iters < N₀ ∧
          norm ⟨n, fun i => b.get i - mulVec n T' y.get i⟩ ≤ β₀ * norm b := by
  obtain ⟨h₁, S, e1, hg, hr, hn, hcols, hM⟩ := exact_state_of e o hc.envOK other junk ijunk opts hsy A raw n hA hsz (hc.prepOK _) hnd hinj rk hd h hw
  have hν : OnFirst n (fun v : Nat → K => norm ⟨n, v⟩) := fun u v huv => hnm _ _ rfl rfl huv
  have hcon : ContractsResidual (Inv (mat A.rowMajor S) h₁.precs n false) T' n (fun v : Nat → K => norm ⟨n, v⟩) ρ := C87_perturbation hν hM hB
  have hcols' : h₁.ncols = n := by rw [hcols]; unfold Input.ncols; rw [hA.other, hA.dim', ite_self]
  have hn' : (if false = true then h₁.nspTran else h₁.nsp) = none := by rw [if_neg (by simp), hn, hns]
  refine ⟨h₁, e1, fun N b x hb hx => ?_, fun β₀ β₁ hβ0 hβ1 => ?_⟩
  · obtain ⟨h₂, y, q1, q2, q3⟩ := C87_residual junk h₁ rk (mat A.rowMajor S) S.psize n hg hr false hn' hcols' hpos A' T' hA' _ hν ρ h0 hcon b x hb hx N
    refine ⟨h₂, y, q1, q2, ?_⟩
    rw [← hnm ⟨n, b.get⟩ b rfl hb fun _ _ => rfl]
    exact q3
  · exact C87_reaches junk h₁ rk (mat A.rowMajor S) S.psize n hg hr false hn' hcols' hpos A' T' hA' norm hnm ρ h0 h1 hcon β₀ β₁ hβ0 hβ1

end

/-! ## Non-vacuity -/

namespace ExConv
open ExLevel

/-- The matrix of `ExLevel` with all entries multiplied by 11/10. -/
def B3 : CS ℚ := Ex.mk 3 3 [0, 2, 4, 6] [0, 2, 1, 2, 0, 1] [11/5, 11/10, 22/5, 11/10, 11/10, 11/10]

/-- The sum of the magnitudes. -/
def norm1 (v : Buf ℚ) : ℚ := ∑ i ∈ range v.size, |v.get i|

theorem nearby (z : Nat → ℚ) : norm1 ⟨3, fun i => Spec.mulVec 3 (mat true (raw3.toCS 3 in3.vals)) z i - Spec.mulVec 3 B3.crs z i⟩ ≤
    1 / 10 * norm1 ⟨3, Spec.mulVec 3 (mat true (raw3.toCS 3 in3.vals)) z⟩ := by
  have hT : ∀ i, i < 3 → ∀ j, j < 3 → B3.crs i j = 11 / 10 * mat true (raw3.toCS 3 in3.vals) i j := by decide +kernel
  have hm : ∀ i, i < 3 → Spec.mulVec 3 B3.crs z i = 11 / 10 * Spec.mulVec 3 (mat true (raw3.toCS 3 in3.vals)) z i := by
    intro i hi
    unfold Spec.mulVec
    rw [mul_sum]
    exact sum_congr rfl fun j hj => by rw [hT i hi j (mem_range.1 hj)]; ring
  unfold norm1
  rw [mul_sum]
  refine le_of_eq (sum_congr rfl fun i hi => ?_)
  show |_ - _| = 1 / 10 * |_|
  rw [hm i (mem_range.1 hi), show ∀ a : ℚ, a - 11 / 10 * a = - (1 / 10 * a) from fun a => by ring, abs_neg, abs_mul]
  norm_num

/-- An instance of C87 (end to end): the factorization of the matrix of `ExLevel` serves the matrix with all entries 10 % larger; every iteration gains a decimal digit. -/
example (junk : Nat → ℚ) (pv : Pivoting) : ∃ h₁, factorize junk (fun _ => 0) (kernels env opts (pv == .auto) true other) ⟨pv, false, -1, true⟩ in3 0
      { precs := [], work := ⟨0, junk⟩, nsp := none, nspTran := none, stats := fun _ => 0, nrows := 0, ncols := 0 } = (h₁, .ok ()) ∧
    ∀ N, ∃ h₂ y, hifir junk (fun t x y => if t then B3.crsMultiplyT x y else B3.crsMultiplyNt x y) (Buf.ofList [3, 5, 2]) N (Buf.mk' 3 0) false 0 h₁ = (h₂, .ok y) ∧
      norm1 ⟨3, fun i => (Buf.ofList [3, 5, 2]).get i - Spec.mulVec 3 B3.crs y.get i⟩ ≤ (1 / 10) ^ max N 1 * norm1 (Buf.ofList [3, 5, 2]) := by
  obtain ⟨h₁, e1, e2, -⟩ := C87_nearby env opts ExLevel.contract other junk (fun _ => 0) ⟨pv, false, -1, true⟩ rfl in3 raw3 3 valid3 (sizes 3 (by decide)) (by decide)
    (noDrop 3 (by decide)) inj3 0 (fun S _ _ _ _ _ hi => exactDense_exact true 0 S hi)
    { precs := [], work := ⟨0, junk⟩, nsp := none, nspTran := none, stats := fun _ => 0, nrows := 0, ncols := 0 } (fun _ => rfl) rfl
    _ B3.crs (opOK_crs B3 (by constructor <;> decide) 3 (by decide) rfl rfl) norm1
    (fun v w hv hw huv => by unfold norm1; rw [hv, hw]; exact sum_congr rfl fun i hi => by rw [huv i (mem_range.1 hi)]) (1 / 10) (by norm_num) (by norm_num) nearby
  exact ⟨h₁, e1, fun N => by
    obtain ⟨h₂, y, q1, -, q3⟩ := e2 N (Buf.ofList [3, 5, 2]) (Buf.mk' 3 0) rfl rfl
    exact ⟨h₂, y, q1, q3⟩⟩

end ExConv
end Hif.Props
