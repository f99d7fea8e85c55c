import Verif.Props.Fill
import Verif.Props.SymmEx

set_option linter.unusedSectionVars false
set_option linter.unusedVariables false

/-!
# Examples for C86
-/

namespace Hif.Props.ExFill
open Hif Level Spec HIF HM Finset ExLevel ExSymm

/-- Space limiters 1 and thresholds 1/1000. -/
def optsF : Level.Opts ℚ := { opts with par := ⟨false, 1, 100, 1 / 1000, 1 / 1000, 1, 1⟩ }

theorem contractF : LevelContract env optsF := ⟨rfl, fun _ _ => rfl, fun x => abs_nonneg x, nth_spec, fun _ _ => List.perm_insertionSort _ _, Or.inl rfl⟩
theorem contractFS : SymmContract env optsF := ⟨rfl, fun _ _ => rfl, fun x => abs_nonneg x, nth_spec, fun _ _ => List.perm_insertionSort _ _, Or.inl rfl⟩

/-- The reference sizes of the input with 6 entries in 3 rows, and those handed on by a level which eliminates two of the three unknowns. -/
example : (Sizes.init false true (raw3.toCS 3 in3.vals)).map (fun z => (z.rows.toList, z.cols.toList)) = .ok ([2, 2, 2], [2, 2, 2]) ∧
    (Sizes.init true true (raw3.toCS 3 in3.vals)).map (fun z => (z.rows.toList, z.cols.toList)) = .ok ([2, 2, 2], []) := by decide +kernel

/-- A skewed matrix, `[[1,1,1,1],[0,1,0,0],[0,0,1,0],[0,0,0,1]]`: the sizes differ for rows and columns. -/
def A4s : CS ℚ := Ex.mk 4 4 [0, 4, 5, 6, 7] [0, 1, 2, 3, 1, 2, 3] [1, 1, 1, 1, 1, 1, 1]

example : (Sizes.init false true A4s).map (fun z => (z.rows.toList, z.cols.toList)) = .ok ([4, 2, 2, 2], [2, 2, 2, 2]) ∧
    (Sizes.init false false A4s).map (fun z => (z.rows.toList, z.cols.toList)) = .ok ([2, 2, 2, 2], [4, 2, 2, 2]) := by decide +kernel

/-- Non-vacuity of C86 (linear memory), and an instance of it: for the input with 6 entries, any pivoting and any dense solver, `U` has at most
`8 (1.85 · 6 + 3) + 3` entries. -/
example (junk : Nat → ℚ) (pv : Pivoting) (x : SymmPar ℚ ℚ) (dense : Bool → CS ℚ → DenseOps ℚ × Option Err) :
    ((((sizedFactorize junk (fun _ => 0) (sizedKernels env optsF x (pv == .auto) true dense) (Sizes.init false true) (Sizes.next false) ⟨pv, false, -1, true⟩ in3 0
        (new junk)).1.precs.map fun P => P.U.nnz).sum : Nat) : ℚ) ≤ 8 * 1 * (185 / 100 * 6 + 3) + 3 :=
  (C86_linear env optsF contractF x dense junk (fun _ => 0) ⟨pv, false, -1, true⟩ rfl in3 raw3 3 valid3 (by decide) (by norm_num [optsF]) (by norm_num [optsF]) (new junk)).1

/-- Non-vacuity of C86 (exactness), and an instance of it. -/
example (junk : Nat → ℚ) (pv : Pivoting) (x : SymmPar ℚ ℚ) :
    ∃ h₁, sizedFactorize junk (fun _ => 0) (sizedKernels env opts x (pv == .auto) true (exactDense true)) (Sizes.init false true) (Sizes.next false) ⟨pv, false, -1, true⟩
      in3 0 (new junk) = (h₁, .ok ()) ∧
    ∃ h₂ z, solve junk (Buf.ofList [3, 5, 2]) (Buf.mk' 3 0) false 0 h₁ = (h₂, .ok z) ∧ z.size = 3 ∧
      ∀ i, i < 3 → Spec.mulVec 3 (mat true (raw3.toCS 3 in3.vals)) z.get i = (Buf.ofList [3, 5, 2]).get i := by
  obtain ⟨h₁, e1, e2⟩ := C86_exact env opts ExLevel.contract x (exactDense true) junk (fun _ => 0) ⟨pv, false, -1, true⟩ rfl in3 raw3 3 valid3 (by decide)
    (noDrop 3 (by decide)) inj3 0 (fun S _ _ _ _ _ hi => exactDense_exact true 0 S hi) (new junk) (fun _ => rfl) rfl
  obtain ⟨h₂, z, s1, s2, s3⟩ := e2 (Buf.ofList [3, 5, 2]) (Buf.mk' 3 0) rfl rfl
  exact ⟨h₁, e1, h₂, z, s1, s2, s3⟩

/-- Non-vacuity of the symmetric part: linear memory … -/
example (junk : Nat → ℚ) (x : SymmPar ℚ ℚ) (dense : Bool → CS ℚ → DenseOps ℚ × Option Err) :
    ((((sizedFactorize junk (fun _ => 0) (sizedKernels env optsF x false true dense) (Sizes.init true true) (Sizes.next true) ⟨.off, true, -1, true⟩ in3 0
        (new junk)).1.precs.map fun P => P.U.nnz).sum : Nat) : ℚ) ≤ 2 * 1 * (185 / 100 * 6 + 3) + 3 :=
  (C86_linear_symm env optsF contractFS x dense junk (fun _ => 0) ⟨.off, true, -1, true⟩ rfl in3 raw3 3 valid3 (by decide) raw3_sym raw3_pat (by norm_num [optsF])
    (new junk)).1

/-- … and exactness. -/
example (junk : Nat → ℚ) (x : SymmPar ℚ ℚ) :
    ∃ h₁, sizedFactorize junk (fun _ => 0) (sizedKernels env opts x false true (exactDense true)) (Sizes.init true true) (Sizes.next true) ⟨.off, true, -1, true⟩
      in3 0 (new junk) = (h₁, .ok ()) ∧
    ∃ h₂ z, solve junk (Buf.ofList [3, 5, 2]) (Buf.mk' 3 0) false 0 h₁ = (h₂, .ok z) ∧ z.size = 3 ∧
      ∀ i, i < 3 → Spec.mulVec 3 (mat true (raw3.toCS 3 in3.vals)) z.get i = (Buf.ofList [3, 5, 2]).get i := by
  obtain ⟨h₁, e1, e2⟩ := C86_exact_symm env opts ExSymm.contract x (exactDense true) junk (fun _ => 0) ⟨.off, true, -1, true⟩ rfl in3 raw3 3 valid3 (by decide)
    raw3_sym raw3_pat (noDrop 3 (by decide)) inj3 0 (fun S _ _ _ hi => dense_exact 0 S hi) (new junk) (fun _ => rfl) rfl
  obtain ⟨h₂, z, s1, s2, s3⟩ := e2 (Buf.ofList [3, 5, 2]) (Buf.mk' 3 0) rfl rfl
  exact ⟨h₁, e1, h₂, z, s1, s2, s3⟩

end Hif.Props.ExFill
