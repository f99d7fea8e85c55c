import Verif.Props.PartSymm
import Verif.Props.LevelEx
import Verif.Props.LevelKernels

set_option linter.unusedVariables false

/-!
# Examples for C84
-/

namespace Hif.Props.ExPart
open Hif Level Spec HIF HM Finset Hif.Props.ExLevel

/-- Non-vacuity of C84 (exactness), and an instance of it: the symmetric 1-based input `[[2,0,1],[0,4,1],[1,1,0]]` with `m0 = 3`, all pivoting modes. -/
example (junk : Nat → ℚ) (pv : Pivoting) : ∃ h₁, factorize junk (fun _ => 0) (partKernels env opts (pv == .auto) true other) ⟨pv, false, -1, true⟩ in3 3
      { precs := [], work := ⟨0, junk⟩, nsp := none, nspTran := none, stats := fun _ => 0, nrows := 0, ncols := 0 } = (h₁, .ok ()) ∧
    ∃ h₂ x, solve junk (Buf.ofList [3, 5, 2]) (Buf.mk' 3 0) false 0 h₁ = (h₂, .ok x) ∧ x.size = 3 ∧
      ∀ i, i < 3 → Spec.mulVec 3 (mat true (raw3.toCS 3 in3.vals)) x.get i = (Buf.ofList [3, 5, 2]).get i := by
  have hl : LeadingBlock env opts true (raw3.toCS 3 in3.vals) 3 3 := by
    refine ⟨by decide, le_refl _, ?_, Or.inl rfl, fun _ => rfl, fun h => by cases h⟩
    have : ∀ i, i < 3 → ∀ j, j < 3 → mat true (raw3.toCS 3 in3.vals) i j = mat true (raw3.toCS 3 in3.vals) j i := by decide +kernel
    exact fun i j hi hj => this i hi j hj
  obtain ⟨h₁, e1, e2⟩ := C84_exact env opts contract other junk (fun _ => 0) ⟨pv, false, -1, true⟩ rfl in3 raw3 3 valid3 (sizes 3 (by decide)) 3 hl
    (noDrop 3 (by decide)) inj3 0 (fun S _ _ _ _ _ hi => exactDense_exact true 0 S hi)
    { precs := [], work := ⟨0, junk⟩, nsp := none, nspTran := none, stats := fun _ => 0, nrows := 0, ncols := 0 } (fun _ => rfl) rfl
  obtain ⟨h₂, x, s1, s2, s3⟩ := e2 (Buf.ofList [3, 5, 2]) (Buf.mk' 3 0) rfl rfl
  exact ⟨h₁, e1, h₂, x, s1, s2, s3⟩

/-! ### a leading block smaller than the matrix -/

/-- `[[2,1,1],[1,3,0],[4,1,5]]`: the leading 2×2 block is symmetric, the matrix is not. -/
def P3 {K : Type} [Inhabited K] [OfNat K 1] [OfNat K 2] [OfNat K 3] [OfNat K 4] [OfNat K 5] : CS K :=
  Ex.mk 3 3 [0, 3, 5, 8] [0, 1, 2, 0, 1, 0, 1, 2] [2, 1, 1, 1, 3, 4, 1, 5]

/-- Real arithmetic with preprocessing. -/
noncomputable def envR : Env ℝ ℝ := { ExKer.env with pre := ExPre.kerR }

theorem contractR : LevelContract envR ExKer.opts := by
  have hrev : ∀ n : Nat, Spec.IsPerm n (fun i => n - 1 - i) := fun n => ⟨fun i hi => by simp only; omega, fun i j hi hj e => by simp only at e; omega⟩
  refine ⟨rfl, fun _ _ => rfl, fun x => abs_nonneg x, ExKer.nth_spec, fun _ l => List.Perm.refl l, Or.inr ⟨ExKer.contract.arith, fun B => ⟨le_refl _, fun hB hs => ⟨rfl, rfl, rfl, ?_, fun i _ =>
      ⟨one_pos, one_pos⟩⟩⟩, fun m b _ => ⟨_, rfl, le_refl _, hrev m⟩, by decide, by decide, Or.inr rfl, fun h => absurd h (by decide)⟩⟩
  refine ⟨fun i hi => ?_, fun i j hi hj e => ?_⟩
  · show ((B.psize : Int) - i).natAbs - 1 < B.psize
    omega
  · have e' : ((B.psize : Int) - i).natAbs - 1 = ((B.psize : Int) - j).natAbs - 1 := e
    omega

theorem leadR : LeadingBlock envR ExKer.opts true (P3 (K := ℝ)) 3 2 := by
  refine ⟨by decide, by decide, ?_, Or.inr ⟨0, 1, by decide, by decide, ⟨1, by decide, by decide, rfl⟩⟩, fun h => absurd h (by decide), fun h => absurd h (by decide)⟩
  have h01 : mat true (P3 (K := ℝ)) 0 1 = mat true (P3 (K := ℝ)) 1 0 := by
    simp [mat, CS.crs, CS.entry, P3, Ex.mk, Buf.ofList, Finset.sum_Ico_eq_sum_range, Finset.sum_range_succ]
  intro i j hi hj
  have : i = 0 ∨ i = 1 := by omega
  have : j = 0 ∨ j = 1 := by omega
  rcases ‹i = 0 ∨ i = 1› with rfl | rfl <;> rcases ‹j = 0 ∨ j = 1› with rfl | rfl
  · rfl
  · exact h01
  · exact h01.symm
  · rfl

/-- Non-vacuity of C84 (level): the matrix meets all hypotheses with `m0 = 2`. -/
example : ∃ out, partLevel envR ExKer.opts false true 1 3 2 P3 = .ok out := by
  obtain ⟨out, h, -⟩ := C84_level contractR false true 1 3 2 P3 (by constructor <;> decide) ⟨rfl, rfl, rfl⟩ (ExPre.sorted_of_bounded (by decide)) rfl
    (fun lvl => ⟨⟨by show 3 ≤ 100; omega, fun _ _ => by show 0 < 1; omega⟩, by show 3 ≤ 100; omega, fun _ _ => by show 0 < 1; omega⟩) leadR
  exact ⟨out, h⟩

/-- The run with a matching that returns the identity, in exact rational arithmetic: both leading unknowns are eliminated with one factor, the third one
is left with the exact Schur complement. -/
def envQ : Env ℚ ℚ := { env with pre := { ExPre.kerQ with
  mc64 := fun B => { info := 0, perm := ⟨B.psize, fun i => (i : Int) + 1⟩, s := Buf.mk' B.psize 1, t := Buf.mk' B.psize 1 },
  amd := fun m _ => .ok ⟨m, fun i => i⟩ } }

def optsQ : Level.Opts ℚ := { opts with noPre := false, pre := ⟨2, 0, 0⟩ }

example : (partLevel envQ optsQ false true 1 3 2 P3).map (fun o => (o.m2, o.m, [o.d.toList.take 2, o.L.vals.toList, o.U.vals.toList, o.schur.vals.toList])) =
    .ok (2, 2, [[2, 5/2], [1/2], [1/2], [14/5]]) := by decide +kernel

/-- Discrepancy 71: without preprocessing the leading block is the whole matrix, whatever `m0` is: `[[2,1],[3,4]]` with `m0 = 1` (a symmetric block, as every
1×1 block is) is factorized as if it were `[[2,1],[1,4]]`. -/
theorem C84_noPre_wrong :
    (partLevel env opts false true 1 2 1 (Ex.mk 2 2 [0, 2, 4] [0, 1, 0, 1] [2, 1, 3, 4])).map
      (fun o => (o.m2, o.m, [o.d.toList.take 2, o.L.vals.toList, o.U.vals.toList])) = .ok (2, 2, [[2, 7/2], [1/2], [1/2]]) ∧
    (plainLevel env opts false true 1 2 2 (Ex.mk 2 2 [0, 2, 4] [0, 1, 0, 1] [2, 1, 3, 4])).map
      (fun o => (o.m2, o.m, [o.d.toList.take 2, o.L.vals.toList, o.U.vals.toList])) = .ok (2, 2, [[2, 5/2], [3/2], [1/2]]) := by decide +kernel

end Hif.Props.ExPart
