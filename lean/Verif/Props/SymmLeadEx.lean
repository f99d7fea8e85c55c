import Verif.Props.SymmLead
import Verif.Props.SymmEx
import Verif.Props.PartSymmEx

set_option linter.unusedVariables false

/-!
# Examples for C85
-/

namespace Hif.Props.ExSymmLead
open Hif Level Spec HIF HM Finset ExLevel ExSymm ExPart

/-- The input `[[2,0,1],[0,4,1],[1,1,0]]` with a leading block of dimension two. -/
theorem lead3 : LeadCS (raw3.toCS 3 in3.vals) 2 := by
  have h : ∃ k, (raw3.toCS 3 in3.vals).start.get 0 ≤ k ∧ k < (raw3.toCS 3 in3.vals).start.get 1 ∧ (raw3.toCS 3 in3.vals).inds.get k = 0 := ⟨0, by decide +kernel⟩
  exact ⟨by decide, by decide, Or.inr ⟨0, 0, by decide, by decide, h⟩⟩

/-- Non-vacuity of C85 (exactness), and an instance of it. -/
example (junk : Nat → ℚ) (spd : Int) :
    ∃ h₁, factorize junk (fun _ => 0) (allKernels env opts ⟨fun a => a, spd⟩ false true other) ⟨.off, true, -1, true⟩ in3 2 (new junk) = (h₁, .ok ()) ∧
    ∃ h₂ x, solve junk (Buf.ofList [3, 5, 2]) (Buf.mk' 3 0) false 0 h₁ = (h₂, .ok x) ∧ x.size = 3 ∧
      ∀ i, i < 3 → Spec.mulVec 3 (mat true (raw3.toCS 3 in3.vals)) x.get i = (Buf.ofList [3, 5, 2]).get i := by
  obtain ⟨h₁, e1, e2⟩ := C85_exact env opts contract ⟨fun a => a, spd⟩ other junk (fun _ => 0) ⟨.off, true, -1, true⟩ rfl in3 raw3 3 valid3 raw3_sym raw3_pat
    (sizes 3 (by decide)) 2 lead3 (noDrop 3 (by decide)) inj3 0 (fun S _ _ _ hi => dense_exact 0 S hi) (new junk) (fun _ => rfl) rfl
  obtain ⟨h₂, x, s1, s2, s3⟩ := e2 (Buf.ofList [3, 5, 2]) (Buf.mk' 3 0) rfl rfl
  exact ⟨h₁, e1, h₂, x, s1, s2, s3⟩

/-- The contract with preprocessing is met by real arithmetic with the kernels of C84 … -/
theorem contractR : SymmContract envR ExKer.opts := by
  have h := ExPart.contractR
  refine ⟨h.one, h.mul, h.nrm, h.nth, h.srt, ?_⟩
  rcases h.pre with h0 | ⟨a1, a2, a3, a4, a5, a6, -⟩
  · exact absurd h0 (by decide)
  · exact Or.inr ⟨a1, a2, a3, fun m b hb _ => a3 m b hb, a4, by omega, a6⟩

/-- `[[0,1,2],[1,1,0],[2,0,1]]`. -/
def S3 {K : Type} [Inhabited K] [OfNat K 1] [OfNat K 2] : CS K := Ex.mk 3 3 [0, 2, 4, 6] [1, 2, 0, 1, 0, 2] [1, 2, 1, 1, 2, 1]

theorem S3_pat : (S3 (K := ℝ)).PatSym := by
  have h : ∀ i, i < 3 → ∀ j, j < 3 → (∃ k, k < (S3 (K := ℚ)).start.get (i + 1) ∧ (S3 (K := ℚ)).start.get i ≤ k ∧ (S3 (K := ℚ)).inds.get k = j) →
      ∃ k, k < (S3 (K := ℚ)).start.get (j + 1) ∧ (S3 (K := ℚ)).start.get j ≤ k ∧ (S3 (K := ℚ)).inds.get k = i := by decide
  rintro i j hi hj ⟨k, h1, h2, h3⟩
  obtain ⟨k, h1, h2, h3⟩ := h i hi j hj ⟨k, h2, h1, h3⟩
  exact ⟨k, h2, h1, h3⟩

/-- … and `[[0,1,2],[1,1,0],[2,0,1]]` meets the hypotheses of the level with `m0 = 2`. -/
example : ∃ out, symmLevel envR ExKer.opts ⟨fun a => a, 0⟩ true 1 3 2 S3 = .ok out ∧ out.m2 ≤ 2 := by
  obtain ⟨out, h, -, -, h2, -⟩ := C85_level contractR ⟨fun a => a, 0⟩ true 1 3 2 S3
    ⟨by constructor <;> decide, ⟨rfl, rfl, rfl⟩, ExPre.sorted_of_bounded (by decide), rfl, by
      intro i j hi hj
      have : i = 0 ∨ i = 1 ∨ i = 2 := by have : i < 3 := hi; omega
      have : j = 0 ∨ j = 1 ∨ j = 2 := by have : j < 3 := hj; omega
      rcases ‹i = 0 ∨ i = 1 ∨ i = 2› with rfl | rfl | rfl <;> rcases ‹j = 0 ∨ j = 1 ∨ j = 2› with rfl | rfl | rfl <;>
        simp [S3, CS.entry, Ex.mk, Buf.ofList, Finset.sum_Ico_eq_sum_range, Finset.sum_range_succ],
      S3_pat⟩
    ⟨by decide, by decide, Or.inr ⟨0, 1, by decide, by decide, ⟨0, by decide, by decide, rfl⟩⟩⟩
    (fun lvl => ⟨⟨by show 3 ≤ 100; omega, fun _ _ => by show 0 < 1; omega⟩, by show 3 ≤ 100; omega, fun _ _ => by show 0 < 1; omega⟩)
  exact ⟨out, h, h2 rfl⟩

/-- With preprocessing and `m0 = 2` two unknowns are tried and eliminated; with `m0 = 1` one is. -/
example : (symmLevel envQ optsQ ⟨fun a => a, 0⟩ true 1 3 2 A3).map (fun o => (o.m2, o.m, [o.stats 0, o.stats 1], [o.d.toList.take 2, o.schur.vals.toList])) =
      .ok (2, 2, [0, 0], [[2, 4], [-3/4]]) ∧
    (symmLevel envQ optsQ ⟨fun a => a, 0⟩ true 1 3 1 A3).map (fun o => (o.m2, o.m, [o.stats 0, o.stats 1])) = .ok (1, 1, [0, 0]) ∧
    (symmLevel envQ optsQ ⟨fun a => a, -1⟩ true 1 3 2 A3).map (fun o => (o.m2, o.m, [o.stats 0, o.stats 1])) = .ok (2, 0, [2, 0]) := by
  decide +kernel

end Hif.Props.ExSymmLead
