import Verif.Props.IterScale
import Verif.Props.PartSymmEx

set_option linter.unusedSectionVars false
set_option linter.unusedVariables false

/-!
# Example for C63 with iterative scaling
-/

namespace Hif.Props.ExIter
open Hif Level Spec HIF HM Finset ExLevel

/-- Iterative scaling, matching and AMD; nothing dropped. -/
noncomputable def optsI : Level.Opts ℝ := { ExKer.opts with pre := ⟨2, 2, -1⟩ }

theorem contractI : ScaleContract ExPart.envR optsI := by
  have hrev : ∀ n : Nat, Spec.IsPerm n (fun i => n - 1 - i) := fun n => ⟨fun i hi => by simp only; omega, fun i j hi hj e => by simp only at e; omega⟩
  refine ⟨rfl, fun _ _ => rfl, fun x => abs_nonneg x, fun x hx => abs_eq_zero.1 hx, ExKer.nth_spec, fun _ l => List.Perm.refl l, ExKer.contract.arith,
    fun B => ⟨le_refl _, fun hB hs => ⟨rfl, rfl, rfl, ?_, fun i _ => ⟨one_pos, one_pos⟩⟩⟩, fun m b _ => ⟨_, rfl, le_refl _, hrev m⟩, by decide, fun h => absurd h (by decide)⟩
  refine ⟨fun i hi => ?_, fun i j hi hj e => ?_⟩
  · show ((B.psize : Int) - i).natAbs - 1 < B.psize
    omega
  · have e' : ((B.psize : Int) - i).natAbs - 1 = ((B.psize : Int) - j).natAbs - 1 := e
    omega

/-- `[[0,2],[3,0]]`, 1-based by rows. -/
def in2 : Input ℝ :=
  { raw := RawCS.mk false 2 (Buf.ofList [1, 2, 3]) (Buf.ofList [2, 1]) 2, other := 2, vals := Buf.ofList [2, 3], rowMajor := true }
def raw2 : RawCS := { in2.raw with start := ⟨in2.raw.start.size, fun i => in2.raw.start.get i - 1⟩, inds := ⟨in2.raw.inds.size, fun i => in2.raw.inds.get i - 1⟩ }

theorem valid2 : ValidSquare in2 (fun _ => 0) raw2 2 := by
  refine ⟨rfl, C09_accepted_valid_partial _ _ rfl rfl (by decide), rfl, rfl, rfl, rfl, by decide, rfl, by decide⟩

theorem mat2 (x : Nat → ℝ) : Spec.mulVec 2 (mat true (raw2.toCS 2 in2.vals)) x 0 = 2 * x 1 ∧ Spec.mulVec 2 (mat true (raw2.toCS 2 in2.vals)) x 1 = 3 * x 0 := by
  constructor <;>
  simp [Spec.mulVec, mat, CS.crs, CS.entry, raw2, in2, RawCS.toCS, Buf.ofList, Finset.sum_Ico_eq_sum_range, Finset.sum_range_succ]

theorem inj2 : Injective 2 (mat true (raw2.toCS 2 in2.vals)) := by
  intro x y h
  have h0 := h 0 (by decide)
  have h1 := h 1 (by decide)
  rw [(mat2 x).1, (mat2 y).1] at h0
  rw [(mat2 x).2, (mat2 y).2] at h1
  intro i hi
  match i, hi with
  | 0, _ => linarith
  | 1, _ => linarith

/-- Non-vacuity of `C63_exact_scaled`: with iterative scaling, real arithmetic and an exact dense solver the hypotheses hold, and `[[0,2],[3,0]] x = b` is solved. -/
example (junk : Nat → ℝ) (pv : Pivoting) (b : Buf ℝ) (hb : b.size = 2) :
    ∃ h₁, factorize junk (fun _ => 0) (kernels ExPart.envR optsI (pv == .auto) true { level := fun _ _ _ _ _ => throw (.ub "not used"), dense := exactDense true })
      ⟨pv, false, -1, true⟩ in2 0 { precs := [], work := ⟨0, junk⟩, nsp := none, nspTran := none, stats := fun _ => 0, nrows := 0, ncols := 0 } = (h₁, .ok ()) ∧
    ∃ h₂ x, solve junk b (Buf.mk' 2 0) false 0 h₁ = (h₂, .ok x) ∧ x.size = 2 ∧ 2 * x.get 1 = b.get 0 ∧ 3 * x.get 0 = b.get 1 := by
  have hsz : SizesOK ExPart.envR 2 := fun _ => ⟨⟨(by show 2 ≤ 100; omega), fun _ _ => Nat.one_pos⟩, ⟨(by show 2 ≤ 100; omega), fun _ _ => Nat.one_pos⟩⟩
  have hnd : NoDrop optsI 2 := ⟨le_refl _, le_refl _, by show (0 : ℝ) ≤ 1; norm_num, by show ((2 * 2 : Nat) : ℝ) ≤ 200; norm_num, by show ((2 * 2 : Nat) : ℝ) ≤ 200; norm_num⟩
  obtain ⟨h₁, e1, e2⟩ := C63_exact_scaled ExPart.envR optsI contractI { level := fun _ _ _ _ _ => throw (.ub "not used"), dense := exactDense true } junk (fun _ => 0)
    ⟨pv, false, -1, true⟩ rfl in2 raw2 2 valid2 hsz hnd inj2 0 (fun S _ _ _ _ _ hi => exactDense_exact true 0 S hi)
    { precs := [], work := ⟨0, junk⟩, nsp := none, nspTran := none, stats := fun _ => 0, nrows := 0, ncols := 0 } (fun _ => rfl) rfl
  obtain ⟨h₂, x, s1, s2, s3⟩ := e2 b (Buf.mk' 2 0) hb rfl
  have h0 : Spec.mulVec 2 (mat true (raw2.toCS 2 in2.vals)) x.get 0 = b.get 0 := s3 0 (by decide)
  have h1 : Spec.mulVec 2 (mat true (raw2.toCS 2 in2.vals)) x.get 1 = b.get 1 := s3 1 (by decide)
  rw [(mat2 x.get).1] at h0
  rw [(mat2 x.get).2] at h1
  exact ⟨h₁, e1, h₂, x, s1, s2, h0, h1⟩

end Hif.Props.ExIter
