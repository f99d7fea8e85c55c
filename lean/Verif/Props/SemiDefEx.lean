import Verif.Props.SemiDef
import Verif.Props.FactorFixedEx

set_option linter.unusedSectionVars false
set_option linter.unusedVariables false

/-!
# C97: a singular positive semidefinite matrix
-/

namespace Hif.Props.ExSyDef
open Hif Level Spec HIF HM Finset

/-- Non-vacuity of C97 at the singular matrix of C95, declared positive definite, with a `?syev` that exists. -/
example (junk : Nat → ℝ) : ∃ (syev : Nat → Buf ℝ → Buf ℝ × Buf ℝ × Int), ∃ h₁,
    factorize junk (fun _ => 0) (allKernels ExQrcp.lenv ExQrcp.lopts ⟨fun a => a, 1⟩ false true
        { level := fun _ _ _ _ _ => throw (.ub "not used"), dense := SyEig.dense (id : ℝ → ℝ) 1 (1 / 1000) srt syev (fun n => 3 * n) true }) ⟨.off, true, -1, true⟩ sing3 0
      { precs := [], work := ⟨0, junk⟩, nsp := none, nspTran := none, stats := fun _ => 0, nrows := 0, ncols := 0 } = (h₁, .ok ()) ∧
    ((∀ r, r ≤ h₁.schurRank → SemiDef 1 r 3 h₁) ∨
      ∃ (k : Nat) (s : SyEig.St ℝ ℝ) (d : Buf ℝ) (t : Nat), 0 < k ∧ k ≤ 3 ∧ Ends (fun l => l = .symm (SyEig.ops id s)) k h₁.precs 3 ∧ SyEig.Ready k s ∧
          EigDecomp id k d s.mat s.w ∧ t < s.rank ∧ 1 * s.w.get (s.order.get t) ≤ 0) := by
  obtain ⟨syev, hs⟩ := C70_syev_exists
  exact ⟨syev, C97_semidefinite ExQrcp.lenv ExQrcp.lopts contract 1 1 (Or.inl ⟨rfl, by decide⟩)
    { level := fun _ _ _ _ _ => throw (.ub "not used"), dense := SyEig.dense (id : ℝ → ℝ) 1 (1 / 1000) srt syev (fun n => 3 * n) true }
    junk (fun _ => 0) ⟨.off, true, -1, true⟩ rfl sing3 raw3 3 valid_sing3 sym_sing3 pat_sing3 (ExQrcp.sizes 3 (by decide)) (1 / 1000) srt srt_ok syev (fun n => 3 * n)
    (fun k _ _ => hs k) rfl
    { precs := [], work := ⟨0, junk⟩, nsp := none, nspTran := none, stats := fun _ => 0, nrows := 0, ncols := 0 } (fun _ => rfl)⟩

end Hif.Props.ExSyDef
