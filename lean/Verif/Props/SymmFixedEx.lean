import Verif.Props.SymmFixed
import Verif.Props.FactorFixedEx

set_option linter.unusedSectionVars false
set_option linter.unusedVariables false

/-!
# C96: a singular symmetric matrix
-/

namespace Hif.Props.ExSyDef
open Hif Level Spec HIF HM Finset

/-- Non-vacuity of C96 at the singular matrix of C95, with a `?syev` that exists. -/
example (junk : Nat → ℝ) : ∃ (syev : Nat → Buf ℝ → Buf ℝ × Buf ℝ × Int), ∃ h₁,
    factorize junk (fun _ => 0) (allKernels ExQrcp.lenv ExQrcp.lopts ⟨fun a => a, 0⟩ false true
        { level := fun _ _ _ _ _ => throw (.ub "not used"), dense := SyEig.dense (id : ℝ → ℝ) 0 (1 / 1000) srt syev (fun n => 3 * n) true }) ⟨.off, true, -1, true⟩ sing3 0
      { precs := [], work := ⟨0, junk⟩, nsp := none, nspTran := none, stats := fun _ => 0, nrows := 0, ncols := 0 } = (h₁, .ok ()) ∧
    ((∀ r, r ≤ h₁.schurRank → ConsistentSymm r 3 h₁ ∧ (0 < 3 → RefinesSymm r 3 h₁)) ∨
      ∃ (k : Nat) (s : SyEig.St ℝ ℝ) (d : Buf ℝ) (t : Nat), 0 < k ∧ k ≤ 3 ∧ Ends (fun l => l = .symm (SyEig.ops id s)) k h₁.precs 3 ∧ SyEig.Ready k s ∧
          EigDecomp id k d s.mat s.w ∧ t < s.rank ∧ s.w.get (s.order.get t) = 0) := by
  obtain ⟨syev, hs⟩ := C70_syev_exists
  exact ⟨syev, C96_symm_rank ExQrcp.lenv ExQrcp.lopts contract ⟨fun a => a, 0⟩
    { level := fun _ _ _ _ _ => throw (.ub "not used"), dense := SyEig.dense (id : ℝ → ℝ) 0 (1 / 1000) srt syev (fun n => 3 * n) true }
    junk (fun _ => 0) ⟨.off, true, -1, true⟩ rfl sing3 raw3 3 valid_sing3 sym_sing3 pat_sing3 (ExQrcp.sizes 3 (by decide)) id (fun _ h => h) (1 / 1000) srt srt_ok syev (fun n => 3 * n)
    (fun k _ _ => hs k) rfl
    { precs := [], work := ⟨0, junk⟩, nsp := none, nspTran := none, stats := fun _ => 0, nrows := 0, ncols := 0 } (fun _ => rfl)⟩

end Hif.Props.ExSyDef
