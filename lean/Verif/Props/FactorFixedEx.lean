import Verif.Props.FactorFixed
import Verif.Props.QrcpEx
import Verif.Props.SyEigDefEx

set_option linter.unusedSectionVars false
set_option linter.unusedVariables false

/-!
# C95: a singular matrix
-/

namespace Hif.Props.ExQrcp
open Hif Level Spec HIF HM Finset Qrcp

/-- `[[1,0,1],[0,1,-1],[1,1,0]]` by rows, 1-based: the last row is the sum of the others. -/
noncomputable def sing3 : Input ℝ :=
  { raw := RawCS.mk false 3 (Buf.ofList [1, 3, 5, 7]) (Buf.ofList [1, 3, 2, 3, 1, 2]) 6, other := 3, vals := Buf.ofList [1, 1, 1, -1, 1, 1], rowMajor := true }

theorem valid_sing3 : ValidSquare sing3 (fun _ => 0) raw3 3 := by
  refine ⟨rfl, C09_accepted_valid_partial _ _ rfl rfl (by decide), rfl, rfl, rfl, rfl, by decide, rfl, by decide⟩

/-- It is singular. -/
example : ¬ Injective 3 (mat true (raw3.toCS 3 sing3.vals)) := by
  intro h
  have := h (fun i => if i = 0 then 1 else if i = 1 then -1 else -1) (fun _ => 0) (fun i hi => by
    unfold Spec.mulVec
    simp only [sum_range_succ, range_zero, sum_empty, zero_add]
    interval_cases i <;> simp [mat, CS.crs, CS.entry, RawCS.toCS, raw3, sing3, Buf.ofList, sum_Ico_eq_sum_range, sum_range_succ]) 0 (by decide)
  simp at this

/-- Non-vacuity of C95, and an instance of it. -/
example (junk : Nat → ℝ) (pv : Pivoting) : ∃ h₁, factorize junk (fun _ => 0) (kernels lenv lopts (pv == .auto) true other) ⟨pv, false, -1, true⟩ sing3 0
      { precs := [], work := ⟨0, junk⟩, nsp := none, nspTran := none, stats := fun _ => 0, nrows := 0, ncols := 0 } = (h₁, .ok ()) ∧ h₁.ncols = 3 ∧
    ((∀ r, r ≤ h₁.schurRank → Consistent r 3 h₁) ∨ ∃ S : CS ℝ, 0 < S.psize ∧ S.psize ≤ 3 ∧ (∀ i j, i < S.psize → j < S.psize → mat true S i j = 0) ∧
      Ends (fun l => l = .dense (Qrcp.dense env true false S).1) S.psize h₁.precs 3) :=
  C95_factorize_consistent lenv lopts contract other junk (fun _ => 0) ⟨pv, false, -1, true⟩ rfl sing3 raw3 3 valid_sing3 (sizes 3 (by decide))
    env env_laic1 env_nrm (by simp [env]) (fun k hk _ m _ => env_geqp3 hk m) rfl
    { precs := [], work := ⟨0, junk⟩, nsp := none, nspTran := none, stats := fun _ => 0, nrows := 0, ncols := 0 } (fun _ => rfl)

end Hif.Props.ExQrcp

namespace Hif.Props.ExSyDef
open Hif Level Spec HIF HM Finset

/-- `[[2,0,1],[0,4,1],[1,1,3/4]]` by rows, 1-based: positive semidefinite and singular. -/
noncomputable def sing3 : Input ℝ :=
  { raw := RawCS.mk false 3 (Buf.ofList [1, 3, 5, 8]) (Buf.ofList [1, 3, 2, 3, 1, 2, 3]) 7, other := 3, vals := Buf.ofList [2, 1, 4, 1, 1, 1, 3 / 4], rowMajor := true }

theorem valid_sing3 : ValidSquare sing3 (fun _ => 0) raw3 3 := by
  refine ⟨rfl, C09_accepted_valid_partial _ _ rfl rfl (by decide), rfl, rfl, rfl, rfl, by decide, rfl, by decide⟩

theorem mat_sing3 : ∀ i, i < 3 → ∀ j, j < 3 → mat true (raw3.toCS 3 sing3.vals) i j = ([[2, 0, 1], [0, 4, 1], [1, 1, 3 / 4]].getD i []).getD j (0 : ℝ) := by
  intro i hi j hj
  interval_cases i <;> interval_cases j <;> simp [mat, CS.crs, CS.entry, RawCS.toCS, raw3, sing3, Buf.ofList, sum_Ico_eq_sum_range, sum_range_succ]

theorem sym_sing3 : SymMat 3 (mat true (raw3.toCS 3 sing3.vals)) := by
  intro i j hi hj
  rw [mat_sing3 i hi j hj, mat_sing3 j hj i hi]
  interval_cases i <;> interval_cases j <;> simp

theorem pat_sing3 : (raw3.toCS 3 sing3.vals).PatSym := pat3

/-- It is singular. -/
example : ¬ Injective 3 (mat true (raw3.toCS 3 sing3.vals)) := by
  intro h
  have := h (fun i => if i = 0 then -2 else if i = 1 then -1 else 4) (fun _ => 0) (fun i hi => by
    unfold Spec.mulVec
    simp only [sum_range_succ, range_zero, sum_empty, zero_add]
    rw [mat_sing3 i hi 0 (by decide), mat_sing3 i hi 1 (by decide), mat_sing3 i hi 2 (by decide)]
    interval_cases i <;> norm_num) 0 (by decide)
  simp at this

/-- Non-vacuity of the symmetric part of C95, and an instance of it with a `?syev` that exists. -/
example (junk : Nat → ℝ) : ∃ (syev : Nat → Buf ℝ → Buf ℝ × Buf ℝ × Int), ∃ h₁,
    factorize junk (fun _ => 0) (allKernels ExQrcp.lenv ExQrcp.lopts ⟨fun a => a, 0⟩ false true
        { level := fun _ _ _ _ _ => throw (.ub "not used"), dense := SyEig.dense (id : ℝ → ℝ) 0 (1 / 1000) srt syev (fun n => 3 * n) true }) ⟨.off, true, -1, true⟩ sing3 0
      { precs := [], work := ⟨0, junk⟩, nsp := none, nspTran := none, stats := fun _ => 0, nrows := 0, ncols := 0 } = (h₁, .ok ()) ∧ h₁.ncols = 3 ∧
    ((∀ r, r ≤ h₁.schurRank → Consistent r 3 h₁) ∨
      ∃ (k : Nat) (s : SyEig.St ℝ ℝ) (d : Buf ℝ) (t : Nat), 0 < k ∧ k ≤ 3 ∧ Ends (fun l => l = .symm (SyEig.ops id s)) k h₁.precs 3 ∧ SyEig.Ready k s ∧
          EigDecomp id k d s.mat s.w ∧ t < s.rank ∧ s.w.get (s.order.get t) = 0) := by
  obtain ⟨syev, hs⟩ := C70_syev_exists
  exact ⟨syev, C95_symm_consistent ExQrcp.lenv ExQrcp.lopts contract ⟨fun a => a, 0⟩
    { level := fun _ _ _ _ _ => throw (.ub "not used"), dense := SyEig.dense (id : ℝ → ℝ) 0 (1 / 1000) srt syev (fun n => 3 * n) true }
    junk (fun _ => 0) ⟨.off, true, -1, true⟩ rfl sing3 raw3 3 valid_sing3 sym_sing3 pat_sing3 (ExQrcp.sizes 3 (by decide)) id (fun _ h => h) (1 / 1000) srt srt_ok syev (fun n => 3 * n)
    (fun k _ _ => hs k) rfl
    { precs := [], work := ⟨0, junk⟩, nsp := none, nspTran := none, stats := fun _ => 0, nrows := 0, ncols := 0 } (fun _ => rfl)⟩

/-- Non-vacuity of C95 with a leading symmetric block: the same matrix with `m0 = 3`. -/
example (junk : Nat → ℝ) (pv : Pivoting) : ∃ h₁, factorize junk (fun _ => 0) (partKernels ExQrcp.lenv ExQrcp.lopts (pv == .auto) true ExQrcp.other) ⟨pv, false, -1, true⟩ sing3 3
      { precs := [], work := ⟨0, junk⟩, nsp := none, nspTran := none, stats := fun _ => 0, nrows := 0, ncols := 0 } = (h₁, .ok ()) ∧ h₁.ncols = 3 ∧
    ((∀ r, r ≤ h₁.schurRank → Consistent r 3 h₁) ∨ ∃ S : CS ℝ, 0 < S.psize ∧ S.psize ≤ 3 ∧ (∀ i j, i < S.psize → j < S.psize → mat true S i j = 0) ∧
      Ends (fun l => l = .dense (Qrcp.dense ExQrcp.env true false S).1) S.psize h₁.precs 3) :=
  C95_lead_consistent ExQrcp.lenv ExQrcp.lopts ExQrcp.contract ExQrcp.other junk (fun _ => 0) ⟨pv, false, -1, true⟩ rfl sing3 raw3 3 valid_sing3 (ExQrcp.sizes 3 (by decide))
    ExQrcp.env ExQrcp.env_laic1 ExQrcp.env_nrm (by simp [ExQrcp.env]) (fun k hk _ m _ => ExQrcp.env_geqp3 hk m) rfl
    { precs := [], work := ⟨0, junk⟩, nsp := none, nspTran := none, stats := fun _ => 0, nrows := 0, ncols := 0 } (fun _ => rfl) 3
    ⟨by decide, le_refl _, fun i j hi hj => sym_sing3 i j hi hj, Or.inl rfl, fun _ => rfl, fun h => by cases h⟩

end Hif.Props.ExSyDef

namespace Hif.Props.ExFixed
open Hif.Ex Spec HIF HM Finset

/-- The hypotheses of C95_adjoint hold for the object of C93 with a singular last block. -/
example : Consistent 0 3 (HIF.mk [P] ⟨0, fun _ => (0 : ℚ)⟩ none none (fun _ => 0) 3 3) ∧ RealScalings (HIF.mk [P] ⟨0, fun _ => (0 : ℚ)⟩ none none (fun _ => 0) 3 3).precs := by
  refine ⟨consistent_of (T := T) (V := V) (kf := 2) ⟨rfl, P_ok, rfl, rfl, D_fixed⟩ ⟨rfl, P_ok, rfl, rfl, D_mult⟩ ⟨Or.inl rfl, fun _ => rfl⟩ (fun y i hi => ?_) (fun y i hi => ?_),
    fun P _ => ⟨fun _ => rfl, fun _ => rfl⟩⟩
  all_goals
    have : i = 0 ∨ i = 1 := by omega
    rcases this with rfl | rfl <;> simp [mulVec, T, V, sum_range_succ]
end Hif.Props.ExFixed
