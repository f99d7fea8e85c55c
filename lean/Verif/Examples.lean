import Verif.CSLemmas
import Verif.Spec
import Mathlib.NumberTheory.Zsqrtd.Basic

/-! # Concrete matrices used in non-vacuity examples and counterexamples -/

namespace Hif.Ex
open Hif

/-- Build a compressed matrix from literal lists. -/
def mk {K : Type _} [Inhabited K] (p s : Nat) (st ix : List Nat) (v : List K) : CS K :=
  { psize := p, ssize := s, start := Buf.ofList st, inds := Buf.ofList ix, vals := Buf.ofList v }

/-- `[[1,0,2],[0,3,0]]` in CRS (as CCS: its transpose). -/
def A23 : CS ℤ := mk 2 3 [0, 2, 3] [0, 2, 1] [1, 2, 3]

theorem A23_wf : A23.WF := by constructor <;> decide
theorem A23_tight : A23.Tight := by constructor <;> decide

/-- Strictly lower triangular CRS `[[0,0,0],[2,0,0],[3,4,0]]`; read as CCS it is strictly upper. -/
def L3 : CS ℤ := mk 3 3 [0, 0, 1, 3] [0, 0, 1] [2, 3, 4]
theorem L3_wf : L3.WF := by constructor <;> decide

/-- Strictly upper triangular CRS `[[0,2,3],[0,0,4],[0,0,0]]`; read as CCS it is strictly lower. -/
def U3 : CS ℤ := mk 3 3 [0, 2, 3, 3] [1, 2, 2] [2, 3, 4]
theorem U3_wf : U3.WF := by constructor <;> decide

/-- A 0-row, 2-column CRS. -/
def E02 : CS ℤ := mk 0 2 [0] [] []
theorem E02_wf : E02.WF := by constructor <;> decide

/-- The 1x1 complex (Gaussian integer) matrix `[i]`. -/
def I1 : CS (ℤ√(-1)) := mk 1 1 [0, 1] [0] [⟨0, 1⟩]
theorem I1_wf : I1.WF := by constructor <;> decide

theorem L3_lower : Spec.StrictLower 3 L3.crs := by unfold Spec.StrictLower; decide
theorem U3_upper : Spec.StrictUpper 3 U3.crs := by unfold Spec.StrictUpper; decide
theorem L3_ccs_upper : Spec.StrictUpper 3 L3.ccs := by unfold Spec.StrictUpper; decide
theorem U3_ccs_lower : Spec.StrictLower 3 U3.ccs := by unfold Spec.StrictLower; decide

end Hif.Ex
