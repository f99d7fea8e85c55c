import Verif.Props.SyEigDef
import Verif.Props.QrcpEx

set_option linter.unusedSectionVars false
set_option linter.unusedVariables false

/-!
# An instance of C70 (end to end, definite) over the real numbers
-/

namespace Hif.Props.ExSyDef
open Hif Level Spec HIF HM Finset

/-- A sort for the example. -/
noncomputable def srt (key : Nat → ℝ) (b : Buf Nat) : Buf Nat := Buf.ofList (b.toList.insertionSort fun a b => key b ≤ key a)

theorem srt_ok : SortDesc srt := by
  intro key n
  have : Std.Total fun a b : Nat => key b ≤ key a := ⟨fun a b => le_total _ _⟩
  have : IsTrans Nat fun a b => key b ≤ key a := ⟨fun a b c h1 h2 => le_trans h2 h1⟩
  have h2 := List.pairwise_insertionSort (fun a b : Nat => key b ≤ key a) (SyEig.iota n).toList
  have h1 := List.perm_insertionSort (fun a b : Nat => key b ≤ key a) (SyEig.iota n).toList
  have hl : (SyEig.iota n).toList = List.range n := by simp [Buf.toList, SyEig.iota]
  unfold srt
  generalize hm : (SyEig.iota n).toList.insertionSort (fun a b => key b ≤ key a) = m at h1 h2 ⊢
  rw [hl] at h1
  have hlen : m.length = n := by rw [h1.length_eq]; simp
  have hget : ∀ t (ht : t < m.length), (Buf.ofList m).get t = m[t] := fun t ht => by
    show m.getD t default = m[t]
    simp [List.getD, List.getElem?_eq_getElem ht]
  have hnd : m.Nodup := h1.nodup_iff.mpr List.nodup_range
  refine ⟨⟨hlen, fun t ht => ?_, fun s hs t ht e => ?_⟩, fun s t hst ht => ?_⟩
  · rw [hget t (by omega)]
    have := h1.mem_iff.mp (List.getElem_mem (by omega : t < m.length))
    simpa using this
  · rw [hget t (by omega), hget s (by omega)] at e
    exact (List.Nodup.getElem_inj_iff hnd).mp e
  · rw [hget t (by omega), hget s (by omega)]
    exact (List.pairwise_iff_getElem.mp h2) s t (by omega) (by omega) hst

theorem contract : SymmContract ExQrcp.lenv ExQrcp.lopts :=
  ⟨rfl, fun _ _ => rfl, fun x => abs_nonneg x, ExQrcp.nth_spec, fun _ _ => List.perm_insertionSort _ _, Or.inl rfl⟩

/-- `[[2,0,1],[0,4,1],[1,1,3]]` by rows, 1-based. -/
noncomputable def in3 : Input ℝ :=
  { raw := RawCS.mk false 3 (Buf.ofList [1, 3, 5, 8]) (Buf.ofList [1, 3, 2, 3, 1, 2, 3]) 7, other := 3, vals := Buf.ofList [2, 1, 4, 1, 1, 1, 3], rowMajor := true }
def raw3 : RawCS := ⟨false, 3, ⟨4, fun i => (Buf.ofList [1, 3, 5, 8]).get i - 1⟩, ⟨7, fun i => (Buf.ofList [1, 3, 2, 3, 1, 2, 3]).get i - 1⟩, 7⟩

theorem valid3 : ValidSquare in3 (fun _ => 0) raw3 3 := by
  refine ⟨rfl, C09_accepted_valid_partial _ _ rfl rfl (by decide), rfl, rfl, rfl, rfl, by decide, rfl, by decide⟩

theorem mat3 : ∀ i, i < 3 → ∀ j, j < 3 → mat true (raw3.toCS 3 in3.vals) i j = ([[2, 0, 1], [0, 4, 1], [1, 1, 3]].getD i []).getD j (0 : ℝ) := by
  intro i hi j hj
  interval_cases i <;> interval_cases j <;> simp [mat, CS.crs, CS.entry, RawCS.toCS, raw3, in3, Buf.ofList, sum_Ico_eq_sum_range, sum_range_succ]

theorem sym3 : SymMat 3 (mat true (raw3.toCS 3 in3.vals)) := by
  intro i j hi hj
  rw [mat3 i hi j hj, mat3 j hj i hi]
  interval_cases i <;> interval_cases j <;> simp

theorem pat3 : (raw3.toCS 3 in3.vals).PatSym := by
  have h : ∀ i, i < 3 → ∀ j, j < 3 → (∃ k, k < (raw3.toCS 3 in3.vals).start.get (i + 1) ∧ (raw3.toCS 3 in3.vals).start.get i ≤ k ∧ (raw3.toCS 3 in3.vals).inds.get k = j) →
    ∃ k, k < (raw3.toCS 3 in3.vals).start.get (j + 1) ∧ (raw3.toCS 3 in3.vals).start.get j ≤ k ∧ (raw3.toCS 3 in3.vals).inds.get k = i := by
    decide
  rintro i j hi hj ⟨k, h1, h2, h3⟩
  obtain ⟨k, h1, h2, h3⟩ := h i hi j hj ⟨k, h2, h1, h3⟩
  exact ⟨k, h2, h1, h3⟩

/-- The matrix is positive definite. -/
theorem def3 : Definite 1 3 (mat true (raw3.toCS 3 in3.vals)) := by
  refine Or.inl ⟨by decide, fun x hx => ?_⟩
  have hm : ∀ i, i < 3 → Spec.mulVec 3 (mat true (raw3.toCS 3 in3.vals)) x i =
      ([[2, 0, 1], [0, 4, 1], [1, 1, 3]].getD i []).getD 0 0 * x 0 + ([[2, 0, 1], [0, 4, 1], [1, 1, 3]].getD i []).getD 1 0 * x 1 +
      ([[2, 0, 1], [0, 4, 1], [1, 1, 3]].getD i []).getD 2 0 * x 2 := by
    intro i hi
    unfold Spec.mulVec
    simp only [sum_range_succ, range_zero, sum_empty, zero_add]
    rw [mat3 i hi 0 (by decide), mat3 i hi 1 (by decide), mat3 i hi 2 (by decide)]
  have e : dot 3 x (Spec.mulVec 3 (mat true (raw3.toCS 3 in3.vals)) x) = x 0 ^ 2 + (x 0 + x 2) ^ 2 + (x 1 + x 2) ^ 2 + 3 * x 1 ^ 2 + x 2 ^ 2 := by
    unfold dot
    simp only [sum_range_succ, range_zero, sum_empty, zero_add]
    rw [hm 0 (by decide), hm 1 (by decide), hm 2 (by decide)]
    simp
    ring
  rw [e]
  obtain ⟨i, hi, hne⟩ := hx
  interval_cases i
  · have : 0 < x 0 ^ 2 := by positivity
    positivity
  · have : 0 < x 1 ^ 2 := by positivity
    positivity
  · have : 0 < x 2 ^ 2 := by positivity
    positivity

/-- Non-vacuity of C70 (end to end, definite), and an instance of it with a `?syev` that exists. -/
example (junk : Nat → ℝ) : ∃ (syev : Nat → Buf ℝ → Buf ℝ × Buf ℝ × Int), ∃ h₁,
    factorize junk (fun _ => 0) (allKernels ExQrcp.lenv ExQrcp.lopts ⟨fun a => a, 1⟩ false true
        { level := fun _ _ _ _ _ => throw (.ub "not used"), dense := SyEig.dense (id : ℝ → ℝ) 1 0 srt syev (fun n => 3 * n) true }) ⟨.off, true, -1, true⟩ in3 0
      { precs := [], work := ⟨0, junk⟩, nsp := none, nspTran := none, stats := fun _ => 0, nrows := 0, ncols := 0 } = (h₁, .ok ()) ∧
    ∃ h₂ x, solve junk (Buf.ofList [3, 5, 5]) (Buf.mk' 3 0) false 0 h₁ = (h₂, .ok x) ∧ x.size = 3 ∧
      ∀ i, i < 3 → Spec.mulVec 3 (mat true (raw3.toCS 3 in3.vals)) x.get i = (Buf.ofList [3, 5, 5]).get i := by
  obtain ⟨syev, hs⟩ := C70_syev_exists
  obtain ⟨h₁, e1, e2⟩ := C70_end_to_end_definite ExQrcp.lenv ExQrcp.lopts contract ⟨fun a => a, 1⟩
    { level := fun _ _ _ _ _ => throw (.ub "not used"), dense := SyEig.dense (id : ℝ → ℝ) 1 0 srt syev (fun n => 3 * n) true }
    junk (fun _ => 0) ⟨.off, true, -1, true⟩ rfl in3 raw3 3 valid3 sym3 pat3 (ExQrcp.sizes 3 (by decide)) (ExQrcp.noDrop 3 (by decide)) def3 srt srt_ok syev (fun n => 3 * n)
    (fun k _ _ => hs k) rfl
    { precs := [], work := ⟨0, junk⟩, nsp := none, nspTran := none, stats := fun _ => 0, nrows := 0, ncols := 0 } (fun _ => rfl) rfl
  obtain ⟨h₂, x, s1, s2, s3⟩ := e2 (Buf.ofList [3, 5, 5]) (Buf.mk' 3 0) rfl rfl
  exact ⟨syev, h₁, e1, h₂, x, s1, s2, s3⟩

end Hif.Props.ExSyDef
