import Verif.Conv
import Verif.Examples

/-!
# Property C08: changing the storage order

`CS.convert` models both constructors `CCS(crs)` and `CRS(ccs)`.
-/

namespace Hif.Props
open Hif Finset
variable {K : Type _}

/-- C08: converting a CRS matrix gives a CCS matrix (and vice versa, see `C08_ccs_to_crs`) that is
well formed, has arrays of exactly the right lengths, the same number of stored entries and the same
entry at every position. -/
theorem C08_crs_to_ccs [AddCommMonoid K] [Inhabited K] (A : CS K) (hA : A.WF) (ht : A.Tight) :
    ∃ B : CS K, A.convert = .ok B ∧ B.WF ∧ B.Tight ∧ B.psize = A.ssize ∧ B.ssize = A.psize ∧
      B.inds.size = A.inds.size ∧ B.vals.size = A.vals.size ∧
      ∀ i j, i < A.psize → j < A.ssize → B.ccs i j = A.crs i j := by
  obtain ⟨B, h1, h2⟩ := CS.convert_runs hA ht
  obtain ⟨w, t⟩ := h2.wf hA ht
  refine ⟨B, h1, w, t, h2.psize, h2.ssize, h2.inds_size, ?_, fun i j hi hj => h2.entry hA ht hi hj⟩
  rw [h2.vals_size, ht.vals_size, ht.inds_size]

/-- C08: the other direction (`i` is a row, `j` a column). -/
theorem C08_ccs_to_crs [AddCommMonoid K] [Inhabited K] (A : CS K) (hA : A.WF) (ht : A.Tight) :
    ∃ B : CS K, A.convert = .ok B ∧ B.WF ∧ B.Tight ∧ B.psize = A.ssize ∧ B.ssize = A.psize ∧
      B.inds.size = A.inds.size ∧ B.vals.size = A.vals.size ∧
      ∀ i j, i < A.ssize → j < A.psize → B.crs i j = A.ccs i j := by
  obtain ⟨B, h1, h2, h3, h4, h5, h6, h7, h8⟩ := C08_crs_to_ccs A hA ht
  exact ⟨B, h1, h2, h3, h4, h5, h6, h7, fun i j hi hj => h8 j i hj hi⟩

/-- C08: strictly increasing lines stay strictly increasing. -/
theorem C08_sorted [Inhabited K] (A : CS K) (hA : A.WF) (ht : A.Tight) (hs : A.Sorted) :
    ∃ B : CS K, A.convert = .ok B ∧ B.Sorted := by
  obtain ⟨B, h1, h2⟩ := CS.convert_runs hA ht
  exact ⟨B, h1, h2.sorted hA ht hs⟩

/-- C08: converting twice returns the original dimensions and arrays. -/
theorem C08_roundtrip [Inhabited K] (A : CS K) (hA : A.WF) (ht : A.Tight) (hs : A.Sorted) :
    ∃ B C : CS K, A.convert = .ok B ∧ B.convert = .ok C ∧ C.psize = A.psize ∧ C.ssize = A.ssize ∧
      C.start.size = A.start.size ∧ (∀ i, i < A.start.size → C.start.get i = A.start.get i) ∧
      C.inds.size = A.inds.size ∧ C.vals.size = A.vals.size ∧
      ∀ k, k < A.inds.size → C.inds.get k = A.inds.get k ∧ C.vals.get k = A.vals.get k := by
  obtain ⟨B, h1, h2⟩ := CS.convert_runs hA ht
  obtain ⟨w, t⟩ := h2.wf hA ht
  obtain ⟨C, h3, h4⟩ := CS.convert_runs w t
  obtain ⟨r1, r2, r3, r4, r5, r6⟩ := CS.ConvSpec.roundtrip hA ht hs h2 h4
  have e : C.start.size = A.start.size := by rw [h4.start_size, h2.ssize, ht.start_size]
  exact ⟨B, C, h1, h3, r1, r2, e, fun i hi => r3 i (by rw [ht.start_size] at hi; omega), r4, r5, r6⟩

/-- Non-vacuity: the 2×3 matrix `[[1,0,2],[0,3,0]]` meets all hypotheses, and the conversion gives the expected
arrays. -/
example : Ex.A23.WF ∧ Ex.A23.Tight ∧ Ex.A23.Sorted ∧
    (Ex.A23.convert.map fun B => (B.psize, B.ssize, B.start.toList, B.inds.toList, B.vals.toList)) =
      .ok (3, 2, [0, 1, 2, 3], [0, 1, 0], [1, 3, 2]) := by
  refine ⟨Ex.A23_wf, Ex.A23_tight, ?_, by decide⟩
  intro i hi k l hk hl hkl
  change i < 2 at hi
  rcases (show i = 0 ∨ i = 1 by omega) with rfl | rfl
  · obtain ⟨_, h2⟩ := hl
    change l < 2 at h2
    obtain rfl : l = 1 := by omega
    obtain rfl : k = 0 := by omega
    decide
  · obtain ⟨h1, _⟩ := hk; obtain ⟨_, h2⟩ := hl
    change 2 ≤ k at h1; change l < 3 at h2; omega

end Hif.Props
