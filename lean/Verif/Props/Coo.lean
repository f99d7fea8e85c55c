import Verif.Coo
import Verif.Examples

/-!
# C15 coordinate → compressed conversion, C49 sparse → dense conversion
-/

namespace Hif.Props
open Hif Finset
variable {K : Type _}

/-- Entry `(i,j)` of the matrix described by the triples `(rows_k, cols_k, vals_k)`, `k < n`: repeated positions add up. -/
def tripleEntry [AddCommMonoid K] (n : Nat) (rows cols : Nat → Nat) (vals : Nat → K) (i j : Nat) : K :=
  ∑ k ∈ range n, if rows k = i ∧ cols k = j then vals k else 0

/-- C15 (partial: see `C15_unsorted_duplicates_witness` and `C15_empty_witness`): triples with in-range indices, at least
one of them, such that every line is free of repeated positions or is given in nondecreasing order, are converted without
touching memory outside the arrays to a well-formed matrix with nondecreasing indices in every line, as many entries as
triples, and at `(i,j)` the sum of the values given at `(i,j)`. -/
theorem C15_coo_to_cs_partial [Inhabited K] [AddCommMonoid K] (m n : Nat) (pidx sids : Buf Nat) (cv : Buf K)
    (hn : 0 < pidx.size) (hs : sids.size = pidx.size) (hv : cv.size = pidx.size)
    (hb : ∀ k, k < pidx.size → pidx.get k < m) (hb2 : ∀ k, k < pidx.size → sids.get k < n)
    (hd : ∀ i, i < m → (∀ k l, k < l → l < pidx.size → pidx.get k = i → pidx.get l = i → sids.get k ≠ sids.get l) ∨
      (∀ k l, k < l → l < pidx.size → pidx.get k = i → pidx.get l = i → sids.get k ≤ sids.get l)) :
    ∃ A, CS.cooToCS m n pidx sids cv = .ok A ∧ A.WF ∧ A.Tight ∧ A.psize = m ∧ A.ssize = n ∧
      A.inds.size = pidx.size ∧
      (∀ i, i < m → ∀ k, A.start.get i ≤ k → k + 1 < A.start.get (i + 1) → A.inds.get k ≤ A.inds.get (k + 1)) ∧
      ∀ i, i < m → ∀ j, A.entry i j = tripleEntry pidx.size pidx.get sids.get cv.get i j := by
  obtain ⟨A, h1, h2, h3, h4, h5, h6, h7, h8, -⟩ := CS.cooToCS_runs m n pidx sids cv hn hs hv hb hb2 hd
  refine ⟨A, h1, h2, h3, h4, h5, h6, fun i hi k k1 k2 => ?_, h8⟩
  have := h7 i hi
  unfold CS.line at this
  rw [CS.seg_fst, List.pairwise_iff_getElem] at this
  have h := this (k - A.start.get i) (k + 1 - A.start.get i) (by rw [Buf.slice_length]; omega)
    (by rw [Buf.slice_length]; omega) (by omega)
  rw [Buf.slice_getElem, Buf.slice_getElem] at h
  rwa [show A.start.get i + (k - A.start.get i) = k by omega,
    show A.start.get i + (k + 1 - A.start.get i) = k + 1 by omega] at h

/-- C15: if no position is repeated the lines come out strictly increasing, in whatever order the triples were given, so
the result is a valid input of every routine that requires sorted lines. -/
theorem C15_distinct_sorted [Inhabited K] [AddCommMonoid K] (m n : Nat) (pidx sids : Buf Nat) (cv : Buf K)
    (hn : 0 < pidx.size) (hs : sids.size = pidx.size) (hv : cv.size = pidx.size)
    (hb : ∀ k, k < pidx.size → pidx.get k < m) (hb2 : ∀ k, k < pidx.size → sids.get k < n)
    (hd : ∀ k l, k < l → l < pidx.size → ¬ (pidx.get k = pidx.get l ∧ sids.get k = sids.get l)) :
    ∃ A, CS.cooToCS m n pidx sids cv = .ok A ∧ A.WF ∧ A.Sorted ∧
      ∀ i, i < m → ∀ j, A.entry i j = tripleEntry pidx.size pidx.get sids.get cv.get i j := by
  exact CS.cooToCS_strict m n pidx sids cv hn hs hv hb hb2 hd

/-- Non-vacuity of C15: the 2×3 matrix `[[0,5,7],[1,0,0]]` from unsorted triples. -/
example : ((CS.cooToCS 2 3 (Buf.ofList [0, 1, 0]) (Buf.ofList [2, 0, 1]) (Buf.ofList [(7 : ℤ), 1, 5])).map
    fun A => (A.start.toList, A.inds.toList, A.vals.toList)) = .ok ([0, 2, 3], [1, 2, 0], [5, 7, 1]) := by decide

/-- C15 does not hold for a line with a repeated position given out of order: the triples `(0,1,1) (0,0,2) (0,1,3)`
describe `[2,4]`, but the conversion stores `[2,6]`: the local sort restores both copies from the last one. -/
theorem C15_unsorted_duplicates_witness :
    let rows := Buf.ofList [0, 0, 0]; let cols := Buf.ofList [1, 0, 1]; let v := Buf.ofList [(1 : ℤ), 2, 3]
    tripleEntry 3 rows.get cols.get v.get 0 1 = 4 ∧
    ((CS.cooToCS 1 2 rows cols v).map fun A => (A.entry 0 0, A.entry 0 1)) = .ok (2, 6) := by decide

/-- C15 does not hold for an empty list of triples: the zero matrix is rejected with an allocation error. -/
theorem C15_empty_witness (m n : Nat) :
    CS.cooToCS m n (Buf.ofList []) (Buf.ofList []) (Buf.ofList ([] : List ℤ)) =
      .error (.hif "memory allocation failed") := by
  have h : Runs (CS.cooCount (Buf.ofList []) (Buf.mk' (m + 1) 0) >>= CS.prefixSum m) fun _ => True := by
    simp only [runs_bind]
    refine (CS.cooCount_runs m (Buf.ofList []) (Buf.ofList ([] : List ℤ)) (by intro k hk; simp at hk)).mono ?_
    rintro os ⟨o1, o2, o3⟩
    exact (CS.prefixSum_runs (CS.cooView (Buf.ofList []) (Buf.ofList ([] : List ℤ))) 0 m os o1 o2 o3).mono
      fun _ _ => trivial
  obtain ⟨os, h1, -⟩ := h
  unfold CS.cooToCS
  rw [← bind_assoc, h1]
  rfl

/-- C49: for every well-formed CRS matrix without repeated positions, the dense matrix has `nrows*ncols` elements stored
by columns and the same entry at every position. -/
theorem C49_from_crs [AddCommMonoid K] (A : CS K) (h : A.WF)
    (hd : ∀ i, i < A.psize → ∀ k l, A.start.get i ≤ k → k < l → l < A.start.get (i + 1) → A.inds.get k ≠ A.inds.get l) :
    ∃ d, A.denseFromCRS = .ok d ∧ d.size = A.psize * A.ssize ∧
      ∀ i, i < A.psize → ∀ j, j < A.ssize → d.get (i + j * A.psize) = A.crs i j :=
  CS.denseFromCRS_runs h hd

/-- C49: the same for CCS (`A.psize` columns, `A.ssize` rows). -/
theorem C49_from_ccs [AddCommMonoid K] (A : CS K) (h : A.WF)
    (hd : ∀ i, i < A.psize → ∀ k l, A.start.get i ≤ k → k < l → l < A.start.get (i + 1) → A.inds.get k ≠ A.inds.get l) :
    ∃ d, A.denseFromCCS = .ok d ∧ d.size = A.ssize * A.psize ∧
      ∀ i, i < A.ssize → ∀ j, j < A.psize → d.get (i + j * A.ssize) = A.ccs i j := by
  obtain ⟨d, h1, h2, h3⟩ := CS.denseFromCCS_runs h hd
  exact ⟨d, h1, h2, fun i hi j hj => h3 j hj i hi⟩

/-- Non-vacuity of C49. -/
example : (Ex.A23.denseFromCRS.map Buf.toList) = .ok [1, 0, 0, 3, 2, 0] ∧
    (Ex.A23.denseFromCCS.map Buf.toList) = .ok [1, 0, 2, 0, 3, 0] := by decide
/-- The hypothesis of C49 holds for that matrix (and for every matrix with sorted lines). -/
example (A : CS ℤ) (hs : A.Sorted) : ∀ i, i < A.psize → ∀ k l, A.start.get i ≤ k → k < l →
    l < A.start.get (i + 1) → A.inds.get k ≠ A.inds.get l := fun i hi k l h1 h2 h3 =>
  Nat.ne_of_lt (hs i hi k l ⟨h1, by omega⟩ ⟨by omega, h3⟩ h2)

end Hif.Props
