import Verif.CSLemmas
import Mathlib.Data.List.Range
import Mathlib.Algebra.BigOperators.Group.List.Basic

set_option linter.unusedSectionVars false

/-! # Slices of buffers and lines of compressed matrices as lists (specification vocabulary + helpers) -/

namespace Hif

namespace Buf
variable {α β : Type _}

/-- The contents of `b[lo..hi)` as a list. -/
def slice (b : Buf α) (lo hi : Nat) : List α := (List.range' lo (hi - lo)).map b.get

theorem slice_length (b : Buf α) (lo hi : Nat) : (b.slice lo hi).length = hi - lo := by simp [slice]
theorem slice_empty (b : Buf α) (lo hi : Nat) (h : hi ≤ lo) : b.slice lo hi = [] := by
  simp [slice, Nat.sub_eq_zero_of_le h]
theorem slice_succ (b : Buf α) {lo hi : Nat} (h : lo ≤ hi) :
    b.slice lo (hi + 1) = b.slice lo hi ++ [b.get hi] := by
  unfold slice
  rw [show hi + 1 - lo = (hi - lo) + 1 by omega, List.range'_concat, List.map_append]
  simp [show lo + (hi - lo) = hi by omega]
theorem slice_cons (b : Buf α) {lo hi : Nat} (h : lo < hi) :
    b.slice lo hi = b.get lo :: b.slice (lo + 1) hi := by
  unfold slice
  rw [show hi - lo = (hi - (lo + 1)) + 1 by omega, List.range'_succ]; rfl
theorem slice_append (b : Buf α) {lo mid hi : Nat} (h1 : lo ≤ mid) (h2 : mid ≤ hi) :
    b.slice lo mid ++ b.slice mid hi = b.slice lo hi := by
  unfold slice
  rw [← List.map_append]
  congr 1
  have := List.range'_append (s := lo) (m := mid - lo) (n := hi - mid) (step := 1)
  rw [Nat.one_mul, show lo + (mid - lo) = mid by omega,
    show (mid - lo) + (hi - mid) = hi - lo by omega] at this
  exact this
theorem slice_congr {b c : Buf α} {lo hi : Nat} (h : ∀ k, lo ≤ k → k < hi → b.get k = c.get k) :
    b.slice lo hi = c.slice lo hi := by
  unfold slice
  refine List.map_congr_left fun k hk => ?_
  rw [List.mem_range'_1] at hk
  exact h k hk.1 (by omega)
theorem slice_set_ge (b : Buf α) {lo hi i : Nat} (v : α) (h : hi ≤ i) :
    (b.set i v).slice lo hi = b.slice lo hi :=
  slice_congr fun k _ h2 => by simp [show k ≠ i by omega]
theorem slice_set_succ (b : Buf α) {lo hi : Nat} (v : α) (h : lo ≤ hi) :
    (b.set hi v).slice lo (hi + 1) = b.slice lo hi ++ [v] := by
  rw [slice_succ _ h, slice_set_ge _ _ (le_refl _)]; simp
theorem mem_slice {b : Buf α} {lo hi : Nat} {x : α} :
    x ∈ b.slice lo hi ↔ ∃ k, lo ≤ k ∧ k < hi ∧ b.get k = x := by
  unfold slice
  simp only [List.mem_map, List.mem_range'_1]
  constructor
  · rintro ⟨k, h, e⟩; exact ⟨k, h.1, by omega, e⟩
  · rintro ⟨k, h1, h2, e⟩; exact ⟨k, by omega, e⟩
theorem slice_getElem (b : Buf α) {lo hi t : Nat} (h : t < (b.slice lo hi).length) :
    (b.slice lo hi)[t] = b.get (lo + t) := by
  simp [slice]
theorem toList_eq_slice (b : Buf α) : b.toList = b.slice 0 b.size := by
  simp [toList, slice, List.range_eq_range']
theorem slice_ext {b : Buf α} {c : Buf α} {l1 h1 l2 : Nat} (n : Nat) (hn : h1 = l1 + n)
    (h : ∀ t, t < n → b.get (l1 + t) = c.get (l2 + t)) : b.slice l1 h1 = c.slice l2 (l2 + n) := by
  subst hn
  refine List.ext_getElem (by simp [slice]) fun t h1 h2 => ?_
  rw [slice_getElem, slice_getElem]
  exact h t (by rw [slice_length] at h1; omega)

end Buf

namespace CS
open Finset
variable {K : Type _}

/-- Stored (index, value) pairs at positions `[lo,hi)`. -/
def seg (A : CS K) (lo hi : Nat) : List (Nat × K) :=
  (List.range' lo (hi - lo)).map fun k => (A.inds.get k, A.vals.get k)

/-- The list of stored (index, value) pairs of primary line `i`, in storage order. -/
def line (A : CS K) (i : Nat) : List (Nat × K) := A.seg (A.start.get i) (A.start.get (i + 1))

/-- Strictly increasing indices in every line, as a list property. -/
theorem seg_length (A : CS K) (lo hi : Nat) : (A.seg lo hi).length = hi - lo := by simp [seg]
theorem seg_append (A : CS K) {lo mid hi : Nat} (h1 : lo ≤ mid) (h2 : mid ≤ hi) :
    A.seg lo mid ++ A.seg mid hi = A.seg lo hi :=
  Buf.slice_append ⟨0, fun k => (A.inds.get k, A.vals.get k)⟩ h1 h2
theorem seg_succ (A : CS K) {lo hi : Nat} (h : lo ≤ hi) :
    A.seg lo (hi + 1) = A.seg lo hi ++ [(A.inds.get hi, A.vals.get hi)] :=
  Buf.slice_succ ⟨0, fun k => (A.inds.get k, A.vals.get k)⟩ h
theorem seg_empty (A : CS K) {lo hi : Nat} (h : hi ≤ lo) : A.seg lo hi = [] := by
  simp [seg, Nat.sub_eq_zero_of_le h]
theorem mem_seg {A : CS K} {lo hi : Nat} {e : Nat × K} :
    e ∈ A.seg lo hi ↔ ∃ k, lo ≤ k ∧ k < hi ∧ (A.inds.get k, A.vals.get k) = e :=
  Buf.mem_slice (b := ⟨0, fun k => (A.inds.get k, A.vals.get k)⟩)

theorem seg_fst (A : CS K) (lo hi : Nat) : (A.seg lo hi).map Prod.fst = A.inds.slice lo hi := by
  simp [seg, Buf.slice, Function.comp_def]
theorem seg_snd (A : CS K) (lo hi : Nat) : (A.seg lo hi).map Prod.snd = A.vals.slice lo hi := by
  simp [seg, Buf.slice, Function.comp_def]

theorem list_sum_range' [AddCommMonoid K] (f : Nat → K) (lo n : Nat) :
    ((List.range' lo n).map f).sum = ∑ k ∈ Ico lo (lo + n), f k := by
  induction n with
  | zero => simp
  | succ n ih =>
    rw [List.range'_concat, List.map_append, List.sum_append, ih, ← Nat.add_assoc,
      sum_Ico_succ_top (by omega)]
    simp

/-- The matrix entry is the sum of the stored values at that index. -/
theorem entry_eq_line [AddCommMonoid K] (A : CS K) (i j : Nat)
    (h : A.start.get i ≤ A.start.get (i + 1)) :
    A.entry i j = ((A.line i).map fun e => if e.1 = j then e.2 else 0).sum := by
  unfold entry line seg
  rw [List.map_map, list_sum_range']
  rw [show A.start.get i + (A.start.get (i + 1) - A.start.get i) = A.start.get (i + 1) by omega]
  rfl

end CS
end Hif
