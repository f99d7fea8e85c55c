import Verif.Conv
import Verif.SchurRes

set_option linter.unusedSectionVars false

/-!
# Stored positions

Which positions a compressed matrix stores, whatever the values; used for the sparsity pattern of the Schur complement.
-/

namespace Hif
open Finset

/-- Position `(i, j)` is stored in line `i` of `A`. -/
def CS.Has {K : Type _} (A : CS K) (i j : Nat) : Prop := ∃ k, A.start.get i ≤ k ∧ k < A.start.get (i + 1) ∧ A.inds.get k = j

/-- The sparsity pattern is symmetric. -/
def CS.PatSym {K : Type _} (A : CS K) : Prop := ∀ i j, i < A.psize → j < A.psize → A.Has i j → A.Has j i

theorem CS.has_iff {K : Type _} {A : CS K} {i j : Nat} : A.Has i j ↔ ∃ v, (j, v) ∈ A.line i := by
  unfold CS.Has CS.line CS.seg
  simp only [List.mem_map, List.mem_range', Prod.mk.injEq]
  constructor
  · rintro ⟨k, h1, h2, h3⟩
    exact ⟨_, k, ⟨k - A.start.get i, by omega, by omega⟩, h3, rfl⟩
  · rintro ⟨v, k, ⟨x, h1, h2⟩, h3, h4⟩
    exact ⟨k, by omega, by omega, h3⟩

theorem CS.Has.lt {K : Type _} {A : CS K} (h : A.WF) {i j : Nat} (hi : i < A.psize) (ha : A.Has i j) : j < A.ssize := by
  obtain ⟨k, h1, h2, rfl⟩ := ha
  exact h.inds_lt k (lt_of_lt_of_le h2 (h.start_mono hi (le_refl _)))

/-- The conversion stores the transposed positions. -/
theorem CS.ConvSpec.has {K : Type _} {A B : CS K} (h : A.WF) (ht : A.Tight) (c : CS.ConvSpec A B) {i j : Nat} (hi : i < A.psize) (hj : j < A.ssize) :
    B.Has j i ↔ A.Has i j := by
  have hn : A.start.get A.psize = A.inds.size := ht.inds_size.symm
  unfold CS.Has
  rw [c.start j (by omega), c.start (j + 1) (by omega)]
  constructor
  · rintro ⟨l, h1, h2, h3⟩
    have : l ∈ Ico (A.base A.inds.size j) (A.base A.inds.size (j + 1)) := mem_Ico.2 ⟨h1, h2⟩
    rw [← A.pos_image] at this
    obtain ⟨k, hk, rfl⟩ := mem_image.1 this
    obtain ⟨hk1, hk2⟩ := mem_filter.1 hk
    obtain ⟨p1, p2, -⟩ := c.ent k (mem_range.1 hk1)
    rw [h3] at p1
    exact ⟨k, p1.1, p1.2, hk2⟩
  · rintro ⟨k, h1, h2, h3⟩
    have hk : k < A.inds.size := by
      rw [← hn]; exact lt_of_lt_of_le h2 (h.start_mono hi (le_refl _))
    have : A.pos A.inds.size k ∈ Ico (A.base A.inds.size j) (A.base A.inds.size (j + 1)) := by
      rw [← A.pos_image]
      exact mem_image.2 ⟨k, mem_filter.2 ⟨mem_range.2 hk, h3⟩, rfl⟩
    obtain ⟨q1, q2⟩ := mem_Ico.1 this
    obtain ⟨p1, p2, -⟩ := c.ent k hk
    exact ⟨_, q1, q2, CS.InLine.unique h p2 hi p1 ⟨h1, h2⟩⟩

namespace SchurIn
variable {K : Type _} [CommRing K]

/-- The positions stored in the result. -/
theorem Result.has {a : SchurIn K} {q : Nat → Nat} (h : a.OK q) {SC : CS K} (hr : a.Result SC) {i x : Nat} (hi : i < a.N) :
    SC.Has i x ↔ (∃ c, a.L.Has i c ∧ a.U.Has c x) ∨ ∃ y, a.A.Has (a.p.get (a.m + i)) y ∧ a.m ≤ a.qinv.get y ∧ x = a.qinv.get y - a.m := by
  have h1 : SC.Has i x ↔ x ∈ SC.inds.slice (SC.start.get i) (SC.start.get (i + 1)) := by
    unfold CS.Has Buf.slice
    simp only [List.mem_map, List.mem_range']
    constructor
    · rintro ⟨k, h1, h2, h3⟩
      exact ⟨k, ⟨k - SC.start.get i, by omega, by omega⟩, h3⟩
    · rintro ⟨k, ⟨y, h1, h2⟩, h3⟩
      exact ⟨k, by omega, by omega, h3⟩
  rw [h1, hr.line hi, mem_rowPat h hi]
  unfold Pat CS.Has
  constructor
  · rintro (⟨k, hk, l, hl, rfl⟩ | ⟨k, hk, hm, rfl⟩)
    · exact Or.inl ⟨_, ⟨k, hk.1, hk.2, rfl⟩, l, hl.1, hl.2, rfl⟩
    · exact Or.inr ⟨_, ⟨k, hk.1, hk.2, rfl⟩, hm, rfl⟩
  · rintro (⟨c, ⟨k, k1, k2, rfl⟩, l, l1, l2, l3⟩ | ⟨y, ⟨k, k1, k2, rfl⟩, hm, hx⟩)
    · exact Or.inl ⟨k, ⟨k1, k2⟩, l, ⟨l1, l2⟩, l3.symm⟩
    · exact Or.inr ⟨k, ⟨k1, k2⟩, hm, hx⟩

end SchurIn
end Hif
