import Verif.DropOff
import Verif.Examples
import Mathlib.Algebra.Order.Field.Rat
import Mathlib.Data.Rat.Floor

set_option linter.unusedSectionVars false

/-!
# C53: dropping in the off-diagonal blocks
-/

namespace Hif.Props
open Hif

section
variable {K R : Type} [Field R] [LinearOrder R] [IsStrictOrderedRing R] [FloorSemiring R]

/-- What is left of a line of (index, value) pairs when `sz` entries are allowed: that many of the old pairs (all if there are no
more), none smaller in magnitude than a dropped one, and the very same line if all fit. -/
structure LargestKept (nrm : K → R) (sz : Nat) (old kept : List (Nat × K)) : Prop where
  count : kept.length = min old.length sz
  all : old.length ≤ sz → kept = old
  largest : ∃ dropped, (kept ++ dropped).Perm old ∧ ∀ a ∈ kept, ∀ b ∈ dropped, nrm b.2 ≤ nrm a.2

/-- C53: for every well-formed block without repeated indices in a line, every reference pointer array (not empty where the block is
not), every positive limiter and every legal selection, the kernel works in bounds and returns a well-formed, exactly sized block of
the same shape in which line `i` consists of the `min(len, ceil(alpha*ref_i))` largest entries of the old line. -/
theorem C53_keeps_largest (nth : (Nat → R) → Nat → List Nat → List Nat) (hnth : SV.NthSpec nth) (nrm : K → R) (ref : Buf Nat) (alpha : R)
    (ha : 0 < alpha) (A : CS K) (hA : A.WF) (hst : A.start.size = A.psize + 1) (hr : A.psize + 1 ≤ ref.size) (buf : Buf K) (gaps : Buf Nat)
    (hg : A.psize ≤ gaps.size) (hb : A.ssize ≤ buf.size)
    (hn : ∀ i, i < A.psize → (A.inds.slice (A.start.get i) (A.start.get (i + 1))).Nodup)
    (hz : ∀ i, i < A.psize → ref.get i < ref.get (i + 1) ∨ A.line i = []) :
    ∃ B, Drop.dropBlock nth nrm ref alpha A buf gaps = .ok B ∧ B.psize = A.psize ∧ B.ssize = A.ssize ∧ B.WF ∧ B.Tight ∧
      ∀ i, i < A.psize → LargestKept nrm ⌈alpha * ((ref.get (i + 1) - ref.get i : Nat) : R)⌉₊ (A.line i) (B.line i) := by
  unfold Drop.dropBlock
  rw [if_pos ha]
  obtain ⟨B, e, b1, b2, b3, b4, b5, b6, b7⟩ := Drop.kernel_runs nth hnth nrm ref alpha A hA hst hr buf gaps hg hb hn (fun i hi h0 => by
    rcases hz i hi with h | h
    · unfold Drop.lim at h0
      rw [Nat.ceil_eq_zero] at h0
      have : (0 : R) < ((ref.get (i + 1) - ref.get i : Nat) : R) := by rw [Nat.cast_pos]; omega
      exact absurd (mul_pos ha this) (not_lt.2 h0)
    · have := congrArg List.length h
      rw [CS.line, CS.seg_length] at this
      have := hA.mono i hi
      simp only [List.length_nil] at *
      omega)
  have hline : ∀ i, i < A.psize → B.line i = Drop.prs B.inds B.vals (B.start.get i) (Drop.keep A ref alpha i) := by
    intro i hi
    unfold CS.line CS.seg Drop.prs
    rw [(b7 i hi).1, Nat.add_sub_cancel_left]
  have hlines : ∀ i, i < A.psize → LargestKept nrm ⌈alpha * ((ref.get (i + 1) - ref.get i : Nat) : R)⌉₊ (A.line i) (B.line i) := by
    intro i hi
    rw [hline i hi]
    obtain ⟨k1, k2, k3⟩ := (b7 i hi).2
    exact ⟨k1, k2, k3⟩
  refine ⟨B, e, b1, b2, ⟨by omega, b4, fun i hi => by rw [(b7 i (by omega)).1]; omega, by rw [b1, b5], by rw [b1, b6], ?_⟩,
    ⟨by omega, by rw [b1, b5], by rw [b1, b6]⟩, hlines⟩
  intro k hk
  rw [b1] at hk
  have hfind : ∀ n, n ≤ A.psize → k < B.start.get n → ∃ i, i < n ∧ B.start.get i ≤ k ∧ k < B.start.get (i + 1) := by
    intro n
    induction n with
    | zero => intro _ h; omega
    | succ n ih =>
      intro hn' h
      by_cases h' : k < B.start.get n
      · obtain ⟨i, i1, i2⟩ := ih (by omega) h'
        exact ⟨i, by omega, i2⟩
      · exact ⟨n, by omega, by omega, h⟩
  obtain ⟨i, i1, i2, i3⟩ := hfind _ (le_refl _) hk
  have hm : (B.inds.get k, B.vals.get k) ∈ B.line i := CS.mem_seg.2 ⟨k, i2, i3, rfl⟩
  obtain ⟨dr, p1, -⟩ := (hlines i i1).largest
  obtain ⟨l, l1, l2, l3⟩ := CS.mem_seg.1 (p1.mem_iff.1 (List.mem_append_left _ hm))
  have := hA.line_lt i1 l2
  have l4 : A.inds.get l = B.inds.get k := congrArg Prod.fst l3
  rw [b2, ← l4]; exact this

/-- C53: a limiter that is not positive empties the block. -/
theorem C53_cleared (nth : (Nat → R) → Nat → List Nat → List Nat) (nrm : K → R) (ref : Buf Nat) (alpha : R) (ha : alpha ≤ 0) (A : CS K)
    (hst : A.start.size = A.psize + 1) (buf : Buf K) (gaps : Buf Nat) :
    ∃ B, Drop.dropBlock nth nrm ref alpha A buf gaps = .ok B ∧ B.psize = A.psize ∧ B.ssize = A.ssize ∧ B.WF ∧ B.Tight ∧
      ∀ i, i < A.psize → B.line i = [] := by
  unfold Drop.dropBlock
  rw [if_neg (not_lt.2 ha)]
  obtain ⟨s, e, h1, h2⟩ : Runs (forUp 0 (A.psize + 1) A.start fun i s => s.wr i 0) fun s => s.size = A.psize + 1 ∧ ∀ k, k < A.psize + 1 → s.get k = 0 := by
    refine forUp_runs' (fun i (s : Buf Nat) => s.size = A.psize + 1 ∧ ∀ k, k < i → s.get k = 0) (Nat.zero_le _) ⟨hst, fun k hk => by omega⟩ ?_ (fun s h => h)
    rintro i s - hi ⟨s1, s2⟩
    simp only [runs_wr, Buf.set_size, Buf.set_get]
    refine ⟨by omega, s1, fun k hk => ?_⟩
    split
    · rfl
    · exact s2 k (by omega)
  rw [e]
  refine ⟨_, rfl, rfl, rfl, ⟨by show A.psize + 1 ≤ s.size; omega, h2 0 (by omega), fun i hi => ?_, ?_, ?_, fun k hk => ?_⟩, ⟨h1, ?_, ?_⟩, fun i hi => ?_⟩
  · have hi : i < A.psize := hi
    show s.get i ≤ s.get (i + 1)
    rw [h2 i (by omega), h2 (i + 1) (by omega)]
  · show s.get A.psize ≤ 0
    rw [h2 _ (by omega)]
  · show s.get A.psize ≤ 0
    rw [h2 _ (by omega)]
  · have hk : k < s.get A.psize := hk
    rw [h2 _ (by omega)] at hk; omega
  · show 0 = s.get A.psize
    rw [h2 _ (by omega)]
  · show 0 = s.get A.psize
    rw [h2 _ (by omega)]
  · refine CS.seg_empty _ ?_
    show s.get (i + 1) ≤ s.get i
    rw [h2 i (by omega), h2 (i + 1) (by omega)]

/-- C53, why the reference must not be empty: a nonempty first line with an empty reference line makes the kernel ask the standard
library for an element before the first one, which is undefined, for every limiter. -/
theorem C53_empty_reference_undefined (nth : (Nat → R) → Nat → List Nat → List Nat) (alpha : R) (ha : 0 < alpha) :
    Drop.dropBlock nth (fun x : R => x) ⟨2, fun _ => 0⟩ alpha ⟨1, 1, ⟨2, fun i => i⟩, ⟨1, fun _ => 0⟩, ⟨1, fun _ => 1⟩⟩
      ⟨1, fun _ => 0⟩ ⟨1, fun _ => 0⟩ = .error (.ub "nth_element: middle before first") := by
  unfold Drop.dropBlock
  rw [if_pos ha]
  simp [Drop.kernel, Drop.dropLine, Drop.scatter, forUp, loop, Buf.rd, Buf.wr, bind, Except.bind, pure, Except.pure, throw, throwThe,
    MonadExceptOf.throw]

end

/-- Non-vacuity: two lines, one cut from 3 to 2 entries, one kept; the reference is not empty. -/
example (nth : (Nat → ℚ) → Nat → List Nat → List Nat) (h : SV.NthSpec nth) :
    ∃ B, Drop.dropBlock (R := ℚ) nth (fun x => |x|) (Buf.ofList [0, 4, 5]) (1 / 2)
        (Ex.mk (K := ℚ) 2 4 [0, 3, 4] [0, 1, 3, 2] [1, -3, 2, 7]) ⟨4, fun _ => 0⟩ ⟨2, fun _ => 0⟩ = .ok B ∧ (B.line 0).length = 2 ∧
      B.line 1 = [(2, 7)] := by
  obtain ⟨B, e, -, -, -, -, h3⟩ := C53_keeps_largest (R := ℚ) nth h (fun x : ℚ => |x|) (Buf.ofList [0, 4, 5]) (1 / 2) (by norm_num)
    (Ex.mk (K := ℚ) 2 4 [0, 3, 4] [0, 1, 3, 2] [1, -3, 2, 7]) (by constructor <;> decide) rfl (by decide) ⟨4, fun _ => 0⟩ ⟨2, fun _ => 0⟩
    (by decide) (by decide) (by decide) (by decide)
  refine ⟨B, e, ?_, ?_⟩
  · rw [(h3 0 (by decide)).count]
    have : ⌈(1 / 2 : ℚ) * (((Buf.ofList [0, 4, 5]).get (0 + 1) - (Buf.ofList [0, 4, 5]).get 0 : Nat) : ℚ)⌉₊ = 2 := by
      show ⌈(1 / 2 : ℚ) * ((4 : Nat) : ℚ)⌉₊ = 2
      norm_num
    rw [this]; decide
  · refine (h3 1 (by decide)).all ?_
    show 1 ≤ ⌈(1 / 2 : ℚ) * ((1 : Nat) : ℚ)⌉₊
    rw [Nat.one_le_ceil_iff]; norm_num

end Hif.Props
