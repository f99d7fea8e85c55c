import Verif.Assemble
import Verif.Examples
import Mathlib.Algebra.Order.Field.Rat

/-!
# C10 line-by-line assembly, C14 pruning
-/

namespace Hif.Props
open Hif Finset
variable {K : Type _}

/-- What one assembly call is meant to append: the listed indices with the values found there in the dense array(s). -/
def pushedLine : CS.PushOp K → List (Nat × K)
  | .empty => []
  | .one l v => l.map fun j => (j, v.get j)
  | .two l1 v1 l2 v2 => (l1.map fun j => (j, v1.get j)) ++ l2.map fun j => (j, v2.get j)

/-- Every index of the call lies inside the dense array it refers to. -/
def pushInRange : CS.PushOp K → Prop
  | .empty => True
  | .one l v => ∀ j ∈ l, j < v.size
  | .two l1 v1 l2 v2 => (∀ j ∈ l1, j < v1.size) ∧ ∀ j ∈ l2, j < v2.size

/-- C10: for every matrix object (whatever it contained) and every sequence of push-back calls between begin- and
end-assemble, line `k` of the result is exactly the `k`-th pushed list, the primary size is the number of calls, the arrays
have exactly the right length and the number of stored entries is the total length; if all indices are smaller than the
secondary size, the result is well formed. -/
theorem C10_assemble [Inhabited K] (A : CS K) (ops : List (CS.PushOp K)) (hr : ∀ o ∈ ops, pushInRange o) :
    ∃ B, CS.assemble ops A = .ok B ∧ B.psize = ops.length ∧ B.ssize = A.ssize ∧ B.Tight ∧
      (∀ k (hk : k < ops.length), B.line k = pushedLine ops[k]) ∧
      B.start.get B.psize = (ops.map fun o => (pushedLine o).length).sum ∧
      ((∀ o ∈ ops, ∀ e ∈ pushedLine o, e.1 < A.ssize) → B.WF) := by
  have e1 : (pushedLine : CS.PushOp K → _) = CS.PushOp.pairs := by
    funext o; cases o <;> rfl
  have e2 : (pushInRange : CS.PushOp K → Prop) = CS.PushOp.InRange := by
    funext o; cases o <;> rfl
  rw [e2] at hr
  rw [e1]
  obtain ⟨B, h1, h2, h3, h4⟩ := CS.assemble_runs ops hr A
  have hlen : (ops.map CS.PushOp.pairs).length = ops.length := List.length_map ..
  have hline : ∀ k (hk : k < ops.length), B.line k = ops[k].pairs := by
    intro k hk
    have := h2.line k (by rw [hlen]; exact hk)
    rw [this, List.getElem_map]
  have hs := h2.ssz
  have hi := h2.isz
  have hv := h2.vsz
  rw [hlen] at hs hi hv
  have hll : ∀ k (hk : k < ops.length), B.start.get (k + 1) = B.start.get k + (ops[k].pairs).length := by
    intro k hk
    have h5 := congrArg List.length (hline k hk)
    unfold CS.line at h5
    rw [CS.seg_length] at h5
    have h6 := h2.mono k (by rw [hlen]; exact hk)
    omega
  have hsum : ∀ k, k ≤ ops.length → B.start.get k = ((ops.take k).map fun o => (o.pairs).length).sum := by
    intro k
    induction k with
    | zero => intro _; simp [h2.zero]
    | succ k ih =>
      intro hk
      rw [hll k (by omega), ih (by omega), List.take_succ_eq_append_getElem (by omega), List.map_append, List.sum_append]
      simp only [List.map_cons, List.map_nil, List.sum_cons, List.sum_nil, Nat.add_zero]
  have hz : ∀ i j, i ≤ j → j ≤ ops.length → B.start.get i ≤ B.start.get j := fun i j a b => h2.le a (by rw [hlen]; exact b)
  refine ⟨B, h1, h3, h4, ⟨by rw [h3]; exact hs, by rw [h3]; exact hi, by rw [h3]; exact hv⟩, hline, ?_, fun hb => ?_⟩
  · rw [h3, hsum _ (le_refl _), List.take_length]
  · refine ⟨by rw [h3]; omega, h2.zero, fun i hi' => hz i (i + 1) (by omega) (by omega), by rw [h3]; omega, by rw [h3]; omega, ?_⟩
    rw [h3, h4]
    intro k hk
    have hex : ∀ j, j ≤ ops.length → k < B.start.get j → ∃ i, i < j ∧ B.start.get i ≤ k ∧ k < B.start.get (i + 1) := by
      intro j
      induction j with
      | zero => intro _ h'; rw [h2.zero] at h'; omega
      | succ j ih =>
        intro hj h'
        rcases Nat.lt_or_ge k (B.start.get j) with h5 | h5
        · obtain ⟨i, i1, i2⟩ := ih (by omega) h5
          exact ⟨i, by omega, i2⟩
        · exact ⟨j, by omega, h5, h'⟩
    obtain ⟨i, i1, i2, i3⟩ := hex _ (le_refl _) hk
    have hm : (B.inds.get k, B.vals.get k) ∈ B.line i := CS.mem_seg.2 ⟨k, i2, i3, rfl⟩
    rw [hline i i1] at hm
    exact hb _ (List.getElem_mem i1) _ hm

/-- Non-vacuity of C10: three pushes on an object of declared size 5. -/
example : ((CS.assemble [.one [0, 2] (Buf.ofList [(5 : ℤ), 6, 7]), .empty,
      .two [1] (Buf.ofList [(5 : ℤ), 6, 7]) [2] (Buf.ofList [(1 : ℤ), 2, 3])] (Ex.mk 5 3 [] [] ([] : List ℤ))).map
      fun B => (B.psize, B.start.toList, B.inds.toList, B.vals.toList)) =
    .ok (3, [0, 2, 2, 4], [0, 2, 1, 2], [5, 7, 6, 3]) := by decide

section prune
variable {R : Type _} [Field R] [LinearOrder R] [IsStrictOrderedRing R]

/-- C14 (partial): for every well-formed matrix and every threshold `eps ≤ 1` (a negative one counts as zero), pruning keeps
in every line a sublist of the entries in their order with their values; an entry is removed only if its magnitude is at
most `eps` times that of some entry of its line **and** of some entry of its column (hence at most `eps` times both maxima:
the documented bound); an entry of magnitude zero is always removed; and the returned number is the number of removed
entries.  Missing: that every entry satisfying the documented bound is removed, which is false
(`C14_keeps_small_witness`). -/
theorem C14_prune_partial (nrm : K → R) (hn : ∀ v, 0 ≤ nrm v) (A : CS K) (h : A.WF) (eps : R) (h1 : eps ≤ 1) :
    ∃ elms B, A.prune nrm eps = .ok (elms, B) ∧ B.WF ∧ B.psize = A.psize ∧ B.ssize = A.ssize ∧
      elms + B.start.get A.psize = A.start.get A.psize ∧
      ∃ keep : Nat → Nat × K → Bool, ∀ i, i < A.psize → B.line i = (A.line i).filter (keep i) ∧
        ∀ e ∈ A.line i, (keep i e = false →
          (∃ f ∈ A.line i, nrm e.2 ≤ max eps 0 * nrm f.2) ∧
          (∃ l, l < A.psize ∧ ∃ f ∈ A.line l, f.1 = e.1 ∧ nrm e.2 ≤ max eps 0 * nrm f.2)) ∧
          (nrm e.2 = 0 → keep i e = false) := by
  obtain ⟨⟨n, B⟩, h2, h3⟩ := CS.prune_runs nrm hn h eps h1
  exact ⟨n, B, h2, h3⟩

/-- C14: with the default threshold (zero), or a negative one, pruning removes exactly the stored zeros. -/
theorem C14_prune_zeros (nrm : K → R) (hn : ∀ v, 0 ≤ nrm v) (A : CS K) (h : A.WF) (eps : R) (h0 : eps ≤ 0) :
    ∃ elms B, A.prune nrm eps = .ok (elms, B) ∧ B.WF ∧
      elms + B.start.get A.psize = A.start.get A.psize ∧
      ∀ i, i < A.psize → B.line i = (A.line i).filter fun e => decide (nrm e.2 ≠ 0) := by
  obtain ⟨n, B, h2, h3, -, -, h4, keep, h5⟩ := C14_prune_partial nrm hn A h eps (le_trans h0 zero_le_one)
  refine ⟨n, B, h2, h3, h4, fun i hi => ?_⟩
  rw [(h5 i hi).1]
  refine List.filter_congr fun e he => ?_
  obtain ⟨a, b⟩ := (h5 i hi).2 e he
  by_cases hz : nrm e.2 = 0
  · rw [b hz]; simp [hz]
  · have : keep i e ≠ false := by
      intro hk
      obtain ⟨⟨f, -, hf⟩, -⟩ := a hk
      rw [max_eq_right h0, zero_mul] at hf
      exact hz (le_antisymm hf (hn _))
    simp [hz, this]

end prune

/-- `[[100,100],[1,100],[1,100]]`: the two entries of magnitude one are at most a tenth of the maxima (100) of their row and
column, so the documentation says `prune(1/10)` removes them. -/
def pruneEx : CS ℚ := Ex.mk 3 2 [0, 2, 4, 6] [0, 1, 0, 1, 0, 1] [100, 100, 1, 100, 1, 100]

/-- C14 fails to remove every documented entry: the column threshold is multiplied by `eps` again for every further entry
of the column, so the second small entry survives. -/
theorem C14_keeps_small_witness :
    ((pruneEx.prune (fun v => |v|) (1 / 10)).map fun r => (r.1, r.2.inds.toList, r.2.vals.toList)) =
      .ok (0, [0, 1, 0, 1, 0, 1], [100, 100, 1, 100, 1, 100]) := by decide +kernel

/-- Non-vacuity of C14: a case where something is removed. -/
example : (((Ex.mk 2 2 [0, 2, 4] [0, 1, 0, 1] [(1 : ℚ), 100, 100, 0]).prune (fun v => |v|) (1 / 10)).map
    fun r => (r.1, r.2.start.toList, r.2.inds.toList, r.2.vals.toList)) = .ok (2, [0, 1, 2], [1, 0], [100, 100]) := by
  decide +kernel

end Hif.Props
