import Verif.SparseVec
import Mathlib.Algebra.Order.Field.Rat
import Mathlib.Data.Rat.Floor

set_option linter.unusedSectionVars false

/-!
# C18, C20, C21: sparse work vector and dropping
-/

namespace Hif.Props
open Hif

/-- The distinct elements of `l` in order of first appearance. -/
def firsts (l : List Nat) : List Nat := l.foldl (fun acc x => if x ∈ acc then acc else acc ++ [x]) []

/-- What one step must report: push answers (true exactly at first appearances), index list, and the list left after
removing the marked positions. -/
structure RoundSpec (pushes marks : List Nat) (out : List Bool × List Nat × List Nat) : Prop where
  answers : out.1 = (List.range pushes.length).map fun t => decide (pushes.getD t 0 ∉ pushes.take t)
  listed : out.2.1 = firsts pushes
  nodup : out.2.1.Nodup
  mem : ∀ x, x ∈ out.2.1 ↔ x ∈ pushes
  kept : out.2.2 = ((List.range out.2.1.length).filter fun k => decide (k ∉ marks)).map fun k => out.2.1.getD k 0

/-- The arguments of one step are legal: indices below `n`, marked positions inside the list. -/
def roundOk (n : Nat) (r : Nat × List Nat × List Nat) : Prop :=
  (∀ i ∈ r.2.1, i < n) ∧ ∀ k ∈ r.2.2, k < (firsts r.2.1).length

/-- C18: for every history of steps with increasing step numbers on a vector of any size, every step reports exactly what
its own pushes and marks determine. -/
theorem C18_history {K : Type} [Inhabited K] (n : Nat) (hist : List (Nat × List Nat × List Nat))
    (hstep : hist.Pairwise fun a b => a.1 < b.1) (hok : ∀ r ∈ hist, roundOk n r) :
    ∃ outs s, SV.rounds hist (SV.new n : SV K) = .ok (outs, s) ∧
      List.Forall₂ (fun r o => RoundSpec r.2.1 r.2.2 o) hist outs := by
  have gen : ∀ (hist : List (Nat × List Nat × List Nat)), (hist.Pairwise fun a b => a.1 < b.1) →
      (∀ r ∈ hist, roundOk n r) → ∀ s : SV K, (∀ r ∈ hist, SV.Ready n r.1 s) →
      ∃ outs t, SV.rounds hist s = .ok (outs, t) ∧ List.Forall₂ (fun r o => RoundSpec r.2.1 r.2.2 o) hist outs := by
    intro hist
    induction hist with
    | nil => intro _ _ s _; exact ⟨[], s, rfl, .nil⟩
    | cons r l ih =>
      intro hp ho s hs
      obtain ⟨o, o0, o1, o2, o3, o4, o5, o6⟩ := SV.round_runs (hs r (by simp)) r.2.1 r.2.2 (ho r (by simp)).1 (ho r (by simp)).2
      rw [List.pairwise_cons] at hp
      obtain ⟨outs, t, t1, t2⟩ := ih hp.2 (fun x hx => ho x (by simp [hx])) o.2 (fun x hx => o6 x.1 (hp.1 x hx))
      refine ⟨o.1 :: outs, t, ?_, .cons ⟨o1, o2, o3, o4, o5⟩ t2⟩
      simp only [SV.rounds, o0]
      show (SV.rounds l o.2 >>= fun b => pure (o.1 :: b.1, b.2)) = _
      rw [t1]; rfl
  refine gen hist hstep hok _ fun r _ => ⟨rfl, le_refl _, rfl, fun _ => rfl, fun i _ => ⟨?_, fun t => ?_⟩⟩
  · show (none : Option Nat) ≠ _
    simp
  · show (none : Option Nat) = _ → _
    simp

/-- C18: pushing, then restoring the state, makes the same step number usable again: whatever was pushed before, the
following step with the same number reports what its own pushes determine. -/
theorem C18_restore {K : Type} [Inhabited K] (n step : Nat) (s : SV K) (hs : SV.Ready n step s) (before : List Nat)
    (hb : ∀ i ∈ before, i < n) (pushes marks : List Nat) (ho : roundOk n (step, pushes, marks)) :
    ∃ o t, (do let r ← SV.pushAll step before s.reset
               let r ← r.2.restore
               r.round step pushes marks) = .ok (o, t) ∧ RoundSpec pushes marks o := by
  obtain ⟨r, r0, r1, -⟩ := SV.pushAll_runs before hb hs.reset
  obtain ⟨u, u0, u1, -⟩ := SV.restore_runs r1
  obtain ⟨o, o0, o1, o2, o3, o4, o5, o6⟩ := SV.round_runs u1 pushes marks ho.1 ho.2
  refine ⟨o.1, o.2, ?_, ⟨o1, o2, o3, o4, o5⟩⟩
  rw [r0]
  show (r.2.restore >>= fun r => r.round step pushes marks) = _
  rw [u0]; exact o0

/-- Non-vacuity of C18: two steps; repeated pushes and a mark. -/
example : ((SV.rounds [(0, [3, 1, 3, 0], [1]), (5, [1, 1, 2], [])] (SV.new 4 : SV Int)).map fun r => r.1) =
    .ok [([true, true, false, true], [3, 1, 0], [3, 0]), ([true, false, true], [1, 2], [1, 2])] := by decide

section drop
variable {K R : Type} [Field R] [LinearOrder R] [IsStrictOrderedRing R]

/-- C20: for every sparse vector, tolerance and positive condition estimate, numerical dropping removes exactly the entries
whose magnitude is at most `tau / kappa` (with `tau` positive; otherwise nothing), keeping the order of the others and all
values. -/
theorem C20_num_dropping (nrm : K → R) (tau kappa : R) (hk : 0 < kappa) (s : SV K) (hc : s.counts ≤ s.inds.size)
    (hd : s.drop.size = s.inds.size) (hf : ∀ k, s.drop.get k = false)
    (hv : ∀ i ∈ s.inds.slice 0 s.counts, i < s.vals.size) :
    ∃ r, SV.numDrop nrm tau kappa s = .ok r ∧ r.vals = s.vals ∧ (∀ k, r.drop.get k = false) ∧
      r.inds.slice 0 r.counts = (if 0 < tau
        then (s.inds.slice 0 s.counts).filter fun i => decide (¬ nrm (s.vals.get i) ≤ tau / kappa)
        else s.inds.slice 0 s.counts) := by
  obtain ⟨r, r0, r1, -, -, -, r5, r6⟩ := SV.numDrop_runs nrm tau kappa s hc hd hf hv
  refine ⟨r, r0, r1, r5, ?_⟩
  have r6' : r.inds.slice 0 r.counts = _ := r6
  rw [r6']
  by_cases ht : 0 < tau
  · rw [if_neg (not_le.2 (div_pos ht hk)), if_pos ht]
    refine List.filter_congr fun i _ => ?_
    simp [not_le]
  · rw [if_pos (div_nonpos_of_nonpos_of_nonneg (not_lt.1 ht) hk.le), if_neg ht]; rfl

/-- C21: for every sparse vector, limiter and reference size, and every behaviour of the standard library selection
allowed by its specification, exactly `min(size, max(1, ceil(alpha*nnz) - start))` indices stay, the kept and dropped
indices are together those there were, values do not change, and no dropped magnitude exceeds a kept one; a limiter that
is not positive changes nothing. -/
theorem C21_space_dropping [FloorSemiring R] (nth : (Nat → R) → Nat → List Nat → List Nat)
    (hnth : SV.NthSpec nth) (nrm : K → R) (nnz : Nat) (alpha : R) (s : SV K) (start : Nat)
    (hc : s.counts ≤ s.inds.size) :
    ∃ r, SV.spaceDrop nth nrm nnz alpha s start = .ok r ∧ r.vals = s.vals ∧ r.drop = s.drop ∧
      (alpha ≤ 0 → r = s) ∧
      (0 < alpha → r.counts = min s.counts (max 1 (⌈alpha * nnz⌉₊ - start)) ∧
        ∃ dropped, (r.inds.slice 0 r.counts ++ dropped).Perm (s.inds.slice 0 s.counts) ∧
          ∀ a ∈ r.inds.slice 0 r.counts, ∀ b ∈ dropped, nrm (s.vals.get b) ≤ nrm (s.vals.get a)) := by
  by_cases ha : alpha ≤ 0
  · refine ⟨s, ?_, rfl, rfl, fun _ => rfl, fun h => absurd h (not_lt.2 ha)⟩
    unfold SV.spaceDrop
    rw [if_pos ha]; rfl
  · obtain ⟨r, r0, r1, r2, r3, r4, r5, r6⟩ := SV.spaceDrop_runs nth hnth nrm nnz alpha s start hc (not_le.1 ha)
    exact ⟨r, r0, r1, r3, fun h => absurd h ha, fun _ => ⟨r5, r6⟩⟩

/-- A selection meeting the standard's promise exists: sort by decreasing magnitude. -/
theorem C21_selection_exists : ∃ nth : (Nat → R) → Nat → List Nat → List Nat, SV.NthSpec nth := by
  refine ⟨fun w _ l => l.insertionSort fun a b => w b ≤ w a, fun w k l _ => ⟨List.perm_insertionSort _ _, ?_⟩⟩
  have : Std.Total fun a b : Nat => w b ≤ w a := ⟨fun a b => le_total _ _⟩
  have : IsTrans Nat fun a b => w b ≤ w a := ⟨fun a b c h1 h2 => le_trans h2 h1⟩
  have hs := List.pairwise_insertionSort (fun a b : Nat => w b ≤ w a) l
  intro a ha b hb
  rw [← List.take_append_drop (k + 1) (l.insertionSort fun a b => w b ≤ w a), List.pairwise_append] at hs
  exact hs.2.2 a ha b hb

end drop

/-- A sparse vector for the examples: values 5, 1, 2, 4 at indices 0..3, list 3, 1, 0, 2. -/
def exSV : SV ℚ := ⟨Buf.ofList [5, 1, 2, 4], Buf.ofList [3, 1, 0, 2], 4, Buf.ofList [none, none, none, none],
  Buf.ofList [false, false, false, false]⟩

/-- Non-vacuity of C20: threshold 4/2 drops the entries of magnitude 1 and 2 (the tie included). -/
example : ((SV.numDrop (R := ℚ) (fun x => |x|) 4 2 exSV).map fun r => r.inds.slice 0 r.counts) = .ok [3, 0] := by
  obtain ⟨r, h, -, -, h2⟩ := C20_num_dropping (R := ℚ) (fun x => |x|) 4 2 (by norm_num) exSV (by decide) rfl
    (fun k => by match k with
      | 0 => rfl
      | 1 => rfl
      | 2 => rfl
      | 3 => rfl
      | k + 4 => rfl) (by decide)
  rw [h]
  show Except.ok (r.inds.slice 0 r.counts) = _
  rw [h2]
  norm_num [exSV, Buf.slice, Buf.ofList, List.range', abs_of_pos]

/-- Non-vacuity of C21: `ceil(1/2 * 4) = 2` of the four entries stay, under any legal selection. -/
example (nth : (Nat → ℚ) → Nat → List Nat → List Nat) (h : SV.NthSpec nth) :
    ∃ r, SV.spaceDrop (R := ℚ) nth (fun x => |x|) 4 (1 / 2) exSV 0 = .ok r ∧ r.counts = 2 := by
  obtain ⟨r, h1, -, -, -, h2⟩ := C21_space_dropping (R := ℚ) nth h (fun x => |x|) 4 (1 / 2) exSV 0 (by decide)
  refine ⟨r, h1, ?_⟩
  rw [(h2 (by norm_num)).1]
  have : ⌈(1 / 2 : ℚ) * ((4 : Nat) : ℚ)⌉₊ = 2 := by norm_num
  rw [this]; rfl

end Hif.Props
