import Verif.PSymmStep
import Verif.CroutRes

set_option linter.unusedVariables false
set_option linter.unusedSectionVars false
set_option linter.unusedSimpArgs false

/-!
# Dropping on the tail of a column of `L` (proofs)
-/

namespace Hif.PSymm
open Finset Crout
variable {K : Type} [Field K] [DecidableEq K] {R : Type _} [Field R] [LinearOrder R] [IsStrictOrderedRing R] [FloorSemiring R]

/-- Outcome of `tailDrop`. -/
theorem tailDrop_runs (nrm : K → R) (nth : (Nat → R) → Nat → List Nat → List Nat) (hnth : SV.NthSpec nth) (tau kappaD alpha : R)
    (sizes : Buf Nat) (lead : Nat) (k : K) (lab : Nat) (hlab : lab < sizes.size) {N step : Nat} {v : SV K} (hv : SV.Busy N step v)
    (hvs : v.vals.size = N) :
    Runs (tailDrop nrm nth tau kappaD alpha sizes lead k lab v) fun r =>
      r.vals = v.vals ∧ r.tags = v.tags ∧ r.inds.size = v.inds.size ∧ r.drop.size = v.drop.size ∧ (∀ i, r.drop.get i = false) ∧
      r.list.Nodup ∧ r.list ⊆ v.list ∧ (0 < alpha → r.counts ≤ max 1 (⌈alpha * sizes.get lab⌉₊ - lead)) ∧
      ∀ x ∈ v.list, x ∉ r.list → (0 < tau / (nrm k * kappaD) ∧ nrm (v.vals.get x) ≤ tau / (nrm k * kappaD)) ∨
        (0 < alpha ∧ r.counts = max 1 (⌈alpha * sizes.get lab⌉₊ - lead) ∧ ∀ y ∈ r.list, nrm (v.vals.get x) ≤ nrm (v.vals.get y)) := by
  unfold tailDrop
  simp only [runs_bind, runs_rd]
  have hcl := hv.counts_le
  refine (SV.numDrop_runs nrm tau (nrm k * kappaD) v (le_trans hcl hv.inds_size) hv.drop_size hv.drop_false
    (fun i hi => by rw [hvs]; exact ((hv.mem i).1 hi).1)).mono ?_
  rintro w ⟨w1, w2, w3, w4, w5, w6⟩
  refine ⟨hlab, ?_⟩
  have hwn : w.list.Nodup := by
    rw [w6]; split
    · exact hv.nodup
    · exact hv.nodup.filter _
  have hws : w.list ⊆ v.list := by
    rw [w6]; split
    · exact fun _ h => h
    · exact List.filter_subset_self _
  have hwd : ∀ x ∈ v.list, x ∉ w.list → 0 < tau / (nrm k * kappaD) ∧ nrm (v.vals.get x) ≤ tau / (nrm k * kappaD) := by
    intro x hx hnx
    rw [w6] at hnx
    split at hnx
    · exact absurd hx hnx
    · rename_i hc
      refine ⟨not_le.1 hc, not_lt.1 fun hlt => hnx ?_⟩
      rw [List.mem_filter]; exact ⟨hx, by simpa using hlt⟩
  have hwc : w.list.length = w.counts := by unfold SV.list; rw [Buf.slice_length]; omega
  have hle : w.counts ≤ w.inds.size := by
    rw [← hwc, w3]
    have h1 := (hwn.subperm hws).length_le
    have h2 : v.list.length = v.counts := by unfold SV.list; rw [Buf.slice_length]; omega
    have := hv.inds_size
    omega
  rcases le_or_gt alpha 0 with ha | ha
  · unfold SV.spaceDrop
    rw [if_pos ha, runs_pure]
    exact ⟨w1, w2, w3, w4, w5, hwn, hws, fun h => absurd h (not_lt.2 ha), fun x hx hnx => Or.inl (hwd x hx hnx)⟩
  · refine (SV.spaceDrop_runs nth hnth nrm (sizes.get lab) alpha w lead hle ha).mono ?_
    rintro r ⟨r1, r2, r3, r4, r5, dr, r6, r7⟩
    have hrs : ∀ x, x ∈ r.list → x ∈ w.list := fun x hx => r6.mem_iff.1 (List.mem_append.2 (Or.inl hx))
    refine ⟨by rw [r1, w1], by rw [r2, w2], by rw [r4, w3], by rw [r3, w4], by rw [r3]; exact w5, ?_, fun x hx => hws (hrs x hx),
      fun _ => by omega, fun x hx hnx => ?_⟩
    · exact ((r6.nodup_iff).2 hwn).of_append_left
    · by_cases hxw : x ∈ w.list
      · right
        have hxd : x ∈ dr := by
          rcases List.mem_append.1 (r6.mem_iff.2 hxw) with h | h
          · exact absurd h hnx
          · exact h
        refine ⟨ha, ?_, fun y hy => ?_⟩
        · have h1 := r6.length_eq
          rw [List.length_append, hwc] at h1
          have h2 : r.list.length = r.counts := by unfold SV.list; rw [Buf.slice_length]; omega
          have h3 := List.length_pos_of_mem hxd
          omega
        · have := r7 y hy x hxd
          rw [w1] at this; exact this
      · exact Or.inl (hwd x hx hxw)

/-- It is a dropping routine. -/
theorem tailDrop_ok (n : Nat) (nrm : K → R) (nth : (Nat → R) → Nat → List Nat → List Nat) (hnth : SV.NthSpec nth) (tau kappaD alpha : R)
    (sizes : Buf Nat) (hs : n ≤ sizes.size) (lead : Nat) : DropOK n (fun _ _ => True) (tailDrop nrm nth tau kappaD alpha sizes lead) := by
  intro kap lab v N step hlab hv hvs
  refine (tailDrop_runs nrm nth hnth tau kappaD alpha sizes lead kap lab (by omega) hv hvs).mono ?_
  rintro r ⟨h1, h2, h3, h4, h5, h6, h7, h8, -⟩
  exact ⟨h1, h2, h3, h4, h5, h6, h7, trivial⟩

/-- Nothing is dropped when the numerical threshold is off and every line may hold `2 n` entries. -/
theorem tailDrop_keeps (n : Nat) (nrm : K → R) (hn : ∀ x, 0 ≤ nrm x) (nth : (Nat → R) → Nat → List Nat → List Nat)
    (hnth : SV.NthSpec nth) (tau kappaD alpha : R) (sizes : Buf Nat) (hs : n ≤ sizes.size) (ht : tau ≤ 0) (hk : 0 ≤ kappaD)
    (ha : ∀ lab, lab < n → 0 < alpha → ((2 * n : Nat) : R) ≤ alpha * sizes.get lab) (lead : Nat) (hlead : lead ≤ n) :
    KeepsTail n (tailDrop nrm nth tau kappaD alpha sizes lead) := by
  intro kap lab v r N step hlab hN hv hvs hcnt hok x hx
  by_contra hnx
  obtain ⟨r', h1, -, -, -, -, -, h2, h3, -, h4⟩ := tailDrop_runs nrm nth hnth tau kappaD alpha sizes lead kap lab (by omega) hv hvs
  rw [hok] at h1
  injection h1 with h1
  subst h1
  rcases h4 x hx hnx with c | ⟨c0, c, -⟩
  · have h2 : tau / (nrm kap * kappaD) ≤ 0 := div_nonpos_of_nonpos_of_nonneg ht (mul_nonneg (hn _) hk)
    exact absurd c.1 (not_lt.2 h2)
  · have hlen : ∀ w : SV K, w.list.length = w.counts := fun w => by unfold SV.list; rw [Buf.slice_length]; omega
    have hlt : (x :: r.list).length ≤ v.list.length :=
      ((List.nodup_cons.2 ⟨hnx, h2⟩).subperm (List.cons_subset.2 ⟨hx, h3⟩)).length_le
    rw [List.length_cons, hlen, hlen] at hlt
    have hb : 2 * n ≤ ⌈alpha * sizes.get lab⌉₊ := by
      have := le_trans (ha lab hlab c0) (Nat.le_ceil _)
      exact_mod_cast this
    omega

end Hif.PSymm
