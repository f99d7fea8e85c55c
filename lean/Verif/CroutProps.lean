import Verif.CroutFin
import Mathlib.Algebra.Order.Field.Basic
import Mathlib.Tactic.Linarith
import Mathlib.Algebra.Order.BigOperators.Group.Finset
import Mathlib.Algebra.Order.Floor.Semiring

set_option linter.unusedVariables false
set_option linter.unusedSectionVars false
set_option linter.unusedSimpArgs false

/-!
# From the invariant of the Crout phase to statements in the final ordering (proofs)
-/

namespace Hif.Crout
open Finset
variable {K : Type _} [Field K] [DecidableEq K] {R : Type _}

section final
variable [LinearOrder R] {pr : Par K R} {I : In K} {ΦU ΦL : Nat → Nat → Prop}

/-- The unit lower triangular factor of the result (`L` is stored by columns, without the diagonal). -/
def Out.Lbar (r : Out K) (i h : Nat) : K := if i = h then 1 else r.L.entry h i
/-- The unit upper triangular factor of the result (`U` is stored by rows, without the diagonal). -/
def Out.Ubar (r : Out K) (h j : Nat) : K := if h = j then 1 else r.U.entry h j
/-- The scaled input matrix in the final ordering. -/
def Out.target (I : In K) (r : Out K) (i j : Nat) : K :=
  I.s.get (r.p.p.get i) * I.Acrs.entry (r.p.p.get i) (r.q.p.get j) * I.t.get (r.q.p.get j)

theorem FinOK.entry {n m : Nat} {T : CS K} {st : Buf Nat} {S : Nat → Nat → K} {w : Nat → Nat} {Φ : Nat → Nat → Prop}
    (h : FinOK n m T st S w Φ) {i x : Nat} (hi : i < m) (hx : x < n) : T.entry i (w x) = S i x := by
  rw [CS.entry_eq_line _ _ _ (h.wf.mono i (by rw [h.psz]; exact hi)), ← h.ent i hi x hx]; rfl

theorem FinOK.zero {n m : Nat} {T : CS K} {st : Buf Nat} {S : Nat → Nat → K} {w : Nat → Nat} {Φ : Nat → Nat → Prop}
    (h : FinOK n m T st S w Φ) {i j : Nat} (hi : i < m) (hj : j ≤ i) : T.entry i j = 0 := by
  rw [CS.entry_eq_line _ _ _ (h.wf.mono i (by rw [h.psz]; exact hi))]
  exact ent_zero fun e he => by have := h.upper i hi e he; omega

/-- Going back from final positions to the positions after preprocessing. -/
theorem Final.back {r : Out K} {g : Gh K} (hI : InOK I) (h : Final pr I ΦU ΦL r g) :
    ∃ z : Nat → Nat, (∀ j, j < I.n → z j < I.n ∧ place r.m r.defers g.v (z j) = j) ∧ (∀ a, a < r.m → z a = g.o a) ∧
      (∀ j, j < I.n → r.p.p.get j = I.p0.get (z j) ∧ r.q.p.get j = I.q0.get (z j)) ∧
      (∀ a, a < r.m → ∀ j, j < I.n → (a < g.v (z j) ↔ a < j)) ∧
      (∀ a, a < r.m → ∀ j, j < I.n → r.U.entry a j = g.Us a (z j) ∧ r.L.entry a j = g.Ls a (z j)) := by
  have hmle := hI.mle
  have htot := h.tot
  have hkn : r.m + r.defers ≤ I.n := by omega
  have hpl := place_perm h.pos hkn
  have hz : ∀ j, ∃ x, j < I.n → x < I.n ∧ place r.m r.defers g.v x = j := by
    intro j
    by_cases hj : j < I.n
    · obtain ⟨x, hx⟩ := isPerm_surj hpl hj; exact ⟨x, fun _ => hx⟩
    · exact ⟨0, fun hc => absurd hc hj⟩
  choose z hz using hz
  refine ⟨z, hz, fun a ha => ?_, fun j hj => ?_, fun a ha j hj => ?_, fun a ha j hj => ?_⟩
  · obtain ⟨z1, z2⟩ := hz a (by omega)
    obtain ⟨o1, o2⟩ := h.pos.orig a ha
    refine hpl.2 _ _ z1 (by omega) ?_
    rw [z2]; unfold place; rw [o2, if_pos ha]
  · obtain ⟨z1, z2⟩ := hz j hj
    have e1 := h.p _ z1
    have e2 := h.q _ z1
    rw [z2] at e1 e2
    exact ⟨e1, e2⟩
  · obtain ⟨z1, z2⟩ := hz j hj
    unfold place at z2
    rcases h.pos.cases hkn z1 with c | c
    · rw [if_pos c] at z2; rw [z2]
    · rw [if_neg (by omega)] at z2; omega
  · obtain ⟨z1, z2⟩ := hz j hj
    have e1 := h.U.entry ha z1
    have e2 := h.L.entry ha z1
    rw [z2] at e1 e2
    exact ⟨e1, e2⟩

theorem sum_upto {m i : Nat} (hi : i < m) (f : Nat → K) (h : ∀ a, i < a → a < m → f a = 0) :
    ∑ a ∈ range m, f a = (∑ a ∈ range i, f a) + f i := by
  rw [← sum_range_succ]
  symm
  refine sum_subset (fun a ha => mem_range.2 (by have := mem_range.1 ha; omega)) fun a ha hn => ?_
  exact h a (by rw [mem_range] at hn; omega) (mem_range.1 ha)

/-- The recurrences in the final ordering. -/
theorem Final.recs {r : Out K} {g : Gh K} (hI : InOK I) (h : Final pr I ΦU ΦL r g) :
    ∃ Ut Lt : Nat → Nat → K,
      (∀ a, a < r.m → ∀ j, j < I.n → a < j →
        r.d.get a * Ut a j = Out.target I r a j - ∑ b ∈ range a, r.Lbar a b * r.d.get b * r.Ubar b j) ∧
      (∀ a, a < r.m → ∀ i, i < I.n → a < i →
        Lt i a * r.d.get a = Out.target I r i a - ∑ b ∈ range a, r.Lbar i b * r.d.get b * r.Ubar b a) ∧
      (∀ a, a < r.m → r.d.get a = Out.target I r a a - ∑ b ∈ range a, Lt a b * r.d.get b * Ut b a) ∧
      (∀ a, a < r.m → ∀ j, j < I.n → a < j → (r.Ubar a j = Ut a j ∨ r.Ubar a j = 0) ∧ (r.Lbar j a = Lt j a ∨ r.Lbar j a = 0)) ∧
      (KeepsAll I.n pr.dropU → ∀ a, a < r.m → ∀ j, j < I.n → a < j → r.Ubar a j = Ut a j) ∧
      (KeepsAll I.n pr.dropL → ∀ a, a < r.m → ∀ j, j < I.n → a < j → r.Lbar j a = Lt j a) ∧
      (∀ Ψ, DropRule I.n pr.dropU Ψ → ∀ a, a < r.m → ∀ j, j < I.n → a < j →
        r.Ubar a j = Ut a j ∨ (r.Ubar a j = 0 ∧ Ψ (r.kU.get a) (r.p.p.get a) (Ut a j))) ∧
      (∀ Ψ, DropRule I.n pr.dropL Ψ → ∀ a, a < r.m → ∀ j, j < I.n → a < j →
        r.Lbar j a = Lt j a ∨ (r.Lbar j a = 0 ∧ Ψ (r.kL.get a) (r.q.p.get a) (Lt j a))) := by
  have hmle := hI.mle
  have htot := h.tot
  obtain ⟨z, z1, z2, z3, z4, z5⟩ := h.back hI
  have hB : ∀ i j, i < I.n → j < I.n → Out.target I r i j = I.B (z i) (z j) := by
    intro i j hi hj
    unfold Out.target In.B; rw [(z3 i hi).1, (z3 j hj).2]
  have hUb : ∀ a j, a < r.m → j < I.n → a < j → r.Ubar a j = g.Us a (z j) := by
    intro a j ha hj hlt
    unfold Out.Ubar; rw [if_neg (by omega)]; exact (z5 a ha j hj).1
  have hLb : ∀ a j, a < r.m → j < I.n → a < j → r.Lbar j a = g.Ls a (z j) := by
    intro a j ha hj hlt
    unfold Out.Lbar; rw [if_neg (by omega)]; exact (z5 a ha j hj).2
  have N := h.num
  refine ⟨fun a j => g.Ut a (z j), fun i a => g.Lt a (z i), ?_, ?_, ?_, ?_, ?_, ?_, ?_, ?_⟩
  · intro a ha j hj hlt
    rw [N.recU a ha (z j) (z1 j hj).1 ((z4 a ha j hj).2 hlt), hB a j (by omega) hj, z2 a ha]
    congr 1
    refine sum_congr rfl fun b hb => ?_
    have hb := mem_range.1 hb
    rw [hLb b a (by omega) (by omega) hb, hUb b j (by omega) hj (by omega), z2 a ha]
  · intro a ha i hi hlt
    rw [N.recL a ha (z i) (z1 i hi).1 ((z4 a ha i hi).2 hlt), hB i a hi (by omega), z2 a ha]
    congr 1
    refine sum_congr rfl fun b hb => ?_
    have hb := mem_range.1 hb
    rw [hLb b i (by omega) hi (by omega), hUb b a (by omega) (by omega) hb, z2 a ha]
  · intro a ha
    simp only
    rw [hB a a (by omega) (by omega), z2 a ha]
    exact N.diag a ha
  · intro a ha j hj hlt
    rw [hUb a j ha hj hlt, hLb a j ha hj hlt]
    exact ⟨N.keepU a ha _ (z1 j hj).1, N.keepL a ha _ (z1 j hj).1⟩
  · intro hk a ha j hj hlt
    rw [hUb a j ha hj hlt]; exact N.allU hk a ha _ (z1 j hj).1
  · intro hk a ha j hj hlt
    rw [hLb a j ha hj hlt]; exact N.allL hk a ha _ (z1 j hj).1
  · intro Ψ hΨ a ha j hj hlt
    rw [hUb a j ha hj hlt, (z3 a (by omega)).1, z2 a ha]; exact h.rulU Ψ hΨ a ha _ (z1 j hj).1
  · intro Ψ hΨ a ha j hj hlt
    rw [hLb a j ha hj hlt, (z3 a (by omega)).2, z2 a ha]; exact h.rulL Ψ hΨ a ha _ (z1 j hj).1

/-- The product of the factors, off the diagonal, in terms of the sum up to the smaller index. -/
theorem Final.prod {r : Out K} {g : Gh K} (hI : InOK I) (h : Final pr I ΦU ΦL r g) {i j a : Nat} (ha : a < r.m) (hmin : a = min i j)
    (hi : i < I.n) (hj : j < I.n) :
    ∑ b ∈ range r.m, r.Lbar i b * r.d.get b * r.Ubar b j =
      (∑ b ∈ range a, r.Lbar i b * r.d.get b * r.Ubar b j) + r.Lbar i a * r.d.get a * r.Ubar a j := by
  refine sum_upto ha _ fun b h1 h2 => ?_
  rcases Nat.lt_or_ge i b with hc | hc
  · have : r.Lbar i b = 0 := by
      unfold Out.Lbar; rw [if_neg (by omega)]; exact h.L.zero h2 (by omega)
    rw [this, zero_mul, zero_mul]
  · have : r.Ubar b j = 0 := by
      unfold Out.Ubar; rw [if_neg (by omega)]; exact h.U.zero h2 (by omega)
    rw [this, mul_zero]

/-- Exactness when nothing is dropped. -/
theorem Final.exact {r : Out K} {g : Gh K} (hI : InOK I) (h : Final pr I ΦU ΦL r g) (kU : KeepsAll I.n pr.dropU) (kL : KeepsAll I.n pr.dropL)
    {i j : Nat} (hi : i < I.n) (hj : j < I.n) (hm : min i j < r.m) :
    ∑ b ∈ range r.m, r.Lbar i b * r.d.get b * r.Ubar b j = Out.target I r i j := by
  obtain ⟨Ut, Lt, e1, e2, e3, -, e5, e6, -, -⟩ := h.recs hI
  have hmle := hI.mle
  have htot := h.tot
  rw [h.prod hI hm rfl hi hj]
  rcases Nat.lt_trichotomy i j with hlt | heq | hgt
  · rw [show min i j = i by omega] at hm ⊢
    have hL1 : r.Lbar i i = 1 := if_pos rfl
    rw [hL1, one_mul, e5 kU i hm j hj hlt, e1 i hm j hj hlt]; ring
  · subst heq
    rw [show min i i = i by omega] at hm ⊢
    have hL1 : r.Lbar i i = 1 := if_pos rfl
    have hU1 : r.Ubar i i = 1 := if_pos rfl
    rw [hL1, hU1, one_mul, mul_one]
    conv_lhs => rw [e3 i hm]
    rw [add_comm, sub_add_eq_add_sub, sub_eq_iff_eq_add]
    congr 1
    refine sum_congr rfl fun b hb => ?_
    have hb := mem_range.1 hb
    rw [e5 kU b (by omega) i hi hb, e6 kL b (by omega) i hi hb]
  · rw [show min i j = j by omega] at hm ⊢
    have hU1 : r.Ubar j j = 1 := if_pos rfl
    rw [hU1, mul_one, e6 kL j hm i hi hgt, e2 j hm i hi hgt]; ring

end final

/-! ### Magnitudes -/

/-- An absolute value on `K` with values in an ordered field. -/
structure IsAbs [Field R] [LinearOrder R] (nrm : K → R) : Prop where
  nonneg : ∀ x, 0 ≤ nrm x
  add : ∀ x y, nrm (x + y) ≤ nrm x + nrm y
  mul : ∀ x y, nrm (x * y) = nrm x * nrm y
  neg : ∀ x, nrm (-x) = nrm x
  one : nrm 1 = 1
  zero : nrm 0 = 0
  two : nrm (1 + 1) = 2

section mag
variable [Field R] [LinearOrder R] [IsStrictOrderedRing R] {nrm : K → R}

theorem IsAbs.sum (h : IsAbs nrm) (s : Finset Nat) (f : Nat → K) : nrm (∑ i ∈ s, f i) ≤ ∑ i ∈ s, nrm (f i) := by
  classical
  induction s using Finset.induction_on with
  | empty => simp [h.zero]
  | insert a s ha ih =>
    rw [sum_insert ha, sum_insert ha]
    exact le_trans (h.add _ _) (by linarith)

theorem kappaPick_cases (s : K) : kappaPick nrm s = 1 - s ∨ kappaPick nrm s = -1 - s := by
  unfold kappaPick; split
  · exact Or.inr rfl
  · exact Or.inl rfl

theorem kappaPick_ge (h : IsAbs nrm) (s : K) : 1 ≤ nrm (kappaPick nrm s) := by
  have h2 : 2 ≤ nrm (1 - s) + nrm (-1 - s) := by
    have e : (1 - s) + -(-1 - s) = (1 : K) + 1 := by ring
    have h1 := h.add (1 - s) (-(-1 - s))
    rw [h.neg, e, h.two] at h1
    exact h1
  unfold kappaPick; split <;> linarith

/-- An estimate vector solves a unit triangular system with right-hand side `±1`, has entries of magnitude at least one, and
never exceeds the sums of magnitudes of the inverse. `W i h` is the unit upper triangular matrix of the system `κᵀ W = e`. -/
theorem estimate {m : Nat} {kap : Buf K} {W : Nat → Nat → K} (hn : IsAbs nrm)
    (hk : ∀ h, h < m → kap.get h = (if h = 0 then 1 else kappaPick nrm (∑ i ∈ range h, kap.get i * W i h)))
    (hdiag : ∀ h, h < m → W h h = 1) (hlow : ∀ i h, h < i → i < m → W i h = 0) :
    ∃ e : Nat → K, (∀ h, h < m → e h = 1 ∨ e h = -1) ∧ (∀ h, h < m → ∑ i ∈ range m, kap.get i * W i h = e h) ∧
      (∀ h, h < m → 1 ≤ nrm (kap.get h)) ∧
      ∀ X : Nat → Nat → K, (∀ i h, i < m → h < m → ∑ g ∈ range m, W i g * X g h = if i = h then 1 else 0) →
        ∀ h, h < m → nrm (kap.get h) ≤ ∑ i ∈ range m, nrm (X i h) := by
  have hsum : ∀ h, h < m → ∑ i ∈ range m, kap.get i * W i h = (∑ i ∈ range h, kap.get i * W i h) + kap.get h := by
    intro h hh
    rw [sum_upto hh _ (fun a h1 h2 => by rw [hlow a h h1 h2, mul_zero]), hdiag h hh, mul_one]
  have he : ∀ h, h < m → (∑ i ∈ range m, kap.get i * W i h) = 1 ∨ (∑ i ∈ range m, kap.get i * W i h) = -1 := by
    intro h hh
    rw [hsum h hh, hk h hh]
    by_cases h0 : h = 0
    · rw [if_pos h0, h0]; simp
    · rw [if_neg h0]
      rcases kappaPick_cases (nrm := nrm) (∑ i ∈ range h, kap.get i * W i h) with c | c <;> rw [c]
      · left; ring
      · right; ring
  refine ⟨fun h => ∑ i ∈ range m, kap.get i * W i h, he, fun h _ => rfl, fun h hh => ?_, fun X hX h hh => ?_⟩
  · rw [hk h hh]
    by_cases h0 : h = 0
    · rw [if_pos h0, hn.one]
    · rw [if_neg h0]; exact kappaPick_ge hn _
  · have e1 : kap.get h = ∑ g ∈ range m, (∑ i ∈ range m, kap.get i * W i g) * X g h := by
      have : ∀ g ∈ range m, (∑ i ∈ range m, kap.get i * W i g) * X g h = ∑ i ∈ range m, kap.get i * (W i g * X g h) := by
        intro g _; rw [sum_mul]; exact sum_congr rfl fun i _ => by ring
      rw [sum_congr rfl this, sum_comm]
      have : ∀ i ∈ range m, ∑ g ∈ range m, kap.get i * (W i g * X g h) = if i = h then kap.get i else 0 := by
        intro i hi
        rw [← mul_sum, hX i h (mem_range.1 hi) hh]; split <;> simp
      rw [sum_congr rfl this, sum_ite_eq' (range m) h, if_pos (mem_range.2 hh)]
    rw [e1]
    refine le_trans (hn.sum _ _) (Finset.sum_le_sum fun g hg => ?_)
    rw [hn.mul]
    have : nrm (∑ i ∈ range m, kap.get i * W i g) = 1 := by
      rcases he g (mem_range.1 hg) with c | c <;> rw [c]
      · exact hn.one
      · rw [hn.neg]; exact hn.one
    rw [this, one_mul]

end mag

/-! ### The dropping of the code -/

section drop
variable [Field R] [LinearOrder R] [IsStrictOrderedRing R] [FloorSemiring R]

/-- Outcome of `realDrop`. -/
theorem realDrop_runs (nrm : K → R) (nth : (Nat → R) → Nat → List Nat → List Nat) (hnth : SV.NthSpec nth) (tau kappaD alpha : R)
    (sizes : Buf Nat) (k : K) (lab : Nat) (hlab : lab < sizes.size) {N step : Nat} {v : SV K} (hv : SV.Busy N step v)
    (hvs : v.vals.size = N) :
    Runs (realDrop nrm nth tau kappaD alpha sizes k lab v) fun r =>
      r.vals = v.vals ∧ r.tags = v.tags ∧ r.inds.size = v.inds.size ∧ r.drop.size = v.drop.size ∧ (∀ i, r.drop.get i = false) ∧
      r.list.Nodup ∧ r.list ⊆ v.list ∧ (0 < alpha → r.counts ≤ max 1 ⌈alpha * sizes.get lab⌉₊) ∧
      ∀ x ∈ v.list, x ∉ r.list → (0 < tau / (nrm k * kappaD) ∧ nrm (v.vals.get x) ≤ tau / (nrm k * kappaD)) ∨
        (0 < alpha ∧ r.counts = max 1 ⌈alpha * sizes.get lab⌉₊ ∧ ∀ y ∈ r.list, nrm (v.vals.get x) ≤ nrm (v.vals.get y)) := by
  unfold realDrop
  simp only [runs_bind, runs_rd]
  have hcl := hv.counts_le
  refine (SV.numDrop_runs nrm tau (nrm k * kappaD) v (le_trans hcl hv.inds_size) hv.drop_size hv.drop_false
    (fun i hi => by rw [hvs]; exact ((hv.mem i).1 hi).1)).mono ?_
  rintro w ⟨w1, w2, w3, w4, w5, w6⟩
  refine ⟨hlab, ?_⟩
  have hwn : w.list.Nodup := by
    rw [w6]; split
    · exact hv.nodup
    · exact hv.nodup.filter _
  have hws : w.list ⊆ v.list := by
    rw [w6]; split
    · exact fun _ h => h
    · exact List.filter_subset_self _
  have hwd : ∀ x ∈ v.list, x ∉ w.list → 0 < tau / (nrm k * kappaD) ∧ nrm (v.vals.get x) ≤ tau / (nrm k * kappaD) := by
    intro x hx hnx
    rw [w6] at hnx
    split at hnx
    · exact absurd hx hnx
    · rename_i hc
      refine ⟨not_le.1 hc, not_lt.1 fun hlt => hnx ?_⟩
      rw [List.mem_filter]; exact ⟨hx, by simpa using hlt⟩
  have hwc : w.list.length = w.counts := by unfold SV.list; rw [Buf.slice_length]; omega
  have hle : w.counts ≤ w.inds.size := by
    rw [← hwc, w3]
    have h1 := (hwn.subperm hws).length_le
    have h2 : v.list.length = v.counts := by unfold SV.list; rw [Buf.slice_length]; omega
    have := hv.inds_size
    omega
  rcases le_or_gt alpha 0 with ha | ha
  · unfold SV.spaceDrop
    rw [if_pos ha, runs_pure]
    exact ⟨w1, w2, w3, w4, w5, hwn, hws, fun h => absurd h (not_lt.2 ha), fun x hx hnx => Or.inl (hwd x hx hnx)⟩
  · refine (SV.spaceDrop_runs nth hnth nrm (sizes.get lab) alpha w 0 hle ha).mono ?_
    rintro r ⟨r1, r2, r3, r4, r5, dr, r6, r7⟩
    have hrs : ∀ x, x ∈ r.list → x ∈ w.list := fun x hx => r6.mem_iff.1 (List.mem_append.2 (Or.inl hx))
    refine ⟨by rw [r1, w1], by rw [r2, w2], by rw [r4, w3], by rw [r3, w4], by rw [r3]; exact w5, ?_, fun x hx => hws (hrs x hx),
      fun _ => by simp only [Nat.sub_zero] at r5; omega, fun x hx hnx => ?_⟩
    · exact ((r6.nodup_iff).2 hwn).of_append_left
    · by_cases hxw : x ∈ w.list
      · right
        have hxd : x ∈ dr := by
          rcases List.mem_append.1 (r6.mem_iff.2 hxw) with h | h
          · exact absurd h hnx
          · exact h
        refine ⟨ha, ?_, fun y hy => ?_⟩
        · have h1 := r6.length_eq
          rw [List.length_append, hwc] at h1
          have h2 : r.list.length = r.counts := by unfold SV.list; rw [Buf.slice_length]; omega
          have h3 := List.length_pos_of_mem hxd
          simp only [Nat.sub_zero] at r5
          omega
        · have := r7 y hy x hxd
          rw [w1] at this; exact this
      · exact Or.inl (hwd x hx hxw)

/-- The dropping of the code is a dropping routine; with `alpha > 0` a line keeps at most `max 1 ⌈alpha·size⌉` entries. -/
theorem realDrop_ok (n : Nat) (nrm : K → R) (nth : (Nat → R) → Nat → List Nat → List Nat) (hnth : SV.NthSpec nth) (tau kappaD alpha : R)
    (sizes : Buf Nat) (hs : n ≤ sizes.size) :
    DropOK n (fun lab c => 0 < alpha → c ≤ max 1 ⌈alpha * sizes.get lab⌉₊) (realDrop nrm nth tau kappaD alpha sizes) := by
  intro kap lab v N step hlab hv hvs
  refine (realDrop_runs nrm nth hnth tau kappaD alpha sizes kap lab (by omega) hv hvs).mono ?_
  rintro r ⟨h1, h2, h3, h4, h5, h6, h7, h8, -⟩
  exact ⟨h1, h2, h3, h4, h5, h6, h7, h8⟩

/-- What the dropping of the code drops is small: below the numerical threshold, unless the line was full. -/
theorem realDrop_rule (n : Nat) (nrm : K → R) (nth : (Nat → R) → Nat → List Nat → List Nat) (hnth : SV.NthSpec nth)
    (tau kappaD alpha : R) (sizes : Buf Nat) (hs : n ≤ sizes.size) (ha : alpha ≤ 0) :
    DropRule n (realDrop nrm nth tau kappaD alpha sizes) fun k _ x =>
      0 < tau / (nrm k * kappaD) ∧ nrm x ≤ tau / (nrm k * kappaD) := by
  intro kap lab v r N step hlab hv hvs hok x hx hnx
  obtain ⟨r', h1, h2⟩ := realDrop_runs nrm nth hnth tau kappaD alpha sizes kap lab (by omega) hv hvs
  rw [hok] at h1
  injection h1 with h1
  subst h1
  rcases h2.2.2.2.2.2.2.2.2 x hx hnx with c | c
  · exact c
  · exact absurd c.1 (not_lt.2 ha)

/-- Nothing is dropped when both limits are off. -/
theorem realDrop_keeps (n : Nat) (nrm : K → R) (hn : ∀ x, 0 ≤ nrm x) (nth : (Nat → R) → Nat → List Nat → List Nat)
    (hnth : SV.NthSpec nth) (tau kappaD alpha : R) (sizes : Buf Nat) (hs : n ≤ sizes.size) (ha : alpha ≤ 0) (ht : tau ≤ 0)
    (hk : 0 ≤ kappaD) : KeepsAll n (realDrop nrm nth tau kappaD alpha sizes) := by
  intro kap lab v r N step hlab _ hv hvs hok x hx
  by_contra hnx
  have := (realDrop_rule n nrm nth hnth tau kappaD alpha sizes hs ha kap lab v r N step hlab hv hvs hok x hx hnx).1
  have h2 : tau / (nrm kap * kappaD) ≤ 0 := div_nonpos_of_nonpos_of_nonneg ht (mul_nonneg (hn _) hk)
  exact absurd this (not_lt.2 h2)

/-- Nothing is dropped when the numerical threshold is off and every line may hold `2 n` entries. -/
theorem realDrop_keeps_big (n : Nat) (nrm : K → R) (hn : ∀ x, 0 ≤ nrm x) (nth : (Nat → R) → Nat → List Nat → List Nat)
    (hnth : SV.NthSpec nth) (tau kappaD alpha : R) (sizes : Buf Nat) (hs : n ≤ sizes.size) (ht : tau ≤ 0) (hk : 0 ≤ kappaD)
    (ha : ∀ lab, lab < n → 0 < alpha → ((2 * n : Nat) : R) ≤ alpha * sizes.get lab) :
    KeepsAll n (realDrop nrm nth tau kappaD alpha sizes) := by
  intro kap lab v r N step hlab hN hv hvs hok x hx
  by_contra hnx
  obtain ⟨r', h1, -, -, -, -, -, h2, h3, -, h4⟩ := realDrop_runs nrm nth hnth tau kappaD alpha sizes kap lab (by omega) hv hvs
  rw [hok] at h1
  injection h1 with h1
  subst h1
  rcases h4 x hx hnx with c | ⟨c0, c, -⟩
  · have h2 : tau / (nrm kap * kappaD) ≤ 0 := div_nonpos_of_nonpos_of_nonneg ht (mul_nonneg (hn _) hk)
    exact absurd c.1 (not_lt.2 h2)
  · have hcl := hv.counts_le
    have hlen : ∀ w : SV K, w.list.length = w.counts := fun w => by unfold SV.list; rw [Buf.slice_length]; omega
    have hlt : (x :: r.list).length ≤ v.list.length :=
      ((List.nodup_cons.2 ⟨hnx, h2⟩).subperm (List.cons_subset.2 ⟨hx, h3⟩)).length_le
    rw [List.length_cons, hlen, hlen] at hlt
    have hb : 2 * n ≤ ⌈alpha * sizes.get lab⌉₊ := by
      have := le_trans (ha lab hlab c0) (Nat.le_ceil _)
      exact_mod_cast this
    omega

end drop
end Hif.Crout
