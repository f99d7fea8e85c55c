import Verif.Slice
import Mathlib.Algebra.Order.Floor.Semiring
import Mathlib.Algebra.Order.Field.Basic
import Mathlib.Data.List.Perm.Subperm
import Mathlib.Data.List.NodupEquivFin
import Mathlib.Data.List.Sort

set_option linter.unusedSectionVars false
set_option linter.unusedVariables false
set_option linter.unusedSimpArgs false

/-!
# Sparse work vector and dropping

Models of `IndexValueArray`/`SparseVector` (src/hif/ds/SparseVec.hpp 63–343) and of `apply_num_dropping`,
`apply_space_dropping` (src/hif/alg/thresholds.hpp 49–61, 72–123).
-/

namespace Hif

/-- `SparseVector` (SparseVec.hpp 242–343): dense values, index list with counter, dense step tags (`none` is the empty tag
`-1`; steps are nonnegative and assumed to fit the index type) and drop flags. -/
structure SV (K : Type _) where
  vals : Buf K
  inds : Buf Nat
  counts : Nat
  tags : Buf (Option Nat)
  drop : Buf Bool

namespace SV
variable {K : Type _}

/-- Constructor / `resize` with `s_n = 0` (262–285). -/
def new [Inhabited K] (n : Nat) : SV K :=
  { vals := Buf.mk' n default, inds := Buf.mk' n 0, counts := 0, tags := Buf.mk' n none, drop := Buf.mk' n false }

/-- `reset_counter` (104). -/
def reset (s : SV K) : SV K := { s with counts := 0 }

/-- `push_back(i, step)` (320–330, with 123–127). -/
def push (s : SV K) (i step : Nat) : M (Bool × SV K) := do
  let t ← s.tags.rd i
  if t ≠ some step then do
    let inds ← s.inds.wr s.counts i
    let tags ← s.tags.wr i (some step)
    pure (true, { s with inds := inds, counts := s.counts + 1, tags := tags })
  else pure (false, s)

/-- `mark_delete(i)` (298–301). -/
def markDelete (s : SV K) (i : Nat) : M (SV K) := do
  let d ← s.drop.wr i true
  pure { s with drop := d }

/-- Body of `compress_indices` (306–311). -/
def compressBody (j : Nat) (t : Nat × Buf Nat × Buf Bool) : M (Nat × Buf Nat × Buf Bool) := do
  let f ← t.2.2.rd j
  if ¬ f then do
    let x ← t.2.1.rd j
    let inds ← t.2.1.wr t.1 x
    pure (t.1 + 1, inds, t.2.2)
  else do
    let d ← t.2.2.wr j false
    pure (t.1, t.2.1, d)

/-- `compress_indices` (304–313). -/
def compress (s : SV K) : M (SV K) := do
  let t ← forUp 0 s.counts (0, s.inds, s.drop) compressBody
  pure { s with counts := t.1, inds := t.2.1, drop := t.2.2 }

/-- `restore_cur_state` (333–336). -/
def restore (s : SV K) : M (SV K) := do
  let tags ← forUp 0 s.counts s.tags fun i tags => do
    let x ← s.inds.rd i
    tags.wr x none
  pure { s with tags := tags }

/-- A sequence of pushes, returning the answers. -/
def pushAll (step : Nat) : List Nat → SV K → M (List Bool × SV K)
  | [], s => pure ([], s)
  | i :: l, s => do
    let r ← s.push i step
    let q ← pushAll step l r.2
    pure (r.1 :: q.1, q.2)

/-- A sequence of deletion marks. -/
def markAll : List Nat → SV K → M (SV K)
  | [], s => pure s
  | i :: l, s => s.markDelete i >>= markAll l

/-- One step of use: reset, pushes, marks (positions in the list), compression.  Returns the answers of the pushes, the
list before and the list after compression. -/
def round (s : SV K) (step : Nat) (pushes marks : List Nat) : M ((List Bool × List Nat × List Nat) × SV K) := do
  let r ← pushAll step pushes s.reset
  let t ← markAll marks r.2
  let u ← t.compress
  pure ((r.1, r.2.inds.slice 0 r.2.counts, u.inds.slice 0 u.counts), u)

/-- A history of steps. -/
def rounds : List (Nat × List Nat × List Nat) → SV K → M (List (List Bool × List Nat × List Nat) × SV K)
  | [], s => pure ([], s)
  | r :: l, s => do
    let a ← s.round r.1 r.2.1 r.2.2
    let b ← rounds l a.2
    pure (a.1 :: b.1, b.2)

section drop
variable {R : Type _} [Field R] [LinearOrder R]

/-- `apply_num_dropping(tau, kappa, v)` (thresholds.hpp 49–61); `nrm` is `std::abs`. -/
def numDrop (nrm : K → R) (tau kappa : R) (s : SV K) : M (SV K) :=
  let coeff := tau / kappa
  if coeff ≤ 0 then pure s
  else do
    let s ← forUp 0 s.counts s fun i (s : SV K) => do
      let x ← s.inds.rd i
      let v ← s.vals.rd x
      if nrm v ≤ coeff then s.markDelete i else pure s
    s.compress

/-- The position of a maximum of `w` in the nonempty list `l` (`std::max_element`, first one wins). -/
def argMax (w : Nat → R) : List Nat → Nat
  | [] => 0
  | x :: l => go x 0 1 l
where
  /-- Best element so far `b` at position `p`; `k` is the position of the next element. -/
  go (b : Nat) (p k : Nat) : List Nat → Nat
    | [] => p
    | y :: l => if w b < w y then go y k (k + 1) l else go b p (k + 1) l

/-- `apply_space_dropping(nnz, alpha, v, start_size)` (72–123).  `nth` stands for `std::nth_element`: any function from
the index list and a position to a rearranged list; what the C++ standard promises about it is a hypothesis of the theorems.
With `N = 1` the largest entry is swapped to the front (line 93–99). -/
def spaceDrop [FloorSemiring R] (nth : (Nat → R) → Nat → List Nat → List Nat) (nrm : K → R) (nnz : Nat) (alpha : R)
    (s : SV K) (start : Nat) : M (SV K) :=
  if alpha ≤ 0 then pure s
  else if s.counts = 0 then pure s
  else
    let n1 := ⌈alpha * nnz⌉₊
    let n1 := if n1 ≤ start then start + 1 else n1
    let N := n1 - start
    if N < s.counts then do
      let l := s.inds.slice 0 s.counts
      let w := fun i => nrm (s.vals.get i)
      if N = 1 then do
        let p := argMax w l
        let a ← s.inds.rd 0
        let b ← s.inds.rd p
        let inds ← s.inds.wr 0 b
        let inds ← inds.wr p a
        pure { s with inds := inds, counts := N }
      else
        let l' := nth w (N - 1) l
        pure { s with inds := { size := s.inds.size, get := fun k => if k < s.counts then l'.getD k 0 else s.inds.get k },
                      counts := N }
    else pure s

end drop

/-! ### proofs -/

/-- The current index list. -/
def list (s : SV K) : List Nat := s.inds.slice 0 s.counts

/-- Between steps: sizes, no pending marks, all tags older than `step`. -/
structure Ready (n step : Nat) (s : SV K) : Prop where
  tags_size : s.tags.size = n
  inds_size : n ≤ s.inds.size
  drop_size : s.drop.size = s.inds.size
  drop_false : ∀ k, s.drop.get k = false
  old : ∀ i, i < n → s.tags.get i ≠ some step ∧ ∀ t, s.tags.get i = some t → t < step

/-- During a step. -/
structure Busy (n step : Nat) (s : SV K) : Prop where
  tags_size : s.tags.size = n
  inds_size : n ≤ s.inds.size
  drop_size : s.drop.size = s.inds.size
  drop_false : ∀ k, s.drop.get k = false
  nodup : s.list.Nodup
  mem : ∀ i, i ∈ s.list ↔ i < n ∧ s.tags.get i = some step
  le : ∀ i, i < n → ∀ t, s.tags.get i = some t → t ≤ step

theorem Busy.counts_le {n step : Nat} {s : SV K} (h : Busy n step s) : s.counts ≤ n := by
  have h1 : s.list ⊆ List.range n := fun i hi => List.mem_range.2 ((h.mem i).1 hi).1
  have h2 := (h.nodup.subperm h1).length_le
  rw [List.length_range] at h2
  unfold list at h2
  rw [Buf.slice_length] at h2
  omega

theorem Busy.counts_lt {n step : Nat} {s : SV K} (h : Busy n step s) {i : Nat} (hi : i < n) (hn : i ∉ s.list) :
    s.counts < n := by
  have h1 : (i :: s.list) ⊆ List.range n := by
    intro x hx
    rw [List.mem_range]
    rcases List.mem_cons.1 hx with rfl | hx
    · exact hi
    · exact ((h.mem x).1 hx).1
  have h2 := ((List.nodup_cons.2 ⟨hn, h.nodup⟩).subperm h1).length_le
  rw [List.length_range, List.length_cons] at h2
  unfold list at h2
  rw [Buf.slice_length] at h2
  omega

theorem Ready.reset {n step : Nat} {s : SV K} (h : Ready n step s) : Busy n step s.reset := by
  refine ⟨h.tags_size, h.inds_size, h.drop_size, h.drop_false, ?_, fun i => ?_, fun i hi t ht => le_of_lt ((h.old i hi).2 t ht)⟩
  · unfold list SV.reset; rw [Buf.slice_empty _ _ _ (le_refl _)]; exact List.nodup_nil
  · unfold list SV.reset; rw [Buf.slice_empty _ _ _ (le_refl _)]
    simp only [List.not_mem_nil, false_iff, not_and]
    exact fun hi => (h.old i hi).1

theorem push_runs {n step : Nat} {s : SV K} (h : Busy n step s) {i : Nat} (hi : i < n) :
    Runs (s.push i step) fun r => r.1 = decide (i ∉ s.list) ∧ Busy n step r.2 ∧
      r.2.list = (if i ∈ s.list then s.list else s.list ++ [i]) ∧ r.2.vals = s.vals := by
  unfold push
  simp only [runs_bind, runs_rd, runs_ite]
  refine ⟨by rw [h.tags_size]; exact hi, ?_⟩
  have hmem := h.mem i
  by_cases ht : s.tags.get i = some step
  · have hin : i ∈ s.list := hmem.2 ⟨hi, ht⟩
    rw [if_neg (not_not.2 ht), runs_pure, if_pos hin]
    exact ⟨by simp [hin], h, rfl, rfl⟩
  · have hin : i ∉ s.list := fun c => ht (hmem.1 c).2
    rw [if_pos ht, if_neg hin]
    have hlt := h.counts_lt hi hin
    have hsz := h.inds_size
    have hl : (s.inds.set s.counts i).slice 0 (s.counts + 1) = s.list ++ [i] := Buf.slice_set_succ _ _ (Nat.zero_le _)
    simp only [runs_bind, runs_wr, runs_pure]
    refine ⟨by omega, by rw [h.tags_size]; exact hi, by simp [hin], ⟨h.tags_size, h.inds_size, h.drop_size, h.drop_false, ?_, ?_, ?_⟩, hl, trivial⟩
    · show ((s.inds.set s.counts i).slice 0 (s.counts + 1)).Nodup
      rw [hl, List.nodup_append]
      refine ⟨h.nodup, List.nodup_singleton _, fun a ha b hb => ?_⟩
      rw [List.mem_singleton] at hb
      rintro rfl
      rw [hb] at ha; exact hin ha
    · intro j
      show j ∈ (s.inds.set s.counts i).slice 0 (s.counts + 1) ↔ _
      rw [hl, List.mem_append, List.mem_singleton]
      simp only [Buf.set_get]
      by_cases e : j = i
      · subst e; simp [hi]
      · simp only [e, or_false, if_false]; exact h.mem j
    · intro j hj t
      simp only [Buf.set_get]
      by_cases e : j = i
      · subst e; rw [if_pos rfl]; intro q; cases q; exact le_refl _
      · rw [if_neg e]; exact h.le j hj t

theorem pushAll_runs {n step : Nat} (l : List Nat) (hl : ∀ i ∈ l, i < n) : ∀ {s : SV K}, Busy n step s →
    Runs (pushAll step l s) fun r => Busy n step r.2 ∧ r.2.vals = s.vals ∧ r.1.length = l.length ∧
      (∀ t (ht : t < l.length) (ht' : t < r.1.length), r.1[t] = decide (l[t] ∉ s.list ++ l.take t)) ∧
      (∃ new, r.2.list = s.list ++ new ∧ List.Sublist new l) ∧ ∀ x, x ∈ r.2.list ↔ x ∈ s.list ∨ x ∈ l := by
  induction l with
  | nil =>
    intro s h
    simp only [pushAll, runs_pure]
    exact ⟨h, by tt, by tt, fun t ht => by simp at ht, ⟨[], by simp⟩, by simp⟩
  | cons i l ih =>
    intro s h
    simp only [pushAll, runs_bind]
    refine (push_runs h (hl i (by simp))).mono ?_
    rintro ⟨b, s1⟩ ⟨b1, b2, b3, b4⟩
    simp only at b1 b2 b3 b4
    refine (ih (fun x hx => hl x (by simp [hx])) b2).mono ?_
    rintro ⟨bs, s2⟩ ⟨q1, q2, q3, q4, ⟨new, q5, q6⟩, q7⟩
    simp only at q1 q2 q3 q4 q5 q6 q7
    simp only [runs_pure]
    have hm1 : ∀ x, x ∈ s1.list ↔ x ∈ s.list ∨ x = i := by
      intro x
      rw [b3]; split
      · rename_i hin
        exact ⟨Or.inl, fun h => h.elim id (fun e => by rw [e]; exact hin)⟩
      · simp
    refine ⟨q1, by rw [q2, b4], by simp [q3], fun t ht ht' => ?_, ?_, fun x => ?_⟩
    · cases t with
      | zero => simp [b1]
      | succ t =>
        simp only [List.getElem_cons_succ, List.take_succ_cons]
        have := q4 t (by simpa using ht) (by simpa using ht')
        rw [this]
        congr 1
        simp only [List.mem_append, List.mem_cons, hm1, or_assoc]
    · rw [q5, b3]
      split
      · exact ⟨new, rfl, q6.cons _⟩
      · exact ⟨i :: new, by simp, q6.cons_cons _⟩
    · rw [q7, hm1, List.mem_cons, or_assoc]

/-- The list after pushes is the earlier list followed by the new indices in order of first appearance. -/
theorem pushAll_list {n step : Nat} (l : List Nat) (hl : ∀ i ∈ l, i < n) : ∀ {s : SV K}, Busy n step s →
    Runs (pushAll step l s) fun r => r.2.list = l.foldl (fun acc x => if x ∈ acc then acc else acc ++ [x]) s.list := by
  induction l with
  | nil => intro s h; simp [pushAll]
  | cons i l ih =>
    intro s h
    simp only [pushAll, runs_bind]
    refine (push_runs h (hl i (by simp))).mono ?_
    rintro ⟨b, s1⟩ ⟨b1, b2, b3, b4⟩
    refine (ih (fun x hx => hl x (by simp [hx])) b2).mono ?_
    rintro r hr
    simp only [runs_pure, List.foldl_cons]
    rw [hr, b3]

theorem compressBody_loop (s : SV K) (hc : s.counts ≤ s.inds.size) (hd : s.drop.size = s.inds.size) :
    Runs (forUp 0 s.counts (0, s.inds, s.drop) compressBody) fun t => t.1 ≤ s.counts ∧
      t.2.1.size = s.inds.size ∧ t.2.2.size = s.drop.size ∧
      t.2.1.slice 0 t.1 = ((List.range s.counts).filter fun k => !s.drop.get k).map s.inds.get ∧
      (∀ k, k < s.counts → t.2.2.get k = false) ∧ ∀ k, s.counts ≤ k → t.2.2.get k = s.drop.get k := by
  refine forUp_runs' (fun j (t : Nat × Buf Nat × Buf Bool) => t.1 ≤ j ∧
      t.2.1.size = s.inds.size ∧ t.2.2.size = s.drop.size ∧
      t.2.1.slice 0 t.1 = ((List.range j).filter fun k => !s.drop.get k).map s.inds.get ∧
      (∀ k, j ≤ k → t.2.1.get k = s.inds.get k) ∧
      (∀ k, k < j → t.2.2.get k = false) ∧ ∀ k, j ≤ k → t.2.2.get k = s.drop.get k) (Nat.zero_le _) ?_ ?_ ?_
  · exact ⟨le_refl _, rfl, rfl, by simp [Buf.slice_empty], fun _ _ => rfl, fun k hk => by omega, fun _ _ => rfl⟩
  · rintro j t - hj ⟨t1, t2, t3, t4, t5, t6, t7⟩
    unfold compressBody
    simp only [runs_bind, runs_rd, runs_ite]
    refine ⟨by omega, ?_⟩
    rw [List.range_succ, List.filter_append, List.map_append]
    by_cases hf : t.2.2.get j = true
    · rw [if_neg (by simp [hf])]
      rw [t7 j (le_refl _)] at hf
      simp only [runs_bind, runs_wr, runs_pure, Buf.set_size, Buf.set_get]
      refine ⟨by omega, by omega, t2, t3, ?_, fun k hk => t5 k (by omega), fun k hk => ?_, fun k hk => ?_⟩
      · rw [t4]; simp [hf]
      · by_cases e : k = j
        · rw [if_pos e]
        · rw [if_neg e]; exact t6 k (by omega)
      · rw [if_neg (by omega)]; exact t7 k (by omega)
    · have hf' : t.2.2.get j = false := by simpa using hf
      rw [if_pos (by simp [hf'])]
      simp only [runs_bind, runs_rd, runs_wr, runs_pure, Buf.set_size]
      refine ⟨by omega, by omega, by omega, t2, t3, ?_, fun k hk => ?_, fun k hk => ?_, fun k hk => t7 k (by omega)⟩
      · rw [Buf.slice_set_succ _ _ (Nat.zero_le _), t4, t5 j (le_refl _)]
        rw [t7 j (le_refl _)] at hf'
        simp [hf']
      · simp only [Buf.set_get]; rw [if_neg (by omega)]; exact t5 k (by omega)
      · by_cases e : k = j
        · subst e; exact hf'
        · exact t6 k (by omega)
  · rintro t ⟨t1, t2, t3, t4, t5, t6, t7⟩
    exact ⟨t1, t2, t3, t4, t6, t7⟩

theorem compress_runs (s : SV K) (hc : s.counts ≤ s.inds.size) (hd : s.drop.size = s.inds.size) :
    Runs s.compress fun r => r.vals = s.vals ∧ r.tags = s.tags ∧ r.inds.size = s.inds.size ∧ r.drop.size = s.drop.size ∧
      r.counts ≤ s.counts ∧
      r.list = ((List.range s.counts).filter fun k => !s.drop.get k).map s.inds.get ∧
      (∀ k, k < s.counts → r.drop.get k = false) ∧ ∀ k, s.counts ≤ k → r.drop.get k = s.drop.get k := by
  unfold compress
  simp only [runs_bind]
  refine (compressBody_loop s hc hd).mono ?_
  rintro t ⟨t1, t2, t3, t4, t5, t6⟩
  simp only [runs_pure]
  exact ⟨trivial, trivial, t2, t3, t1, t4, t5, t6⟩

theorem markAll_runs (l : List Nat) : ∀ (s : SV K), (∀ k ∈ l, k < s.drop.size) →
    Runs (markAll l s) fun r => r.vals = s.vals ∧ r.tags = s.tags ∧ r.inds = s.inds ∧ r.counts = s.counts ∧
      r.drop.size = s.drop.size ∧ ∀ k, r.drop.get k = (decide (k ∈ l) || s.drop.get k) := by
  induction l with
  | nil => intro s _; simp [markAll]
  | cons i l ih =>
    intro s hs
    simp only [markAll, markDelete, runs_bind, runs_wr, runs_pure]
    refine ⟨hs i (by simp), ?_⟩
    refine (ih _ (fun k hk => by simpa using hs k (by simp [hk]))).mono ?_
    rintro r ⟨r1, r2, r3, r4, r5, r6⟩
    refine ⟨r1, r2, r3, r4, by simpa using r5, fun k => ?_⟩
    rw [r6]
    simp only [Buf.set_get]
    by_cases e : k = i
    · subst e; simp
    · simp [e]

theorem Busy.ready {n step step' : Nat} {s : SV K} (h : Busy n step s) (hlt : step < step') : Ready n step' s := by
  refine ⟨h.tags_size, h.inds_size, h.drop_size, h.drop_false, fun i hi => ⟨fun c => ?_, fun t ht => ?_⟩⟩
  · have := h.le i hi _ c; omega
  · have := h.le i hi _ ht; omega

/-- `restore_cur_state` after pushes: the same step can be used again. -/
theorem restore_runs {n step : Nat} {s : SV K} (h : Busy n step s) :
    Runs s.restore fun r => Ready n step r ∧ r.vals = s.vals ∧ r.inds = s.inds ∧ r.counts = s.counts := by
  unfold restore
  simp only [runs_bind]
  have hc := h.counts_le
  have hsz := h.inds_size
  have hget : ∀ i, i < s.counts → s.inds.get i ∈ s.list := fun i hi => Buf.mem_slice.2 ⟨i, Nat.zero_le _, hi, rfl⟩
  refine forUp_runs' (fun i (tags : Buf (Option Nat)) => tags.size = n ∧
    (∀ j, j < n → (tags.get j = none ∨ tags.get j = s.tags.get j)) ∧
    ∀ k, k < i → tags.get (s.inds.get k) = none) (Nat.zero_le _)
    ⟨h.tags_size, fun _ _ => .inr rfl, fun k hk => by omega⟩ ?_ ?_
  · rintro i tags - hi ⟨t1, t2, t3⟩
    simp only [runs_bind, runs_rd, runs_wr, Buf.set_size, Buf.set_get]
    have := ((h.mem _).1 (hget i hi)).1
    refine ⟨by omega, by omega, t1, fun j hj => ?_, fun k hk => ?_⟩
    · by_cases e : j = s.inds.get i
      · rw [if_pos e]; exact .inl rfl
      · rw [if_neg e]; exact t2 j hj
    · by_cases e : s.inds.get k = s.inds.get i
      · rw [if_pos e]
      · rw [if_neg e]
        refine t3 k ?_
        rcases Nat.lt_or_ge k i with q | q
        · exact q
        · exact absurd (by rw [show k = i by omega]) e
  · rintro tags ⟨t1, t2, t3⟩
    simp only [runs_pure]
    have key : ∀ j, j < n → ∀ t, tags.get j = some t → t < step := by
      intro j hj t ht
      rcases t2 j hj with q | q
      · rw [q] at ht; cases ht
      · have ht' := ht
        rw [q] at ht'
        have hle := h.le j hj t ht'
        rcases Nat.lt_or_ge t step with c | c
        · exact c
        · exfalso
          have : t = step := by omega
          subst this
          obtain ⟨k, -, hk, hk2⟩ := Buf.mem_slice.1 ((h.mem j).2 ⟨hj, ht'⟩)
          have := t3 k hk
          rw [hk2, ht] at this; cases this
    refine ⟨⟨t1, h.inds_size, h.drop_size, h.drop_false, fun i hi => ⟨fun c => ?_, key i hi⟩⟩, by tt, by tt, by tt⟩
    exact absurd (key i hi _ c) (lt_irrefl _)

theorem getElem_list (s : SV K) (k : Nat) (h : k < s.list.length) : s.list[k] = s.inds.get k := by
  have : s.list = s.inds.slice 0 s.counts := rfl
  simp only [this, Buf.slice_getElem, Nat.zero_add]

theorem list_length (s : SV K) : s.list.length = s.counts := by
  unfold list; rw [Buf.slice_length]; omega

theorem round_runs {n step : Nat} {s : SV K} (h : Ready n step s) (pushes marks : List Nat)
    (hp : ∀ i ∈ pushes, i < n) (hm : ∀ k ∈ marks, k < (pushes.foldl (fun acc x => if x ∈ acc then acc else acc ++ [x]) []).length) :
    Runs (s.round step pushes marks) fun r =>
      r.1.1 = (List.range pushes.length).map (fun t => decide (pushes.getD t 0 ∉ pushes.take t)) ∧
      r.1.2.1 = pushes.foldl (fun acc x => if x ∈ acc then acc else acc ++ [x]) [] ∧
      r.1.2.1.Nodup ∧ (∀ x, x ∈ r.1.2.1 ↔ x ∈ pushes) ∧
      r.1.2.2 = ((List.range r.1.2.1.length).filter fun k => decide (k ∉ marks)).map (fun k => r.1.2.1.getD k 0) ∧
      ∀ step', step < step' → Ready n step' r.2 := by
  unfold round
  simp only [runs_bind]
  refine ((pushAll_runs pushes hp h.reset).and (pushAll_list pushes hp h.reset)).mono ?_
  rintro ⟨ans, s1⟩ ⟨⟨a1, a2, a3, a4, -, a6⟩, a7⟩
  simp only at a1 a2 a3 a4 a6 a7
  have hnil : s.reset.list = [] := Buf.slice_empty _ _ _ (le_refl _)
  rw [hnil] at a7
  simp only [hnil, List.nil_append, List.not_mem_nil, false_or] at a4 a6
  rw [← a7] at hm
  rw [list_length] at hm
  have hc := a1.counts_le
  have hsz := a1.inds_size
  refine (markAll_runs marks s1 (fun k hk => by have := hm k hk; rw [a1.drop_size]; omega)).mono ?_
  rintro s2 ⟨b1, b2, b3, b4, b5, b6⟩
  refine (compress_runs s2 (by rw [b3, b4]; omega) (by rw [b5, b3]; exact a1.drop_size)).mono ?_
  rintro s3 ⟨c1, c2, c3, c4, c5, c6, c7, c8⟩
  simp only [runs_pure]
  refine ⟨?_, a7, a1.nodup, a6, ?_, fun step' hlt => ?_⟩
  · refine List.ext_getElem (by simp [a3]) fun t t1 t2 => ?_
    rw [a4 t (by omega) t1]
    simp [show t < pushes.length by omega]
  · show s3.list = ((List.range s1.list.length).filter _).map fun k => s1.list.getD k 0
    rw [c6, list_length, b4, b3]
    have e : ∀ k, k < s1.counts → s1.list.getD k 0 = s1.inds.get k := by
      intro k hk
      have hl : k < s1.list.length := by rw [list_length]; exact hk
      rw [List.getD_eq_getElem?_getD, List.getElem?_eq_getElem hl, getElem_list]; rfl
    have e2 : (List.range s1.counts).filter (fun k => !s2.drop.get k) =
        (List.range s1.counts).filter fun k => decide (k ∉ marks) := by
      refine List.filter_congr fun k _ => ?_
      rw [b6, a1.drop_false k]; simp
    rw [e2]
    refine List.map_congr_left fun k hk => ?_
    rw [List.mem_filter, List.mem_range] at hk
    exact (e k hk.1).symm
  · have r1 := a1.ready hlt
    refine ⟨by rw [c2, b2]; exact r1.tags_size, by rw [c3, b3]; exact r1.inds_size,
      by rw [c4, c3, b5, b3]; exact r1.drop_size, fun k => ?_, fun i hi => by rw [c2, b2]; exact r1.old i hi⟩
    rcases Nat.lt_or_ge k s2.counts with q | q
    · exact c7 k q
    · rw [c8 k q, b6, a1.drop_false]
      rw [b4] at q
      by_cases hk : k ∈ marks
      · have := hm k hk; omega
      · simp [hk]

/-- Filtering positions and reading is filtering the list, when the test depends on the value. -/
theorem filter_range_map (f : Nat → Nat) (c : Nat) (q : Nat → Bool) :
    ((List.range c).filter fun k => q (f k)).map f = ((List.range c).map f).filter q := by
  rw [List.filter_map]; rfl

theorem list_eq (s : SV K) : s.list = (List.range s.counts).map s.inds.get := by
  unfold list Buf.slice; rw [List.range_eq_range', Nat.sub_zero]

section dropProofs
variable {R : Type _} [Field R] [LinearOrder R] [IsStrictOrderedRing R]

theorem numDrop_runs (nrm : K → R) (tau kappa : R) (s : SV K) (hc : s.counts ≤ s.inds.size)
    (hd : s.drop.size = s.inds.size) (hf : ∀ k, s.drop.get k = false) (hv : ∀ i ∈ s.list, i < s.vals.size) :
    Runs (numDrop nrm tau kappa s) fun r => r.vals = s.vals ∧ r.tags = s.tags ∧ r.inds.size = s.inds.size ∧
      r.drop.size = s.drop.size ∧ (∀ k, r.drop.get k = false) ∧
      r.list = if tau / kappa ≤ 0 then s.list else s.list.filter fun i => decide (tau / kappa < nrm (s.vals.get i)) := by
  unfold numDrop
  by_cases hle : tau / kappa ≤ 0
  · simp only [runs_ite, if_pos hle, runs_pure]
    exact ⟨trivial, trivial, trivial, trivial, hf, trivial⟩
  simp only [runs_ite, if_neg hle, runs_bind]
  have hvk : ∀ k, k < s.counts → s.inds.get k < s.vals.size := fun k hk =>
    hv _ (Buf.mem_slice.2 ⟨k, Nat.zero_le _, hk, rfl⟩)
  refine forUp_runs' (fun i (r : SV K) => r.vals = s.vals ∧ r.tags = s.tags ∧ r.inds = s.inds ∧ r.counts = s.counts ∧
    r.drop.size = s.drop.size ∧ (∀ k, k < i → r.drop.get k = decide (nrm (s.vals.get (s.inds.get k)) ≤ tau / kappa)) ∧
    ∀ k, i ≤ k → r.drop.get k = false) (Nat.zero_le _)
    ⟨rfl, rfl, rfl, rfl, rfl, fun k hk => by omega, fun k _ => hf k⟩ ?_ ?_
  · rintro i r - hi ⟨r1, r2, r3, r4, r5, r6, r7⟩
    simp only [runs_bind, runs_rd, r1, r3]
    refine ⟨by omega, hvk i hi, ?_⟩
    simp only [runs_ite]
    split
    · rename_i hq
      simp only [markDelete, runs_bind, runs_wr, runs_pure, Buf.set_size, Buf.set_get]
      refine ⟨by omega, by tt, r2, by tt, r4, r5, fun k hk => ?_, fun k hk => ?_⟩
      · by_cases e : k = i
        · subst e; simp [hq]
        · rw [if_neg e]; exact r6 k (by omega)
      · rw [if_neg (by omega)]; exact r7 k (by omega)
    · rename_i hq
      rw [runs_pure]
      refine ⟨r1, r2, r3, r4, r5, fun k hk => ?_, fun k hk => r7 k (by omega)⟩
      by_cases e : k = i
      · subst e; rw [r7 k (le_refl _)]; simp [hq]
      · exact r6 k (by omega)
  · rintro r ⟨r1, r2, r3, r4, r5, r6, r7⟩
    refine (compress_runs r (by rw [r4, r3]; exact hc) (by rw [r5, r3]; exact hd)).mono ?_
    rintro q ⟨q1, q2, q3, q4, q5, q6, q7, q8⟩
    refine ⟨by rw [q1, r1], by rw [q2, r2], by rw [q3, r3], by rw [q4, r5], fun k => ?_, ?_⟩
    · rcases Nat.lt_or_ge k r.counts with h | h
      · exact q7 k h
      · rw [q8 k h, r7 k (by omega)]
    · rw [q6, r4, r3, list_eq, ← filter_range_map]
      congr 1
      refine List.filter_congr fun k hk => ?_
      rw [List.mem_range] at hk
      rw [r6 k hk]
      by_cases hq : nrm (s.vals.get (s.inds.get k)) ≤ tau / kappa
      · simp [hq]
      · simp [hq, not_le.1 hq]

theorem argMax_go (w : Nat → R) (l : List Nat) : ∀ (pre : List Nat) (b p k : Nat), pre.length = k → pre[p]? = some b →
    (∀ x ∈ pre, w x ≤ w b) →
    ∃ y, (pre ++ l)[argMax.go w b p k l]? = some y ∧ ∀ x ∈ pre ++ l, w x ≤ w y := by
  induction l with
  | nil => intro pre b p k h1 h2 h3; exact ⟨b, by simpa [argMax.go] using h2, by simpa using h3⟩
  | cons y l ih =>
    intro pre b p k h1 h2 h3
    have hp : p < pre.length := by
      by_contra hc
      rw [List.getElem?_eq_none (by omega)] at h2; cases h2
    have e : pre ++ y :: l = (pre ++ [y]) ++ l := by simp
    rw [argMax.go]
    split
    · rename_i hlt
      rw [e]
      refine ih (pre ++ [y]) y k (k + 1) (by simp [h1]) ?_ ?_
      · rw [List.getElem?_append_right (by omega), h1]; simp
      · intro x hx
        rcases List.mem_append.1 hx with hx | hx
        · exact le_trans (h3 x hx) (le_of_lt hlt)
        · rw [List.mem_singleton.1 hx]
    · rename_i hlt
      rw [e]
      refine ih (pre ++ [y]) b p (k + 1) (by simp [h1]) ?_ ?_
      · rw [List.getElem?_append_left hp]; exact h2
      · intro x hx
        rcases List.mem_append.1 hx with hx | hx
        · exact h3 x hx
        · rw [List.mem_singleton.1 hx]; exact not_lt.1 hlt

theorem argMax_spec (w : Nat → R) (l : List Nat) (h : l ≠ []) :
    ∃ y, l[argMax w l]? = some y ∧ ∀ x ∈ l, w x ≤ w y := by
  cases l with
  | nil => exact absurd rfl h
  | cons x l =>
    have := argMax_go w l [x] x 0 1 rfl rfl (by simp)
    simpa [argMax] using this

/-- What the C++ standard promises about `nth_element` with the comparison "larger magnitude first": a rearrangement where
nothing before or at the position is smaller than anything after it. -/
def NthSpec (nth : (Nat → R) → Nat → List Nat → List Nat) : Prop :=
  ∀ w k l, k < l.length → (nth w k l).Perm l ∧
    ∀ a ∈ (nth w k l).take (k + 1), ∀ b ∈ (nth w k l).drop (k + 1), w b ≤ w a

theorem slice_of_list (l : List Nat) (sz c : Nat) (g : Nat → Nat) (h : l.length = c) :
    (Buf.mk sz (fun k => if k < c then l.getD k 0 else g k)).slice 0 c = l := by
  refine List.ext_getElem (by rw [Buf.slice_length]; omega) fun t t1 t2 => ?_
  rw [Buf.slice_getElem]
  simp only [Nat.zero_add]
  rw [if_pos (by omega)]
  simp [t2]

theorem spaceDrop_runs [FloorSemiring R] (nth : (Nat → R) → Nat → List Nat → List Nat) (hnth : NthSpec nth)
    (nrm : K → R) (nnz : Nat) (alpha : R) (s : SV K) (start : Nat) (hc : s.counts ≤ s.inds.size) (ha : 0 < alpha) :
    Runs (spaceDrop nth nrm nnz alpha s start) fun r => r.vals = s.vals ∧ r.tags = s.tags ∧ r.drop = s.drop ∧
      r.inds.size = s.inds.size ∧
      r.counts = min s.counts (max 1 (⌈alpha * nnz⌉₊ - start)) ∧
      ∃ dropped, (r.list ++ dropped).Perm s.list ∧
        ∀ a ∈ r.list, ∀ b ∈ dropped, nrm (s.vals.get b) ≤ nrm (s.vals.get a) := by
  unfold spaceDrop
  rw [if_neg (not_le.2 ha)]
  simp only [runs_ite, runs_pure]
  split
  · rename_i h0
    exact ⟨trivial, trivial, trivial, trivial, by omega, [], by simp, by simp⟩
  rename_i h0
  set c := ⌈alpha * nnz⌉₊ with hcdef
  have hN : (if c ≤ start then start + 1 else c) - start = max 1 (c - start) := by
    split <;> omega
  rw [hN]
  set N := max 1 (c - start) with hNdef
  have hN1 : 1 ≤ N := le_max_left _ _
  split
  · rename_i hlt
    split
    · rename_i hone
      have hne : s.inds.slice 0 s.counts ≠ [] := by
        intro h
        have := congrArg List.length h
        rw [Buf.slice_length] at this
        simp at this; omega
      obtain ⟨y, hy1, hy2⟩ := argMax_spec (fun i => nrm (s.vals.get i)) (s.inds.slice 0 s.counts) hne
      set p := argMax (fun i => nrm (s.vals.get i)) (s.inds.slice 0 s.counts) with hp
      have hpl : p < s.counts := by
        by_contra hcon
        rw [List.getElem?_eq_none (by rw [Buf.slice_length]; omega)] at hy1; cases hy1
      have hyv : s.inds.get p = y := by
        rw [List.getElem?_eq_getElem (by rw [Buf.slice_length]; omega), Buf.slice_getElem] at hy1
        simpa using hy1
      simp only [runs_bind, runs_rd, runs_wr, runs_pure, Buf.set_size]
      refine ⟨by omega, by omega, by omega, by omega, trivial, trivial, trivial, trivial, by omega, ?_⟩
      set b2 := (s.inds.set 0 (s.inds.get p)).set p (s.inds.get 0) with hb2
      have hg : ∀ k, b2.get k = s.inds.get (if k = 0 then p else if k = p then 0 else k) := by
        intro k
        simp only [hb2, Buf.set_get]
        by_cases e1 : k = p
        · rw [if_pos e1]
          by_cases e2 : k = 0
          · rw [if_pos e2]; rw [← e1, e2]
          · rw [if_neg e2, if_pos e1]
        · rw [if_neg e1]
          by_cases e2 : k = 0
          · rw [if_pos e2, if_pos e2]
          · rw [if_neg e2, if_neg e2, if_neg e1]
      have hkept : b2.slice 0 N = [y] := by
        rw [hone, Buf.slice_succ _ (le_refl _), Buf.slice_empty _ _ _ (le_refl _), hg, if_pos rfl, hyv]; rfl
      have hperm : (b2.slice 0 s.counts).Perm (s.inds.slice 0 s.counts) := by
        have e1 : b2.slice 0 s.counts = ((List.range' 0 s.counts).map fun k => if k = 0 then p else if k = p then 0 else k).map s.inds.get := by
          unfold Buf.slice
          rw [List.map_map, Nat.sub_zero]
          exact List.map_congr_left fun k _ => hg k
        have e2 : s.inds.slice 0 s.counts = (List.range' 0 s.counts).map s.inds.get := by
          unfold Buf.slice; rw [Nat.sub_zero]
        rw [e1, e2]
        refine List.Perm.map _ ?_
        rw [List.perm_ext_iff_of_nodup]
        · intro x
          simp only [List.mem_map, List.mem_range'_1]
          constructor
          · rintro ⟨k, hk, rfl⟩
            split
            · omega
            · split <;> omega
          · intro hx
            refine ⟨if x = 0 then p else if x = p then 0 else x, ?_, ?_⟩
            · split
              · omega
              · split <;> omega
            · by_cases a : x = 0
              · subst a
                by_cases b : p = 0
                · simp [b]
                · simp [b]
              · by_cases b : x = p
                · subst b; simp [a]
                · simp [a, b]
        · refine List.Nodup.map_on ?_ (List.nodup_range' (step := 1) (by omega))
          intro a _ b _ hab
          split at hab <;> split at hab <;> (try split at hab) <;> (try split at hab) <;> omega
        · exact List.nodup_range' (step := 1) (by omega)
      have hsplit := b2.slice_append (lo := 0) (mid := N) (hi := s.counts) (Nat.zero_le _) (by omega)
      refine ⟨b2.slice N s.counts, ?_, ?_⟩
      · show (b2.slice 0 N ++ b2.slice N s.counts).Perm _
        rw [hsplit]; exact hperm
      · intro a haa b hb
        have haa' : a ∈ b2.slice 0 N := haa
        rw [hkept, List.mem_singleton] at haa'
        rw [haa']
        refine hy2 b ?_
        rw [← hperm.mem_iff, ← hsplit]
        exact List.mem_append_right _ hb
    · rename_i hone
      obtain ⟨h1, h2⟩ := hnth (fun i => nrm (s.vals.get i)) (N - 1) (s.inds.slice 0 s.counts)
        (by rw [Buf.slice_length]; omega)
      set l' := nth (fun i => nrm (s.vals.get i)) (N - 1) (s.inds.slice 0 s.counts) with hl'
      have hlen : l'.length = s.counts := by rw [h1.length_eq, Buf.slice_length]; omega
      rw [show N - 1 + 1 = N by omega] at h2
      refine ⟨trivial, trivial, trivial, trivial, by omega, l'.drop N, ?_, ?_⟩
      all_goals
        have hfull := slice_of_list l' s.inds.size s.counts s.inds.get hlen
        have hk : (Buf.mk s.inds.size (fun k => if k < s.counts then l'.getD k 0 else s.inds.get k)).slice 0 N = l'.take N := by
          generalize (Buf.mk s.inds.size (fun k => if k < s.counts then l'.getD k 0 else s.inds.get k)) = B at hfull ⊢
          rw [← hfull]
          rw [← Buf.slice_append _ (Nat.zero_le _) (show N ≤ s.counts by omega)]
          rw [List.take_append_of_le_length (by rw [Buf.slice_length]; omega)]
          rw [List.take_of_length_le (by rw [Buf.slice_length]; omega)]
      · show (Buf.slice _ 0 N ++ _).Perm _
        rw [hk, List.take_append_drop]; exact h1
      · intro a haa b hb
        have haa' : a ∈ Buf.slice _ 0 N := haa
        rw [hk] at haa'
        exact h2 a haa' b hb
  · rename_i hge
    exact ⟨trivial, trivial, trivial, trivial, by omega, [], by simp, by simp⟩

end dropProofs

end SV
end Hif
