import Verif.PermLemmas
import Verif.Examples

set_option linter.unusedVariables false

/-!
# Properties C11–C13: permuted matrices, leading blocks, splitting, diagonal scaling

`A.line i` is the list of stored `(index, value)` pairs of primary line `i`; `A.entry i j` the matrix entry in
(primary, secondary) coordinates, i.e. `A.crs i j` for row storage and `A.ccs j i` for column storage.
-/

namespace Hif.Props
open Hif Spec Finset CS
variable {K : Type _}

/-! ## helper facts about lists -/

theorem sorted_of_lines {B : CS K} (h : ∀ i, i < B.psize → ((B.line i).map Prod.fst).Pairwise (· < ·)) :
    B.Sorted := by
  intro i hi k l hk hl hkl
  have := h i hi
  unfold CS.line at this
  rw [CS.seg_fst, List.pairwise_iff_getElem] at this
  have hk1 := hk.1; have hk2 := hk.2; have hl1 := hl.1; have hl2 := hl.2
  have e := this (k - B.start.get i) (l - B.start.get i) (by rw [Buf.slice_length]; omega)
    (by rw [Buf.slice_length]; omega) (by omega)
  rw [Buf.slice_getElem, Buf.slice_getElem] at e
  rwa [show B.start.get i + (k - B.start.get i) = k by omega,
    show B.start.get i + (l - B.start.get i) = l by omega] at e

theorem permOK_entry [AddCommMonoid K] {A B : CS K} (hA : A.WF) (hB : B.WF) {q qt : Nat → Nat}
    (hq : Inverse A.ssize q qt) (only : Bool) {n pi i j : Nat} (hpi : pi < A.psize) (hi : i < B.psize)
    (hj : j < A.ssize) (hjn : only = true → j < n)
    (h : CS.PermOK A qt only n pi (B.line i)) : B.entry i j = A.entry pi (q j) := by
  rw [CS.entry_eq_line B i j (hB.mono i hi), CS.entry_eq_line A pi (q j) (hA.mono pi hpi)]
  rw [(h.2.map _).sum_eq]
  unfold CS.permList
  have key : ∀ l : List (Nat × K), (∀ e ∈ l, e.1 < A.ssize) →
      ((((l.map fun e => (qt e.1, e.2)).filter fun e => !only || decide (e.1 < n)).map
        fun e => if e.1 = j then e.2 else 0).sum = (l.map fun e => if e.1 = q j then e.2 else 0).sum) := by
    intro l
    induction l with
    | nil => intro _; rfl
    | cons e l ih =>
      intro hl
      have ih' := ih (fun e he => hl e (List.mem_cons_of_mem _ he))
      have he := hl e List.mem_cons_self
      have hiff : qt e.1 = j ↔ e.1 = q j := by
        constructor
        · intro e1; rw [← e1, (hq.2 e.1 he).2]
        · intro e1; rw [e1, (hq.1 j hj).2]
      simp only [List.map_cons, List.sum_cons]
      by_cases hc : e.1 = q j
      · have hqj := hiff.2 hc
        rw [List.filter_cons_of_pos (by
          cases only with
          | false => rfl
          | true => simp only [hqj]; simpa using hjn rfl)]
        simp only [List.map_cons, List.sum_cons, ih']
        rw [if_pos hqj, if_pos hc]
      · have hqj : ¬ qt e.1 = j := fun e1 => hc (hiff.1 e1)
        rw [if_neg hc, zero_add, ← ih']
        by_cases hf : (!only || decide (qt e.1 < n)) = true
        · rw [List.filter_cons_of_pos (by simpa using hf)]
          simp [hqj]
        · rw [List.filter_cons_of_neg (by simpa using hf)]
  exact key _ (fun e he => by
    obtain ⟨k, k1, k2, rfl⟩ := CS.mem_seg.1 he
    exact hA.line_lt hpi k2)

/-! ## C11 -/

/-- C11: `compute_perm(p, q⁻¹)` succeeds and returns a well-formed, sorted matrix of the same size whose
`(i,j)` entry is `A(p_i, q_j)`; each line is a rearrangement of the relabelled original line. -/
theorem C11_compute_perm [AddCommMonoid K] [Inhabited K] (A : CS K) (hA : A.WF) (hs : A.Sorted)
    (p qt : Buf Nat) (q : Nat → Nat) (hp : p.size = A.psize) (hpp : IsPerm A.psize p.get)
    (hqt : qt.size = A.ssize) (hq : Inverse A.ssize q qt.get) :
    ∃ B, A.computePerm p qt 0 = .ok B ∧ B.WF ∧ B.Tight ∧ B.Sorted ∧ B.psize = A.psize ∧ B.ssize = A.ssize ∧
      (∀ i j, i < A.psize → j < A.ssize → B.entry i j = A.entry (p.get i) (q j)) ∧
      ∀ i, i < A.psize → (B.line i).Perm ((A.line (p.get i)).map fun e => (qt.get e.1, e.2)) := by
  have hinj : ∀ i j, i < A.ssize → j < A.ssize → qt.get i = qt.get j → i = j := fun i j hi hj e => by
    rw [← (hq.2 i hi).2, ← (hq.2 j hj).2, e]
  obtain ⟨r, h1, h2⟩ := CS.computePermCore_runs hA hs p qt hqt hp hinj (fun j hj => (hq.2 j hj).1) false 0
    A.psize rfl (le_refl _) (fun i hi => hpp.1 i hi) A.ssize rfl
  obtain ⟨w, t, l⟩ := h2 _ rfl
  refine ⟨_, ?_, w, t, sorted_of_lines (fun i hi => (l i hi).1), rfl, rfl, ?_, ?_⟩
  · unfold CS.computePerm
    rw [if_neg (by omega), if_pos (Or.inl rfl), h1]; rfl
  · intro i j hi hj
    exact permOK_entry hA w hq false (hpp.1 i hi) hi hj (fun e => by cases e) (l i hi)
  · intro i hi
    have := (l i hi).2
    unfold CS.permList at this
    simpa using this

/-- C11: with a leading size `m` it is the leading `m × m` block of the permuted matrix. -/
theorem C11_compute_perm_leading [AddCommMonoid K] [Inhabited K] (A : CS K) (hA : A.WF) (hs : A.Sorted)
    (p qt : Buf Nat) (q : Nat → Nat) (hp : p.size = A.psize) (hpp : IsPerm A.psize p.get)
    (hqt : qt.size = A.ssize) (hq : Inverse A.ssize q qt.get) (m : Nat) (hm0 : 0 < m)
    (hm1 : m ≤ A.psize) (hm2 : m ≤ A.ssize) :
    ∃ B, A.computePerm p qt m = .ok B ∧ B.WF ∧ B.Tight ∧ B.Sorted ∧ B.psize = m ∧ B.ssize = m ∧
      ∀ i j, i < m → j < m → B.entry i j = A.entry (p.get i) (q j) := by
  by_cases hall : m = A.psize ∧ m = A.ssize
  · obtain ⟨B, h1, h2, h3, h4, h5, h6, h7, -⟩ := C11_compute_perm A hA hs p qt q hp hpp hqt hq
    refine ⟨B, ?_, h2, h3, h4, by rw [h5, hall.1], by rw [h6, hall.2], fun i j hi hj =>
      h7 i j (by omega) (by omega)⟩
    unfold CS.computePerm at h1 ⊢
    rw [if_neg (by omega)] at h1 ⊢
    rw [if_pos (Or.inl rfl)] at h1
    rw [if_pos (Or.inr hall), ← h1]
    unfold CS.computePermCore
    rfl
  · have hinj : ∀ i j, i < A.ssize → j < A.ssize → qt.get i = qt.get j → i = j := fun i j hi hj e => by
      rw [← (hq.2 i hi).2, ← (hq.2 j hj).2, e]
    obtain ⟨r, h1, h2⟩ := CS.computePermCore_runs hA hs p qt hqt hp hinj (fun j hj => (hq.2 j hj).1) true m
      m rfl hm1 (fun i hi => hpp.1 i (by omega)) m rfl
    obtain ⟨w, t, l⟩ := h2 _ rfl
    refine ⟨_, ?_, w, t, sorted_of_lines (fun i hi => (l i hi).1), rfl, rfl, ?_⟩
    · unfold CS.computePerm
      rw [if_neg (by omega), if_neg (by omega), if_neg (by omega), h1]; rfl
    · intro i j hi hj
      exact permOK_entry hA w hq true (hpp.1 i (by omega)) hi (by omega) (fun _ => hj) (l i hi)

/-- C11: wrong vector lengths and too large leading sizes are rejected. -/
theorem C11_compute_perm_errors [Inhabited K] (A : CS K) (p qt : Buf Nat) (m : Nat)
    (h : qt.size ≠ A.ssize ∨ p.size ≠ A.psize ∨ (m ≠ 0 ∧ min A.psize A.ssize < m)) :
    ∃ msg, A.computePerm p qt m = .error (.hif msg) := by
  unfold CS.computePerm
  by_cases h1 : qt.size ≠ A.ssize
  · rw [if_pos h1]; exact ⟨_, rfl⟩
  rw [if_neg h1]
  by_cases h2 : m = 0 ∨ (m = A.psize ∧ m = A.ssize)
  · rw [if_pos h2]
    have : p.size ≠ A.psize := by omega
    unfold CS.computePermCore
    rw [if_pos this]; exact ⟨_, rfl⟩
  rw [if_neg h2]
  by_cases h3 : m > min A.psize A.ssize
  · rw [if_pos h3]; exact ⟨_, rfl⟩
  rw [if_neg h3]
  have : p.size ≠ A.psize := by omega
  unfold CS.computePermCore
  rw [if_pos this]; exact ⟨_, rfl⟩

/-- C11 (partial: the leading block must contain a stored entry, see the witness): `extract_leading(m)` is the
leading `m × m` block, line by line and entry by entry. -/
theorem C11_extract_leading_partial [AddCommMonoid K] [Inhabited K] (A : CS K) (hA : A.WF) (hs : A.Sorted)
    (m : Nat) (hm : m ≤ A.psize) (hne : ∃ i, i < m ∧ ∃ e ∈ A.line i, e.1 < m) :
    ∃ B, A.extractLeading m = .ok B ∧ B.WF ∧ B.Tight ∧ B.psize = m ∧ B.ssize = m ∧
      (∀ i, i < m → B.line i = (A.line i).filter fun e => e.1 < m) ∧
      ∀ i j, i < m → j < m → B.entry i j = A.entry i j := by
  obtain ⟨B, h1, w, t, h2, h3, h4⟩ := CS.extractLeading_runs hA hs m hm hne
  refine ⟨B, h1, w, t, h2, h3, h4, fun i j hi hj => ?_⟩
  rw [CS.entry_eq_line B i j (w.mono i (by omega)), CS.entry_eq_line A i j (hA.mono i (by omega)), h4 i hi]
  generalize A.line i = l
  induction l with
  | nil => rfl
  | cons e l ih =>
    by_cases he : e.1 < m
    · rw [List.filter_cons_of_pos (by simpa using he)]
      simp only [List.map_cons, List.sum_cons, ih]
    · rw [List.filter_cons_of_neg (by simpa using he)]
      simp only [List.map_cons, List.sum_cons, ih]
      rw [if_neg (by omega), zero_add]

/-- C11 violated for an empty leading block: the 2×2 matrix `[[0,5],[0,0]]` has the (zero) leading 1×1 block,
but `extract_leading(1)` throws "memory allocation failed". -/
theorem C11_extract_leading_witness :
    (Ex.mk 2 2 [0, 1, 1] [1] [(5 : ℤ)]).WF ∧ (Ex.mk 2 2 [0, 1, 1] [1] [(5 : ℤ)]).Tight ∧
    ((Ex.mk 2 2 [0, 1, 1] [1] [(5 : ℤ)]).extractLeading 1).map (fun _ => ()) =
      .error (.hif "memory allocation failed") := by
  refine ⟨?_, ?_, by decide⟩
  · constructor <;> decide
  · constructor <;> decide

/-- Non-vacuity of C11: reversing rows and rotating columns of `[[1,0,2],[0,3,0]]`
(`q = (1,2,0)`, `q⁻¹ = (2,0,1)`). -/
example : Inverse 3 (fun i => (i + 1) % 3) (Buf.ofList [2, 0, 1]).get ∧ IsPerm 2 (Buf.ofList [1, 0]).get ∧
    ((Ex.A23.computePerm (Buf.ofList [1, 0]) (Buf.ofList [2, 0, 1]) 0).map
      fun B => (B.start.toList, B.inds.toList, B.vals.toList)) = .ok ([0, 1, 3], [0, 1, 2], [3, 2, 1]) := by
  refine ⟨?_, ?_, by decide⟩
  · unfold Inverse; decide
  · refine ⟨by decide, fun i j hi hj => ?_⟩
    rcases (show i = 0 ∨ i = 1 by omega) with rfl | rfl <;> rcases (show j = 0 ∨ j = 1 by omega) with rfl | rfl <;> decide

/-! ## C12 -/

/-- C12: splitting at `m` succeeds; both parts are well formed; in every line the first part followed by the
second part (shifted back by `m`) is exactly the original list of stored entries, the first part has the
indices `< m`, and entrywise `B(i,j) = A(i,j)`, `C(i,j) = A(i,j+m)`. -/
theorem C12_split [AddCommMonoid K] [Inhabited K] (A : CS K) (hA : A.WF) (ht : A.Tight) (hs : A.Sorted)
    (m : Nat) (hm : m ≤ A.ssize) :
    ∃ B C, A.split false m = .ok B ∧ A.split true m = .ok C ∧ B.WF ∧ B.Tight ∧ C.WF ∧ C.Tight ∧
      B.psize = A.psize ∧ B.ssize = m ∧ C.psize = A.psize ∧ C.ssize = A.ssize - m ∧
      ∀ i, i < A.psize →
        A.line i = B.line i ++ (C.line i).map (fun e => (e.1 + m, e.2)) ∧
        (∀ e ∈ B.line i, e.1 < m) ∧
        (∀ j, j < m → B.entry i j = A.entry i j) ∧ (∀ j, C.entry i j = A.entry i (j + m)) := by
  obtain ⟨B, b1, b2⟩ := CS.split_runs hA ht hs false m hm
  obtain ⟨C, c1, c2⟩ := CS.split_runs hA ht hs true m hm
  refine ⟨B, C, b1, c1, b2.wf, b2.tight, c2.wf, c2.tight, b2.psize, by simpa using b2.ssize, c2.psize,
    by simpa using c2.ssize, fun i hi => ?_⟩
  have lb := b2.line i hi
  have lc := c2.line i hi
  simp only [Bool.false_eq_true, if_false] at lb
  simp only [if_true] at lc
  obtain ⟨p, -, hp⟩ := CS.findSorted_runs hA hs hi m
  obtain ⟨f1, f2⟩ := CS.seg_filter_lt hp
  have happ : A.line i = B.line i ++ (C.line i).map (fun e => (e.1 + m, e.2)) := by
    rw [lb, lc, f1, f2]; exact (A.seg_append hp.lo hp.hi).symm
  have hBlt : ∀ e ∈ B.line i, e.1 < m := by
    intro e he
    rw [lb] at he
    simpa using (List.mem_filter.1 he).2
  refine ⟨happ, hBlt, fun j hj => ?_, fun j => ?_⟩
  · rw [CS.entry_eq_line B i j (b2.wf.mono i (by rw [b2.psize]; exact hi)),
      CS.entry_eq_line A i j (hA.mono i hi), happ, List.map_append, List.sum_append, List.map_map]
    rw [show (C.line i).map ((fun e => if e.1 = j then e.2 else 0) ∘ fun e => (e.1 + m, e.2)) =
      (C.line i).map fun _ => (0 : K) from List.map_congr_left fun e _ => by
        simp only [Function.comp]; rw [if_neg (by omega)]]
    simp
  · rw [CS.entry_eq_line C i j (c2.wf.mono i (by rw [c2.psize]; exact hi)),
      CS.entry_eq_line A i (j + m) (hA.mono i hi), happ, List.map_append, List.sum_append, List.map_map]
    rw [show (B.line i).map (fun e => if e.1 = j + m then e.2 else 0) =
      (B.line i).map fun _ => (0 : K) from List.map_congr_left fun e he => by
        have := hBlt e he; rw [if_neg (by omega)]]
    simp only [List.map_const', List.sum_replicate, smul_zero, zero_add]
    congr 1
    refine List.map_congr_left fun e _ => ?_
    simp only [Function.comp]
    by_cases h : e.1 = j
    · rw [if_pos h, if_pos (by omega)]
    · rw [if_neg h, if_neg (by omega)]

/-- C12: the variant with caller-supplied split positions gives the same line contents, for every array of
positions that separates indices `< m` from indices `≥ m` in each line (no sortedness needed). -/
theorem C12_split_with_positions [Inhabited K] (A : CS K) (hA : A.WF) (ht : A.Tight) (m : Nat)
    (hm : m ≤ A.ssize) (start : Buf Nat) (hst : A.psize ≤ start.size)
    (hpos : ∀ i, i < A.psize → A.start.get i ≤ start.get i ∧ start.get i ≤ A.start.get (i + 1) ∧
      (∀ k, A.start.get i ≤ k → k < start.get i → A.inds.get k < m) ∧
      (∀ k, start.get i ≤ k → k < A.start.get (i + 1) → m ≤ A.inds.get k)) :
    ∃ B C, A.splitWith false m start = .ok B ∧ A.splitWith true m start = .ok C ∧ B.WF ∧ C.WF ∧
      B.psize = A.psize ∧ B.ssize = m ∧ C.psize = A.psize ∧ C.ssize = A.ssize - m ∧
      ∀ i, i < A.psize → A.line i = B.line i ++ (C.line i).map (fun e => (e.1 + m, e.2)) ∧
        (∀ e ∈ B.line i, e.1 < m) := by
  have hsp : ∀ i, i < A.psize → CS.SplitPos A m i (start.get i) := fun i hi =>
    ⟨(hpos i hi).1, (hpos i hi).2.1, (hpos i hi).2.2.1, (hpos i hi).2.2.2⟩
  obtain ⟨B, b1, b2⟩ := CS.splitWith_runs hA ht false m hm start hst hsp
  obtain ⟨C, c1, c2⟩ := CS.splitWith_runs hA ht true m hm start hst hsp
  refine ⟨B, C, b1, c1, b2.wf, c2.wf, b2.psize, by simpa using b2.ssize, c2.psize,
    by simpa using c2.ssize, fun i hi => ?_⟩
  have lb := b2.line i hi
  have lc := c2.line i hi
  simp only [Bool.false_eq_true, if_false] at lb
  simp only [if_true] at lc
  obtain ⟨f1, f2⟩ := CS.seg_filter_lt (hsp i hi)
  refine ⟨?_, fun e he => ?_⟩
  · rw [lb, lc, f1, f2]; exact (A.seg_append (hsp i hi).lo (hsp i hi).hi).symm
  · rw [lb] at he
    simpa using (List.mem_filter.1 he).2

/-- Helper: the two parts of a split store together as many entries as the matrix. -/
theorem split_nnz {A B C : CS K} (hA : A.WF) (ht : A.Tight) {m : Nat} (hb : CS.SplitSpec A B false m)
    (hc : CS.SplitSpec A C true m) : B.inds.size + C.inds.size = A.inds.size := by
  have key : ∀ i, i ≤ A.psize → B.start.get i + C.start.get i = A.start.get i := by
    intro i
    induction i with
    | zero => intro _; rw [hb.wf.start_zero, hc.wf.start_zero, hA.start_zero]
    | succ i ih =>
      intro hi
      have h0 := ih (by omega)
      have lb := congrArg List.length (hb.line i (by omega))
      have lc := congrArg List.length (hc.line i (by omega))
      simp only [Bool.false_eq_true, if_false, if_true, List.length_map] at lb lc
      have hsum : ((A.line i).filter fun e => decide (e.1 < m)).length +
          ((A.line i).filter fun e => decide (m ≤ e.1)).length = (A.line i).length := by
        rw [List.length_eq_length_filter_add (fun e : Nat × K => decide (e.1 < m)) (l := A.line i)]
        congr 2
        refine List.filter_congr fun e _ => ?_
        by_cases h : e.1 < m
        · simp [h]
        · simp [h, Nat.not_lt.1 h]
      unfold CS.line at lb lc hsum
      simp only [CS.seg_length] at lb lc hsum
      have hmb := hb.wf.mono i (by rw [hb.psize]; omega)
      have hmc := hc.wf.mono i (by rw [hc.psize]; omega)
      have hma := hA.mono i (by omega)
      rw [← lb, ← lc] at hsum
      omega
  rw [hb.tight.inds_size, hc.tight.inds_size, ht.inds_size, hb.psize, hc.psize]
  exact key _ (le_refl _)

/-- C12: splitting into the other storage order gives the same two blocks (entries, well-formedness,
sorted lines), and together they store exactly as many entries as `A`. -/
theorem C12_split_other_order [AddCommMonoid K] [Inhabited K] (A : CS K) (hA : A.WF) (ht : A.Tight)
    (hs : A.Sorted) (m : Nat) (hm : m ≤ A.ssize) :
    ∃ B C, A.splitDual false m = .ok B ∧ A.splitDual true m = .ok C ∧ B.WF ∧ B.Tight ∧ C.WF ∧ C.Tight ∧
      B.psize = m ∧ B.ssize = A.psize ∧ C.psize = A.ssize - m ∧ C.ssize = A.psize ∧
      B.inds.size + C.inds.size = A.inds.size ∧
      (∀ i j, i < A.psize → j < m → B.entry j i = A.entry i j) ∧
      (∀ i j, i < A.psize → j < A.ssize - m → C.entry j i = A.entry i (j + m)) := by
  obtain ⟨B0, C0, b1, c1, bw, bt, cw, ct, b2, b3, c2, c3, hl⟩ := C12_split A hA ht hs m hm
  obtain ⟨B, d1, B1, e1, g1⟩ := CS.splitDual_runs hA ht hs false m hm
  obtain ⟨C, d2, C1, e2, g2⟩ := CS.splitDual_runs hA ht hs true m hm
  have hw1 := g1.wf e1.wf e1.tight
  have hw2 := g2.wf e2.wf e2.tight
  have es1 := e1.ssize
  have es2 := e2.ssize
  simp only [Bool.false_eq_true, if_false, if_true] at es1 es2
  obtain ⟨B0', b1', b2'⟩ := CS.split_runs hA ht hs false m hm
  rw [b1] at b1'; cases b1'
  obtain ⟨C0', c1', c2'⟩ := CS.split_runs hA ht hs true m hm
  rw [c1] at c1'; cases c1'
  refine ⟨B, C, d1, d2, hw1.1, hw1.2, hw2.1, hw2.2, by rw [g1.psize, es1], by rw [g1.ssize, e1.psize],
    by rw [g2.psize, es2], by rw [g2.ssize, e2.psize],
    by rw [g1.inds_size, g2.inds_size]; exact split_nnz hA ht e1 e2, fun i j hi hj => ?_, fun i j hi hj => ?_⟩
  · rw [g1.entry e1.wf e1.tight (by rw [e1.psize]; exact hi) (by omega), ← (hl i hi).2.2.1 j hj]
    have l1 := e1.line i hi
    have l2 := b2'.line i hi
    simp only [Bool.false_eq_true, if_false] at l1 l2
    rw [CS.entry_eq_line _ _ _ (e1.wf.mono i (by rw [e1.psize]; exact hi)),
      CS.entry_eq_line _ _ _ (b2'.wf.mono i (by rw [b2'.psize]; exact hi)), l1, l2]
  · rw [g2.entry e2.wf e2.tight (by rw [e2.psize]; exact hi) (by omega), ← (hl i hi).2.2.2 j]
    have l1 := e2.line i hi
    have l2 := c2'.line i hi
    simp only [if_true] at l1 l2
    rw [← l2] at l1
    have inj : Function.Injective (fun e : Nat × K => (e.1 + m, e.2)) := by
      rintro ⟨a, b⟩ ⟨c, d⟩ h
      simp only [Prod.mk.injEq] at h ⊢
      exact ⟨by omega, h.2⟩
    have l3 := List.map_injective_iff.2 inj l1
    rw [CS.entry_eq_line _ _ _ (e2.wf.mono i (by rw [e2.psize]; exact hi)),
      CS.entry_eq_line _ _ _ (c2'.wf.mono i (by rw [c2'.psize]; exact hi)), l3]

/-- C12: the split threshold is checked. -/
theorem C12_split_errors [Inhabited K] (A : CS K) (second : Bool) (m : Nat) (h : A.ssize < m) :
    (∃ msg, A.split second m = .error (.hif msg)) ∧ ∃ msg, A.splitDual second m = .error (.hif msg) := by
  unfold CS.split CS.splitDual
  rw [if_pos h, if_pos h]; exact ⟨⟨_, rfl⟩, ⟨_, rfl⟩⟩

/-- Non-vacuity of C12 on `[[1,0,2],[0,3,0]]` split at column 1. -/
example : Ex.A23.WF ∧ Ex.A23.Tight ∧ 1 ≤ Ex.A23.ssize ∧
    ((Ex.A23.split false 1).map fun B => (B.start.toList, B.inds.toList, B.vals.toList)) =
      .ok ([0, 1, 1], [0], [1]) ∧
    ((Ex.A23.split true 1).map fun B => (B.start.toList, B.inds.toList, B.vals.toList)) =
      .ok ([0, 1, 2], [1, 0], [2, 3]) ∧
    ((Ex.A23.splitDual true 1).map fun B => (B.start.toList, B.inds.toList, B.vals.toList)) =
      .ok ([0, 1, 2], [1, 0], [3, 2]) :=
  ⟨Ex.A23_wf, Ex.A23_tight, by decide, by decide, by decide, by decide⟩

/-! ## C13 -/

/-- C13: scaling by primary line (CRS left scaling, CCS right scaling) multiplies entry `(i,j)` by `s_i` and leaves
the structure arrays untouched. -/
theorem C13_scale_primary [CommRing K] (A : CS K) (hA : A.WF) (ht : A.Tight) (s : Buf K)
    (hs : A.psize ≤ s.size) :
    ∃ B, A.scalePrimary s = .ok B ∧ B.WF ∧ B.psize = A.psize ∧ B.ssize = A.ssize ∧ B.start = A.start ∧
      B.inds = A.inds ∧ B.vals.size = A.vals.size ∧
      ∀ i j, i < A.psize → B.entry i j = s.get i * A.entry i j := by
  have hst := ht.start_size
  have main : Runs (A.scalePrimary s) fun B => B.psize = A.psize ∧ B.ssize = A.ssize ∧ B.start = A.start ∧
      B.inds = A.inds ∧ B.vals.size = A.vals.size ∧
      ∀ i, i < A.psize → ∀ k, A.InLine i k → B.vals.get k = A.vals.get k * s.get i := by
    unfold CS.scalePrimary
    rw [if_neg (by omega)]
    simp only [runs_bind, runs_pure]
    refine forUp_runs' (fun i (v : Buf K) => v.size = A.vals.size ∧
      (∀ l, l + 1 < i → ∀ k, A.InLine l k → v.get k = A.vals.get k * s.get l) ∧
      ∀ k, A.start.get (i - 1) ≤ k → v.get k = A.vals.get k) (by omega) ⟨rfl, fun l hl => by omega, fun _ _ => rfl⟩ ?_ ?_
    · rintro i v h1 h2 ⟨v1, v2, v3⟩
      have hi : i - 1 < A.psize := by omega
      have e : i - 1 + 1 = i := by omega
      have hm := hA.mono _ hi
      rw [e] at hm
      simp only [runs_bind, runs_rd]
      refine ⟨by omega, by omega, by omega, ?_⟩
      refine forUp_runs' (fun k (u : Buf K) => u.size = A.vals.size ∧
        (∀ l, l < A.start.get (i - 1) → u.get l = v.get l) ∧
        (∀ l, A.start.get (i - 1) ≤ l → l < k → u.get l = A.vals.get l * s.get (i - 1)) ∧
        ∀ l, k ≤ l → u.get l = v.get l) hm ⟨v1, fun _ _ => rfl, fun l h h' => by omega, fun _ _ => rfl⟩ ?_ ?_
      · rintro k u k1 k2 ⟨u1, u2, u3, u4⟩
        have hv := hA.line_vals hi (by rw [e]; exact k2)
        simp only [runs_bind, runs_rd, runs_wr, Buf.set_size, Buf.set_get]
        refine ⟨by omega, by omega, u1, fun l hl => ?_, fun l hl hl' => ?_, fun l hl => ?_⟩
        · rw [if_neg (by omega)]; exact u2 l hl
        · by_cases e' : l = k
          · subst e'; rw [if_pos rfl, u4 _ (le_refl _), v3 _ k1]
          · rw [if_neg e']; exact u3 l hl (by omega)
        · rw [if_neg (by omega)]; exact u4 l (by omega)
      · rintro u ⟨u1, u2, u3, u4⟩
        refine ⟨u1, fun l hl k hk => ?_, fun k hk => ?_⟩
        · by_cases e' : l + 1 = i
          · obtain rfl : l = i - 1 := by omega
            have := hk.2
            rw [e] at this
            exact u3 k hk.1 this
          · have := hA.start_mono (show l + 1 ≤ i - 1 by omega) (by omega)
            rw [u2 k (lt_of_lt_of_le hk.2 this)]
            exact v2 l (by omega) k hk
        · rw [Nat.add_sub_cancel] at hk
          rw [u4 k hk]; exact v3 k (by omega)
    · rintro v ⟨v1, v2, v3⟩
      exact ⟨trivial, trivial, trivial, trivial, v1, fun i hi k hk => v2 i (by omega) k hk⟩
  obtain ⟨B, h1, h2, h3, h4, h5, h6, h7⟩ := main
  refine ⟨B, h1, ⟨?_, ?_, ?_, ?_, ?_, ?_⟩, h2, h3, h4, h5, h6, fun i j hi => ?_⟩
  · rw [h2, h4]; exact hA.start_size
  · rw [h4]; exact hA.start_zero
  · rw [h2, h4]; exact hA.mono
  · rw [h2, h4, h5]; exact hA.nnz_inds
  · rw [h2, h4, h6]; exact hA.nnz_vals
  · rw [h2, h3, h4, h5]; exact hA.inds_lt
  · unfold CS.entry
    rw [h4, h5, mul_sum]
    refine sum_congr rfl fun k hk => ?_
    rw [h7 i hi k (mem_Ico.1 hk)]
    split
    · ring
    · ring

/-- C13: scaling by secondary index (CRS right scaling, CCS left scaling) multiplies entry `(i,j)` by `t_j`. -/
theorem C13_scale_secondary [CommRing K] (A : CS K) (hA : A.WF) (ht : A.Tight) (t : Buf K)
    (hs : A.ssize ≤ t.size) :
    ∃ B, A.scaleSecondary t = .ok B ∧ B.WF ∧ B.psize = A.psize ∧ B.ssize = A.ssize ∧ B.start = A.start ∧
      B.inds = A.inds ∧ B.vals.size = A.vals.size ∧
      ∀ i j, i < A.psize → j < A.ssize → B.entry i j = A.entry i j * t.get j := by
  have hn : A.inds.size = A.start.get A.psize := ht.inds_size
  have hv : A.vals.size = A.start.get A.psize := ht.vals_size
  have main : Runs (A.scaleSecondary t) fun B => B.psize = A.psize ∧ B.ssize = A.ssize ∧ B.start = A.start ∧
      B.inds = A.inds ∧ B.vals.size = A.vals.size ∧
      ∀ k, k < A.inds.size → B.vals.get k = A.vals.get k * t.get (A.inds.get k) := by
    unfold CS.scaleSecondary
    rw [if_neg (by omega)]
    simp only [runs_bind, runs_pure]
    refine forUp_runs' (fun k (u : Buf K) => u.size = A.vals.size ∧
      (∀ l, l < k → u.get l = A.vals.get l * t.get (A.inds.get l)) ∧ ∀ l, k ≤ l → u.get l = A.vals.get l)
      (Nat.zero_le _) ⟨rfl, fun l hl => by omega, fun _ _ => rfl⟩ ?_ ?_
    · rintro k u - hk ⟨u1, u2, u3⟩
      have := hA.inds_lt k (by omega)
      simp only [runs_bind, runs_rd, runs_wr, Buf.set_size, Buf.set_get]
      refine ⟨by omega, by omega, by omega, by omega, u1, fun l hl => ?_, fun l hl => ?_⟩
      · by_cases e : l = k
        · subst e; rw [if_pos rfl, u3 _ (le_refl _)]
        · rw [if_neg e]; exact u2 l (by omega)
      · rw [if_neg (by omega)]; exact u3 l (by omega)
    · rintro u ⟨u1, u2, u3⟩
      exact ⟨trivial, trivial, trivial, trivial, u1, u2⟩
  obtain ⟨B, h1, h2, h3, h4, h5, h6, h7⟩ := main
  refine ⟨B, h1, ⟨?_, ?_, ?_, ?_, ?_, ?_⟩, h2, h3, h4, h5, h6, fun i j hi hj => ?_⟩
  · rw [h2, h4]; exact hA.start_size
  · rw [h4]; exact hA.start_zero
  · rw [h2, h4]; exact hA.mono
  · rw [h2, h4, h5]; exact hA.nnz_inds
  · rw [h2, h4, h6]; exact hA.nnz_vals
  · rw [h2, h3, h4, h5]; exact hA.inds_lt
  · unfold CS.entry
    rw [h4, h5, sum_mul]
    refine sum_congr rfl fun k hk => ?_
    rw [h7 k (hA.line_inds hi (mem_Ico.1 hk).2)]
    split
    · rename_i e; rw [e]
    · ring

/-- C13: too short scaling vectors are rejected. -/
theorem C13_errors [CommRing K] (A : CS K) (s : Buf K) :
    (s.size + 1 < A.start.size → ∃ m, A.scalePrimary s = .error (.hif m)) ∧
    (s.size < A.ssize → ∃ m, A.scaleSecondary s = .error (.hif m)) := by
  unfold CS.scalePrimary CS.scaleSecondary
  constructor
  · intro h; rw [if_pos h]; exact ⟨_, rfl⟩
  · intro h; rw [if_pos h]; exact ⟨_, rfl⟩

/-- Non-vacuity of C13. -/
example : ((Ex.A23.scalePrimary (Buf.ofList [10, 100])).map fun B => B.vals.toList) = .ok [10, 20, 300] ∧
    ((Ex.A23.scaleSecondary (Buf.ofList [10, 100, 1000])).map fun B => B.vals.toList) = .ok [10, 2000, 300] := by
  decide

end Hif.Props
