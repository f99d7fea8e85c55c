import Verif.SchurLemmas

set_option linter.unusedSectionVars false
set_option linter.unusedVariables false

/-! # What the serial and the threaded Schur kernels return -/

namespace Hif
open Finset Spec
namespace SchurIn
variable {K : Type _}

/-- Start of row `i` in the result. -/
noncomputable def off (a : SchurIn K) (i : Nat) : Nat := ∑ k ∈ range i, (a.rowPat k).length

theorem off_succ (a : SchurIn K) (i : Nat) : a.off (i + 1) = a.off i + (a.rowPat i).length := by
  unfold off; rw [sum_range_succ]

theorem off_zero (a : SchurIn K) : a.off 0 = 0 := by unfold off; simp

theorem off_mono (a : SchurIn K) {i j : Nat} (h : i ≤ j) : a.off i ≤ a.off j := by
  induction h with
  | refl => exact Nat.le_refl _
  | step _ ih => rw [Nat.succ_eq_add_one, off_succ]; omega

section
variable [CommRing K]

/-- The result in terms of the pattern and the assembled values. -/
structure Result (a : SchurIn K) (SC : CS K) : Prop where
  psize : SC.psize = a.N
  ssize : SC.ssize = a.N
  start_size : SC.start.size = a.N + 1
  start : ∀ i, i ≤ a.N → SC.start.get i = a.off i
  inds_size : SC.inds.size = a.off a.N
  vals_size : SC.vals.size = a.off a.N
  inds : ∀ i, i < a.N → ∀ k, k < (a.rowPat i).length → SC.inds.get (a.off i + k) = (a.rowPat i).getD k 0
  vals : ∀ i, i < a.N → ∀ k, k < (a.rowPat i).length → SC.vals.get (a.off i + k) = a.val i ((a.rowPat i).getD k 0)

theorem getD_mem {l : List Nat} {k : Nat} (hk : k < l.length) : l.getD k 0 ∈ l := by
  rw [List.getD_eq_getElem?_getD, List.getElem?_eq_getElem hk, Option.getD_some]
  exact List.getElem_mem hk

/-- Position `x < off n` lies in exactly one row. -/
theorem off_find (a : SchurIn K) (n x : Nat) (hx : x < a.off n) : ∃ i k, i < n ∧ k < (a.rowPat i).length ∧ x = a.off i + k := by
  induction n with
  | zero => rw [off_zero] at hx; omega
  | succ n ih =>
    by_cases h : x < a.off n
    · obtain ⟨i, k, h1, h2, h3⟩ := ih h
      exact ⟨i, k, by omega, h2, h3⟩
    · rw [off_succ] at hx
      exact ⟨n, x - a.off n, by omega, by omega, by omega⟩

theorem Result.wf {a : SchurIn K} {q : Nat → Nat} (h : a.OK q) {SC : CS K} (hr : a.Result SC) : SC.WF := by
  constructor
  · rw [hr.psize, hr.start_size]
  · rw [hr.start 0 (Nat.zero_le _), off_zero]
  · intro i hi
    rw [hr.psize] at hi
    rw [hr.start i (by omega), hr.start (i + 1) (by omega)]
    exact off_mono a (by omega)
  · rw [hr.psize, hr.start _ (Nat.le_refl _), hr.inds_size]
  · rw [hr.psize, hr.start _ (Nat.le_refl _), hr.vals_size]
  · intro k hk
    rw [hr.psize, hr.start _ (Nat.le_refl _)] at hk
    obtain ⟨i, l, hi, hl, rfl⟩ := off_find a a.N k hk
    rw [hr.inds i hi l hl, hr.ssize]
    exact h.pat_lt hi ((mem_rowPat h hi).1 (getD_mem hl))

theorem Result.tight {a : SchurIn K} {SC : CS K} (hr : a.Result SC) : SC.Tight := by
  constructor
  · rw [hr.psize, hr.start_size]
  · rw [hr.psize, hr.start _ (Nat.le_refl _), hr.inds_size]
  · rw [hr.psize, hr.start _ (Nat.le_refl _), hr.vals_size]

theorem Result.line {a : SchurIn K} {SC : CS K} (hr : a.Result SC) {i : Nat} (hi : i < a.N) :
    SC.inds.slice (SC.start.get i) (SC.start.get (i + 1)) = a.rowPat i := by
  rw [hr.start i (by omega), hr.start (i + 1) (by omega), off_succ]
  refine List.ext_getElem (by rw [Buf.slice_length]; omega) fun k h1 h2 => ?_
  rw [Buf.slice_getElem, hr.inds i hi k h2, List.getD_eq_getElem?_getD, List.getElem?_eq_getElem h2, Option.getD_some]

theorem Result.sorted {a : SchurIn K} {SC : CS K} (hr : a.Result SC) {i : Nat} (hi : i < a.N) :
    (SC.inds.slice (SC.start.get i) (SC.start.get (i + 1))).Pairwise (· < ·) := by
  rw [hr.line hi]; exact rowPat_sorted a i

theorem Result.entry {a : SchurIn K} {q : Nat → Nat} (h : a.OK q) {SC : CS K} (hr : a.Result SC) {i x : Nat} (hi : i < a.N) :
    SC.crs i x = a.val i x := by
  have hle : SC.start.get i ≤ SC.start.get (i + 1) := by
    rw [hr.start i (by omega), hr.start (i + 1) (by omega)]; exact off_mono a (by omega)
  have e : SC.crs i x = ∑ k ∈ range (a.rowPat i).length, if (a.rowPat i).getD k 0 = x then a.val i x else 0 := by
    unfold CS.crs CS.entry
    rw [hr.start i (by omega), hr.start (i + 1) (by omega), off_succ, sum_Ico_eq_sum_range, Nat.add_sub_cancel_left]
    refine sum_congr rfl fun k hk => ?_
    rw [mem_range] at hk
    rw [hr.inds i hi k hk, hr.vals i hi k hk]
    split
    · rename_i e; rw [e]
    · rfl
  rw [e]
  by_cases hp : a.Pat i x
  · obtain ⟨k, hk, ek⟩ := List.getElem_of_mem ((mem_rowPat h hi).2 hp)
    rw [sum_eq_single k]
    · rw [List.getD_eq_getElem?_getD, List.getElem?_eq_getElem hk, Option.getD_some, ek, if_pos rfl]
    · intro l hl hne
      rw [mem_range] at hl
      rw [if_neg]
      rw [List.getD_eq_getElem?_getD, List.getElem?_eq_getElem hl, Option.getD_some, ← ek]
      exact fun hh => hne ((rowPat_nodup a i).getElem_inj_iff.1 hh)
    · intro hn; exact absurd (mem_range.2 hk) hn
  · rw [val_zero hp]; simp

/-- The serial kernel. -/
theorem compute_runs {a : SchurIn K} {q : Nat → Nat} (h : a.OK q) (hm : a.m < a.A.psize) (junk : Nat → K) (ijunk : Nat → Nat)
    (nb : Nat) (hnb : a.N ≤ nb) (buf : SV K) (hb : SV.Ready nb a.A.psize buf) (hv : a.N ≤ buf.vals.size) :
    Runs (a.compute junk ijunk buf) a.Result := by
  unfold compute
  rw [if_neg (by omega), runs_bind, runs_wr]
  refine ⟨by show 0 < a.N + 1; omega, ?_⟩
  rw [runs_bind]
  refine forUp_runs' (fun i (st : SV K × Buf Nat) => SV.Ready nb (a.A.psize + i) st.1 ∧ st.1.vals.size = buf.vals.size ∧ st.2.size = a.N + 1 ∧
    ∀ k, k ≤ i → st.2.get k = a.off k) (Nat.zero_le _) ⟨hb, rfl, rfl, fun k hk => ?_⟩ ?_ ?_
  · have : k = 0 := by omega
    subst this; simp [off_zero]
  · rintro i ⟨s, rs⟩ - hi ⟨s1, s2, s3, s4⟩
    unfold countRow
    simp only [runs_bind]
    refine (collect_runs h hnb hi s s1).mono ?_
    rintro s' ⟨b, v, mm⟩
    obtain ⟨hperm, -⟩ := sorted_eq h hi b.nodup mm
    have hlen := hperm.length_eq
    rw [SV.list_length] at hlen
    simp only [runs_rd, runs_wr, runs_pure, Buf.set_size, Buf.set_get]
    simp only at s2 s3 s4
    refine ⟨by omega, by omega, b.ready (by omega), by rw [v]; exact s2, s3, fun k hk => ?_⟩
    by_cases e : k = i + 1
    · rw [if_pos e, e, off_succ, hlen, s4 i (by omega)]
    · rw [if_neg e]; exact s4 k (by omega)
  rintro ⟨s, rs⟩ ⟨s1, s2, s3, s4⟩
  simp only at s1 s2 s3 s4 ⊢
  rw [runs_bind, runs_rd]
  refine ⟨by omega, ?_⟩
  rw [s4 a.N (Nat.le_refl _)]
  by_cases h0 : a.off a.N = 0
  · rw [if_pos h0, runs_pure]
    have hz : ∀ i, i < a.N → (a.rowPat i).length = 0 := by
      intro i hi
      have h1 := off_succ a i
      have h2 := off_mono a (show i + 1 ≤ a.N by omega)
      omega
    exact ⟨rfl, rfl, s3, s4, by rw [h0], by rw [h0], fun i hi k hk => by rw [hz i hi] at hk; omega,
      fun i hi k hk => by rw [hz i hi] at hk; omega⟩
  rw [if_neg h0, runs_bind]
  refine forUp_runs' (fun i (st : SV K × Buf Nat × Nat) => SV.Ready nb (a.A.psize + a.N + i) st.1 ∧ st.1.vals.size = buf.vals.size ∧
    st.2.1.size = a.off a.N ∧ st.2.2 = a.off i ∧
    ∀ i', i' < i → ∀ k, k < (a.rowPat i').length → st.2.1.get (a.off i' + k) = (a.rowPat i').getD k 0) (Nat.zero_le _)
    ⟨s1, s2, rfl, (off_zero a).symm, fun i' hi' => by omega⟩ ?_ ?_
  · rintro i ⟨s, ci, pos⟩ - hi ⟨c1, c2, c3, c4, c5⟩
    simp only at c1 c2 c3 c4 c5
    subst c4
    simp only [runs_bind, runs_pure]
    have hle := off_mono a (show i + 1 ≤ a.N by omega)
    rw [off_succ] at hle
    refine (fillIdx_runs h hnb hi s c1 ci (pos := a.off i) (by omega)).mono ?_
    rintro ⟨s', ci'⟩ ⟨d1, d2, d3, d4, d5, d6⟩
    simp only at d1 d2 d3 d4 d5 d6
    refine ⟨d1 _ (by omega), by show s'.vals.size = _; rw [d2]; exact c2, by show ci'.size = _; omega,
      by show a.off i + s'.counts = _; rw [d3, off_succ], fun i' hi' k hk => ?_⟩
    show ci'.get (a.off i' + k) = _
    by_cases e : i' = i
    · subst e; exact d5 k hk
    · have := off_mono a (show i' + 1 ≤ i by omega)
      rw [off_succ] at this
      rw [d6 _ (Or.inl (by omega))]
      exact c5 i' (by omega) k hk
  rintro ⟨s', ci, pos⟩ ⟨c1, c2, c3, c4, c5⟩
  simp only at c1 c2 c3 c4 c5 ⊢
  rw [runs_bind]
  refine forUp_runs' (fun i (st : Buf K × Buf K) => st.1.size = buf.vals.size ∧ st.2.size = a.off a.N ∧
    ∀ i', i' < i → ∀ k, k < (a.rowPat i').length → st.2.get (a.off i' + k) = a.val i' ((a.rowPat i').getD k 0)) (Nat.zero_le _)
    ⟨c2, rfl, fun i' hi' => by omega⟩ ?_ ?_
  · rintro i ⟨w, vals⟩ - hi ⟨w1, w2, w3⟩
    simp only at w1 w2 w3
    have hle := off_mono a (show i + 1 ≤ a.N by omega)
    rw [off_succ] at hle
    refine (fillVals_runs h hi rs ci w vals (a.off i) (by omega) (by omega) (s4 i (by omega)) (by rw [s4 (i + 1) (by omega), off_succ])
      (by omega) (by omega) (c5 i hi)).mono ?_
    rintro ⟨w', vals'⟩ ⟨d1, d2, d3, d4⟩
    simp only at d1 d2 d3 d4
    refine ⟨by show w'.size = _; omega, by show vals'.size = _; omega, fun i' hi' k hk => ?_⟩
    show vals'.get _ = _
    by_cases e : i' = i
    · subst e; exact d3 k hk
    · have := off_mono a (show i' + 1 ≤ i by omega)
      rw [off_succ] at this
      rw [d4 _ (Or.inl (by omega))]
      exact w3 i' (by omega) k hk
  · rintro ⟨w, vals⟩ ⟨w1, w2, w3⟩
    rw [runs_pure]
    exact ⟨rfl, rfl, s3, s4, c3, w2, c5, w3⟩

/-! ### Threaded -/

/-- Invariant of the first part. -/
def Inv1 (a : SchurIn K) (T : Nat) (st : Par1 K) : Prop :=
  st.rs.size = a.N + 1 ∧ st.rs.get 0 = 0 ∧ ∀ t, t < T →
    (MT.uniformPartition a.N T t).1 ≤ st.pc t ∧ st.pc t ≤ (MT.uniformPartition a.N T t).2 ∧
    SV.Ready a.N (a.A.psize + (st.pc t - (MT.uniformPartition a.N T t).1)) (st.bufs t) ∧ (st.bufs t).vals.size = a.N ∧
    ∀ i, (MT.uniformPartition a.N T t).1 ≤ i → i < st.pc t → st.rs.get (i + 1) = (a.rowPat i).length

theorem step1_inv {a : SchurIn K} {q : Nat → Nat} (h : a.OK q) {T t : Nat} (ht : t < T) (st : Par1 K) (hs : a.Inv1 T st) :
    Runs (a.step1 T t st) (a.Inv1 T) := by
  unfold step1
  obtain ⟨r1, r2, r3⟩ := hs
  obtain ⟨p1, p2, p3, p4, p5⟩ := r3 t ht
  by_cases hlt : st.pc t < (MT.uniformPartition a.N T t).2
  swap
  · rw [if_neg hlt, runs_pure]; exact ⟨r1, r2, r3⟩
  rw [if_pos hlt]
  have hb := MT.part_bound a.N T t ht
  have hi : st.pc t < a.N := by omega
  simp only [runs_bind]
  refine (collect_runs h (Nat.le_refl _) hi (st.bufs t) p3).mono ?_
  rintro s' ⟨b, v, mm⟩
  obtain ⟨hperm, -⟩ := sorted_eq h hi b.nodup mm
  have hlen := hperm.length_eq
  rw [SV.list_length] at hlen
  simp only [runs_wr, runs_pure]
  refine ⟨by omega, r1, ?_, fun u hu => ?_⟩
  · show (if 0 = st.pc t + 1 then s'.counts else st.rs.get 0) = 0
    rw [if_neg (by omega)]; exact r2
  obtain ⟨u1, u2, u3, u4, u5⟩ := r3 u hu
  by_cases e : u = t
  · subst e
    refine ⟨by simp only [if_true]; omega, by simp only [if_true]; omega, ?_, ?_, fun i hi1 hi2 => ?_⟩
    · simp only [if_true]; exact b.ready (by omega)
    · simp only [if_true]; rw [v]; exact p4
    · simp only [if_true] at hi2
      show (if i + 1 = st.pc u + 1 then s'.counts else st.rs.get (i + 1)) = _
      by_cases e' : i = st.pc u
      · rw [if_pos (by omega), e', hlen]
      · rw [if_neg (by omega)]; exact u5 i hi1 (by omega)
  · refine ⟨by simpa [e] using u1, by simpa [e] using u2, by simpa [e] using u3, by simpa [e] using u4, fun i hi1 hi2 => ?_⟩
    simp only [e, if_false] at hi2
    show (if i + 1 = st.pc t + 1 then s'.counts else st.rs.get (i + 1)) = _
    rw [if_neg, u5 i hi1 hi2]
    intro hc
    have hit : i = st.pc t := by omega
    obtain ⟨w, hw, -, huniq⟩ := MT.part_unique a.N T i (by omega) (by omega)
    have e1 := huniq u hu hi1 (Nat.lt_of_lt_of_le hi2 u2)
    have e2 := huniq t ht (by rw [hit]; exact p1) (by rw [hit]; exact hlt)
    exact e (e1.trans e2.symm)

theorem run1_inv {a : SchurIn K} {q : Nat → Nat} (h : a.OK q) {T : Nat} : ∀ (sched : List Nat) (st : Par1 K), a.Inv1 T st →
    Runs (a.run1 T sched st) (a.Inv1 T)
  | [], st, hs => by simpa [run1] using hs
  | t :: ts, st, hs => by
    unfold run1
    split
    · rename_i ht
      rw [runs_bind]
      exact (step1_inv h ht st hs).mono fun s' h' => run1_inv h ts s' h'
    · exact run1_inv h ts st hs

theorem prefixSums_runs {a : SchurIn K} {rs : Buf Nat} (h1 : rs.size = a.N + 1) (h0 : rs.get 0 = 0)
    (h2 : ∀ i, i < a.N → rs.get (i + 1) = (a.rowPat i).length) :
    Runs (a.prefixSums rs) fun rs' => rs'.size = a.N + 1 ∧ ∀ i, i ≤ a.N → rs'.get i = a.off i := by
  unfold prefixSums
  refine forUp_runs' (fun i (r : Buf Nat) => r.size = a.N + 1 ∧ (∀ k, k ≤ i → r.get k = a.off k) ∧ ∀ k, i < k → r.get k = rs.get k)
    (Nat.zero_le _) ⟨h1, fun k hk => ?_, fun _ _ => rfl⟩ ?_ (fun r hr => ⟨hr.1, hr.2.1⟩)
  · have : k = 0 := by omega
    subst this; rw [h0, off_zero]
  · rintro i r - hi ⟨r1, r2, r3⟩
    simp only [runs_bind, runs_rd, runs_wr, Buf.set_size, Buf.set_get]
    refine ⟨by omega, by omega, by omega, r1, fun k hk => ?_, fun k hk => ?_⟩
    · by_cases e : k = i + 1
      · rw [if_pos e, e, r3 _ (by omega), h2 i hi, r2 i (Nat.le_refl _), off_succ]; omega
      · rw [if_neg e]; exact r2 k (by omega)
    · rw [if_neg (by omega)]; exact r3 k (by omega)

/-- Invariant of the second part. -/
def Inv2 (a : SchurIn K) (T : Nat) (st : Par2 K) : Prop :=
  st.ci.size = a.off a.N ∧ st.vals.size = a.off a.N ∧ ∀ t, t < T →
    let lo := (MT.uniformPartition a.N T t).1
    let len := (MT.uniformPartition a.N T t).2 - lo
    st.pc t ≤ 2 * len ∧ SV.Ready a.N (a.A.psize + len + st.pc t) (st.bufs t) ∧ (st.bufs t).vals.size = a.N ∧
    (∀ i, lo ≤ i → i < lo + min len (st.pc t) → ∀ k, k < (a.rowPat i).length → st.ci.get (a.off i + k) = (a.rowPat i).getD k 0) ∧
    (∀ i, lo ≤ i → i < lo + (st.pc t - len) → ∀ k, k < (a.rowPat i).length → st.vals.get (a.off i + k) = a.val i ((a.rowPat i).getD k 0))

/-- Rows in different threads' ranges occupy disjoint segments. -/
theorem seg_disjoint (a : SchurIn K) {i j k : Nat} (hij : i ≠ j) (hk : k < (a.rowPat i).length) :
    a.off i + k < a.off j ∨ a.off j + (a.rowPat j).length ≤ a.off i + k := by
  rcases Nat.lt_or_ge i j with h | h
  · have := off_mono a (show i + 1 ≤ j by omega)
    rw [off_succ] at this
    left; omega
  · have := off_mono a (show j + 1 ≤ i by omega)
    rw [off_succ] at this
    right; omega

theorem ready_mono {n s t : Nat} {v : SV K} (h : SV.Ready n s v) (hst : s ≤ t) : SV.Ready n t v :=
  ⟨h.tags_size, h.inds_size, h.drop_size, h.drop_false, fun i hi => ⟨fun e => by have := (h.old i hi).2 _ e; have := (h.old i hi).1; rw [e] at this; simp at this; omega,
    fun u e => by have := (h.old i hi).2 u e; omega⟩⟩

theorem step2_inv {a : SchurIn K} {q : Nat → Nat} (h : a.OK q) {T t : Nat} (ht : t < T) (rs : Buf Nat) (hr1 : rs.size = a.N + 1)
    (hr2 : ∀ i, i ≤ a.N → rs.get i = a.off i) (st : Par2 K) (hs : a.Inv2 T st) : Runs (a.step2 T t rs st) (a.Inv2 T) := by
  unfold step2
  obtain ⟨r1, r2, r3⟩ := hs
  obtain ⟨p1, p2, p3, p4, p5⟩ := r3 t ht
  have hb := MT.part_bound a.N T t ht
  have hpl := MT.part_le a.N T t
  have hne : ∀ u i j, u < T → u ≠ t → (MT.uniformPartition a.N T u).1 ≤ i → i < (MT.uniformPartition a.N T u).2 →
      (MT.uniformPartition a.N T t).1 ≤ j → j < (MT.uniformPartition a.N T t).2 → i ≠ j := by
    intro u i j hu hut h1 h2 h3 h4 hij
    subst hij
    obtain ⟨w, hw, -, huniq⟩ := MT.part_unique a.N T i (by omega) (by omega)
    exact hut ((huniq u hu h1 h2).trans (huniq t ht h3 h4).symm)
  dsimp only
  by_cases h1 : st.pc t < (MT.uniformPartition a.N T t).2 - (MT.uniformPartition a.N T t).1
  · rw [if_pos h1]
    have hi : (MT.uniformPartition a.N T t).1 + st.pc t < a.N := by omega
    simp only [runs_bind, runs_rd]
    refine ⟨by omega, ?_⟩
    rw [hr2 _ (by omega)]
    have hle := off_mono a (show (MT.uniformPartition a.N T t).1 + st.pc t + 1 ≤ a.N by omega)
    rw [off_succ] at hle
    refine (fillIdx_runs h (Nat.le_refl _) hi (st.bufs t) p2 st.ci (by omega)).mono ?_
    rintro ⟨s', ci'⟩ ⟨d1, d2, d3, d4, d5, d6⟩
    simp only at d1 d2 d3 d4 d5 d6
    rw [runs_pure]
    refine ⟨by show ci'.size = _; omega, r2, fun u hu => ?_⟩
    obtain ⟨u1, u2, u3, u4, u5⟩ := r3 u hu
    have hbu := MT.part_bound a.N T u hu
    have hplu := MT.part_le a.N T u
    by_cases e : u = t
    · subst e
      dsimp only
      simp only [if_true]
      refine ⟨by omega, d1 _ (by omega), by rw [d2]; exact p3, fun i h2 h3 k hk => ?_, fun i h2 h3 => by omega⟩
      by_cases e' : i = (MT.uniformPartition a.N T u).1 + st.pc u
      · subst e'; exact d5 k hk
      · have hlt := off_mono a (show i + 1 ≤ (MT.uniformPartition a.N T u).1 + st.pc u by omega)
        rw [off_succ] at hlt
        rw [d6 _ (Or.inl (by omega))]
        exact u4 i h2 (by omega) k hk
    · dsimp only
      simp only [e, if_false]
      refine ⟨u1, u2, u3, fun i h2 h3 k hk => ?_, u5⟩
      rw [d6 _ (seg_disjoint a (hne u i _ hu e h2 (by omega) (by omega) (by omega)) hk)]
      exact u4 i h2 h3 k hk
  rw [if_neg h1]
  by_cases h2 : st.pc t < 2 * ((MT.uniformPartition a.N T t).2 - (MT.uniformPartition a.N T t).1)
  swap
  · rw [if_neg h2, runs_pure]; exact ⟨r1, r2, r3⟩
  rw [if_pos h2]
  set i0 := (MT.uniformPartition a.N T t).1 + (st.pc t - ((MT.uniformPartition a.N T t).2 - (MT.uniformPartition a.N T t).1)) with hi0
  have hi : i0 < a.N := by omega
  have hle := off_mono a (show i0 + 1 ≤ a.N by omega)
  rw [off_succ] at hle
  rw [runs_bind]
  refine (fillVals_runs h hi rs st.ci (st.bufs t).vals st.vals (a.off i0) (by omega) (by omega) (hr2 _ (by omega))
    (by rw [hr2 _ (by omega), off_succ]) (by omega) (by omega) (p4 i0 (by omega) (by omega))).mono ?_
  rintro ⟨w', vals'⟩ ⟨d1, d2, d3, d4⟩
  simp only at d1 d2 d3 d4
  rw [runs_pure]
  refine ⟨r1, by show vals'.size = _; omega, fun u hu => ?_⟩
  obtain ⟨u1, u2, u3, u4, u5⟩ := r3 u hu
  have hbu := MT.part_bound a.N T u hu
  have hplu := MT.part_le a.N T u
  by_cases e : u = t
  · subst e
    dsimp only
    simp only [if_true]
    have hready := ready_mono u2 (show a.A.psize + ((MT.uniformPartition a.N T u).2 - (MT.uniformPartition a.N T u).1) + st.pc u ≤
      a.A.psize + ((MT.uniformPartition a.N T u).2 - (MT.uniformPartition a.N T u).1) + (st.pc u + 1) by omega)
    refine ⟨by omega, ⟨hready.tags_size, hready.inds_size, hready.drop_size, hready.drop_false, hready.old⟩, by omega,
      fun i h3 h4 k hk => u4 i h3 (by omega) k hk, fun i h3 h4 k hk => ?_⟩
    by_cases e' : i = i0
    · subst e'; exact d3 k hk
    · rw [d4 _ (seg_disjoint a e' hk)]
      exact u5 i h3 (by omega) k hk
  · dsimp only
    simp only [e, if_false]
    refine ⟨u1, u2, u3, u4, fun i h3 h4 k hk => ?_⟩
    rw [d4 _ (seg_disjoint a (hne u i i0 hu e h3 (by omega) (by omega) (by omega)) hk)]
    exact u5 i h3 h4 k hk

theorem run2_inv {a : SchurIn K} {q : Nat → Nat} (h : a.OK q) {T : Nat} (rs : Buf Nat) (hr1 : rs.size = a.N + 1)
    (hr2 : ∀ i, i ≤ a.N → rs.get i = a.off i) : ∀ (sched : List Nat) (st : Par2 K), a.Inv2 T st → Runs (a.run2 T rs sched st) (a.Inv2 T)
  | [], st, hs => by simpa [run2] using hs
  | t :: ts, st, hs => by
    unfold run2
    split
    · rename_i ht
      rw [runs_bind]
      exact (step2_inv h ht rs hr1 hr2 st hs).mono fun s' h' => run2_inv h rs hr1 hr2 ts s' h'
    · exact run2_inv h rs hr1 hr2 ts st hs

theorem init_inv1 {a : SchurIn K} {T : Nat} {bufs : Nat → SV K} {ijunk : Nat → Nat}
    (hb : ∀ t, t < T → SV.Ready a.N a.A.psize (bufs t) ∧ (bufs t).vals.size = a.N) :
    ∀ rs0, (⟨a.N + 1, ijunk⟩ : Buf Nat).wr 0 0 = .ok rs0 → a.Inv1 T (a.init1 T bufs rs0) := by
  intro rs0 e
  unfold Buf.wr at e
  rw [if_pos (show 0 < a.N + 1 by omega)] at e
  cases e
  refine ⟨rfl, rfl, fun t ht => ⟨Nat.le_refl _, MT.part_le _ _ _, ?_, (hb t ht).2, fun i h1 h2 => ?_⟩⟩
  · show SV.Ready a.N (a.A.psize + ((MT.uniformPartition a.N T t).1 - (MT.uniformPartition a.N T t).1)) (bufs t)
    rw [Nat.sub_self]; exact (hb t ht).1
  · have h2 : i < (MT.uniformPartition a.N T t).1 := h2
    omega

theorem mid_runs {a : SchurIn K} {q : Nat → Nat} (h : a.OK q) {T : Nat} (hT : 0 < T) {st0 : Par1 K} (h0 : a.Inv1 T st0)
    {sched : List Nat} {st : Par1 K} (e2 : a.run1 T sched st0 = .ok st) (hd : a.done1 T st) :
    Runs (a.prefixSums st.rs) (fun rs' => rs'.size = a.N + 1 ∧ ∀ i, i ≤ a.N → rs'.get i = a.off i) ∧ a.Inv1 T st := by
  have hi := (run1_inv h sched _ h0).eq e2
  refine ⟨prefixSums_runs hi.1 hi.2.1 fun i hi' => ?_, hi⟩
  obtain ⟨t, ht, ⟨h4, h5⟩, -⟩ := MT.part_unique a.N T i hT hi'
  exact (hi.2.2 t ht).2.2.2.2 i h4 (by rw [hd t ht]; exact h5)

theorem init_inv2 {a : SchurIn K} {T : Nat} {junk : Nat → K} {ijunk : Nat → Nat} {st : Par1 K} {rs : Buf Nat} {nnz : Nat}
    (hi : a.Inv1 T st) (hd : a.done1 T st) (hrs : ∀ i, i ≤ a.N → rs.get i = a.off i) (e : rs.rd a.N = .ok nnz) :
    nnz = a.off a.N ∧ a.Inv2 T ⟨fun _ => 0, st.bufs, ⟨nnz, ijunk⟩, ⟨nnz, junk⟩⟩ := by
  have hnz : nnz = a.off a.N := by
    unfold Buf.rd at e
    split at e
    · cases e; exact hrs _ (Nat.le_refl _)
    · cases e
  refine ⟨hnz, hnz, hnz, fun t ht => ?_⟩
  obtain ⟨p1, p2, p3, p4, p5⟩ := hi.2.2 t ht
  rw [hd t ht] at p3
  exact ⟨Nat.zero_le _, p3, p4, fun i h1 h2 => by simp at h2; omega, fun i h1 h2 => by simp at h2; omega⟩

theorem bind_ok_inv {α β : Type _} {x : M α} {f : α → M β} {b : β} (e : x >>= f = .ok b) : ∃ a, x = .ok a ∧ f a = .ok b := by
  cases x with
  | error _ => cases e
  | ok a => exact ⟨a, rfl, e⟩

theorem step1_pc {a : SchurIn K} {T t : Nat} {st st' : Par1 K} (hlt : st.pc t < (MT.uniformPartition a.N T t).2)
    (e : a.step1 T t st = .ok st') : st'.pc = fun u => if u = t then st.pc t + 1 else st.pc u := by
  unfold step1 at e
  rw [if_pos hlt] at e
  obtain ⟨b, -, e⟩ := bind_ok_inv e
  obtain ⟨r, -, e⟩ := bind_ok_inv e
  cases e; rfl

theorem sum_dec {T t : Nat} (ht : t < T) (f pc : Nat → Nat) (hlt : pc t < f t) :
    ∑ u ∈ range T, (f u - (if u = t then pc t + 1 else pc u)) < ∑ u ∈ range T, (f u - pc u) := by
  rw [← Finset.sum_erase_add _ _ (mem_range.2 ht), ← Finset.sum_erase_add (range T) (fun u => f u - pc u) (mem_range.2 ht)]
  have : ∑ u ∈ (range T).erase t, (f u - (if u = t then pc t + 1 else pc u)) = ∑ u ∈ (range T).erase t, (f u - pc u) := by
    refine sum_congr rfl fun u hu => ?_
    rw [if_neg (Finset.ne_of_mem_erase hu)]
  rw [this, if_pos rfl]; omega

theorem finish1 {a : SchurIn K} {q : Nat → Nat} (h : a.OK q) {T : Nat} : ∀ st : Par1 K, a.Inv1 T st →
    ∃ sched st', a.run1 T sched st = .ok st' ∧ a.done1 T st' := by
  have gen : ∀ n (st : Par1 K), a.Inv1 T st → ∑ u ∈ range T, ((MT.uniformPartition a.N T u).2 - st.pc u) = n →
      ∃ sched st', a.run1 T sched st = .ok st' ∧ a.done1 T st' := by
    intro n
    induction n using Nat.strong_induction_on with
    | _ n ih =>
      intro st hs hn
      by_cases hd : a.done1 T st
      · exact ⟨[], st, rfl, hd⟩
      unfold done1 at hd
      push Not at hd
      obtain ⟨t, ht, hne⟩ := hd
      have hlt : st.pc t < (MT.uniformPartition a.N T t).2 := by
        have := (hs.2.2 t ht).2.1
        omega
      obtain ⟨st1, e1, hs1⟩ := step1_inv h ht st hs
      obtain ⟨sched, st', e2, d2⟩ := ih _ (by
        rw [← hn, step1_pc hlt e1]
        exact sum_dec ht (fun u => (MT.uniformPartition a.N T u).2) st.pc hlt) st1 hs1 rfl
      refine ⟨t :: sched, st', ?_, d2⟩
      unfold run1
      rw [if_pos ht, e1]
      exact e2
  exact fun st hs => gen _ st hs rfl

theorem step2_pc {a : SchurIn K} {T t : Nat} {rs : Buf Nat} {st st' : Par2 K}
    (hlt : st.pc t < 2 * ((MT.uniformPartition a.N T t).2 - (MT.uniformPartition a.N T t).1))
    (e : a.step2 T t rs st = .ok st') : st'.pc = fun u => if u = t then st.pc t + 1 else st.pc u := by
  unfold step2 at e
  dsimp only at e
  split at e
  · obtain ⟨b, -, e⟩ := bind_ok_inv e
    obtain ⟨r, -, e⟩ := bind_ok_inv e
    cases e; rfl
  · obtain ⟨r, -, e⟩ := bind_ok_inv e
    cases e; rfl

theorem finish2 {a : SchurIn K} {q : Nat → Nat} (h : a.OK q) {T : Nat} (rs : Buf Nat) (hr1 : rs.size = a.N + 1)
    (hr2 : ∀ i, i ≤ a.N → rs.get i = a.off i) : ∀ st : Par2 K, a.Inv2 T st →
    ∃ sched st', a.run2 T rs sched st = .ok st' ∧ a.done2 T st' := by
  have gen : ∀ n (st : Par2 K), a.Inv2 T st →
      ∑ u ∈ range T, (2 * ((MT.uniformPartition a.N T u).2 - (MT.uniformPartition a.N T u).1) - st.pc u) = n →
      ∃ sched st', a.run2 T rs sched st = .ok st' ∧ a.done2 T st' := by
    intro n
    induction n using Nat.strong_induction_on with
    | _ n ih =>
      intro st hs hn
      by_cases hd : a.done2 T st
      · exact ⟨[], st, rfl, hd⟩
      unfold done2 at hd
      push Not at hd
      obtain ⟨t, ht, hne⟩ := hd
      have hlt : st.pc t < 2 * ((MT.uniformPartition a.N T t).2 - (MT.uniformPartition a.N T t).1) := by
        have := (hs.2.2 t ht).1
        omega
      obtain ⟨st1, e1, hs1⟩ := step2_inv h ht rs hr1 hr2 st hs
      obtain ⟨sched, st', e2, d2⟩ := ih _ (by
        rw [← hn, step2_pc hlt e1]
        exact sum_dec ht (fun u => 2 * ((MT.uniformPartition a.N T u).2 - (MT.uniformPartition a.N T u).1)) st.pc hlt) st1 hs1 rfl
      refine ⟨t :: sched, st', ?_, d2⟩
      unfold run2
      rw [if_pos ht, e1]
      exact e2
  exact fun st hs => gen _ st hs rfl

theorem par_result {a : SchurIn K} {q : Nat → Nat} (h : a.OK q) (T : Nat) (hT : 0 < T) (junk : Nat → K) (ijunk : Nat → Nat)
    (bufs : Nat → SV K) (hb : ∀ t, t < T → SV.Ready a.N a.A.psize (bufs t) ∧ (bufs t).vals.size = a.N) (r : M (CS K))
    (hp : a.Par T junk ijunk bufs r) : Runs r a.Result := by
  have hrs0 := init_inv1 (ijunk := ijunk) hb
  have hmid := fun sched rs0 st e1 e2 hd => mid_runs h hT (hrs0 rs0 e1) (sched := sched) (st := st) e2 hd
  have h20 := fun st rs nnz hi hd hrs e => init_inv2 (T := T) (junk := junk) (ijunk := ijunk) (a := a) (st := st) (rs := rs) (nnz := nnz) hi hd hrs e
  cases hp with
  | fail1 sched rs0 e e1 e2 =>
    obtain ⟨x, hx, -⟩ := run1_inv h sched _ (hrs0 rs0 e1)
    rw [e2] at hx; cases hx
  | failSum sched rs0 st e e1 e2 hd e3 =>
    obtain ⟨x, hx, -⟩ := (hmid sched rs0 st e1 e2 hd).1
    rw [e3] at hx; cases hx
  | empty sched rs0 st rs e1 e2 hd e3 e4 =>
    obtain ⟨h1, h2⟩ := hmid sched rs0 st e1 e2 hd
    obtain ⟨h3, h4⟩ := h1.eq e3
    obtain ⟨h5, -⟩ := h20 st rs 0 h2 hd h4 e4
    rw [runs_ok]
    have hz : ∀ i, i < a.N → (a.rowPat i).length = 0 := by
      intro i hi
      have h1 := off_succ a i
      have h2 := off_mono a (show i + 1 ≤ a.N by omega)
      omega
    exact ⟨rfl, rfl, h3, h4, by rw [← h5], by rw [← h5], fun i hi k hk => by rw [hz i hi] at hk; omega,
      fun i hi k hk => by rw [hz i hi] at hk; omega⟩
  | fail2 sched sched' rs0 st rs nnz e e1 e2 hd e3 e4 e5 e6 =>
    obtain ⟨h1, h2⟩ := hmid sched rs0 st e1 e2 hd
    obtain ⟨h3, h4⟩ := h1.eq e3
    obtain ⟨h5, h6⟩ := h20 st rs nnz h2 hd h4 e4
    obtain ⟨x, hx, -⟩ := run2_inv h rs h3 h4 sched' _ h6
    rw [e6] at hx; cases hx
  | full sched sched' rs0 st rs nnz st' e1 e2 hd e3 e4 e5 e6 hd2 =>
    obtain ⟨h1, h2⟩ := hmid sched rs0 st e1 e2 hd
    obtain ⟨h3, h4⟩ := h1.eq e3
    obtain ⟨h5, h6⟩ := h20 st rs nnz h2 hd h4 e4
    obtain ⟨i1, i2, i3⟩ := (run2_inv h rs h3 h4 sched' _ h6).eq e6
    rw [runs_ok]
    refine ⟨rfl, rfl, h3, h4, i1, i2, fun i hi k hk => ?_, fun i hi k hk => ?_⟩
    · obtain ⟨t, ht, ⟨h7, h8⟩, -⟩ := MT.part_unique a.N T i hT hi
      obtain ⟨-, -, -, p4, -⟩ := i3 t ht
      have := hd2 t ht
      exact p4 i h7 (by omega) k hk
    · obtain ⟨t, ht, ⟨h7, h8⟩, -⟩ := MT.part_unique a.N T i hT hi
      obtain ⟨-, -, -, -, p5⟩ := i3 t ht
      have := hd2 t ht
      exact p5 i h7 (by omega) k hk

end
end SchurIn
end Hif
