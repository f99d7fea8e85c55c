import Verif.StructLemmas
import Mathlib.Data.List.Perm.Basic

set_option linter.unusedSectionVars false
set_option linter.unusedVariables false
set_option linter.unusedSimpArgs false

/-! # Helper lemmas: leading block and permuted matrix -/

namespace Hif
namespace CS
variable {K : Type _}

theorem extractLeading_runs [Inhabited K] {A : CS K} (h : A.WF) (hs : A.Sorted) (m : Nat)
    (hm : m ≤ A.psize) (hne : ∃ i, i < m ∧ ∃ e ∈ A.line i, e.1 < m) :
    Runs (A.extractLeading m) fun B => B.WF ∧ B.Tight ∧ B.psize = m ∧ B.ssize = m ∧
      ∀ i, i < m → B.line i = (A.line i).filter (fun e => e.1 < m) := by
  -- split positions
  have hex : ∀ i, i < m → ∃ p, A.findSorted i m = .ok p ∧ SplitPos A m i p := fun i hi =>
    findSorted_runs h hs (by omega) m
  obtain ⟨st, hst⟩ : ∃ st : Nat → Nat, ∀ i, i < m → A.findSorted i m = .ok (st i) ∧ SplitPos A m i (st i) := by
    refine ⟨fun i => if hi : i < m then (hex i hi).choose else 0, fun i hi => ?_⟩
    simp only [hi, dif_pos]
    exact (hex i hi).choose_spec
  set len := fun i => st i - A.start.get i with hlen
  have hss := h.start_size
  unfold extractLeading
  simp only [runs_bind, runs_wr]
  refine ⟨by simp, ?_⟩
  refine forUp_runs' (fun i (s : Buf Nat × Nat) => s.1.size = m + 1 ∧ s.2 = off len i ∧
    ∀ j, j < i → s.1.get (j + 1) = st j) (Nat.zero_le _) ⟨rfl, rfl, fun j hj => by omega⟩ ?_ ?_
  · rintro i s - hi ⟨s1, s2, s3⟩
    simp only [runs_bind]
    rw [(hst i hi).1]
    simp only [runs_ok, runs_rd, runs_wr, runs_pure, Buf.set_size, Buf.set_get]
    refine ⟨by omega, by omega, s1, by rw [s2]; rfl, fun j hj => ?_⟩
    by_cases e : j = i
    · subst e; simp
    · rw [if_neg (by omega)]; exact s3 j (by omega)
  rintro ⟨ip, nz⟩ ⟨s1, s2, s3⟩
  simp only at s1 s2 s3
  subst s2
  have hnz : off len m ≠ 0 := by
    obtain ⟨i, hi, e, he, hlt⟩ := hne
    obtain ⟨k, k1, k2, rfl⟩ := mem_seg.1 he
    have hp := (hst i hi).2
    have : k < st i := by
      rcases Nat.lt_or_ge k (st i) with h1 | h1
      · exact h1
      · have := hp.above k h1 k2
        simp only at hlt; omega
    have h2 : 0 < len i := by simp only [hlen]; omega
    have h3 : off len i + len i ≤ off len m := off_mono len (show i + 1 ≤ m from hi)
    omega
  simp only [runs_ite, if_neg hnz, runs_bind, runs_wr]
  refine ⟨by omega, ?_⟩
  refine forUp_runs' (fun i (s : Nat × Buf Nat × Buf Nat) => s.1 = off len i ∧ s.2.1.size = m + 1 ∧
      (∀ j, j ≤ i → s.2.1.get j = off len j) ∧ (∀ j, i ≤ j → j < m → s.2.1.get (j + 1) = st j) ∧
      s.2.2.size = off len m ∧
      (∀ l, l < i → ∀ t, t < len l → s.2.2.get (off len l + t) = A.inds.get (A.start.get l + t)))
      (Nat.zero_le _) ?_ ?_ ?_
  · refine ⟨rfl, by simpa using s1, ?_, ?_, rfl, fun l hl => by omega⟩
    · intro j hj; obtain rfl : j = 0 := by omega
      simp [off]
    · intro j _ hj; simp only [Buf.set_get]; rw [if_neg (by omega)]; exact s3 j hj
  · rintro i s - hi ⟨t1, t2, t3, t4, t5, t6⟩
    have hp := (hst i hi).2
    have hlo := hp.lo
    have hhi := hp.hi
    have hn := h.start_mono (show i + 1 ≤ A.psize by omega) (le_refl _)
    have hni := h.nnz_inds
    have hoff : off len i + len i ≤ off len m := off_mono len (show i + 1 ≤ m from hi)
    have hl : len i = st i - A.start.get i := rfl
    simp only [runs_bind, runs_rd]
    rw [t4 i (le_refl _) hi]
    refine ⟨by omega, by omega, ?_⟩
    refine (copyRange_runs A.inds (A.start.get i) (st i) pure id s.2.2 s.1 hlo (by omega) (by omega)
      (fun _ _ _ => rfl)).mono ?_
    rintro oi ⟨o1, o2, o3⟩
    simp only [runs_wr, runs_pure, Buf.set_size, Buf.set_get]
    refine ⟨by omega, by omega, by rw [t1]; rfl, t2, ?_, ?_, by omega, ?_⟩
    · intro j hj
      by_cases e : j = i + 1
      · subst e; rw [if_pos rfl, t3 i (le_refl _)]; rfl
      · rw [if_neg e]; exact t3 j (by omega)
    · intro j hj hjm
      rw [if_neg (by omega)]; exact t4 j (by omega) hjm
    · intro l hl' t ht'
      by_cases e : l = i
      · subst e; rw [← t1]; exact o3 t ht'
      · have : off len l + len l ≤ off len i := off_mono len (show l + 1 ≤ i by omega)
        rw [o2 _ (by omega)]
        exact t6 l (by omega) t ht'
  rintro ⟨ps, ip2, oi⟩ ⟨t1, t2, t3, t4, t5, t6⟩
  simp only at t1 t2 t3 t4 t5 t6
  refine forUp_runs' (fun i (v : Nat × Buf K) => v.1 = off len i ∧ v.2.size = off len m ∧
      (∀ l, l < i → ∀ t, t < len l → v.2.get (off len l + t) = A.vals.get (A.start.get l + t)))
      (Nat.zero_le _) ⟨rfl, rfl, fun l hl => by omega⟩ ?_ ?_
  · rintro i v - hi ⟨v1, v2, v3⟩
    have hp := (hst i hi).2
    have hlo := hp.lo
    have hhi := hp.hi
    have hn := h.start_mono (show i + 1 ≤ A.psize by omega) (le_refl _)
    have hnv := h.nnz_vals
    have hoff : off len i + len i ≤ off len m := off_mono len (show i + 1 ≤ m from hi)
    have hl : len i = st i - A.start.get i := rfl
    simp only [runs_bind, runs_rd]
    rw [t3 i (by omega), t3 (i + 1) (by omega)]
    have e : off len (i + 1) - off len i = len i := by simp [off]
    rw [e]
    refine ⟨by omega, by omega, by omega, ?_⟩
    refine (copyRange_runs A.vals (A.start.get i) (A.start.get i + len i) pure id v.2 v.1 (by omega) (by omega)
      (by omega) (fun _ _ _ => rfl)).mono ?_
    rintro ov ⟨o1, o2, o3⟩
    simp only [runs_pure]
    rw [Nat.add_sub_cancel_left] at o2 o3
    refine ⟨by rw [v1]; rfl, by omega, ?_⟩
    intro l hl' t ht'
    by_cases e : l = i
    · subst e; rw [← v1]; exact o3 t ht'
    · have : off len l + len l ≤ off len i := off_mono len (show l + 1 ≤ i by omega)
      rw [o2 _ (by omega)]
      exact v3 l (by omega) t ht'
  rintro ⟨vp, ov⟩ ⟨v1, v2, v3⟩
  simp only at v1 v2 v3
  simp only [runs_pure]
  have g : Gathered A { psize := m, ssize := m, start := ip2, inds := oi, vals := ov } m A.start.get st id :=
    ⟨rfl, t2, t3, t5, v2, t6, v3⟩
  have w := g.wf (by
    intro i hi k k1 k2
    exact (hst i hi).2.below k k1 k2)
  refine ⟨w.1, w.2, trivial, trivial, fun i hi => ?_⟩
  rw [g.line hi, (seg_filter_lt (hst i hi).2).1]
  exact List.map_id _

/-! ### compute_perm -/

/-- Target list of line `pi`. -/
def permList (A : CS K) (qt : Nat → Nat) (only : Bool) (psize : Nat) (l : List (Nat × K)) : List (Nat × K) :=
  (l.map fun e => (qt e.1, e.2)).filter fun e => !only || decide (e.1 < psize)

theorem permLine_runs {A : CS K} (h : A.WF) (hs : A.Sorted) (qt : Buf Nat) (hqt : qt.size = A.ssize)
    (hinj : ∀ i j, i < A.ssize → j < A.ssize → qt.get i = qt.get j → i = j)
    (only : Bool) (psize w : Nat) (hw : ∀ j, j < A.ssize → (only = true → qt.get j < psize) → qt.get j < w)
    {pi : Nat} (hpi : pi < A.psize) (s : PermLn K) (hb : s.buf.size = w)
    (hroom : s.ip + (A.start.get (pi + 1) - A.start.get pi) ≤ s.inds.size) :
    Runs (A.permLine qt only psize pi s) fun r =>
      r.inds.size = s.inds.size ∧ r.buf.size = w ∧ s.ip ≤ r.ip ∧
      r.ip ≤ s.ip + (A.start.get (pi + 1) - A.start.get pi) ∧
      (∀ k, k < s.ip → r.inds.get k = s.inds.get k) ∧
      r.inds.slice s.ip r.ip = (permList A qt.get only psize (A.line pi)).map Prod.fst ∧
      ∀ e ∈ permList A qt.get only psize (A.line pi), r.buf.get e.1 = e.2 := by
  unfold permLine
  refine forLine_runs h hpi (fun k (r : PermLn K) =>
      r.inds.size = s.inds.size ∧ r.buf.size = w ∧ s.ip ≤ r.ip ∧
      r.ip ≤ s.ip + (k - A.start.get pi) ∧
      (∀ k, k < s.ip → r.inds.get k = s.inds.get k) ∧
      r.inds.slice s.ip r.ip = (permList A qt.get only psize (A.seg (A.start.get pi) k)).map Prod.fst ∧
      ∀ e ∈ permList A qt.get only psize (A.seg (A.start.get pi) k), r.buf.get e.1 = e.2) ?_ ?_ ?_
  · refine ⟨rfl, hb, le_refl _, by omega, fun _ _ => rfl, ?_, ?_⟩
    · rw [Buf.slice_empty _ _ _ (le_refl _), A.seg_empty (le_refl _)]; rfl
    · rw [A.seg_empty (le_refl _)]; simp [permList]
  · rintro k r k1 k2 ⟨r1, r2, r3, r4, r5, r6, r7⟩
    have hj := h.line_lt hpi k2
    simp only [runs_bind, runs_rd, runs_ite, runs_pure, runs_wr]
    refine ⟨by omega, ?_⟩
    rw [A.seg_succ k1]
    have happ : permList A qt.get only psize (A.seg (A.start.get pi) k ++ [(A.inds.get k, A.vals.get k)]) =
        permList A qt.get only psize (A.seg (A.start.get pi) k) ++
          (if only && !(decide (qt.get (A.inds.get k) < psize)) then [] else
            [(qt.get (A.inds.get k), A.vals.get k)]) := by
      unfold permList
      rw [List.map_append, List.filter_append]
      congr 1
      cases only <;> by_cases hq : qt.get (A.inds.get k) < psize <;> simp [hq]
    rw [happ]
    split
    · rename_i hc
      simp only [List.append_nil]
      exact ⟨r1, r2, r3, by omega, r5, r6, r7⟩
    · rename_i hc
      have hqw : qt.get (A.inds.get k) < w := hw _ hj (fun ho => by
        rw [ho] at hc; simpa using hc)
      refine ⟨by omega, by omega, ?_⟩
      simp only [Buf.set_size]
      refine ⟨r1, r2, by omega, by omega, fun l hl => ?_, ?_, ?_⟩
      · simp only [Buf.set_get]; rw [if_neg (by omega)]; exact r5 l hl
      · rw [Buf.slice_set_succ _ _ r3, r6, List.map_append]; rfl
      · intro e he
        rw [List.mem_append] at he
        rcases he with he | he
        · have hne : e.1 ≠ qt.get (A.inds.get k) := by
            unfold permList at he
            obtain ⟨he1, -⟩ := List.mem_filter.1 he
            obtain ⟨e', he', rfl⟩ := List.mem_map.1 he1
            obtain ⟨l, l1, l2, rfl⟩ := mem_seg.1 he'
            intro heq
            have := hinj _ _ (h.line_lt hpi (lt_trans l2 k2)) hj heq
            have h3 := hs pi hpi l k ⟨l1, by omega⟩ ⟨k1, k2⟩ l2
            omega
          simp only [Buf.set_get, if_neg hne]
          exact r7 e he
        · rw [List.mem_singleton] at he
          subst he
          simp
  · rintro r ⟨r1, r2, r3, r4, r5, r6, r7⟩
    exact ⟨r1, r2, r3, r4, r5, r6, r7⟩

theorem sortRange_runs (b : Buf Nat) (lo hi : Nat) (h1 : lo ≤ hi) (h2 : hi ≤ b.size) :
    Runs (sortRange b lo hi) fun c => c.size = b.size ∧ (∀ k, ¬ (lo ≤ k ∧ k < hi) → c.get k = b.get k) ∧
      c.slice lo hi = (b.slice lo hi).insertionSort (· ≤ ·) := by
  unfold sortRange
  rw [if_neg (by omega)]
  simp only [runs_pure]
  refine ⟨trivial, fun k hk => by rw [if_neg (by omega)], ?_⟩
  refine List.ext_getElem ?_ ?_
  · rw [Buf.slice_length, List.length_insertionSort, Buf.slice_length]
  · intro t t1 t2
    rw [Buf.slice_getElem]
    rw [Buf.slice_length] at t1
    simp only
    rw [if_pos (by omega), Nat.add_sub_cancel_left, List.getD, List.getElem?_eq_getElem t2]
    rfl

/-- Result of the permutation for one line. -/
def PermOK (A : CS K) (qt : Nat → Nat) (only : Bool) (psize pi : Nat) (l : List (Nat × K)) : Prop :=
  (l.map Prod.fst).Pairwise (· < ·) ∧ l.Perm (permList A qt only psize (A.line pi))

theorem line_fst_pairwise {A : CS K} (hs : A.Sorted) {i : Nat} (hi : i < A.psize) :
    ((A.line i).map Prod.fst).Pairwise (· < ·) := by
  unfold CS.line
  rw [seg_fst]
  unfold Buf.slice
  rw [List.pairwise_map]
  refine List.Pairwise.imp_of_mem ?_ (List.pairwise_lt_range' (s := A.start.get i) (n := A.start.get (i + 1) - A.start.get i) (step := 1) (by omega))
  intro k l hk hl hkl
  rw [List.mem_range'_1] at hk hl
  exact hs i hi k l ⟨hk.1, by omega⟩ ⟨hl.1, by omega⟩ hkl

theorem permList_nodup {A : CS K} (h : A.WF) (hs : A.Sorted) (qt : Nat → Nat)
    (hinj : ∀ i j, i < A.ssize → j < A.ssize → qt i = qt j → i = j) (only : Bool) (psize : Nat) {pi : Nat}
    (hpi : pi < A.psize) : ((permList A qt only psize (A.line pi)).map Prod.fst).Nodup := by
  have h1 : (((A.line pi).map fun e => (qt e.1, e.2)).map Prod.fst).Nodup := by
    rw [List.map_map]
    have : (A.line pi).map (Prod.fst ∘ fun e => (qt e.1, e.2)) = ((A.line pi).map Prod.fst).map qt := by
      simp [List.map_map, Function.comp_def]
    rw [this]
    refine List.Nodup.map_on ?_ ?_
    · intro x hx y hy hxy
      obtain ⟨e, he, rfl⟩ := List.mem_map.1 hx
      obtain ⟨f, hf, rfl⟩ := List.mem_map.1 hy
      obtain ⟨k, k1, k2, rfl⟩ := mem_seg.1 he
      obtain ⟨l, l1, l2, rfl⟩ := mem_seg.1 hf
      exact hinj _ _ (h.line_lt hpi k2) (h.line_lt hpi l2) hxy
    · exact (line_fst_pairwise hs hpi).imp (fun h => by omega)
  exact h1.sublist ((List.filter_sublist).map _)

theorem PermOK.of_sorted {A : CS K} (h : A.WF) (hs : A.Sorted) (qt : Nat → Nat)
    (hinj : ∀ i j, i < A.ssize → j < A.ssize → qt i = qt j → i = j) (only : Bool) (psize : Nat) {pi : Nat}
    (hpi : pi < A.psize) (buf : Nat → K)
    (hbuf : ∀ e ∈ permList A qt only psize (A.line pi), buf e.1 = e.2) :
    PermOK A qt only psize pi
      ((((permList A qt only psize (A.line pi)).map Prod.fst).insertionSort (· ≤ ·)).map fun j => (j, buf j)) := by
  set L := permList A qt only psize (A.line pi) with hL
  have hp := List.perm_insertionSort (· ≤ ·) (L.map Prod.fst)
  constructor
  · rw [List.map_map]
    have e : (Prod.fst ∘ fun j => (j, buf j)) = id := rfl
    rw [e, List.map_id]
    have h1 : ((L.map Prod.fst).insertionSort (· ≤ ·)).Pairwise (· ≤ ·) := List.pairwise_insertionSort _ _
    have h2 : ((L.map Prod.fst).insertionSort (· ≤ ·)).Nodup := hp.nodup_iff.2 (permList_nodup h hs qt hinj only psize hpi)
    exact (h1.and h2).imp (fun h => by omega)
  · refine (hp.map _).trans ?_
    rw [List.map_map]
    refine List.Perm.of_eq ?_
    refine (List.map_congr_left (g := id) fun e he => ?_).trans (List.map_id _)
    simp [hbuf e he]

theorem computePermCore_runs [Inhabited K] {A : CS K} (h : A.WF) (hs : A.Sorted)
    (p qt : Buf Nat) (hqt : qt.size = A.ssize) (hpp : p.size = A.psize)
    (hinj : ∀ i j, i < A.ssize → j < A.ssize → qt.get i = qt.get j → i = j)
    (hq : ∀ j, j < A.ssize → qt.get j < A.ssize)
    (only : Bool) (leading n : Nat) (hn : n = if only then leading else A.psize) (hnp : n ≤ A.psize)
    (hp : ∀ i, i < n → p.get i < A.psize) (ss : Nat) (hss : ss = if only then leading else A.ssize) :
    Runs (A.computePermCore p qt only leading) fun r =>
      ∀ B, B = CS.mk n ss r.1 r.2.1 r.2.2 → B.WF ∧ B.Tight ∧
        ∀ i, i < n → PermOK A qt.get only n (p.get i) (B.line i) := by
  unfold computePermCore
  rw [if_neg (by omega)]
  rw [← hpp] at hn
  simp only [← hn, runs_bind]
  set len := fun i => A.start.get (p.get i + 1) - A.start.get (p.get i) with hlen
  have hst := h.start_size
  refine forUp_runs' (fun i nnz => nnz = off len i) (Nat.zero_le _) rfl ?_ ?_
  · rintro i nnz - hi rfl
    have := hp i hi
    simp only [runs_bind, runs_rd, runs_pure]
    exact ⟨by omega, by omega, by omega, rfl⟩
  rintro nnz rfl
  simp only [runs_ite, runs_pure]
  by_cases hz : off len n = 0
  · rw [if_pos hz]
    rintro B rfl
    refine ⟨⟨?_, rfl, ?_, ?_, ?_, ?_⟩, ⟨rfl, rfl, rfl⟩, ?_⟩
    · simp
    · intro i hi; simp
    · simp
    · simp
    · intro k hk; simp at hk
    · intro i hi
      have : len i = 0 := by
        have h1 : off len i + len i ≤ off len n := off_mono len (show i + 1 ≤ n from hi)
        omega
      have e1 : A.line (p.get i) = [] := A.seg_empty (by simp only [hlen] at this; omega)
      have e2 : (CS.mk n ss (Buf.mk' (n + 1) 0) (Buf.mk' 0 0) (Buf.mk' 0 (default : K))).line i = [] :=
        seg_empty _ (by simp)
      rw [e2]
      unfold PermOK
      rw [e1]
      simp [permList]
  rw [if_neg hz]
  simp only [runs_bind, runs_wr]
  refine ⟨by simp, ?_⟩
  set w := if only then leading else qt.size with hw
  refine forUp_runs' (fun i (s : PermSt K) => s.indptr.size = n + 1 ∧ s.inds.size = off len n ∧
      s.vals.size = off len n ∧ s.buf.size = w ∧ s.ip ≤ off len i ∧ s.vp = s.ip ∧ s.indptr.get i = s.ip ∧
      s.indptr.get 0 = 0 ∧ (∀ j, j < i → s.indptr.get j ≤ s.indptr.get (j + 1)) ∧
      (∀ j, j ≤ i → s.indptr.get j ≤ s.ip) ∧
      ∀ l, l < i → PermOK A qt.get only n (p.get l)
        ((CS.mk n ss s.indptr s.inds s.vals).seg (s.indptr.get l) (s.indptr.get (l + 1))))
      (Nat.zero_le _) ?_ ?_ ?_
  · refine ⟨rfl, rfl, rfl, rfl, le_refl _, rfl, by simp, by simp, fun j hj => by omega, fun j hj => ?_, fun l hl => by omega⟩
    simp
  · rintro i s - hi ⟨s1, s2, s3, s4, s5, s6, s7, s8, s9, s10, s11⟩
    have hpi := hp i hi
    have hoff : off len i + len i ≤ off len n := off_mono len (show i + 1 ≤ n from hi)
    have hl : len i = A.start.get (p.get i + 1) - A.start.get (p.get i) := rfl
    simp only [runs_bind, runs_rd]
    refine ⟨by omega, ?_⟩
    refine (permLine_runs h hs qt hqt hinj only n w ?_ hpi (PermLn.mk s.ip s.inds s.buf) s4 (by simp only; omega)).mono ?_
    · intro j hj ho
      rw [hw]
      cases only with
      | true => simp only [if_true] at *; rw [← hn]; exact ho trivial
      | false => simp only [Bool.false_eq_true, if_false]; rw [hqt]; exact hq j hj
    rintro r ⟨r1, r2, r3, r4, r5, r6, r7⟩
    simp only at r1 r2 r3 r4 r5 r6 r7
    simp only [runs_wr]
    refine ⟨by omega, by omega, ?_⟩
    refine (sortRange_runs r.inds s.ip r.ip r3 (by omega)).mono ?_
    rintro oi ⟨o1, o2, o3⟩
    have hmem : ∀ k, s.ip ≤ k → k < r.ip → oi.get k < w := by
      intro k k1 k2
      have : oi.get k ∈ oi.slice s.ip r.ip := Buf.mem_slice.2 ⟨k, k1, k2, rfl⟩
      rw [o3, List.mem_insertionSort, r6] at this
      obtain ⟨e, he, heq⟩ := List.mem_map.1 this
      obtain ⟨he1, he2⟩ := List.mem_filter.1 he
      obtain ⟨e', he', rfl⟩ := List.mem_map.1 he1
      obtain ⟨l, l1, l2, rfl⟩ := mem_seg.1 he'
      rw [← heq, hw]
      have hb := h.line_lt hpi l2
      cases only with
      | true => simp only [if_true] at *; rw [← hn]; simpa using he2
      | false => simp only [Bool.false_eq_true, if_false]; rw [hqt]; exact hq _ hb
    refine forUp_runs' (fun k (v : Nat × Buf K) => v.1 = k ∧ v.2.size = off len n ∧
      (∀ l, l < s.ip → v.2.get l = s.vals.get l) ∧
      ∀ l, s.ip ≤ l → l < k → v.2.get l = r.buf.get (oi.get l)) r3
      ⟨s6, s3, fun _ _ => rfl, fun l h1 h2 => by omega⟩ ?_ ?_
    · rintro k v k1 k2 ⟨v1, v2, v3, v4⟩
      have := hmem k k1 k2
      simp only [runs_bind, runs_rd, runs_wr, runs_pure, Buf.set_size, Buf.set_get, v1]
      refine ⟨by omega, by omega, by omega, trivial, v2, fun l hl => ?_, fun l h1 h2 => ?_⟩
      · rw [if_neg (by omega)]; exact v3 l hl
      · by_cases e : l = k
        · subst e; simp
        · rw [if_neg e]; exact v4 l h1 (by omega)
    rintro ⟨vp, ov⟩ ⟨v1, v2, v3, v4⟩
    simp only at v1 v2 v3 v4
    simp only [runs_pure, Buf.set_size, Buf.set_get]
    have hnew : s.indptr.get i + (r.ip - s.ip) = r.ip := by omega
    refine ⟨s1, by omega, v2, r2, ?_, v1, by simp [hnew], ?_, ?_, ?_, ?_⟩
    · simp only [off]; omega
    · rw [if_neg (by omega)]; exact s8
    · intro j hj
      by_cases e : j = i
      · subst e; rw [if_neg (by omega), if_pos rfl]; omega
      · rw [if_neg (by omega), if_neg (by omega)]; exact s9 j (by omega)
    · intro j hj
      by_cases e : j = i + 1
      · subst e; rw [if_pos rfl]; omega
      · rw [if_neg e]; have := s10 j (by omega); omega
    · intro l hl'
      by_cases e : l = i
      · subst e
        rw [if_neg (by omega), if_pos rfl, hnew, s7]
        have key := PermOK.of_sorted h hs qt.get hinj only n hpi r.buf.get r7
        rw [← r6, ← o3] at key
        have hseg : (CS.mk n ss (s.indptr.set (l + 1) (s.indptr.get l + (r.ip - s.ip))) oi ov).seg s.ip r.ip =
            (oi.slice s.ip r.ip).map fun j => (j, r.buf.get j) := by
          unfold seg Buf.slice
          rw [List.map_map]
          refine List.map_congr_left fun k hk => ?_
          rw [List.mem_range'_1] at hk
          simp only [Function.comp]
          rw [v4 k (by omega) (by omega)]
        rw [hnew, s7] at *
        rw [hseg]; exact key
      · rw [if_neg (by omega), if_neg (by omega)]
        have hb := s10 (l + 1) (by omega)
        have hseg : (CS.mk n ss (s.indptr.set (i + 1) (s.indptr.get i + (r.ip - s.ip))) oi ov).seg
            (s.indptr.get l) (s.indptr.get (l + 1)) =
            (CS.mk n ss s.indptr s.inds s.vals).seg (s.indptr.get l) (s.indptr.get (l + 1)) := by
          unfold seg
          refine List.map_congr_left fun k hk => ?_
          rw [List.mem_range'_1] at hk
          simp only
          rw [v3 k (by omega), o2 k (by omega), r5 k (by omega)]
        rw [hseg]; exact s11 l (by omega)
  · rintro s ⟨s1, s2, s3, s4, s5, s6, s7, s8, s9, s10, s11⟩
    simp only [runs_pure]
    rintro B rfl
    refine ⟨⟨?_, s8, s9, ?_, ?_, ?_⟩, ⟨s1, ?_, ?_⟩, s11⟩
    · simp only; omega
    · exact le_of_eq s7
    · simp only; omega
    · intro k hk
      simp only at hk ⊢
      rw [s7] at hk
      -- find the line
      have hex : ∀ j, j ≤ n → k < s.indptr.get j → ∃ i, i < j ∧ s.indptr.get i ≤ k ∧ k < s.indptr.get (i + 1) := by
        intro j
        induction j with
        | zero => intro _ h'; rw [s8] at h'; omega
        | succ j ih =>
          intro hj h'
          rcases Nat.lt_or_ge k (s.indptr.get j) with h1 | h1
          · obtain ⟨i, i1, i2⟩ := ih (by omega) h1
            exact ⟨i, by omega, i2⟩
          · exact ⟨j, by omega, h1, h'⟩
      obtain ⟨i, i1, i2, i3⟩ := hex n (le_refl _) (by omega)
      have hok := (s11 i i1).2
      have hmem : (s.inds.get k, s.vals.get k) ∈
          (CS.mk n ss s.indptr s.inds s.vals).seg (s.indptr.get i) (s.indptr.get (i + 1)) :=
        mem_seg.2 ⟨k, i2, i3, rfl⟩
      rw [hok.mem_iff] at hmem
      obtain ⟨he1, he2⟩ := List.mem_filter.1 hmem
      obtain ⟨e', he', heq⟩ := List.mem_map.1 he1
      obtain ⟨l, l1, l2, rfl⟩ := mem_seg.1 he'
      have hb := h.line_lt (hp i i1) l2
      have : s.inds.get k = qt.get (A.inds.get l) := by
        have := congrArg Prod.fst heq; exact this.symm
      rw [hss]
      cases only with
      | true => simp only [if_true] at *; rw [← hn]; simpa using he2
      | false => simp only [Bool.false_eq_true, if_false]; rw [this]; exact hq _ hb
    · exact s7.symm
    · rw [s6]; exact s7.symm

end CS
end Hif
