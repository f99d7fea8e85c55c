import Verif.Struct

set_option linter.unusedSectionVars false
set_option linter.unusedVariables false
set_option linter.unusedSimpArgs false

/-! # Helper lemmas for the structural operations -/

namespace Hif
namespace CS
variable {K : Type _}

theorem lowerBoundLoop_runs (b : Buf Nat) (v : Nat) (fuel first len : Nat) (hf : len ≤ fuel)
    (hb : first + len ≤ b.size)
    (hs : ∀ k l, first ≤ k → k ≤ l → l < first + len → b.get k ≤ b.get l) :
    Runs (lowerBoundLoop b v fuel first len) fun r => first ≤ r ∧ r ≤ first + len ∧
      (∀ k, first ≤ k → k < r → b.get k < v) ∧ ∀ k, r ≤ k → k < first + len → v ≤ b.get k := by
  induction fuel generalizing first len with
  | zero =>
    obtain rfl : len = 0 := by omega
    simp only [lowerBoundLoop, runs_pure]
    exact ⟨le_refl _, by omega, fun k _ _ => by omega, fun k _ _ => by omega⟩
  | succ fuel ih =>
    simp only [lowerBoundLoop]
    by_cases h0 : len = 0
    · subst h0
      simp only [if_true, runs_pure]
      exact ⟨le_refl _, by omega, fun k _ _ => by omega, fun k _ _ => by omega⟩
    · rw [if_neg h0]
      simp only [runs_bind, runs_rd, runs_ite]
      have hlt : len / 2 < len := Nat.div_lt_self (by omega) (by omega)
      refine ⟨by omega, ?_⟩
      split
      · rename_i hx
        refine (ih (first + len / 2 + 1) (len - len / 2 - 1) (by omega) (by omega)
          (fun k l h1 h2 h3 => hs k l (by omega) h2 (by omega))).mono ?_
        rintro r ⟨r1, r2, r3, r4⟩
        refine ⟨by omega, by omega, fun k h1 h2 => ?_, fun k h1 h2 => r4 k h1 (by omega)⟩
        rcases Nat.lt_or_ge k (first + len / 2 + 1) with h3 | h3
        · exact lt_of_le_of_lt (hs k (first + len / 2) h1 (by omega) (by omega)) hx
        · exact r3 k h3 h2
      · rename_i hx
        refine (ih first (len / 2) (by omega) (by omega)
          (fun k l h1 h2 h3 => hs k l (by omega) h2 (by omega))).mono ?_
        rintro r ⟨r1, r2, r3, r4⟩
        refine ⟨by omega, by omega, r3, fun k h1 h2 => ?_⟩
        rcases Nat.lt_or_ge k (first + len / 2) with h3 | h3
        · exact r4 k h1 h3
        · exact le_trans (not_lt.1 hx) (hs (first + len / 2) k (by omega) h3 h2)

/-- `p` is the position in line `i` where indices reach `m`. -/
structure SplitPos (A : CS K) (m i p : Nat) : Prop where
  lo : A.start.get i ≤ p
  hi : p ≤ A.start.get (i + 1)
  below : ∀ k, A.start.get i ≤ k → k < p → A.inds.get k < m
  above : ∀ k, p ≤ k → k < A.start.get (i + 1) → m ≤ A.inds.get k

theorem findSorted_runs {A : CS K} (h : A.WF) (hs : A.Sorted) {i : Nat} (hi : i < A.psize) (m : Nat) :
    Runs (A.findSorted i m) (SplitPos A m i) := by
  unfold findSorted
  have := h.start_size
  have hm := h.mono i hi
  simp only [runs_bind, runs_rd]
  refine ⟨by omega, by omega, ?_⟩
  have hn := h.start_mono (show i + 1 ≤ A.psize from hi) (le_refl _)
  have := h.nnz_inds
  refine (lowerBoundLoop_runs A.inds m _ _ _ (le_refl _) (by omega) ?_).mono ?_
  · intro k l h1 h2 h3
    rcases Nat.lt_or_ge k l with h4 | h4
    · exact le_of_lt (hs i hi k l ⟨h1, by omega⟩ ⟨by omega, by omega⟩ h4)
    · have : k = l := by omega
      rw [this]
  · rintro r ⟨r1, r2, r3, r4⟩
    exact ⟨r1, by omega, r3, fun k h1 h2 => r4 k h1 (by omega)⟩

theorem SplitPos.unique {A : CS K} {m i p q : Nat} (hp : SplitPos A m i p) (hq : SplitPos A m i q) : p = q := by
  rcases Nat.lt_trichotomy p q with h | h | h
  · have h1 := hp.above p (le_refl _) (lt_of_lt_of_le h hq.hi)
    have h2 := hq.below p hp.lo h
    omega
  · exact h
  · have h1 := hq.above q (le_refl _) (lt_of_lt_of_le h hp.hi)
    have h2 := hp.below q hq.lo h
    omega

theorem copyRange_runs {α β : Type _} (src : Buf α) (lo hi : Nat) (g : α → M β) (h : α → β) (dst : Buf β)
    (pos : Nat) (hle : lo ≤ hi) (hsrc : hi ≤ src.size) (hdst : pos + (hi - lo) ≤ dst.size)
    (hg : ∀ k, lo ≤ k → k < hi → g (src.get k) = .ok (h (src.get k))) :
    Runs (copyRange src lo hi g dst pos) fun d => d.size = dst.size ∧
      (∀ k, ¬ (pos ≤ k ∧ k < pos + (hi - lo)) → d.get k = dst.get k) ∧
      ∀ t, t < hi - lo → d.get (pos + t) = h (src.get (lo + t)) := by
  unfold copyRange
  refine forUp_runs' (fun k (d : Buf β) => d.size = dst.size ∧
      (∀ l, ¬ (pos ≤ l ∧ l < pos + (k - lo)) → d.get l = dst.get l) ∧
      ∀ t, t < k - lo → d.get (pos + t) = h (src.get (lo + t))) hle ⟨rfl, fun _ _ => rfl, fun t ht => by omega⟩ ?_
      (fun s h => h)
  rintro k d h1 h2 ⟨d1, d2, d3⟩
  simp only [runs_bind, runs_rd]
  refine ⟨by omega, ?_⟩
  rw [hg k h1 h2]
  simp only [runs_ok, runs_wr, Buf.set_size, Buf.set_get]
  refine ⟨by omega, d1, fun l hl => ?_, fun t ht => ?_⟩
  · rw [if_neg (by omega)]; exact d2 l (by omega)
  · by_cases e : t = k - lo
    · subst e
      rw [if_pos rfl, show lo + (k - lo) = k by omega]
    · rw [if_neg (by omega)]; exact d3 t (by omega)

/-- Running offsets. -/
def off (len : Nat → Nat) : Nat → Nat
  | 0 => 0
  | n + 1 => off len n + len n

theorem off_mono (len : Nat → Nat) {i j : Nat} (h : i ≤ j) : off len i ≤ off len j := by
  induction j with
  | zero => obtain rfl : i = 0 := by omega
            exact le_refl _
  | succ j ih =>
    rcases Nat.lt_or_ge i (j + 1) with h1 | h1
    · exact le_trans (ih (by omega)) (by simp [off])
    · rw [show i = j + 1 by omega]

theorem off_congr {f g : Nat → Nat} (n : Nat) (h : ∀ i, i < n → f i = g i) : off f n = off g n := by
  induction n with
  | zero => rfl
  | succ n ih => simp only [off]; rw [ih (fun i hi => h i (by omega)), h n (by omega)]

/-- `B`'s line `i` is the image under `h` of positions `[lo i, hi i)` of `A`. -/
structure Gathered (A B : CS K) (n : Nat) (lo hi : Nat → Nat) (h : Nat → Nat) : Prop where
  psize : B.psize = n
  start_size : B.start.size = n + 1
  start : ∀ i, i ≤ n → B.start.get i = off (fun i => hi i - lo i) i
  inds_size : B.inds.size = off (fun i => hi i - lo i) n
  vals_size : B.vals.size = off (fun i => hi i - lo i) n
  ind : ∀ i, i < n → ∀ t, t < hi i - lo i →
    B.inds.get (off (fun i => hi i - lo i) i + t) = h (A.inds.get (lo i + t))
  val : ∀ i, i < n → ∀ t, t < hi i - lo i →
    B.vals.get (off (fun i => hi i - lo i) i + t) = A.vals.get (lo i + t)

theorem Gathered.line {A B : CS K} {n : Nat} {lo hi : Nat → Nat} {h : Nat → Nat} (g : Gathered A B n lo hi h)
    {i : Nat} (hi' : i < n) : B.line i = (A.seg (lo i) (hi i)).map fun e => (h e.1, e.2) := by
  unfold CS.line seg
  rw [g.start i (by omega), g.start (i + 1) (by omega)]
  refine List.ext_getElem ?_ ?_
  · simp [off]
  · intro t h1 h2
    simp only [List.getElem_map, List.getElem_range', Nat.one_mul]
    have ht : t < hi i - lo i := by simpa using h2
    rw [g.ind i hi' t ht, g.val i hi' t ht]

theorem off_split (len : Nat → Nat) (n k : Nat) (hk : k < off len n) :
    ∃ i, i < n ∧ ∃ t, t < len i ∧ k = off len i + t := by
  induction n with
  | zero => simp [off] at hk
  | succ n ih =>
    rcases Nat.lt_or_ge k (off len n) with h | h
    · obtain ⟨i, h1, h2⟩ := ih h
      exact ⟨i, by omega, h2⟩
    · simp only [off] at hk
      exact ⟨n, by omega, k - off len n, by omega, by omega⟩

theorem Gathered.wf {A B : CS K} {n : Nat} {lo hi : Nat → Nat} {h : Nat → Nat} (g : Gathered A B n lo hi h)
    (hb : ∀ i, i < n → ∀ k, lo i ≤ k → k < hi i → h (A.inds.get k) < B.ssize) : B.WF ∧ B.Tight := by
  have hn := g.start n (le_refl _)
  refine ⟨⟨?_, ?_, ?_, ?_, ?_, ?_⟩, ⟨?_, ?_, ?_⟩⟩
  · rw [g.start_size, g.psize]
  · rw [g.start 0 (Nat.zero_le _)]; rfl
  · intro i hi'
    rw [g.psize] at hi'
    rw [g.start i (by omega), g.start (i + 1) (by omega)]
    exact off_mono _ (by omega)
  · rw [g.psize, hn, g.inds_size]
  · rw [g.psize, hn, g.vals_size]
  · intro k hk
    rw [g.psize, hn] at hk
    obtain ⟨i, h1, t, h2, rfl⟩ := off_split _ _ _ hk
    rw [g.ind i h1 t h2]
    exact hb i h1 _ (by omega) (by omega)
  · rw [g.start_size, g.psize]
  · rw [g.psize, hn, g.inds_size]
  · rw [g.psize, hn, g.vals_size]

/-- Sub-range copied by `_split` for split positions `st`. -/
def sLo (A : CS K) (second : Bool) (st : Nat → Nat) (i : Nat) : Nat := if second then st i else A.start.get i
def sHi (A : CS K) (second : Bool) (st : Nat → Nat) (i : Nat) : Nat := if second then A.start.get (i + 1) else st i

theorem splitRange_eq {A : CS K} (h : A.WF) (second : Bool) {st : Nat → Nat} {m i : Nat} (hi : i < A.psize)
    (hp : SplitPos A m i (st i)) :
    A.splitRange second (st i) i = .ok (A.sLo second st i, A.sHi second st i) := by
  have := h.start_size
  unfold splitRange Buf.rd
  rw [if_pos (by omega), if_pos (by omega)]
  have h1 := hp.lo
  have h2 := hp.hi
  simp only [pure, Except.pure, bind, Except.bind]
  rw [if_neg (by omega)]
  unfold sLo sHi
  cases second <;> rfl

theorem startAt_eq (start : Option (Buf Nat)) (indptr : Buf Nat) (st : Nat → Nat) (i n : Nat) (hi : i < n)
    (h1 : ∀ s, start = some s → n ≤ s.size ∧ s.get i = st i)
    (h2 : start = none → n + 1 ≤ indptr.size ∧ indptr.get (i + 1) = st i) :
    startAt start indptr i = .ok (st i) := by
  unfold startAt
  cases start with
  | none => obtain ⟨a, b⟩ := h2 rfl; simp only [Buf.rd]; rw [if_pos (by omega), b]; rfl
  | some s => obtain ⟨a, b⟩ := h1 s rfl; simp only [Buf.rd]; rw [if_pos (by omega), b]; rfl

theorem sLo_le_sHi {A : CS K} {second : Bool} {st : Nat → Nat} {m i : Nat} (hp : SplitPos A m i (st i)) :
    A.sLo second st i ≤ A.sHi second st i ∧ A.start.get i ≤ A.sLo second st i ∧
      A.sHi second st i ≤ A.start.get (i + 1) := by
  have := hp.lo; have := hp.hi
  unfold sLo sHi
  cases second <;> simp <;> omega

theorem splitCore_runs [Inhabited K] {A : CS K} (h : A.WF) (ht : A.Tight) (second : Bool) (m : Nat)
    (start : Option (Buf Nat)) (indptr : Buf Nat) (st : Nat → Nat)
    (hst : ∀ i, i < A.psize → SplitPos A m i (st i))
    (hip : indptr.size = A.psize + 1)
    (h1 : ∀ i, i < A.psize → ∀ s, start = some s → A.psize ≤ s.size ∧ s.get i = st i)
    (h2 : ∀ i, i < A.psize → start = none → indptr.get (i + 1) = st i) (ss : Nat) :
    Runs (A.splitCore second m start indptr) fun r =>
      Gathered A { psize := A.psize, ssize := ss, start := r.1, inds := r.2.1, vals := r.2.2 } A.psize
        (A.sLo second st) (A.sHi second st) (fun j => if second then j - m else j) := by
  set len := fun i => A.sHi second st i - A.sLo second st i with hlen
  unfold splitCore
  simp only [runs_bind]
  refine forUp_runs' (fun i nnz => nnz = off len i) (Nat.zero_le _) rfl ?_ ?_
  · rintro i nnz - hi rfl
    simp only [runs_bind]
    rw [startAt_eq start indptr st i A.psize hi (h1 i hi) (fun e => ⟨by omega, h2 i hi e⟩)]
    simp only [runs_ok]
    rw [splitRange_eq h second hi (hst i hi)]
    simp [off, hlen]
  rintro nnz rfl
  simp only [runs_ite, runs_pure]
  by_cases hz : off len A.psize = 0
  · rw [if_pos hz]
    have z : ∀ i, i ≤ A.psize → off len i = 0 := fun i hi => by
      have := off_mono len hi; omega
    refine ⟨rfl, by simpa using hip, fun i hi => ?_, ?_, ?_, ?_, ?_⟩
    · exact (z i hi).symm
    · exact hz.symm
    · exact hz.symm
    · intro i hi t ht'
      have e := z (i + 1) (by omega)
      simp only [off] at e
      have : len i = 0 := by omega
      simp only [hlen] at this
      omega
    · intro i hi t ht'
      have e := z (i + 1) (by omega)
      simp only [off] at e
      have : len i = 0 := by omega
      simp only [hlen] at this
      omega
  rw [if_neg hz]
  simp only [runs_bind, runs_wr]
  refine ⟨by omega, ?_⟩
  refine forUp_runs' (fun i (s : SplitSt K) => s.pos = off len i ∧ s.indptr.size = A.psize + 1 ∧
      (∀ j, j ≤ i → s.indptr.get j = off len j) ∧ (∀ j, i < j → s.indptr.get j = indptr.get j) ∧
      s.inds.size = off len A.psize ∧ s.vals.size = off len A.psize ∧
      (∀ l, l < i → ∀ t, t < len l → s.inds.get (off len l + t) =
        if second then A.inds.get (A.sLo second st l + t) - m else A.inds.get (A.sLo second st l + t)) ∧
      (∀ l, l < i → ∀ t, t < len l → s.vals.get (off len l + t) = A.vals.get (A.sLo second st l + t)))
      (Nat.zero_le _) ?_ ?_ ?_
  · refine ⟨rfl, by simpa using hip, ?_, ?_, rfl, rfl, ?_, ?_⟩
    · intro j hj; obtain rfl : j = 0 := by omega
      simp [off]
    · intro j hj; simp only [Buf.set_get]; rw [if_neg (by omega)]
    · intro l hl; omega
    · intro l hl; omega
  · rintro i s - hi ⟨s1, s2, s3, s4, s5, s6, s7, s8⟩
    simp only [runs_bind]
    rw [startAt_eq start s.indptr st i A.psize hi (h1 i hi)
      (fun e => ⟨by omega, by rw [s4 (i + 1) (by omega)]; exact h2 i hi e⟩)]
    simp only [runs_ok]
    rw [splitRange_eq h second hi (hst i hi)]
    simp only [runs_ok]
    obtain ⟨b1, b2, b3⟩ := sLo_le_sHi (second := second) (hst i hi)
    have hn := h.start_mono (show i + 1 ≤ A.psize from hi) (le_refl _)
    have hni := h.nnz_inds
    have hnv := h.nnz_vals
    have hoff : off len i + len i ≤ off len A.psize := off_mono len (show i + 1 ≤ A.psize from hi)
    have hl : len i = A.sHi second st i - A.sLo second st i := rfl
    refine (copyRange_runs A.inds _ _ (shiftIdx second m) (fun j => if second then j - m else j) s.inds s.pos b1
      (by omega) (by omega) ?_).mono ?_
    · intro k k1 k2
      unfold shiftIdx
      cases second with
      | false => rfl
      | true =>
        have := (hst i hi).above k (by simpa [sLo] using k1) (by simpa [sHi] using k2)
        simp only [if_true]
        rw [if_neg (by omega)]; rfl
    rintro oi ⟨o1, o2, o3⟩
    refine (copyRange_runs A.vals _ _ pure id s.vals s.pos b1 (by omega) (by omega) (fun _ _ _ => rfl)).mono ?_
    rintro ov ⟨v1, v2, v3⟩
    simp only [runs_rd, runs_wr, runs_pure, Buf.set_size, Buf.set_get]
    refine ⟨by omega, by omega, by rw [s1]; rfl, s2, ?_, ?_, by omega, by omega, ?_, ?_⟩
    · intro j hj
      by_cases e : j = i + 1
      · subst e; rw [if_pos rfl, s3 i (le_refl _)]; rfl
      · rw [if_neg e]; exact s3 j (by omega)
    · intro j hj
      rw [if_neg (by omega)]; exact s4 j (by omega)
    · intro l hl' t ht'
      by_cases e : l = i
      · subst e; rw [← s1]; exact o3 t ht'
      · have : off len l + len l ≤ off len i := off_mono len (show l + 1 ≤ i by omega)
        rw [o2 _ (by omega)]
        exact s7 l (by omega) t ht'
    · intro l hl' t ht'
      by_cases e : l = i
      · subst e; rw [← s1]; exact v3 t ht'
      · have : off len l + len l ≤ off len i := off_mono len (show l + 1 ≤ i by omega)
        rw [v2 _ (by omega)]
        exact s8 l (by omega) t ht'
  · rintro s ⟨s1, s2, s3, s4, s5, s6, s7, s8⟩
    simp only [runs_pure]
    exact ⟨rfl, s2, s3, s5, s6, s7, s8⟩

theorem seg_filter_lt {A : CS K} {m i p : Nat} (hp : SplitPos A m i p) :
    (A.line i).filter (fun e => e.1 < m) = A.seg (A.start.get i) p ∧
    (A.line i).filter (fun e => m ≤ e.1) = A.seg p (A.start.get (i + 1)) := by
  unfold CS.line
  rw [← A.seg_append hp.lo hp.hi, List.filter_append, List.filter_append]
  have e1 : ∀ e ∈ A.seg (A.start.get i) p, e.1 < m := by
    intro e he
    obtain ⟨k, k1, k2, rfl⟩ := mem_seg.1 he
    exact hp.below k k1 k2
  have e2 : ∀ e ∈ A.seg p (A.start.get (i + 1)), m ≤ e.1 := by
    intro e he
    obtain ⟨k, k1, k2, rfl⟩ := mem_seg.1 he
    exact hp.above k k1 k2
  constructor
  · rw [List.filter_eq_self.2 (fun e he => by simpa using e1 e he),
      List.filter_eq_nil_iff.2 (fun e he => by simpa using e2 e he), List.append_nil]
  · rw [List.filter_eq_nil_iff.2 (fun e he => by simpa using e1 e he),
      List.filter_eq_self.2 (fun e he => by simpa using e2 e he), List.nil_append]

/-- What both parts of a split are, line by line. -/
structure SplitSpec (A B : CS K) (second : Bool) (m : Nat) : Prop where
  wf : B.WF
  tight : B.Tight
  psize : B.psize = A.psize
  ssize : B.ssize = if second then A.ssize - m else m
  line : ∀ i, i < A.psize → (if second then (B.line i).map (fun e => (e.1 + m, e.2)) else B.line i) =
    (A.line i).filter (fun e => if second then m ≤ e.1 else e.1 < m)

theorem splitSpec_of {A B : CS K} (h : A.WF) (second : Bool) (m : Nat) (hm : m ≤ A.ssize) (st : Nat → Nat)
    (hst : ∀ i, i < A.psize → SplitPos A m i (st i))
    (hss : B.ssize = if second then A.ssize - m else m)
    (g : Gathered A B A.psize (A.sLo second st) (A.sHi second st) (fun j => if second then j - m else j)) :
    SplitSpec A B second m := by
  have w := g.wf (by
    intro i hi k k1 k2
    obtain ⟨b1, b2, b3⟩ := sLo_le_sHi (second := second) (hst i hi)
    have hlt := h.line_lt hi (show k < A.start.get (i + 1) by omega)
    rw [hss]
    cases second with
    | true =>
      have := (hst i hi).above k (by simpa [sLo] using k1) (by simpa [sHi] using k2)
      simp only [if_true]; omega
    | false =>
      simp only [Bool.false_eq_true, if_false]
      exact (hst i hi).below k (by simpa [sLo] using k1) (by simpa [sHi] using k2))
  refine ⟨w.1, w.2, g.psize, hss, fun i hi => ?_⟩
  rw [g.line hi]
  obtain ⟨f1, f2⟩ := seg_filter_lt (hst i hi)
  cases second with
  | true =>
    simp only [if_true, sLo, sHi, List.map_map]
    rw [f2]
    refine (List.map_congr_left (g := id) fun e he => ?_).trans (List.map_id _)
    obtain ⟨k, k1, k2, rfl⟩ := mem_seg.1 he
    have := (hst i hi).above k k1 k2
    simp [Nat.sub_add_cancel this]
  | false =>
    simp only [Bool.false_eq_true, if_false, sLo, sHi]
    rw [f1]
    exact List.map_id _

theorem splitWith_runs [Inhabited K] {A : CS K} (h : A.WF) (ht : A.Tight) (second : Bool) (m : Nat)
    (hm : m ≤ A.ssize) (start : Buf Nat) (hs : A.psize ≤ start.size)
    (hst : ∀ i, i < A.psize → SplitPos A m i (start.get i)) :
    Runs (A.splitWith second m start) fun B => SplitSpec A B second m := by
  unfold splitWith
  rw [if_neg (by omega), if_neg (by omega)]
  simp only [runs_bind, runs_pure]
  refine (splitCore_runs h ht second m (some start) _ start.get hst (by simpa using ht.start_size) ?_ ?_
    (if second then A.ssize - m else m)).mono ?_
  · rintro i hi s ⟨⟩; exact ⟨hs, rfl⟩
  · intro i hi e; cases e
  · intro r g
    exact splitSpec_of h second m hm start.get hst rfl g

theorem split_runs [Inhabited K] {A : CS K} (h : A.WF) (ht : A.Tight) (hs : A.Sorted) (second : Bool) (m : Nat)
    (hm : m ≤ A.ssize) :
    Runs (A.split second m) fun B => SplitSpec A B second m := by
  unfold split
  rw [if_neg (by omega)]
  simp only [runs_bind, runs_pure]
  refine forUp_runs' (fun i (ip : Buf Nat) => ip.size = A.psize + 1 ∧
    ∀ j, j < i → SplitPos A m j (ip.get (j + 1))) (Nat.zero_le _)
    ⟨by simpa using ht.start_size, fun j hj => by omega⟩ ?_ ?_
  · rintro i ip - hi ⟨p1, p2⟩
    simp only [runs_bind]
    refine (findSorted_runs h hs hi m).mono fun p hp => ?_
    simp only [runs_wr, Buf.set_size, Buf.set_get]
    refine ⟨by omega, p1, fun j hj => ?_⟩
    by_cases e : j = i
    · subst e; simpa using hp
    · rw [if_neg (by omega)]; exact p2 j (by omega)
  · rintro ip ⟨p1, p2⟩
    refine (splitCore_runs h ht second m none ip (fun i => ip.get (i + 1)) p2 p1 ?_ ?_
      (if second then A.ssize - m else m)).mono ?_
    · rintro i hi s ⟨⟩
    · intro i hi e; rfl
    · intro r g
      exact splitSpec_of h second m hm _ p2 rfl g

theorem dualCount_runs {A B : CS K} (h : A.WF) (hB : B.WF) (hBt : B.Tight) (second : Bool) (m : Nat)
    (start : Buf Nat) (hs : A.psize ≤ start.size)
    (hst : ∀ i, i < A.psize → SplitPos A m i (start.get i))
    (g : Gathered A B A.psize (A.sLo second start.get) (A.sHi second start.get)
      (fun j => if second then j - m else j)) (w : Nat) (hw : B.ssize = w) :
    Runs (A.dualCount second m start (Buf.mk' (w + 1) 0)) fun os' => os'.size = w + 1 ∧ os'.get 0 = 0 ∧
      ∀ j, os'.get (j + 1) = B.cnt j B.inds.size := by
  subst hw
  unfold dualCount
  set len := fun i => A.sHi second start.get i - A.sLo second start.get i with hlen
  refine forUp_runs' (fun i (os' : Buf Nat) => os'.size = B.ssize + 1 ∧ os'.get 0 = 0 ∧
      ∀ j, os'.get (j + 1) = B.cnt j (off len i)) (Nat.zero_le _)
      ⟨rfl, rfl, fun j => by simp [off, cnt_zero]⟩ ?_ (fun s h => by rw [g.inds_size]; exact h)
  rintro i os - hi ⟨o1, o2, o3⟩
  simp only [runs_bind, runs_rd]
  refine ⟨by omega, ?_⟩
  rw [splitRange_eq h second hi (hst i hi)]
  simp only [runs_ok]
  obtain ⟨b1, b2, b3⟩ := sLo_le_sHi (second := second) (hst i hi)
  refine forUp_runs' (fun k (os' : Buf Nat) => os'.size = B.ssize + 1 ∧ os'.get 0 = 0 ∧
      ∀ j, os'.get (j + 1) = B.cnt j (off len i + (k - A.sLo second start.get i))) b1
      ⟨o1, o2, fun j => by simpa using o3 j⟩ ?_ ?_
  · rintro k os' k1 k2 ⟨p1, p2, p3⟩
    have hk : k < A.start.get (i + 1) := by omega
    have hn := h.line_inds hi hk
    have ht' : k - A.sLo second start.get i < len i := by simp only [hlen]; omega
    have gi := g.ind i hi _ ht'
    rw [show A.sLo second start.get i + (k - A.sLo second start.get i) = k by omega] at gi
    have hsh : shiftIdx second m (A.inds.get k) = .ok (if second then A.inds.get k - m else A.inds.get k) := by
      unfold shiftIdx
      cases second with
      | false => rfl
      | true =>
        have := (hst i hi).above k (by simpa [sLo] using k1) (by simpa [sHi] using k2)
        simp only [if_true]
        rw [if_neg (by omega)]; rfl
    have hlt : off len i + (k - A.sLo second start.get i) < B.inds.size := by
      rw [g.inds_size]
      have : off len i + len i ≤ off len A.psize := off_mono len (show i + 1 ≤ A.psize from hi)
      change _ < off len A.psize
      omega
    have hjs := hB.inds_lt _ (by rw [← hBt.inds_size]; exact hlt)
    simp only [runs_bind, runs_rd]
    refine ⟨hn, ?_⟩
    rw [hsh, ← gi]
    change _ < B.ssize at hjs
    set e := off len i + (k - A.sLo second start.get i) with he
    have he' : off (fun i => A.sHi second start.get i - A.sLo second start.get i) i +
      (k - A.sLo second start.get i) = e := rfl
    rw [he'] at *
    simp only [runs_ok, runs_rd, runs_wr, Buf.set_size, Buf.set_get]
    refine ⟨by omega, by omega, p1, by simpa using p2, fun j => ?_⟩
    rw [show off len i + (k + 1 - A.sLo second start.get i) = e + 1 by omega, cnt_succ]
    by_cases hj : B.inds.get e = j
    · subst hj; simp [p3]
    · rw [if_neg (by omega), if_neg hj, p3]; rfl
  · rintro os' ⟨p1, p2, p3⟩
    exact ⟨p1, p2, p3⟩

theorem dualScatter_runs {A B : CS K} (h : A.WF) (hB : B.WF) (hBt : B.Tight) (second : Bool) (m : Nat)
    (start : Buf Nat) (hs : A.psize ≤ start.size)
    (hst : ∀ i, i < A.psize → SplitPos A m i (start.get i))
    (g : Gathered A B A.psize (A.sLo second start.get) (A.sHi second start.get)
      (fun j => if second then j - m else j)) (s : ConvSt K)
    (hsc : ScatInv B B.inds.size B.ssize 0 s) :
    Runs (A.dualScatter second m start s) (ScatInv B B.inds.size B.ssize B.inds.size) := by
  unfold dualScatter
  have hbB : ∀ k, k < B.inds.size → B.inds.get k < B.ssize := fun k hk =>
    hB.inds_lt k (by rw [← hBt.inds_size]; exact hk)
  set len := fun i => A.sHi second start.get i - A.sLo second start.get i with hlen
  refine forUp_runs' (fun i (s : ConvSt K) => ScatInv B B.inds.size B.ssize (off len i) s) (Nat.zero_le _)
      hsc ?_ (fun s h => by have := g.inds_size; rw [← this] at h; exact h)
  rintro i s - hi hs2
  simp only [runs_bind, runs_rd]
  refine ⟨by omega, ?_⟩
  rw [splitRange_eq h second hi (hst i hi)]
  simp only [runs_ok]
  obtain ⟨b1, b2, b3⟩ := sLo_le_sHi (second := second) (hst i hi)
  refine forUp_runs' (fun k (s : ConvSt K) =>
      ScatInv B B.inds.size B.ssize (off len i + (k - A.sLo second start.get i)) s) b1
      (by simpa using hs2) ?_ (fun s h => h)
  rintro k t k1 k2 hk'
  have hk : k < A.start.get (i + 1) := by omega
  have hn := h.line_inds hi hk
  have hv := h.line_vals hi hk
  have ht' : k - A.sLo second start.get i < len i := by simp only [hlen]; omega
  have gi := g.ind i hi _ ht'
  have gv := g.val i hi _ ht'
  rw [show A.sLo second start.get i + (k - A.sLo second start.get i) = k by omega] at gi gv
  have hsh : shiftIdx second m (A.inds.get k) = .ok (if second then A.inds.get k - m else A.inds.get k) := by
    unfold shiftIdx
    cases second with
    | false => rfl
    | true =>
      have := (hst i hi).above k (by simpa [sLo] using k1) (by simpa [sHi] using k2)
      simp only [if_true]
      rw [if_neg (by omega)]; rfl
  have hoff : off len i + len i ≤ off len A.psize := off_mono len (show i + 1 ≤ A.psize from hi)
  have hlt : off len i + (k - A.sLo second start.get i) < B.inds.size := by
    rw [g.inds_size]
    change _ < off len A.psize
    omega
  simp only [runs_bind, runs_rd]
  refine ⟨hn, ?_⟩
  rw [hsh, ← gi, ← gv]
  have s1 := g.start i (by omega)
  have s2 := g.start (i + 1) (by omega)
  set e := off len i + (k - A.sLo second start.get i) with he
  have he' : off (fun i => A.sHi second start.get i - A.sLo second start.get i) i +
    (k - A.sLo second start.get i) = e := rfl
  rw [he'] at *
  obtain ⟨hput, hpl⟩ := hk'.put (i := i) hlt hbB
    ⟨by rw [s1]; change off len i ≤ e; omega, by rw [s2]; change e < off len i + len i; omega⟩ (by rw [g.psize]; exact hi)
  have hos := hk'.os_size
  have hoi := hk'.oi_size
  have hov := hk'.ov_size
  have := hbB e hlt
  simp only [runs_ok, runs_rd, runs_wr, runs_pure, hk'.it]
  refine ⟨by omega, by omega, hv, by omega, by omega, ?_⟩
  rw [show off len i + (k + 1 - A.sLo second start.get i) = e + 1 by omega]
  exact hput

/-- The dual split is the storage conversion of the ordinary split. -/
theorem splitDualWith_runs [Inhabited K] {A : CS K} (h : A.WF) (ht : A.Tight) (second : Bool) (m : Nat)
    (hm : m ≤ A.ssize) (start : Buf Nat) (hs : A.psize ≤ start.size)
    (hst : ∀ i, i < A.psize → SplitPos A m i (start.get i)) :
    Runs (A.splitDualWith second m start) fun C => ∃ B, SplitSpec A B second m ∧ ConvSpec B C := by
  -- the ordinary split
  obtain ⟨r, hr, g⟩ := splitCore_runs h ht second m (some start) (Buf.mk' (A.psize + 1) 0) start.get hst rfl
    (fun i hi s e => by cases e; exact ⟨hs, rfl⟩) (fun i hi e => by cases e)
    (if second then A.ssize - m else m)
  obtain ⟨B, hBdef⟩ : ∃ B : CS K, B =
      CS.mk A.psize (if second then A.ssize - m else m) r.1 r.2.1 r.2.2 := ⟨_, rfl⟩
  rw [← hBdef] at g
  have hss : B.ssize = if second then A.ssize - m else m := by rw [hBdef]
  have sp := splitSpec_of h second m hm start.get hst hss g
  have hBn : B.start.get B.psize = B.inds.size := sp.tight.inds_size.symm
  have hbB : ∀ k, k < B.inds.size → B.inds.get k < B.ssize := fun k hk =>
    sp.wf.inds_lt k (by rw [← sp.tight.inds_size]; exact hk)
  unfold splitDualWith
  rw [if_neg (by omega), if_neg (by omega)]
  simp only [runs_bind, ← hss]
  refine (dualCount_runs h sp.wf sp.tight second m start hs hst g B.ssize rfl).mono ?_
  rintro os1 ⟨c1, c2, c3⟩
  rw [c1, Nat.add_sub_cancel]
  refine (B.prefixSum_runs B.inds.size B.ssize os1 c1 c2 c3).mono ?_
  rintro os2 ⟨d1, d2⟩
  simp only [runs_rd, runs_ite, runs_pure, runs_bind]
  refine ⟨by omega, ?_⟩
  rw [d2 _ (le_refl _), B.base_top _ _ hbB]
  by_cases hz : B.inds.size = 0
  · rw [if_pos hz]
    refine ⟨B, sp, ?_⟩
    constructor
    · rfl
    · exact sp.psize.symm
    · rfl
    · exact hz.symm
    · exact hz.symm
    · intro j hj; simp [hz, base]
    · intro k hk; omega
  rw [if_neg hz]
  refine (dualScatter_runs h sp.wf sp.tight second m start hs hst g _ ?_).mono ?_
  · constructor
    · rfl
    · exact d1
    · rfl
    · rfl
    · intro j hj; show os2.get j = _; rw [d2 j (by omega), cnt_zero]; rfl
    · show os2.get _ = _; rw [d2 _ (le_refl _), B.base_top _ _ hbB]
    · intro l hl; omega
  intro st hsc
  refine (convShift_runs B.inds.size B.ssize (B.base B.inds.size) st.os hsc.os_size (base_zero _ _) ?_ ?_).mono ?_
  · intro j hj; rw [hsc.os_get j hj, base_succ]
  · rw [hsc.os_top, B.base_top _ _ hbB]
  rintro os3 ⟨e1, e2⟩
  exact ⟨B, sp, rfl, sp.psize.symm, e1, hsc.oi_size, hsc.ov_size, e2, hsc.done⟩

theorem splitDual_runs [Inhabited K] {A : CS K} (h : A.WF) (ht : A.Tight) (hs : A.Sorted) (second : Bool)
    (m : Nat) (hm : m ≤ A.ssize) :
    Runs (A.splitDual second m) fun C => ∃ B, SplitSpec A B second m ∧ ConvSpec B C := by
  unfold splitDual
  rw [if_neg (by omega)]
  simp only [runs_bind]
  refine forUp_runs' (fun i (ip : Buf Nat) => ip.size = A.psize ∧
    ∀ j, j < i → SplitPos A m j (ip.get j)) (Nat.zero_le _)
    ⟨rfl, fun j hj => by omega⟩ ?_ ?_
  · rintro i ip - hi ⟨p1, p2⟩
    simp only [runs_bind]
    refine (findSorted_runs h hs hi m).mono fun p hp => ?_
    simp only [runs_wr, Buf.set_size, Buf.set_get]
    refine ⟨by omega, p1, fun j hj => ?_⟩
    by_cases e : j = i
    · subst e; simpa using hp
    · rw [if_neg e]; exact p2 j (by omega)
  · rintro ip ⟨p1, p2⟩
    exact splitDualWith_runs h ht second m hm ip (by omega) p2

end CS
end Hif
