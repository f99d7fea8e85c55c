import Verif.DropMTRun
import Verif.Props.DropOff
import Mathlib.Data.List.Sort

set_option linter.unusedSectionVars false

/-!
# C79: threaded dropping in the off-diagonal blocks
-/

namespace Hif.Props
open Hif

section
variable {K R : Type} [Field R] [LinearOrder R] [IsStrictOrderedRing R] [FloorSemiring R]

/-- A block that may be passed to the dropping: well formed, with an exactly sized pointer array, no repeated index in a line, and reference pointers and an integer work space of
sufficient length; where the block has entries the reference is not empty. -/
structure DropInput (ref : Buf Nat) (A : CS K) (ibuf : Buf Nat) : Prop where
  wf : A.WF
  starts : A.start.size = A.psize + 1
  refs : A.psize + 1 ≤ ref.size
  work : A.psize ≤ ibuf.size
  distinct : ∀ i, i < A.psize → (A.inds.slice (A.start.get i) (A.start.get (i + 1))).Nodup
  nonempty : ∀ i, i < A.psize → ref.get i < ref.get (i + 1) ∨ A.line i = []

/-- Both blocks: `L_E` and `U_F` have the same number of lines and the same width. -/
structure DropPair (a : Drop.In K R) (ibufL ibufU : Buf Nat) : Prop where
  l : DropInput a.refL a.L ibufL
  u : DropInput a.refU a.U ibufU
  lines : a.U.psize = a.L.psize
  width : a.U.ssize = a.L.ssize

theorem DropInput.blockOK {ref : Buf Nat} {A : CS K} {ibuf : Buf Nat} (h : DropInput ref A ibuf) {alpha : R} (ha : 0 < alpha) : Drop.BlockOK ref alpha A ibuf := by
  refine ⟨h.wf, h.starts, h.refs, h.work, h.distinct, fun i hi h0 => ?_⟩
  rcases h.nonempty i hi with hh | hh
  · unfold Drop.lim at h0
    rw [Nat.ceil_eq_zero] at h0
    have : (0 : R) < ((ref.get (i + 1) - ref.get i : Nat) : R) := by rw [Nat.cast_pos]; omega
    exact absurd (mul_pos ha this) (not_lt.2 h0)
  · have := congrArg List.length hh
    rw [CS.line, CS.seg_length] at this
    have := h.wf.mono i hi
    simp only [List.length_nil] at *
    omega

theorem DropPair.pairOK {a : Drop.In K R} {ibufL ibufU : Buf Nat} (h : DropPair a ibufL ibufU) (hL : 0 < a.alphaL) (hU : 0 < a.alphaU) : Drop.PairOK a ibufL ibufU :=
  ⟨h.l.blockOK hL, h.u.blockOK hU, h.lines, h.width⟩

/-- C79: for every pair of blocks, every number of threads and every interleaving of them, the threaded dropping ends without error and returns exactly the blocks the two serial
calls return.  (`team`: OpenMP delivers the threads the code asks for.) -/
theorem C79_threaded_eq_serial (nth : (Nat → R) → Nat → List Nat → List Nat) (hnth : SV.NthSpec nth) (hloc : Drop.NthLocal nth) (nrm : K → R) (a : Drop.In K R)
    (ibufL ibufU : Buf Nat) (h : DropPair a ibufL ibufU) (hL : 0 < a.alphaL) (hU : 0 < a.alphaU) (T team : Nat) (hT : 0 < T) (hteam : team = if T ≤ 3 then 2 else T)
    (bufL bufU : Buf K) (hbL : a.L.ssize ≤ bufL.size) (hbU : a.L.ssize ≤ bufU.size) (junk : Nat → Nat → K) (r : M (CS K × CS K))
    (hr : Drop.MtDrop nth nrm a T team bufL bufU junk ibufL ibufU r) :
    ∃ L U, r = .ok (L, U) ∧ Drop.dropBlock nth nrm a.refL a.alphaL a.L bufL ibufL = .ok L ∧ Drop.dropBlock nth nrm a.refU a.alphaU a.U bufU ibufU = .ok U := by
  obtain ⟨L, eL, -⟩ := C53_keeps_largest nth hnth nrm a.refL a.alphaL hL a.L h.l.wf h.l.starts h.l.refs bufL ibufL h.l.work hbL h.l.distinct h.l.nonempty
  obtain ⟨U, eU, -⟩ := C53_keeps_largest nth hnth nrm a.refU a.alphaU hU a.U h.u.wf h.u.starts h.u.refs bufU ibufU h.u.work (by rw [h.width]; exact hbU) h.u.distinct h.u.nonempty
  refine ⟨L, U, ?_, eL, eU⟩
  have hp := h.pairOK hL hU
  obtain ⟨tgtL, htL⟩ := Drop.tgt_exists nth hnth nrm hp.l bufL hbL
  obtain ⟨tgtU, htU⟩ := Drop.tgt_exists nth hnth nrm hp.u bufU (by rw [h.width]; exact hbU)
  have kL : Drop.kernel nth nrm a.refL a.alphaL a.L bufL ibufL = .ok L := by rw [← eL]; unfold Drop.dropBlock; rw [if_pos hL]
  have kU : Drop.kernel nth nrm a.refU a.alphaU a.U bufU ibufU = .ok U := by rw [← eU]; unfold Drop.dropBlock; rw [if_pos hU]
  have hinit := Drop.parInit_inv (T := T) (a := a) (ibufL := ibufL) (ibufU := ibufU) tgtL tgtU bufL bufU junk hbL hbU
  cases hr with
  | serial => rw [eL, eU]; rfl
  | one h1 h2 h3 h4 => rw [if_pos h3] at hteam; omega
  | twoLU => rw [eL, eU]; rfl
  | twoUL => rw [eL, eU]; rfl
  | fail sched e h2 h3 h4 =>
    rw [if_neg (by omega)] at hteam
    subst hteam
    obtain ⟨s, es, -⟩ := Drop.parRun_inv hnth hloc hp htL htU sched _ hinit
    rw [es] at h4
    cases h4
  | full sched s h2 h3 h4 h5 =>
    rw [if_neg (by omega)] at hteam
    subst hteam
    obtain ⟨s', es, hs⟩ := Drop.parRun_inv hnth hloc hp htL htU sched _ hinit
    rw [es] at h4
    cases h4
    obtain ⟨c1, c2⟩ := Drop.par_eq_kernel hnth hloc hT hp htL htU hs h5 bufL bufU hbL hbU
    rw [if_pos (by omega), c1, c2, kL, kU]
    rfl
  | fullUL sched s h2 h3 h4 h5 =>
    rw [if_neg (by omega)] at hteam
    subst hteam
    obtain ⟨s', es, hs⟩ := Drop.parRun_inv hnth hloc hp htL htU sched _ hinit
    rw [es] at h4
    cases h4
    obtain ⟨c1, c2⟩ := Drop.par_eq_kernel hnth hloc hT hp htL htU hs h5 bufL bufU hbL hbU
    rw [if_pos (by omega), c1, c2, kL, kU]
    rfl

/-- C79: and so every interleaving keeps exactly the largest entries of every line of both blocks. -/
theorem C79_keeps_largest (nth : (Nat → R) → Nat → List Nat → List Nat) (hnth : SV.NthSpec nth) (hloc : Drop.NthLocal nth) (nrm : K → R) (a : Drop.In K R)
    (ibufL ibufU : Buf Nat) (h : DropPair a ibufL ibufU) (hL : 0 < a.alphaL) (hU : 0 < a.alphaU) (T team : Nat) (hT : 0 < T) (hteam : team = if T ≤ 3 then 2 else T)
    (bufL bufU : Buf K) (hbL : a.L.ssize ≤ bufL.size) (hbU : a.L.ssize ≤ bufU.size) (junk : Nat → Nat → K) (r : M (CS K × CS K))
    (hr : Drop.MtDrop nth nrm a T team bufL bufU junk ibufL ibufU r) :
    ∃ L U, r = .ok (L, U) ∧ L.WF ∧ U.WF ∧ ∀ i, i < a.L.psize →
      LargestKept nrm ⌈a.alphaL * ((a.refL.get (i + 1) - a.refL.get i : Nat) : R)⌉₊ (a.L.line i) (L.line i) ∧
      LargestKept nrm ⌈a.alphaU * ((a.refU.get (i + 1) - a.refU.get i : Nat) : R)⌉₊ (a.U.line i) (U.line i) := by
  obtain ⟨L, U, e, eL, eU⟩ := C79_threaded_eq_serial nth hnth hloc nrm a ibufL ibufU h hL hU T team hT hteam bufL bufU hbL hbU junk r hr
  obtain ⟨L', eL', -, -, l1, -, l2⟩ := C53_keeps_largest nth hnth nrm a.refL a.alphaL hL a.L h.l.wf h.l.starts h.l.refs bufL ibufL h.l.work hbL h.l.distinct h.l.nonempty
  obtain ⟨U', eU', -, -, u1, -, u2⟩ := C53_keeps_largest nth hnth nrm a.refU a.alphaU hU a.U h.u.wf h.u.starts h.u.refs bufU ibufU h.u.work (by rw [h.width]; exact hbU) h.u.distinct
    h.u.nonempty
  rw [eL] at eL'
  rw [eU] at eU'
  cases eL'
  cases eU'
  exact ⟨L, U, e, l1, u1, fun i hi => ⟨l2 i hi, u2 i (by rw [h.lines]; exact hi)⟩⟩

/-- C79: from every point an interleaving has reached all threads can still get to the end: there is no deadlock. -/
theorem C79_finishes (nth : (Nat → R) → Nat → List Nat → List Nat) (hnth : SV.NthSpec nth) (hloc : Drop.NthLocal nth) (nrm : K → R) (a : Drop.In K R)
    (ibufL ibufU : Buf Nat) (h : DropPair a ibufL ibufU) (hL : 0 < a.alphaL) (hU : 0 < a.alphaU) (T : Nat)
    (bufL bufU : Buf K) (hbL : a.L.ssize ≤ bufL.size) (hbU : a.L.ssize ≤ bufU.size) (junk : Nat → Nat → K) (sched : List Nat) :
    ∃ s sched' s', Drop.parRun nth nrm a T T sched (Drop.parInit a bufL bufU junk ibufL ibufU) = .ok s ∧ Drop.parRun nth nrm a T T sched' s = .ok s' ∧ Drop.parDone a T T s' := by
  have hp := h.pairOK hL hU
  obtain ⟨tgtL, htL⟩ := Drop.tgt_exists nth hnth nrm hp.l bufL hbL
  obtain ⟨tgtU, htU⟩ := Drop.tgt_exists nth hnth nrm hp.u bufU (by rw [h.width]; exact hbU)
  obtain ⟨s, e, hs⟩ := Drop.parRun_inv hnth hloc hp htL htU sched _ (Drop.parInit_inv (T := T) (a := a) (ibufL := ibufL) (ibufU := ibufU) tgtL tgtU bufL bufU junk hbL hbU)
  obtain ⟨sched', s', e', hd⟩ := Drop.parRun_finish hnth hloc hp htL htU s hs
  exact ⟨s, sched', s', e, e', hd⟩

/-- C79, OpenMP may deliver one thread where the code asks for two: then `L_E` is returned as it was, whatever its limiter says. -/
theorem C79_one_thread_witness (nth : (Nat → R) → Nat → List Nat → List Nat) (nrm : K → R) (a : Drop.In K R) (ibufL ibufU : Buf Nat) (T : Nat) (hT : T = 2 ∨ T = 3)
    (hn : 200 < a.L.psize) (bufL bufU : Buf K) (junk : Nat → Nat → K) (L U : CS K) (hr : Drop.MtDrop nth nrm a T 1 bufL bufU junk ibufL ibufU (.ok (L, U))) : L = a.L := by
  generalize hq : (Except.ok (L, U) : M (CS K × CS K)) = r at hr
  cases hr with
  | serial h => omega
  | one h1 h2 h3 h4 =>
    cases hU : Drop.dropBlock nth nrm a.refU a.alphaU a.U bufU ibufU with
    | error e => rw [hU] at hq; cases hq
    | ok V => rw [hU] at hq; cases hq; rfl
  | twoLU h1 h2 h3 h4 => omega
  | twoUL h1 h2 h3 h4 => omega
  | fail => cases hq
  | full sched s h2 h3 => omega
  | fullUL sched s h2 h3 => omega

/-- Lines the region has passed did not have to lose all their entries. -/
theorem zero_inv (nth : (Nat → R) → Nat → List Nat → List Nat) (nrm : K → R) (a : Drop.In K R) (T : Nat) : ∀ (sched : List Nat) (s s' : Drop.Sh K),
    (∀ t q, t < T → 2 * q < s.pc t → Drop.lim a.refL a.alphaL ((MT.uniformPartition a.L.psize T t).1 + q) = 0 →
      ¬ a.L.start.get ((MT.uniformPartition a.L.psize T t).1 + q) < a.L.start.get ((MT.uniformPartition a.L.psize T t).1 + q + 1)) →
    Drop.parRun nth nrm a T T sched s = .ok s' →
    ∀ t q, t < T → 2 * q < s'.pc t → Drop.lim a.refL a.alphaL ((MT.uniformPartition a.L.psize T t).1 + q) = 0 →
      ¬ a.L.start.get ((MT.uniformPartition a.L.psize T t).1 + q) < a.L.start.get ((MT.uniformPartition a.L.psize T t).1 + q + 1)
  | [], s, s', hs, e => by cases e; exact hs
  | t :: ts, s, s', hs, e => by
    unfold Drop.parRun at e
    split at e
    · rename_i ht
      obtain ⟨s1, e1, e2⟩ := SchurIn.bind_ok_inv e
      refine zero_inv nth nrm a T ts s1 s' ?_ e2
      unfold Drop.parStep at e1
      dsimp only at e1
      split at e1
      · rename_i hlt
        split at e1
        · rename_i hev
          obtain ⟨r, er, e3⟩ := SchurIn.bind_ok_inv e1
          cases e3
          intro u q hu hq h0 hbad
          have hq : 2 * q < if u = t then s.pc t + 1 else s.pc u := hq
          split at hq
          · rename_i eu
            subst eu
            by_cases hqq : 2 * q < s.pc u
            · exact hs u q hu hqq h0 hbad
            · have : s.pc u / 2 = q := by omega
              rw [this] at er
              exact Drop.dropLine_zero h0 hbad er
          · exact hs u q hu hq h0 hbad
        · rename_i hev
          obtain ⟨r, er, e3⟩ := SchurIn.bind_ok_inv e1
          cases e3
          intro u q hu hq h0 hbad
          have hq : 2 * q < if u = t then s.pc t + 1 else s.pc u := hq
          split at hq
          · rename_i eu
            subst eu
            exact hs u q hu (by omega) h0 hbad
          · exact hs u q hu hq h0 hbad
      · cases e1
        exact hs
    · exact zero_inv nth nrm a T ts s s' hs e

/-- C79, a limiter that is not positive: the serial call empties the block (C53), the threaded one with four or more threads asks the standard library for an element before the first
one, which is undefined: no interleaving delivers a result if `L_E` has an entry. -/
theorem C79_zero_limiter_witness (nth : (Nat → R) → Nat → List Nat → List Nat) (nrm : K → R) (a : Drop.In K R) (ibufL ibufU : Buf Nat) (T : Nat) (hT : 4 ≤ T)
    (hn : 200 < a.L.psize) (ha : a.alphaL ≤ 0) (i : Nat) (hi : i < a.L.psize) (hline : a.L.start.get i < a.L.start.get (i + 1)) (bufL bufU : Buf K) (junk : Nat → Nat → K)
    (r : M (CS K × CS K)) (hr : Drop.MtDrop nth nrm a T T bufL bufU junk ibufL ibufU r) : ∃ e, r = .error e := by
  have hno : ∀ sched s, Drop.parRun nth nrm a T T sched (Drop.parInit a bufL bufU junk ibufL ibufU) = .ok s → ¬ Drop.parDone a T T s := by
    intro sched s e hd
    obtain ⟨t, ht, ⟨h1, h2⟩, -⟩ := MT.part_unique a.L.psize T i (by omega) hi
    have := zero_inv nth nrm a T sched _ s (fun t q _ hq => absurd hq (Nat.not_lt_zero _)) e t (i - (MT.uniformPartition a.L.psize T t).1) ht
      (by rw [hd t ht]; omega)
    rw [show (MT.uniformPartition a.L.psize T t).1 + (i - (MT.uniformPartition a.L.psize T t).1) = i by omega] at this
    refine this ?_ hline
    unfold Drop.lim
    rw [Nat.ceil_eq_zero]
    exact mul_nonpos_of_nonpos_of_nonneg ha (Nat.cast_nonneg _)
  cases hr with
  | serial h => omega
  | one h1 h2 h3 h4 => omega
  | twoLU h1 h2 h3 h4 => omega
  | twoUL h1 h2 h3 h4 => omega
  | fail sched e => exact ⟨e, rfl⟩
  | full sched s h2 h3 h4 h5 => exact absurd h5 (hno sched s h4)
  | fullUL sched s h2 h3 h4 h5 => exact absurd h5 (hno sched s h4)

end

/-! ### the hypotheses can be met -/

namespace DropMTEx

/-- Selection by sorting. -/
def nth (w : Nat → ℚ) (_ : Nat) (l : List Nat) : List Nat := l.insertionSort fun a b => w b ≤ w a

theorem nth_spec : SV.NthSpec nth := by
  refine fun w k l _ => ⟨List.perm_insertionSort _ _, ?_⟩
  have : Std.Total fun a b : Nat => w b ≤ w a := ⟨fun a b => le_total _ _⟩
  have : IsTrans Nat fun a b => w b ≤ w a := ⟨fun a b c h1 h2 => le_trans h2 h1⟩
  have hs := List.pairwise_insertionSort (fun a b : Nat => w b ≤ w a) l
  intro a ha b hb
  unfold nth at ha hb
  rw [← List.take_append_drop (k + 1) (l.insertionSort fun a b => w b ≤ w a), List.pairwise_append] at hs
  exact hs.2.2 a ha b hb

theorem nth_local : Drop.NthLocal nth := by
  have hins : ∀ (w w' : Nat → ℚ) (x : Nat) (l : List Nat), w x = w' x → (∀ y ∈ l, w y = w' y) → l.orderedInsert (fun a b => w b ≤ w a) x = l.orderedInsert (fun a b => w' b ≤ w' a) x := by
    intro w w' x l hx
    induction l with
    | nil => intro _; rfl
    | cons y l ih =>
      intro h
      simp only [List.orderedInsert, hx, h y (List.mem_cons_self)]
      rw [ih fun z hz => h z (List.mem_cons_of_mem _ hz)]
  intro w w' k l
  unfold nth
  induction l with
  | nil => intro _; rfl
  | cons x l ih =>
    intro h
    rw [List.insertionSort_cons, List.insertionSort_cons]
    rw [ih fun z hz => h z (List.mem_cons_of_mem _ hz)]
    refine hins w w' x _ (h x List.mem_cons_self) fun y hy => h y (List.mem_cons_of_mem _ ?_)
    exact (List.perm_insertionSort _ l).mem_iff.1 hy

/-- 201 lines with two entries each. -/
def A : CS ℚ := ⟨201, 2, ⟨202, fun i => 2 * i⟩, ⟨402, fun k => k % 2⟩, ⟨402, fun k => (k : ℚ)⟩⟩

theorem input : DropInput (⟨202, fun i => 2 * i⟩ : Buf Nat) A ⟨201, fun _ => 7⟩ := by
  refine ⟨⟨by decide, rfl, fun i _ => ?_, le_refl _, le_refl _, fun k _ => Nat.mod_lt _ (by decide)⟩, rfl, le_refl _, le_refl _, fun i hi => ?_, fun i _ => Or.inl ?_⟩
  · show 2 * i ≤ 2 * (i + 1); omega
  · show ((List.range' (2 * i) (2 * (i + 1) - 2 * i)).map fun k => k % 2).Nodup
    rw [show 2 * (i + 1) - 2 * i = 2 by omega]
    simp [List.range'_succ]
  · show 2 * i < 2 * (i + 1); omega

/-- Non-vacuity: a pair of blocks of 201 lines, eight threads; half of every line is dropped. -/
example : DropPair (⟨⟨202, fun i => 2 * i⟩, 1 / 2, ⟨202, fun i => 2 * i⟩, 1 / 2, A, A⟩ : Drop.In ℚ ℚ) ⟨201, fun _ => 7⟩ ⟨201, fun _ => 7⟩ ∧ (0 : ℚ) < 1 / 2 ∧ SV.NthSpec nth ∧ Drop.NthLocal nth ∧
    ⌈(1 / 2 : ℚ) * (((⟨202, fun i => 2 * i⟩ : Buf Nat).get (0 + 1) - (⟨202, fun i => 2 * i⟩ : Buf Nat).get 0 : Nat) : ℚ)⌉₊ = 1 :=
  ⟨⟨input, input, rfl, rfl⟩, by norm_num, nth_spec, nth_local, by norm_num⟩

end DropMTEx
end Hif.Props
