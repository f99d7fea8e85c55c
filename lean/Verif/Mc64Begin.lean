import Verif.Mc64Dij

set_option linter.unusedVariables false
set_option linter.unusedSectionVars false

/-!
# The weighted matching: start of a search
-/

namespace Hif
namespace Mc64
variable {R : Type} [Field R] [LinearOrder R] [IsStrictOrderedRing R]

/-- No column is so long that the list of its entries runs into the second list. -/
def Short (A : Mat R) : Prop := ∀ j, 1 ≤ j → j ≤ A.n → min (A.ip.get (j + 1) - A.ip.get j) (A.n - 1) ≤ A.n - A.n / 2

/-- State of the first loop before entry `k`. -/
structure First (A : Mat R) (ne : Nat) (v : Nat → R) (jord : Nat) (c0 : St R) (k : Nat) (w : W R) : Prop where
  core : Core A ne v w.c
  same : SameM c0 w.c
  l : ∀ i, 1 ≤ i → i ≤ A.n → w.c.l.get i = 0
  prj : w.c.pr.get jord = 0
  lu : w.low = A.n + 1 ∧ w.up = A.n + 1
  len : w.qlen ≤ k - A.ip.get jord
  room : w.qlen ≤ A.n
  ent : ∀ p, 1 ≤ p → p ≤ w.qlen → A.col jord (w.c.q.get p) ∧ w.c.q.get p < k ∧ w.c.iperm.get (A.irn.get (w.c.q.get p)) ≠ 0 ∧
    w.c.d.get (A.irn.get (w.c.q.get p)) = ((rc A v (w.c.q.get p) : R) : D R) ∧ w.dmin ≤ ((rc A v (w.c.q.get p) : R) : D R)
  inc : ∀ p p', 1 ≤ p → p < p' → p' ≤ w.qlen → w.c.q.get p < w.c.q.get p'
  all : ∀ x, A.col jord x → x < k → w.csp ≤ ((rc A v x : R) : D R) ∨ ∃ p, 1 ≤ p ∧ p ≤ w.qlen ∧ w.c.q.get p = x
  d : ∀ i, 1 ≤ i → i ≤ A.n → (∀ p, 1 ≤ p → p ≤ w.qlen → A.irn.get (w.c.q.get p) ≠ i) → w.c.d.get i = ⊤
  best : w.csp = ⊤ ∨ (w.jsp = jord ∧ A.col jord w.isp ∧ w.c.iperm.get (A.irn.get w.isp) = 0 ∧ w.csp = ((rc A v w.isp : R) : D R))

/-- The rows of the list are assigned rows, so there are fewer than `n`. -/
theorem list_le {A : Mat R} {ne : Nat} (hA : A.OK ne) {jord : Nat} (h1 : 1 ≤ jord) (h2 : jord ≤ A.n) {ip q : Buf Nat} {m : Nat}
    (ent : ∀ p, 1 ≤ p → p ≤ m → A.col jord (q.get p) ∧ ip.get (A.irn.get (q.get p)) ≠ 0)
    (inc : ∀ p p', 1 ≤ p → p < p' → p' ≤ m → q.get p < q.get p') : m ≤ cnt A.n ip := by
  have : (Finset.Icc 1 m).card ≤ ((Finset.Icc 1 A.n).filter fun x => ip.get x ≠ 0).card := by
    refine Finset.card_le_card_of_injOn (fun p => A.irn.get (q.get p)) ?_ ?_
    · intro p hp
      simp only [Finset.coe_Icc, Set.mem_Icc] at hp
      have := ent p hp.1 hp.2
      have r := hA.col_row h1 h2 this.1
      simp only [Finset.coe_filter, Finset.mem_Icc, Set.mem_setOf_eq]
      exact ⟨r, this.2⟩
    · intro p hp p' hp' e
      simp only [Finset.coe_Icc, Set.mem_Icc] at hp hp'
      have e' := hA.inj jord _ _ h1 h2 (ent p hp.1 hp.2).1 (ent p' hp'.1 hp'.2).1 e
      rcases Nat.lt_trichotomy p p' with hl | hl | hl
      · have := inc p p' hp.1 hl hp'.2; omega
      · exact hl
      · have := inc p' p hp'.1 hl hp.2; omega
  unfold cnt
  simpa using this

theorem firstBody_runs {A : Mat R} {ne : Nat} (hA : A.OK ne) {v : Nat → R} {jord : Nat} (h1 : 1 ≤ jord) (h2 : jord ≤ A.n) {c0 : St R} {k : Nat}
    (hk : A.col jord k) {w : W R} (h : First A ne v jord c0 k w) (hj : w.c.jperm.get jord = 0) :
    Runs (firstBody A jord k w) fun w' => First A ne v jord c0 (k + 1) w' := by
  have hkr := hA.col_rng h1 h2 hk
  have hrow := hA.col_row h1 h2 hk
  have e1 := hA.irsz
  have e2 := hA.asz
  have e3 := h.core.usz
  have e4 := h.core.mt.isz
  have e5 := h.core.dsz
  have e6 := h.core.qsz
  have hcnt : w.qlen ≤ cnt A.n w.c.iperm := list_le hA h1 h2 (fun p a b => ⟨(h.ent p a b).1, (h.ent p a b).2.2.1⟩) h.inc
  have hlt : cnt A.n w.c.iperm < A.n := by
    rw [h.core.mt.cols hA]; exact cnt_lt h1 h2 hj
  unfold firstBody
  simp only [runs_bind, runs_rd1]
  refine ⟨by omega, by omega, by omega, by omega, by omega, by omega, ?_⟩
  rw [sub_entry hA h.core hkr.1 hkr.2]
  simp only [runs_pure]
  have hlen := h.len
  have hkk : A.ip.get jord ≤ k := hk.1
  split
  · rename_i hc
    simp only [runs_pure]
    refine ⟨h.core, h.same, h.l, h.prj, h.lu, by omega, h.room, ?_, h.inc, ?_, h.d, h.best⟩
    · intro p a b
      have := h.ent p a b
      exact ⟨this.1, by omega, this.2.2⟩
    · intro x a b
      by_cases e : x = k
      · rw [e]; exact Or.inl hc
      · exact h.all x a (by omega)
  · rename_i hc
    simp only [runs_bind, runs_rd1]
    refine ⟨by omega, by omega, ?_⟩
    split
    · rename_i hp
      simp only [runs_pure]
      refine ⟨h.core, h.same, h.l, h.prj, h.lu, ?_, h.room, ?_, h.inc, ?_, h.d, Or.inr ⟨rfl, hk, hp, rfl⟩⟩
      · show w.qlen ≤ _; omega
      · intro p a b
        have := h.ent p a b
        exact ⟨this.1, Nat.lt_succ_of_lt this.2.1, this.2.2⟩
      · intro x a b
        by_cases e : x = k
        · rw [e]; exact Or.inl le_rfl
        · rcases h.all x a (by omega) with c | c
          · exact Or.inl (le_trans (le_of_lt (not_le.1 hc)) c)
          · exact Or.inr c
    · rename_i hp
      simp only [runs_bind, runs_wr1, runs_pure]
      refine ⟨by omega, by omega, by omega, by omega, ?_⟩
      have hne : ∀ p, 1 ≤ p → p ≤ w.qlen → A.irn.get (w.c.q.get p) ≠ A.irn.get k := by
        intro p a b e
        have := h.ent p a b
        have := hA.inj jord _ _ h1 h2 this.1 hk e
        omega
      have hq : ∀ p, p ≤ w.qlen → (w.c.q.set (w.qlen + 1) k).get p = w.c.q.get p := by
        intro p a; simp only [Buf.set_get]; rw [if_neg (by omega)]
      have hq' : (w.c.q.set (w.qlen + 1) k).get (w.qlen + 1) = k := by
        simp only [Buf.set_get, if_true]
      refine ⟨⟨h.core.mt, h.core.num, h.core.usz, h.core.u, h.core.tight, h.core.osz, h.core.prsz, h.core.qsz, h.core.lsz, h.core.dsz⟩,
        ⟨h.same.ip, h.same.jp, h.same.u, h.same.num⟩, h.l, h.prj, h.lu, ?_, ?_, ?_, ?_, ?_, ?_, h.best⟩
      · show w.qlen + 1 ≤ _; omega
      · show w.qlen + 1 ≤ _; omega
      · intro p a b
        show _ ∧ (w.c.q.set (w.qlen + 1) k).get p < _ ∧ _ ∧ (w.c.d.set (A.irn.get k) _).get _ = _ ∧ _
        by_cases e : p = w.qlen + 1
        · rw [e, hq']
          refine ⟨hk, by omega, hp, ?_, ?_⟩
          · simp only [Buf.set_get, if_true]
          · show (if _ then _ else _) ≤ _
            split
            · exact le_rfl
            · exact not_lt.1 ‹_›
        · have b' : p ≤ w.qlen := by have : p ≤ w.qlen + 1 := b; omega
          rw [hq p b']
          have := h.ent p a b'
          refine ⟨this.1, by omega, this.2.2.1, ?_, ?_⟩
          · simp only [Buf.set_get]; rw [if_neg (hne p a b')]; exact this.2.2.2.1
          · show (if _ then _ else _) ≤ _
            split
            · exact le_trans (le_of_lt ‹_›) this.2.2.2.2
            · exact this.2.2.2.2
      · intro p p' a b c
        show (w.c.q.set (w.qlen + 1) k).get p < (w.c.q.set (w.qlen + 1) k).get p'
        have c : p' ≤ w.qlen + 1 := c
        rw [hq p (by omega)]
        by_cases e : p' = w.qlen + 1
        · rw [e, hq']; exact (h.ent p a (by omega)).2.1
        · rw [hq p' (by omega)]; exact h.inc p p' a b (by omega)
      · intro x a b
        show _ ∨ ∃ p, 1 ≤ p ∧ p ≤ w.qlen + 1 ∧ (w.c.q.set (w.qlen + 1) k).get p = x
        by_cases e : x = k
        · exact Or.inr ⟨w.qlen + 1, by omega, le_rfl, by rw [hq', e]⟩
        · rcases h.all x a (by omega) with c | ⟨p, c1, c2, c3⟩
          · exact Or.inl c
          · exact Or.inr ⟨p, c1, by omega, by rw [hq p c2]; exact c3⟩
      · intro i a b c
        show (w.c.d.set (A.irn.get k) _).get i = _
        have c : ∀ p, 1 ≤ p → p ≤ w.qlen + 1 → A.irn.get ((w.c.q.set (w.qlen + 1) k).get p) ≠ i := c
        have e : i ≠ A.irn.get k := by
          intro e
          have := c (w.qlen + 1) (by omega) le_rfl
          rw [hq'] at this; exact this e.symm
        simp only [Buf.set_get]; rw [if_neg e]
        refine h.d i a b (fun p a b => ?_)
        have := c p a (by omega)
        rwa [hq p b] at this

/-- State of the second loop before position `kk`; `q1` is the list of `m` entries left by the first loop. -/
structure Second (A : Mat R) (ne : Nat) (v : Nat → R) (jord : Nat) (c0 : St R) (q1 : Buf Nat) (m kk : Nat) (w : W R) : Prop where
  inv : Inv A ne v jord c0 (fun i => ∃ p, kk ≤ p ∧ p ≤ m ∧ A.irn.get (q1.get p) = i) (fun j k => j = jord ∧ ∃ p, kk ≤ p ∧ p ≤ m ∧ q1.get p = k) w
  up : w.up = A.n + 1
  low : A.n + 2 ≤ w.low + kk
  len : w.qlen + 1 ≤ kk
  q : ∀ p, kk ≤ p → p ≤ m → w.c.q.get p = q1.get p
  ent : ∀ p, kk ≤ p → p ≤ m → A.col jord (q1.get p) ∧ w.c.iperm.get (A.irn.get (q1.get p)) ≠ 0 ∧
    w.c.d.get (A.irn.get (q1.get p)) = ((rc A v (q1.get p) : R) : D R) ∧ w.dmin ≤ ((rc A v (q1.get p) : R) : D R)

/-- Only the first column is reached at the beginning. -/
theorem reach_first {A : Mat R} {v : Nat → R} {jord : Nat} {w : W R} {pend : Nat → Prop}
    (hl : Lay A.n w.c.iperm pend w.c.d w.c.q w.c.l w.qlen w.low w.up w.dmin) (hup : w.up = A.n + 1) {x j : Nat} {b : R}
    (h : Reach A v jord w x j b) : j = jord ∧ b = 0 := by
  rcases h with h | ⟨r, a1, a2, a3, a4, _⟩
  · exact h
  · exfalso
    have c := (hl.lab r a1 a2 (by omega)).1
    have := hl.ql
    have := hl.lu
    have := hl.un
    rcases c with c | c <;> omega

theorem heapBody_runs {A : Mat R} {ne : Nat} (hA : A.OK ne) {v : Nat → R} {jord : Nat} {c0 : St R} {q1 : Buf Nat} {m kk : Nat} (hkk : 1 ≤ kk)
    (hkm : kk ≤ m) (hm : m ≤ A.n - A.n / 2) (hmn : m ≤ A.n) (hinc : ∀ p p', 1 ≤ p → p < p' → p' ≤ m → q1.get p < q1.get p') {w : W R}
    (h : Second A ne v jord c0 q1 m kk w) : Runs (heapBody A jord kk w) fun w' => Second A ne v jord c0 q1 m (kk + 1) w' := by
  obtain ⟨h1, h2, hj⟩ := h.inv.jo
  have core := h.inv.core
  have lay := h.inv.lay
  have e1 := hA.irsz
  have e4 := core.mt.isz
  have e5 := core.dsz
  have e6 := core.qsz
  have e7 := core.lsz
  have e8 := core.osz
  have e9 := core.prsz
  obtain ⟨hc, hip, hd, hdm⟩ := h.ent kk le_rfl hkm
  have hqk := h.q kk le_rfl hkm
  have hkr := hA.col_rng h1 h2 hc
  have hrow := hA.col_row h1 h2 hc
  have hpi := core.mt.row _ hrow.1 hrow.2 hip
  have hli : w.c.l.get (A.irn.get (q1.get kk)) = 0 := lay.pnd _ ⟨kk, le_rfl, hkm, rfl⟩
  have hne : ∀ p, kk + 1 ≤ p → p ≤ m → A.irn.get (q1.get p) ≠ A.irn.get (q1.get kk) := by
    intro p a b e
    have := hA.inj jord _ _ h1 h2 (h.ent p (by omega) b).1 hc e
    have := hinc kk p hkk (by omega) b
    omega
  have hpe : ∀ i, (∃ p, kk + 1 ≤ p ∧ p ≤ m ∧ A.irn.get (q1.get p) = i) ↔
      (∃ p, kk ≤ p ∧ p ≤ m ∧ A.irn.get (q1.get p) = i) ∧ i ≠ A.irn.get (q1.get kk) := by
    intro i
    constructor
    · rintro ⟨p, a, b, c⟩
      exact ⟨⟨p, by omega, b, c⟩, fun e => hne p a b (by rw [c, e])⟩
    · rintro ⟨⟨p, a, b, c⟩, e⟩
      refine ⟨p, ?_, b, c⟩
      rcases Nat.lt_or_ge kk p with g | g
      · exact g
      · have : p = kk := by omega
        rw [this] at c; exact absurd c.symm e
  have hpe' : (fun i => ∃ p, kk + 1 ≤ p ∧ p ≤ m ∧ A.irn.get (q1.get p) = i) =
      fun i => (∃ p, kk ≤ p ∧ p ≤ m ∧ A.irn.get (q1.get p) = i) ∧ i ≠ A.irn.get (q1.get kk) := funext fun i => propext (hpe i)
  have hP : ∀ j' k', ¬ (j' = jord ∧ ∃ p, kk + 1 ≤ p ∧ p ≤ m ∧ q1.get p = k') →
      ¬ (j' = jord ∧ ∃ p, kk ≤ p ∧ p ≤ m ∧ q1.get p = k') ∨ (j' = jord ∧ k' = q1.get kk) := by
    intro j' k' hn
    by_cases e : j' = jord ∧ k' = q1.get kk
    · exact Or.inr e
    · left
      rintro ⟨a, p, b1, b2, b3⟩
      rcases Nat.lt_or_ge kk p with g | g
      · exact hn ⟨a, p, g, b2, b3⟩
      · have : p = kk := by omega
        exact e ⟨a, by rw [← b3, this]⟩
  unfold heapBody
  simp only [runs_bind, runs_rd1]
  rw [hqk]
  refine ⟨by omega, by omega, by omega, by omega, by omega, by omega, ?_⟩
  split
  · rename_i hcs
    simp only [runs_bind, runs_wr1, runs_pure]
    refine ⟨by omega, by omega, ⟨⟨⟨core.mt, core.num, core.usz, core.u, core.tight, core.osz, core.prsz, core.qsz, core.lsz, core.dsz⟩,
      ⟨h.inv.same.ip, h.inv.same.jp, h.inv.same.u, h.inv.same.num⟩, ?_, ?_, ⟨h1, h2, hj⟩⟩, h.up, ?_, ?_, ?_, ?_⟩⟩
    · have hq : ∀ p, InP A.n w.qlen w.low p → w.c.q.get p ≠ A.irn.get (q1.get kk) := by
        intro p hp e
        have := (lay.at_ p hp).2.2.1
        rw [e, hli] at this
        have := lay.low1
        rcases hp with hp | hp <;> omega
      have hs : ∀ p, InP A.n w.qlen w.low p → (w.c.d.set (A.irn.get (q1.get kk)) ⊤).get (w.c.q.get p) = w.c.d.get (w.c.q.get p) := by
        intro p hp
        simp only [Buf.set_get]; rw [if_neg (hq p hp)]
      rw [hpe']
      have l1 := lay.ql
      have l2 := lay.lu
      refine ⟨lay.dsz, lay.qsz, lay.lsz, lay.low1, lay.lu, lay.un, lay.ql, ?_, lay.lab, ?_, ?_, ?_, ?_, ?_, ?_⟩
      · intro p hp
        have := lay.at_ p hp
        refine ⟨this.1, this.2.1, this.2.2.1, this.2.2.2.1, ?_⟩
        show (w.c.d.set _ ⊤).get _ ≠ ⊤
        rw [hs p hp]; exact this.2.2.2.2
      · intro i a b c g
        show (w.c.d.set _ ⊤).get i = ⊤
        simp only [Buf.set_get]
        by_cases e : i = A.irn.get (q1.get kk)
        · rw [if_pos e]
        · rw [if_neg e]; exact lay.unl i a b c (fun x => g ⟨x, e⟩)
      · intro i a; exact lay.pnd i a.1
      · intro p a b
        have b : p ≤ w.qlen := b
        show (w.c.d.set _ ⊤).get (w.c.q.get (p / 2)) ≤ (w.c.d.set _ ⊤).get (w.c.q.get p)
        rw [hs _ (Or.inl ⟨by omega, by omega⟩), hs _ (Or.inl ⟨by omega, by omega⟩)]; exact lay.ord p a b
      · intro p a b
        have a : w.up ≤ p := a
        show (w.c.d.set _ ⊤).get (w.c.q.get p) ≤ _
        rw [hs _ (Or.inr ⟨by omega, by omega⟩)]; exact lay.fin p a b
      · intro p a b
        have a : w.low ≤ p := a
        have b : p < w.up := b
        have l3 := lay.un
        show (w.c.d.set _ ⊤).get (w.c.q.get p) = _
        rw [hs _ (Or.inr ⟨by omega, by omega⟩)]; exact lay.mid p a b
      · intro p a b
        have b : p ≤ w.qlen := b
        show _ ≤ (w.c.d.set _ ⊤).get (w.c.q.get p)
        rw [hs _ (Or.inl ⟨by omega, by omega⟩)]; exact lay.hp p a b
    · have sem := h.inv.sem
      have hrf : ∀ {x j : Nat} {b : R}, Reach A v jord w x j b → j = jord ∧ b = 0 := fun g => reach_first lay h.up g
      refine ⟨sem.prj, ?_, ?_, ?_, ?_⟩
      · intro i a b c
        obtain ⟨b', x, c1, c2, c3, c4, c5⟩ := sem.tree i a b c
        have c : w.c.l.get i ≠ 0 := c
        refine ⟨b', x, Or.inl (hrf c1), c2, c3, c4, ?_⟩
        show (w.c.d.set _ ⊤).get i = _
        simp only [Buf.set_get]; rw [if_neg]
        · exact c5
        · intro e; rw [e] at c; exact c hli
      · rcases sem.best with x | ⟨b', c1, c2⟩
        · exact Or.inl x
        · exact Or.inr ⟨b', Or.inl (hrf c1), c2⟩
      · intro j b hr k hk hn
        have hr' : j = jord ∧ b = 0 := by
          rcases hr with g | ⟨r, a1, a2, a3, a4, _⟩
          · exact g
          · have := reach_first (v := v) (jord := jord) (x := 0) (j := w.c.iperm.get r) (b := val w.c.d r - rc A v (w.c.jperm.get (w.c.iperm.get r))) lay h.up (Or.inr ⟨r, a1, a2, a3, a4, rfl, by
              rw [sub_add_cancel]
              have a4 : 0 < w.c.l.get r := a4
              exact val_eq (h.inv.fin a1 a2 (by omega)).2.1⟩)
            have a4 : 0 < w.c.l.get r := a4
            have := (h.inv.fin a1 a2 (by omega)).1
            have := core.mt.row r a1 a2 this
            rw [‹w.c.iperm.get r = jord ∧ _›.1] at this
            exact absurd hj this.2.2.1
        obtain ⟨rfl, rfl⟩ := hr'
        rcases hP j k hn with g | g
        · rcases sem.rlx j 0 (Or.inl ⟨rfl, rfl⟩) k hk g with x | x
          · exact Or.inl x
          · by_cases e : A.irn.get k = A.irn.get (q1.get kk)
            · have e' := hA.inj j _ _ h1 h2 hk hc e
              left
              rw [e', zero_add]
              show w.csp ≤ _
              rw [← hd]; exact hcs
            · refine Or.inr ⟨x.1, ?_⟩
              show (w.c.d.set _ ⊤).get _ ≤ _
              simp only [Buf.set_get]; rw [if_neg e]; exact x.2
        · left
          rw [g.2, zero_add]
          show w.csp ≤ _
          rw [← hd]; exact hcs
      · intro i a b c
        exfalso
        have c : w.up ≤ w.c.l.get i := c
        have u1 := h.up
        have := (h.inv.fin a b (by omega)).2.2
        omega
    · show A.n + 2 ≤ w.low + (kk + 1)
      have := h.low; omega
    · show w.qlen + 1 ≤ kk + 1
      have := h.len; omega
    · intro p a b; exact h.q p (by omega) b
    · intro p a b
      have := h.ent p (by omega) b
      refine ⟨this.1, this.2.1, ?_, this.2.2.2⟩
      show (w.c.d.set _ ⊤).get _ = _
      simp only [Buf.set_get]; rw [if_neg (hne p a b)]; exact this.2.2.1
  · rename_i hcs
    have hlow := h.low
    have hlen := h.len
    have hio : w.c.iperm.get (A.irn.get (q1.get kk)) ≠ jord := fun e => hpi.2.2.1 (by rw [e]; exact hj)
    have hinj : ∀ r, 1 ≤ r → r ≤ A.n → w.c.l.get r ≠ 0 → w.c.iperm.get r = w.c.iperm.get (A.irn.get (q1.get kk)) → r = A.irn.get (q1.get kk) := by
      intro r a b c e
      have := (core.mt.row r a b (h.inv.fin a b c).1).2.2.2
      rw [e, hpi.2.2.2] at this; exact this.symm
    have hstepP : ∀ j' k', ¬ (j' = jord ∧ ∃ p, kk + 1 ≤ p ∧ p ≤ m ∧ q1.get p = k') →
        ¬ (j' = jord ∧ ∃ p, kk ≤ p ∧ p ≤ m ∧ q1.get p = k') ∨ (k' = q1.get kk ∧ ∀ b', Reach A v jord w 0 j' b' → b' = 0) := by
      intro j' k' hn
      rcases hP j' k' hn with g | g
      · exact Or.inl g
      · exact Or.inr ⟨g.2, fun b' hr => (reach_first lay h.up hr).2⟩
    have hd0 : w.c.d.get (A.irn.get (q1.get kk)) = ((0 + rc A v (q1.get kk) : R) : D R) := by rw [zero_add]; exact hd
    have hup1 : 1 ≤ w.up := by have := h.up; omega
    have hiu : w.c.l.get (A.irn.get (q1.get kk)) < w.up := by omega
    have hent : ∀ p, kk + 1 ≤ p → p ≤ m → A.col jord (q1.get p) ∧ w.c.iperm.get (A.irn.get (q1.get p)) ≠ 0 ∧
        w.c.d.get (A.irn.get (q1.get p)) = ((rc A v (q1.get p) : R) : D R) ∧ w.dmin ≤ ((rc A v (q1.get p) : R) : D R) :=
      fun p a b => h.ent p (by omega) b
    split
    · rename_i hdi
      have hde : w.c.d.get (A.irn.get (q1.get kk)) = w.dmin := le_antisymm hdi (by rw [hd]; exact hdm)
      have ht := lay.toLow hrow.1 hrow.2 hli hip lay.dsz (fun _ _ => rfl) hde (by rw [← hde, hd]; exact WithTop.coe_ne_top)
      obtain ⟨t1, t2, t3⟩ := ht
      have l3 := lay.un
      have l4 := lay.lu
      unfold pushLow setTree
      simp only [runs_bind, runs_wr1, runs_rd1, runs_pure]
      refine ⟨by omega, by omega, by omega, by omega, by omega, by omega, by omega, by omega, by omega, by omega, ?_⟩
      rw [← hpe'] at t1
      refine ⟨⟨⟨core.mt, core.num, core.usz, core.u, core.tight, core.osz, core.prsz, core.qsz, core.lsz, core.dsz⟩,
        ⟨h.inv.same.ip, h.inv.same.jp, h.inv.same.u, h.inv.same.num⟩, t1, ?_, ⟨h1, h2, hj⟩⟩, h.up, ?_, ?_, ?_, hent⟩
      · exact h.inv.sem.step (by exact rfl) (by exact rfl) (by exact rfl) (by exact rfl) (by exact rfl) (by exact rfl) hup1 hrow.1 hrow.2 hiu hip hio hinj rfl hc (Or.inl ⟨rfl, rfl⟩) (by exact fun _ _ => rfl) (by exact hd0) (by exact le_rfl) (by exact t2) (by exact rfl) (by exact rfl) hstepP
      · show A.n + 2 ≤ (w.low - 1) + (kk + 1); omega
      · show w.qlen + 1 ≤ kk + 1; omega
      · intro p a b
        show (w.c.q.set (w.low - 1) _).get p = _
        simp only [Buf.set_get]; rw [if_neg (by omega)]; exact h.q p (by omega) b
    · rename_i hdi
      obtain ⟨t0, t1⟩ := lay.insert hrow.1 hrow.2 hli hip lay.dsz (fun _ _ => rfl) (by rw [hd]; exact WithTop.coe_ne_top)
        (by rw [hd]; exact hdm)
      have l3 := lay.un
      have l4 := lay.lu
      simp only [runs_bind, runs_wr1]
      refine ⟨by omega, by omega, t1.mono ?_⟩
      rintro r ⟨r1, r2, r3⟩
      unfold setTree
      simp only [runs_bind, runs_wr1, runs_rd1, runs_pure]
      refine ⟨by omega, by omega, by omega, by omega, by omega, by omega, ?_⟩
      rw [← hpe'] at r1
      refine ⟨⟨⟨core.mt, core.num, core.usz, core.u, core.tight, core.osz, core.prsz, r1.qsz, r1.lsz, core.dsz⟩,
        ⟨h.inv.same.ip, h.inv.same.jp, h.inv.same.u, h.inv.same.num⟩, r1, ?_, ⟨h1, h2, hj⟩⟩, h.up, ?_, ?_, ?_, hent⟩
      · exact h.inv.sem.step (by exact rfl) (by exact rfl) (by exact rfl) (by exact rfl) (by exact rfl) (by exact rfl) hup1 hrow.1 hrow.2 hiu hip hio hinj rfl hc (Or.inl ⟨rfl, rfl⟩) (by exact fun _ _ => rfl) (by exact hd0) (by exact le_rfl) (by exact r2) (by exact rfl) (by exact rfl) hstepP
      · show A.n + 2 ≤ w.low + (kk + 1); omega
      · show w.qlen + 1 + 1 ≤ kk + 1; omega
      · intro p a b
        show r.1.get p = _
        rw [r3 p (by omega)]; exact h.q p (by omega) b

/-- The search starts in a state that satisfies the invariant. -/
theorem begin_runs {A : Mat R} {ne : Nat} (hA : A.OK ne) (hS : Short A) {v : Nat → R} {jord : Nat} (h1 : 1 ≤ jord) (h2 : jord ≤ A.n) {c : St R}
    (h : Idle A ne v c) (hj : c.jperm.get jord = 0) :
    Runs (begin_ A jord c) fun w => Inv A ne v jord c (fun _ => False) (fun _ _ => False) w ∧ w.up = A.n + 1 := by
  have e9 := h.toCore.prsz
  unfold begin_
  simp only [runs_bind, runs_wr1]
  refine ⟨by omega, by omega, ?_⟩
  refine forCol_runs hA h1 h2 (fun k w => First A ne v jord c k w ∧ k ≤ A.ip.get (jord + 1)) ?_ ?_ ?_
  · refine ⟨⟨⟨h.mt, h.num, h.usz, h.u, h.tight, h.osz, h.prsz, h.qsz, h.lsz, h.dsz⟩, ⟨rfl, rfl, rfl, rfl⟩, h.l, ?_, ⟨rfl, rfl⟩, Nat.zero_le _,
      Nat.zero_le _, ?_, ?_, ?_, fun i a b _ => h.d i a b, Or.inl rfl⟩, hA.mono jord h1 h2⟩
    · show (c.pr.set jord 0).get jord = 0
      simp only [Buf.set_get, if_true]
    · intro p a b; have b : p ≤ 0 := b; omega
    · intro p p' a b b'; have b' : p' ≤ 0 := b'; omega
    · intro x a b; have := a.1; omega
  · rintro k w hk ⟨hw, _⟩
    exact (firstBody_runs hA h1 h2 hk hw (by rw [hw.same.jp]; exact hj)).mono fun w' hw' => ⟨hw', hk.2⟩
  · rintro w ⟨hw, _⟩
    have hj' : w.c.jperm.get jord = 0 := by rw [hw.same.jp]; exact hj
    have hcnt : w.qlen ≤ cnt A.n w.c.iperm := list_le hA h1 h2 (fun p a b => ⟨(hw.ent p a b).1, (hw.ent p a b).2.2.1⟩) hw.inc
    have hlt : cnt A.n w.c.iperm < A.n := by
      rw [hw.core.mt.cols hA]; exact cnt_lt h1 h2 hj'
    have hs := hS jord h1 h2
    have hlen := hw.len
    refine forUp_runs' (fun kk w' => Second A ne v jord c w.c.q w.qlen kk w') (by omega) ?_ ?_ ?_
    · refine ⟨⟨hw.core, hw.same, ?_, ?_, ⟨h1, h2, hj'⟩⟩, hw.lu.2, ?_, le_rfl, fun _ _ _ => rfl, ?_⟩
      · have hl := hw.lu
        have hinp : ∀ p, ¬ InP A.n 0 w.low p := by
          intro p hp; rcases hp with hp | hp <;> omega
        refine ⟨hw.core.dsz, hw.core.qsz, hw.core.lsz, ?_, ?_, ?_, ?_, ?_, ?_, ?_, ?_, ?_, ?_, ?_, ?_⟩
        · show 1 ≤ w.low; omega
        · show w.low ≤ w.up; omega
        · show w.up ≤ _; omega
        · show 0 < w.low; omega
        · intro p hp; exact absurd hp (hinp p)
        · intro i a b e; exact absurd (hw.l i a b) e
        · intro i a b _ g
          refine hw.d i a b (fun p c1 c2 c3 => g ⟨p, c1, c2, c3⟩)
        · rintro i ⟨p, c1, c2, c3⟩
          have := hA.col_row h1 h2 (hw.ent p c1 c2).1
          rw [c3] at this; exact hw.l i this.1 this.2
        · intro p a b; have b : p ≤ 0 := b; omega
        · intro p a b; have a : w.up ≤ p := a; omega
        · intro p a b; have a : w.low ≤ p := a; have b : p < w.up := b; omega
        · intro p a b; have b : p ≤ 0 := b; omega
      · have hno : ∀ i, 1 ≤ i → i ≤ A.n → w.c.l.get i = 0 := hw.l
        refine ⟨hw.prj, ?_, ?_, ?_, ?_⟩
        · intro i a b e; exact absurd (hno i a b) e
        · rcases hw.best with x | ⟨c1, c2, c3, c4⟩
          · exact Or.inl x
          · refine Or.inr ⟨0, Or.inl ⟨c1, rfl⟩, ?_, c3, ?_⟩
            · show A.col w.jsp w.isp
              rw [c1]; exact c2
            · show w.csp = _
              rw [zero_add]; exact c4
        · intro j b hr k hk hn
          have hr' : j = jord ∧ b = 0 := by
            rcases hr with g | ⟨r, a1, a2, a3, a4, _⟩
            · exact g
            · have a4 : 0 < w.c.l.get r := a4
              have := hno r a1 a2; omega
          obtain ⟨rfl, rfl⟩ := hr'
          rcases hw.all k hk hk.2 with x | ⟨p, c1, c2, c3⟩
          · left; rw [zero_add]; exact x
          · exact absurd ⟨rfl, p, c1, c2, c3⟩ hn
        · intro i a b e
          have e : w.up ≤ w.c.l.get i := e
          have := hno i a b
          have := hw.lu
          omega
      · show A.n + 2 ≤ w.low + 1
        have := hw.lu; omega
      · intro p a b
        have := hw.ent p a b
        exact ⟨this.1, this.2.2⟩
    · intro kk w' a b hw'
      exact heapBody_runs hA a (by omega) (by omega) hw.room hw.inc hw'
    · intro w' hw'
      refine ⟨⟨hw'.inv.core, hw'.inv.same, ?_, ?_, hw'.inv.jo⟩, hw'.up⟩
      · have : (fun i => ∃ p, w.qlen + 1 ≤ p ∧ p ≤ w.qlen ∧ A.irn.get (w.c.q.get p) = i) = fun _ => False := by
          funext i; refine propext ⟨?_, False.elim⟩
          rintro ⟨p, a, b, _⟩; omega
        have hl := hw'.inv.lay
        rw [this] at hl; exact hl
      · refine hw'.inv.sem.skip ?_
        intro j k _ _
        left
        rintro ⟨_, p, a, b, _⟩; omega

end Mc64
end Hif
