import Verif.Mc64Inv

set_option linter.unusedVariables false
set_option linter.unusedSectionVars false

/-!
# The weighted matching: layout of the search

During a search the array `q` holds a heap at the front and, at the back, the rows with the smallest key followed by the rows whose distance is final.
-/

namespace Hif
namespace Mc64
variable {R : Type} [Field R] [LinearOrder R] [IsStrictOrderedRing R]

/-- A position of `q` that is in use. -/
def InP (n qlen low p : Nat) : Prop := (1 ≤ p ∧ p ≤ qlen) ∨ (low ≤ p ∧ p ≤ n)

/-- The layout; `pend` are rows whose key is set but which have not been entered yet. -/
structure Lay (n : Nat) (ip : Buf Nat) (pend : Nat → Prop) (d : Buf (D R)) (q l : Buf Nat) (qlen low up : Nat) (dmin : D R) : Prop where
  dsz : d.size = n + 1
  qsz : q.size = n + 1
  lsz : l.size = n + 1
  low1 : 1 ≤ low
  lu : low ≤ up
  un : up ≤ n + 1
  ql : qlen < low
  at_ : ∀ p, InP n qlen low p → 1 ≤ q.get p ∧ q.get p ≤ n ∧ l.get (q.get p) = p ∧ ip.get (q.get p) ≠ 0 ∧ d.get (q.get p) ≠ ⊤
  lab : ∀ i, 1 ≤ i → i ≤ n → l.get i ≠ 0 → InP n qlen low (l.get i) ∧ q.get (l.get i) = i
  unl : ∀ i, 1 ≤ i → i ≤ n → l.get i = 0 → ¬ pend i → d.get i = ⊤
  pnd : ∀ i, pend i → l.get i = 0
  ord : ∀ p, 2 ≤ p → p ≤ qlen → d.get (q.get (p / 2)) ≤ d.get (q.get p)
  fin : ∀ p, up ≤ p → p ≤ n → d.get (q.get p) ≤ dmin
  mid : ∀ p, low ≤ p → p < up → d.get (q.get p) = dmin
  hp : ∀ p, 1 ≤ p → p ≤ qlen → dmin ≤ d.get (q.get p)

theorem Lay.heap {n : Nat} {ip : Buf Nat} {pend : Nat → Prop} {d : Buf (D R)} {q l : Buf Nat} {qlen low up : Nat} {dmin : D R}
    (h : Lay n ip pend d q l qlen low up dmin) : Heap d q l n qlen :=
  ⟨fun p a b => ⟨(h.at_ p (Or.inl ⟨a, b⟩)).1, (h.at_ p (Or.inl ⟨a, b⟩)).2.1⟩, fun p a b => (h.at_ p (Or.inl ⟨a, b⟩)).2.2.1, h.ord⟩

/-- How the labels change when the row `i` is entered or moved: final rows stay. -/
structure Lbl (n up i : Nat) (l l' : Buf Nat) : Prop where
  lab : ∀ r, 1 ≤ r → r ≤ n → (l'.get r ≠ 0 ↔ l.get r ≠ 0 ∨ r = i)
  keep : ∀ r, 1 ≤ r → r ≤ n → up ≤ l.get r → l'.get r = l.get r
  back : ∀ r, 1 ≤ r → r ≤ n → up ≤ l'.get r → l'.get r = l.get r

section
variable {n : Nat} {ip : Buf Nat} {pend : Nat → Prop} {d d' : Buf (D R)} {q l : Buf Nat} {qlen low up : Nat} {dmin : D R}

/-- Rows in use are assigned rows; there is room for one more. -/
theorem Lay.room (h : Lay n ip pend d q l qlen low up dmin) {i : Nat} (h1 : 1 ≤ i) (h2 : i ≤ n) (hi : l.get i = 0) (hm : ip.get i ≠ 0) :
    qlen + (n + 1 - low) < cnt n ip := by
  have a1 := h.ql
  have a2 := h.lu
  have a3 := h.un
  have hd : Disjoint (Finset.Icc 1 qlen) (Finset.Icc low n) := by
    rw [Finset.disjoint_left]; intro x; simp only [Finset.mem_Icc]; omega
  have hc : (Finset.Icc 1 qlen ∪ Finset.Icc low n).card = qlen + (n + 1 - low) := by
    rw [Finset.card_union_of_disjoint hd]; simp
  have hlt : (Finset.Icc 1 qlen ∪ Finset.Icc low n).card ≤ (((Finset.Icc 1 n).filter fun x => ip.get x ≠ 0).erase i).card := by
    refine Finset.card_le_card_of_injOn q.get ?_ ?_
    · intro p hp
      simp only [Finset.coe_union, Finset.coe_Icc, Set.mem_union, Set.mem_Icc] at hp
      have := h.at_ p hp
      simp only [Finset.mem_coe, Finset.mem_erase, Finset.mem_filter, Finset.mem_Icc]
      refine ⟨fun e => ?_, ⟨this.1, this.2.1⟩, this.2.2.2.1⟩
      rw [e, hi] at this
      have := this.2.2.1
      have := h.low1
      rcases hp with hp | hp <;> omega
    · intro p hp p' hp' e
      simp only [Finset.coe_union, Finset.coe_Icc, Set.mem_union, Set.mem_Icc] at hp hp'
      rw [← (h.at_ p hp).2.2.1, ← (h.at_ p' hp').2.2.1, e]
  rw [hc] at hlt
  unfold cnt
  have := Finset.card_erase_lt_of_mem (s := (Finset.Icc 1 n).filter fun x => ip.get x ≠ 0) (a := i)
    (by simp only [Finset.mem_filter, Finset.mem_Icc]; exact ⟨⟨h1, h2⟩, hm⟩)
  omega

/-- If all assigned rows are final, no other row is in use. -/
theorem Lay.full (h : Lay n ip pend d q l qlen low up dmin) (hc : n + 1 - up = cnt n ip) :
    ∀ i, 1 ≤ i → i ≤ n → ip.get i ≠ 0 → up ≤ l.get i := by
  have a1 := h.ql
  have a2 := h.lu
  have a3 := h.un
  have him : (Finset.Icc up n).image q.get ⊆ (Finset.Icc 1 n).filter fun x => ip.get x ≠ 0 := by
    intro x hx
    simp only [Finset.mem_image, Finset.mem_Icc] at hx
    obtain ⟨p, hp, rfl⟩ := hx
    have := h.at_ p (Or.inr ⟨by omega, hp.2⟩)
    simp only [Finset.mem_filter, Finset.mem_Icc]
    exact ⟨⟨this.1, this.2.1⟩, this.2.2.2.1⟩
  have hcard : ((Finset.Icc up n).image q.get).card = n + 1 - up := by
    rw [Finset.card_image_of_injOn]
    · simp
    · intro p hp p' hp' e
      simp only [Finset.coe_Icc, Set.mem_Icc] at hp hp'
      rw [← (h.at_ p (Or.inr ⟨by omega, hp.2⟩)).2.2.1, ← (h.at_ p' (Or.inr ⟨by omega, hp'.2⟩)).2.2.1, e]
  have heq := Finset.eq_of_subset_of_card_le him (by rw [hcard, hc]; exact le_rfl)
  intro i b1 b2 b3
  have hm : i ∈ (Finset.Icc up n).image q.get := by
    rw [heq]; simp only [Finset.mem_filter, Finset.mem_Icc]; exact ⟨⟨b1, b2⟩, b3⟩
  simp only [Finset.mem_image, Finset.mem_Icc] at hm
  obtain ⟨p, hp, rfl⟩ := hm
  rw [(h.at_ p (Or.inr ⟨by omega, hp.2⟩)).2.2.1]; exact hp.1

/-- A row that is not in use goes to the second list. -/
theorem Lay.toLow (h : Lay n ip pend d q l qlen low up dmin) {i : Nat} (h1 : 1 ≤ i) (h2 : i ≤ n) (hi : l.get i = 0) (hm : ip.get i ≠ 0)
    (hd : d'.size = n + 1) (hd1 : ∀ r, r ≠ i → d'.get r = d.get r) (hd2 : d'.get i = dmin) (hf : dmin ≠ ⊤) :
    Lay n ip (fun r => pend r ∧ r ≠ i) d' (q.set (low - 1) i) (l.set i (low - 1)) qlen (low - 1) up dmin ∧ Lbl n up i l (l.set i (low - 1)) ∧
      qlen < low - 1 := by
  have a0 := h.room h1 h2 hi hm
  have a0' := cnt_le n ip
  have a1 := h.ql
  have a2 := h.lu
  have a3 := h.un
  have a4 := h.low1
  -- rows in use are different from `i`
  have hne : ∀ p, InP n qlen low p → q.get p ≠ i := by
    intro p hp e
    have := (h.at_ p hp).2.2.1
    rw [e, hi] at this
    rcases hp with hp | hp <;> omega
  have hq : ∀ p, InP n qlen low p → (q.set (low - 1) i).get p = q.get p := by
    intro p hp
    simp only [Buf.set_get]; rw [if_neg]
    rcases hp with hp | hp <;> omega
  have hin : ∀ p, InP n qlen (low - 1) p → p = low - 1 ∨ InP n qlen low p := by
    intro p hp
    rcases hp with hp | hp
    · exact Or.inr (Or.inl hp)
    · by_cases e : p = low - 1
      · exact Or.inl e
      · exact Or.inr (Or.inr ⟨by omega, hp.2⟩)
  refine ⟨⟨hd, h.qsz, h.lsz, by omega, by omega, a3, by omega, ?_, ?_, ?_, ?_, ?_, ?_, ?_, ?_⟩, ⟨?_, ?_, ?_⟩, by omega⟩
  · intro p hp
    rcases hin p hp with e | e
    · subst e
      simp only [Buf.set_get, if_true]
      exact ⟨h1, h2, trivial, hm, by rw [hd2]; exact hf⟩
    · rw [hq p e]
      have := h.at_ p e
      refine ⟨this.1, this.2.1, ?_, this.2.2.2.1, ?_⟩
      · simp only [Buf.set_get]; rw [if_neg (hne p e)]; exact this.2.2.1
      · rw [hd1 _ (hne p e)]; exact this.2.2.2.2
  · intro r b1 b2 b3
    simp only [Buf.set_get] at b3 ⊢
    by_cases e : r = i
    · rw [if_pos e]; exact ⟨Or.inr ⟨le_rfl, by omega⟩, by simp only [if_true]; exact e.symm⟩
    · rw [if_neg e] at b3 ⊢
      have := h.lab r b1 b2 b3
      refine ⟨?_, ?_⟩
      · rcases this.1 with x | x
        · exact Or.inl x
        · exact Or.inr ⟨by omega, x.2⟩
      · rw [if_neg]
        · exact this.2
        · rcases this.1 with x | x <;> omega
  · intro r b1 b2 b3 b4
    simp only [Buf.set_get] at b3
    by_cases e : r = i
    · rw [if_pos e] at b3; omega
    · rw [if_neg e] at b3
      rw [hd1 r e]
      exact h.unl r b1 b2 b3 (fun hp => b4 ⟨hp, e⟩)
  · rintro r ⟨b1, b2⟩
    simp only [Buf.set_get]; rw [if_neg b2]; exact h.pnd r b1
  · intro p b1 b2
    rw [hq _ (Or.inl ⟨by omega, by omega⟩), hq _ (Or.inl ⟨by omega, by omega⟩), hd1 _ (hne _ (Or.inl ⟨by omega, by omega⟩)),
      hd1 _ (hne _ (Or.inl ⟨by omega, by omega⟩))]
    exact h.ord p b1 b2
  · intro p b1 b2
    have e : InP n qlen low p := Or.inr ⟨by omega, b2⟩
    rw [hq p e, hd1 _ (hne p e)]; exact h.fin p b1 b2
  · intro p b1 b2
    by_cases e : p = low - 1
    · simp only [Buf.set_get]; rw [if_pos e]; exact hd2
    · have e : InP n qlen low p := Or.inr ⟨by omega, by omega⟩
      rw [hq p e, hd1 _ (hne p e)]; exact h.mid p (by omega) b2
  · intro p b1 b2
    have e : InP n qlen low p := Or.inl ⟨b1, b2⟩
    rw [hq p e, hd1 _ (hne p e)]; exact h.hp p b1 b2
  · intro r b1 b2
    simp only [Buf.set_get]
    by_cases e : r = i
    · rw [if_pos e]; constructor
      · intro _; exact Or.inr e
      · intro _; omega
    · rw [if_neg e]; constructor
      · intro x; exact Or.inl x
      · rintro (x | x)
        · exact x
        · exact absurd x e
  · intro r b1 b2 b3
    simp only [Buf.set_get]; rw [if_neg]
    intro e; rw [e, hi] at b3; omega
  · intro r b1 b2 b3
    simp only [Buf.set_get] at b3 ⊢
    by_cases e : r = i
    · rw [if_pos e] at b3; omega
    · rw [if_neg e]

/-- A heap operation that leaves the second list alone; the rows in the heap afterwards are those before and `i`. -/
theorem Lay.ofDone {l0 q' l' : Buf Nat} {qlen' i : Nat} (h : Lay n ip pend d q l qlen low up dmin) (h1 : 1 ≤ i) (h2 : i ≤ n)
    (hi : l.get i < low) (hm : ip.get i ≠ 0) (hd : d'.size = n + 1) (hd1 : ∀ r, r ≠ i → d'.get r = d.get r) (hd2 : d'.get i ≠ ⊤)
    (hd3 : dmin ≤ d'.get i) (hq' : qlen' < low) (hl0 : l0.size = n + 1) (hl0' : ∀ r, r ≠ i → l0.get r = l.get r)
    (D1 : Done d' q l0 q' l' n qlen' (fun r => r = i ∨ Mem q qlen r)) (hge : qlen ≤ qlen') :
    Lay n ip (fun r => pend r ∧ r ≠ i) d' q' l' qlen' low up dmin ∧ Lbl n up i l l' := by
  have a1 := h.ql
  have a2 := h.lu
  have a3 := h.un
  have a4 := h.low1
  have hmem : ∀ p, 1 ≤ p → p ≤ qlen' → q'.get p = i ∨ (q'.get p ≠ i ∧ ∃ p0, 1 ≤ p0 ∧ p0 ≤ qlen ∧ q.get p0 = q'.get p) := by
    intro p b1 b2
    by_cases e : q'.get p = i
    · exact Or.inl e
    · rcases (D1.mem (q'.get p)).1 ⟨p, b1, b2, rfl⟩ with x | x
      · exact absurd x e
      · exact Or.inr ⟨e, x⟩
  have hback : ∀ p, low ≤ p → p ≤ n → q'.get p = q.get p := fun p b1 b2 => D1.qout p (Or.inr (by omega))
  have hbne : ∀ p, low ≤ p → p ≤ n → q.get p ≠ i := by
    intro p b1 b2 e
    have := (h.at_ p (Or.inr ⟨b1, b2⟩)).2.2.1
    rw [e] at this; omega
  have hbnm : ∀ p, low ≤ p → p ≤ n → ¬ (q.get p = i ∨ Mem q qlen (q.get p)) := by
    rintro p b1 b2 (e | ⟨p0, c1, c2, c3⟩)
    · exact hbne p b1 b2 e
    · have x := (h.at_ p0 (Or.inl ⟨c1, c2⟩)).2.2.1
      rw [c3, (h.at_ p (Or.inr ⟨b1, b2⟩)).2.2.1] at x; omega
  have hl' : ∀ r, r ≠ i → ¬ Mem q qlen r → l'.get r = l.get r := by
    intro r b1 b2
    rw [D1.lout r (fun e => e.elim b1 b2), hl0' r b1]
  have hmemlab : ∀ r, 1 ≤ r → r ≤ n → (Mem q qlen r ↔ l.get r ≠ 0 ∧ l.get r ≤ qlen) := by
    intro r b1 b2
    constructor
    · rintro ⟨p, c1, c2, rfl⟩
      rw [(h.at_ p (Or.inl ⟨c1, c2⟩)).2.2.1]; omega
    · rintro ⟨c1, c2⟩
      have := h.lab r b1 b2 c1
      exact ⟨l.get r, by omega, c2, this.2⟩
  have hnew : ∀ r, (r = i ∨ Mem q qlen r) → 1 ≤ l'.get r ∧ l'.get r ≤ qlen' ∧ q'.get (l'.get r) = r := by
    intro r hr
    obtain ⟨p, c1, c2, rfl⟩ := (D1.mem r).2 hr
    rw [D1.heap.pos p c1 c2]; exact ⟨c1, c2, rfl⟩
  refine ⟨⟨hd, D1.qsz.trans h.qsz, D1.lsz.trans hl0, a4, a2, a3, hq', ?_, ?_, ?_, ?_, D1.heap.ord, ?_, ?_, ?_⟩, ⟨?_, ?_, ?_⟩⟩
  · intro p hp
    rcases hp with ⟨b1, b2⟩ | ⟨b1, b2⟩
    · have x := D1.heap.rng p b1 b2
      refine ⟨x.1, x.2, D1.heap.pos p b1 b2, ?_⟩
      rcases hmem p b1 b2 with e | ⟨e, p0, c1, c2, c3⟩
      · rw [e]; exact ⟨hm, hd2⟩
      · rw [hd1 _ e, ← c3]; exact (h.at_ p0 (Or.inl ⟨c1, c2⟩)).2.2.2
    · rw [hback p b1 b2]
      have x := h.at_ p (Or.inr ⟨b1, b2⟩)
      refine ⟨x.1, x.2.1, ?_, x.2.2.2.1, ?_⟩
      · rw [hl' _ (hbne p b1 b2) (fun e => hbnm p b1 b2 (Or.inr e))]; exact x.2.2.1
      · rw [hd1 _ (hbne p b1 b2)]; exact x.2.2.2.2
  · intro r b1 b2 b3
    by_cases e : r = i ∨ Mem q qlen r
    · have := hnew r e
      exact ⟨Or.inl ⟨this.1, this.2.1⟩, this.2.2⟩
    · rw [not_or] at e
      rw [hl' r e.1 e.2] at b3 ⊢
      have x := h.lab r b1 b2 b3
      rcases x.1 with y | y
      · exact absurd ((hmemlab r b1 b2).2 ⟨b3, y.2⟩) e.2
      · exact ⟨Or.inr y, by rw [hback _ y.1 y.2]; exact x.2⟩
  · intro r b1 b2 b3 b4
    have e1 : ¬ (r = i ∨ Mem q qlen r) := fun e => by have := hnew r e; omega
    rw [not_or] at e1
    rw [hl' r e1.1 e1.2] at b3
    rw [hd1 r e1.1]
    exact h.unl r b1 b2 b3 (fun hp => b4 ⟨hp, e1.1⟩)
  · rintro r ⟨b1, b2⟩
    have x := h.pnd r b1
    rw [hl' r b2]
    · exact x
    · rintro ⟨p, c1, c2, rfl⟩
      rw [(h.at_ p (Or.inl ⟨c1, c2⟩)).2.2.1] at x; omega
  · intro p b1 b2
    rw [hback p (by omega) b2, hd1 _ (hbne p (by omega) b2)]; exact h.fin p b1 b2
  · intro p b1 b2
    rw [hback p b1 (by omega), hd1 _ (hbne p b1 (by omega))]; exact h.mid p b1 b2
  · intro p b1 b2
    rcases hmem p b1 b2 with e | ⟨e, p0, c1, c2, c3⟩
    · rw [e]; exact hd3
    · rw [hd1 _ e, ← c3]; exact h.hp p0 c1 c2
  · intro r b1 b2
    by_cases e : r = i ∨ Mem q qlen r
    · have x := hnew r e
      constructor
      · intro _
        rcases e with e | e
        · exact Or.inr e
        · exact Or.inl ((hmemlab r b1 b2).1 e).1
      · intro _; omega
    · rw [not_or] at e
      rw [hl' r e.1 e.2]
      constructor
      · intro x; exact Or.inl x
      · rintro (x | x)
        · exact x
        · exact absurd x e.1
  · intro r b1 b2 b3
    refine hl' r ?_ ?_
    · intro e; rw [e] at b3; omega
    · intro e; have := (hmemlab r b1 b2).1 e; omega
  · intro r b1 b2 b3
    refine hl' r ?_ ?_
    · intro e; have := hnew r (Or.inl e); omega
    · intro e; have := hnew r (Or.inr e); omega

/-- A row that is not in use enters the heap. -/
theorem Lay.insert (h : Lay n ip pend d q l qlen low up dmin) {i : Nat} (h1 : 1 ≤ i) (h2 : i ≤ n) (hi : l.get i = 0) (hm : ip.get i ≠ 0)
    (hd : d'.size = n + 1) (hd1 : ∀ r, r ≠ i → d'.get r = d.get r) (hd2 : d'.get i ≠ ⊤) (hd3 : dmin ≤ d'.get i) :
    qlen + 1 < low ∧ Runs (heapUp i n d' q (l.set i (qlen + 1))) fun r =>
      Lay n ip (fun r => pend r ∧ r ≠ i) d' r.1 r.2 (qlen + 1) low up dmin ∧ Lbl n up i l r.2 ∧
      ∀ p, qlen + 1 < p → r.1.get p = q.get p := by
  have a0 := h.room h1 h2 hi hm
  have a0' := cnt_le n ip
  have a1 := h.ql
  have a2 := h.lu
  have a3 := h.un
  have a4 := h.low1
  have hne : ∀ p, 1 ≤ p → p ≤ qlen → q.get p ≠ i := by
    intro p b1 b2 e
    have := (h.at_ p (Or.inl ⟨b1, b2⟩)).2.2.1
    rw [e, hi] at this; omega
  refine ⟨by omega, ?_⟩
  have hH : Hole q (l.set i (qlen + 1)) n (qlen + 1) (qlen + 1) i := by
    refine ⟨by omega, le_rfl, h1, h2, ?_⟩
    intro p b1 b2 b3
    have x := h.at_ p (Or.inl ⟨b1, by omega⟩)
    have y := hne p b1 (by omega)
    refine ⟨x.1, x.2.1, y, ?_⟩
    simp only [Buf.set_get]; rw [if_neg y]; exact x.2.2.1
  have hO : OrdUp d' q (qlen + 1) (qlen + 1) (d'.get i) := by
    refine ⟨?_, fun c b1 b2 => by omega, fun c b1 b2 _ => by omega⟩
    intro p b1 b2 b3 b4
    rw [hd1 _ (hne _ (by omega) (by omega)), hd1 _ (hne _ (by omega) (by omega))]
    exact h.ord p b1 (by omega)
  refine (heapUp_runs hd h.qsz (by simpa using h.lsz) (by omega) hH (by simp) hO).mono ?_
  intro r hr
  have D1 : Done d' q (l.set i (qlen + 1)) r.1 r.2 n (qlen + 1) (fun x => x = i ∨ Mem q qlen x) := by
    refine ⟨hr.qsz, hr.lsz, hr.heap, fun x => (hr.mem x).trans ?_, hr.qout, fun x hx => hr.lout x (fun e => hx ?_)⟩
    · refine or_congr Iff.rfl ⟨?_, ?_⟩
      · rintro ⟨p, b1, b2, b3, b4⟩; exact ⟨p, b1, by omega, b4⟩
      · rintro ⟨p, b1, b2, b4⟩; exact ⟨p, b1, by omega, by omega, b4⟩
    · rcases e with e | ⟨p, b1, b2, b3, b4⟩
      · exact Or.inl e
      · exact Or.inr ⟨p, b1, by omega, b4⟩
  have := h.ofDone h1 h2 (by omega) hm hd hd1 hd2 hd3 (show qlen + 1 < low by omega) (by simpa using h.lsz)
    (fun r hr => by simp only [Buf.set_get]; rw [if_neg hr]) D1 (by omega)
  exact ⟨this.1, this.2, fun p hp => hr.qout p (Or.inr hp)⟩

/-- The key of a row in the heap decreases. -/
theorem Lay.decrease (h : Lay n ip pend d q l qlen low up dmin) {i : Nat} (h1 : 1 ≤ i) (h2 : i ≤ n) (hi : l.get i ≠ 0) (hil : l.get i < low)
    (hd : d'.size = n + 1) (hd1 : ∀ r, r ≠ i → d'.get r = d.get r) (hd2 : d'.get i ≠ ⊤) (hd3 : dmin ≤ d'.get i) (hd4 : d'.get i ≤ d.get i) :
    Runs (heapUp i n d' q l) fun r => Lay n ip (fun r => pend r ∧ r ≠ i) d' r.1 r.2 qlen low up dmin ∧ Lbl n up i l r.2 := by
  have a1 := h.ql
  have a2 := h.lu
  have a3 := h.un
  have a4 := h.low1
  have hx := h.lab i h1 h2 hi
  have hpos : 1 ≤ l.get i ∧ l.get i ≤ qlen := by
    rcases hx.1 with y | y <;> omega
  have hm : ip.get i ≠ 0 := by
    have := (h.at_ _ hx.1).2.2.2.1; rwa [hx.2] at this
  have hne : ∀ p, 1 ≤ p → p ≤ qlen → p ≠ l.get i → q.get p ≠ i := by
    intro p b1 b2 b3 e
    have := (h.at_ p (Or.inl ⟨b1, b2⟩)).2.2.1
    rw [e] at this; omega
  have hH : Hole q l n qlen (l.get i) i := by
    refine ⟨hpos.1, hpos.2, h1, h2, ?_⟩
    intro p b1 b2 b3
    have x := h.at_ p (Or.inl ⟨b1, b2⟩)
    exact ⟨x.1, x.2.1, hne p b1 b2 b3, x.2.2.1⟩
  have hO : OrdUp d' q qlen (l.get i) (d'.get i) := by
    refine ⟨?_, ?_, ?_⟩
    · intro p b1 b2 b3 b4
      rw [hd1 _ (hne _ (by omega) (by omega) b4), hd1 _ (hne _ (by omega) (by omega) b3)]
      exact h.ord p b1 (by omega)
    · intro c b1 b2
      rw [hd1 _ (hne c (by omega) b1 (by omega))]
      refine le_trans hd4 ?_
      have := h.ord c (by omega) b1
      rwa [b2, hx.2] at this
    · intro c b1 b2 b3
      rw [hd1 _ (hne c (by omega) b1 (by omega)), hd1 _ (hne _ (by omega) (by omega) (by omega))]
      refine le_trans (h.ord (l.get i) b3 hpos.2) ?_
      have := h.ord c (by omega) b1
      rwa [b2] at this
  refine (heapUp_runs hd h.qsz h.lsz (by omega) hH rfl hO).mono ?_
  intro r hr
  have D1 : Done d' q l r.1 r.2 n qlen (fun x => x = i ∨ Mem q qlen x) := by
    have key : ∀ x, (x = i ∨ ∃ p, 1 ≤ p ∧ p ≤ qlen ∧ p ≠ l.get i ∧ q.get p = x) ↔ (x = i ∨ Mem q qlen x) := by
      intro x
      constructor
      · rintro (e | ⟨p, b1, b2, b3, b4⟩)
        · exact Or.inl e
        · exact Or.inr ⟨p, b1, b2, b4⟩
      · rintro (e | ⟨p, b1, b2, b4⟩)
        · exact Or.inl e
        · by_cases e : p = l.get i
          · left; rw [← b4, e]; exact hx.2
          · exact Or.inr ⟨p, b1, b2, e, b4⟩
    exact ⟨hr.qsz, hr.lsz, hr.heap, fun x => (hr.mem x).trans (key x), hr.qout, fun x hx => hr.lout x (fun e => hx ((key x).1 e))⟩
  exact h.ofDone h1 h2 hil hm hd hd1 hd2 hd3 a1 h.lsz (fun r hr => rfl) D1 le_rfl

/-- Common part of the removals: the row `i` leaves the heap and goes to the second list. -/
theorem Lay.ofRemove {q' l' : Buf Nat} {i : Nat} (h : Lay n ip pend d q l qlen low up dmin) (h1 : 1 ≤ i) (h2 : i ≤ n) (hi : l.get i ≠ 0)
    (hil : l.get i < low) (hd : d'.size = n + 1) (hd1 : ∀ r, r ≠ i → d'.get r = d.get r) (hd2 : d'.get i = dmin) (hf : dmin ≠ ⊤)
    (D1 : Done d' q l q' l' n (qlen - 1) (fun r => Mem q qlen r ∧ r ≠ i)) :
    Lay n ip (fun r => pend r ∧ r ≠ i) d' (q'.set (low - 1) i) (l'.set i (low - 1)) (qlen - 1) (low - 1) up dmin ∧
      Lbl n up i l (l'.set i (low - 1)) ∧ 1 < low := by
  have a1 := h.ql
  have a2 := h.lu
  have a3 := h.un
  have a4 := h.low1
  have hx := h.lab i h1 h2 hi
  have hpos : 1 ≤ l.get i ∧ l.get i ≤ qlen := by
    rcases hx.1 with y | y <;> omega
  have hm : ip.get i ≠ 0 := by
    have := (h.at_ _ hx.1).2.2.2.1; rwa [hx.2] at this
  have hmem : ∀ p, 1 ≤ p → p ≤ qlen - 1 → q'.get p ≠ i ∧ ∃ p0, 1 ≤ p0 ∧ p0 ≤ qlen ∧ q.get p0 = q'.get p := by
    intro p b1 b2
    have := (D1.mem (q'.get p)).1 ⟨p, b1, b2, rfl⟩
    exact ⟨this.2, this.1⟩
  have hback : ∀ p, low ≤ p → p ≤ n → q'.get p = q.get p := fun p b1 b2 => D1.qout p (Or.inr (by omega))
  have hbne : ∀ p, low ≤ p → p ≤ n → q.get p ≠ i := by
    intro p b1 b2 e
    have := (h.at_ p (Or.inr ⟨b1, b2⟩)).2.2.1
    rw [e] at this; omega
  have hbnm : ∀ p, low ≤ p → p ≤ n → ¬ Mem q qlen (q.get p) := by
    rintro p b1 b2 ⟨p0, c1, c2, c3⟩
    have x := (h.at_ p0 (Or.inl ⟨c1, c2⟩)).2.2.1
    rw [c3, (h.at_ p (Or.inr ⟨b1, b2⟩)).2.2.1] at x; omega
  have hl' : ∀ r, ¬ Mem q qlen r → l'.get r = l.get r := fun r b2 => D1.lout r (fun e => b2 e.1)
  have hmemlab : ∀ r, 1 ≤ r → r ≤ n → (Mem q qlen r ↔ l.get r ≠ 0 ∧ l.get r ≤ qlen) := by
    intro r b1 b2
    constructor
    · rintro ⟨p, c1, c2, rfl⟩
      rw [(h.at_ p (Or.inl ⟨c1, c2⟩)).2.2.1]; omega
    · rintro ⟨c1, c2⟩
      have := h.lab r b1 b2 c1
      exact ⟨l.get r, by omega, c2, this.2⟩
  have hnew : ∀ r, r ≠ i → Mem q qlen r → 1 ≤ l'.get r ∧ l'.get r ≤ qlen - 1 ∧ q'.get (l'.get r) = r := by
    intro r hr hr'
    obtain ⟨p, c1, c2, rfl⟩ := (D1.mem r).2 ⟨hr', hr⟩
    rw [D1.heap.pos p c1 c2]; exact ⟨c1, c2, rfl⟩
  have hs : ∀ p, p ≠ low - 1 → (q'.set (low - 1) i).get p = q'.get p := by
    intro p hp; simp only [Buf.set_get]; rw [if_neg hp]
  have hsl : ∀ r, r ≠ i → (l'.set i (low - 1)).get r = l'.get r := by
    intro r hr; simp only [Buf.set_get]; rw [if_neg hr]
  refine ⟨⟨hd, D1.qsz.trans h.qsz, D1.lsz.trans h.lsz, by omega, by omega, a3, by omega, ?_, ?_, ?_, ?_, ?_, ?_, ?_, ?_⟩, ⟨?_, ?_, ?_⟩, by omega⟩
  · intro p hp
    rcases hp with ⟨b1, b2⟩ | ⟨b1, b2⟩
    · rw [hs p (by omega)]
      have x := D1.heap.rng p b1 b2
      obtain ⟨e, p0, c1, c2, c3⟩ := hmem p b1 b2
      refine ⟨x.1, x.2, ?_, ?_⟩
      · rw [hsl _ e]; exact D1.heap.pos p b1 b2
      · rw [hd1 _ e, ← c3]; exact (h.at_ p0 (Or.inl ⟨c1, c2⟩)).2.2.2
    · by_cases e : p = low - 1
      · subst e
        simp only [Buf.set_get, if_true]
        exact ⟨h1, h2, trivial, hm, by rw [hd2]; exact hf⟩
      · rw [hs p e, hback p (by omega) b2]
        have x := h.at_ p (Or.inr ⟨by omega, b2⟩)
        have y := hbne p (by omega) b2
        refine ⟨x.1, x.2.1, ?_, x.2.2.2.1, ?_⟩
        · rw [hsl _ y, hl' _ (hbnm p (by omega) b2)]; exact x.2.2.1
        · rw [hd1 _ y]; exact x.2.2.2.2
  · intro r b1 b2 b3
    by_cases e : r = i
    · subst e
      simp only [Buf.set_get, if_true]
      exact ⟨Or.inr ⟨le_rfl, by omega⟩, trivial⟩
    · rw [hsl r e] at b3 ⊢
      by_cases e2 : Mem q qlen r
      · have := hnew r e e2
        exact ⟨Or.inl ⟨this.1, this.2.1⟩, by rw [hs _ (by omega)]; exact this.2.2⟩
      · rw [hl' r e2] at b3 ⊢
        have x := h.lab r b1 b2 b3
        rcases x.1 with y | y
        · exact absurd ((hmemlab r b1 b2).2 ⟨b3, y.2⟩) e2
        · exact ⟨Or.inr ⟨by omega, y.2⟩, by rw [hs _ (by omega), hback _ y.1 y.2]; exact x.2⟩
  · intro r b1 b2 b3 b4
    by_cases e : r = i
    · subst e; simp only [Buf.set_get, if_true] at b3; omega
    · rw [hsl r e] at b3
      have e1 : ¬ Mem q qlen r := fun e' => by have := hnew r e e'; omega
      rw [hl' r e1] at b3
      rw [hd1 r e]
      exact h.unl r b1 b2 b3 (fun hp => b4 ⟨hp, e⟩)
  · rintro r ⟨b1, b2⟩
    have x := h.pnd r b1
    rw [hsl r b2, hl' r]
    · exact x
    · rintro ⟨p, c1, c2, rfl⟩
      rw [(h.at_ p (Or.inl ⟨c1, c2⟩)).2.2.1] at x; omega
  · intro p b1 b2
    rw [hs _ (by omega), hs _ (by omega)]; exact D1.heap.ord p b1 b2
  · intro p b1 b2
    rw [hs p (by omega), hback p (by omega) b2, hd1 _ (hbne p (by omega) b2)]; exact h.fin p b1 b2
  · intro p b1 b2
    by_cases e : p = low - 1
    · subst e; simp only [Buf.set_get, if_true]; exact hd2
    · rw [hs p e, hback p (by omega) (by omega), hd1 _ (hbne p (by omega) (by omega))]; exact h.mid p (by omega) b2
  · intro p b1 b2
    rw [hs p (by omega)]
    obtain ⟨e, p0, c1, c2, c3⟩ := hmem p b1 b2
    rw [hd1 _ e, ← c3]; exact h.hp p0 c1 c2
  · intro r b1 b2
    by_cases e : r = i
    · subst e
      simp only [Buf.set_get, if_true]
      constructor
      · intro _; exact Or.inr trivial
      · intro _; omega
    · rw [hsl r e]
      by_cases e2 : Mem q qlen r
      · have := hnew r e e2
        have := (hmemlab r b1 b2).1 e2
        constructor
        · intro _; exact Or.inl this.1
        · intro _; omega
      · rw [hl' r e2]
        constructor
        · intro x; exact Or.inl x
        · rintro (x | x)
          · exact x
          · exact absurd x e
  · intro r b1 b2 b3
    have e : r ≠ i := fun e => by rw [e] at b3; omega
    rw [hsl r e, hl' r (fun e2 => by have := (hmemlab r b1 b2).1 e2; omega)]
  · intro r b1 b2 b3
    by_cases e : r = i
    · subst e; simp only [Buf.set_get, if_true] at b3; omega
    · rw [hsl r e] at b3 ⊢
      refine hl' r (fun e2 => by have := hnew r e e2; omega)

/-- The key of a row in the heap falls to the smallest value. -/
theorem Lay.remove (h : Lay n ip pend d q l qlen low up dmin) {i : Nat} (h1 : 1 ≤ i) (h2 : i ≤ n) (hi : l.get i ≠ 0) (hil : l.get i < low)
    (hd : d'.size = n + 1) (hd1 : ∀ r, r ≠ i → d'.get r = d.get r) (hd2 : d'.get i = dmin) (hf : dmin ≠ ⊤) :
    Runs (removeAt (l.get i) qlen n d' q l) fun r =>
      Lay n ip (fun r => pend r ∧ r ≠ i) d' (r.1.set (low - 1) i) (r.2.set i (low - 1)) (qlen - 1) (low - 1) up dmin ∧
      Lbl n up i l (r.2.set i (low - 1)) ∧ 1 < low ∧ r.1.size = n + 1 ∧ r.2.size = n + 1 := by
  have a1 := h.ql
  have a2 := h.lu
  have a3 := h.un
  have hx := h.lab i h1 h2 hi
  have hpos : 1 ≤ l.get i ∧ l.get i ≤ qlen := by
    rcases hx.1 with y | y <;> omega
  have hne : ∀ p, 1 ≤ p → p ≤ qlen → p ≠ l.get i → q.get p ≠ i := by
    intro p b1 b2 b3 e
    have := (h.at_ p (Or.inl ⟨b1, b2⟩)).2.2.1
    rw [e] at this; omega
  refine (removeAt_runs hd h.qsz h.lsz (by omega) hpos.1 hpos.2 h.heap.rng h.heap.pos ?_ ?_).mono ?_
  · intro p b1 b2 b3 b4
    rw [hd1 _ (hne _ (by omega) (by omega) b4), hd1 _ (hne _ (by omega) (by omega) b3)]
    exact h.ord p b1 (by omega)
  · intro c b1 b2 b3
    rw [hd1 _ (hne c (by omega) b1 (by omega)), hd1 _ (hne _ (by omega) (by omega) (by omega))]
    refine le_trans (h.ord (l.get i) b3 hpos.2) ?_
    have := h.ord c (by omega) b1
    rwa [b2] at this
  · intro r hr
    rw [hx.2] at hr
    have := h.ofRemove h1 h2 hi hil hd hd1 hd2 hf hr
    exact ⟨this.1, this.2.1, this.2.2, hr.qsz.trans h.qsz, hr.lsz.trans h.lsz⟩

/-- The root, whose key is the smallest value, goes to the second list. -/
theorem Lay.pop (h : Lay n ip pend d q l qlen low up dmin) (h1 : 1 ≤ qlen) (hd : d.get (q.get 1) = dmin) :
    Runs (popRoot qlen n d q l) fun r =>
      Lay n ip (fun x => pend x ∧ x ≠ q.get 1) d (r.1.set (low - 1) (q.get 1)) (r.2.set (q.get 1) (low - 1)) (qlen - 1) (low - 1) up dmin ∧
      Lbl n up (q.get 1) l (r.2.set (q.get 1) (low - 1)) ∧ 1 < low ∧ r.1.size = n + 1 ∧ r.2.size = n + 1 := by
  have a1 := h.ql
  have a2 := h.lu
  have a3 := h.un
  have x := h.at_ 1 (Or.inl ⟨le_rfl, h1⟩)
  refine (popRoot_runs h.dsz h.qsz h.lsz (by omega) h1 h.heap).mono ?_
  intro r hr
  have := h.ofRemove x.1 x.2.1 (by rw [x.2.2.1]; omega) (by rw [x.2.2.1]; omega) h.dsz (fun _ _ => rfl) hd (by rw [← hd]; exact x.2.2.2.2) hr
  exact ⟨this.1, this.2.1, this.2.2, hr.qsz.trans h.qsz, hr.lsz.trans h.lsz⟩

end
end Mc64
end Hif
