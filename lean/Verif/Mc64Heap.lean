import Verif.Mc64

set_option linter.unusedVariables false
set_option linter.unusedSectionVars false

/-!
# The heap of the weighted matching

The heap routines of `Mc64.lean` keep the heap ordered, keep `l` the inverse of `q` on the heap, and touch nothing else.
-/

namespace Hif
namespace Mc64

section rules
variable {α : Type _}

@[simp] theorem runs_rd1 (b : Buf α) (i : Nat) (Q : α → Prop) : Runs (rd1 b i) Q ↔ i ≠ 0 ∧ i < b.size ∧ Q (b.get i) := by
  unfold rd1; by_cases h : i = 0 <;> simp [h]

@[simp] theorem runs_wr1 (b : Buf α) (i : Nat) (v : α) (Q : Buf α → Prop) :
    Runs (wr1 b i v) Q ↔ i ≠ 0 ∧ i < b.size ∧ Q (b.set i v) := by
  unfold wr1; by_cases h : i = 0 <;> simp [h]

end rules

variable {R : Type _} [Field R] [LinearOrder R]

/-- `r` is in the heap. -/
def Mem (q : Buf Nat) (ql r : Nat) : Prop := ∃ p, 1 ≤ p ∧ p ≤ ql ∧ q.get p = r

/-- An ordered heap of the first `ql` elements of `q`, with `l` the positions. -/
structure Heap (d : Buf (D R)) (q l : Buf Nat) (n ql : Nat) : Prop where
  rng : ∀ p, 1 ≤ p → p ≤ ql → 1 ≤ q.get p ∧ q.get p ≤ n
  pos : ∀ p, 1 ≤ p → p ≤ ql → l.get (q.get p) = p
  ord : ∀ p, 2 ≤ p → p ≤ ql → d.get (q.get (p / 2)) ≤ d.get (q.get p)

/-- The root has the smallest key. -/
theorem Heap.root {d : Buf (D R)} {q l : Buf Nat} {n ql : Nat} (h : Heap d q l n ql) :
    ∀ p, 1 ≤ p → p ≤ ql → d.get (q.get 1) ≤ d.get (q.get p) := by
  intro p
  induction p using Nat.strong_induction_on with
  | _ p ih =>
    intro h1 h2
    by_cases h3 : p = 1
    · rw [h3]
    · exact le_trans (ih (p / 2) (by omega) (by omega) (by omega)) (h.ord p (by omega) h2)

/-- Positions with a hole at `pos`, into which `j` will go. -/
structure Hole (q l : Buf Nat) (n ql pos j : Nat) : Prop where
  p1 : 1 ≤ pos
  p2 : pos ≤ ql
  j1 : 1 ≤ j
  j2 : j ≤ n
  at_ : ∀ p, 1 ≤ p → p ≤ ql → p ≠ pos → 1 ≤ q.get p ∧ q.get p ≤ n ∧ q.get p ≠ j ∧ l.get (q.get p) = p

/-- Order around a hole that moves upwards. -/
structure OrdUp (d : Buf (D R)) (q : Buf Nat) (ql pos : Nat) (dj : D R) : Prop where
  ord : ∀ p, 2 ≤ p → p ≤ ql → p ≠ pos → p / 2 ≠ pos → d.get (q.get (p / 2)) ≤ d.get (q.get p)
  kids : ∀ c, c ≤ ql → c / 2 = pos → dj ≤ d.get (q.get c)
  grand : ∀ c, c ≤ ql → c / 2 = pos → 2 ≤ pos → d.get (q.get (pos / 2)) ≤ d.get (q.get c)

/-- Order around a hole that moves downwards. -/
structure OrdDown (d : Buf (D R)) (q : Buf Nat) (ql pos : Nat) (dj : D R) : Prop where
  ord : ∀ p, 2 ≤ p → p ≤ ql → p ≠ pos → p / 2 ≠ pos → d.get (q.get (p / 2)) ≤ d.get (q.get p)
  parent : 2 ≤ pos → d.get (q.get (pos / 2)) ≤ dj
  grand : ∀ c, c ≤ ql → c / 2 = pos → 2 ≤ pos → d.get (q.get (pos / 2)) ≤ d.get (q.get c)

/-- What the loops leave alone. -/
structure Moved (q l q' l' : Buf Nat) (ql pos pos' : Nat) : Prop where
  qsz : q'.size = q.size
  lsz : l'.size = l.size
  mem : ∀ r, (∃ p, 1 ≤ p ∧ p ≤ ql ∧ p ≠ pos' ∧ q'.get p = r) ↔ (∃ p, 1 ≤ p ∧ p ≤ ql ∧ p ≠ pos ∧ q.get p = r)
  qout : ∀ p, p = 0 ∨ ql < p → q'.get p = q.get p
  lout : ∀ r, (¬ ∃ p, 1 ≤ p ∧ p ≤ ql ∧ p ≠ pos ∧ q.get p = r) → l'.get r = l.get r

theorem Moved.refl (q l : Buf Nat) (ql pos : Nat) : Moved q l q l ql pos pos :=
  ⟨rfl, rfl, fun _ => Iff.rfl, fun _ _ => rfl, fun _ _ => rfl⟩

theorem Moved.trans {q l q' l' q'' l'' : Buf Nat} {ql a b c : Nat} (h : Moved q l q' l' ql a b) (k : Moved q' l' q'' l'' ql b c) :
    Moved q l q'' l'' ql a c :=
  ⟨k.qsz.trans h.qsz, k.lsz.trans h.lsz, fun r => (k.mem r).trans (h.mem r), fun p hp => (k.qout p hp).trans (h.qout p hp),
    fun r hr => (k.lout r (fun hh => hr ((h.mem r).1 hh))).trans (h.lout r hr)⟩

/-- Moving the element at `ph` into the hole at `pos`. -/
theorem moved_step {q l : Buf Nat} {n ql pos ph j : Nat} (h : Hole q l n ql pos j) (h1 : 1 ≤ ph) (h2 : ph ≤ ql) (h3 : ph ≠ pos) :
    Moved q l (q.set pos (q.get ph)) (l.set (q.get ph) pos) ql pos ph ∧ Hole (q.set pos (q.get ph)) (l.set (q.get ph) pos) n ql ph j := by
  refine ⟨⟨rfl, rfl, ?_, ?_, ?_⟩, ⟨h1, h2, h.j1, h.j2, ?_⟩⟩
  · intro r
    simp only [Buf.set_get]
    constructor
    · rintro ⟨p, a, b, c, e⟩
      by_cases hp : p = pos
      · rw [if_pos hp] at e; exact ⟨ph, h1, h2, h3, e⟩
      · rw [if_neg hp] at e; exact ⟨p, a, b, hp, e⟩
    · rintro ⟨p, a, b, c, e⟩
      by_cases hp : p = ph
      · exact ⟨pos, h.p1, h.p2, fun x => h3 x.symm, by rw [if_pos rfl, ← hp]; exact e⟩
      · exact ⟨p, a, b, hp, by rw [if_neg c]; exact e⟩
  · intro p hp
    have := h.p1; have := h.p2
    simp only [Buf.set_get]; rw [if_neg (by omega)]
  · intro r hr
    simp only [Buf.set_get]; rw [if_neg]
    intro e; exact hr ⟨ph, h1, h2, h3, e.symm⟩
  · intro p a b c
    simp only [Buf.set_get]
    by_cases hp : p = pos
    · rw [if_pos hp]
      have := h.at_ ph h1 h2 h3
      exact ⟨this.1, this.2.1, this.2.2.1, by rw [if_pos rfl]; exact hp.symm⟩
    · rw [if_neg hp]
      have := h.at_ p a b hp
      refine ⟨this.1, this.2.1, this.2.2.1, ?_⟩
      rw [if_neg]
      · exact this.2.2.2
      · intro e
        have k := (h.at_ ph h1 h2 h3).2.2.2
        rw [← e, this.2.2.2] at k; exact c k

theorem ordUp_step {d : Buf (D R)} {q : Buf Nat} {ql pos : Nat} {dj : D R} (h : OrdUp d q ql pos dj) (hp : 2 ≤ pos) (hq : pos ≤ ql)
    (hlt : dj < d.get (q.get (pos / 2))) : OrdUp d (q.set pos (q.get (pos / 2))) ql (pos / 2) dj := by
  refine ⟨?_, ?_, ?_⟩
  · intro p a b c e
    simp only [Buf.set_get]
    have e1 : p ≠ pos := fun x => e (by rw [x])
    rw [if_neg e1]
    by_cases e2 : p / 2 = pos
    · rw [if_pos e2]; exact h.grand p b e2 hp
    · rw [if_neg e2]; exact h.ord p a b e1 e2
  · intro c a b
    simp only [Buf.set_get]
    by_cases e1 : c = pos
    · rw [if_pos e1]; exact hlt.le
    · rw [if_neg e1]
      refine le_trans hlt.le ?_
      rw [← b]
      exact h.ord c (by omega) a e1 (by omega)
  · intro c a b e
    simp only [Buf.set_get]
    rw [if_neg (show pos / 2 / 2 ≠ pos by omega)]
    have k := h.ord (pos / 2) e (by omega) (by omega) (by omega)
    by_cases e1 : c = pos
    · rw [if_pos e1]; exact k
    · rw [if_neg e1]
      refine le_trans k ?_
      have := h.ord c (by omega) a e1 (by omega)
      rwa [b] at this

theorem upLoop_runs {d : Buf (D R)} {n ql j : Nat} {dj : D R} (hd : d.size = n + 1) (hn : ql ≤ n) (f : Nat) :
    ∀ {pos : Nat} {q l : Buf Nat}, q.size = n + 1 → l.size = n + 1 → Hole q l n ql pos j → OrdUp d q ql pos dj → 2 ≤ pos → pos ≤ f →
    Runs (upLoop d dj f pos q l) fun r => Moved q l r.2.1 r.2.2 ql pos r.1 ∧ Hole r.2.1 r.2.2 n ql r.1 j ∧ OrdUp d r.2.1 ql r.1 dj ∧
      (r.1 = 1 ∨ (2 ≤ r.1 ∧ d.get (r.2.1.get (r.1 / 2)) ≤ dj)) := by
  induction f with
  | zero => intro pos q l _ _ _ _ h1 h2; omega
  | succ f ih =>
    intro pos q l hq hl hH hO h1 h2
    have hp2 := hH.p2
    have hph := hH.at_ (pos / 2) (by omega) (by omega) (by omega)
    unfold upLoop
    simp only [runs_bind, runs_rd1, runs_ite, runs_wr1, runs_pure]
    refine ⟨by omega, by omega, by omega, by omega, ?_⟩
    split
    · rename_i hc
      exact ⟨Moved.refl _ _ _ _, hH, hO, Or.inr ⟨h1, hc⟩⟩
    · rename_i hc
      rw [not_le] at hc
      refine ⟨by omega, by omega, by omega, by omega, ?_⟩
      obtain ⟨m1, m2⟩ := moved_step hH (show 1 ≤ pos / 2 by omega) (by omega) (show pos / 2 ≠ pos by omega)
      have o1 := ordUp_step hO h1 hp2 hc
      split
      · rename_i hs
        exact ⟨m1, m2, o1, Or.inl (by omega)⟩
      · rename_i hs
        refine (ih (by simpa using hq) (by simpa using hl) m2 o1 (by omega) (by omega)).mono ?_
        rintro r ⟨k1, k2, k3, k4⟩
        exact ⟨m1.trans k1, k2, k3, k4⟩

/-- Result of a heap routine: `P` says which rows are in the heap now. -/
structure Done (d : Buf (D R)) (q l q' l' : Buf Nat) (n ql : Nat) (P : Nat → Prop) : Prop where
  qsz : q'.size = q.size
  lsz : l'.size = l.size
  heap : Heap d q' l' n ql
  mem : ∀ r, Mem q' ql r ↔ P r
  qout : ∀ p, p = 0 ∨ ql < p → q'.get p = q.get p
  lout : ∀ r, ¬ P r → l'.get r = l.get r

theorem fill_cons {q l : Buf Nat} {n ql pos j : Nat} (h : Hole q l n ql pos j) :
    (∀ p, 1 ≤ p → p ≤ ql → 1 ≤ (q.set pos j).get p ∧ (q.set pos j).get p ≤ n) ∧
    (∀ p, 1 ≤ p → p ≤ ql → (l.set j pos).get ((q.set pos j).get p) = p) := by
  constructor
  · intro p a b
    simp only [Buf.set_get]
    by_cases e : p = pos
    · rw [if_pos e]; exact ⟨h.j1, h.j2⟩
    · rw [if_neg e]; exact ⟨(h.at_ p a b e).1, (h.at_ p a b e).2.1⟩
  · intro p a b
    simp only [Buf.set_get]
    by_cases e : p = pos
    · rw [if_pos e, if_pos rfl]; exact e.symm
    · rw [if_neg e, if_neg (h.at_ p a b e).2.2.1]; exact (h.at_ p a b e).2.2.2

theorem fill_up {d : Buf (D R)} {q l : Buf Nat} {n ql pos j : Nat} (h : Hole q l n ql pos j) (o : OrdUp d q ql pos (d.get j))
    (hs : pos = 1 ∨ (2 ≤ pos ∧ d.get (q.get (pos / 2)) ≤ d.get j)) : Heap d (q.set pos j) (l.set j pos) n ql := by
  refine ⟨(fill_cons h).1, (fill_cons h).2, ?_⟩
  intro p a b
  simp only [Buf.set_get]
  by_cases e : p = pos
  · rw [if_pos e, if_neg (by omega)]
    rcases hs with hs | hs
    · omega
    · rw [e]; exact hs.2
  · rw [if_neg e]
    by_cases e2 : p / 2 = pos
    · rw [if_pos e2]; exact o.kids p b e2
    · rw [if_neg e2]; exact o.ord p a b e e2

theorem fill_down {d : Buf (D R)} {q l : Buf Nat} {n ql pos j : Nat} (h : Hole q l n ql pos j) (o : OrdDown d q ql pos (d.get j))
    (hs : ∀ c, c ≤ ql → c / 2 = pos → d.get j ≤ d.get (q.get c)) : Heap d (q.set pos j) (l.set j pos) n ql := by
  refine ⟨(fill_cons h).1, (fill_cons h).2, ?_⟩
  intro p a b
  simp only [Buf.set_get]
  by_cases e : p = pos
  · rw [if_pos e, if_neg (by omega), e]; exact o.parent (by omega)
  · rw [if_neg e]
    by_cases e2 : p / 2 = pos
    · rw [if_pos e2]; exact hs p b e2
    · rw [if_neg e2]; exact o.ord p a b e e2

theorem fill_done {d : Buf (D R)} {q l q' l' : Buf Nat} {n ql pos pos' j : Nat} {P : Nat → Prop} (hm : Moved q l q' l' ql pos pos')
    (hH : Hole q' l' n ql pos' j) (hh : Heap d (q'.set pos' j) (l'.set j pos') n ql)
    (hP : ∀ r, P r ↔ r = j ∨ ∃ p, 1 ≤ p ∧ p ≤ ql ∧ p ≠ pos ∧ q.get p = r) :
    Done d q l (q'.set pos' j) (l'.set j pos') n ql P := by
  have a1 := hH.p1
  have a2 := hH.p2
  refine ⟨hm.qsz, hm.lsz, hh, ?_, ?_, ?_⟩
  · intro r
    rw [hP, ← hm.mem]
    simp only [Mem, Buf.set_get]
    constructor
    · rintro ⟨p, a, b, e⟩
      by_cases c : p = pos'
      · rw [if_pos c] at e; exact Or.inl e.symm
      · rw [if_neg c] at e; exact Or.inr ⟨p, a, b, c, e⟩
    · rintro (e | ⟨p, a, b, c, e⟩)
      · exact ⟨pos', a1, a2, by rw [if_pos rfl]; exact e.symm⟩
      · exact ⟨p, a, b, by rw [if_neg c]; exact e⟩
  · intro p hp
    simp only [Buf.set_get]
    rw [if_neg (by omega)]; exact hm.qout p hp
  · intro r hr
    rw [hP] at hr
    simp only [Buf.set_get]
    rw [if_neg (fun e => hr (Or.inl e))]
    exact hm.lout r (fun e => hr (Or.inr e))

/-- `kernel_`: the node `j`, at position `pos`, goes to its place. -/
theorem heapUp_runs {d : Buf (D R)} {q l : Buf Nat} {n ql pos j : Nat} (hd : d.size = n + 1) (hq : q.size = n + 1) (hl : l.size = n + 1)
    (hn : ql ≤ n) (hH : Hole q l n ql pos j) (hlj : l.get j = pos) (hO : OrdUp d q ql pos (d.get j)) :
    Runs (heapUp j n d q l) fun r =>
      Done d q l r.1 r.2 n ql (fun r => r = j ∨ ∃ p, 1 ≤ p ∧ p ≤ ql ∧ p ≠ pos ∧ q.get p = r) := by
  have a1 := hH.p1
  have a2 := hH.p2
  have a3 := hH.j1
  have a4 := hH.j2
  unfold heapUp
  simp only [runs_bind, runs_rd1]
  refine ⟨by omega, by omega, ?_⟩
  rw [hlj]
  by_cases hp : 1 < pos
  · rw [if_pos hp]
    simp only [runs_bind, runs_rd1]
    refine ⟨by omega, by omega, ?_⟩
    refine (upLoop_runs hd hn n hq hl hH hO hp (by omega)).mono ?_
    rintro ⟨p', q', l'⟩ ⟨k1, k2, k3, k4⟩
    simp only at k1 k2 k3 k4 ⊢
    have b1 := k2.p1
    have b2 := k2.p2
    have s1 := k1.qsz
    have s2 := k1.lsz
    simp only [runs_wr1, runs_pure]
    exact ⟨by omega, by omega, by omega, by omega, fill_done k1 k2 (fill_up k2 k3 k4) (fun _ => Iff.rfl)⟩
  · rw [if_neg hp]
    simp only [runs_pure, runs_wr1]
    exact ⟨by omega, by omega, by omega, by omega,
      fill_done (Moved.refl _ _ _ _) hH (fill_up hH hO (Or.inl (by omega))) (fun _ => Iff.rfl)⟩

theorem child_runs {d : Buf (D R)} {q : Buf Nat} {n ql p2 : Nat} (hd : d.size = n + 1) (hq : q.size = n + 1) (hn : ql ≤ n)
    (hr : ∀ p, p2 ≤ p → p ≤ ql → 1 ≤ q.get p ∧ q.get p ≤ n) (h1 : 1 ≤ p2) (h2 : p2 ≤ ql) :
    Runs (child d q ql p2) fun r => (r.1 = p2 ∨ r.1 = p2 + 1) ∧ r.1 ≤ ql ∧ r.2 = d.get (q.get r.1) ∧
      ∀ c, c ≤ ql → (c = p2 ∨ c = p2 + 1) → r.2 ≤ d.get (q.get c) := by
  have k1 := hr p2 le_rfl h2
  unfold child
  simp only [runs_bind, runs_rd1, runs_ite, runs_pure]
  refine ⟨by omega, by omega, by omega, by omega, ?_⟩
  split
  · rename_i hc
    have k2 := hr (p2 + 1) (by omega) (by omega)
    refine ⟨by omega, by omega, by omega, by omega, ?_⟩
    split
    · rename_i hlt
      refine ⟨Or.inr rfl, by show p2 + 1 ≤ ql; omega, rfl, ?_⟩
      rintro c hc (rfl | rfl)
      · exact hlt.le
      · exact le_rfl
    · rename_i hlt
      rw [not_lt] at hlt
      refine ⟨Or.inl rfl, h2, rfl, ?_⟩
      rintro c hc (rfl | rfl)
      · exact le_rfl
      · exact hlt
  · rename_i hc
    refine ⟨Or.inl (by tt), h2, by tt, ?_⟩
    rintro c hc (rfl | rfl)
    · exact le_rfl
    · omega

theorem ordDown_step {d : Buf (D R)} {q : Buf Nat} {ql pos c : Nat} {dj : D R} (h : OrdDown d q ql pos dj) (hp : 1 ≤ pos)
    (hc : c / 2 = pos) (hcl : c ≤ ql) (hlt : d.get (q.get c) < dj)
    (hmin : ∀ x, x ≤ ql → x / 2 = pos → d.get (q.get c) ≤ d.get (q.get x)) :
    OrdDown d (q.set pos (q.get c)) ql c dj := by
  refine ⟨?_, ?_, ?_⟩
  · intro p a b e1 e2
    simp only [Buf.set_get]
    by_cases e3 : p = pos
    · rw [if_pos e3, if_neg (show p / 2 ≠ pos by omega), e3]
      exact h.grand c hcl hc (by omega)
    · rw [if_neg e3]
      by_cases e4 : p / 2 = pos
      · rw [if_pos e4]; exact hmin p b e4
      · rw [if_neg e4]; exact h.ord p a b e3 e4
  · intro a
    simp only [Buf.set_get]
    rw [if_pos hc]; exact hlt.le
  · intro x a b e
    simp only [Buf.set_get]
    rw [if_pos hc, if_neg (show x ≠ pos by omega)]
    have := h.ord x (by omega) a (by omega) (by omega)
    rwa [b] at this

theorem downLoop_runs {d : Buf (D R)} {n ql j : Nat} {dj : D R} (hd : d.size = n + 1) (hn : ql ≤ n) (f : Nat) :
    ∀ {pos : Nat} {q l : Buf Nat}, q.size = n + 1 → l.size = n + 1 → Hole q l n ql pos j → OrdDown d q ql pos dj → ql + 1 ≤ f + pos →
    Runs (downLoop d dj ql f pos q l) fun r => Moved q l r.2.1 r.2.2 ql pos r.1 ∧ Hole r.2.1 r.2.2 n ql r.1 j ∧ OrdDown d r.2.1 ql r.1 dj ∧
      ∀ c, c ≤ ql → c / 2 = r.1 → dj ≤ d.get (r.2.1.get c) := by
  induction f with
  | zero =>
    intro pos q l _ _ h1 _ h2
    have := h1.p2; omega
  | succ f ih =>
    intro pos q l hq hl hH hO h2
    have a1 := hH.p1
    have a2 := hH.p2
    unfold downLoop
    simp only [runs_ite, runs_pure]
    split
    · rename_i hc
      exact ⟨Moved.refl _ _ _ _, hH, hO, fun c hc1 hc2 => by omega⟩
    · rename_i hc
      rw [runs_bind]
      refine (child_runs hd hq hn (fun p hp hp' => by
        have := hH.at_ p (by omega) hp' (by omega); exact ⟨this.1, this.2.1⟩) (show 1 ≤ 2 * pos by omega) (by omega)).mono ?_
      rintro ⟨c, dc⟩ ⟨k1, k2, k3, k4⟩
      simp only at k1 k2 k3 k4 ⊢
      have hkid : ∀ x, x ≤ ql → x / 2 = pos → dc ≤ d.get (q.get x) := fun x hx hx' => k4 x hx (by omega)
      simp only [runs_ite, runs_pure, runs_bind, runs_rd1, runs_wr1]
      split
      · rename_i hle
        exact ⟨Moved.refl _ _ _ _, hH, hO, fun x hx hx' => le_trans hle (hkid x hx hx')⟩
      · rename_i hle
        rw [not_le] at hle
        have hcc := hH.at_ c (by omega) k2 (by omega)
        refine ⟨by omega, by omega, by omega, by omega, by omega, by omega, ?_⟩
        obtain ⟨m1, m2⟩ := moved_step hH (show 1 ≤ c by omega) k2 (show c ≠ pos by omega)
        have o1 := ordDown_step hO a1 (show c / 2 = pos by omega) k2 (by rw [← k3]; exact hle) (fun x hx hx' => by rw [← k3]; exact hkid x hx hx')
        refine (ih (by simpa using hq) (by simpa using hl) m2 o1 (by omega)).mono ?_
        rintro r ⟨x1, x2, x3, x4⟩
        exact ⟨m1.trans x1, x2, x3, x4⟩

/-- `kernel__`: the root is deleted. -/
theorem popRoot_runs {d : Buf (D R)} {q l : Buf Nat} {n ql : Nat} (hd : d.size = n + 1) (hq : q.size = n + 1) (hl : l.size = n + 1)
    (hn : ql ≤ n) (h1 : 1 ≤ ql) (h : Heap d q l n ql) :
    Runs (popRoot ql n d q l) fun r => Done d q l r.1 r.2 n (ql - 1) (fun x => Mem q ql x ∧ x ≠ q.get 1) := by
  have hj := h.rng ql h1 le_rfl
  unfold popRoot
  simp only [runs_bind, runs_rd1]
  refine ⟨by omega, by omega, by omega, by omega, ?_⟩
  have inj : ∀ p p', 1 ≤ p → p ≤ ql → 1 ≤ p' → p' ≤ ql → q.get p = q.get p' → p = p' := by
    intro p p' a b a' b' e
    rw [← h.pos p a b, e, h.pos p' a' b']
  by_cases h2 : ql = 1
  · subst h2
    have e0 : downLoop d (d.get (q.get 1)) (1 - 1) n 1 q l = pure (1, q, l) := by
      obtain ⟨n', rfl⟩ : ∃ n', n = n' + 1 := ⟨n - 1, by omega⟩
      simp [downLoop]
    rw [e0]
    simp only [runs_pure, runs_wr1]
    refine ⟨by omega, by omega, by omega, by omega, ?_⟩
    have hq1 : ∀ p, (q.set 1 (q.get 1)).get p = q.get p := by
      intro p; simp only [Buf.set_get]; split <;> simp_all
    have hl1 : ∀ r, (l.set (q.get 1) 1).get r = l.get r := by
      intro r; simp only [Buf.set_get]; split
      · rename_i e; rw [e]; exact (h.pos 1 le_rfl le_rfl).symm
      · rfl
    refine ⟨rfl, rfl, ⟨fun p a b => by omega, fun p a b => by omega, fun p a b => by omega⟩, ?_, fun p _ => hq1 p, fun r _ => hl1 r⟩
    intro r
    constructor
    · rintro ⟨p, a, b, _⟩; omega
    · rintro ⟨⟨p, a, b, e⟩, c⟩
      exact absurd (by rw [← e]; congr 1; omega) c
  · have hH : Hole q l n (ql - 1) 1 (q.get ql) := by
      refine ⟨le_rfl, by omega, hj.1, hj.2, ?_⟩
      intro p a b c
      have := h.rng p a (by omega)
      exact ⟨this.1, this.2, fun e => by have := inj p ql a (by omega) h1 le_rfl e; omega, h.pos p a (by omega)⟩
    have hO : OrdDown d q (ql - 1) 1 (d.get (q.get ql)) :=
      ⟨fun p a b _ _ => h.ord p a (by omega), fun a => by omega, fun c a b e => by omega⟩
    refine (downLoop_runs hd (by omega) n hq hl hH hO (by omega)).mono ?_
    rintro ⟨p', q', l'⟩ ⟨k1, k2, k3, k4⟩
    simp only at k1 k2 k3 k4 ⊢
    have b1 := k2.p1
    have b2 := k2.p2
    have s1 := k1.qsz
    have s2 := k1.lsz
    simp only [runs_wr1, runs_pure]
    refine ⟨by omega, by omega, by omega, by omega, fill_done k1 k2 (fill_down k2 k3 k4) ?_⟩
    intro r
    constructor
    · rintro ⟨⟨p, a, b, e⟩, c⟩
      by_cases e2 : p = ql
      · left; rw [← e, e2]
      · right; exact ⟨p, a, by omega, fun e3 => c (by rw [← e, e3]), e⟩
    · rintro (e | ⟨p, a, b, c, e⟩)
      · exact ⟨⟨ql, h1, le_rfl, e.symm⟩, fun e3 => by have := inj ql 1 h1 le_rfl le_rfl h1 (by rw [← e, e3]); omega⟩
      · exact ⟨⟨p, a, by omega, e⟩, fun e3 => c (inj p 1 a (by omega) le_rfl h1 (by rw [e, e3]))⟩

/-- `kernel___`: the node at `pos` is deleted.  Its key may already have been changed. -/
theorem removeAt_runs {d : Buf (D R)} {q l : Buf Nat} {n ql pos : Nat} (hd : d.size = n + 1) (hq : q.size = n + 1) (hl : l.size = n + 1)
    (hn : ql ≤ n) (h1 : 1 ≤ pos) (h2 : pos ≤ ql) (hr : ∀ p, 1 ≤ p → p ≤ ql → 1 ≤ q.get p ∧ q.get p ≤ n)
    (hp : ∀ p, 1 ≤ p → p ≤ ql → l.get (q.get p) = p)
    (ho : ∀ p, 2 ≤ p → p ≤ ql → p ≠ pos → p / 2 ≠ pos → d.get (q.get (p / 2)) ≤ d.get (q.get p))
    (hg : ∀ c, c ≤ ql → c / 2 = pos → 2 ≤ pos → d.get (q.get (pos / 2)) ≤ d.get (q.get c)) :
    Runs (removeAt pos ql n d q l) fun r => Done d q l r.1 r.2 n (ql - 1) (fun x => Mem q ql x ∧ x ≠ q.get pos) := by
  have hj := hr ql (by omega) le_rfl
  have inj : ∀ p p', 1 ≤ p → p ≤ ql → 1 ≤ p' → p' ≤ ql → q.get p = q.get p' → p = p' := by
    intro p p' a b a' b' e
    rw [← hp p a b, e, hp p' a' b']
  unfold removeAt
  rw [runs_ite]
  split
  · rename_i he
    rw [runs_pure]
    refine ⟨rfl, rfl, ⟨fun p a b => hr p a (by omega), fun p a b => hp p a (by omega), ?_⟩, ?_, fun _ _ => rfl, fun _ _ => rfl⟩
    · intro p a b; exact ho p a (by omega) (by omega) (by omega)
    · intro r
      constructor
      · rintro ⟨p, a, b, e⟩
        exact ⟨⟨p, a, by omega, e⟩, fun e3 => by have := inj p pos a (by omega) h1 h2 (by rw [e, e3]); omega⟩
      · rintro ⟨⟨p, a, b, e⟩, c⟩
        exact ⟨p, a, by
          have : p ≠ ql := fun e2 => c (by rw [← e, e2, he])
          omega, e⟩
  · rename_i he
    have hP : ∀ r, (Mem q ql r ∧ r ≠ q.get pos) ↔ r = q.get ql ∨ ∃ p, 1 ≤ p ∧ p ≤ ql - 1 ∧ p ≠ pos ∧ q.get p = r := by
      intro r
      constructor
      · rintro ⟨⟨p, a, b, e⟩, c⟩
        by_cases e2 : p = ql
        · left; rw [← e, e2]
        · right; exact ⟨p, a, by omega, fun e3 => c (by rw [← e, e3]), e⟩
      · rintro (e | ⟨p, a, b, c, e⟩)
        · exact ⟨⟨ql, by omega, le_rfl, e.symm⟩, fun e3 => he (inj ql pos (by omega) le_rfl h1 h2 (by rw [← e, e3]))⟩
        · exact ⟨⟨p, a, by omega, e⟩, fun e3 => c (inj p pos a (by omega) h1 h2 (by rw [e, e3]))⟩
    have hH : Hole q l n (ql - 1) pos (q.get ql) := by
      refine ⟨h1, by omega, hj.1, hj.2, ?_⟩
      intro p a b c
      have := hr p a (by omega)
      exact ⟨this.1, this.2, fun e => by have := inj p ql a (by omega) (by omega) le_rfl e; omega, hp p a (by omega)⟩
    -- the case in which the last node does not move up
    have stay : (2 ≤ pos → d.get (q.get (pos / 2)) ≤ d.get (q.get ql)) →
        Runs (do
          let q' ← wr1 q pos (q.get ql)
          let l' ← wr1 l (q.get ql) pos
          let r ← downLoop d (d.get (q.get ql)) (ql - 1) n pos q' l'
          let q'' ← wr1 r.2.1 r.1 (q.get ql)
          let l'' ← wr1 r.2.2 (q.get ql) r.1
          pure (q'', l'')) fun r => Done d q l r.1 r.2 n (ql - 1) (fun x => Mem q ql x ∧ x ≠ q.get pos) := by
      intro hpar
      simp only [runs_bind, runs_wr1, runs_pure]
      refine ⟨by omega, by omega, by omega, by omega, ?_⟩
      have hH' : Hole (q.set pos (q.get ql)) (l.set (q.get ql) pos) n (ql - 1) pos (q.get ql) := by
        refine ⟨h1, by omega, hj.1, hj.2, ?_⟩
        intro p a b c
        have := hH.at_ p a b c
        simp only [Buf.set_get]
        rw [if_neg c, if_neg this.2.2.1]; exact this
      have hO : OrdDown d (q.set pos (q.get ql)) (ql - 1) pos (d.get (q.get ql)) := by
        refine ⟨?_, ?_, ?_⟩
        · intro p a b e1 e2
          simp only [Buf.set_get]; rw [if_neg e1, if_neg e2]; exact ho p a (by omega) e1 e2
        · intro a; simp only [Buf.set_get]; rw [if_neg (by omega)]; exact hpar a
        · intro c a b e
          simp only [Buf.set_get]; rw [if_neg (by omega), if_neg (by omega)]; exact hg c (by omega) b e
      refine (downLoop_runs hd (by omega) n (by simpa using hq) (by simpa using hl) hH' hO (by omega)).mono ?_
      rintro ⟨p', q', l'⟩ ⟨k1, k2, k3, k4⟩
      simp only at k1 k2 k3 k4 ⊢
      have b1 := k2.p1
      have b2 := k2.p2
      have s1 := k1.qsz
      have s2 := k1.lsz
      simp only [Buf.set_size] at s1 s2
      refine ⟨by omega, by omega, by omega, by omega, ?_⟩
      have D1 := fill_done (P := fun x => Mem q ql x ∧ x ≠ q.get pos) k1 k2 (fill_down k2 k3 k4) (fun r => by
        rw [hP]
        refine or_congr Iff.rfl (exists_congr fun p => ?_)
        simp only [Buf.set_get]
        constructor
        · rintro ⟨a, b, c, e⟩; exact ⟨a, b, c, by rw [if_neg c]; exact e⟩
        · rintro ⟨a, b, c, e⟩; rw [if_neg c] at e; exact ⟨a, b, c, e⟩)
      refine ⟨D1.qsz, D1.lsz, D1.heap, D1.mem, ?_, ?_⟩
      · intro p hp'
        rw [D1.qout p hp']
        simp only [Buf.set_get]; rw [if_neg (by omega)]
      · intro r hr'
        rw [D1.lout r hr']
        simp only [Buf.set_get]; rw [if_neg]
        intro e; exact hr' ((hP r).2 (Or.inl e))
    simp only [runs_bind, runs_rd1]
    refine ⟨by omega, by omega, by omega, by omega, ?_⟩
    by_cases h3 : 1 < pos
    · rw [if_pos h3]
      by_cases hle : d.get (q.get (pos / 2)) ≤ d.get (q.get ql)
      · have e0 : upLoop d (d.get (q.get ql)) n pos q l = pure (pos, q, l) := by
          obtain ⟨n', rfl⟩ : ∃ n', n = n' + 1 := ⟨n - 1, by omega⟩
          have c1 := hr (pos / 2) (by omega) (by omega)
          unfold upLoop
          simp only [rd1, Buf.rd]
          rw [if_neg (by omega), if_pos (by omega)]
          simp only [pure_bind]
          rw [if_neg (by omega), if_pos (by omega)]
          simp only [pure_bind]
          rw [if_pos hle]
        rw [e0, runs_pure]
        simp only [ne_eq, not_true_eq_false, if_false]
        have := stay (fun _ => hle)
        simpa only [runs_bind] using this
      · rw [not_le] at hle
        have hO : OrdUp d q (ql - 1) pos (d.get (q.get ql)) := by
          refine ⟨fun p a b e1 e2 => ho p a (by omega) e1 e2, ?_, fun c a b e => hg c (by omega) b e⟩
          intro c a b
          exact le_trans hle.le (hg c (by omega) b h3)
        refine Runs.mono (P := fun r => (Moved q l r.2.1 r.2.2 (ql - 1) pos r.1 ∧ Hole r.2.1 r.2.2 n (ql - 1) r.1 (q.get ql) ∧
          OrdUp d r.2.1 (ql - 1) r.1 (d.get (q.get ql)) ∧ (r.1 = 1 ∨ (2 ≤ r.1 ∧ d.get (r.2.1.get (r.1 / 2)) ≤ d.get (q.get ql)))) ∧ r.1 ≠ pos) ?_ ?_
        · obtain ⟨n', rfl⟩ : ∃ n', n = n' + 1 := ⟨n - 1, by omega⟩
          have c1 := hH.at_ (pos / 2) (by omega) (by omega) (by omega)
          unfold upLoop
          simp only [runs_bind, runs_rd1, runs_ite, runs_wr1, runs_pure]
          refine ⟨by omega, by omega, by omega, by omega, ?_⟩
          rw [if_neg (not_le.2 hle)]
          refine ⟨by omega, by omega, by omega, by omega, ?_⟩
          obtain ⟨m1, m2⟩ := moved_step hH (show 1 ≤ pos / 2 by omega) (by omega) (show pos / 2 ≠ pos by omega)
          have o1 := ordUp_step hO h3 (by omega) hle
          split
          · rename_i hs
            exact ⟨⟨m1, m2, o1, Or.inl (by omega)⟩, by omega⟩
          · rename_i hs
            have key : ∀ (f : Nat) {p : Nat} {q0 l0 : Buf Nat} (dj : D R), Runs (upLoop d dj f p q0 l0) (fun _ => True) →
                Runs (upLoop d dj f p q0 l0) (fun r => r.1 ≤ p) := by
              intro f
              induction f with
              | zero => intro p q0 l0 dj _; simp [upLoop]
              | succ f ih =>
                intro p q0 l0 dj h
                unfold upLoop at h ⊢
                simp only [runs_bind, runs_rd1, runs_ite, runs_wr1, runs_pure] at h ⊢
                obtain ⟨t1, t2, t3, t4, h⟩ := h
                refine ⟨t1, t2, t3, t4, ?_⟩
                split
                · exact le_rfl
                · rename_i hh
                  rw [if_neg hh] at h
                  obtain ⟨t1, t2, t3, t4, h⟩ := h
                  refine ⟨t1, t2, t3, t4, ?_⟩
                  split
                  · show p / 2 ≤ p; omega
                  · rename_i hh'
                    rw [if_neg hh'] at h
                    exact (ih dj h).mono fun r hr => by omega
            have A := upLoop_runs (dj := d.get (q.get ql)) hd (show ql - 1 ≤ n' + 1 by omega) n' (by simpa using hq) (by simpa using hl) m2 o1 (by omega) (by omega)
            refine (A.and (key _ _ (A.mono fun _ _ => trivial))).mono ?_
            rintro r ⟨⟨k1, k2, k3, k4⟩, k5⟩
            exact ⟨⟨m1.trans k1, k2, k3, k4⟩, by omega⟩
        · rintro ⟨p', q', l'⟩ ⟨⟨k1, k2, k3, k4⟩, k5⟩
          simp only at k1 k2 k3 k4 k5 ⊢
          have b1 := k2.p1
          have b2 := k2.p2
          have s1 := k1.qsz
          have s2 := k1.lsz
          simp only [runs_wr1]
          refine ⟨by omega, by omega, by omega, by omega, ?_⟩
          rw [if_pos k5, runs_pure]
          exact fill_done k1 k2 (fill_up k2 k3 k4) hP
    · rw [if_neg h3, runs_pure]
      simp only [ne_eq, not_true_eq_false, if_false]
      have := stay (fun a => by omega)
      simpa only [runs_bind] using this

end Mc64
end Hif
