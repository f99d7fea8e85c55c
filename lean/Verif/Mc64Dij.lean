import Verif.Mc64Lay

set_option linter.unusedVariables false
set_option linter.unusedSectionVars false

/-!
# The weighted matching: the search for an augmenting path

A search keeps distances of rows; the distances of the rows at the end of the second list are final.
-/

namespace Hif
namespace Mc64
variable {R : Type} [Field R] [LinearOrder R] [IsStrictOrderedRing R]

/-- Column `j` is reached with distance `b`: it is the first column, or the column of a row with a final distance whose position is above `x`. -/
def Reach (A : Mat R) (v : Nat → R) (jord : Nat) (w : W R) (x j : Nat) (b : R) : Prop :=
  (j = jord ∧ b = 0) ∨ ∃ r, 1 ≤ r ∧ r ≤ A.n ∧ w.up ≤ w.c.l.get r ∧ x < w.c.l.get r ∧ w.c.iperm.get r = j ∧
    w.c.d.get r = ((b + rc A v (w.c.jperm.get j) : R) : D R)

/-- The distance `x` of row `i` is accounted for. -/
def Rel (w : W R) (x : R) (i : Nat) : Prop := w.csp ≤ (x : D R) ∨ (w.c.iperm.get i ≠ 0 ∧ w.c.d.get i ≤ (x : D R))

/-- Meaning of the variables of a search; the entries `P` have not been looked at. -/
structure Sem (A : Mat R) (v : Nat → R) (jord : Nat) (P : Nat → Nat → Prop) (w : W R) : Prop where
  prj : w.c.pr.get jord = 0
  tree : ∀ i, 1 ≤ i → i ≤ A.n → w.c.l.get i ≠ 0 → ∃ b x, Reach A v jord w x (w.c.pr.get (w.c.iperm.get i)) b ∧ (w.up ≤ w.c.l.get i → w.c.l.get i ≤ x) ∧
    A.col (w.c.pr.get (w.c.iperm.get i)) (w.c.out.get (w.c.iperm.get i)) ∧ A.irn.get (w.c.out.get (w.c.iperm.get i)) = i ∧
    w.c.d.get i = ((b + rc A v (w.c.out.get (w.c.iperm.get i)) : R) : D R)
  best : w.csp = ⊤ ∨ ∃ b, Reach A v jord w 0 w.jsp b ∧ A.col w.jsp w.isp ∧ w.c.iperm.get (A.irn.get w.isp) = 0 ∧
    w.csp = ((b + rc A v w.isp : R) : D R)
  rlx : ∀ j b, Reach A v jord w 0 j b → ∀ k, A.col j k → ¬ P j k → Rel w (b + rc A v k) (A.irn.get k)
  finc : ∀ i, 1 ≤ i → i ≤ A.n → w.up ≤ w.c.l.get i → w.c.d.get i ≤ w.csp

/-- The assignment does not change during a search. -/
structure SameM (c c' : St R) : Prop where
  ip : c'.iperm = c.iperm
  jp : c'.jperm = c.jperm
  u : c'.u = c.u
  num : c'.num = c.num

theorem SameM.refl (c : St R) : SameM c c := ⟨rfl, rfl, rfl, rfl⟩

theorem SameM.trans {a b c : St R} (h : SameM a b) (h' : SameM b c) : SameM a c :=
  ⟨h'.ip.trans h.ip, h'.jp.trans h.jp, h'.u.trans h.u, h'.num.trans h.num⟩

/-- The state with which a search starts. -/
structure Idle (A : Mat R) (ne : Nat) (v : Nat → R) (c : St R) : Prop extends Core A ne v c where
  d : ∀ i, 1 ≤ i → i ≤ A.n → c.d.get i = ⊤
  l : ∀ i, 1 ≤ i → i ≤ A.n → c.l.get i = 0

/-- A state of the search. -/
structure Inv (A : Mat R) (ne : Nat) (v : Nat → R) (jord : Nat) (c0 : St R) (pend : Nat → Prop) (P : Nat → Nat → Prop) (w : W R) : Prop where
  core : Core A ne v w.c
  same : SameM c0 w.c
  lay : Lay A.n w.c.iperm pend w.c.d w.c.q w.c.l w.qlen w.low w.up w.dmin
  sem : Sem A v jord P w
  jo : 1 ≤ jord ∧ jord ≤ A.n ∧ w.c.jperm.get jord = 0

theorem Reach.up {A : Mat R} {v : Nat → R} {jord : Nat} {w : W R} {x x' j : Nat} {b : R} (h : Reach A v jord w x j b) (hx : x' ≤ x) :
    Reach A v jord w x' j b := by
  rcases h with h | ⟨r, a1, a2, a3, a4, a5, a6⟩
  · exact Or.inl h
  · exact Or.inr ⟨r, a1, a2, a3, by omega, a5, a6⟩

theorem Inv.fin {A : Mat R} {ne : Nat} {v : Nat → R} {jord : Nat} {c0 : St R} {pend : Nat → Prop} {P : Nat → Nat → Prop} {w : W R}
    (h : Inv A ne v jord c0 pend P w) {r : Nat} (h1 : 1 ≤ r) (h2 : r ≤ A.n) (h3 : w.c.l.get r ≠ 0) :
    w.c.iperm.get r ≠ 0 ∧ w.c.d.get r ≠ ⊤ ∧ w.c.l.get r ≤ A.n := by
  have a := h.lay.lab r h1 h2 h3
  have b := h.lay.at_ _ a.1
  rw [a.2] at b
  refine ⟨b.2.2.2.1, b.2.2.2.2, ?_⟩
  have := h.lay.ql
  have := h.lay.lu
  have := h.lay.un
  rcases a.1 with x | x <;> omega

theorem Inv.rng {A : Mat R} {ne : Nat} {v : Nat → R} {jord : Nat} {c0 : St R} {pend : Nat → Prop} {P : Nat → Nat → Prop} {w : W R}
    (h : Inv A ne v jord c0 pend P w) {x j : Nat} {b : R} (hr : Reach A v jord w x j b) : 1 ≤ j ∧ j ≤ A.n := by
  rcases hr with hr | ⟨r, a1, a2, a3, a4, a5, a6⟩
  · rw [hr.1]; exact ⟨h.jo.1, h.jo.2.1⟩
  · have := h.fin a1 a2 (by omega)
    have := h.core.mt.row r a1 a2 this.1
    rw [a5] at this; exact ⟨this.1, this.2.1⟩

/-- Reached columns do not get lost while rows without a final distance change. -/
theorem Reach.keep {A : Mat R} {v : Nat → R} {jord : Nat} {w w' : W R} (hup : w'.up = w.up) (hip : w'.c.iperm = w.c.iperm)
    (hjp : w'.c.jperm = w.c.jperm)
    (hl : ∀ r, 1 ≤ r → r ≤ A.n → w.up ≤ w.c.l.get r → w'.c.l.get r = w.c.l.get r ∧ w'.c.d.get r = w.c.d.get r) {x j : Nat} {b : R}
    (h : Reach A v jord w x j b) : Reach A v jord w' x j b := by
  rcases h with h | ⟨r, a1, a2, a3, a4, a5, a6⟩
  · exact Or.inl h
  · have := hl r a1 a2 a3
    exact Or.inr ⟨r, a1, a2, by rw [this.1, hup]; exact a3, by rw [this.1]; exact a4, by rw [hip]; exact a5, by rw [this.2, hjp]; exact a6⟩

/-- The row `i` of entry `k` of a reached column gets a new distance. -/
theorem Sem.step {A : Mat R} {v : Nat → R} {jord : Nat} {P : Nat → Nat → Prop} {w w' : W R} (h : Sem A v jord P w)
    (hup : w'.up = w.up) (hcsp : w'.csp = w.csp) (hisp : w'.isp = w.isp) (hjsp : w'.jsp = w.jsp) (hip : w'.c.iperm = w.c.iperm)
    (hjp : w'.c.jperm = w.c.jperm) (hup1 : 1 ≤ w.up) {i j k : Nat} {b : R} (h1 : 1 ≤ i) (h2 : i ≤ A.n) (hi : w.c.l.get i < w.up) (hm : w.c.iperm.get i ≠ 0)
    (hio : w.c.iperm.get i ≠ jord) (hinj : ∀ r, 1 ≤ r → r ≤ A.n → w.c.l.get r ≠ 0 → w.c.iperm.get r = w.c.iperm.get i → r = i)
    (hk : A.irn.get k = i) (hck : A.col j k)
    (hr : Reach A v jord w 0 j b) (hd1 : ∀ r, r ≠ i → w'.c.d.get r = w.c.d.get r) (hd2 : w'.c.d.get i = ((b + rc A v k : R) : D R))
    (hd3 : w'.c.d.get i ≤ w.c.d.get i) (hl : Lbl A.n w.up i w.c.l w'.c.l) (hout : w'.c.out = w.c.out.set (w.c.iperm.get i) k)
    (hpr : w'.c.pr = w.c.pr.set (w.c.iperm.get i) j) {P' : Nat → Nat → Prop}
    (hP : ∀ j' k', ¬ P' j' k' → ¬ P j' k' ∨ (k' = k ∧ ∀ b', Reach A v jord w 0 j' b' → b' = b)) : Sem A v jord P' w' := by
  have hkeep : ∀ r, 1 ≤ r → r ≤ A.n → w.up ≤ w.c.l.get r → w'.c.l.get r = w.c.l.get r ∧ w'.c.d.get r = w.c.d.get r := by
    intro r a1 a2 a3
    exact ⟨hl.keep r a1 a2 a3, hd1 r (fun e => by rw [e] at a3; omega)⟩
  have hback : ∀ r, 1 ≤ r → r ≤ A.n → w'.up ≤ w'.c.l.get r → w.c.l.get r = w'.c.l.get r ∧ w.c.d.get r = w'.c.d.get r := by
    intro r a1 a2 a3
    have e := hl.back r a1 a2 (by rw [← hup]; exact a3)
    exact ⟨e.symm, (hd1 r (fun e' => by rw [e'] at e a3; omega)).symm⟩
  have kf : ∀ {x j : Nat} {b : R}, Reach A v jord w x j b → Reach A v jord w' x j b := fun h => h.keep hup hip hjp hkeep
  have kb : ∀ {x j : Nat} {b : R}, Reach A v jord w' x j b → Reach A v jord w x j b := fun h => h.keep hup.symm hip.symm hjp.symm hback
  refine ⟨?_, ?_, ?_, ?_, ?_⟩
  · rw [hpr]; simp only [Buf.set_get]; rw [if_neg (fun e => hio e.symm)]; exact h.prj
  · intro r a1 a2 a3
    by_cases e : r = i
    · subst e
      rw [hip, hout, hpr]
      simp only [Buf.set_get, if_true]
      refine ⟨b, 0, kf hr, ?_, hck, hk, hd2⟩
      intro a4
      have := hl.back r a1 a2 (by rw [← hup]; exact a4)
      omega
    · have a3' : w.c.l.get r ≠ 0 := by
        rcases (hl.lab r a1 a2).1 a3 with x | x
        · exact x
        · exact absurd x e
      obtain ⟨b', x, c1, c2, c3, c4, c5⟩ := h.tree r a1 a2 a3'
      have hne : w.c.iperm.get r ≠ w.c.iperm.get i := fun e' => e (hinj r a1 a2 a3' e')
      rw [hip, hout, hpr]
      simp only [Buf.set_get]
      rw [if_neg hne, if_neg hne, hd1 r e]
      refine ⟨b', x, kf c1, ?_, c3, c4, c5⟩
      intro a4
      have := hl.back r a1 a2 (by rw [← hup]; exact a4)
      rw [this]; exact c2 (by rw [← this, ← hup]; exact a4)
  · rw [hcsp, hisp, hjsp, hip]
    rcases h.best with x | ⟨b', c1, c2, c3, c4⟩
    · exact Or.inl x
    · exact Or.inr ⟨b', kf c1, c2, c3, c4⟩
  · intro j' b' hr' k' hk' hp
    unfold Rel
    rw [hcsp, hip]
    rcases hP j' k' hp with hp | ⟨rfl, hp⟩
    · rcases h.rlx j' b' (kb hr') k' hk' hp with c | ⟨c1, c2⟩
      · exact Or.inl c
      · refine Or.inr ⟨c1, ?_⟩
        by_cases e : A.irn.get k' = i
        · rw [e] at c2 ⊢; exact le_trans hd3 c2
        · rw [hd1 _ e]; exact c2
    · rw [hp b' (kb hr'), hk]
      exact Or.inr ⟨hm, le_of_eq hd2⟩
  · intro r a1 a2 a3
    have := hback r a1 a2 a3
    rw [← this.2, hcsp]
    exact h.finc r a1 a2 (by rw [this.1, ← hup]; exact a3)

/-- A free row improves the best path. -/
theorem Sem.better {A : Mat R} {v : Nat → R} {jord : Nat} {P : Nat → Nat → Prop} {w w' : W R} (h : Sem A v jord P w)
    (hup : w'.up = w.up) (hc : w'.c = w.c) {b : R} (hcsp : w'.csp = ((b + rc A v w'.isp : R) : D R)) (hlt : w'.csp ≤ w.csp)
    (hr : Reach A v jord w 0 w'.jsp b) (hcol : A.col w'.jsp w'.isp) (hf : w.c.iperm.get (A.irn.get w'.isp) = 0)
    (hfin : ∀ i, 1 ≤ i → i ≤ A.n → w.up ≤ w.c.l.get i → w.c.d.get i ≤ w'.csp) {P' : Nat → Nat → Prop}
    (hP : ∀ j' k', ¬ P' j' k' → ¬ P j' k' ∨ (k' = w'.isp ∧ ∀ b', Reach A v jord w 0 j' b' → b' = b)) : Sem A v jord P' w' := by
  have hkeep : ∀ r, 1 ≤ r → r ≤ A.n → w.up ≤ w.c.l.get r → w'.c.l.get r = w.c.l.get r ∧ w'.c.d.get r = w.c.d.get r := by
    intro r _ _ _; rw [hc]; exact ⟨rfl, rfl⟩
  have hback : ∀ r, 1 ≤ r → r ≤ A.n → w'.up ≤ w'.c.l.get r → w.c.l.get r = w'.c.l.get r ∧ w.c.d.get r = w'.c.d.get r := by
    intro r _ _ _; rw [hc]; exact ⟨rfl, rfl⟩
  have kf : ∀ {x j : Nat} {b : R}, Reach A v jord w x j b → Reach A v jord w' x j b := fun h => h.keep hup (by rw [hc]) (by rw [hc]) hkeep
  have kb : ∀ {x j : Nat} {b : R}, Reach A v jord w' x j b → Reach A v jord w x j b := fun h => h.keep hup.symm (by rw [hc]) (by rw [hc]) hback
  refine ⟨by rw [hc]; exact h.prj, ?_, ?_, ?_, ?_⟩
  · intro r a1 a2 a3
    rw [hc] at a3 ⊢
    obtain ⟨b', x, c1, c2, c3⟩ := h.tree r a1 a2 a3
    exact ⟨b', x, kf c1, by rw [hup]; exact c2, c3⟩
  · rw [hc]; exact Or.inr ⟨b, kf hr, hcol, hf, hcsp⟩
  · intro j' b' hr' k' hk' hp
    unfold Rel
    rw [hc]
    rcases hP j' k' hp with hp2 | ⟨rfl, hp2⟩
    · rcases h.rlx j' b' (kb hr') k' hk' hp2 with c | c
      · exact Or.inl (le_trans hlt c)
      · exact Or.inr c
    · rw [hp2 b' (kb hr')]
      exact Or.inl (le_of_eq hcsp)
  · intro r a1 a2 a3
    rw [hc] at a3 ⊢
    exact hfin r a1 a2 (by rw [← hup]; exact a3)

/-- Entries that need not be followed. -/
theorem Sem.skip {A : Mat R} {v : Nat → R} {jord : Nat} {P P' : Nat → Nat → Prop} {w : W R} (h : Sem A v jord P w)
    (hP : ∀ j k, A.col j k → ¬ P' j k → ¬ P j k ∨ ∀ b, Reach A v jord w 0 j b → Rel w (b + rc A v k) (A.irn.get k)) : Sem A v jord P' w := by
  refine ⟨h.prj, h.tree, h.best, ?_, h.finc⟩
  intro j b hr k hk hp
  rcases hP j k hk hp with c | c
  · exact h.rlx j b hr k hk c
  · exact c b hr

/-- Rows without final distance change their places. -/
theorem Sem.move {A : Mat R} {v : Nat → R} {jord : Nat} {P : Nat → Nat → Prop} {w w' : W R} (h : Sem A v jord P w)
    (hup : w'.up = w.up) (hcsp : w'.csp = w.csp) (hisp : w'.isp = w.isp) (hjsp : w'.jsp = w.jsp) (hip : w'.c.iperm = w.c.iperm)
    (hjp : w'.c.jperm = w.c.jperm) (hd : w'.c.d = w.c.d) (hout : w'.c.out = w.c.out) (hpr : w'.c.pr = w.c.pr) {i : Nat}
    (hi : w.c.l.get i ≠ 0) (hl : Lbl A.n w.up i w.c.l w'.c.l) : Sem A v jord P w' := by
  have kf : ∀ {x j : Nat} {b : R}, Reach A v jord w x j b → Reach A v jord w' x j b := fun h => h.keep hup hip hjp
    (fun r a1 a2 a3 => ⟨hl.keep r a1 a2 a3, by rw [hd]⟩)
  have kb : ∀ {x j : Nat} {b : R}, Reach A v jord w' x j b → Reach A v jord w x j b := fun h => h.keep hup.symm hip.symm hjp.symm
    (fun r a1 a2 a3 => ⟨(hl.back r a1 a2 (by rw [← hup]; exact a3)).symm, by rw [hd]⟩)
  refine ⟨by rw [hpr]; exact h.prj, ?_, ?_, ?_, ?_⟩
  · intro r a1 a2 a3
    have a3' : w.c.l.get r ≠ 0 := by
      rcases (hl.lab r a1 a2).1 a3 with x | x
      · exact x
      · rw [x]; exact hi
    obtain ⟨b', x, c1, c2, c3⟩ := h.tree r a1 a2 a3'
    rw [hip, hout, hpr, hd]
    refine ⟨b', x, kf c1, ?_, c3⟩
    intro a4
    have := hl.back r a1 a2 (by rw [← hup]; exact a4)
    rw [this]; exact c2 (by rw [← this, ← hup]; exact a4)
  · rw [hcsp, hisp, hjsp, hip]
    rcases h.best with x | ⟨b', c1, c2, c3, c4⟩
    · exact Or.inl x
    · exact Or.inr ⟨b', kf c1, c2, c3, c4⟩
  · intro j' b' hr' k' hk' hp
    have := h.rlx j' b' (kb hr') k' hk' hp
    unfold Rel at this ⊢
    rw [hcsp, hip, hd]; exact this
  · intro r a1 a2 a3
    have := hl.back r a1 a2 (by rw [← hup]; exact a3)
    rw [hd, hcsp]
    exact h.finc r a1 a2 (by rw [← this, ← hup]; exact a3)

end Mc64
end Hif
