import Verif.Mc64Search

set_option linter.unusedVariables false
set_option linter.unusedSectionVars false

/-!
# The weighted matching: augmentation
-/

namespace Hif
namespace Mc64
variable {R : Type} [Field R] [LinearOrder R] [IsStrictOrderedRing R]

/-- Row values after a search whose best path has length `s`. -/
def newV (v : Nat → R) (w : W R) (s : R) (i : Nat) : R := if w.up ≤ w.c.l.get i then v i + val w.c.d i - s else v i

/-- `k` has the smallest reduced cost of column `j`. -/
def Opt (A : Mat R) (v : Nat → R) (j k : Nat) : Prop := ∀ k', A.col j k' → rc A v k ≤ rc A v k'

section
variable {A : Mat R} {ne : Nat} {v : Nat → R} {jord : Nat} {c0 : St R} {w : W R} {s : R}

theorem rc_fin (k : Nat) (h : w.up ≤ w.c.l.get (A.irn.get k)) : rc A (newV v w s) k = rc A v k - val w.c.d (A.irn.get k) + s := by
  unfold rc newV; rw [if_pos h]; linarith

theorem rc_not (k : Nat) (h : ¬ w.up ≤ w.c.l.get (A.irn.get k)) : rc A (newV v w s) k = rc A v k := by
  unfold rc newV; rw [if_neg h]

theorem reach_ge (hA : A.OK ne) (h : Inv A ne v jord c0 (fun _ => False) (fun _ _ => False) w) (hs : Stop A w) (hc : w.csp = (s : D R)) (hup : 1 ≤ w.up)
    {j : Nat} {b : R} (hr : Reach A v jord w 0 j b) {k : Nat} (hk : A.col j k) : s - b ≤ rc A (newV v w s) k := by
  have hj := h.rng hr
  have hrow := hA.col_row hj.1 hj.2 hk
  have hx := h.sem.rlx j b hr k hk (fun x => x)
  by_cases e : w.up ≤ w.c.l.get (A.irn.get k)
  · rw [rc_fin k e]
    have hf := h.fin hrow.1 hrow.2 (by omega)
    have hd := val_eq hf.2.1
    have hle : val w.c.d (A.irn.get k) ≤ b + rc A v k := by
      apply WithTop.coe_le_coe.1
      rw [← hd]
      rcases hx with x | x
      · exact le_trans (h.sem.finc _ hrow.1 hrow.2 e) x
      · exact x.2
    linarith
  · rw [rc_not k e]
    have hle : s ≤ b + rc A v k := by
      apply WithTop.coe_le_coe.1
      rw [← hc]
      rcases hx with x | x
      · exact x
      · exact le_trans (hs _ hrow.1 hrow.2 e) x.2
    linarith

theorem best_opt (hA : A.OK ne) (h : Inv A ne v jord c0 (fun _ => False) (fun _ _ => False) w) (hs : Stop A w) (hc : w.csp = (s : D R)) (hup : 1 ≤ w.up) :
    ∃ b, Reach A v jord w 0 w.jsp b ∧ A.col w.jsp w.isp ∧ w.c.iperm.get (A.irn.get w.isp) = 0 ∧ Opt A (newV v w s) w.jsp w.isp := by
  rcases h.sem.best with x | ⟨b, c1, c2, c3, c4⟩
  · rw [hc] at x; exact absurd x WithTop.coe_ne_top
  · refine ⟨b, c1, c2, c3, ?_⟩
    intro k hk
    have hj := h.rng c1
    have hrow := hA.col_row hj.1 hj.2 c2
    have := reach_ge hA h hs hc hup c1 hk
    rw [rc_not w.isp]
    · rw [hc] at c4
      have := WithTop.coe_injective c4
      linarith
    · intro e
      exact (h.fin hrow.1 hrow.2 (by omega)).1 c3

theorem tree_opt (hA : A.OK ne) (h : Inv A ne v jord c0 (fun _ => False) (fun _ _ => False) w) (hs : Stop A w) (hc : w.csp = (s : D R)) (hup : 1 ≤ w.up)
    {i : Nat} (h1 : 1 ≤ i) (h2 : i ≤ A.n) (hi : w.up ≤ w.c.l.get i) :
    ∃ b, Reach A v jord w (w.c.l.get i) (w.c.pr.get (w.c.iperm.get i)) b ∧ A.col (w.c.pr.get (w.c.iperm.get i)) (w.c.out.get (w.c.iperm.get i)) ∧
      A.irn.get (w.c.out.get (w.c.iperm.get i)) = i ∧ Opt A (newV v w s) (w.c.pr.get (w.c.iperm.get i)) (w.c.out.get (w.c.iperm.get i)) := by
  obtain ⟨b, x, c1, c2, c3, c4, c5⟩ := h.sem.tree i h1 h2 (by omega)
  refine ⟨b, c1.up (c2 hi), c3, c4, ?_⟩
  intro k hk
  have := reach_ge hA h hs hc hup (c1.up (Nat.zero_le _)) hk
  rw [rc_fin _ (by rw [c4]; exact hi), c4]
  have hd : val w.c.d i = b + rc A v (w.c.out.get (w.c.iperm.get i)) := by
    apply WithTop.coe_injective (α := R)
    rw [← c5]; exact (val_eq (h.fin h1 h2 (by omega)).2.1).symm
  linarith

theorem old_opt (hA : A.OK ne) (h : Inv A ne v jord c0 (fun _ => False) (fun _ _ => False) w) (hs : Stop A w) (hc : w.csp = (s : D R)) (hup : 1 ≤ w.up)
    {j : Nat} (h1 : 1 ≤ j) (h2 : j ≤ A.n) (hj : w.c.jperm.get j ≠ 0) : Opt A (newV v w s) j (w.c.jperm.get j) := by
  intro k hk
  have hm := h.core.mt.col j h1 h2 hj
  have hrow := hA.col_row h1 h2 hm.1
  have hrk := hA.col_row h1 h2 hk
  by_cases e : w.up ≤ w.c.l.get (A.irn.get (w.c.jperm.get j))
  · have hd := val_eq (h.fin hrow.1 hrow.2 (by omega)).2.1
    have := reach_ge hA h hs hc hup (j := j) (b := val w.c.d (A.irn.get (w.c.jperm.get j)) - rc A v (w.c.jperm.get j))
      (Or.inr ⟨A.irn.get (w.c.jperm.get j), hrow.1, hrow.2, e, by omega, hm.2, by rw [sub_add_cancel]; exact hd⟩) hk
    rw [rc_fin _ e]; linarith
  · rw [rc_not _ e]
    have ht := h.core.tight j h1 h2 hj k hk
    refine le_trans ht ?_
    by_cases e2 : w.up ≤ w.c.l.get (A.irn.get k)
    · rw [rc_fin _ e2]
      have hd := val_eq (h.fin hrk.1 hrk.2 (by omega)).2.1
      have : val w.c.d (A.irn.get k) ≤ s := by
        apply WithTop.coe_le_coe.1
        rw [← hd, ← hc]; exact h.sem.finc _ hrk.1 hrk.2 e2
      linarith
    · rw [rc_not _ e2]

end

/-- A column gets another row. -/
theorem Match.reassign {A : Mat R} {ne : Nat} (hA : A.OK ne) {p jp : Buf Nat} (h : Match A p jp) {j k : Nat} (h1 : 1 ≤ j) (h2 : j ≤ A.n)
    (hj : jp.get j ≠ 0) (hk : A.col j k) (hf : p.get (A.irn.get k) = 0) :
    Match A ((p.set (A.irn.get k) j).set (A.irn.get (jp.get j)) 0) (jp.set j k) := by
  have hkr := hA.col_rng h1 h2 hk
  have hm := h.col j h1 h2 hj
  have hne : A.irn.get k ≠ A.irn.get (jp.get j) := fun e => by rw [e, hm.2] at hf; omega
  refine ⟨h.isz, h.jsz, ?_, ?_⟩
  · intro i a b c
    simp only [Buf.set_get] at c ⊢
    by_cases e0 : i = A.irn.get (jp.get j)
    · rw [if_pos e0] at c; exact absurd rfl c
    · rw [if_neg e0] at c ⊢
      by_cases e : i = A.irn.get k
      · rw [if_pos e]
        refine ⟨h1, h2, ?_⟩
        rw [if_pos rfl]; exact ⟨by omega, e.symm⟩
      · rw [if_neg e] at c ⊢
        have := h.row i a b c
        rw [if_neg]
        · exact this
        · intro e2; rw [e2] at this; exact e0 this.2.2.2.symm
  · intro j' a b c
    simp only [Buf.set_get] at c ⊢
    by_cases e : j' = j
    · rw [if_pos e, if_neg hne, if_pos rfl]; exact ⟨e ▸ hk, e.symm⟩
    · rw [if_neg e] at c ⊢
      have := h.col j' a b c
      refine ⟨this.1, ?_⟩
      rw [if_neg, if_neg]
      · exact this.2
      · intro e2; rw [e2] at this; rw [this.2] at hf; omega
      · intro e2
        have h3 := this.2
        rw [e2, hm.2] at h3; exact e h3.symm

/-- State before a column on the path gets the row `r`; the rows beyond position `x` are as before the search. -/
structure Before (A : Mat R) (v' : Nat → R) (jord : Nat) (w : W R) (x : Nat) (p jp : Buf Nat) (r : Nat) : Prop where
  mt : Match A (p.set r 0) jp
  rl : w.c.l.get r ≤ x
  keep : ∀ i, 1 ≤ i → i ≤ A.n → w.up ≤ w.c.l.get i → x < w.c.l.get i → p.get i = w.c.iperm.get i ∧
    jp.get (w.c.iperm.get i) = w.c.jperm.get (w.c.iperm.get i)
  opt : ∀ j, 1 ≤ j → j ≤ A.n → jp.get j ≠ 0 → Opt A v' j (jp.get j)
  cols : ∀ j, 1 ≤ j → j ≤ A.n → (jp.get j ≠ 0 ↔ w.c.jperm.get j ≠ 0)

/-- State after column `j` on the path got a row. -/
def After (A : Mat R) (v' : Nat → R) (jord : Nat) (w : W R) (x j : Nat) (p jp : Buf Nat) : Prop :=
  (j = jord ∧ Match A p jp ∧ (∀ j, 1 ≤ j → j ≤ A.n → jp.get j ≠ 0 → Opt A v' j (jp.get j)) ∧
    ∀ j, 1 ≤ j → j ≤ A.n → (jp.get j ≠ 0 ↔ w.c.jperm.get j ≠ 0 ∨ j = jord)) ∨
  ∃ r, 1 ≤ r ∧ r ≤ A.n ∧ w.up ≤ w.c.l.get r ∧ x < w.c.l.get r ∧ w.c.iperm.get r = j ∧ Before A v' jord w (w.c.l.get r) p jp r

theorem give {A : Mat R} {ne : Nat} (hA : A.OK ne) {v v' : Nat → R} {jord : Nat} {c0 : St R} {w : W R}
    (h : Inv A ne v jord c0 (fun _ => False) (fun _ _ => False) w) {x : Nat} {p jp : Buf Nat} {r : Nat} (hb : Before A v' jord w x p jp r) {j k : Nat} {b : R}
    (hr : Reach A v jord w x j b) (hk : A.col j k) (hkr : A.irn.get k = r) (ho : Opt A v' j k) :
    After A v' jord w x j (p.set r j) (jp.set j k) := by
  have hj := h.rng hr
  have hkk := hA.col_rng hj.1 hj.2 hk
  have hopt : ∀ j', 1 ≤ j' → j' ≤ A.n → (jp.set j k).get j' ≠ 0 → Opt A v' j' ((jp.set j k).get j') := by
    intro j' a1 a2 a3
    simp only [Buf.set_get] at a3 ⊢
    by_cases e : j' = j
    · rw [if_pos e, e]; exact ho
    · rw [if_neg e] at a3 ⊢; exact hb.opt j' a1 a2 a3
  have hfree : (p.set r 0).get (A.irn.get k) = 0 := by rw [hkr]; simp only [Buf.set_get, if_true]
  rcases hr with ⟨e, _⟩ | ⟨q0, a1, a2, a3, a4, a5, _⟩
  · left
    have hjz : jp.get j = 0 := by
      by_contra hc
      exact (hb.cols j hj.1 hj.2).1 hc (by rw [e]; exact h.jo.2.2)
    refine ⟨e, ?_, hopt, ?_⟩
    · have := hb.mt.assign hA hj.1 hj.2 hjz hk hfree
      rw [hkr, set_set] at this; exact this
    · intro j' b1 b2
      simp only [Buf.set_get]
      by_cases e' : j' = j
      · rw [if_pos e']
        exact ⟨fun _ => Or.inr (e'.trans e), fun _ => by omega⟩
      · rw [if_neg e', hb.cols j' b1 b2]
        refine ⟨fun g => Or.inl g, ?_⟩
        rintro (g | g)
        · exact g
        · exact absurd (g.trans e.symm) e'
  · right
    have hf := h.fin a1 a2 (by omega)
    have hrow := h.core.mt.row q0 a1 a2 hf.1
    rw [a5] at hrow
    have hkp := hb.keep q0 a1 a2 a3 a4
    rw [a5] at hkp
    have hjz : jp.get j ≠ 0 := (hb.cols j hj.1 hj.2).2 hrow.2.2.1
    refine ⟨q0, a1, a2, a3, a4, a5, ⟨?_, le_rfl, ?_, hopt, ?_⟩⟩
    · have := hb.mt.reassign hA hj.1 hj.2 hjz hk hfree
      rw [hkr, set_set, hkp.2, hrow.2.2.2] at this
      exact this
    · intro i b1 b2 b3 b4
      have hkp' := hb.keep i b1 b2 b3 (by omega)
      have hrl := hb.rl
      have e1 : i ≠ r := fun e => by rw [e] at b4; omega
      have hf' := h.fin b1 b2 (by omega)
      have e2 : w.c.iperm.get i ≠ j := by
        intro e
        have := (h.core.mt.row i b1 b2 hf'.1).2.2.2
        rw [e, hrow.2.2.2] at this
        rw [this] at b4; omega
      simp only [Buf.set_get]
      rw [if_neg e1, if_neg e2]; exact hkp'
    · intro j' b1 b2
      simp only [Buf.set_get]
      by_cases e' : j' = j
      · rw [if_pos e', e']
        exact ⟨fun _ => hrow.2.2.1, fun _ => by omega⟩
      · rw [if_neg e']; exact hb.cols j' b1 b2

/-- Everything but the assignment is as in `c`. -/
structure OnlyM (c c' : St R) : Prop where
  out : c'.out = c.out
  pr : c'.pr = c.pr
  q : c'.q = c.q
  l : c'.l = c.l
  u : c'.u = c.u
  d : c'.d = c.d
  num : c'.num = c.num

/-- The path is followed to its end. -/
theorem trace_runs {A : Mat R} {ne : Nat} (hA : A.OK ne) {v : Nat → R} {jord : Nat} {c0 : St R} {w : W R} {s : R}
    (h : Inv A ne v jord c0 (fun _ => False) (fun _ _ => False) w) (hs : Stop A w) (hc : w.csp = (s : D R)) (hup : 1 ≤ w.up) (f : Nat) :
    ∀ (j x : Nat) (c : St R), 1 ≤ j → j ≤ A.n → After A (newV v w s) jord w x j c.iperm c.jperm → A.n + 2 ≤ x + 1 + f → 1 ≤ f → w.up ≤ x + 1 → c.out = w.c.out → c.pr = w.c.pr →
      c.iperm.size = A.n + 1 → c.jperm.size = A.n + 1 →
      Runs (trace A f j c) fun c' => OnlyM c c' ∧ Match A c'.iperm c'.jperm ∧
        (∀ j, 1 ≤ j → j ≤ A.n → c'.jperm.get j ≠ 0 → Opt A (newV v w s) j (c'.jperm.get j)) ∧
        ∀ j, 1 ≤ j → j ≤ A.n → (c'.jperm.get j ≠ 0 ↔ w.c.jperm.get j ≠ 0 ∨ j = jord) := by
  have e1 := hA.irsz
  have e8 := h.core.osz
  have e9 := h.core.prsz
  induction f with
  | zero => intro j x c _ _ _ _ g; omega
  | succ f ih =>
    intro j x c h1 h2 ha hx _ hux ho hp hz hz'
    unfold trace
    simp only [runs_bind, runs_rd1]
    rw [hp]
    refine ⟨by omega, by omega, ?_⟩
    rcases ha with ⟨e, a1, a2, a3⟩ | ⟨r, b1, b2, b3, b4, b5, b6⟩
    · rw [e, h.sem.prj, if_pos rfl]
      simp only [runs_pure]
      exact ⟨⟨rfl, rfl, rfl, rfl, rfl, rfl, rfl⟩, a1, a2, a3⟩
    · obtain ⟨b, c1, c2, c3, c4⟩ := tree_opt hA h hs hc hup b1 b2 b3
      have hrng := h.rng c1
      have hn := (h.fin b1 b2 (by omega)).2.2
      rw [b5] at c1 c2 c3 c4 hrng
      rw [if_neg (by omega)]
      simp only [runs_bind, runs_rd1, runs_wr1]
      rw [ho]
      have hkk := hA.col_rng hrng.1 hrng.2 c2
      refine ⟨by omega, by omega, by omega, by omega, ?_⟩
      rw [c3]
      refine ⟨by omega, by omega, by omega, by omega, ?_⟩
      have hg := give hA h b6 c1 c2 c3 c4
      refine (ih (w.c.pr.get j) (w.c.l.get r) _ hrng.1 hrng.2 (by exact hg) (by omega) (by omega) (by omega) (by exact rfl) (by exact rfl) (by exact hz) (by exact hz')).mono ?_
      rintro c' ⟨d1, d2⟩
      exact ⟨⟨d1.out.trans ho.symm, d1.pr.trans hp.symm, d1.q, d1.l, d1.u, d1.d, d1.num⟩, d2⟩

end Mc64
end Hif
