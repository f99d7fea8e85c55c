import Verif.Mc64Path

set_option linter.unusedVariables false
set_option linter.unusedSectionVars false

/-!
# The weighted matching: the kernel
-/

namespace Hif
namespace Mc64
variable {R : Type} [Field R] [LinearOrder R] [IsStrictOrderedRing R]

theorem cnt_one_more {n j : Nat} {p p' : Buf Nat} (h1 : 1 ≤ j) (h2 : j ≤ n) (hj : p.get j = 0)
    (h : ∀ i, 1 ≤ i → i ≤ n → (p'.get i ≠ 0 ↔ p.get i ≠ 0 ∨ i = j)) : cnt n p' = cnt n p + 1 := by
  rw [← cnt_free h1 h2 hj (one_ne_zero)]
  unfold cnt
  congr 1
  ext x
  rw [Finset.mem_filter, Finset.mem_filter, Finset.mem_Icc]
  constructor
  · rintro ⟨a, b⟩
    refine ⟨a, ?_⟩
    simp only [Buf.set_get]
    rcases (h x a.1 a.2).1 b with c | c
    · split
      · omega
      · exact c
    · rw [if_pos c]; omega
  · rintro ⟨a, b⟩
    refine ⟨a, (h x a.1 a.2).2 ?_⟩
    simp only [Buf.set_get] at b
    by_cases e : x = j
    · exact Or.inr e
    · rw [if_neg e] at b; exact Or.inl b

theorem augment_runs {A : Mat R} {ne : Nat} (hA : A.OK ne) {v : Nat → R} {jord : Nat} {c0 : St R} {w : W R} {s : R}
    (h : Inv A ne v jord c0 (fun _ => False) (fun _ _ => False) w) (hs : Stop A w) (hc : w.csp = (s : D R))
    (hnum : A.n + 1 - w.up ≤ cnt A.n w.c.iperm) :
    Runs (augment A w) fun c' => Core A ne (newV v w s) c' ∧ c'.q = w.c.q ∧ c'.l = w.c.l ∧ c'.d = w.c.d ∧
      ∀ j, 1 ≤ j → j ≤ A.n → (c'.jperm.get j ≠ 0 ↔ w.c.jperm.get j ≠ 0 ∨ j = jord) := by
  have core := h.core
  have lay := h.lay
  have l0 := lay.low1
  have l2 := lay.lu
  have l3 := lay.un
  have e1 := hA.irsz
  have e3 := core.usz
  have e4 := core.mt.isz
  have e4' := core.mt.jsz
  have e5 := core.dsz
  have e6 := core.qsz
  have hup : 1 ≤ w.up := by omega
  obtain ⟨b, c1, c2, c3, c4⟩ := best_opt hA h hs hc hup
  have hrng := h.rng c1
  have hkr := hA.col_rng hrng.1 hrng.2 c2
  have hrow := hA.col_row hrng.1 hrng.2 c2
  have hlr : w.c.l.get (A.irn.get w.isp) = 0 := by
    by_contra e; exact (h.fin hrow.1 hrow.2 e).1 c3
  have c1' : Reach A v jord w (w.up - 1) w.jsp b := by
    rcases c1 with g | ⟨r, a1, a2, a3, a4, a5⟩
    · exact Or.inl g
    · exact Or.inr ⟨r, a1, a2, a3, by omega, a5⟩
  have hbef : Before A (newV v w s) jord w (w.up - 1) w.c.iperm w.c.jperm (A.irn.get w.isp) :=
    ⟨by rw [set_same c3]; exact core.mt, by omega, fun _ _ _ _ _ => ⟨rfl, rfl⟩, fun j a b e => old_opt hA h hs hc hup a b e, fun _ _ _ => Iff.rfl⟩
  have hg := give hA h hbef c1' c2 rfl c4
  unfold augment
  simp only [runs_bind, runs_rd1, runs_wr1]
  refine ⟨by omega, by omega, by omega, by omega, by omega, by omega, ?_⟩
  have hcn := core.num
  refine (trace_runs hA h hs hc hup (w.c.num + 1) w.jsp (w.up - 1) _ hrng.1 hrng.2 (by exact hg) (by omega) (by omega) (by omega) (by exact rfl)
    (by exact rfl) (by exact e4) (by exact e4')).mono ?_
  rintro c ⟨k1, k2, k3, k4⟩
  have hcu : c.u = w.c.u := k1.u
  have hcq : c.q = w.c.q := k1.q
  have hcd : c.d = w.c.d := k1.d
  have hcl : c.l = w.c.l := k1.l
  have hcnum : c.num = w.c.num + 1 := k1.num
  have hco : c.out = w.c.out := k1.out
  have hcp : c.pr = w.c.pr := k1.pr
  have hfv : ∀ i, 1 ≤ i → i ≤ A.n → w.up ≤ w.c.l.get i → w.c.u.get i = ((v i : R) : D R) ∧ w.c.d.get i = ((val w.c.d i : R) : D R) := by
    intro i a1 a2 a3
    obtain ⟨b', d1, d2, d3, _⟩ := tree_opt hA h hs hc hup a1 a2 a3
    have hr := h.rng d1
    have := hA.col_rng hr.1 hr.2 d2
    have hu := core.u _ this.1 this.2
    rw [d3] at hu
    exact ⟨hu, val_eq (h.fin a1 a2 (by omega)).2.1⟩
  refine forUp_runs' (fun kk c' => c'.u.size = A.n + 1 ∧ OnlyM c { c' with u := c.u } ∧ c'.iperm = c.iperm ∧ c'.jperm = c.jperm ∧
      ∀ i, 1 ≤ i → i ≤ A.n → c'.u.get i = if w.up ≤ w.c.l.get i ∧ w.c.l.get i < kk then ((newV v w s i : R) : D R) else w.c.u.get i)
    (by omega) ?_ ?_ ?_
  · refine ⟨by rw [hcu]; exact e3, ⟨rfl, rfl, rfl, rfl, rfl, rfl, rfl⟩, rfl, rfl, ?_⟩
    intro i a1 a2
    rw [hcu, if_neg (by omega)]
  · rintro kk c' a1 a2 ⟨m1, m2, m3, m4, m5⟩
    have x := lay.at_ kk (Or.inr ⟨by omega, by omega⟩)
    have hq : c'.q = w.c.q := m2.q.trans hcq
    have hd : c'.d = w.c.d := m2.d.trans hcd
    have hfi := hfv _ x.1 x.2.1 (by rw [x.2.2.1]; exact a1)
    simp only [runs_bind, runs_rd1]
    rw [hq, hd]
    refine ⟨by omega, by omega, by omega, by omega, by omega, by omega, ?_⟩
    rw [m5 _ x.1 x.2.1, if_neg (by rw [x.2.2.1]; omega), hfi.1, hfi.2, fadd_coe]
    simp only [runs_pure]
    rw [hc, fsub_coe]
    simp only [runs_pure, runs_wr1]
    refine ⟨by omega, by omega, m1, ⟨m2.out, m2.pr, hcq.symm, m2.l, rfl, hcd.symm, m2.num⟩, m3, m4, ?_⟩
    intro i b1 b2
    show (c'.u.set _ _).get i = _
    simp only [Buf.set_get]
    by_cases e : i = w.c.q.get kk
    · rw [if_pos e, if_pos (by rw [e, x.2.2.1]; omega)]
      unfold newV
      rw [if_pos (by rw [e, x.2.2.1]; exact a1), e]
    · rw [if_neg e, m5 i b1 b2]
      have : w.c.l.get i ≠ kk := by
        intro e'
        by_cases e0 : w.c.l.get i = 0
        · omega
        · have := (lay.lab i b1 b2 e0).2
          rw [e'] at this; exact e this.symm
      by_cases e2 : w.up ≤ w.c.l.get i ∧ w.c.l.get i < kk
      · rw [if_pos e2, if_pos (by omega)]
      · rw [if_neg e2, if_neg (by omega)]
  · rintro c' ⟨m1, m2, m3, m4, m5⟩
    have hip : Match A c'.iperm c'.jperm := by rw [m3, m4]; exact k2
    have hnum' : c'.num = w.c.num + 1 := m2.num.trans hcnum
    refine ⟨⟨hip, ?_, m1, ?_, ?_, ?_, ?_, ?_, ?_, ?_⟩, m2.q.trans hcq, m2.l.trans hcl, m2.d.trans hcd, ?_⟩
    · rw [hnum', hip.cols hA, m4, cnt_one_more h.jo.1 h.jo.2.1 h.jo.2.2 k4, ← core.mt.cols hA, core.num]
    · intro k a1 a2
      have hr := hA.rows k a1 a2
      rw [m5 _ hr.1 hr.2]
      by_cases e : w.up ≤ w.c.l.get (A.irn.get k)
      · have := (h.fin hr.1 hr.2 (by omega)).2.2
        rw [if_pos ⟨e, by omega⟩]
      · rw [if_neg (fun g => e g.1), core.u k a1 a2]
        unfold newV; rw [if_neg e]
    · intro j a1 a2 a3 k hk
      rw [m4] at a3 ⊢
      exact k3 j a1 a2 a3 k hk
    · rw [show c'.out = w.c.out from m2.out.trans hco]; exact core.osz
    · rw [show c'.pr = w.c.pr from m2.pr.trans hcp]; exact core.prsz
    · rw [show c'.q = w.c.q from m2.q.trans hcq]; exact core.qsz
    · rw [show c'.l = w.c.l from m2.l.trans hcl]; exact core.lsz
    · rw [show c'.d = w.c.d from m2.d.trans hcd]; exact core.dsz
    · rw [m4]; exact k4

/-- The columns `J` have entries only in the rows `F`. -/
def Closed (A : Mat R) (J F : Finset Nat) : Prop := (∀ j ∈ J, 1 ≤ j ∧ j ≤ A.n) ∧ ∀ j ∈ J, ∀ k, A.col j k → A.irn.get k ∈ F

/-- Why no column can be assigned to `jord`: the columns reached have entries only in rows assigned to them. -/
def Failed (A : Mat R) (iperm jperm : Buf Nat) (jord : Nat) : Prop :=
  ∃ J F : Finset Nat, Closed A J F ∧ jord ∈ J ∧ (∀ j ∈ J, j ≠ jord → jperm.get j ≠ 0) ∧
    ∀ i ∈ F, 1 ≤ i ∧ i ≤ A.n ∧ iperm.get i ≠ 0 ∧ iperm.get i ∈ J

/-- A search without a path shows that the column cannot be assigned. -/
theorem failed {A : Mat R} {ne : Nat} (hA : A.OK ne) {v : Nat → R} {jord : Nat} {c0 : St R} {w : W R}
    (h : Inv A ne v jord c0 (fun _ => False) (fun _ _ => False) w) (hs : Stop A w) (hc : w.csp = ⊤) : Failed A w.c.iperm w.c.jperm jord := by
  have hup : 1 ≤ w.up := by have := h.lay.low1; have := h.lay.lu; omega
  refine ⟨insert jord (((Finset.Icc 1 A.n).filter fun i => w.up ≤ w.c.l.get i).image w.c.iperm.get),
    (Finset.Icc 1 A.n).filter fun i => w.up ≤ w.c.l.get i, ⟨?_, ?_⟩, Finset.mem_insert_self _ _, ?_, ?_⟩
  · intro j hj
    rw [Finset.mem_insert] at hj
    rcases hj with e | hm
    · rw [e]; exact ⟨h.jo.1, h.jo.2.1⟩
    · simp only [Finset.mem_image, Finset.mem_filter, Finset.mem_Icc] at hm
      obtain ⟨i, hi, e⟩ := hm
      have a := h.core.mt.row i hi.1.1 hi.1.2 (h.fin hi.1.1 hi.1.2 (by omega)).1
      rw [e] at a; exact ⟨a.1, a.2.1⟩
  · intro j hj k hk
    have hr : ∃ b, Reach A v jord w 0 j b := by
      rw [Finset.mem_insert] at hj
      rcases hj with e | hm
      · exact ⟨0, Or.inl ⟨e, rfl⟩⟩
      · simp only [Finset.mem_image, Finset.mem_filter, Finset.mem_Icc] at hm
        obtain ⟨i, hi, e⟩ := hm
        have hf := h.fin hi.1.1 hi.1.2 (by omega)
        refine ⟨val w.c.d i - rc A v (w.c.jperm.get j), Or.inr ⟨i, hi.1.1, hi.1.2, hi.2, by omega, e, ?_⟩⟩
        rw [sub_add_cancel]; exact val_eq hf.2.1
    obtain ⟨b, hr⟩ := hr
    have hj' := h.rng hr
    have hrow := hA.col_row hj'.1 hj'.2 hk
    simp only [Finset.mem_filter, Finset.mem_Icc]
    refine ⟨hrow, ?_⟩
    by_contra e
    rcases h.sem.rlx j b hr k hk (fun x => x) with x | x
    · rw [hc] at x; exact absurd (top_le_iff.1 x) WithTop.coe_ne_top
    · have := le_trans (hs _ hrow.1 hrow.2 e) x.2
      rw [hc] at this; exact absurd (top_le_iff.1 this) WithTop.coe_ne_top
  · intro j hj hne
    rw [Finset.mem_insert] at hj
    rcases hj with e | hm
    · exact absurd e hne
    · simp only [Finset.mem_image, Finset.mem_filter, Finset.mem_Icc] at hm
      obtain ⟨i, hi, e⟩ := hm
      have a := h.core.mt.row i hi.1.1 hi.1.2 (h.fin hi.1.1 hi.1.2 (by omega)).1
      rw [e] at a; exact a.2.2.1
  · intro i hi
    have hi' := hi
    simp only [Finset.mem_filter, Finset.mem_Icc] at hi'
    exact ⟨hi'.1.1, hi'.1.2, (h.fin hi'.1.1 hi'.1.2 (by omega)).1, Finset.mem_insert_of_mem (Finset.mem_image_of_mem _ hi)⟩

/-- Everything but `d` and `l` is as in `c`. -/
structure OnlyDL (c c' : St R) : Prop where
  ip : c'.iperm = c.iperm
  jp : c'.jperm = c.jperm
  out : c'.out = c.out
  pr : c'.pr = c.pr
  q : c'.q = c.q
  u : c'.u = c.u
  num : c'.num = c.num
  dsz : c'.d.size = c.d.size
  lsz : c'.l.size = c.l.size

theorem Core.dl {A : Mat R} {ne : Nat} {v : Nat → R} {c c' : St R} (h : Core A ne v c) (o : OnlyDL c c') : Core A ne v c' :=
  ⟨by rw [o.ip, o.jp]; exact h.mt, by rw [o.num, o.ip]; exact h.num, by rw [o.u]; exact h.usz, by rw [o.u]; exact h.u, by rw [o.jp]; exact h.tight,
    by rw [o.out]; exact h.osz, by rw [o.pr]; exact h.prsz, by rw [o.q]; exact h.qsz, o.lsz.trans h.lsz, o.dsz.trans h.dsz⟩

theorem resetBody_runs {n : Nat} {c c' : St R} (hq : c.q.size = n + 1) (hd : c.d.size = n + 1) (hl : c.l.size = n + 1) (o : OnlyDL c c') {kk : Nat}
    (h1 : 1 ≤ kk) (h2 : kk ≤ n) (hr : 1 ≤ c.q.get kk ∧ c.q.get kk ≤ n) (T : Nat → Prop)
    (hT : ∀ i, 1 ≤ i → i ≤ n → (c'.d.get i = ⊤ ∧ c'.l.get i = 0) ∨ T i) :
    Runs (resetBody kk c') fun c'' => OnlyDL c c'' ∧
      ∀ i, 1 ≤ i → i ≤ n → (c''.d.get i = ⊤ ∧ c''.l.get i = 0) ∨ (T i ∧ i ≠ c.q.get kk) := by
  have a1 := o.dsz
  have a2 := o.lsz
  unfold resetBody
  simp only [runs_bind, runs_rd1, runs_wr1, runs_pure]
  rw [o.q]
  refine ⟨by omega, by omega, by omega, by omega, by omega, by omega, ⟨o.ip, o.jp, o.out, o.pr, rfl, o.u, o.num, a1, a2⟩, ?_⟩
  intro i b1 b2
  show ((c'.d.set _ _).get i = ⊤ ∧ (c'.l.set _ _).get i = 0) ∨ _
  simp only [Buf.set_get]
  by_cases e : i = c.q.get kk
  · rw [if_pos e, if_pos e]; exact Or.inl ⟨rfl, rfl⟩
  · rw [if_neg e, if_neg e]
    rcases hT i b1 b2 with x | x
    · exact Or.inl x
    · exact Or.inr ⟨x, e⟩

/-- Both lists are reset. -/
theorem resets_runs {A : Mat R} {pend : Nat → Prop} {w : W R} {c : St R}
    (lay : Lay A.n w.c.iperm (fun _ => False) w.c.d w.c.q w.c.l w.qlen w.low w.up w.dmin) (hq : c.q = w.c.q) (hl : c.l = w.c.l) (hd : c.d = w.c.d) :
    Runs (do
      let c ← forUp w.low (A.n + 1) c fun kk c => resetBody kk c
      forUp 1 (w.qlen + 1) c fun kk c => resetBody kk c) fun c' => OnlyDL c c' ∧ ∀ i, 1 ≤ i → i ≤ A.n → c'.d.get i = ⊤ ∧ c'.l.get i = 0 := by
  have l0 := lay.low1
  have l1 := lay.ql
  have l2 := lay.lu
  have l3 := lay.un
  have q0 : c.q.size = A.n + 1 := by rw [hq]; exact lay.qsz
  have q1 : c.d.size = A.n + 1 := by rw [hd]; exact lay.dsz
  have q2 : c.l.size = A.n + 1 := by rw [hl]; exact lay.lsz
  rw [runs_bind]
  refine forUp_runs' (fun kk c' => OnlyDL c c' ∧ ∀ i, 1 ≤ i → i ≤ A.n → (c'.d.get i = ⊤ ∧ c'.l.get i = 0) ∨
      ∃ p, ((1 ≤ p ∧ p ≤ w.qlen) ∨ (kk ≤ p ∧ p ≤ A.n)) ∧ c.q.get p = i) (by omega) ?_ ?_ ?_
  · refine ⟨⟨rfl, rfl, rfl, rfl, rfl, rfl, rfl, rfl, rfl⟩, ?_⟩
    intro i a b
    rw [hd, hl, hq]
    by_cases e : w.c.l.get i = 0
    · exact Or.inl ⟨lay.unl i a b e (fun x => x), e⟩
    · have := lay.lab i a b e
      exact Or.inr ⟨_, this.1, this.2⟩
  · rintro kk c' a b ⟨k1, k2⟩
    have x := lay.at_ kk (Or.inr ⟨a, by omega⟩)
    refine (resetBody_runs q0 q1 q2 k1 (by omega) (by omega) (by rw [hq]; exact ⟨x.1, x.2.1⟩) _ k2).mono ?_
    rintro c'' ⟨m1, m2⟩
    refine ⟨m1, fun i b1 b2 => ?_⟩
    rcases m2 i b1 b2 with y | ⟨⟨p, y1, y2⟩, y3⟩
    · exact Or.inl y
    · refine Or.inr ⟨p, ?_, y2⟩
      rcases y1 with z | z
      · exact Or.inl z
      · refine Or.inr ⟨?_, z.2⟩
        rcases Nat.lt_or_ge kk p with g | g
        · exact g
        · exact absurd (by rw [← y2]; congr 1; omega) y3
  · rintro c1 ⟨k1, k2⟩
    refine forUp_runs' (fun kk c' => OnlyDL c c' ∧ ∀ i, 1 ≤ i → i ≤ A.n → (c'.d.get i = ⊤ ∧ c'.l.get i = 0) ∨
      ∃ p, (kk ≤ p ∧ p ≤ w.qlen) ∧ c.q.get p = i) (by omega) ?_ ?_ ?_
    · refine ⟨k1, fun i a b => ?_⟩
      rcases k2 i a b with y | ⟨p, y1, y2⟩
      · exact Or.inl y
      · exact Or.inr ⟨p, by omega, y2⟩
    · rintro kk c' a b ⟨k1, k2⟩
      have x := lay.at_ kk (Or.inl ⟨a, by omega⟩)
      refine (resetBody_runs q0 q1 q2 k1 (by omega) (by omega) (by rw [hq]; exact ⟨x.1, x.2.1⟩) _ k2).mono ?_
      rintro c'' ⟨m1, m2⟩
      refine ⟨m1, fun i b1 b2 => ?_⟩
      rcases m2 i b1 b2 with y | ⟨⟨p, y1, y2⟩, y3⟩
      · exact Or.inl y
      · refine Or.inr ⟨p, ⟨?_, y1.2⟩, y2⟩
        rcases Nat.lt_or_ge kk p with g | g
        · exact g
        · exact absurd (by rw [← y2]; congr 1; omega) y3
    · rintro c' ⟨m1, m2⟩
      refine ⟨m1, fun i a b => ?_⟩
      rcases m2 i a b with y | ⟨p, y1, _⟩
      · exact y
      · omega

theorem mainBody_runs {A : Mat R} {ne : Nat} (hA : A.OK ne) (hS : Short A) {v : Nat → R} {jord : Nat} (h1 : 1 ≤ jord) (h2 : jord ≤ A.n) {c : St R}
    (h : Idle A ne v c) :
    Runs (mainBody A jord c) fun c' => ∃ v', Idle A ne v' c' ∧ (∀ j, 1 ≤ j → j ≤ A.n → (c'.jperm.get j ≠ 0 ↔ c.jperm.get j ≠ 0 ∨ j = jord ∧ c'.jperm.get jord ≠ 0)) ∧
      (c'.jperm.get jord ≠ 0 ∨ Failed A c'.iperm c'.jperm jord) := by
  have e4' := h.mt.jsz
  unfold mainBody
  simp only [runs_bind, runs_rd1]
  refine ⟨by omega, by omega, ?_⟩
  split
  · rename_i hz
    simp only [runs_pure]
    exact ⟨v, h, fun j _ _ => ⟨Or.inl, fun e => e.elim id fun e => e.1 ▸ hz⟩, Or.inl hz⟩
  · rename_i hz
    have hz : c.jperm.get jord = 0 := not_not.1 hz
    simp only [runs_bind]
    refine (begin_runs hA hS h1 h2 h hz).mono ?_
    rintro w ⟨w1, w2⟩
    refine (search_runs hA w.c.num w w1 (by rw [w2, w1.core.num]; omega)).mono ?_
    rintro w ⟨w1, w3, w4⟩
    have hjp := w1.same.jp
    have hup : 1 ≤ w.up := by have := w1.lay.low1; have := w1.lay.lu; omega
    by_cases hc : w.csp = ⊤
    · rw [if_neg (not_not.2 hc)]
      simp only [runs_pure]
      have := resets_runs (pend := fun _ => False) (c := w.c) w1.lay rfl rfl rfl
      rw [runs_bind] at this
      refine this.mono ?_
      intro c1 hc1
      refine hc1.mono ?_
      rintro c' ⟨m1, m2⟩
      refine ⟨v, ⟨w1.core.dl m1, fun i a b => (m2 i a b).1, fun i a b => (m2 i a b).2⟩, ?_, Or.inr (by rw [m1.ip, m1.jp]; exact failed hA w1 w3 hc)⟩
      intro j a b
      rw [m1.jp, hjp]
      exact ⟨Or.inl, fun e => e.elim id fun e => e.1 ▸ e.2⟩
    · rw [if_pos hc]
      obtain ⟨s, hs⟩ := WithTop.ne_top_iff_exists.1 hc
      refine (augment_runs hA w1 w3 hs.symm w4).mono ?_
      rintro c2 ⟨n1, n2, n3, n4, n5⟩
      have := resets_runs (pend := fun _ => False) (c := c2) w1.lay n2 n3 n4
      rw [runs_bind] at this
      refine this.mono ?_
      intro c1 hc1
      refine hc1.mono ?_
      rintro c' ⟨m1, m2⟩
      refine ⟨_, ⟨n1.dl m1, fun i a b => (m2 i a b).1, fun i a b => (m2 i a b).2⟩, ?_, Or.inl ?_⟩
      · intro j a b
        rw [m1.jp, n5 j a b, hjp]
        refine ⟨fun e => e.elim Or.inl fun e => Or.inr ⟨e, ?_⟩, fun e => e.elim Or.inl fun e => Or.inr e.1⟩
        exact (n5 jord h1 h2).2 (Or.inr rfl)
      · rw [m1.jp]; exact (n5 jord h1 h2).2 (Or.inr rfl)

end Mc64
end Hif
