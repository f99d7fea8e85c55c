import Verif.AmdStep2

set_option linter.unusedVariables false

/-! # One pivot: the end -/

namespace Hif
namespace Amd

theorem Gr.congr {n : Nat} {g : Gh} {deg pe deg' pe' : Int → Int} {nel : Int} (h : Gr n g deg pe nel) (h1 : ∀ e ∈ g.X, deg' e = deg e) (h2 : ∀ x, pe' x = pe x) : Gr n g deg' pe' nel := by
  have : pe' = pe := funext h2
  rw [this]
  exact ⟨h.vn, h.xn, h.vx, h.wv, h.wx, h.wn, h.en, h.ex, h.av, h.ax, h.sym, h.es1, h.es2, fun e he => (h1 e he).trans (h.dg e he), h.nel, h.cnt, h.self, h.rkD, h.tree⟩

/-- The list of an element without the eliminated nodes. -/
def Gh.trim (g : Gh) (e : Int) (L : List Int) : Gh := { g with A := fun x => if x = e then L else g.A x }

theorem Gr.trim {n : Nat} {g : Gh} {deg pe : Int → Int} {nel : Int} (h : Gr n g deg pe nel) {e : Int} (he : e ∈ g.X) {L : List Int} (hL : ∀ x, x ∈ L ↔ x ∈ g.A e ∧ x ∈ g.V) : Gr n (g.trim e L) deg pe nel := by
  have hA : ∀ x, x ≠ e → (g.trim e L).A x = g.A x := fun x hx => if_neg hx
  have hAe : (g.trim e L).A e = L := if_pos rfl
  have hV : ∀ x ∈ g.V, x ≠ e := fun x hx u => h.vx x hx (u ▸ he)
  refine ⟨h.vn, h.xn, h.vx, h.wv, h.wx, h.wn, h.en, h.ex, fun x hx y hy => ?_, fun x hx y hy => ?_, fun x hx y hy hxy => ?_, fun x hx y hy hxy => ?_, fun x hx y hy hxy => ?_, h.dg, h.nel, h.cnt, h.self, h.rkD, h.tree⟩
  · rw [hA x (hV x hx)] at hy; exact h.av x hx y hy
  · by_cases hxe : x = e
    · subst hxe
      rw [hAe] at hy
      exact ⟨h.vn y ((hL y).1 hy).2, Or.inl ((hL y).1 hy).2⟩
    · rw [hA x hxe] at hy; exact h.ax x hx y hy
  · rw [hA x (hV x hx)] at hxy
    rw [hA y (hV y hy)]; exact h.sym x hx y hy hxy
  · by_cases hxe : x = e
    · subst hxe
      rw [hAe] at hxy
      exact h.es1 x hx y hy ((hL y).1 hxy).1
    · rw [hA x hxe] at hxy; exact h.es1 x hx y hy hxy
  · by_cases hxe : x = e
    · subst hxe
      rw [hAe, hL]
      exact ⟨h.es2 x hx y hy hxy, hy⟩
    · rw [hA x hxe]; exact h.es2 x hx y hy hxy

section
variable {n : Nat} {iwlen S0 : Int} {aggressive : Bool} {g h : Gh} {c c0 c2 c4 c5 : St} {me : Int} {M : List Int} {B : Int} {b : Build} {Dl : Int → List Int} {K Z : Finset Int} {s : Pass} {r : Int × St}

/-- Before the end of the step. -/
structure Fin0 (n : Nat) (iwlen S0 : Int) (aggressive : Bool) (g h : Gh) (c c0 c2 c4 c5 : St) (me : Int) (M : List Int) (B : Int) (b : Build) (Dl : Int → List Int) (K Z : Finset Int) (s : Pass) : Prop where
  T : CB n iwlen S0 g c me c0 M B b
  C : Sc n g c me M b c2
  H : Ph n iwlen g me M B b.pme1 c2 Dl
  I : S2 n iwlen aggressive g me M B b.pme1 c2 Dl b.degme (g.wt me) M K Z s
  F : C4 n me s c4
  G : MG n iwlen me M B b.pme1 (g3 aggressive c2 g me M K Z) c4 Dl ((g.V.erase me).filter fun x => x ∉ M) ∅ h c5
  W : WB n c5

variable {N : Prop}

theorem Fin0.degme (Y : Fin0 n iwlen S0 aggressive g h c c0 c2 c4 c5 me M B b Dl K Z s) : c5.degree.get me = s.degme := by
  rw [show c5.degree = c4.degree by rw [Y.G.eq], show c4.degree = s.c.degree.set me s.degme by rw [Y.F.eq], Arr.set_same]

theorem Fin0.degx (Y : Fin0 n iwlen S0 aggressive g h c c0 c2 c4 c5 me M B b Dl K Z s) {x : Int} (hx : x ≠ me) (hxM : x ∉ M) : c5.degree.get x = c.degree.get x := by
  rw [show c5.degree = c4.degree by rw [Y.G.eq], show c4.degree = s.c.degree.set me s.degme by rw [Y.F.eq], Arr.set_ne _ _ hx, Y.I.dg1 x hxM, show c2.degree = b.c.degree.set me b.degme by rw [Y.C.eq]; rfl,
    Arr.set_ne _ _ hx, Y.T.dgb]

theorem Fin0.nel (Y : Fin0 n iwlen S0 aggressive g h c c0 c2 c4 c5 me M B b Dl K Z s) : c5.nel = c.nel + g.wt me + ∑ x ∈ K, g.wt x ∧ c.nel + 1 ≤ c5.nel := by
  have h1 : c5.nel = c.nel + g.wt me + ∑ x ∈ K, g.wt x := by
    rw [show c5.nel = c4.nel by rw [Y.G.eq], show c4.nel = s.c.nel by rw [Y.F.eq], Y.I.nel, show c2.nel = c.nel + g.wt me by rw [Y.C.eq]; show b.c.nel = _; rw [Y.T.bt.eq]; show c0.nel = _; rw [Y.T.cz.eq]]
  refine ⟨h1, ?_⟩
  have h2 := Y.T.inv.gr.wv me Y.T.mev
  have h3 : 0 ≤ ∑ x ∈ K, g.wt x := Finset.sum_nonneg fun x hx => (Y.T.inv.gr.wv x (Y.T.mv (Y.I.kp x hx).1).1).le
  omega

theorem Fin0.mind (Y : Fin0 n iwlen S0 aggressive g h c c0 c2 c4 c5 me M B b Dl K Z s) : c5.mindeg = c0.mindeg := by
  rw [show c5.mindeg = c4.mindeg by rw [Y.G.eq], show c4.mindeg = s.c.mindeg by rw [Y.F.eq], show s.c.mindeg = c2.mindeg by rw [Y.I.eq], show c2.mindeg = b.c.mindeg by rw [Y.C.eq]; rfl, Y.T.bt.eq]

theorem Fin0.lemx (Y : Fin0 n iwlen S0 aggressive g h c c0 c2 c4 c5 me M B b Dl K Z s) : c5.lemax = max c.lemax s.degme := by
  rw [show c5.lemax = c4.lemax by rw [Y.G.eq], show c4.lemax = max s.c.lemax s.degme by rw [Y.F.eq], show s.c.lemax = c2.lemax by rw [Y.I.eq], show c2.lemax = b.c.lemax by rw [Y.C.eq]; rfl, Y.T.bt.eq, Y.T.cz.eq]

theorem Fin0.pfr (Y : Fin0 n iwlen S0 aggressive g h c c0 c2 c4 c5 me M B b Dl K Z s) : c5.pfree = b.c.pfree := by
  rw [show c5.pfree = c4.pfree by rw [Y.G.eq], show c4.pfree = s.c.pfree by rw [Y.F.eq], show s.c.pfree = c2.pfree by rw [Y.I.eq], show c2.pfree = b.c.pfree by rw [Y.C.eq]; rfl]

theorem Fin0.iwn (Y : Fin0 n iwlen S0 aggressive g h c c0 c2 c4 c5 me M B b Dl K Z s) {q : Int} (h0 : 0 ≤ q) (h1 : q < b.c.pfree) : 0 ≤ c5.iw.get q := by
  rw [show c5.iw = c4.iw by rw [Y.G.eq], show c4.iw = s.c.iw by rw [Y.F.eq]]
  refine Y.I.nn q ?_
  rw [show c2.iw = b.c.iw by rw [Y.C.eq]; rfl]
  exact Y.T.bt.nn q h0 h1

theorem Fin0.xM (Y : Fin0 n iwlen S0 aggressive g h c c0 c2 c4 c5 me M B b Dl K Z s) {x : Int} (hx : x ∈ h.X) : x ∉ M := fun u => by
  by_cases hV : x ∈ h.V
  · exact Y.G.gr.vx x hV hx
  · have := Y.G.mw x u hV
    have := Y.G.gr.wx x hx
    omega

/-- Lists do not grow. -/
theorem Fin0.fit (Y : Fin0 n iwlen S0 aggressive g h c c0 c2 c4 c5 me M B b Dl K Z s) {x : Int} (hx : x ∈ (h.V ∪ h.X).erase me) : x ∈ restF g me (g.E me) me ∧ (h.lf x).length ≤ (g.lf x).length := by
  obtain ⟨h1, h2⟩ := Finset.mem_erase.1 hx
  have hEX := Y.T.inv.gr.ex me Y.T.mev
  have hZX : ∀ x ∈ Z, x ∈ g.X := fun x hx => by
    obtain ⟨j, hj, hjz, -⟩ := (Y.I.z x).1 hx
    exact Y.T.inv.gr.ex j (Y.T.mv hj).1 x hjz
  have hl : x ∈ live2 g me K Z := by
    rw [mem_live2, mem_restF]
    rcases Finset.mem_union.1 h2 with u | u
    · obtain ⟨v1, v2, v3⟩ := mem_g3V.1 (Y.G.sub.1 u)
      exact ⟨⟨Or.inl v1, h1, fun w => Y.T.inv.gr.vx x v1 (hEX x w), h1⟩, v3, fun w => Y.T.inv.gr.vx x v1 (hZX x w)⟩
    · rw [Y.G.sub.2.1] at u
      obtain ⟨v1, v2, v3⟩ := (mem_g3X.1 u).resolve_left h1
      exact ⟨⟨Or.inr v1, h1, v2, h1⟩, fun w => Y.T.inv.gr.vx x (Y.T.mv (Y.I.kp x w).1).1 v1, v3⟩
  refine ⟨(mem_live2.1 hl).1, ?_⟩
  have := Y.I.fit x hl
  have e : h.lf x = E2 aggressive c2 g me M K x ++ A2 c2 g M K x := by
    unfold Gh.lf
    rw [Y.G.sub.2.2.1, Y.G.sub.2.2.2]
    show E3 aggressive c2 g me M K x ++ A3 c2 g me M K x = _
    unfold E3 A3; rw [if_neg h1, if_neg h1]
  rw [e]; exact this

/-- What the return of the nodes needs. -/
theorem Fin0.hdeg (Y : Fin0 n iwlen S0 aggressive g h c c0 c2 c4 c5 me M B b Dl K Z s) : ∀ x ∈ M, x ∈ h.V → h.wt x ≤ s.degme ∧ 0 ≤ c5.degree.get x := fun x hx hxV => by
  constructor
  · rw [← Y.degme, Y.G.gr.dg me Y.G.mx]
    obtain ⟨l, hl⟩ := Y.G.fst x hx hxV
    exact Finset.single_le_sum (f := h.wt) (fun y hy => (Y.G.gr.wv y (Finset.mem_filter.1 hy).1).le) (Finset.mem_filter.2 ⟨hxV, by rw [hl]; simp⟩)
  · rw [show c5.degree = c4.degree by rw [Y.G.eq], show c4.degree = s.c.degree.set me s.degme by rw [Y.F.eq], Arr.set_ne _ _ (Y.T.mv hx).2]
    exact Y.I.dg2 x hx

/-- The graph at the end. -/
def g4 (h : Gh) (me : Int) (M : List Int) : Gh :=
  if lv h M = [] then { h.trim me (lv h M) with X := h.X.erase me, rk := fun x => if x = me then h.D else h.rk x, D := h.D + 1 } else h.trim me (lv h M)

/-- **The invariant after the step.** -/
theorem Fin0.inv (Y : Fin0 n iwlen S0 aggressive g h c c0 c2 c4 c5 me M B b Dl K Z s) (R : RS n iwlen me M b.pme1 ((g.V.erase me).filter fun x => x ∉ M) h c5 M [] r) {c' : St}
    (e1 : c' = { r.2 with nv := r.2.nv.set me s.nvpiv, len := r.2.len.set me (lv h M).length, pe := c'.pe, w := c'.w, pfree := c'.pfree })
    (e2 : c'.pe.size = n ∧ c'.w.size = n) (e3 : (lv h M = [] → c'.pe.get me = -1 ∧ (∀ x, x ≠ me → c'.pe.get x = r.2.pe.get x) ∧ ∀ x, c'.w.get x = if x = me then 0 else r.2.w.get x))
    (e4 : (lv h M ≠ [] → (∀ x, c'.pe.get x = r.2.pe.get x) ∧ ∀ x, c'.w.get x = r.2.w.get x))
    (e5 : (g.E me = [] → c'.pfree = r.2.pfree) ∧ (g.E me ≠ [] → c'.pfree = b.pme1 + (lv h M).length)) : Inv n iwlen S0 (g4 h me M) c' := by
  have f1 : c'.degree = r.2.degree := by rw [e1]
  have f2 : c'.iw = r.2.iw := by rw [e1]
  have f3 : c'.len = c5.len.set me (lv h M).length := by rw [e1, R.eq]
  have f4 : c'.elen = c5.elen := by rw [e1, R.eq]
  have f5 : c'.nv = r.2.nv.set me s.nvpiv := by rw [e1]
  have f6 : c'.next = r.2.next := by rw [e1]
  have f7 : c'.last = r.2.last := by rw [e1]
  have f8 : c'.head = r.2.head := by rw [e1]
  have f9 : c'.nel = c5.nel := by rw [e1, R.eq]
  have f10 : c'.lemax = c5.lemax := by rw [e1, R.eq]
  have f11 : c'.wflg = c5.wflg := by rw [e1, R.eq]
  have f12 : c'.mindeg = r.2.mindeg := by rw [e1]
  have rpe : r.2.pe = c5.pe := by rw [R.eq]
  have rw' : r.2.w = c5.w := by rw [R.eq]
  have rpf : r.2.pfree = b.c.pfree := by rw [R.eq]; exact Y.pfr
  have hmX := Y.G.mx
  have hmV : me ∉ h.V := fun u => Y.G.gr.vx me u hmX
  have hmn := Y.G.gr.xn me hmX
  have hL : ∀ x, x ∈ lv h M ↔ x ∈ h.A me ∧ x ∈ h.V := fun x => by
    rw [mem_lv, Y.G.sub.2.2.2]
    show _ ↔ x ∈ A3 c2 g me M K me ∧ _
    unfold A3; rw [if_pos rfl]
  have hlvl := lv_length h M
  have hB1 := Y.T.bt.B1
  have hB3 := Y.T.bt.B3
  have hpl := Y.T.bt.pl
  have hp0 := Y.T.bt.p0
  have hdg : ∀ e ∈ h.X, c'.degree.get e = c5.degree.get e := fun e he => by rw [f1]; exact R.dg e (Y.xM he)
  -- nodes and elements
  have hV4 : (g4 h me M).V = h.V := by unfold g4; split <;> rfl
  have hX4 : ∀ x, x ∈ (g4 h me M).X ↔ x ∈ h.X ∧ (x = me → lv h M ≠ []) := fun x => by
    unfold g4
    split
    · rename_i hz
      show x ∈ h.X.erase me ↔ _
      rw [Finset.mem_erase]
      exact ⟨fun u => ⟨u.2, fun v => absurd v u.1⟩, fun u => ⟨fun v => u.2 v hz, u.1⟩⟩
    · rename_i hz
      exact ⟨fun u => ⟨u, fun _ => hz⟩, fun u => u.1⟩
  have hE4 : (g4 h me M).E = h.E := by unfold g4; split <;> rfl
  have hA4 : ∀ x, (g4 h me M).A x = if x = me then lv h M else h.A x := fun x => by unfold g4; split <;> rfl
  have hw4 : (g4 h me M).wt = h.wt := by unfold g4; split <;> rfl
  have hEm : h.E me = [] := Y.G.ee me hmX
  have hlf1 : (g4 h me M).lf me = lv h M := by
    unfold Gh.lf; rw [hE4, hA4, if_pos rfl, hEm]; rfl
  have hlf2 : ∀ x, x ≠ me → (g4 h me M).lf x = h.lf x := fun x hx => by
    unfold Gh.lf; rw [hE4, hA4, if_neg hx]
  have hpe : ∀ x, x ≠ me → c'.pe.get x = c5.pe.get x := fun x hx => by
    by_cases hz : lv h M = []
    · rw [(e3 hz).2.1 x hx, rpe]
    · rw [(e4 hz).1 x, rpe]
  have hU : ∀ x ∈ (g4 h me M).V ∪ (g4 h me M).X, x ≠ me → x ∈ (h.V ∪ h.X).erase me := fun x hx hxm => by
    rw [Finset.mem_union, hV4, hX4] at hx
    exact Finset.mem_erase.2 ⟨hxm, Finset.mem_union.2 (hx.imp id fun u => u.1)⟩
  have hUm : me ∈ (g4 h me M).V ∪ (g4 h me M).X → lv h M ≠ [] := fun hx => by
    rw [Finset.mem_union, hV4, hX4] at hx
    rcases hx with u | u
    · exact absurd u hmV
    · exact u.2 rfl
  have hpem : lv h M ≠ [] → c'.pe.get me = b.pme1 := fun hz => by rw [(e4 hz).1 me, rpe]; exact Y.G.pm
  have hVdl : ((g.V.erase me).filter fun x => x ∉ M) ∪ (lv h M).toFinset = h.V := by
    ext x
    rw [Finset.mem_union, List.mem_toFinset, mem_lv]
    constructor
    · rintro (u | u)
      · exact (Y.G.vd x u).1
      · exact u.2
    · intro u
      rcases Y.G.vm x u with v | v
      · exact Or.inl v
      · exact Or.inr ⟨v, u⟩
  have hlvpos : lv h M ≠ [] → 1 ≤ (lv h M).length := fun hz => List.length_pos_iff.2 hz
  have hpf1 : c'.pfree ≤ b.c.pfree := by
    by_cases hz : g.E me = []
    · rw [e5.1 hz, rpf]
    · rw [e5.2 hz]; omega
  have hpf2 : B ≤ c'.pfree ∧ b.pme1 + (lv h M).length ≤ c'.pfree ∧ 0 ≤ c'.pfree := by
    by_cases hz : g.E me = []
    · rw [e5.1 hz, rpf]; omega
    · rw [e5.2 hz, Y.T.bt.B2 hz]; omega
  have hiwo : ∀ q, q < b.pme1 ∨ b.pme1 + M.length ≤ q → c'.iw.get q = c5.iw.get q := fun q hq => by rw [f2]; exact R.iw q hq
  refine ⟨⟨e2.1, ?_, ?_, ?_, ?_, ?_, ?_, ?_, ?_, e2.2⟩, ?_, fun x a b' => ?_, ?_, fun e he => ?_, fun x hx => ?_, fun x a b' hx => ?_, ?_, fun x hx => ?_, fun e he => ?_, ?_, fun x hx => ?_, ?_, ?_, hpf2.2.2, by omega,
    fun q h0 h1 => ?_, ?_, Y.T.inv.S⟩
  · rw [f2]; exact R.sz.iw
  · rw [f3]; exact Y.G.sz.len
  · rw [f5]; exact R.sz.nv
  · rw [f6]; exact R.sz.next
  · rw [f7]; exact R.sz.last
  · rw [f8]; exact R.sz.head
  · rw [f4]; exact Y.G.sz.elen
  · rw [f1]; exact R.sz.degree
  · rw [f9]
    have t1 := (Y.G.gr.trim hmX hL).congr (deg' := c'.degree.get) (pe' := c5.pe.get) hdg (fun _ => rfl)
    unfold g4
    split
    · rename_i hz
      refine t1.root (e := me) hmX (fun x hx u => ?_) (e3 hz).1 (fun x hx => hpe x hx)
      have := (hL x).2 ⟨Y.G.gr.es2 me hmX x hx u, hx⟩
      rw [hz] at this; simp at this
    · rename_i hz
      exact t1.congr (fun _ _ => rfl) fun x => by rw [(e4 hz).1 x, rpe]
  · rw [f5, hw4]
    by_cases hx : x = me
    · rw [hx, Arr.set_same, Y.G.wm, Y.I.nvp]
      show _ = if me ∈ K then 0 else if me = me then g.wt me + ∑ y ∈ K, g.wt y else g.wt me
      rw [if_neg (fun u => (Y.T.mv (Y.I.kp me u).1).2 rfl), if_pos rfl]
    · rw [Arr.set_ne _ _ hx, R.nv x a b' hx]; simp
  · -- the lists
    have hmem : ∀ x ∈ (g4 h me M).V ∪ (g4 h me M).X, x = me ∨ x ∈ (h.V ∪ h.X).erase me := fun x hx => by
      by_cases hxm : x = me
      · exact Or.inl hxm
      · exact Or.inr (hU x hx hxm)
    refine ⟨fun x hx => ?_, fun x hx => ?_, fun x hx => ?_, fun x hx => ?_, fun x hx => ?_, fun x hx y hy hxy => ?_, fun x hx => ?_⟩
    · rcases hmem x hx with u | u
      · rw [u]; exact hmn
      · exact Y.G.lay.sub x u
    · rcases hmem x hx with u | u
      · rw [u, hpem (hUm (u ▸ hx))]; exact hp0
      · rw [hpe x (Finset.mem_erase.1 u).1]; exact Y.G.lay.pos x u
    · rw [f3]
      rcases hmem x hx with u | u
      · rw [u, Arr.set_same, hlf1]
      · rw [Arr.set_ne _ _ (Finset.mem_erase.1 u).1, hlf2 x (Finset.mem_erase.1 u).1]; exact Y.G.lay.len x u
    · rcases hmem x hx with u | u
      · rw [u, hlf1]; exact hUm (u ▸ hx)
      · rw [hlf2 x (Finset.mem_erase.1 u).1]; exact Y.G.lay.ne x u
    · rcases hmem x hx with u | u
      · rw [u, hlf1, hpem (hUm (u ▸ hx))]; exact hpf2.2.1
      · rw [hlf2 x (Finset.mem_erase.1 u).1, hpe x (Finset.mem_erase.1 u).1]
        exact le_trans (Y.G.lay.bd x u) hpf2.1
    · rcases hmem x hx with u | u
      · rcases hmem y hy with v | v
        · exact absurd (u.trans v.symm) hxy
        · rw [u, hlf1, hpem (hUm (u ▸ hx)), hlf2 y (Finset.mem_erase.1 v).1, hpe y (Finset.mem_erase.1 v).1]
          have := Y.G.dsj y v
          omega
      · rcases hmem y hy with v | v
        · rw [v, hlf1, hpem (hUm (v ▸ hy)), hlf2 x (Finset.mem_erase.1 u).1, hpe x (Finset.mem_erase.1 u).1]
          have := Y.G.dsj x u
          omega
        · rw [hlf2 x (Finset.mem_erase.1 u).1, hpe x (Finset.mem_erase.1 u).1, hlf2 y (Finset.mem_erase.1 v).1, hpe y (Finset.mem_erase.1 v).1]
          exact Y.G.lay.disj x u y v hxy
    · rcases hmem x hx with u | u
      · rw [u, hlf1, hpem (hUm (u ▸ hx)), f2]; exact R.s1
      · rw [hlf2 x (Finset.mem_erase.1 u).1, hpe x (Finset.mem_erase.1 u).1]
        refine (Y.G.lay.val x u).congr fun q h0 h1 => hiwo q ?_
        have := Y.G.dsj x u
        omega
  · rw [hE4]; exact Y.G.ee e ((hX4 e).1 he).1
  · rw [f4, hE4]; exact Y.G.el x (hV4 ▸ hx)
  · rw [f4]; exact Y.G.eld x a b' (hV4 ▸ hx)
  · refine ⟨by rw [f11]; exact Y.W.1, fun x a b' => ?_⟩
    rw [f11]
    have := Y.W.2 x a b'
    have := Y.W.1
    by_cases hz : lv h M = []
    · rw [(e3 hz).2.2 x, rw']; split <;> omega
    · rw [(e4 hz).2 x, rw']; omega
  · rw [hV4, hX4] at hx
    by_cases hz : lv h M = []
    · have hxm : x ≠ me := fun e => by
        rcases hx with u | u
        · exact hmV (e ▸ u)
        · exact u.2 e hz
      rw [(e3 hz).2.2 x, if_neg hxm, rw']; exact Y.G.w0 x (hx.imp id fun u => u.1)
    · rw [(e4 hz).2 x, rw']; exact Y.G.w0 x (hx.imp id fun u => u.1)
  · obtain ⟨heX, hez⟩ := (hX4 e).1 he
    rw [hdg e heX, f10, Y.lemx]
    by_cases hem : e = me
    · subst hem
      have hz := hez rfl
      rw [Y.degme]
      refine ⟨?_, le_max_right _ _⟩
      obtain ⟨x, l, hxl⟩ := List.exists_cons_of_ne_nil hz
      have hx : x ∈ lv h M := by rw [hxl]; simp
      have hx' := mem_lv.1 hx
      have := (Y.hdeg x hx'.1 hx'.2).1
      have := Y.G.gr.wv x hx'.2
      omega
    · rw [Y.degx hem (Y.xM heX)]
      have heX' := heX
      rw [Y.G.sub.2.1] at heX'
      have := Y.T.inv.lm e ((mem_g3X.1 heX').resolve_left hem).1
      exact ⟨this.1, le_trans this.2 (le_max_left _ _)⟩
  · rw [hV4, f1, f6, f7, f8, ← hVdl]; exact R.dl
  · rw [f12, f1]
    rw [hV4, ← hVdl] at hx
    exact R.md x hx
  · rw [f12]; exact R.m0
  · rw [f9]; have := Y.nel.2; have := Y.T.inv.n0; omega
  · rw [f2]; exact R.nn q (Y.iwn h0 (by omega))
  · have hs := Y.T.bt.sum
    have h1 : ∑ x ∈ (g4 h me M).V ∪ (g4 h me M).X, (((g4 h me M).lf x).length : Int) ≤ ∑ x ∈ insert me ((h.V ∪ h.X).erase me), (((g4 h me M).lf x).length : Int) := by
      refine Finset.sum_le_sum_of_subset_of_nonneg (fun x hx => ?_) fun x _ _ => by omega
      by_cases hxm : x = me
      · rw [hxm]; simp
      · exact Finset.mem_insert_of_mem (hU x hx hxm)
    rw [Finset.sum_insert (by simp), hlf1] at h1
    have h2 : ∑ x ∈ (h.V ∪ h.X).erase me, (((g4 h me M).lf x).length : Int) ≤ ∑ x ∈ (h.V ∪ h.X).erase me, ((g.lf x).length : Int) := by
      refine Finset.sum_le_sum fun x hx => ?_
      rw [hlf2 x (Finset.mem_erase.1 hx).1]
      exact_mod_cast (Y.fit hx).2
    have h3 : ∑ x ∈ (h.V ∪ h.X).erase me, ((g.lf x).length : Int) ≤ ∑ x ∈ restF g me (g.E me) me, ((g.lf x).length : Int) :=
      Finset.sum_le_sum_of_subset_of_nonneg (fun x hx => (Y.fit hx).1) fun x _ _ => by omega
    omega

end

end Amd
end Hif
