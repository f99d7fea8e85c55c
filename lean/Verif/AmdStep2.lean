import Verif.AmdStep

set_option linter.unusedVariables false

/-! # One pivot: from the second pass to the merging -/

namespace Hif
namespace Amd

section
variable {n : Nat} {iwlen S0 : Int} {aggressive : Bool} {g : Gh} {c c0 c2 : St} {me : Int} {M : List Int} {B : Int} {b : Build} {Dl : Int → List Int} {K Z : Finset Int} {s : Pass} {dg0 nv0 : Int}

/-- Elements of the nodes after the pass. -/
def E3 (aggressive : Bool) (c2 : St) (g : Gh) (me : Int) (M : List Int) (K : Finset Int) (x : Int) : List Int := if x = me then [] else E2 aggressive c2 g me M K x

/-- Neighbours after the pass. -/
def A3 (c2 : St) (g : Gh) (me : Int) (M : List Int) (K : Finset Int) (x : Int) : List Int := if x = me then M else A2 c2 g M K x

/-- The graph after the pass. -/
def g3 (aggressive : Bool) (c2 : St) (g : Gh) (me : Int) (M : List Int) (K Z : Finset Int) : Gh := g.pivot me K Z (E3 aggressive c2 g me M K) (A3 c2 g me M K)

/-- What the flags say about an element. -/
theorem CB.keep (T : CB n iwlen S0 g c me c0 M B b) (C : Sc n g c me M b c2) {i e : Int} (hi : i ∈ M) (he : e ∈ g.E i) :
    (c2.w.get e = 0 ↔ e ∈ g.E me) ∧ (keepE aggressive c2.w.get c2.wflg e = false → c2.w.get e ≠ 0 → ∀ x ∈ g.V, e ∈ g.E x → x ∈ M) := by
  have heX := T.inv.gr.ex i (T.mv hi).1 e he
  constructor
  · constructor
    · intro h
      by_contra hem
      obtain ⟨u1, u2, u3⟩ := C.w2 e hem ⟨i, hi, he⟩
      have := C.wf
      omega
    · exact C.w0 e
  · intro hk hne x hx hxe
    have hem : e ∉ g.E me := fun u => hne (C.w0 e u)
    obtain ⟨u1, u2, u3⟩ := C.w2 e hem ⟨i, hi, he⟩
    have hle : c2.w.get e ≤ c2.wflg := by
      by_contra hh
      have : keepE aggressive c2.w.get c2.wflg e = true := keepE_iff.2 ⟨hne, Or.inr (by omega)⟩
      rw [this] at hk; exact absurd hk (by simp)
    by_contra hxM
    have hdg := T.inv.gr.dg e heX
    have hsub : insert x (M.toFinset.filter fun i => e ∈ g.E i) ⊆ g.V.filter fun x => e ∈ g.E x := fun y hy => by
      rcases Finset.mem_insert.1 hy with v | v
      · rw [v]; exact Finset.mem_filter.2 ⟨hx, hxe⟩
      · rw [Finset.mem_filter, List.mem_toFinset] at v
        exact Finset.mem_filter.2 ⟨(T.mv v.1).1, v.2⟩
    have h1 := Finset.sum_le_sum_of_subset_of_nonneg (f := g.wt) hsub fun y hy _ => (T.inv.gr.wv y (Finset.mem_filter.1 hy).1).le
    rw [Finset.sum_insert (fun u => hxM (List.mem_toFinset.1 (Finset.mem_filter.1 u).1))] at h1
    have := T.inv.gr.wv x hx
    omega

theorem CB.step (T : CB n iwlen S0 g c me c0 M B b) (C : Sc n g c me M b c2) (H : Ph n iwlen g me M B b.pme1 c2 Dl) (I : S2 n iwlen aggressive g me M B b.pme1 c2 Dl dg0 nv0 M K Z s) :
    Step g me M.toFinset K Z (E3 aggressive c2 g me M K) (A3 c2 g me M K) := by
  have hKM : ∀ x ∈ K, x ∈ M := fun x hx => (I.kp x hx).1
  have hEk : ∀ x ∈ M, ∀ e, e ∈ Ek aggressive c2 g x ↔ e ∈ g.E x ∧ e ∉ g.E me ∧ e ∉ Z := fun x hx e => by
    unfold Ek
    rw [List.mem_filter]
    constructor
    · rintro ⟨a, hk⟩
      refine ⟨a, fun u => (keepE_iff.1 hk).1 ((T.keep (aggressive := aggressive) C hx a).1.2 u), fun u => ?_⟩
      obtain ⟨j, -, -, -, h⟩ := (I.z e).1 u
      rw [hk] at h; exact absurd h (by simp)
    · rintro ⟨a, h1, h2⟩
      refine ⟨a, ?_⟩
      by_contra hk
      exact h2 ((I.z e).2 ⟨x, hx, a, fun u => h1 ((T.keep (aggressive := aggressive) C hx a).1.1 u), by simpa using hk⟩)
  refine ⟨T.mev, fun x => ?_, fun x hx => ?_, fun z hz => ?_, fun z hz x hx hxm hxz => ?_, fun x hx hxK => ?_, fun x hx hxK e => ?_, fun x hx hxK y => ?_, fun x hx hxm hxM => ?_, fun x hx hxm hxM => ?_, fun y hy => ?_, fun y hy hyK => ?_⟩
  · rw [List.mem_toFinset]; exact T.bt.mm x
  · obtain ⟨h1, h2, -⟩ := I.kp x hx
    refine ⟨List.mem_toFinset.2 h1, fun e he => ?_⟩
    by_contra hh
    rw [not_or] at hh
    have := (hEk x h1 e).2 ⟨he, hh⟩
    rw [h2] at this; simp at this
  · obtain ⟨j, hj, hjz, -⟩ := (I.z z).1 hz
    exact T.inv.gr.ex j (T.mv hj).1 z hjz
  · obtain ⟨j, hj, hjz, h1, h2⟩ := (I.z z).1 hz
    exact List.mem_toFinset.2 ((T.keep C hj hjz).2 h2 h1 x hx hxz)
  · rw [List.mem_toFinset] at hx
    unfold E3
    rw [if_neg (T.mv hx).2, E2_in hx hxK, List.nodup_cons]
    have hn : (Ek aggressive c2 g x).Nodup := (T.inv.gr.en x (T.mv hx).1).filter _
    refine ⟨fun u => ?_, (rot_perm _).nodup_iff.2 hn⟩
    rw [mem_rot] at u
    exact T.xm (T.inv.gr.ex x (T.mv hx).1 me ((hEk x hx me).1 u).1) rfl
  · rw [List.mem_toFinset] at hx
    unfold E3
    rw [if_neg (T.mv hx).2, E2_in hx hxK, List.mem_cons, mem_rot, hEk x hx e]
  · rw [List.mem_toFinset] at hx
    unfold A3
    rw [if_neg (T.mv hx).2, A2_in hx hxK, mem_rot]
    unfold Ak
    rw [List.mem_filter, List.mem_toFinset]
    refine and_congr_right fun hy => ?_
    obtain ⟨hyn, hyV⟩ := T.inv.gr.av x (T.mv hx).1 y hy
    unfold keepV
    rw [decide_eq_true_iff, H.nv y hyn.1 hyn.2]
    have hw := T.inv.gr.wn y hyn.1 hyn.2
    by_cases h1 : y = me ∨ y ∈ M
    · rw [if_pos h1]
      exact ⟨fun u => by omega, fun u => absurd h1 (fun v => v.elim u.2.1 u.2.2)⟩
    · rw [if_neg h1]
      rw [not_or] at h1
      exact ⟨fun u => ⟨hyV.resolve_right (by omega), h1⟩, fun u => T.inv.gr.wv y u.1⟩
  · rw [List.mem_toFinset] at hxM
    unfold E3
    rw [if_neg hxm, E2_out hxM]
  · rw [List.mem_toFinset] at hxM
    unfold A3
    rw [if_neg hxm, A2_out hxM]
  · unfold A3 at hy
    rw [if_pos rfl] at hy
    exact List.mem_toFinset.2 hy
  · unfold A3
    rw [if_pos rfl]
    exact List.mem_toFinset.1 hy

/-- Nodes of the new graph. -/
theorem mem_g3V {x : Int} : x ∈ (g3 aggressive c2 g me M K Z).V ↔ x ∈ g.V ∧ x ≠ me ∧ x ∉ K := by show x ∈ Finset.filter _ _ ↔ _; rw [Finset.mem_filter]

theorem mem_g3X {x : Int} : x ∈ (g3 aggressive c2 g me M K Z).X ↔ x = me ∨ (x ∈ g.X ∧ x ∉ g.E me ∧ x ∉ Z) := by show x ∈ insert _ (Finset.filter _ _) ↔ _; rw [Finset.mem_insert, Finset.mem_filter]

/-- The state before the merging, given the flags. -/
structure C4 (n : Nat) (me : Int) (s : Pass) (c4 : St) : Prop where
  eq : c4 = { s.c with degree := s.c.degree.set me s.degme, lemax := max s.c.lemax s.degme, w := c4.w, wflg := c4.wflg }
  ws : c4.w.size = n
  wb : WB n c4
  w0 : ∀ x : Int, 0 ≤ x → x < n → (c4.w.get x = 0 ↔ s.c.w.get x = 0)

theorem CB.wlt (T : CB n iwlen S0 g c me c0 M B b) (C : Sc n g c me M b c2) (I : S2 n iwlen aggressive g me M B b.pme1 c2 Dl dg0 nv0 M K Z s) (hd : 0 ≤ s.degme) (x : Int) (h0 : 0 ≤ x) (h1 : x < n) :
    0 ≤ s.c.w.get x ∧ s.c.w.get x < s.c.wflg + max s.c.lemax s.degme := by
  have e1 : s.c.wflg = c2.wflg := by rw [I.eq]
  have e2 : s.c.lemax = c.lemax := by rw [I.eq]; show c2.lemax = _; rw [C.eq]; show b.c.lemax = _; rw [T.bt.eq, T.cz.eq]
  have hm1 := le_max_left s.c.lemax s.degme
  have hm2 := le_max_right s.c.lemax s.degme
  have hf := C.wf
  rw [I.w x h0 h1]
  split
  · omega
  · by_cases hE : ∃ i ∈ M, x ∈ g.E i
    · by_cases hem : x ∈ g.E me
      · rw [C.w0 x hem]; omega
      · obtain ⟨u1, u2, u3⟩ := C.w2 x hem hE
        obtain ⟨i, hi, hxi⟩ := hE
        have := (T.inv.lm x (T.inv.gr.ex i (T.mv hi).1 x hxi)).2
        omega
    · have := (C.w1 x h0 h1 fun i hi u => hE ⟨i, hi, u⟩).2
      omega

/-- **The graph after the pass.** -/
theorem CB.gr3 (T : CB n iwlen S0 g c me c0 M B b) (C : Sc n g c me M b c2) (H : Ph n iwlen g me M B b.pme1 c2 Dl) (I : S2 n iwlen aggressive g me M B b.pme1 c2 Dl b.degme (g.wt me) M K Z s)
    {c4 : St} (C4 : C4 n me s c4) : s.degme = ∑ x ∈ M.toFinset.filter (fun x => x ∉ K), g.wt x ∧ Gr n (g3 aggressive c2 g me M K Z) c4.degree.get c4.pe.get c4.nel := by
  have hsub : K ⊆ M.toFinset := fun x hx => List.mem_toFinset.2 (I.kp x hx).1
  have hdm : s.degme = ∑ x ∈ M.toFinset.filter (fun x => x ∉ K), g.wt x := by
    rw [I.dgm, T.bt.dg]
    have h1 : M.toFinset.filter (fun x => x ∉ K) = M.toFinset \ K := by ext x; rw [Finset.mem_filter, Finset.mem_sdiff]
    rw [h1, ← Finset.sum_sdiff hsub]; ring
  have hnel : c4.nel = c.nel + g.wt me + ∑ x ∈ K, g.wt x := by
    rw [C4.eq]
    show s.c.nel = _
    rw [I.nel, show c2.nel = c.nel + g.wt me by rw [C.eq]; show b.c.nel = _; rw [T.bt.eq]; show c0.nel = _; rw [T.cz.eq]]
  refine ⟨hdm, ?_⟩
  rw [hnel]
  have e1 : c4.pe = s.c.pe := by rw [C4.eq]
  have e2 : c4.degree = s.c.degree.set me s.degme := by rw [C4.eq]
  refine T.inv.gr.pivot (T.step C H I) ?_ (fun e he h1 h2 => ?_) (fun x hx => ?_) (fun x h1 h2 => ?_)
  · rw [e2, Arr.set_same]; exact hdm
  · rw [e2, Arr.set_ne _ _ (T.xm he), I.dg1 e fun u => T.inv.gr.vx e (T.mv u).1 he, show c2.degree = b.c.degree.set me b.degme by rw [C.eq]; rfl, Arr.set_ne _ _ (T.xm he), T.dgb]
  · rw [e1, I.pe x]
    rcases hx with u | u | u
    · by_cases hKZ : x ∈ K ∨ x ∈ Z
      · rw [if_pos hKZ]
      · have hxX := T.inv.gr.ex me T.mev x u
        rw [if_neg hKZ, show c2.pe = b.c.pe.set me b.pme1 by rw [C.eq]; rfl, Arr.set_ne _ _ (T.xm hxX)]
        exact T.bt.peA x u
    · rw [if_pos (Or.inr u)]
    · rw [if_pos (Or.inl u)]
  · have hxm : x ≠ me := fun e => h1 (e ▸ T.mev)
    have hxK : x ∉ K := fun u => h1 (T.mv (I.kp x u).1).1
    have hxZ : x ∉ Z := fun u => by
      obtain ⟨j, hj, hjz, -⟩ := (I.z x).1 u
      exact h2 (T.inv.gr.ex j (T.mv hj).1 x hjz)
    rw [e1, I.pe x, if_neg (fun u => u.elim hxK hxZ), show c2.pe = b.c.pe.set me b.pme1 by rw [C.eq]; rfl, Arr.set_ne _ _ hxm, T.bt.peD x h1 h2, show c0.pe = c.pe by rw [T.cz.eq]]

/-- **Before the merging.** -/
theorem CB.mg (T : CB n iwlen S0 g c me c0 M B b) (C : Sc n g c me M b c2) (H : Ph n iwlen g me M B b.pme1 c2 Dl) (I : S2 n iwlen aggressive g me M B b.pme1 c2 Dl b.degme (g.wt me) M K Z s)
    {c4 : St} (F : C4 n me s c4) : MG n iwlen me M B b.pme1 (g3 aggressive c2 g me M K Z) c4 Dl ((g.V.erase me).filter fun x => x ∉ M) (M.toFinset.filter fun x => x ∉ K) (g3 aggressive c2 g me M K Z) c4 := by
  have e1 : c4.pe = s.c.pe := by rw [F.eq]
  have e2 : c4.degree = s.c.degree.set me s.degme := by rw [F.eq]
  have e3 : c4.iw = s.c.iw := by rw [F.eq]
  have e4 : c4.len = s.c.len := by rw [F.eq]
  have e5 : c4.elen = s.c.elen := by rw [F.eq]
  have e6 : c4.nv = s.c.nv := by rw [F.eq]
  have e7 : c4.next = s.c.next := by rw [F.eq]
  have e8 : c4.last = s.c.last := by rw [F.eq]
  have e9 : c4.head = s.c.head := by rw [F.eq]
  have hZX : ∀ x ∈ Z, x ∈ g.X := fun x hx => by
    obtain ⟨j, hj, hjz, -⟩ := (I.z x).1 hx
    exact T.inv.gr.ex j (T.mv hj).1 x hjz
  have hEX := T.inv.gr.ex me T.mev
  have hKV : ∀ x ∈ K, x ∈ g.V := fun x hx => (T.mv (I.kp x hx).1).1
  have hmM : me ∉ M := fun u => (T.mv u).2 rfl
  have hlive : ∀ x, x ∈ ((g3 aggressive c2 g me M K Z).V ∪ (g3 aggressive c2 g me M K Z).X).erase me ↔ x ∈ live2 g me K Z := fun x => by
    rw [Finset.mem_erase, Finset.mem_union, mem_g3V, mem_g3X, mem_live2, mem_restF]
    constructor
    · rintro ⟨h0, ⟨h1, h2, h3⟩ | h1 | ⟨h1, h2, h3⟩⟩
      · exact ⟨⟨Or.inl h1, h2, fun u => T.inv.gr.vx x h1 (hEX x u), h2⟩, h3, fun u => T.inv.gr.vx x h1 (hZX x u)⟩
      · exact absurd h1 h0
      · exact ⟨⟨Or.inr h1, h0, h2, h0⟩, fun u => T.inv.gr.vx x (hKV x u) h1, h3⟩
    · rintro ⟨⟨h1 | h1, h2, h3, -⟩, h4, h5⟩
      · exact ⟨h2, Or.inl ⟨h1, h2, h4⟩⟩
      · exact ⟨h2, Or.inr (Or.inr ⟨h1, h3, h5⟩)⟩
  have hlf : ∀ x, x ≠ me → (g3 aggressive c2 g me M K Z).lf x = E2 aggressive c2 g me M K x ++ A2 c2 g M K x := fun x hx => by
    show E3 aggressive c2 g me M K x ++ A3 c2 g me M K x = _
    unfold E3 A3; rw [if_neg hx, if_neg hx]
  have hE : ∀ x, x ≠ me → (g3 aggressive c2 g me M K Z).E x = E2 aggressive c2 g me M K x := fun x hx => by
    show E3 aggressive c2 g me M K x = _
    unfold E3; rw [if_neg hx]
  have hwt : ∀ x, x ≠ me → (g3 aggressive c2 g me M K Z).wt x = if x ∈ K then 0 else g.wt x := fun x hx => by
    show (if x ∈ K then 0 else if x = me then _ else g.wt x) = _
    rw [if_neg hx]
  have hlm : ∀ x ∈ live2 g me K Z, x ≠ me := fun x hx => (mem_restF.1 (mem_live2.1 hx).1).2.1
  refine ⟨rfl, ⟨?_, ?_, ?_, ?_, ?_, ?_, ?_, ?_, ?_, F.ws⟩, (T.gr3 C H I F).2, ?_, fun x hx => ?_, mem_g3X.2 (Or.inl rfl), fun x hx hxV => ?_, fun x hx => ?_, fun x a b' hx => ?_, fun x a b' hx => ?_, fun e he => ?_, ?_,
    fun x hx => ?_, fun x hx => ?_, fun x hx => ?_, fun x hx hxV => ?_, fun x hx => ?_, ⟨fun x hx => hx, rfl, rfl, rfl⟩, fun x hx hxV => ?_, rfl, ?_⟩
  · rw [e1]; exact I.sz.pe
  · rw [e3]; exact I.sz.iw
  · rw [e4]; exact I.sz.len
  · rw [e6]; exact I.sz.nv
  · rw [e7]; exact I.sz.next
  · rw [e8]; exact I.sz.last
  · rw [e9]; exact I.sz.head
  · rw [e5]; exact I.sz.elen
  · rw [e2]; exact I.sz.degree
  · rw [e1, e3, e4]
    refine I.lay.same (fun x hx => (hlive x).1 hx) (fun x _ => rfl) (fun x hx => hlf x (hlm x ((hlive x).1 hx))) (fun x hx => ?_) (fun q _ _ => rfl) (le_refl _)
    rw [hlf x (hlm x ((hlive x).1 hx))]; exact I.lay.len x ((hlive x).1 hx)
  · have hx' := (hlive x).1 hx
    obtain ⟨h1, h2, h3⟩ := mem_live2.1 hx'
    have h4 := H.dsj x h1
    have h5 := I.fit x hx'
    rw [e1, I.pe x, if_neg (fun u => u.elim h2 h3), hlf x (hlm x hx')]
    omega
  · obtain ⟨h1, h2, h3⟩ := mem_g3V.1 hxV
    exact ⟨_, by rw [hE x h2, E2_in hx h3]⟩
  · obtain ⟨h1, h2, h3⟩ := mem_g3V.1 hx
    rw [e5, hE x h2]
    by_cases hxM : x ∈ M
    · exact I.el2 x hxM h3
    · rw [I.el1 x hxM, E2_out hxM]; exact H.el x h1 h2
  · rw [e5]
    by_cases hxK : x ∈ K
    · rw [I.el3 x hxK]
    · by_cases hxm : x = me
      · rw [hxm, I.el1 me hmM, show c2.elen = b.c.elen.set me (flip (g.wt me + b.degme)) by rw [C.eq]; rfl, Arr.set_same]
        have h1 := T.inv.gr.wv me T.mev
        have h2 : 0 ≤ b.degme := by
          rw [T.bt.dg]
          exact Finset.sum_nonneg fun y hy => (T.inv.gr.wv y (T.mv (List.mem_toFinset.1 hy)).1).le
        unfold flip; omega
      · have hxV : x ∉ g.V := fun u => hx (mem_g3V.2 ⟨u, hxm, hxK⟩)
        rw [I.el1 x fun u => hxV (T.mv u).1, show c2.elen = b.c.elen.set me (flip (g.wt me + b.degme)) by rw [C.eq]; rfl, Arr.set_ne _ _ hxm, T.elb]
        exact T.inv.eld x a b' hxV
  · rw [e6, I.nv x, hwt x hx]
    by_cases hxK : x ∈ K
    · rw [if_pos hxK, if_pos hxK]; simp
    · rw [if_neg hxK, if_neg hxK, H.nv x a b']
      have : x = me ∨ x ∈ M ↔ x ∈ M := ⟨fun u => u.resolve_left hx, Or.inr⟩
      simp only [this]
  · rcases mem_g3X.1 he with u | ⟨h1, h2, h3⟩
    · show E3 aggressive c2 g me M K e = []
      unfold E3; rw [if_pos u]
    · rw [hE e (T.xm h1), E2_out fun u => T.inv.gr.vx e (T.mv u).1 h1]; exact T.inv.ee e h1
  · obtain ⟨Bl, D, Bk⟩ := I.bk
    refine ⟨Bl, ?_, by rw [e7, e8]; exact Bk⟩
    rw [e2, e7, e8, e9]
    exact D.congr (fun d _ _ => rfl) (fun x _ => rfl) (fun x _ => rfl) fun x hx => Arr.set_ne (k := x) _ _ fun e : x = me => by
      subst e
      exact absurd (Finset.mem_filter.1 hx).1 (by simp)
  · obtain ⟨h1, h2⟩ := Finset.mem_filter.1 hx
    obtain ⟨h3, h4⟩ := Finset.mem_erase.1 h1
    exact ⟨mem_g3V.2 ⟨h4, h3, fun u => h2 (I.kp x u).1⟩, h2⟩
  · obtain ⟨h1, h2, h3⟩ := mem_g3V.1 hx
    by_cases hxM : x ∈ M
    · exact Or.inr hxM
    · exact Or.inl (Finset.mem_filter.2 ⟨Finset.mem_erase.2 ⟨h2, h1⟩, hxM⟩)
  · obtain ⟨h1, h2⟩ := Finset.mem_filter.1 hx
    rw [List.mem_toFinset] at h1
    exact ⟨h1, mem_g3V.2 ⟨(T.mv h1).1, (T.mv h1).2, h2⟩⟩
  · obtain ⟨Bl, D, Bk⟩ := I.bk
    rw [e8]
    exact (Bk.rng x (Finset.mem_filter.2 ⟨List.mem_toFinset.2 hx, (mem_g3V.1 hxV).2.2⟩)).2
  · have hxn : 0 ≤ x ∧ x < (n : Int) := by
      rcases hx with u | u
      · exact T.inv.gr.vn x (mem_g3V.1 u).1
      · rcases mem_g3X.1 u with v | v
        · rw [v]; exact T.inv.gr.vn me T.mev
        · exact T.inv.gr.xn x v.1
    rw [Ne, F.w0 x hxn.1 hxn.2, I.w x hxn.1 hxn.2]
    have key : (x ∈ g.V ∨ (x ∈ g.X ∧ x ∉ g.E me ∧ x ∉ Z)) → ¬ (if x ∈ Z then (0 : Int) else c2.w.get x) = 0 := fun hh => by
      have hxZ : x ∉ Z := hh.elim (fun u v => T.inv.gr.vx x u (hZX x v)) fun u => u.2.2
      have hxE : x ∉ g.E me := hh.elim (fun u v => T.inv.gr.vx x u (hEX x v)) fun u => u.2.1
      rw [if_neg hxZ]
      by_cases hex : ∃ i ∈ M, x ∈ g.E i
      · obtain ⟨u1, u2, u3⟩ := C.w2 x hxE hex
        have := C.wf
        omega
      · rw [(C.w1 x hxn.1 hxn.2 fun i hi u => hex ⟨i, hi, u⟩).1 hxE]
        exact T.inv.w0 x (hh.imp id fun u => u.1)
    apply key
    rcases hx with u | u
    · exact Or.inl (mem_g3V.1 u).1
    · rcases mem_g3X.1 u with v | v
      · rw [v]; exact Or.inl T.mev
      · exact Or.inr v
  · have hxm : x ≠ me := (T.mv hx).2
    rw [hwt x hxm]
    by_cases hxK : x ∈ K
    · rw [if_pos hxK]
    · exact absurd (mem_g3V.2 ⟨(T.mv hx).1, hxm, hxK⟩) hxV
  · rw [e1, I.pe me, if_neg (fun u => u.elim (fun v => hmM (I.kp me v).1) fun v => T.xm (hZX me v) rfl), show c2.pe = b.c.pe.set me b.pme1 by rw [C.eq]; rfl, Arr.set_same]

end

end Amd
end Hif
