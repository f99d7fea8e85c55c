import Verif.AmdRestore

set_option linter.unusedVariables false

/-! # One pivot: the parts fit together -/

namespace Hif
namespace Amd

/-- Invariant between two pivots; `S0` bounds the sum of the lengths of the lists. -/
structure Inv (n : Nat) (iwlen S0 : Int) (g : Gh) (c : St) : Prop where
  sz : Szs n iwlen c
  gr : Gr n g c.degree.get c.pe.get c.nel
  nv : ∀ x : Int, 0 ≤ x → x < n → c.nv.get x = g.wt x
  lay : Lay n (g.V ∪ g.X) g.lf c.pe.get c.len.get c.iw.get c.pfree
  ee : ∀ e ∈ g.X, g.E e = []
  el : ∀ x ∈ g.V, c.elen.get x = (g.E x).length
  eld : ∀ x : Int, 0 ≤ x → x < n → x ∉ g.V → c.elen.get x ≤ -1
  wb : WB n c
  w0 : ∀ x : Int, x ∈ g.V ∨ x ∈ g.X → c.w.get x ≠ 0
  lm : ∀ e ∈ g.X, 0 < c.degree.get e ∧ c.degree.get e ≤ c.lemax
  dl : ∃ Dl, DLs n g.V Dl noB c.head.get c.next.get c.last.get c.degree.get
  md : ∀ x ∈ g.V, c.mindeg ≤ c.degree.get x
  m0 : 0 ≤ c.mindeg
  n0 : 0 ≤ c.nel
  p0 : 0 ≤ c.pfree
  pl : c.pfree ≤ iwlen
  nn : ∀ q : Int, 0 ≤ q → q < c.pfree → 0 ≤ c.iw.get q
  sum : ∑ x ∈ g.V ∪ g.X, ((g.lf x).length : Int) ≤ S0
  S : S0 + n ≤ iwlen

section
variable {n : Nat} {iwlen S0 : Int} {g : Gh} {c c0 : St} {me : Int} {M : List Int} {B : Int} {b : Build}

theorem Inv.dead (I : Inv n iwlen S0 g c) {x : Int} (h0 : 0 ≤ x) (h1 : x < n) (hV : x ∉ g.V) (hX : x ∉ g.X) : c.pe.get x ≤ -1 := by
  rcases I.gr.tree x h0 h1 hV hX with ⟨u, -⟩ | ⟨y, hy, u, -⟩
  · omega
  · rw [u]; unfold flip; omega

/-- Before the construction of the new element. -/
structure C0 (n : Nat) (g : Gh) (c : St) (me : Int) (c0 : St) : Prop where
  eq : c0 = { c with last := c0.last, head := c0.head, nv := c.nv.set me (-g.wt me), nel := c.nel + g.wt me, mindeg := c0.mindeg }
  hs : c0.head.size = n
  ls : c0.last.size = n
  dl : ∃ Dl, DLs n (g.V.erase me) Dl noB c0.head.get c0.next.get c0.last.get c0.degree.get
  md : ∀ x ∈ g.V, c0.mindeg ≤ c.degree.get x
  m0 : 0 ≤ c0.mindeg

theorem Inv.bh (I : Inv n iwlen S0 g c) (hme : me ∈ g.V) (C : C0 n g c me c0) : BH n iwlen S0 g me c0 :=
  ⟨I.gr.vn, I.gr.xn, I.gr.wv, I.gr.vx, hme, I.gr.en me hme, I.gr.ex me hme, I.ee, I.gr.av me hme, I.gr.ax, fun x a b c d => by rw [show c0.pe = _ by rw [C.eq]]; exact I.dead a b c d, I.S⟩

theorem Inv.bp (I : Inv n iwlen S0 g c) (hme : me ∈ g.V) (C : C0 n g c me c0) : BP n iwlen S0 g me c0 := by
  have e1 : c0.pe = c.pe := by rw [C.eq]
  have e2 : c0.len = c.len := by rw [C.eq]
  have e3 : c0.iw = c.iw := by rw [C.eq]
  have e4 : c0.pfree = c.pfree := by rw [C.eq]
  have e5 : c0.nv = c.nv.set me (-g.wt me) := by rw [C.eq]
  refine ⟨⟨?_, ?_, ?_, ?_, ?_, C.ls, C.hs, ?_, ?_, ?_⟩, ?_, fun x a b => ?_, C.dl, by rw [e4]; exact I.p0, by rw [e4]; exact I.pl, by rw [e3, e4]; exact I.nn, I.sum⟩
  · rw [e1]; exact I.sz.pe
  · rw [e3]; exact I.sz.iw
  · rw [e2]; exact I.sz.len
  · rw [e5]; exact I.sz.nv
  · rw [show c0.next = c.next by rw [C.eq]]; exact I.sz.next
  · rw [show c0.elen = c.elen by rw [C.eq]]; exact I.sz.elen
  · rw [show c0.degree = c.degree by rw [C.eq]]; exact I.sz.degree
  · rw [show c0.w = c.w by rw [C.eq]]; exact I.sz.w
  · rw [e1, e2, e3, e4]; exact I.lay
  · rw [e5]
    by_cases hx : x = me
    · rw [hx, Arr.set_same, if_pos rfl]
    · rw [Arr.set_ne _ _ hx, if_neg hx]; exact I.nv x a b

/-- After the construction. -/
structure CB (n : Nat) (iwlen S0 : Int) (g : Gh) (c : St) (me : Int) (c0 : St) (M : List Int) (B : Int) (b : Build) : Prop where
  inv : Inv n iwlen S0 g c
  mev : me ∈ g.V
  cz : C0 n g c me c0
  bt : Built n iwlen S0 g me c0 M B b

/-- The state with the entries of the pivot. -/
def cB (g : Gh) (me : Int) (b : Build) : St := { b.c with degree := b.c.degree.set me b.degme, pe := b.c.pe.set me b.pme1, len := b.c.len.set me (b.pme2 - b.pme1 + 1), elen := b.c.elen.set me (flip (g.wt me + b.degme)) }

theorem CB.mv (T : CB n iwlen S0 g c me c0 M B b) {x : Int} (hx : x ∈ M) : x ∈ g.V ∧ x ≠ me := ⟨((T.bt.mm x).1 hx).1, ((T.bt.mm x).1 hx).2.1⟩

theorem CB.dgb (T : CB n iwlen S0 g c me c0 M B b) : b.c.degree = c.degree := by rw [T.bt.eq, T.cz.eq]
theorem CB.elb (T : CB n iwlen S0 g c me c0 M B b) : b.c.elen = c.elen := by rw [T.bt.eq, T.cz.eq]
theorem CB.wfb (T : CB n iwlen S0 g c me c0 M B b) : b.c.wflg = c.wflg := by rw [T.bt.eq, T.cz.eq]
theorem CB.wb (T : CB n iwlen S0 g c me c0 M B b) (x : Int) : b.c.w.get x = if x ∈ g.E me then 0 else c.w.get x := by
  rw [T.bt.w x, show c0.w = c.w by rw [T.cz.eq]]

theorem CB.xm (T : CB n iwlen S0 g c me c0 M B b) {x : Int} (hx : x ∈ g.X) : x ≠ me := fun e => T.inv.gr.vx me T.mev (e ▸ hx)

/-- Before the scan. -/
structure C1 (n : Nat) (g : Gh) (me : Int) (b : Build) (c1 : St) : Prop where
  eq : c1 = { cB g me b with w := c1.w, wflg := c1.wflg }
  ws : c1.w.size = n
  wf : 2 ≤ c1.wflg
  wl : ∀ x : Int, 0 ≤ x → x < n → 0 ≤ c1.w.get x ∧ c1.w.get x < c1.wflg
  w0 : ∀ x : Int, 0 ≤ x → x < n → (c1.w.get x = 0 ↔ b.c.w.get x = 0)

theorem CB.sh (T : CB n iwlen S0 g c me c0 M B b) {c1 : St} (C : C1 n g me b c1) : SH n iwlen g me M c1 b.pme1 := by
  have e1 : c1.pe = b.c.pe.set me b.pme1 := by rw [C.eq]; rfl
  have e2 : c1.iw = b.c.iw := by rw [C.eq]; rfl
  have e3 : c1.elen = b.c.elen.set me (flip (g.wt me + b.degme)) := by rw [C.eq]; rfl
  have e4 : c1.nv = b.c.nv := by rw [C.eq]; rfl
  have e5 : c1.degree = b.c.degree.set me b.degme := by rw [C.eq]; rfl
  have hr : ∀ i ∈ M, i ∈ restF g me (g.E me) me := fun i hi => mem_restF.2 ⟨Or.inl (T.mv hi).1, (T.mv hi).2, fun u => T.inv.gr.vx i (T.mv hi).1 (T.inv.gr.ex me T.mev i u), (T.mv hi).2⟩
  have hpf := T.bt.B1
  have hpl := T.bt.pl
  have hB3 := T.bt.B3
  refine ⟨⟨?_, ?_, ?_, ?_, ?_, ?_, ?_, ?_, ?_, C.ws⟩, fun i hi => (T.mv hi).1, T.bt.mn, T.inv.gr.vn, T.inv.gr.xn, T.inv.gr.wv, T.inv.gr.en, T.inv.gr.ex, fun e he hem => ?_, by rw [e2]; exact T.bt.seg, T.bt.p0, by omega,
    fun i hi => ?_, fun i hi => ?_, fun i hi => ?_, fun x hx => ?_, fun x hx hxm => ?_, C.wl⟩
  · rw [e1]; exact T.bt.sz.pe
  · rw [e2]; exact T.bt.sz.iw
  · rw [show c1.len = b.c.len.set me (b.pme2 - b.pme1 + 1) by rw [C.eq]; rfl]; exact T.bt.sz.len
  · rw [e4]; exact T.bt.sz.nv
  · rw [show c1.next = b.c.next by rw [C.eq]; rfl]; exact T.bt.sz.next
  · rw [show c1.last = b.c.last by rw [C.eq]; rfl]; exact T.bt.sz.last
  · rw [show c1.head = b.c.head by rw [C.eq]; rfl]; exact T.bt.sz.head
  · rw [e3]; exact T.bt.sz.elen
  · rw [e5]; exact T.bt.sz.degree
  · rw [e5, Arr.set_ne _ _ (T.xm he), T.dgb]; exact T.inv.gr.dg e he
  · rw [e3, Arr.set_ne _ _ (T.mv hi).2, T.elb]; exact T.inv.el i (T.mv hi).1
  · have hin := T.inv.gr.vn i (T.mv hi).1
    rw [e4, T.bt.nv i hin.1 hin.2, if_pos (Or.inr hi)]
  · rw [e1, e2, Arr.set_ne _ _ (T.mv hi).2]
    have h1 := T.bt.lay.val i (hr i hi)
    have h2 := T.bt.lay.pos i (hr i hi)
    have h3 := T.bt.lay.bd i (hr i hi)
    unfold Gh.lf at h1 h3
    rw [seg_append] at h1
    rw [List.length_append] at h3
    push_cast at h3
    exact ⟨h1.1, h2, by omega⟩
  · have hxn := T.inv.gr.xn x (T.inv.gr.ex me T.mev x hx)
    rw [C.w0 x hxn.1 hxn.2, T.wb, if_pos hx]
  · have hxn := T.inv.gr.xn x hx
    rw [Ne, C.w0 x hxn.1 hxn.2, T.wb, if_neg hxm]; exact T.inv.w0 x (Or.inr hx)

/-- After the scan. -/
structure Sc (n : Nat) (g : Gh) (c : St) (me : Int) (M : List Int) (b : Build) (c2 : St) : Prop where
  eq : c2 = { cB g me b with w := c2.w, wflg := c2.wflg }
  ws : c2.w.size = n
  wf : 2 ≤ c2.wflg
  w0 : ∀ x ∈ g.E me, c2.w.get x = 0
  w1 : ∀ x : Int, 0 ≤ x → x < n → (∀ i ∈ M, x ∉ g.E i) → (x ∉ g.E me → (c2.w.get x = 0 ↔ c.w.get x = 0)) ∧ 0 ≤ c2.w.get x ∧ c2.w.get x < c2.wflg
  w2 : ∀ x, x ∉ g.E me → (∃ i ∈ M, x ∈ g.E i) → c2.w.get x = c2.wflg + c.degree.get x - ∑ i ∈ M.toFinset.filter (fun i => x ∈ g.E i), g.wt i ∧
    0 < ∑ i ∈ M.toFinset.filter (fun i => x ∈ g.E i), g.wt i ∧ ∑ i ∈ M.toFinset.filter (fun i => x ∈ g.E i), g.wt i ≤ c.degree.get x

theorem CB.sc (T : CB n iwlen S0 g c me c0 M B b) {c1 c2 : St} (C : C1 n g me b c1) (h1 : c2 = { c1 with w := c2.w }) (h2 : c2.w.size = n)
    (h3 : ∀ x : Int, 0 ≤ x → x < n → c2.w.get x = wS c1 (sF g me M) x) : Sc n g c me M b c2 := by
  have hf : c2.wflg = c1.wflg := by rw [h1]
  have H := T.sh C
  have hEn : ∀ x ∈ g.E me, (0 ≤ x ∧ x < (n : Int)) := fun x hx => T.inv.gr.xn x (T.inv.gr.ex me T.mev x hx)
  refine ⟨?_, h2, by rw [hf]; exact C.wf, fun x hx => ?_, fun x a b' hx => ?_, fun x hx hi => ?_⟩
  · refine h1.trans ?_
    rw [hf]
    exact congrArg (fun t : St => { t with w := c2.w }) C.eq
  · have hxn := hEn x hx
    rw [h3 x hxn.1 hxn.2, wS_of (v := 0) (by unfold sF; rw [if_neg (fun u => u hx)]), if_pos rfl]
    exact H.w0 x hx
  · have hs : sF g me M x = 0 := by
      unfold sF
      split
      · refine Finset.sum_eq_zero fun i hi => ?_
        rw [Finset.mem_filter, List.mem_toFinset] at hi
        exact absurd hi.2 (hx i hi.1)
      · rfl
    rw [h3 x a b', wS_of hs, if_pos rfl, hf]
    exact ⟨fun hxm => by rw [C.w0 x a b', T.wb, if_neg hxm], C.wl x a b'⟩
  · obtain ⟨i, hi, hxi⟩ := hi
    have hxX := T.inv.gr.ex i (T.mv hi).1 x hxi
    have hxn := T.inv.gr.xn x hxX
    have hs : sF g me M x = ∑ i ∈ M.toFinset.filter (fun i => x ∈ g.E i), g.wt i := by unfold sF; rw [if_pos hx]
    have hd : c1.degree.get x = c.degree.get x := by
      rw [show c1.degree = b.c.degree.set me b.degme by rw [C.eq]; rfl, Arr.set_ne _ _ (T.xm hxX), T.dgb]
    have hpos : 0 < ∑ i ∈ M.toFinset.filter (fun i => x ∈ g.E i), g.wt i := by
      have h5 := Finset.single_le_sum (f := g.wt) (s := M.toFinset.filter (fun i => x ∈ g.E i)) (a := i)
        (fun y hy => (T.inv.gr.wv y (T.mv (List.mem_toFinset.1 (Finset.mem_filter.1 hy).1)).1).le) (Finset.mem_filter.2 ⟨List.mem_toFinset.2 hi, hxi⟩)
      have := T.inv.gr.wv i (T.mv hi).1
      omega
    have hle := sF_le H (P := M) (fun i hi => (T.mv hi).1) hxX hx
    rw [hs, hd] at hle
    refine ⟨?_, hpos, hle⟩
    rw [h3 x hxn.1 hxn.2, wS_of hs, if_neg (by omega), hd, hf]

theorem CB.ph (T : CB n iwlen S0 g c me c0 M B b) {c2 : St} (C : Sc n g c me M b c2) : ∃ Dl, Ph n iwlen g me M B b.pme1 c2 Dl := by
  obtain ⟨Dl, D⟩ := T.bt.dl
  have e1 : c2.pe = b.c.pe.set me b.pme1 := by rw [C.eq]; rfl
  have e2 : c2.iw = b.c.iw := by rw [C.eq]; rfl
  have e3 : c2.elen = b.c.elen.set me (flip (g.wt me + b.degme)) := by rw [C.eq]; rfl
  have e4 : c2.nv = b.c.nv := by rw [C.eq]; rfl
  have e5 : c2.degree = b.c.degree.set me b.degme := by rw [C.eq]; rfl
  have e6 : c2.len = b.c.len.set me (b.pme2 - b.pme1 + 1) := by rw [C.eq]; rfl
  have e7 : c2.next = b.c.next := by rw [C.eq]; rfl
  have e8 : c2.last = b.c.last := by rw [C.eq]; rfl
  have e9 : c2.head = b.c.head := by rw [C.eq]; rfl
  have hpf := T.bt.B1
  have hpl := T.bt.pl
  have hB3 := T.bt.B3
  have hrm : ∀ x ∈ restF g me (g.E me) me, x ≠ me := fun x hx => (mem_restF.1 hx).2.1
  refine ⟨Dl, ⟨?_, ?_, ?_, ?_, ?_, ?_, ?_, ?_, ?_, C.ws⟩, fun i hi => T.mv hi, T.bt.mn, T.mev, T.inv.gr.vn, T.inv.gr.xn, T.inv.gr.vx, T.inv.gr.wv, T.inv.gr.en, T.inv.gr.ex, fun i hi y hy => (T.inv.gr.av i hi y hy).1,
    ?_, fun x hx => ?_, fun x hx hxm => ?_, fun x a b' => ?_, by rw [e2]; exact T.bt.seg, T.bt.p0, by omega, by omega, fun i hi e he hne => ?_, fun x hx => ?_, fun i hi => ?_, ?_⟩
  · rw [e1]; exact T.bt.sz.pe
  · rw [e2]; exact T.bt.sz.iw
  · rw [e6]; exact T.bt.sz.len
  · rw [e4]; exact T.bt.sz.nv
  · rw [e7]; exact T.bt.sz.next
  · rw [e8]; exact T.bt.sz.last
  · rw [e9]; exact T.bt.sz.head
  · rw [e3]; exact T.bt.sz.elen
  · rw [e5]; exact T.bt.sz.degree
  · refine T.bt.lay.same (fun x hx => hx) (fun x hx => by rw [e1, Arr.set_ne _ _ (hrm x hx)]) (fun x hx => rfl) (fun x hx => ?_) (fun q _ _ => by rw [e2]) (le_refl _)
    rw [e6, Arr.set_ne _ _ (hrm x hx)]; exact T.bt.lay.len x hx
  · rw [e1, Arr.set_ne _ _ (hrm x hx)]; exact T.bt.dsj x hx
  · rw [e3, Arr.set_ne _ _ hxm, T.elb]; exact T.inv.el x hx
  · rw [e4]; exact T.bt.nv x a b'
  · by_cases hem : e ∈ g.E me
    · exact absurd (C.w0 e hem) hne
    · obtain ⟨u1, u2, u3⟩ := C.w2 e hem ⟨i, hi, he⟩
      omega
  · obtain ⟨Dl0, D0⟩ := T.inv.dl
    rw [e5, Arr.set_ne _ _ (T.mv hx).2, T.dgb]
    exact (D0.rng x (T.mv hx).1).2.1
  · rcases ((T.bt.mm i).1 hi).2.2 with u | ⟨e, he, u⟩
    · exact Or.inr (T.inv.gr.sym me T.mev i (T.mv hi).1 u)
    · exact Or.inl ⟨e, T.inv.gr.es1 e (T.inv.gr.ex me T.mev e he) i (T.mv hi).1 u, C.w0 e he⟩
  · rw [e5, e7, e8, e9]
    exact D.congr (fun d _ _ => rfl) (fun x _ => rfl) (fun x _ => rfl) fun x hx => Arr.set_ne (k := x) _ _ fun e : x = me => by
      subst e
      exact absurd (Finset.mem_filter.1 hx).1 (by simp)

end

end Amd
end Hif
