import Verif.AmdPass

set_option linter.unusedVariables false

/-! # Second pass over the new element: one node -/

namespace Hif
namespace Amd

section
variable {n : Nat} {iwlen : Int} {aggressive : Bool} {g : Gh} {me : Int} {M : List Int} {B pme1 : Int} {c2 : St} {Dl : Int → List Int}
variable {dg0 nv0 : Int} {P Q : List Int} {K Z : Finset Int} {i : Int} {s : Pass}

/-- Simple facts about the node. -/
structure At (n : Nat) (g : Gh) (me : Int) (M : List Int) (c2 : St) (P : List Int) (K Z : Finset Int) (i : Int) (s : Pass) : Prop where
  im : i ∈ M
  ip : i ∉ P
  iv : i ∈ g.V
  inn : 0 ≤ i ∧ i < (n : Int)
  ik : i ∉ K
  iz : i ∉ Z
  pm : ∀ x ∈ P, x ∈ M
  zx : ∀ x ∈ Z, x ∈ g.X
  pei : s.c.pe.get i = c2.pe.get i

theorem S2.at (H : Ph n iwlen g me M B pme1 c2 Dl) (hM : M = P ++ i :: Q) (I : S2 n iwlen aggressive g me M B pme1 c2 Dl dg0 nv0 P K Z s) : At n g me M c2 P K Z i s := by
  have hiM : i ∈ M := by rw [hM]; simp
  have hiP : i ∉ P := fun u => by
    have := H.mn
    rw [hM] at this
    exact (List.nodup_append.1 this).2.2 i u i (by simp) rfl
  have hiV := (H.mv i hiM).1
  have hiK : i ∉ K := fun u => hiP (I.kp i u).1
  have hPM : ∀ x ∈ P, x ∈ M := fun x hx => by rw [hM]; simp [hx]
  have hZX : ∀ x ∈ Z, x ∈ g.X := fun x hx => by
    obtain ⟨j, hj, hij, -⟩ := (I.z x).1 hx
    exact H.ex j (H.mv j (hPM j hj)).1 x hij
  have hiZ : i ∉ Z := fun u => H.vx i hiV (hZX i u)
  exact ⟨hiM, hiP, hiV, H.vn i hiV, hiK, hiZ, hPM, hZX, by rw [I.pe i, if_neg (fun u => u.elim hiK hiZ)]⟩

/-- The parts of the invariant that do not depend on what happens to the node. -/
theorem CC.rest (H : Ph n iwlen g me M B pme1 c2 Dl) (I : S2 n iwlen aggressive g me M B pme1 c2 Dl dg0 nv0 P K Z s) (T : At n g me M c2 P K Z i s) {Z' : Finset Int} {deg : Int} {c : St}
    (C : CC n iwlen aggressive g me c2 P Z i s Z' deg c) {K' : Finset Int} (hK : ∀ x, x ≠ i → (x ∈ K' ↔ x ∈ K)) {pe len : Int → Int} {iw : Int → Int}
    (hpe : ∀ x, x ≠ i → pe x = c.pe.get x) (hlen : ∀ x, x ≠ i → len x = s.c.len.get x) (hiw : ∀ q, q < c2.pe.get i ∨ c2.pe.get i + (g.lf i).length ≤ q → iw q = s.c.iw.get q) :
    (∀ x ∈ live2 g me K' Z', x ≠ i → x ∈ live2 g me K Z ∧ pe x = s.c.pe.get x ∧ len x = s.c.len.get x ∧
      Seg iw (pe x) (E2 aggressive c2 g me (P ++ [i]) K' x ++ A2 c2 g (P ++ [i]) K' x) ∧
      E2 aggressive c2 g me (P ++ [i]) K' x ++ A2 c2 g (P ++ [i]) K' x = E2 aggressive c2 g me P K x ++ A2 c2 g P K x) ∧
    Seg iw pme1 M ∧ (∀ x, x ∈ Z' ↔ ∃ j ∈ P ++ [i], x ∈ g.E j ∧ c2.w.get x ≠ 0 ∧ keepE aggressive c2.w.get c2.wflg x = false) ∧
    (∀ x ∈ Z', x ∈ g.X) ∧ (∀ x, x ≠ i → pe x = if x ∈ K' ∨ x ∈ Z' then flip me else c2.pe.get x) := by
  have hlf : E2 aggressive c2 g me P K i ++ A2 c2 g P K i = g.lf i := by rw [E2_out T.ip, A2_out T.ip]; rfl
  have hil : i ∈ live2 g me K Z := mem_live2.2 ⟨H.rest T.im, T.ik, T.iz⟩
  have hZZ : ∀ x ∈ Z, x ∈ Z' := fun x hx => (C.z x).2 (Or.inl hx)
  refine ⟨fun x hx hxi => ?_, ?_, fun x => ?_, fun x hx => ?_, fun x hxi => ?_⟩
  · obtain ⟨h1, h2, h3⟩ := mem_live2.1 hx
    have hxl : x ∈ live2 g me K Z := mem_live2.2 ⟨h1, fun u => h2 ((hK x hxi).2 u), fun u => h3 (hZZ x u)⟩
    have he : E2 aggressive c2 g me (P ++ [i]) K' x ++ A2 c2 g (P ++ [i]) K' x = E2 aggressive c2 g me P K x ++ A2 c2 g P K x := by
      rw [E2_step hxi (hK x hxi), A2_step hxi (hK x hxi)]
    have hp : pe x = s.c.pe.get x := by rw [hpe x hxi, C.pe x, if_neg (fun u => h3 u.1)]
    refine ⟨hxl, hp, hlen x hxi, ?_, he⟩
    rw [he, hp]
    refine (I.lay.val x hxl).congr fun q a b => hiw q ?_
    have := I.lay.disj x hxl i hil hxi
    rw [hlf, T.pei] at this
    omega
  · refine I.seg.congr fun q a b => hiw q ?_
    have := H.dsj i (H.rest T.im)
    omega
  · rw [C.z x, I.z x]
    constructor
    · rintro (⟨j, a, b⟩ | b)
      · exact ⟨j, by simp [a], b⟩
      · exact ⟨i, by simp, b⟩
    · rintro ⟨j, a, b⟩
      rcases List.mem_append.1 a with u | u
      · exact Or.inl ⟨j, u, b⟩
      · rw [List.mem_singleton] at u
        rw [u] at b; exact Or.inr b
  · rcases (C.z x).1 hx with u | u
    · exact T.zx x u
    · exact H.ex i T.iv x u.1
  · rw [hpe x hxi, C.pe x, I.pe x]
    by_cases h1 : x ∈ Z'
    · by_cases h2 : x ∈ Z
      · rw [if_neg (fun u => u.2 h2), if_pos (Or.inr h2), if_pos (Or.inr h1)]
      · rw [if_pos ⟨h1, h2⟩, if_pos (Or.inr h1)]
    · have h2 : x ∉ Z := fun u => h1 (hZZ x u)
      rw [if_neg (fun u => h1 u.1)]
      by_cases h3 : x ∈ K
      · rw [if_pos (Or.inl h3), if_pos (Or.inl ((hK x hxi).2 h3))]
      · rw [if_neg (fun u => u.elim h3 h2), if_neg (fun u => u.elim (fun v => h3 ((hK x hxi).1 v)) h1)]

/-- The node is eliminated with the pivot. -/
theorem scan2_mass (H : Ph n iwlen g me M B pme1 c2 Dl) (I : S2 n iwlen aggressive g me M B pme1 c2 Dl dg0 nv0 P K Z s) (T : At n g me M c2 P K Z i s) {Z' : Finset Int} {deg : Int} {c : St}
    (C : CC n iwlen aggressive g me c2 P Z i s Z' deg c) (h1 : Ek aggressive c2 g i = []) (h2 : Ak c2 g i = []) :
    S2 n iwlen aggressive g me M B pme1 c2 Dl dg0 nv0 (P ++ [i]) (insert i K) Z' ⟨s.degme + c.nv.get i, s.nvpiv - c.nv.get i,
      { c with pe := c.pe.set i (flip me), nv := c.nv.set i 0, elen := c.elen.set i (-1), nel := c.nel - c.nv.get i }⟩ := by
  have hK : ∀ x, x ≠ i → (x ∈ insert i K ↔ x ∈ K) := fun x hx => by simp [hx]
  obtain ⟨r1, r2, r3, r4, r5⟩ := C.rest H I T hK (pe := (c.pe.set i (flip me)).get) (len := c.len.get) (iw := c.iw.get) (fun x hx => Arr.set_ne _ _ hx)
    (fun x hx => by rw [show c.len = s.c.len by rw [C.eq]]) C.iw
  have hcnv : c.nv = s.c.nv := by rw [C.eq]
  have hcel : ∀ x, x ≠ i → c.elen.get x = s.c.elen.get x := fun x hx => by rw [C.elen]; exact Arr.set_ne _ _ hx
  have hnvi : c.nv.get i = -g.wt i := by
    rw [hcnv, I.nv i, if_neg T.ik, H.nv i T.inn.1 T.inn.2, if_pos (Or.inr T.im)]
  have hni : ∀ x ∈ live2 g me (insert i K) Z', x ≠ i := fun x hx e => (mem_live2.1 hx).2.1 (by rw [e]; simp)
  have hmem : ∀ x, x ≠ i → (x ∈ P ++ [i] ↔ x ∈ P) := fun x hx => by simp [hx]
  have hhd : c.head = s.c.head := by rw [C.eq]
  have hnx : c.next = s.c.next := by rw [C.eq]
  have hla : c.last = s.c.last := by rw [C.eq]
  have hdg : c.degree = s.c.degree := by rw [C.eq]
  have hsum : ∑ x ∈ insert i K, g.wt x = g.wt i + ∑ x ∈ K, g.wt x := Finset.sum_insert T.ik
  refine ⟨?_, ⟨C.sz.pe, C.sz.iw, C.sz.len, C.sz.nv, C.sz.next, C.sz.last, C.sz.head, C.sz.elen, C.sz.degree, C.sz.w⟩, ?_, fun x hx => ?_, r2, fun x hx => ?_, fun x hx hxK => ?_, fun x hx => ?_, fun x => ?_, fun x => ?_, C.w, fun x hx => ?_,
    fun x hx => ?_, ?_, fun x hx => ?_, r3, ?_, ?_, ?_, fun q hq => C.nn q (I.nn q hq)⟩
  · refine (congrArg (fun t : St => { t with pe := c.pe.set i (flip me), nv := c.nv.set i 0, elen := c.elen.set i (-1), nel := c.nel - c.nv.get i, iw := c.iw, w := c.w }) (C.eq.trans (congrArg (fun t : St => { t with pe := c.pe, iw := c.iw, elen := c.elen, w := c.w }) I.eq))).trans ?_
    simp only [show c.len = s.c.len by rw [C.eq], hhd, hnx, hla, hdg]
  · refine I.lay.shrink (fun x hx => (r1 x hx (hni x hx)).1) (fun x hx => ?_) (fun x hx => ?_) (fun x hx => ?_) (fun x hx => (r1 x hx (hni x hx)).2.2.2.1) (le_refl _)
    · obtain ⟨u1, u2, u3, u4, u5⟩ := r1 x hx (hni x hx)
      rw [u5, u2]; exact ⟨le_refl _, le_refl _⟩
    · obtain ⟨u1, u2, u3, u4, u5⟩ := r1 x hx (hni x hx)
      rw [u5]; exact I.lay.ne x u1
    · obtain ⟨u1, u2, u3, u4, u5⟩ := r1 x hx (hni x hx)
      rw [u3, u5]; exact I.lay.len x u1
  · obtain ⟨u1, u2, u3, u4, u5⟩ := r1 x hx (hni x hx)
    rw [u5]; exact I.fit x u1
  · have hxi : x ≠ i := fun e => hx (by rw [e]; simp)
    show (c.elen.set i (-1)).get x = _
    rw [Arr.set_ne _ _ hxi, hcel x hxi]; exact I.el1 x fun u => hx (by simp [u])
  · have hxi : x ≠ i := fun e => hxK (by rw [e]; simp)
    show (c.elen.set i (-1)).get x = _
    rw [Arr.set_ne _ _ hxi, hcel x hxi, E2_step hxi (hK x hxi)]
    exact I.el2 x ((hmem x hxi).1 hx) fun u => hxK ((hK x hxi).2 u)
  · show (c.elen.set i (-1)).get x = _
    by_cases hxi : x = i
    · rw [hxi, Arr.set_same]
    · rw [Arr.set_ne _ _ hxi, hcel x hxi]; exact I.el3 x ((hK x hxi).1 hx)
  · show (c.nv.set i 0).get x = _
    by_cases hxi : x = i
    · rw [hxi, Arr.set_same, if_pos (by simp)]
    · rw [Arr.set_ne _ _ hxi, hcnv, I.nv x]; simp only [hK x hxi]
  · show (c.pe.set i (flip me)).get x = _
    by_cases hxi : x = i
    · rw [hxi, Arr.set_same, if_pos (by simp)]
    · exact r5 x hxi
  · have hxi : x ≠ i := fun e => hx (by rw [e]; simp)
    show c.degree.get x = _
    rw [hdg]; exact I.dg1 x fun u => hx (by simp [u])
  · show 0 ≤ c.degree.get x
    rw [hdg]
    by_cases hxi : x = i
    · rw [hxi, I.dg1 i T.ip]; exact H.dd i T.im
    · exact I.dg2 x ((hmem x hxi).1 hx)
  · show ∃ Bl, DLs n _ Dl Bl c.head.get c.next.get c.last.get c.degree.get ∧ BKs n _ Bl c.next.get c.last.get
    rw [hhd, hnx, hla, hdg]
    have : ((P ++ [i]).toFinset.filter fun x => x ∉ insert i K) = P.toFinset.filter fun x => x ∉ K := by
      ext x
      by_cases hxi : x = i
      · subst hxi
        simp [T.ip]
      · simp [hxi]
    rw [this]; exact I.bk
  · by_cases hxi : x = i
    · rw [hxi]; exact ⟨by simp, h1, h2⟩
    · obtain ⟨u, v⟩ := I.kp x ((hK x hxi).1 hx)
      exact ⟨by simp [u], v⟩
  · show s.degme + c.nv.get i = _
    rw [I.dgm, hnvi, hsum]; ring
  · show s.nvpiv - c.nv.get i = _
    rw [I.nvp, hnvi, hsum]; ring
  · show c.nel - c.nv.get i = _
    rw [show c.nel = s.c.nel by rw [C.eq], I.nel, hnvi, hsum]; ring

/-- The node stays. -/
theorem scan2_stay (H : Ph n iwlen g me M B pme1 c2 Dl) (I : S2 n iwlen aggressive g me M B pme1 c2 Dl dg0 nv0 P K Z s) (T : At n g me M c2 P K Z i s) {Z' : Finset Int} {deg d : Int} {c c' : St}
    (C : CC n iwlen aggressive g me c2 P Z i s Z' deg c) {iw' : Arr} (h0 : 0 ≤ d) (h1 : iw'.size = c.iw.size) (h2 : Seg iw'.get (c2.pe.get i) (me :: rot (Ek aggressive c2 g i) ++ rot (Ak c2 g i)))
    (h3 : ∀ q, q < c2.pe.get i ∨ c2.pe.get i + (Ek aggressive c2 g i).length + (Ak c2 g i).length < q → iw'.get q = c.iw.get q) (h4 : ∀ q, 0 ≤ c.iw.get q → 0 ≤ iw'.get q)
    (e1 : c' = { c with degree := c.degree.set i d, iw := iw', len := c.len.set i (c2.pe.get i + (Ek aggressive c2 g i).length + (Ak c2 g i).length - c2.pe.get i + 1), head := c'.head, next := c'.next, last := c'.last })
    (e2 : c'.head.size = n ∧ c'.next.size = n ∧ c'.last.size = n)
    (e3 : ∃ Bl, DLs n ((g.V.erase me).filter fun x => x ∉ M) Dl Bl c'.head.get c'.next.get c'.last.get c'.degree.get ∧ BKs n (insert i (P.toFinset.filter fun x => x ∉ K)) Bl c'.next.get c'.last.get) :
    S2 n iwlen aggressive g me M B pme1 c2 Dl dg0 nv0 (P ++ [i]) K Z' { s with c := c' } := by
  have hsh := H.short (aggressive := aggressive) T.im
  have hK : ∀ x, x ≠ i → (x ∈ K ↔ x ∈ K) := fun x _ => Iff.rfl
  have p1 : c'.pe = c.pe := by rw [e1]
  have p2 : c'.len = c.len.set i (c2.pe.get i + (Ek aggressive c2 g i).length + (Ak c2 g i).length - c2.pe.get i + 1) := by rw [e1]
  have p3 : c'.iw = iw' := by rw [e1]
  have p4 : c'.elen = c.elen := by rw [e1]
  have p5 : c'.nv = s.c.nv := by rw [e1, C.eq]
  have p6 : c'.w = c.w := by rw [e1]
  have p7 : c'.degree = s.c.degree.set i d := by rw [e1, show c.degree = s.c.degree by rw [C.eq]]
  have p8 : c'.nel = s.c.nel := by rw [e1, C.eq]
  have hcl : c.len = s.c.len := by rw [C.eq]
  obtain ⟨r1, r2, r3, r4, r5⟩ := C.rest H I T hK (pe := c'.pe.get) (len := c'.len.get) (iw := c'.iw.get) (fun x hx => by rw [p1])
    (fun x hx => by rw [p2, Arr.set_ne _ _ hx, hcl]) (fun q hq => by rw [p3, h3 q (by omega)]; exact C.iw q hq)
  have hcel : ∀ x, x ≠ i → c'.elen.get x = s.c.elen.get x := fun x hx => by rw [p4, C.elen]; exact Arr.set_ne _ _ hx
  have hmem : ∀ x, x ≠ i → (x ∈ P ++ [i] ↔ x ∈ P) := fun x hx => by simp [hx]
  have hiP' : i ∈ P ++ [i] := by simp
  have hi2 : E2 aggressive c2 g me (P ++ [i]) K i ++ A2 c2 g (P ++ [i]) K i = me :: rot (Ek aggressive c2 g i) ++ rot (Ak c2 g i) := by rw [E2_in hiP' T.ik, A2_in hiP' T.ik]
  have hi2l : (me :: rot (Ek aggressive c2 g i) ++ rot (Ak c2 g i)).length = (Ek aggressive c2 g i).length + (Ak c2 g i).length + 1 := by simp
  have hiZ' : i ∉ Z' := fun u => H.vx i T.iv (r4 i u)
  have hpei : c'.pe.get i = c2.pe.get i := by rw [p1, C.pe i, if_neg (fun u => hiZ' u.1), T.pei]
  have hlf : E2 aggressive c2 g me P K i ++ A2 c2 g P K i = g.lf i := by rw [E2_out T.ip, A2_out T.ip]; rfl
  have hil : i ∈ live2 g me K Z := mem_live2.2 ⟨H.rest T.im, T.ik, T.iz⟩
  refine ⟨?_, ⟨by show c'.pe.size = n; rw [p1]; exact C.sz.pe, by show c'.iw.size = _; rw [p3, h1]; exact C.sz.iw, by show c'.len.size = n; rw [p2]; exact C.sz.len,
    by show c'.nv.size = n; rw [p5]; exact I.sz.nv, e2.2.1, e2.2.2, e2.1, by show c'.elen.size = n; rw [p4]; exact C.sz.elen, by show c'.degree.size = n; rw [p7]; exact I.sz.degree,
    by show c'.w.size = n; rw [p6]; exact C.sz.w⟩, ?_, fun x hx => ?_, r2, fun x hx => ?_, fun x hx hxK => ?_, fun x hx => ?_, fun x => ?_, fun x => ?_, fun x a b => ?_, fun x hx => ?_,
    fun x hx => ?_, ?_, fun x hx => ?_, r3, I.dgm, I.nvp, ?_, fun q hq => ?_⟩
  · show c' = _
    refine e1.trans ?_
    have q := (C.eq.trans (congrArg (fun t : St => { t with pe := c.pe, iw := c.iw, elen := c.elen, w := c.w }) I.eq))
    refine (congrArg (fun t : St => { t with degree := c.degree.set i d, iw := iw', len := c.len.set i (c2.pe.get i + (Ek aggressive c2 g i).length + (Ak c2 g i).length - c2.pe.get i + 1), head := c'.head, next := c'.next, last := c'.last }) q).trans ?_
    simp only [p1, p2, p3, p4, p5, p6, p7, p8, show c.degree = s.c.degree by rw [C.eq]]
  · refine I.lay.shrink (fun x hx => ?_) (fun x hx => ?_) (fun x hx => ?_) (fun x hx => ?_) (fun x hx => ?_) (le_refl _)
    · by_cases hxi : x = i
      · rw [hxi]; exact hil
      · exact (r1 x hx hxi).1
    · by_cases hxi : x = i
      · show s.c.pe.get x ≤ c'.pe.get x ∧ c'.pe.get x + _ ≤ _
        rw [hxi, hi2, hlf, hpei, T.pei, hi2l]
        exact ⟨le_refl _, by omega⟩
      · obtain ⟨u1, u2, u3, u4, u5⟩ := r1 x hx hxi
        show s.c.pe.get x ≤ c'.pe.get x ∧ c'.pe.get x + _ ≤ _
        rw [u5, u2]; exact ⟨le_refl _, le_refl _⟩
    · by_cases hxi : x = i
      · rw [hxi, hi2]; simp
      · rw [(r1 x hx hxi).2.2.2.2]; exact I.lay.ne x (r1 x hx hxi).1
    · by_cases hxi : x = i
      · show c'.len.get x = _
        rw [hxi, hi2, hi2l, p2, Arr.set_same]; push_cast; ring
      · obtain ⟨u1, u2, u3, u4, u5⟩ := r1 x hx hxi
        show c'.len.get x = _
        rw [u3, u5]; exact I.lay.len x u1
    · by_cases hxi : x = i
      · show Seg c'.iw.get (c'.pe.get x) _
        rw [hxi, hi2, hpei, p3]; exact h2
      · exact (r1 x hx hxi).2.2.2.1
  · by_cases hxi : x = i
    · rw [hxi, hi2, hi2l]; omega
    · obtain ⟨u1, u2, u3, u4, u5⟩ := r1 x hx hxi
      rw [u5]; exact I.fit x u1
  · have hxi : x ≠ i := fun e => hx (by rw [e]; simp)
    show c'.elen.get x = _
    rw [hcel x hxi]; exact I.el1 x fun u => hx (by simp [u])
  · show c'.elen.get x = _
    by_cases hxi : x = i
    · rw [hxi, p4, C.elen, Arr.set_same, E2_in hiP' T.ik]; simp
    · rw [hcel x hxi, E2_step hxi Iff.rfl]
      exact I.el2 x ((hmem x hxi).1 hx) hxK
  · show c'.elen.get x = _
    rw [hcel x fun e => T.ik (e ▸ hx)]; exact I.el3 x hx
  · show c'.nv.get x = _
    rw [p5]; exact I.nv x
  · show c'.pe.get x = _
    by_cases hxi : x = i
    · rw [hxi, hpei, if_neg (fun u => u.elim T.ik hiZ')]
    · exact r5 x hxi
  · show c'.w.get x = _
    rw [p6]; exact C.w x a b
  · have hxi : x ≠ i := fun e => hx (by rw [e]; simp)
    show c'.degree.get x = _
    rw [p7, Arr.set_ne _ _ hxi]; exact I.dg1 x fun u => hx (by simp [u])
  · show 0 ≤ c'.degree.get x
    rw [p7]
    by_cases hxi : x = i
    · rw [hxi, Arr.set_same]; exact h0
    · rw [Arr.set_ne _ _ hxi]; exact I.dg2 x ((hmem x hxi).1 hx)
  · have : ((P ++ [i]).toFinset.filter fun x => x ∉ K) = insert i (P.toFinset.filter fun x => x ∉ K) := by
      ext x
      by_cases hxi : x = i
      · subst hxi
        simp [T.ik]
      · simp [hxi]
    rw [this]; exact e3
  · obtain ⟨u, v⟩ := I.kp x hx
    exact ⟨by simp [u], v⟩
  · show c'.nel = _
    rw [p8]; exact I.nel
  · show 0 ≤ c'.iw.get q
    rw [p3]; exact h4 q (C.nn q (I.nn q hq))

/-- One node. -/
theorem scan2_runs (H : Ph n iwlen g me M B pme1 c2 Dl) (hM : M = P ++ i :: Q) (I : S2 n iwlen aggressive g me M B pme1 c2 Dl dg0 nv0 P K Z s) :
    Runs (scan2 n aggressive me (pme1 + P.length) s) fun s' => ∃ K' Z', S2 n iwlen aggressive g me M B pme1 c2 Dl dg0 nv0 (P ++ [i]) K' Z' s' := by
  have T := I.at H hM
  refine scan2_pre H hM I fun c Z' deg hash C => ?_
  have hin := T.inn
  have hsh := H.short (aggressive := aggressive) T.im
  have hEn : ∀ x ∈ Ek aggressive c2 g i ++ Ak c2 g i, 0 ≤ x := fun x hx => by
    rcases List.mem_append.1 hx with u | u
    · exact (H.xn x (H.ex i T.iv x (List.mem_filter.1 u).1)).1
    · exact (H.av i T.iv x (List.mem_filter.1 u).1).1
  split
  · rename_i hc
    have h1 : Ek aggressive c2 g i = [] := by rw [← List.length_eq_zero_iff]; omega
    have h2 : Ak c2 g i = [] := by rw [← List.length_eq_zero_iff]; omega
    simp only [runs_bind, runs_rdZ, runs_wrZ, runs_pure, Arr.set_size]
    exact ⟨⟨hin.1, by rw [C.sz.pe]; exact hin.2⟩, ⟨hin.1, by rw [C.sz.nv]; exact hin.2⟩, ⟨hin.1, by rw [C.sz.nv]; exact hin.2⟩, ⟨hin.1, by rw [C.sz.elen]; exact hin.2⟩,
      insert i K, Z', scan2_mass H I T C h1 h2⟩
  · rename_i hc
    have hne : ¬ (Ek aggressive c2 g i = [] ∧ Ak c2 g i = []) := fun ⟨a, b⟩ => hc (by rw [a, b]; simp)
    have hdi : c.degree.get i = c2.degree.get i := by rw [show c.degree = s.c.degree by rw [C.eq], I.dg1 i T.ip]
    have hpos := H.lay.pos i (H.rest T.im)
    have hbd := H.lay.bd i (H.rest T.im)
    have hBl := H.Bl
    rw [runs_bind, runs_rdZ]
    refine ⟨⟨hin.1, by rw [C.sz.degree]; exact hin.2⟩, ?_⟩
    rw [runs_bind, runs_wrZ]
    refine ⟨⟨hin.1, by rw [C.sz.degree]; exact hin.2⟩, ?_⟩
    have hd0 := H.dd i T.im
    have hmn := H.vn me H.mev
    refine rot_runs' hne C.seg hpos (by rw [C.sz.iw]; omega) hmn.1 fun iw' t1 t2 t3 t4 => ?_
    rw [runs_bind, runs_wrZ]
    refine ⟨⟨hin.1, by rw [C.sz.len]; exact hin.2⟩, ?_⟩
    rw [runs_bind]
    obtain ⟨Bl, D, Bk⟩ := I.bk
    have hiD : i ∉ (g.V.erase me).filter fun x => x ∉ M := fun u => (Finset.mem_filter.1 u).2 T.im
    have hcd : c.degree = s.c.degree := by rw [C.eq]
    have hch : c.head = s.c.head := by rw [C.eq]
    have hcn : c.next = s.c.next := by rw [C.eq]
    have hcl : c.last = s.c.last := by rw [C.eq]
    refine Runs.mono (toBucket_runs (n := n) (Vd := (g.V.erase me).filter fun x => x ∉ M) (S := P.toFinset.filter fun x => x ∉ K) (Dl := Dl) (Bl := Bl) ?_ ?_ (fun x hx u => ?_) hiD
      (fun u => T.ip (List.mem_toFinset.1 (Finset.mem_filter.1 u).1)) hin C.sz.head C.sz.next C.sz.last) fun c' ⟨q1, q2, q3, q4, q5⟩ => ?_
    · show DLs n _ Dl Bl c.head.get c.next.get c.last.get (c.degree.set i (min (c.degree.get i) deg)).get
      rw [hch, hcn, hcl]
      exact D.congr (fun d _ _ => rfl) (fun x _ => rfl) (fun x _ => rfl) fun x hx => by
        rw [Arr.set_ne (k := x) _ _ fun e : x = i => hiD (e ▸ hx), hcd]
    · show BKs n _ Bl c.next.get c.last.get
      rw [hcn, hcl]; exact Bk
    · exact (Finset.mem_filter.1 hx).2 (T.pm x (List.mem_toFinset.1 (Finset.mem_filter.1 u).1))
    · rw [runs_pure]
      refine ⟨K, Z', scan2_stay H I T C (d := min (c.degree.get i) deg) ?_ t1 t2 t3 (fun q hq => t4 q hEn hq) q1 ⟨q2, q3, q4⟩ q5⟩
      rw [hdi]; exact le_min hd0 C.dg

/-- **The second pass.** -/
theorem pass_runs (H : Ph n iwlen g me M B pme1 c2 Dl) :
    Runs (forZ pme1 (pme1 + M.length) (⟨dg0, nv0, c2⟩ : Pass) fun pme s => scan2 n aggressive me pme s) fun s =>
      ∃ K Z, S2 n iwlen aggressive g me M B pme1 c2 Dl dg0 nv0 M K Z s := by
  refine forZ_runs (fun k s => ∃ P Q, M = P ++ Q ∧ k = pme1 + P.length ∧ ∃ K Z, S2 n iwlen aggressive g me M B pme1 c2 Dl dg0 nv0 P K Z s) (by omega)
    ⟨[], M, rfl, by simp, ∅, ∅, ?_⟩ ?_ ?_
  · have hl : live2 g me ∅ ∅ = restF g me (g.E me) me := by ext x; rw [mem_live2]; simp
    have hlf : ∀ x, E2 aggressive c2 g me [] ∅ x ++ A2 c2 g [] ∅ x = g.lf x := fun x => by rw [E2_out (by simp), A2_out (by simp)]; rfl
    refine ⟨rfl, H.sz, ?_, fun x _ => by rw [hlf x], H.seg, fun x _ => rfl, fun x hx => absurd hx (by simp), fun x hx => absurd hx (by simp), fun x => by simp, fun x => by simp, fun x _ _ => by simp,
      fun x _ => rfl, fun x hx => absurd hx (by simp), ⟨noB, H.dl, ⟨fun d _ _ => trivial, fun d _ _ => List.nodup_nil, fun d _ _ x => by simp [noB], fun x hx => absurd hx (by simp)⟩⟩,
      fun x hx => absurd hx (by simp), fun x => by simp, by simp, by simp, by simp, fun q h => h⟩
    rw [hl, show (fun x => E2 aggressive c2 g me [] ∅ x ++ A2 c2 g [] ∅ x) = g.lf from funext hlf]
    exact H.lay
  · rintro k s h1 h2 ⟨P, Q, e1, e2, K, Z, I⟩
    cases Q with
    | nil => rw [e1] at h2; simp at h2; omega
    | cons i Q =>
      rw [e2]
      refine Runs.mono (scan2_runs H e1 I) fun s' h => ⟨P ++ [i], Q, by rw [e1]; simp, by simp; ring, h⟩
  · rintro s ⟨P, Q, e1, e2, K, Z, I⟩
    have ht : Q = [] := by
      rw [← List.length_eq_zero_iff]
      rw [e1, List.length_append] at e2
      push_cast at e2
      omega
    rw [ht, List.append_nil] at e1
    subst e1
    exact ⟨K, Z, I⟩

end

end Amd
end Hif
