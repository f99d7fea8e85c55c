import Verif.AmdBucket

set_option linter.unusedVariables false

/-! # Second pass over the new element -/

namespace Hif
namespace Amd

theorem rot_runs' {β : Type} {me : Int} {iw : Arr} {p1 : Int} {Ek Ak : List Int} (hne : ¬ (Ek = [] ∧ Ak = [])) (hseg : Seg iw.get p1 (Ek ++ Ak)) (hp0 : 0 ≤ p1)
    (hpl : p1 + Ek.length + Ak.length < iw.size) (hme : 0 ≤ me) {k : Arr → M β} {Q : β → Prop} (hQ : ∀ iw' : Arr, iw'.size = iw.size → Seg iw'.get p1 (me :: rot Ek ++ rot Ak) →
      (∀ q, q < p1 ∨ p1 + Ek.length + Ak.length < q → iw'.get q = iw.get q) → (∀ q, (∀ x ∈ Ek ++ Ak, 0 ≤ x) → 0 ≤ iw.get q → 0 ≤ iw'.get q) → Runs (k iw') Q) :
    Runs (do
      let x3 ← iw.rd (p1 + Ek.length)
      let iw ← iw.wr (p1 + Ek.length + Ak.length) x3
      let x1 ← iw.rd p1
      let iw ← iw.wr (p1 + Ek.length) x1
      let iw ← iw.wr p1 me
      k iw) Q := by
  have := rot_runs hne hseg hp0 hpl hme (Q := fun iw' => Runs (k iw') Q) hQ
  simp only [runs_bind] at this ⊢
  exact this

section
variable {n : Nat} {iwlen : Int} {aggressive : Bool} {g : Gh} {me : Int} {M : List Int} {B pme1 : Int} {c2 : St} {Dl : Int → List Int}

/-- What holds before the pass. -/
structure Ph (n : Nat) (iwlen : Int) (g : Gh) (me : Int) (M : List Int) (B pme1 : Int) (c2 : St) (Dl : Int → List Int) : Prop where
  sz : Szs n iwlen c2
  mv : ∀ i ∈ M, i ∈ g.V ∧ i ≠ me
  mn : M.Nodup
  mev : me ∈ g.V
  vn : ∀ i ∈ g.V, 0 ≤ i ∧ i < (n : Int)
  xn : ∀ i ∈ g.X, 0 ≤ i ∧ i < (n : Int)
  vx : ∀ i ∈ g.V, i ∉ g.X
  wv : ∀ i ∈ g.V, 0 < g.wt i
  en : ∀ i ∈ g.V, (g.E i).Nodup
  ex : ∀ i ∈ g.V, ∀ e ∈ g.E i, e ∈ g.X
  av : ∀ i ∈ g.V, ∀ y ∈ g.A i, 0 ≤ y ∧ y < (n : Int)
  lay : Lay n (restF g me (g.E me) me) g.lf c2.pe.get c2.len.get c2.iw.get B
  dsj : ∀ x ∈ restF g me (g.E me) me, c2.pe.get x + (g.lf x).length ≤ pme1 ∨ pme1 + M.length ≤ c2.pe.get x
  el : ∀ x ∈ g.V, x ≠ me → c2.elen.get x = (g.E x).length
  nv : ∀ x : Int, 0 ≤ x → x < n → c2.nv.get x = if x = me ∨ x ∈ M then -g.wt x else g.wt x
  seg : Seg c2.iw.get pme1 M
  p0 : 0 ≤ pme1
  pl : pme1 + M.length ≤ iwlen
  Bl : B ≤ iwlen
  wge : ∀ i ∈ M, ∀ e ∈ g.E i, c2.w.get e ≠ 0 → c2.wflg ≤ c2.w.get e
  dd : ∀ x ∈ M, 0 ≤ c2.degree.get x
  lose : ∀ i ∈ M, (∃ e ∈ g.E i, c2.w.get e = 0) ∨ me ∈ g.A i
  dl : DLs n ((g.V.erase me).filter fun x => x ∉ M) Dl noB c2.head.get c2.next.get c2.last.get c2.degree.get

/-- Elements that stay in the list of a node. -/
def Ek (aggressive : Bool) (c2 : St) (g : Gh) (x : Int) : List Int := (g.E x).filter (keepE aggressive c2.w.get c2.wflg)

/-- Nodes that stay. -/
def Ak (c2 : St) (g : Gh) (x : Int) : List Int := (g.A x).filter (keepV c2.nv.get)

/-- The elements after the nodes `P` (without `K`) have been treated. -/
def E2 (aggressive : Bool) (c2 : St) (g : Gh) (me : Int) (P : List Int) (K : Finset Int) (x : Int) : List Int := if x ∈ P ∧ x ∉ K then me :: rot (Ek aggressive c2 g x) else g.E x

/-- The neighbours. -/
def A2 (c2 : St) (g : Gh) (P : List Int) (K : Finset Int) (x : Int) : List Int := if x ∈ P ∧ x ∉ K then rot (Ak c2 g x) else g.A x

/-- Nodes and elements whose lists exist. -/
def live2 (g : Gh) (me : Int) (K Z : Finset Int) : Finset Int := (restF g me (g.E me) me).filter fun x => x ∉ K ∧ x ∉ Z

theorem mem_live2 {K Z : Finset Int} {x : Int} : x ∈ live2 g me K Z ↔ x ∈ restF g me (g.E me) me ∧ x ∉ K ∧ x ∉ Z := by unfold live2; rw [Finset.mem_filter]

/-- Invariant of the pass. -/
structure S2 (n : Nat) (iwlen : Int) (aggressive : Bool) (g : Gh) (me : Int) (M : List Int) (B pme1 : Int) (c2 : St) (Dl : Int → List Int) (dg0 nv0 : Int) (P : List Int) (K Z : Finset Int)
    (s : Pass) : Prop where
  eq : s.c = { c2 with pe := s.c.pe, iw := s.c.iw, len := s.c.len, nv := s.c.nv, next := s.c.next, last := s.c.last, head := s.c.head, elen := s.c.elen, degree := s.c.degree, w := s.c.w, nel := s.c.nel }
  sz : Szs n iwlen s.c
  lay : Lay n (live2 g me K Z) (fun x => E2 aggressive c2 g me P K x ++ A2 c2 g P K x) s.c.pe.get s.c.len.get s.c.iw.get B
  fit : ∀ x ∈ live2 g me K Z, (E2 aggressive c2 g me P K x ++ A2 c2 g P K x).length ≤ (g.lf x).length
  seg : Seg s.c.iw.get pme1 M
  el1 : ∀ x, x ∉ P → s.c.elen.get x = c2.elen.get x
  el2 : ∀ x ∈ P, x ∉ K → s.c.elen.get x = (E2 aggressive c2 g me P K x).length
  el3 : ∀ x ∈ K, s.c.elen.get x = -1
  nv : ∀ x, s.c.nv.get x = if x ∈ K then 0 else c2.nv.get x
  pe : ∀ x, s.c.pe.get x = if x ∈ K ∨ x ∈ Z then flip me else c2.pe.get x
  w : ∀ x : Int, 0 ≤ x → x < n → s.c.w.get x = if x ∈ Z then 0 else c2.w.get x
  dg1 : ∀ x, x ∉ P → s.c.degree.get x = c2.degree.get x
  dg2 : ∀ x ∈ P, 0 ≤ s.c.degree.get x
  bk : ∃ Bl, DLs n ((g.V.erase me).filter fun x => x ∉ M) Dl Bl s.c.head.get s.c.next.get s.c.last.get s.c.degree.get ∧
    BKs n (P.toFinset.filter fun x => x ∉ K) Bl s.c.next.get s.c.last.get
  kp : ∀ x ∈ K, x ∈ P ∧ Ek aggressive c2 g x = [] ∧ Ak c2 g x = []
  z : ∀ x, x ∈ Z ↔ ∃ i ∈ P, x ∈ g.E i ∧ c2.w.get x ≠ 0 ∧ keepE aggressive c2.w.get c2.wflg x = false
  dgm : s.degme = dg0 - ∑ x ∈ K, g.wt x
  nvp : s.nvpiv = nv0 + ∑ x ∈ K, g.wt x
  nel : s.c.nel = c2.nel + ∑ x ∈ K, g.wt x
  nn : ∀ q, 0 ≤ c2.iw.get q → 0 ≤ s.c.iw.get q

theorem Ph.rest (H : Ph n iwlen g me M B pme1 c2 Dl) {i : Int} (hi : i ∈ M) : i ∈ restF g me (g.E me) me :=
  mem_restF.2 ⟨Or.inl (H.mv i hi).1, (H.mv i hi).2, fun u => H.vx i (H.mv i hi).1 (H.ex me H.mev i u), (H.mv i hi).2⟩

theorem E2_out {P : List Int} {K : Finset Int} {x : Int} (h : x ∉ P) : E2 aggressive c2 g me P K x = g.E x := by unfold E2; rw [if_neg (fun u => h u.1)]
theorem A2_out {P : List Int} {K : Finset Int} {x : Int} (h : x ∉ P) : A2 c2 g P K x = g.A x := by unfold A2; rw [if_neg (fun u => h u.1)]
theorem E2_in {P : List Int} {K : Finset Int} {x : Int} (h : x ∈ P) (hk : x ∉ K) : E2 aggressive c2 g me P K x = me :: rot (Ek aggressive c2 g x) := by unfold E2; rw [if_pos ⟨h, hk⟩]
theorem A2_in {P : List Int} {K : Finset Int} {x : Int} (h : x ∈ P) (hk : x ∉ K) : A2 c2 g P K x = rot (Ak c2 g x) := by unfold A2; rw [if_pos ⟨h, hk⟩]

theorem E2_step {P : List Int} {K K' : Finset Int} {i x : Int} (h : x ≠ i) (hK : x ∈ K' ↔ x ∈ K) : E2 aggressive c2 g me (P ++ [i]) K' x = E2 aggressive c2 g me P K x := by
  unfold E2
  have : x ∈ P ++ [i] ↔ x ∈ P := by simp [h]
  simp only [this, hK]
theorem A2_step {P : List Int} {K K' : Finset Int} {i x : Int} (h : x ≠ i) (hK : x ∈ K' ↔ x ∈ K) : A2 c2 g (P ++ [i]) K' x = A2 c2 g P K x := by
  unfold A2
  have : x ∈ P ++ [i] ↔ x ∈ P := by simp [h]
  simp only [this, hK]

/-- At least one entry is lost. -/
theorem Ph.short (H : Ph n iwlen g me M B pme1 c2 Dl) {i : Int} (hi : i ∈ M) : (Ek aggressive c2 g i).length + (Ak c2 g i).length + 1 ≤ (g.lf i).length := by
  have h1 : (Ek aggressive c2 g i).length ≤ (g.E i).length := List.length_filter_le _ _
  have h2 : (Ak c2 g i).length ≤ (g.A i).length := List.length_filter_le _ _
  unfold Gh.lf
  rw [List.length_append]
  rcases H.lose i hi with ⟨e, he, hw⟩ | hm
  · have : (Ek aggressive c2 g i).length < (g.E i).length := by
      refine lt_of_le_of_ne h1 fun heq => ?_
      have := List.length_filter_eq_length_iff.1 heq e he
      rw [keepE_iff] at this
      exact this.1 hw
    omega
  · have : (Ak c2 g i).length < (g.A i).length := by
      refine lt_of_le_of_ne h2 fun heq => ?_
      have h3 := List.length_filter_eq_length_iff.1 heq me hm
      have hmn := H.vn me H.mev
      have hw := H.wv me H.mev
      unfold keepV at h3
      have h4 := of_decide_eq_true h3
      rw [H.nv me hmn.1 hmn.2, if_pos (Or.inl rfl)] at h4
      omega
    omega

/-- After the compression of a list. -/
structure CC (n : Nat) (iwlen : Int) (aggressive : Bool) (g : Gh) (me : Int) (c2 : St) (P : List Int) (Z : Finset Int) (i : Int) (s : Pass) (Z' : Finset Int) (deg : Int) (c : St) : Prop where
  eq : c = { s.c with pe := c.pe, iw := c.iw, elen := c.elen, w := c.w }
  sz : Szs n iwlen c
  elen : c.elen = s.c.elen.set i ((Ek aggressive c2 g i).length + 1)
  seg : Seg c.iw.get (c2.pe.get i) (Ek aggressive c2 g i ++ Ak c2 g i)
  iw : ∀ q, q < c2.pe.get i ∨ c2.pe.get i + (g.lf i).length ≤ q → c.iw.get q = s.c.iw.get q
  w : ∀ x : Int, 0 ≤ x → x < n → c.w.get x = if x ∈ Z' then 0 else c2.w.get x
  pe : ∀ x, c.pe.get x = if x ∈ Z' ∧ x ∉ Z then flip me else s.c.pe.get x
  z : ∀ x, x ∈ Z' ↔ x ∈ Z ∨ (x ∈ g.E i ∧ c2.w.get x ≠ 0 ∧ keepE aggressive c2.w.get c2.wflg x = false)
  dg : 0 ≤ deg
  nn : ∀ q, 0 ≤ s.c.iw.get q → 0 ≤ c.iw.get q

variable {dg0 nv0 : Int} {P Q : List Int} {K Z : Finset Int} {i : Int} {s : Pass}

theorem scan2_pre (H : Ph n iwlen g me M B pme1 c2 Dl) (hM : M = P ++ i :: Q) (I : S2 n iwlen aggressive g me M B pme1 c2 Dl dg0 nv0 P K Z s) {R : Pass → Prop}
    (hQ : ∀ (c : St) (Z' : Finset Int) (deg hash : Int), CC n iwlen aggressive g me c2 P Z i s Z' deg c →
      Runs (if (Ek aggressive c2 g i).length + 1 = (1 : Int) ∧ c2.pe.get i + (Ek aggressive c2 g i).length = c2.pe.get i + (Ek aggressive c2 g i).length + (Ak c2 g i).length then do
        let pe ← c.pe.wr i (flip me)
        let nv ← c.nv.rd i
        let nvs ← c.nv.wr i 0
        let elen ← c.elen.wr i (-1)
        pure ⟨s.degme + nv, s.nvpiv - nv, { c with pe := pe, nv := nvs, elen := elen, nel := c.nel - nv }⟩
      else do
        let d ← c.degree.rd i
        let degree ← c.degree.wr i (min d deg)
        let x3 ← c.iw.rd (c2.pe.get i + (Ek aggressive c2 g i).length)
        let iw ← c.iw.wr (c2.pe.get i + (Ek aggressive c2 g i).length + (Ak c2 g i).length) x3
        let x1 ← iw.rd (c2.pe.get i)
        let iw ← iw.wr (c2.pe.get i + (Ek aggressive c2 g i).length) x1
        let iw ← iw.wr (c2.pe.get i) me
        let len ← c.len.wr i (c2.pe.get i + (Ek aggressive c2 g i).length + (Ak c2 g i).length - c2.pe.get i + 1)
        let c ← toBucket n i hash { c with degree := degree, iw := iw, len := len }
        pure { s with c := c }) R) :
    Runs (scan2 n aggressive me (pme1 + P.length) s) R := by
  have hiM : i ∈ M := by rw [hM]; simp
  have hiP : i ∉ P := fun u => by
    have := H.mn
    rw [hM] at this
    exact (List.nodup_append.1 this).2.2 i u i (by simp) rfl
  have hiV := (H.mv i hiM).1
  have hin := H.vn i hiV
  have hiK : i ∉ K := fun u => hiP (I.kp i u).1
  have hPM : ∀ x ∈ P, x ∈ M := fun x hx => by rw [hM]; simp [hx]
  have hiZ : i ∉ Z := fun u => by
    obtain ⟨j, hj, hij, -⟩ := (I.z i).1 u
    exact H.vx i hiV (H.ex j (H.mv j (hPM j hj)).1 i hij)
  have hil : i ∈ live2 g me K Z := mem_live2.2 ⟨H.rest hiM, hiK, hiZ⟩
  have hpei : s.c.pe.get i = c2.pe.get i := by rw [I.pe i, if_neg (fun u => u.elim hiK hiZ)]
  have hlf : E2 aggressive c2 g me P K i ++ A2 c2 g P K i = g.lf i := by rw [E2_out hiP, A2_out hiP]; rfl
  have hlen := I.lay.len i hil
  have hval := I.lay.val i hil
  have hpos := I.lay.pos i hil
  have hbd := I.lay.bd i hil
  rw [hlf] at hlen hval hbd
  rw [hpei] at hval hpos hbd
  have hBl := H.Bl
  have hll : (g.lf i).length = (g.E i).length + (g.A i).length := by unfold Gh.lf; rw [List.length_append]
  have hval' := hval
  unfold Gh.lf at hval'
  rw [seg_append] at hval'
  have hseg := I.seg
  rw [hM, seg_append] at hseg
  have hpl := H.pl
  have hp0 := H.p0
  rw [hM, List.length_append, List.length_cons] at hpl
  push_cast at hpl
  have hwf : s.c.wflg = c2.wflg := by rw [I.eq]
  have heli : s.c.elen.get i = (g.E i).length := by rw [I.el1 i hiP]; exact H.el i hiV (H.mv i hiM).2
  unfold scan2
  rw [runs_bind, runs_rdZ]
  refine ⟨⟨by omega, by rw [I.sz.iw]; omega⟩, ?_⟩
  rw [hseg.2.1, runs_bind, runs_rdZ]
  refine ⟨⟨hin.1, by rw [I.sz.pe]; exact hin.2⟩, ?_⟩
  rw [hpei, runs_bind, runs_rdZ]
  refine ⟨⟨hin.1, by rw [I.sz.elen]; exact hin.2⟩, ?_⟩
  rw [heli, runs_bind]
  have hZk : ∀ z ∈ Z, keepE aggressive c2.w.get s.c.wflg z = false := fun z hz => by
    obtain ⟨j, -, -, -, h⟩ := (I.z z).1 hz
    rw [hwf]; exact h
  refine Runs.mono (cmpElems_runs (aggressive := aggressive) (me := me) (w2 := c2.w.get) (Z := Z) (L := g.E i) I.sz.pe I.sz.w I.sz.iw I.w hZk
    (fun e he => ⟨H.xn e (H.ex i hiV e he), fun h => by rw [hwf]; exact H.wge i hiM e he h⟩) hval'.1 hpos (by omega)) fun r ⟨Z', C⟩ => ?_
  have hpn : r.pn = c2.pe.get i + (Ek aggressive c2 g i).length := by rw [C.pn, hwf]; rfl
  have hEl : (Ek aggressive c2 g i).length ≤ (g.E i).length := List.length_filter_le _ _
  have hAl : (Ak c2 g i).length ≤ (g.A i).length := List.length_filter_le _ _
  have hrnv : r.c.nv = s.c.nv := by rw [C.eq]
  have hrlen : r.c.len = s.c.len := by rw [C.eq]
  have hrel : r.c.elen = s.c.elen := by rw [C.eq]
  rw [runs_bind, runs_wrZ]
  refine ⟨⟨hin.1, by rw [hrel, I.sz.elen]; exact hin.2⟩, ?_⟩
  rw [runs_bind, runs_rdZ]
  refine ⟨⟨hin.1, by rw [hrlen, I.sz.len]; exact hin.2⟩, ?_⟩
  rw [hrlen, hlen, hll, runs_bind]
  have hkv : (g.A i).filter (keepV r.c.nv.get) = Ak c2 g i := by
    unfold Ak
    refine List.filter_congr fun y hy => ?_
    unfold keepV
    rw [hrnv, I.nv y]
    by_cases hyK : y ∈ K
    · have hyM := hPM y (I.kp y hyK).1
      have hyn := H.vn y (H.mv y hyM).1
      have hyw := H.wv y (H.mv y hyM).1
      rw [if_pos hyK, H.nv y hyn.1 hyn.2, if_pos (Or.inr hyM)]
      rw [decide_eq_decide]; constructor <;> intro <;> omega
    · rw [if_neg hyK]
  rw [show c2.pe.get i + (((g.E i).length + (g.A i).length : Nat) : Int) = c2.pe.get i + (g.E i).length + (g.A i).length by push_cast; ring]
  refine Runs.mono (cmpVars_runs (n := n) (iwlen := iwlen) (L := g.A i) (r0 := { r with c := { r.c with elen := r.c.elen.set i (r.pn - c2.pe.get i + 1) } })
    (p2 := c2.pe.get i + (g.E i).length) (by show r.c.nv.size = n; rw [hrnv]; exact I.sz.nv) C.is (H.av i hiV) ?_ (by show 0 ≤ r.pn; omega) (by show r.pn ≤ _; omega) (by omega)) fun q D => ?_
  · show Seg r.c.iw.get _ _
    refine hval'.2.congr fun q h0 h1 => C.iw q (Or.inr h0)
  have hqpn : q.pn = c2.pe.get i + (Ek aggressive c2 g i).length + (Ak c2 g i).length := by
    rw [D.pn]; show r.pn + ((List.filter (keepV r.c.nv.get) (g.A i)).length : Int) = _; rw [hkv, hpn]
  have hqiw : ∀ q' : Int, q' < r.pn ∨ c2.pe.get i + (g.E i).length + (g.A i).length ≤ q' → q.c.iw.get q' = r.c.iw.get q' := D.iw
  have hc : CC n iwlen aggressive g me c2 P Z i s Z' q.deg q.c := by
    refine ⟨?_, ?_, ?_, ?_, fun q' hq' => ?_, fun x h0 h1 => ?_, fun x => ?_, fun x => ?_, ?_, fun q' h => ?_⟩
    · rw [D.eq]
      exact congrArg (fun t : St => { t with elen := r.c.elen.set i (r.pn - c2.pe.get i + 1), iw := q.c.iw }) C.eq
    · rw [D.eq, C.eq]
      exact ⟨C.ps, D.is, I.sz.len, I.sz.nv, I.sz.next, I.sz.last, I.sz.head, by show s.c.elen.size = n; exact I.sz.elen, I.sz.degree, C.ws⟩
    · rw [D.eq, C.eq]
      show s.c.elen.set i _ = s.c.elen.set i _
      congr 1; rw [hpn]; ring
    · rw [seg_append]
      constructor
      · have h1 := C.seg
        rw [hwf] at h1
        refine Seg.congr (f := r.c.iw.get) h1 fun q' h0 h1 => hqiw q' (Or.inl ?_)
        rw [hpn]; exact h1
      · have := D.seg
        have e : (g.A i).filter (keepV ({ r with c := { r.c with elen := r.c.elen.set i (r.pn - c2.pe.get i + 1) } } : Cmp).c.nv.get) = Ak c2 g i := hkv
        rw [e] at this
        rw [← hpn]; exact this
    · rw [hll] at hq'; push_cast at hq'
      rw [hqiw q' (by omega)]; exact C.iw q' (by omega)
    · have : q.c.w = r.c.w := by rw [D.eq]
      rw [this]; exact C.w x h0 h1
    · have : q.c.pe = r.c.pe := by rw [D.eq]
      rw [this]; exact C.pe x
    · have := C.z x
      rw [hwf] at this
      exact this
    · exact le_trans C.dg D.dg
    · exact D.nn q' (C.nn q' h)
  have := hQ q.c Z' q.deg q.hash hc
  rw [hqpn, hpn, show c2.pe.get i + ((Ek aggressive c2 g i).length : Int) - c2.pe.get i + 1 = (Ek aggressive c2 g i).length + 1 by ring]
  exact this

end

end Amd
end Hif
