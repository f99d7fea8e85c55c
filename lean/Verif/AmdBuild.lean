import Verif.AmdPivot
import Verif.AmdGc

set_option linter.unusedVariables false

/-! # Construction of the new element -/

namespace Hif
namespace Amd

/-- Sizes of the arrays. -/
structure Szs (n : Nat) (iwlen : Int) (c : St) : Prop where
  pe : c.pe.size = n
  iw : c.iw.size = iwlen
  len : c.len.size = n
  nv : c.nv.size = n
  next : c.next.size = n
  last : c.last.size = n
  head : c.head.size = n
  elen : c.elen.size = n
  degree : c.degree.size = n
  w : c.w.size = n

/-- The list of a node or element in the workspace. -/
def Gh.lf (g : Gh) (x : Int) : List Int := g.E x ++ g.A x

theorem Lay.shrink {n : Nat} {live live' : Finset Int} {lf lf' : Int → List Int} {pe pe' len len' iw iw' : Int → Int} {bd bd' : Int} (h : Lay n live lf pe len iw bd)
    (hs : ∀ x ∈ live', x ∈ live) (h1 : ∀ x ∈ live', pe x ≤ pe' x ∧ pe' x + (lf' x).length ≤ pe x + (lf x).length) (h2 : ∀ x ∈ live', lf' x ≠ [])
    (h3 : ∀ x ∈ live', len' x = (lf' x).length) (h4 : ∀ x ∈ live', Seg iw' (pe' x) (lf' x)) (hb : bd ≤ bd') : Lay n live' lf' pe' len' iw' bd' :=
  ⟨fun x hx => h.sub x (hs x hx), fun x hx => le_trans (h.pos x (hs x hx)) (h1 x hx).1, h3, h2, fun x hx => by have := h.bd x (hs x hx); have := h1 x hx; omega,
    fun x hx y hy hxy => by
      have := h.disj x (hs x hx) y (hs y hy) hxy
      have := h1 x hx
      have := h1 y hy
      omega, h4⟩

/-- The same lists described otherwise. -/
theorem Lay.same {n : Nat} {live live' : Finset Int} {lf lf' : Int → List Int} {pe pe' len len' iw iw' : Int → Int} {bd bd' : Int} (h : Lay n live lf pe len iw bd)
    (hs : ∀ x ∈ live', x ∈ live) (h1 : ∀ x ∈ live', pe' x = pe x) (h2 : ∀ x ∈ live', lf' x = lf x) (h3 : ∀ x ∈ live', len' x = (lf' x).length)
    (h4 : ∀ q : Int, 0 ≤ q → q < bd → iw' q = iw q) (hb : bd ≤ bd') : Lay n live' lf' pe' len' iw' bd' :=
  h.shrink hs (fun x hx => by rw [h1 x hx, h2 x hx]; exact ⟨le_refl _, le_refl _⟩) (fun x hx => by rw [h2 x hx]; exact h.ne x (hs x hx)) h3 (fun x hx => by
    rw [h1 x hx, h2 x hx]
    refine (h.val x (hs x hx)).congr fun q a b => h4 q ?_ ?_
    · have := h.pos x (hs x hx); omega
    · have := h.bd x (hs x hx); omega) hb

/-- Lists during the construction: `rm` is left of the pivot's list, `re` of the list of `e`. -/
def lvF (lf : Int → List Int) (me e : Int) (rm re : List Int) (x : Int) : List Int := if x = e then re else if x = me then rm else lf x

/-- Their positions. -/
def pvF (pe : Int → Int) (me e p pj : Int) (x : Int) : Int := if x = e then pj else if x = me then p else pe x

/-- Nodes and elements whose lists are not touched. -/
def restF (g : Gh) (me : Int) (ab : List Int) (e : Int) : Finset Int := (g.V ∪ g.X).filter fun x => x ≠ me ∧ x ∉ ab ∧ x ≠ e

theorem mem_restF {g : Gh} {me e x : Int} {ab : List Int} : x ∈ restF g me ab e ↔ (x ∈ g.V ∨ x ∈ g.X) ∧ x ≠ me ∧ x ∉ ab ∧ x ≠ e := by
  unfold restF; rw [Finset.mem_filter, Finset.mem_union]

/-- All lists that are left. -/
def liveF (g : Gh) (me : Int) (ab : List Int) (e : Int) (rm re : List Int) : Finset Int := (insert e (insert me (restF g me ab e))).filter fun x => lvF g.lf me e rm re x ≠ []

theorem mem_liveF {g : Gh} {me e x : Int} {ab rm re : List Int} :
    x ∈ liveF g me ab e rm re ↔ (x = e ∨ x = me ∨ x ∈ restF g me ab e) ∧ lvF g.lf me e rm re x ≠ [] := by
  unfold liveF; rw [Finset.mem_filter, Finset.mem_insert, Finset.mem_insert]

/-- Invariant of the construction. -/
structure BI (n : Nat) (iwlen S0 : Int) (g : Gh) (me : Int) (c0 : St) (ab rm re M con : List Int) (e knt : Int) (b : Build) : Prop where
  eq : b.c = { c0 with pe := b.c.pe, iw := b.c.iw, len := b.c.len, nv := b.c.nv, next := b.c.next, last := b.c.last, head := b.c.head, w := b.c.w, pfree := b.c.pfree }
  sz : Szs n iwlen b.c
  lay : Lay n (liveF g me ab e rm re) (lvF g.lf me e rm re) (pvF b.c.pe.get me e b.p b.pj) (fun x => (lvF g.lf me e rm re x).length) b.c.iw.get b.pme1
  len : ∀ x ∈ restF g me ab e, b.c.len.get x = (g.lf x).length
  peA : ∀ x ∈ ab, b.c.pe.get x = flip me
  peD : ∀ x, x ∉ g.V → x ∉ g.X → b.c.pe.get x = c0.pe.get x
  w : ∀ x, b.c.w.get x = if x ∈ ab then 0 else c0.w.get x
  nv : ∀ x : Int, 0 ≤ x → x < n → b.c.nv.get x = if x = me ∨ x ∈ M then -g.wt x else g.wt x
  dl : ∃ Dl, DLs n ((g.V.erase me).filter fun x => x ∉ M) Dl noB b.c.head.get b.c.next.get b.c.last.get b.c.degree.get
  mn : M.Nodup
  mm : ∀ x, x ∈ M ↔ x ∈ g.V ∧ x ≠ me ∧ x ∈ con
  dg : b.degme = ∑ x ∈ M.toFinset, g.wt x
  seg : Seg b.c.iw.get b.pme1 M
  pf : b.c.pfree = b.pme1 + M.length
  p0 : 0 ≤ b.pme1
  pl : b.c.pfree ≤ iwlen
  nn : ∀ q : Int, 0 ≤ q → q < b.c.pfree → 0 ≤ b.c.iw.get q
  sum : ∑ x ∈ restF g me ab e, ((g.lf x).length : Int) + rm.length + re.length + M.length ≤ S0
  gc : b.pme1 + n ≤ iwlen ∨ e = me ∨ b.c.len.get me - knt = rm.length
  ne : ∀ x ∈ restF g me ab e, g.lf x ≠ []

section
variable {n : Nat} {iwlen S0 : Int} {g : Gh} {me : Int} {c0 : St} {ab rm re M con : List Int} {e knt : Int} {b : Build}

theorem lvF_e : lvF g.lf me e rm re e = re := by unfold lvF; rw [if_pos rfl]
theorem lvF_ne {x : Int} (h : x ≠ e) (re re' : List Int) : lvF g.lf me e rm re x = lvF g.lf me e rm re' x := by unfold lvF; rw [if_neg h, if_neg h]
theorem lvF_me (h : e ≠ me) : lvF g.lf me e rm re me = rm := by unfold lvF; rw [if_neg (fun u => h u.symm), if_pos rfl]
theorem lvF_rest {x : Int} (h : x ∈ restF g me ab e) : lvF g.lf me e rm re x = g.lf x := by
  obtain ⟨-, h1, -, h2⟩ := mem_restF.1 h
  unfold lvF; rw [if_neg h2, if_neg h1]
theorem pvF_rest {pe : Int → Int} {p pj x : Int} (h : x ∈ restF g me ab e) : pvF pe me e p pj x = pe x := by
  obtain ⟨-, h1, -, h2⟩ := mem_restF.1 h
  unfold pvF; rw [if_neg h2, if_neg h1]

/-- An entry of the list of `e` is read. -/
theorem BI.next {i : Int} (I : BI n iwlen S0 g me c0 ab rm (i :: re) M con e knt b) :
    BI n iwlen S0 g me c0 ab rm re M con e knt { b with pj := b.pj + 1 } ∧ b.c.iw.get b.pj = i ∧ 0 ≤ b.pj ∧ b.pj < b.pme1 := by
  have hel : e ∈ liveF g me ab e rm (i :: re) := mem_liveF.2 ⟨Or.inl rfl, by rw [lvF_e]; simp⟩
  have hpv : pvF b.c.pe.get me e b.p b.pj e = b.pj := by unfold pvF; rw [if_pos rfl]
  have hv := I.lay.val e hel
  have hp := I.lay.pos e hel
  have hb := I.lay.bd e hel
  rw [hpv] at hv hp hb
  rw [lvF_e] at hv hb
  rw [List.length_cons] at hb
  push_cast at hb
  refine ⟨⟨I.eq, I.sz, ?_, I.len, I.peA, I.peD, I.w, I.nv, I.dl, I.mn, I.mm, I.dg, I.seg, I.pf, I.p0, I.pl, I.nn, ?_, I.gc, I.ne⟩, hv.1, hp, by omega⟩
  · have hpe : ∀ x ∈ liveF g me ab e rm re, x ≠ e → pvF b.c.pe.get me e b.p (b.pj + 1) x = pvF b.c.pe.get me e b.p b.pj x := fun x _ hx => by
      unfold pvF; rw [if_neg hx, if_neg hx]
    have hlv : ∀ x ∈ liveF g me ab e rm re, x ∈ liveF g me ab e rm (i :: re) := fun x hx => by
      obtain ⟨h1, h2⟩ := mem_liveF.1 hx
      refine mem_liveF.2 ⟨h1, ?_⟩
      by_cases hxe : x = e
      · rw [hxe, lvF_e]; simp
      · rw [lvF_ne hxe _ re]; exact h2
    have hpve : pvF b.c.pe.get me e b.p (b.pj + 1) e = b.pj + 1 := by unfold pvF; rw [if_pos rfl]
    refine I.lay.shrink hlv (fun x hx => ?_) (fun x hx => (mem_liveF.1 hx).2) (fun x _ => rfl) (fun x hx => ?_) (le_refl _)
    · by_cases hxe : x = e
      · rw [hxe, hpve, hpv, lvF_e, lvF_e, List.length_cons]; push_cast; omega
      · show _ ≤ pvF b.c.pe.get me e b.p (b.pj + 1) x ∧ pvF b.c.pe.get me e b.p (b.pj + 1) x + _ ≤ _
        rw [hpe x hx hxe, lvF_ne hxe _ (i :: re)]; omega
    · by_cases hxe : x = e
      · rw [hxe, hpve, lvF_e]; exact hv.2
      · show Seg _ (pvF b.c.pe.get me e b.p (b.pj + 1) x) _
        rw [hpe x hx hxe, lvF_ne hxe _ (i :: re)]; exact I.lay.val x (hlv x hx)
  · have := I.sum
    rw [List.length_cons] at this
    push_cast at this
    omega

theorem BI.lt (hvn : ∀ x ∈ g.V, 0 ≤ x ∧ x < (n : Int)) (I : BI n iwlen S0 g me c0 ab rm re M con e knt b) {i : Int} (hi : i ∈ g.V) (hiM : i ∉ M) : (M.length : Int) + 1 ≤ n := by
  have : (i :: M).length ≤ n := length_le_of_nodup (List.nodup_cons.2 ⟨hiM, I.mn⟩) fun x hx => by
    rcases List.mem_cons.1 hx with u | u
    · rw [u]; exact hvn i hi
    · exact hvn x ((I.mm x).1 u).1
  rw [List.length_cons] at this
  omega

/-- An entry goes to the new element. -/
theorem put_runs (hvn : ∀ x ∈ g.V, 0 ≤ x ∧ x < (n : Int)) (hwn : ∀ x ∈ g.V, 0 < g.wt x) (I : BI n iwlen S0 g me c0 ab rm re M con e knt b) {i : Int} (hi : i ∈ g.V) (him : i ≠ me)
    (hiM : i ∉ M) (hpf : b.c.pfree < iwlen) (hsum : ∑ x ∈ restF g me ab e, ((g.lf x).length : Int) + rm.length + re.length + M.length + 1 ≤ S0) :
    Runs (do
      let nv ← b.c.nv.wr i (-(g.wt i))
      let iw ← b.c.iw.wr b.c.pfree i
      let c ← dropDeg i { b.c with nv := nv, iw := iw, pfree := b.c.pfree + 1 }
      pure { b with degme := b.degme + g.wt i, c := c }) fun b' => BI n iwlen S0 g me c0 ab rm re (M ++ [i]) (con ++ [i]) e knt b' := by
  obtain ⟨hi0, hi1⟩ := hvn i hi
  have hpf0 : 0 ≤ b.c.pfree := by have := I.pf; have := I.p0; omega
  simp only [runs_bind, runs_wrZ, runs_pure]
  refine ⟨⟨hi0, by rw [I.sz.nv]; exact hi1⟩, ⟨hpf0, by rw [I.sz.iw]; exact hpf⟩, ?_⟩
  obtain ⟨Dl, hDl⟩ := I.dl
  have hiVd : i ∈ (g.V.erase me).filter fun x => x ∉ M := Finset.mem_filter.2 ⟨Finset.mem_erase.2 ⟨him, hi⟩, hiM⟩
  refine Runs.mono (dropDeg_runs (c := { b.c with nv := b.c.nv.set i (-(g.wt i)), iw := b.c.iw.set b.c.pfree i, pfree := b.c.pfree + 1 }) hDl hiVd I.sz.head I.sz.next I.sz.last I.sz.degree)
    fun c' ⟨hc, s1, s2, s3, hD⟩ => ?_
  have hcpe : c'.pe = b.c.pe := by rw [hc]
  have hciw : c'.iw = b.c.iw.set b.c.pfree i := by rw [hc]
  have hclen : c'.len = b.c.len := by rw [hc]
  have hcnv : c'.nv = b.c.nv.set i (-(g.wt i)) := by rw [hc]
  have hcw : c'.w = b.c.w := by rw [hc]
  have hcpf : c'.pfree = b.c.pfree + 1 := by rw [hc]
  have hiw : ∀ q : Int, q < b.c.pfree → c'.iw.get q = b.c.iw.get q := fun q hq => by rw [hciw]; exact Arr.set_ne _ _ (by omega)
  have hpm : b.pme1 ≤ b.c.pfree := by have := I.pf; omega
  refine ⟨?_, ⟨by rw [hcpe]; exact I.sz.pe, by rw [hciw]; exact I.sz.iw, by rw [hclen]; exact I.sz.len, by rw [hcnv]; exact I.sz.nv, s2, s3, s1, by rw [hc]; exact I.sz.elen,
    by rw [hc]; exact I.sz.degree, by rw [hcw]; exact I.sz.w⟩, ?_, fun x hx => by rw [hclen]; exact I.len x hx, fun x hx => by rw [hcpe]; exact I.peA x hx,
    fun x hx hx' => by rw [hcpe]; exact I.peD x hx hx', fun x => by rw [hcw]; exact I.w x, fun x h0 h1 => ?_, ?_, ?_, fun x => ?_, ?_, ?_, ?_, I.p0, by rw [hcpf]; omega, fun q h0 h1 => ?_,
    ?_, by rw [hclen]; exact I.gc, I.ne⟩
  · rw [hc]
    exact congrArg (fun t : St => { t with nv := b.c.nv.set i (-(g.wt i)), iw := b.c.iw.set b.c.pfree i, pfree := b.c.pfree + 1, head := c'.head, next := c'.next, last := c'.last }) I.eq
  · rw [hcpe]
    exact I.lay.same (fun x hx => hx) (fun x _ => rfl) (fun x _ => rfl) (fun x _ => rfl) (fun q h0 h1 => hiw q (by omega)) (le_refl _)
  · rw [hcnv, Arr.set_get]
    by_cases hx : x = i
    · rw [if_pos hx, hx, if_pos (Or.inr (by simp))]
    · rw [if_neg hx, I.nv x h0 h1]
      have : x ∈ M ++ [i] ↔ x ∈ M := by simp [hx]
      simp only [this]
  · obtain ⟨Dl', h⟩ := hD
    refine ⟨Dl', ?_⟩
    have : ((g.V.erase me).filter fun x => x ∉ M).erase i = (g.V.erase me).filter fun x => x ∉ M ++ [i] := by
      ext x
      rw [Finset.mem_erase, Finset.mem_filter, Finset.mem_filter, List.mem_append, List.mem_singleton]
      constructor
      · rintro ⟨a, b, c⟩; exact ⟨b, fun u => u.elim c a⟩
      · rintro ⟨a, b⟩; exact ⟨fun u => b (Or.inr u), a, fun u => b (Or.inl u)⟩
    rw [← this]; exact h
  · rw [List.nodup_append]
    refine ⟨I.mn, List.nodup_singleton i, fun x hx y hy => ?_⟩
    rw [List.mem_singleton] at hy
    rw [hy]; exact fun u => hiM (u ▸ hx)
  · rw [List.mem_append, List.mem_append, List.mem_singleton, I.mm x]
    constructor
    · rintro (⟨u1, u2, u3⟩ | u)
      · exact ⟨u1, u2, Or.inl u3⟩
      · rw [u]; exact ⟨hi, him, Or.inr rfl⟩
    · rintro ⟨u1, u2, u3 | u3⟩
      · exact Or.inl ⟨u1, u2, u3⟩
      · exact Or.inr u3
  · show b.degme + g.wt i = _
    rw [List.toFinset_append, I.dg]
    have : M.toFinset ∪ [i].toFinset = insert i M.toFinset := by ext x; simp [or_comm]
    rw [this, Finset.sum_insert (by simpa using hiM)]; ring
  · show Seg c'.iw.get b.pme1 (M ++ [i])
    rw [seg_append]
    refine ⟨I.seg.congr fun q h0 h1 => hiw q (by have := I.pf; omega), ?_, trivial⟩
    rw [hciw, ← I.pf, Arr.set_same]
  · show c'.pfree = b.pme1 + _
    rw [hcpf, I.pf, List.length_append]; simp; ring
  · have h1 : q < c'.pfree := h1
    rw [hcpf] at h1
    show 0 ≤ c'.iw.get q
    by_cases hq : q = b.c.pfree
    · rw [hciw, hq, Arr.set_same]; exact hi0
    · rw [hiw q (by omega)]; exact I.nn q h0 (by omega)
  · rw [List.length_append]; simp; omega

theorem ite_wr {P : Prop} [Decidable P] {a : Arr} {i v : Int} (h : 0 ≤ i ∧ i < a.size) : (if P then a.wr i v else pure a : Hif.M Arr) = pure (if P then a.set i v else a) := by
  split
  · unfold Arr.wr; rw [if_pos h]
  · rfl

/-- The state the compression starts from. -/
theorem gc_pre (I : BI n iwlen S0 g me c0 ab rm re M con e knt b) {knt2 ln : Int} (hln : ln - knt2 = re.length) (he : 0 ≤ e ∧ e < n)
    (hm : 0 ≤ me ∧ me < n) (hmV : me ∈ g.V) (hee : e = me ∨ e ∈ g.X) (hab : ∀ x ∈ ab, x ∈ g.X ∧ x ≠ e) (hgc : e = me ∨ b.c.len.get me - knt = rm.length)
    {Q : Build → Prop} (hQ : ∀ pe len : Arr, pe.size = n → len.size = n → (∀ x ∈ liveF g me ab e rm re, pe.get x = pvF b.c.pe.get me e b.p b.pj x ∧ len.get x = (lvF g.lf me e rm re x).length) →
      (∀ x : Int, x ≠ me → x ≠ e → pe.get x = b.c.pe.get x ∧ len.get x = b.c.len.get x) → (re = [] → pe.get e = -1) → (e ≠ me → rm = [] → pe.get me = -1) →
      Runs (do
        let r ← gcMove n b.pme1 { b.c with pe := pe, len := len }
        let pj ← r.2.pe.rd e
        let p ← r.2.pe.rd me
        pure { b with p := p, pj := pj, pme1 := r.1, c := r.2 }) Q) :
    Runs (gc n me e knt knt2 ln b) Q := by
  unfold gc
  rw [runs_bind, runs_wrZ]
  refine ⟨⟨hm.1, by rw [I.sz.pe]; exact hm.2⟩, ?_⟩
  rw [runs_bind, runs_rdZ]
  refine ⟨⟨hm.1, by rw [I.sz.len]; exact hm.2⟩, ?_⟩
  rw [runs_bind, runs_wrZ]
  refine ⟨⟨hm.1, by rw [I.sz.len]; exact hm.2⟩, ?_⟩
  rw [ite_wr ⟨hm.1, by rw [Arr.set_size, I.sz.pe]; exact hm.2⟩, runs_bind, runs_pure, runs_bind, runs_wrZ]
  refine ⟨⟨he.1, ?_⟩, ?_⟩
  · split <;> simp only [Arr.set_size, I.sz.pe] <;> exact he.2
  rw [runs_bind, runs_wrZ]
  refine ⟨⟨he.1, by rw [Arr.set_size, I.sz.len]; exact he.2⟩, ?_⟩
  rw [ite_wr ⟨he.1, by
    rw [Arr.set_size]
    split <;> simp only [Arr.set_size, I.sz.pe] <;> exact he.2⟩, runs_bind, runs_pure]
  have g1 : ∀ x, (if ln - knt2 = 0 then (((if b.c.len.get me - knt = 0 then (b.c.pe.set me b.p).set me (-1) else b.c.pe.set me b.p).set e b.pj).set e (-1)) else
      ((if b.c.len.get me - knt = 0 then (b.c.pe.set me b.p).set me (-1) else b.c.pe.set me b.p).set e b.pj)).get x =
      if x = e then (if ln - knt2 = 0 then -1 else b.pj) else if x = me then (if b.c.len.get me - knt = 0 then -1 else b.p) else b.c.pe.get x := fun x => by
    by_cases h1 : ln - knt2 = 0 <;> by_cases h2 : b.c.len.get me - knt = 0 <;> by_cases h3 : x = e <;> by_cases h4 : x = me <;>
      simp only [h1, h2, h3, h4, if_true, if_false, Arr.set_get] <;> simp_all
  have g2 : ∀ x, ((b.c.len.set me (b.c.len.get me - knt)).set e (ln - knt2)).get x = if x = e then ln - knt2 else if x = me then b.c.len.get me - knt else b.c.len.get x := fun x => by
    simp only [Arr.set_get]
  refine hQ _ _ ?_ ?_ (fun x hx => ?_) (fun x hx hx' => ?_) (fun h => ?_) fun h h' => ?_
  · split <;> simp only [Arr.set_size] <;> split <;> simp only [Arr.set_size] <;> exact I.sz.pe
  · simp only [Arr.set_size]; exact I.sz.len
  · obtain ⟨h1, h2⟩ := mem_liveF.1 hx
    rw [g1 x, g2 x]
    by_cases hxe : x = e
    · rw [if_pos hxe, if_pos hxe, hxe]
      rw [hxe, lvF_e] at h2
      have : 0 < re.length := List.length_pos_iff.2 h2
      unfold pvF
      rw [if_neg (show ¬ ln - knt2 = 0 by omega), if_pos rfl, lvF_e]
      exact ⟨rfl, hln⟩
    · rw [if_neg hxe, if_neg hxe]
      by_cases hxm : x = me
      · have hem : e ≠ me := fun u => hxe (hxm.trans u.symm)
        have hl := hgc.resolve_left hem
        rw [if_pos hxm, if_pos hxm, hxm]
        rw [hxm, lvF_me hem] at h2
        have : 0 < rm.length := List.length_pos_iff.2 h2
        unfold pvF
        rw [if_neg (show ¬ b.c.len.get me - knt = 0 by omega), if_neg (fun u => hem u.symm), if_pos rfl, lvF_me hem]
        exact ⟨rfl, hl⟩
      · rw [if_neg hxm, if_neg hxm]
        have hr : x ∈ restF g me ab e := (h1.resolve_left hxe).resolve_left hxm
        rw [pvF_rest hr, lvF_rest hr]
        exact ⟨rfl, I.len x hr⟩
  · rw [g1 x, g2 x, if_neg hx', if_neg hx', if_neg hx, if_neg hx]; exact ⟨rfl, rfl⟩
  · rw [g1 e, if_pos rfl, if_pos]
    rw [hln, h]; rfl
  · rw [g1 me, if_neg (fun u => h u.symm), if_pos rfl, if_pos]
    rw [hgc.resolve_left h, h']; rfl

/-- The compression. -/
theorem gc_runs (I : BI n iwlen S0 g me c0 ab rm re M con e knt b) {knt2 ln : Int} (hln : ln - knt2 = re.length) (he : 0 ≤ e ∧ e < n)
    (hm : 0 ≤ me ∧ me < n) (hmV : me ∈ g.V) (hee : e = me ∧ rm = [] ∨ e ∈ g.X) (hvx : ∀ x ∈ g.V, x ∉ g.X) (hab : ∀ x ∈ ab, x ∈ g.X ∧ x ≠ e)
    (hdead : ∀ x : Int, 0 ≤ x → x < n → x ∉ g.V → x ∉ g.X → c0.pe.get x ≤ -1) (hS : S0 + n ≤ iwlen) (hM1 : (M.length : Int) + 1 ≤ n) (hfull : iwlen ≤ b.c.pfree) :
    Runs (gc n me e knt knt2 ln b) fun b' => BI n iwlen S0 g me c0 ab rm re M con e knt b' ∧ b'.c.pfree < iwlen := by
  have hgc : e = me ∨ b.c.len.get me - knt = rm.length := I.gc.resolve_left fun u => by have := I.pf; omega
  refine gc_pre I hln he hm hmV (hee.imp (fun u => u.1) id) hab hgc fun pe len hps hls hlive hother hre hrm => ?_
  have hexm : ∀ x ∈ ab, x ≠ me := fun x hx u => hvx me hmV (u ▸ (hab x hx).1)
  have hlay : Lay n (liveF g me ab e rm re) (lvF g.lf me e rm re) pe.get len.get b.c.iw.get b.pme1 :=
    I.lay.same (fun x hx => hx) (fun x hx => (hlive x hx).1) (fun x _ => rfl) (fun x hx => (hlive x hx).2) (fun q _ _ => rfl) (le_refl _)
  have hnot : ∀ x : Int, 0 ≤ x → x < n → x ∉ liveF g me ab e rm re → pe.get x ≤ -1 := fun x h0 h1 hx => by
    by_cases hxe : x = e
    · have : re = [] := by
        by_contra hne
        exact hx (mem_liveF.2 ⟨Or.inl hxe, by rw [hxe, lvF_e]; exact hne⟩)
      rw [hxe, hre this]
    · by_cases hxm : x = me
      · have hem : e ≠ me := fun u => hxe (hxm.trans u.symm)
        have : rm = [] := by
          by_contra hne
          exact hx (mem_liveF.2 ⟨Or.inr (Or.inl hxm), by rw [hxm, lvF_me hem]; exact hne⟩)
        rw [hxm, hrm hem this]
      · rw [(hother x hxm hxe).1]
        by_cases hxab : x ∈ ab
        · rw [I.peA x hxab]; unfold flip; omega
        · by_cases hvv : x ∈ g.V ∨ x ∈ g.X
          · exfalso
            have hr : x ∈ restF g me ab e := mem_restF.2 ⟨hvv, hxm, hxab, hxe⟩
            exact hx (mem_liveF.2 ⟨Or.inr (Or.inr hr), by rw [lvF_rest hr]; exact (I.ne x hr)⟩)
          · rw [I.peD x (fun u => hvv (Or.inl u)) (fun u => hvv (Or.inr u))]
            exact hdead x h0 h1 (fun u => hvv (Or.inl u)) (fun u => hvv (Or.inr u))
  rw [runs_bind]
  refine Runs.mono (gcMove_runs (c := { b.c with pe := pe, len := len }) (M := M) hlay hps hls I.p0 I.pf (by rw [I.sz.iw]; exact I.pl) hnot I.nn I.seg) fun r hr => ?_
  obtain ⟨hc, q1, q2, q3, q4, q5, q6, q7, q8⟩ := hr
  rw [runs_bind, runs_rdZ]
  refine ⟨⟨he.1, by rw [q1]; exact he.2⟩, ?_⟩
  rw [runs_bind, runs_rdZ, runs_pure]
  refine ⟨⟨hm.1, by rw [q1]; exact hm.2⟩, ?_⟩
  have hsum : r.1 ≤ S0 - M.length := by
    have h1 : ∑ x ∈ liveF g me ab e rm re, ((lvF g.lf me e rm re x).length : Int) ≤ ∑ x ∈ restF g me ab e, ((g.lf x).length : Int) + rm.length + re.length := by
      have h2 : ∑ x ∈ liveF g me ab e rm re, ((lvF g.lf me e rm re x).length : Int) ≤ ∑ x ∈ insert e (insert me (restF g me ab e)), ((lvF g.lf me e rm re x).length : Int) :=
        Finset.sum_le_sum_of_subset_of_nonneg (Finset.filter_subset _ _) fun _ _ _ => by omega
      refine le_trans h2 ?_
      have hmr : me ∉ restF g me ab e := fun u => (mem_restF.1 u).2.1 rfl
      have her : e ∉ restF g me ab e := fun u => (mem_restF.1 u).2.2.2 rfl
      have h3 : ∑ x ∈ restF g me ab e, ((lvF g.lf me e rm re x).length : Int) = ∑ x ∈ restF g me ab e, ((g.lf x).length : Int) :=
        Finset.sum_congr rfl fun x hx => by rw [lvF_rest hx]
      by_cases hem : e = me
      · have hins : insert e (insert me (restF g me ab e)) = insert e (restF g me ab e) := by
          ext x
          simp only [Finset.mem_insert]
          constructor
          · rintro (u | u | u)
            exacts [Or.inl u, Or.inl (u.trans hem.symm), Or.inr u]
          · rintro (u | u)
            exacts [Or.inl u, Or.inr (Or.inr u)]
        rw [hins, Finset.sum_insert her, lvF_e, h3]
        omega
      · rw [Finset.sum_insert (by rw [Finset.mem_insert]; rintro (u | u); exacts [hem u, her u]), Finset.sum_insert hmr, lvF_e, lvF_me hem, h3]
        omega
    have := I.sum
    omega
  have hr2pe : r.2.pfree = r.1 + M.length := by rw [hc]
  refine ⟨⟨?_, ⟨q1, by rw [q2]; exact I.sz.iw, by rw [hc]; exact hls, by rw [hc]; exact I.sz.nv, by rw [hc]; exact I.sz.next, by rw [hc]; exact I.sz.last, by rw [hc]; exact I.sz.head,
    by rw [hc]; exact I.sz.elen, by rw [hc]; exact I.sz.degree, by rw [hc]; exact I.sz.w⟩, ?_, fun x hx => ?_, fun x hx => ?_, fun x hx hx' => ?_, fun x => ?_, fun x h0 h1 => ?_, ?_, I.mn, I.mm, I.dg, q6,
    hr2pe, q3.1, ?_, fun q h0 h1 => q8 q h0 (by rw [← hr2pe]; exact h1), I.sum, Or.inl (by show r.1 + (n : Int) ≤ iwlen; omega), I.ne⟩, by show r.2.pfree < iwlen; omega⟩
  · show r.2 = _
    rw [hc]
    exact congrArg (fun t : St => { t with pe := r.2.pe, len := len, iw := r.2.iw, pfree := r.1 + M.length }) I.eq
  · refine q5.same (fun x hx => hx) (fun x hx => ?_) (fun x _ => rfl) (fun x _ => rfl) (fun q _ _ => rfl) (le_refl _)
    show (if x = e then r.2.pe.get e else if x = me then r.2.pe.get me else r.2.pe.get x) = _
    split
    · rename_i u; rw [u]
    · split
      · rename_i u; rw [u]
      · rfl
  · have h1 := mem_restF.1 hx
    show r.2.len.get x = _
    rw [hc]
    show len.get x = _
    rw [(hother x h1.2.1 h1.2.2.2).2]; exact I.len x hx
  · have hl : x ∉ liveF g me ab e rm re := fun u => by
      rcases (mem_liveF.1 u).1 with v | v | v
      · exact (hab x hx).2 v
      · exact hexm x hx v
      · exact (mem_restF.1 v).2.2.1 hx
    show r.2.pe.get x = _
    rw [q7 x hl]
    show pe.get x = _
    rw [(hother x (hexm x hx) (hab x hx).2).1]; exact I.peA x hx
  · have hxe : x ≠ e := fun u => by
      rcases hee with v | v
      · exact hx (by rw [u, v.1]; exact hmV)
      · exact hx' (u ▸ v)
    have hxm : x ≠ me := fun u => hx (u ▸ hmV)
    have hl : x ∉ liveF g me ab e rm re := fun u => by
      rcases (mem_liveF.1 u).1 with v | v | v
      · exact hxe v
      · exact hxm v
      · exact (mem_restF.1 v).1.elim hx hx'
    show r.2.pe.get x = _
    rw [q7 x hl]
    show pe.get x = _
    rw [(hother x hxm hxe).1]; exact I.peD x hx hx'
  · show r.2.w.get x = _
    rw [hc]; exact I.w x
  · show r.2.nv.get x = _
    rw [hc]; exact I.nv x h0 h1
  · show ∃ Dl, DLs n _ Dl noB r.2.head.get r.2.next.get r.2.last.get r.2.degree.get
    rw [hc]; exact I.dl
  · show r.2.pfree ≤ iwlen
    omega

/-- What the construction needs to know about the graph. -/
structure BH (n : Nat) (iwlen S0 : Int) (g : Gh) (me : Int) (c0 : St) : Prop where
  vn : ∀ x ∈ g.V, 0 ≤ x ∧ x < (n : Int)
  xn : ∀ x ∈ g.X, 0 ≤ x ∧ x < (n : Int)
  wv : ∀ x ∈ g.V, 0 < g.wt x
  vx : ∀ x ∈ g.V, x ∉ g.X
  mv : me ∈ g.V
  en : (g.E me).Nodup
  ex : ∀ e ∈ g.E me, e ∈ g.X
  ee : ∀ e ∈ g.X, g.E e = []
  av : ∀ y ∈ g.A me, (0 ≤ y ∧ y < (n : Int)) ∧ (y ∈ g.V ∨ g.wt y = 0)
  ax : ∀ e ∈ g.X, ∀ y ∈ g.A e, (0 ≤ y ∧ y < (n : Int)) ∧ (y ∈ g.V ∨ g.wt y = 0)
  dead : ∀ x : Int, 0 ≤ x → x < n → x ∉ g.V → x ∉ g.X → c0.pe.get x ≤ -1
  S : S0 + n ≤ iwlen

theorem BI.recon {con' : List Int} (I : BI n iwlen S0 g me c0 ab rm re M con e knt b) (h : ∀ x, x ∈ M ↔ x ∈ g.V ∧ x ≠ me ∧ x ∈ con') :
    BI n iwlen S0 g me c0 ab rm re M con' e knt b :=
  ⟨I.eq, I.sz, I.lay, I.len, I.peA, I.peD, I.w, I.nv, I.dl, I.mn, h, I.dg, I.seg, I.pf, I.p0, I.pl, I.nn, I.sum, I.gc, I.ne⟩

/-- An entry of the list of `e`. -/
theorem takeOut_runs (H : BH n iwlen S0 g me c0) {i : Int} (I : BI n iwlen S0 g me c0 ab rm (i :: re) M con e knt b) {knt2 ln : Int} (hln : ln - knt2 = re.length)
    (hee : e = me ∧ rm = [] ∨ e ∈ g.X) (hab : ∀ x ∈ ab, x ∈ g.X ∧ x ≠ e) (hi : (0 ≤ i ∧ i < (n : Int)) ∧ (i ∈ g.V ∨ g.wt i = 0)) :
    Runs (takeOut n iwlen me e knt ln knt2 b) fun b' => ∃ M', BI n iwlen S0 g me c0 ab rm re M' (con ++ [i]) e knt b' := by
  obtain ⟨I1, hiw, hp0, hp1⟩ := I.next
  have he : 0 ≤ e ∧ e < (n : Int) := by
    rcases hee with u | u
    · rw [u.1]; exact H.vn me H.mv
    · exact H.xn e u
  have hsum := I.sum
  rw [List.length_cons] at hsum
  push_cast at hsum
  unfold takeOut
  rw [runs_bind, runs_rdZ]
  refine ⟨⟨hp0, by rw [I.sz.iw]; have := I.pl; have := I.pf; omega⟩, ?_⟩
  rw [hiw]
  dsimp only
  rw [runs_bind, runs_rdZ]
  refine ⟨⟨hi.1.1, by rw [I.sz.nv]; exact hi.1.2⟩, ?_⟩
  have hnvi := I1.nv i hi.1.1 hi.1.2
  have hnvi' : b.c.nv.get i = if i = me ∨ i ∈ M then -g.wt i else g.wt i := hnvi
  by_cases hpos : 0 < b.c.nv.get i
  · rw [if_pos hpos]
    have hiV : i ∈ g.V := by
      rcases hi.2 with u | u
      · exact u
      · rw [hnvi', u] at hpos; split at hpos <;> omega
    have hwi := H.wv i hiV
    have hout : ¬ (i = me ∨ i ∈ M) := fun u => by rw [hnvi', if_pos u] at hpos; omega
    rw [if_neg hout] at hnvi'
    have him : i ≠ me := fun u => hout (Or.inl u)
    have hiM : i ∉ M := fun u => hout (Or.inr u)
    rw [hnvi', runs_bind]
    have key : Runs (if iwlen ≤ b.c.pfree then gc n me e knt knt2 ln { b with pj := b.pj + 1 } else pure { b with pj := b.pj + 1 })
        fun b' => BI n iwlen S0 g me c0 ab rm re M con e knt b' ∧ b'.c.pfree < iwlen := by
      split
      · rename_i hf
        exact gc_runs I1 hln he (H.vn me H.mv) H.mv hee H.vx hab H.dead H.S (I.lt H.vn hiV hiM) hf
      · rename_i hf
        rw [runs_pure]
        exact ⟨I1, by show b.c.pfree < iwlen; omega⟩
    refine Runs.mono key fun b1 ⟨I2, hpf⟩ => ?_
    refine Runs.mono (put_runs H.vn H.wv I2 hiV him hiM hpf (by omega)) fun b' hb' => ⟨M ++ [i], hb'⟩
  · rw [if_neg hpos, runs_pure]
    refine ⟨M, I1.recon fun x => ?_⟩
    rw [I.mm x, List.mem_append, List.mem_singleton]
    refine ⟨fun u => ⟨u.1, u.2.1, Or.inl u.2.2⟩, fun ⟨u1, u2, u3⟩ => ⟨u1, u2, u3.elim id fun u => ?_⟩⟩
    have hwx := H.wv x u1
    rw [u] at u1 u2 hwx
    by_contra hc
    refine hpos ?_
    rw [hnvi', if_neg]
    · exact hwx
    · rintro (v | v)
      · exact u2 v
      · exact hc (u ▸ ((I.mm i).1 v).2.2)

/-- The list of `e`. -/
theorem takeLoop_runs (H : BH n iwlen S0 g me c0) (I : BI n iwlen S0 g me c0 ab rm re M con e knt b) {ln : Int} (hln : ln = re.length)
    (hee : e = me ∧ rm = [] ∨ e ∈ g.X) (hab : ∀ x ∈ ab, x ∈ g.X ∧ x ≠ e) (hre : ∀ i ∈ re, (0 ≤ i ∧ i < (n : Int)) ∧ (i ∈ g.V ∨ g.wt i = 0)) :
    Runs (forZ 1 (ln + 1) b fun knt2 b => takeOut n iwlen me e knt ln knt2 b) fun b' => ∃ M', BI n iwlen S0 g me c0 ab rm [] M' (con ++ re) e knt b' := by
  refine forZ_runs (fun k b' => ∃ done todo M', re = done ++ todo ∧ (todo.length : Int) = ln + 1 - k ∧ BI n iwlen S0 g me c0 ab rm todo M' (con ++ done) e knt b') (by omega)
    ⟨[], re, M, rfl, by omega, by rw [List.append_nil]; exact I⟩ ?_ ?_
  · rintro k b' h1 h2 ⟨done, todo, M', e1, e2, I'⟩
    cases todo with
    | nil => simp at e2; omega
    | cons i todo =>
      rw [List.length_cons] at e2
      push_cast at e2
      refine Runs.mono (takeOut_runs H I' (knt2 := k) (ln := ln) (by omega) hee hab (hre i (by rw [e1]; simp))) fun b'' ⟨M'', I''⟩ =>
        ⟨done ++ [i], todo, M'', by rw [e1]; simp, by omega, by rw [← List.append_assoc]; exact I''⟩
  · rintro b' ⟨done, todo, M', e1, e2, I'⟩
    have : todo = [] := by rw [← List.length_eq_zero_iff]; omega
    subst this
    rw [List.append_nil] at e1
    subst e1
    exact ⟨M', I'⟩

end

end Amd
end Hif
