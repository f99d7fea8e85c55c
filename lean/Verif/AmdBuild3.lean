import Verif.AmdBuild2

set_option linter.unusedVariables false

/-! # The new element -/

namespace Hif
namespace Amd

/-- The new element `me` with the nodes `M`; `B` bounds the other lists. -/
structure Built (n : Nat) (iwlen S0 : Int) (g : Gh) (me : Int) (c0 : St) (M : List Int) (B : Int) (b : Build) : Prop where
  eq : b.c = { c0 with pe := b.c.pe, iw := b.c.iw, len := b.c.len, nv := b.c.nv, next := b.c.next, last := b.c.last, head := b.c.head, w := b.c.w, pfree := b.c.pfree }
  sz : Szs n iwlen b.c
  lay : Lay n (restF g me (g.E me) me) g.lf b.c.pe.get b.c.len.get b.c.iw.get B
  dsj : ∀ x ∈ restF g me (g.E me) me, b.c.pe.get x + (g.lf x).length ≤ b.pme1 ∨ b.pme1 + M.length ≤ b.c.pe.get x
  B1 : B ≤ b.c.pfree
  B2 : g.E me ≠ [] → B = b.pme1
  B3 : b.pme1 + M.length ≤ b.c.pfree
  peA : ∀ x ∈ g.E me, b.c.pe.get x = flip me
  peD : ∀ x, x ∉ g.V → x ∉ g.X → b.c.pe.get x = c0.pe.get x
  w : ∀ x, b.c.w.get x = if x ∈ g.E me then 0 else c0.w.get x
  nv : ∀ x : Int, 0 ≤ x → x < n → b.c.nv.get x = if x = me ∨ x ∈ M then -g.wt x else g.wt x
  dl : ∃ Dl, DLs n ((g.V.erase me).filter fun x => x ∉ M) Dl noB b.c.head.get b.c.next.get b.c.last.get b.c.degree.get
  mn : M.Nodup
  mm : ∀ x, x ∈ M ↔ x ∈ g.V ∧ x ≠ me ∧ (x ∈ g.A me ∨ ∃ e ∈ g.E me, x ∈ g.A e)
  dg : b.degme = ∑ x ∈ M.toFinset, g.wt x
  seg : Seg b.c.iw.get b.pme1 M
  p2 : b.pme2 = b.pme1 + M.length - 1
  p0 : 0 ≤ b.pme1
  pl : b.c.pfree ≤ iwlen
  nn : ∀ q : Int, 0 ≤ q → q < b.c.pfree → 0 ≤ b.c.iw.get q
  sum : ∑ x ∈ restF g me (g.E me) me, ((g.lf x).length : Int) + M.length ≤ S0

section
variable {n : Nat} {iwlen S0 : Int} {g : Gh} {me : Int} {c0 : St}

/-- What holds before. -/
structure BP (n : Nat) (iwlen S0 : Int) (g : Gh) (me : Int) (c0 : St) : Prop where
  sz : Szs n iwlen c0
  lay : Lay n (g.V ∪ g.X) g.lf c0.pe.get c0.len.get c0.iw.get c0.pfree
  nv : ∀ x : Int, 0 ≤ x → x < n → c0.nv.get x = if x = me then -g.wt x else g.wt x
  dl : ∃ Dl, DLs n (g.V.erase me) Dl noB c0.head.get c0.next.get c0.last.get c0.degree.get
  p0 : 0 ≤ c0.pfree
  pl : c0.pfree ≤ iwlen
  nn : ∀ q : Int, 0 ≤ q → q < c0.pfree → 0 ≤ c0.iw.get q
  sum : ∑ x ∈ g.V ∪ g.X, ((g.lf x).length : Int) ≤ S0

theorem BP.start (H : BH n iwlen S0 g me c0) (P : BP n iwlen S0 g me c0) : BI n iwlen S0 g me c0 [] (g.lf me) [] [] [] (-1) 0 ⟨c0.pe.get me, 0, c0.pfree, 0, 0, c0⟩ := by
  have hmn := H.vn me H.mv
  have hmU : me ∈ g.V ∪ g.X := Finset.mem_union_left _ H.mv
  have hsub : ∀ x ∈ restF g me [] (-1), x ∈ g.V ∪ g.X := fun x hx => Finset.mem_union.2 (mem_restF.1 hx).1
  have hU : g.V ∪ g.X = insert me (restF g me [] (-1)) := by
    ext x
    rw [Finset.mem_insert, mem_restF, Finset.mem_union]
    constructor
    · intro u
      by_cases hx : x = me
      · exact Or.inl hx
      · refine Or.inr ⟨u, hx, by simp, fun v => ?_⟩
        rcases u with w | w
        · have := H.vn x w; omega
        · have := H.xn x w; omega
    · rintro (u | u)
      · rw [u]; exact Or.inl H.mv
      · exact u.1
  have hcase : ∀ x ∈ liveF g me [] (-1) (g.lf me) [], x = me ∨ x ∈ restF g me [] (-1) := fun x hx => by
    obtain ⟨h1, h2⟩ := mem_liveF.1 hx
    rcases h1 with u | u | u
    · rw [u, lvF_e] at h2; exact absurd rfl h2
    · exact Or.inl u
    · exact Or.inr u
  refine ⟨rfl, P.sz, ?_, fun x hx => P.lay.len x (hsub x hx), fun x hx => absurd hx (by simp), fun x _ _ => rfl, fun x => by simp, fun x h0 h1 => ?_, ?_, List.nodup_nil, fun x => by simp,
    by simp, trivial, by simp, P.p0, P.pl, P.nn, ?_, Or.inr (Or.inr ?_), fun x hx => P.lay.ne x (hsub x hx)⟩
  · refine P.lay.same (fun x hx => ?_) (fun x hx => ?_) (fun x hx => ?_) (fun x _ => rfl) (fun q _ _ => rfl) (le_refl _)
    · rcases hcase x hx with u | u
      · rw [u]; exact hmU
      · exact hsub x u
    · rcases hcase x hx with u | u
      · rw [u]; unfold pvF; rw [if_neg (show ¬ me = -1 by omega), if_pos rfl]
      · rw [pvF_rest u]
    · rcases hcase x hx with u | u
      · rw [u, lvF_neg hmn.1]
      · rw [lvF_rest u]
  · rw [show (⟨c0.pe.get me, 0, c0.pfree, 0, 0, c0⟩ : Build).c = c0 from rfl, P.nv x h0 h1]
    simp
  · simpa using P.dl
  · have := P.sum
    rw [hU, Finset.sum_insert (fun u => (mem_restF.1 u).2.1 rfl)] at this
    simp only [List.length_nil, Nat.cast_zero, add_zero]
    omega
  · have := P.lay.len me hmU
    simp only [sub_zero]
    exact this

/-- The pivot has elements. -/
theorem buildOut_runs (H : BH n iwlen S0 g me c0) (P : BP n iwlen S0 g me c0) (hE : g.E me ≠ []) :
    Runs (build n iwlen me (g.E me).length c0) fun b => ∃ M B, Built n iwlen S0 g me c0 M B b := by
  have hmn := H.vn me H.mv
  have hmU : me ∈ g.V ∪ g.X := Finset.mem_union_left _ H.mv
  have hlen := P.lay.len me hmU
  have hEl : 0 < (g.E me).length := List.length_pos_iff.2 hE
  unfold build
  rw [runs_bind, runs_rdZ]
  refine ⟨⟨hmn.1, by rw [P.sz.pe]; exact hmn.2⟩, ?_⟩
  rw [runs_bind, runs_rdZ]
  refine ⟨⟨hmn.1, by rw [P.sz.len]; exact hmn.2⟩, ?_⟩
  rw [if_neg (show ¬ ((g.E me).length : Int) = 0 by omega), runs_bind]
  have hsl : c0.len.get me - ((g.E me).length : Int) = (g.A me).length := by
    rw [hlen]; unfold Gh.lf; rw [List.length_append]; push_cast; omega
  rw [hsl]
  refine forZ_runs (fun k b => (k ≤ (g.E me).length + 1 ∧ ∃ ab todo M, g.E me = ab ++ todo ∧ (ab.length : Int) = k - 1 ∧
      BI n iwlen S0 g me c0 ab (todo ++ g.A me) [] M (ab.flatMap g.A) (-1) (k - 1) b) ∨
      (k = (g.E me).length + 2 ∧ ∃ M, BI n iwlen S0 g me c0 (g.E me) [] [] M ((g.E me).flatMap g.A ++ g.A me) me (k - 1) b)) (by omega)
    (Or.inl ⟨by omega, [], g.E me, [], rfl, by simp, P.start H⟩) ?_ ?_
  · intro k b h1 h2 hI
    rcases hI with ⟨hk, ab, todo, M, e1, e2, I⟩ | ⟨hk, -⟩
    · have habX : ∀ x ∈ ab, x ∈ g.X := fun x hx => H.ex x (by rw [e1]; simp [hx])
      cases todo with
      | nil =>
        rw [List.append_nil] at e1
        rw [List.nil_append] at I
        have hk' : k = (g.E me).length + 1 := by rw [e1]; omega
        refine Runs.mono (takeLast_runs H (by omega) I habX rfl) fun b' ⟨M', I'⟩ => Or.inr ⟨by omega, M', ?_⟩
        rw [e1]
        rw [show k + 1 - 1 = k by ring]
        exact I'
      | cons e todo =>
        have hnd := H.en
        rw [e1] at hnd
        have hlen2 : (g.E me).length = ab.length + (todo.length + 1) := by rw [e1]; simp
        refine Runs.mono (takeElem_runs H (elenme := (g.E me).length) (slenme := (g.A me).length) (by omega) I (fun x hx => ⟨habX x hx, fun u => ?_⟩) (H.ex e (by rw [e1]; simp))) fun b' ⟨M', I'⟩ =>
          Or.inl ⟨by omega, ab ++ [e], todo, M', by rw [e1]; simp, by simp; omega, ?_⟩
        · exact (List.nodup_append.1 hnd).2.2 x hx e (by simp) u
        · rw [show k + 1 - 1 = k by ring]; exact I'
    · omega
  · intro b hI
    rcases hI with ⟨hk, -⟩ | ⟨-, M, I⟩
    · omega
    · rw [runs_pure]
      have hR : ∀ x ∈ restF g me (g.E me) me, x ∈ liveF g me (g.E me) me [] [] := fun x hx => mem_liveF.2 ⟨Or.inr (Or.inr hx), by rw [lvF_rest hx]; exact I.ne x hx⟩
      have hlay : Lay n (restF g me (g.E me) me) g.lf b.c.pe.get b.c.len.get b.c.iw.get b.pme1 :=
        I.lay.same hR (fun x hx => (pvF_rest hx).symm) (fun x hx => (lvF_rest hx).symm) I.len (fun q _ _ => rfl) (le_refl _)
      have hs := I.sum
      simp only [List.length_nil, Nat.cast_zero, add_zero] at hs
      have hpf := I.pf
      refine ⟨M, b.pme1, I.eq, I.sz, hlay, fun x hx => Or.inl (hlay.bd x hx), by show b.pme1 ≤ b.c.pfree; omega, fun _ => rfl, le_of_eq hpf.symm, I.peA, I.peD, I.w, I.nv, I.dl, I.mn, fun x => ?_, I.dg, I.seg,
        by show b.c.pfree - 1 = _; rw [hpf], I.p0, I.pl, I.nn, hs⟩
      rw [I.mm x, List.mem_append, List.mem_flatMap]
      refine and_congr_right fun _ => and_congr_right fun _ => ?_
      exact or_comm

/-- Invariant of the construction in place. -/
structure BN (n : Nat) (iwlen : Int) (g : Gh) (me : Int) (c0 : St) (done todo M : List Int) (b : Build) : Prop where
  eq : b.c = { c0 with iw := b.c.iw, nv := b.c.nv, next := b.c.next, last := b.c.last, head := b.c.head }
  sz : Szs n iwlen b.c
  iw : ∀ q, q < c0.pe.get me ∨ c0.pe.get me + done.length ≤ q → b.c.iw.get q = c0.iw.get q
  nv : ∀ x : Int, 0 ≤ x → x < n → b.c.nv.get x = if x = me ∨ x ∈ M then -g.wt x else g.wt x
  dl : ∃ Dl, DLs n ((g.V.erase me).filter fun x => x ∉ M) Dl noB b.c.head.get b.c.next.get b.c.last.get b.c.degree.get
  mn : M.Nodup
  mm : ∀ x, x ∈ M ↔ x ∈ g.V ∧ x ≠ me ∧ x ∈ done
  ml : M.length ≤ done.length
  dg : b.degme = ∑ x ∈ M.toFinset, g.wt x
  seg : Seg b.c.iw.get b.pme1 M
  p1 : b.pme1 = c0.pe.get me
  p2 : b.pme2 = b.pme1 + M.length - 1
  nn : ∀ q : Int, 0 ≤ q → q < c0.pfree → 0 ≤ b.c.iw.get q

theorem takeIn_runs (H : BH n iwlen S0 g me c0) (P : BP n iwlen S0 g me c0) {done todo M : List Int} {i : Int} {b : Build} (hl : g.lf me = done ++ i :: todo)
    (I : BN n iwlen g me c0 done (i :: todo) M b) (hi : (0 ≤ i ∧ i < (n : Int)) ∧ (i ∈ g.V ∨ g.wt i = 0)) :
    Runs (takeIn (c0.pe.get me + done.length) b) fun b' => ∃ M', BN n iwlen g me c0 (done ++ [i]) todo M' b' := by
  have hmU : me ∈ g.V ∪ g.X := Finset.mem_union_left _ H.mv
  have hv := P.lay.val me hmU
  have hp := P.lay.pos me hmU
  have hb := P.lay.bd me hmU
  rw [hl] at hv hb
  rw [seg_append] at hv
  rw [List.length_append, List.length_cons] at hb
  push_cast at hb
  have hpl := P.pl
  have hiw : b.c.iw.get (c0.pe.get me + done.length) = i := by rw [I.iw _ (Or.inr (le_refl _))]; exact hv.2.1
  unfold takeIn
  rw [runs_bind, runs_rdZ]
  refine ⟨⟨by omega, by rw [I.sz.iw]; omega⟩, ?_⟩
  rw [hiw, runs_bind, runs_rdZ]
  refine ⟨⟨hi.1.1, by rw [I.sz.nv]; exact hi.1.2⟩, ?_⟩
  have hnvi := I.nv i hi.1.1 hi.1.2
  by_cases hpos : 0 < b.c.nv.get i
  · rw [if_pos hpos]
    have hiV : i ∈ g.V := by
      rcases hi.2 with u | u
      · exact u
      · rw [hnvi, u] at hpos; split at hpos <;> omega
    have hwi := H.wv i hiV
    have hout : ¬ (i = me ∨ i ∈ M) := fun u => by rw [hnvi, if_pos u] at hpos; omega
    rw [if_neg hout] at hnvi
    have him : i ≠ me := fun u => hout (Or.inl u)
    have hiM : i ∉ M := fun u => hout (Or.inr u)
    rw [hnvi]
    have hml := I.ml
    have hp1 := I.p1
    have hp2 := I.p2
    simp only [runs_bind, runs_wrZ, runs_pure]
    refine ⟨⟨hi.1.1, by rw [I.sz.nv]; exact hi.1.2⟩, ⟨by omega, by rw [I.sz.iw]; omega⟩, ?_⟩
    obtain ⟨Dl, hDl⟩ := I.dl
    have hiVd : i ∈ (g.V.erase me).filter fun x => x ∉ M := Finset.mem_filter.2 ⟨Finset.mem_erase.2 ⟨him, hiV⟩, hiM⟩
    refine Runs.mono (dropDeg_runs (c := { b.c with nv := b.c.nv.set i (-(g.wt i)), iw := b.c.iw.set (b.pme2 + 1) i }) hDl hiVd I.sz.head I.sz.next I.sz.last I.sz.degree)
      fun c' ⟨hc, s1, s2, s3, hD⟩ => ?_
    have hciw : c'.iw = b.c.iw.set (b.pme2 + 1) i := by rw [hc]
    have hcnv : c'.nv = b.c.nv.set i (-(g.wt i)) := by rw [hc]
    refine ⟨M ++ [i], ?_, ⟨by rw [hc]; exact I.sz.pe, by rw [hciw]; exact I.sz.iw, by rw [hc]; exact I.sz.len, by rw [hcnv]; exact I.sz.nv, s2, s3, s1, by rw [hc]; exact I.sz.elen,
      by rw [hc]; exact I.sz.degree, by rw [hc]; exact I.sz.w⟩, fun q hq => ?_, fun x h0 h1 => ?_, ?_, ?_, fun x => ?_, ?_, ?_, ?_, I.p1, ?_, fun q h0 h1 => ?_⟩
    · rw [hc]
      exact congrArg (fun t : St => { t with nv := b.c.nv.set i (-(g.wt i)), iw := b.c.iw.set (b.pme2 + 1) i, head := c'.head, next := c'.next, last := c'.last }) I.eq
    · show c'.iw.get q = _
      rw [List.length_append, List.length_singleton] at hq
      push_cast at hq
      rw [hciw, Arr.set_ne _ _ (by omega)]
      exact I.iw q (by omega)
    · show c'.nv.get x = _
      rw [hcnv, Arr.set_get]
      by_cases hx : x = i
      · rw [if_pos hx, hx, if_pos (Or.inr (by simp))]
      · rw [if_neg hx, I.nv x h0 h1]
        have : x ∈ M ++ [i] ↔ x ∈ M := by simp [hx]
        simp only [this]
    · obtain ⟨Dl', h⟩ := hD
      refine ⟨Dl', ?_⟩
      have : ((g.V.erase me).filter fun x => x ∉ M).erase i = (g.V.erase me).filter fun x => x ∉ M ++ [i] := by
        ext x
        rw [Finset.mem_erase, Finset.mem_filter, Finset.mem_filter, List.mem_append, List.mem_singleton]
        constructor
        · rintro ⟨a, b, c⟩; exact ⟨b, fun u => u.elim c a⟩
        · rintro ⟨a, b⟩; exact ⟨fun u => b (Or.inr u), a, fun u => b (Or.inl u)⟩
      rw [← this]; exact h
    · rw [List.nodup_append]
      refine ⟨I.mn, List.nodup_singleton i, fun x hx y hy => ?_⟩
      rw [List.mem_singleton] at hy
      rw [hy]; exact fun u => hiM (u ▸ hx)
    · rw [List.mem_append, List.mem_append, List.mem_singleton, I.mm x]
      constructor
      · rintro (⟨u1, u2, u3⟩ | u)
        · exact ⟨u1, u2, Or.inl u3⟩
        · rw [u]; exact ⟨hiV, him, Or.inr rfl⟩
      · rintro ⟨u1, u2, u3 | u3⟩
        · exact Or.inl ⟨u1, u2, u3⟩
        · exact Or.inr u3
    · simp; omega
    · show b.degme + g.wt i = _
      rw [List.toFinset_append, I.dg]
      have : M.toFinset ∪ [i].toFinset = insert i M.toFinset := by ext x; simp [or_comm]
      rw [this, Finset.sum_insert (by simpa using hiM)]; ring
    · show Seg c'.iw.get b.pme1 (M ++ [i])
      rw [seg_append]
      refine ⟨I.seg.congr fun q h0 h1 => ?_, ?_, trivial⟩
      · rw [hciw]; exact Arr.set_ne _ _ (by omega)
      · rw [hciw, show b.pme1 + (M.length : Int) = b.pme2 + 1 by omega, Arr.set_same]
    · show b.pme2 + 1 = b.pme1 + _ - 1
      rw [List.length_append, List.length_singleton]; push_cast; omega
    · show 0 ≤ c'.iw.get q
      rw [hciw, Arr.set_get]
      split
      · exact hi.1.1
      · exact I.nn q h0 h1
  · rw [if_neg hpos, runs_pure]
    refine ⟨M, I.eq, I.sz, fun q hq => I.iw q (by rw [List.length_append, List.length_singleton] at hq; push_cast at hq; omega), I.nv, I.dl, I.mn, fun x => ?_, by have := I.ml; simp; omega, I.dg, I.seg, I.p1, I.p2, I.nn⟩
    rw [I.mm x, List.mem_append, List.mem_singleton]
    refine ⟨fun u => ⟨u.1, u.2.1, Or.inl u.2.2⟩, fun ⟨u1, u2, u3⟩ => ⟨u1, u2, u3.elim id fun u => ?_⟩⟩
    have hwx := H.wv x u1
    rw [u] at u1 u2 hwx
    by_contra hc
    refine hpos ?_
    rw [hnvi, if_neg]
    · exact hwx
    · rintro (v | v)
      · exact u2 v
      · exact hc (u ▸ ((I.mm i).1 v).2.2)

/-- The pivot has no elements. -/
theorem buildIn_runs (H : BH n iwlen S0 g me c0) (P : BP n iwlen S0 g me c0) (hE : g.E me = []) :
    Runs (build n iwlen me (g.E me).length c0) fun b => ∃ M B, Built n iwlen S0 g me c0 M B b := by
  have hmn := H.vn me H.mv
  have hmU : me ∈ g.V ∪ g.X := Finset.mem_union_left _ H.mv
  have hlen := P.lay.len me hmU
  have hlf : g.lf me = g.A me := by unfold Gh.lf; rw [hE]; rfl
  unfold build
  rw [runs_bind, runs_rdZ]
  refine ⟨⟨hmn.1, by rw [P.sz.pe]; exact hmn.2⟩, ?_⟩
  rw [runs_bind, runs_rdZ]
  refine ⟨⟨hmn.1, by rw [P.sz.len]; exact hmn.2⟩, ?_⟩
  rw [if_pos (by rw [hE]; rfl), hlen]
  refine forZ_runs (fun k b => ∃ done todo M, g.lf me = done ++ todo ∧ k = c0.pe.get me + done.length ∧ BN n iwlen g me c0 done todo M b) (by omega)
    ⟨[], g.lf me, [], rfl, by simp, rfl, P.sz, fun q _ => rfl, fun x h0 h1 => ?_, by simpa using P.dl, List.nodup_nil, fun x => by simp, by simp, by simp, trivial, rfl, by simp, P.nn⟩ ?_ ?_
  · show c0.nv.get x = _
    rw [P.nv x h0 h1]; simp
  · rintro k b h1 h2 ⟨done, todo, M, e1, e2, I⟩
    cases todo with
    | nil => rw [e1] at h2; simp at h2; omega
    | cons i todo =>
      rw [e2]
      refine Runs.mono (takeIn_runs H P e1 I (H.av i (by rw [← hlf, e1]; simp))) fun b' ⟨M', I'⟩ => ⟨done ++ [i], todo, M', by rw [e1]; simp, by simp; ring, I'⟩
  · rintro b ⟨done, todo, M, e1, e2, I⟩
    have ht : todo = [] := by
      rw [← List.length_eq_zero_iff]
      rw [e1, List.length_append] at e2
      push_cast at e2
      omega
    rw [ht, List.append_nil] at e1
    have hbd := P.lay.bd me hmU
    rw [e1] at hbd
    have hml := I.ml
    have hpe : b.c.pe = c0.pe := by rw [I.eq]
    have hle : b.c.len = c0.len := by rw [I.eq]
    have hw : b.c.w = c0.w := by rw [I.eq]
    have hpf : b.c.pfree = c0.pfree := by rw [I.eq]
    have hsub : ∀ x ∈ restF g me (g.E me) me, x ∈ g.V ∪ g.X := fun x hx => Finset.mem_union.2 (mem_restF.1 hx).1
    have hdj : ∀ x ∈ restF g me (g.E me) me, c0.pe.get x + (g.lf x).length ≤ c0.pe.get me ∨ c0.pe.get me + done.length ≤ c0.pe.get x := fun x hx => by
      have := P.lay.disj x (hsub x hx) me hmU (mem_restF.1 hx).2.1
      rw [e1] at this
      exact this
    have hU : g.V ∪ g.X = insert me (restF g me (g.E me) me) := by
      ext x
      rw [Finset.mem_insert, mem_restF, Finset.mem_union, hE]
      constructor
      · intro u
        by_cases hx : x = me
        · exact Or.inl hx
        · exact Or.inr ⟨u, hx, by simp, hx⟩
      · rintro (u | u)
        · rw [u]; exact Or.inl H.mv
        · exact u.1
    refine ⟨M, c0.pfree, ?_, I.sz, ?_, fun x hx => ?_, le_of_eq hpf.symm, fun u => absurd hE u, ?_, fun x hx => absurd hx (by rw [hE]; simp), fun x _ _ => by rw [hpe], fun x => by rw [hw, hE]; simp, I.nv, I.dl,
      I.mn, fun x => ?_, I.dg, I.seg, I.p2, by rw [I.p1]; exact P.lay.pos me hmU, by rw [hpf]; exact P.pl, by rw [hpf]; exact I.nn, ?_⟩
    · rw [hpe, hle, hw, hpf]; exact I.eq
    · refine P.lay.shrink hsub (fun x _ => by rw [hpe]; exact ⟨le_refl _, le_refl _⟩) (fun x hx => P.lay.ne x (hsub x hx)) (fun x hx => by rw [hle]; exact P.lay.len x (hsub x hx)) (fun x hx => ?_) (le_refl _)
      rw [hpe]
      refine (P.lay.val x (hsub x hx)).congr fun q h0 h1 => I.iw q ?_
      have := hdj x hx
      omega
    · rw [hpe, I.p1]
      have := hdj x hx
      omega
    · rw [hpf, I.p1]; omega
    · rw [I.mm x, ← e1, hlf, hE]
      simp
    · have := P.sum
      rw [hU, Finset.sum_insert (fun u => (mem_restF.1 u).2.1 rfl), e1] at this
      omega

/-- **Construction of the new element.** -/
theorem build_runs (H : BH n iwlen S0 g me c0) (P : BP n iwlen S0 g me c0) :
    Runs (build n iwlen me (g.E me).length c0) fun b => ∃ M B, Built n iwlen S0 g me c0 M B b := by
  by_cases hE : g.E me = []
  · exact buildIn_runs H P hE
  · exact buildOut_runs H P hE

end

end Amd
end Hif
