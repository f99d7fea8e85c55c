import Verif.AmdBuild

set_option linter.unusedVariables false

/-! # Construction of the new element, continued -/

namespace Hif
namespace Amd

section
variable {n : Nat} {iwlen S0 : Int} {g : Gh} {me : Int} {c0 : St} {ab rm re M con : List Int} {e knt : Int} {b : Build}

theorem lvF_neg (hm : 0 ≤ me) : lvF g.lf me (-1) rm re me = rm := lvF_me (by omega)

/-- The next element of the pivot: its name is read, its list is next. -/
theorem BI.open (H : BH n iwlen S0 g me c0) (I : BI n iwlen S0 g me c0 ab (e :: rm) [] M con (-1) (knt - 1) b) (heX : e ∈ g.X) (hea : e ∉ ab) :
    b.c.iw.get b.p = e ∧ (0 ≤ b.p ∧ b.p < iwlen) ∧ b.c.len.get e = (g.A e).length ∧
      BI n iwlen S0 g me c0 ab rm (g.A e) M con e knt { b with p := b.p + 1, pj := b.c.pe.get e } := by
  have hmn := H.vn me H.mv
  have hen := H.xn e heX
  have hem : e ≠ me := fun u => H.vx me H.mv (u ▸ heX)
  have hlfe : g.lf e = g.A e := by unfold Gh.lf; rw [H.ee e heX]; rfl
  have hm1 : me ∈ liveF g me ab (-1) (e :: rm) [] := mem_liveF.2 ⟨Or.inr (Or.inl rfl), by rw [lvF_neg hmn.1]; simp⟩
  have hpvm : pvF b.c.pe.get me (-1) b.p b.pj me = b.p := by unfold pvF; rw [if_neg (by omega), if_pos rfl]
  have hv := I.lay.val me hm1
  have hp := I.lay.pos me hm1
  have hb := I.lay.bd me hm1
  rw [hpvm] at hv hp hb
  rw [lvF_neg hmn.1] at hv hb
  rw [List.length_cons] at hb
  push_cast at hb
  have hR : ∀ x, x ∈ restF g me ab (-1) ↔ x = e ∨ x ∈ restF g me ab e := fun x => by
    rw [mem_restF, mem_restF]
    constructor
    · rintro ⟨u1, u2, u3, u4⟩
      by_cases hx : x = e
      · exact Or.inl hx
      · exact Or.inr ⟨u1, u2, u3, hx⟩
    · rintro (u | ⟨u1, u2, u3, u4⟩)
      · rw [u]; exact ⟨Or.inr heX, hem, hea, by omega⟩
      · refine ⟨u1, u2, u3, fun v => ?_⟩
        rcases u1 with w | w
        · have := H.vn x w; omega
        · have := H.xn x w; omega
  have her1 : e ∈ restF g me ab (-1) := (hR e).2 (Or.inl rfl)
  have her2 : e ∉ restF g me ab e := fun u => (mem_restF.1 u).2.2.2 rfl
  have hle := I.len e her1
  rw [hlfe] at hle
  refine ⟨hv.1, ⟨hp, by have := I.pl; have := I.pf; omega⟩, hle, ⟨I.eq, I.sz, ?_, fun x hx => I.len x ((hR x).2 (Or.inr hx)), I.peA, I.peD, I.w, I.nv, I.dl, I.mn, I.mm, I.dg, I.seg, I.pf, I.p0, I.pl,
    I.nn, ?_, ?_, fun x hx => I.ne x ((hR x).2 (Or.inr hx))⟩⟩
  · have hlv : ∀ x ∈ liveF g me ab e rm (g.A e), x ∈ liveF g me ab (-1) (e :: rm) [] := fun x hx => by
      rcases (mem_liveF.1 hx).1 with u | u | u
      · rw [u]; exact mem_liveF.2 ⟨Or.inr (Or.inr her1), by rw [lvF_rest her1]; exact I.ne e her1⟩
      · rw [u]; exact hm1
      · have := (hR x).2 (Or.inr u)
        exact mem_liveF.2 ⟨Or.inr (Or.inr this), by rw [lvF_rest this]; exact I.ne x this⟩
    refine I.lay.shrink hlv (fun x hx => ?_) (fun x hx => (mem_liveF.1 hx).2) (fun x _ => rfl) (fun x hx => ?_) (le_refl _)
    · show _ ≤ pvF b.c.pe.get me e (b.p + 1) (b.c.pe.get e) x ∧ pvF b.c.pe.get me e (b.p + 1) (b.c.pe.get e) x + _ ≤ _
      rcases (mem_liveF.1 hx).1 with u | u | u
      · rw [u, pvF_rest her1, lvF_rest her1, lvF_e, hlfe]
        unfold pvF; rw [if_pos rfl]; omega
      · rw [u, hpvm, lvF_me hem, lvF_neg hmn.1]
        unfold pvF; rw [if_neg (fun v => hem v.symm), if_pos rfl, List.length_cons]; push_cast; omega
      · have := (hR x).2 (Or.inr u)
        rw [pvF_rest this, pvF_rest u, lvF_rest this, lvF_rest u]; omega
    · show Seg _ (pvF b.c.pe.get me e (b.p + 1) (b.c.pe.get e) x) _
      rcases (mem_liveF.1 hx).1 with u | u | u
      · have := I.lay.val e (hlv e (u ▸ hx))
        rw [pvF_rest her1, lvF_rest her1, hlfe] at this
        rw [u, lvF_e]; unfold pvF; rw [if_pos rfl]; exact this
      · rw [u, lvF_me hem]; unfold pvF; rw [if_neg (fun v => hem v.symm), if_pos rfl]; exact hv.2
      · have h1 := (hR x).2 (Or.inr u)
        have := I.lay.val x (hlv x hx)
        rw [pvF_rest h1, lvF_rest h1] at this
        rw [pvF_rest u, lvF_rest u]; exact this
  · have := I.sum
    have hs : restF g me ab (-1) = insert e (restF g me ab e) := by ext x; rw [hR, Finset.mem_insert]
    rw [hs, Finset.sum_insert her2, hlfe, List.length_cons] at this
    push_cast at this
    simp only [List.length_nil, Nat.cast_zero, add_zero] at this
    omega
  · rcases I.gc with u | u | u
    · exact Or.inl u
    · omega
    · refine Or.inr (Or.inr ?_)
      rw [List.length_cons] at u
      push_cast at u
      show b.c.len.get me - knt = _
      omega

/-- The element is absorbed. -/
theorem BI.close (H : BH n iwlen S0 g me c0) (I : BI n iwlen S0 g me c0 ab rm [] M con e knt b) (heX : e ∈ g.X) :
    BI n iwlen S0 g me c0 (ab ++ [e]) rm [] M con (-1) knt { b with c := { b.c with pe := b.c.pe.set e (flip me), w := b.c.w.set e 0 } } := by
  have hmn := H.vn me H.mv
  have hen := H.xn e heX
  have hem : e ≠ me := fun u => H.vx me H.mv (u ▸ heX)
  have hR : ∀ x, x ∈ restF g me (ab ++ [e]) (-1) ↔ x ∈ restF g me ab e := fun x => by
    rw [mem_restF, mem_restF, List.mem_append, List.mem_singleton]
    constructor
    · rintro ⟨u1, u2, u3, u4⟩
      exact ⟨u1, u2, fun w => u3 (Or.inl w), fun w => u3 (Or.inr w)⟩
    · rintro ⟨u1, u2, u3, u4⟩
      refine ⟨u1, u2, fun w => w.elim u3 u4, fun v => ?_⟩
      rcases u1 with w | w
      · have := H.vn x w; omega
      · have := H.xn x w; omega
  have hs : restF g me (ab ++ [e]) (-1) = restF g me ab e := by ext x; rw [hR]
  refine ⟨?_, ⟨I.sz.pe, I.sz.iw, I.sz.len, I.sz.nv, I.sz.next, I.sz.last, I.sz.head, I.sz.elen, I.sz.degree, I.sz.w⟩, ?_, fun x hx => I.len x ((hR x).1 hx), fun x hx => ?_, fun x hx hx' => ?_,
    fun x => ?_, I.nv, I.dl, I.mn, I.mm, I.dg, I.seg, I.pf, I.p0, I.pl, I.nn, by rw [hs]; exact I.sum, ?_, fun x hx => I.ne x ((hR x).1 hx)⟩
  · exact congrArg (fun t : St => { t with pe := b.c.pe.set e (flip me), w := b.c.w.set e 0 }) I.eq
  · have hcase : ∀ x ∈ liveF g me (ab ++ [e]) (-1) rm [], x = me ∨ x ∈ restF g me ab e := fun x hx => by
      obtain ⟨h1, h2⟩ := mem_liveF.1 hx
      rcases h1 with u | u | u
      · rw [u, lvF_e] at h2; exact absurd rfl h2
      · exact Or.inl u
      · exact Or.inr ((hR x).1 u)
    have hlveq : ∀ x ∈ liveF g me (ab ++ [e]) (-1) rm [], lvF g.lf me (-1) rm [] x = lvF g.lf me e rm [] x := fun x hx => by
      rcases hcase x hx with u | u
      · rw [u, lvF_neg hmn.1, lvF_me hem]
      · rw [lvF_rest ((hR x).2 u), lvF_rest u]
    refine I.lay.same (fun x hx => ?_) (fun x hx => ?_) hlveq (fun x _ => rfl) (fun q _ _ => rfl) (le_refl _)
    · refine mem_liveF.2 ⟨Or.inr (hcase x hx), ?_⟩
      rw [← hlveq x hx]; exact (mem_liveF.1 hx).2
    · rcases hcase x hx with u | u
      · rw [u]; unfold pvF; rw [if_neg (show ¬ me = -1 by omega), if_pos rfl, if_neg (fun v => hem v.symm), if_pos rfl]
      · rw [pvF_rest ((hR x).2 u), pvF_rest u]
        exact Arr.set_ne _ _ (mem_restF.1 u).2.2.2
  · show (b.c.pe.set e (flip me)).get x = _
    rw [Arr.set_get]
    split
    · rfl
    · rename_i hxe
      rcases List.mem_append.1 hx with u | u
      · exact I.peA x u
      · exact absurd (List.mem_singleton.1 u) hxe
  · show (b.c.pe.set e (flip me)).get x = _
    rw [Arr.set_ne]
    · exact I.peD x hx hx'
    · exact fun u => hx' (u ▸ heX)
  · show (b.c.w.set e 0).get x = _
    rw [Arr.set_get]
    by_cases hxe : x = e
    · rw [if_pos hxe, if_pos (by rw [hxe]; simp)]
    · have : x ∈ ab ++ [e] ↔ x ∈ ab := by simp [hxe]
      rw [if_neg hxe, I.w x]
      simp only [this]
  · rcases I.gc with u | u | u
    · exact Or.inl u
    · exact absurd u hem
    · exact Or.inr (Or.inr u)

/-- An element of the pivot. -/
theorem takeElem_runs (H : BH n iwlen S0 g me c0) {elenme slenme : Int} (hk : ¬ elenme < knt) (I : BI n iwlen S0 g me c0 ab (e :: rm) [] M (ab.flatMap g.A) (-1) (knt - 1) b)
    (hab : ∀ x ∈ ab, x ∈ g.X ∧ x ≠ e) (heX : e ∈ g.X) :
    Runs (takeList n iwlen me elenme slenme knt b) fun b' => ∃ M', BI n iwlen S0 g me c0 (ab ++ [e]) rm [] M' ((ab ++ [e]).flatMap g.A) (-1) knt b' := by
  obtain ⟨h1, h2, h3, I1⟩ := BI.open H I heX fun u => (hab e u).2 rfl
  have hen := H.xn e heX
  unfold takeList
  rw [if_neg hk, runs_bind, runs_rdZ]
  refine ⟨⟨h2.1, by rw [I.sz.iw]; exact h2.2⟩, ?_⟩
  rw [h1, runs_bind, runs_rdZ]
  refine ⟨⟨hen.1, by rw [I.sz.pe]; exact hen.2⟩, ?_⟩
  rw [runs_bind, runs_rdZ]
  refine ⟨⟨hen.1, by rw [I.sz.len]; exact hen.2⟩, ?_⟩
  rw [runs_bind]
  refine Runs.mono (takeLoop_runs H I1 h3 (Or.inr heX) hab (H.ax e heX)) fun b' ⟨M', I2⟩ => ?_
  simp only [runs_bind, runs_wrZ, runs_pure]
  refine ⟨⟨hen.1, by rw [I2.sz.pe]; exact hen.2⟩, ⟨hen.1, by rw [I2.sz.w]; exact hen.2⟩, M', ?_⟩
  have : (ab ++ [e]).flatMap g.A = ab.flatMap g.A ++ g.A e := by simp
  rw [this]
  exact I2.close H heX

/-- The neighbours of the pivot. -/
theorem takeLast_runs (H : BH n iwlen S0 g me c0) {elenme : Int} (hk : elenme < knt) (I : BI n iwlen S0 g me c0 ab rm [] M con (-1) (knt - 1) b)
    (hab : ∀ x ∈ ab, x ∈ g.X) (hrm : rm = g.A me) :
    Runs (takeList n iwlen me elenme rm.length knt b) fun b' => ∃ M', BI n iwlen S0 g me c0 ab [] [] M' (con ++ g.A me) me knt b' := by
  have hmn := H.vn me H.mv
  unfold takeList
  rw [if_pos hk]
  have hR : ∀ x, x ∈ restF g me ab (-1) ↔ x ∈ restF g me ab me := fun x => by
    rw [mem_restF, mem_restF]
    constructor
    · rintro ⟨u1, u2, u3, u4⟩; exact ⟨u1, u2, u3, u2⟩
    · rintro ⟨u1, u2, u3, u4⟩
      refine ⟨u1, u2, u3, fun v => ?_⟩
      rcases u1 with w | w
      · have := H.vn x w; omega
      · have := H.xn x w; omega
  have hs : restF g me ab (-1) = restF g me ab me := by ext x; rw [hR]
  have I1 : BI n iwlen S0 g me c0 ab [] rm M con me knt { b with pj := b.p } := by
    have hcase : ∀ x ∈ liveF g me ab me [] rm, x = me ∨ x ∈ restF g me ab me := fun x hx => by
      rcases (mem_liveF.1 hx).1 with u | u | u
      exacts [Or.inl u, Or.inl u, Or.inr u]
    have hlveq : ∀ x ∈ liveF g me ab me [] rm, lvF g.lf me me [] rm x = lvF g.lf me (-1) rm [] x := fun x hx => by
      rcases hcase x hx with u | u
      · rw [u, lvF_neg hmn.1, lvF_e]
      · rw [lvF_rest ((hR x).2 u), lvF_rest u]
    refine ⟨I.eq, I.sz, ?_, fun x hx => I.len x ((hR x).2 hx), I.peA, I.peD, I.w, I.nv, I.dl, I.mn, I.mm, I.dg, I.seg, I.pf, I.p0, I.pl, I.nn, ?_, Or.inr (Or.inl rfl),
      fun x hx => I.ne x ((hR x).2 hx)⟩
    · refine I.lay.same (fun x hx => ?_) (fun x hx => ?_) hlveq (fun x _ => rfl) (fun q _ _ => rfl) (le_refl _)
      · refine mem_liveF.2 ⟨Or.inr ((hcase x hx).imp id (hR x).2), ?_⟩
        rw [← hlveq x hx]; exact (mem_liveF.1 hx).2
      · rcases hcase x hx with u | u
        · rw [u]; unfold pvF; rw [if_pos rfl, if_neg (show ¬ me = -1 by omega), if_pos rfl]
        · rw [pvF_rest ((hR x).2 u), pvF_rest u]
    · have := I.sum
      rw [hs] at this
      simp only [List.length_nil, Nat.cast_zero, add_zero] at this ⊢
      exact this
  rw [← hrm]
  exact takeLoop_runs H I1 rfl (Or.inl ⟨rfl, rfl⟩) (fun x hx => ⟨hab x hx, fun u => H.vx me H.mv (u ▸ hab x hx)⟩) (by rw [hrm]; exact H.av)

end

end Amd
end Hif
