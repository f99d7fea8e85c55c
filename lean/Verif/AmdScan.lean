import Verif.AmdBuild3

set_option linter.unusedVariables false

/-! # Sizes of the elements outside the new one -/

namespace Hif
namespace Amd

theorem clearFlag_runs {n : Nat} {wbig : Int} {c : St} (hs : c.w.size = n) (h : c.wflg < 2 ∨ ∀ x : Int, 0 ≤ x → x < n → 0 ≤ c.w.get x ∧ c.w.get x < c.wflg) :
    Runs (clearFlag n wbig c) fun c' => c' = { c with w := c'.w, wflg := c'.wflg } ∧ c'.w.size = n ∧ 2 ≤ c'.wflg ∧
      (∀ x : Int, 0 ≤ x → x < n → 0 ≤ c'.w.get x ∧ c'.w.get x < c'.wflg) ∧ ∀ x : Int, 0 ≤ x → x < n → (c'.w.get x = 0 ↔ c.w.get x = 0) := by
  unfold clearFlag
  split
  · rw [runs_bind]
    refine forZ_runs (fun k w => w.size = n ∧ (∀ x : Int, 0 ≤ x → x < k → w.get x = if c.w.get x = 0 then 0 else 1) ∧ ∀ x : Int, k ≤ x → w.get x = c.w.get x) (by omega)
      ⟨hs, fun x a b => by omega, fun x _ => rfl⟩ ?_ ?_
    · rintro k w h1 h2 ⟨i1, i2, i3⟩
      rw [runs_bind, runs_rdZ]
      refine ⟨⟨h1, by rw [i1]; exact h2⟩, ?_⟩
      rw [i3 k (le_refl _)]
      split
      · rename_i hne
        rw [runs_wrZ]
        refine ⟨⟨h1, by rw [i1]; exact h2⟩, i1, fun x a b => ?_, fun x a => ?_⟩
        · rw [Arr.set_get]
          split
          · rename_i e; rw [e, if_neg hne]
          · exact i2 x a (by omega)
        · rw [Arr.set_ne _ _ (by omega)]; exact i3 x (by omega)
      · rename_i he
        rw [runs_pure]
        refine ⟨i1, fun x a b => ?_, fun x a => i3 x (by omega)⟩
        by_cases e : x = k
        · rw [e, i3 k (le_refl _)]
          have : c.w.get k = 0 := by omega
          rw [if_pos this, this]
        · exact i2 x a (by omega)
    · rintro w ⟨i1, i2, i3⟩
      rw [runs_pure]
      refine ⟨rfl, i1, le_refl _, fun x a b => ?_, fun x a b => ?_⟩
      · show 0 ≤ w.get x ∧ w.get x < 2
        rw [i2 x a b]; split <;> omega
      · show w.get x = 0 ↔ _
        rw [i2 x a b]; split
        · rename_i e; simp [e]
        · rename_i e; simp [e]
  · rename_i hn
    rw [runs_pure]
    refine ⟨rfl, hs, by omega, h.resolve_left (by omega), fun x _ _ => Iff.rfl⟩

/-- Weight of the nodes of `P` with the element `x`; the elements of the pivot do not count. -/
def sF (g : Gh) (me : Int) (P : List Int) (x : Int) : Int := if x ∉ g.E me then ∑ i ∈ P.toFinset.filter (fun i => x ∈ g.E i), g.wt i else 0

section
variable {n : Nat} {iwlen : Int} {g : Gh} {me : Int} {M : List Int} {c : St} {pme1 : Int}

/-- What the scan needs. -/
structure SH (n : Nat) (iwlen : Int) (g : Gh) (me : Int) (M : List Int) (c : St) (pme1 : Int) : Prop where
  sz : Szs n iwlen c
  mv : ∀ i ∈ M, i ∈ g.V
  mn : M.Nodup
  vn : ∀ i ∈ g.V, 0 ≤ i ∧ i < (n : Int)
  xn : ∀ i ∈ g.X, 0 ≤ i ∧ i < (n : Int)
  wv : ∀ i ∈ g.V, 0 < g.wt i
  en : ∀ i ∈ g.V, (g.E i).Nodup
  ex : ∀ i ∈ g.V, ∀ e ∈ g.E i, e ∈ g.X
  dg : ∀ e ∈ g.X, e ∉ g.E me → c.degree.get e = ∑ x ∈ g.V.filter fun x => e ∈ g.E x, g.wt x
  seg : Seg c.iw.get pme1 M
  p0 : 0 ≤ pme1
  pl : pme1 + M.length ≤ iwlen
  el : ∀ i ∈ M, c.elen.get i = (g.E i).length
  nv : ∀ i ∈ M, c.nv.get i = -g.wt i
  se : ∀ i ∈ M, Seg c.iw.get (c.pe.get i) (g.E i) ∧ 0 ≤ c.pe.get i ∧ c.pe.get i + (g.E i).length ≤ iwlen
  w0 : ∀ x ∈ g.E me, c.w.get x = 0
  w1 : ∀ x ∈ g.X, x ∉ g.E me → c.w.get x ≠ 0
  wl : ∀ x : Int, 0 ≤ x → x < n → 0 ≤ c.w.get x ∧ c.w.get x < c.wflg

theorem sF_le (H : SH n iwlen g me M c pme1) {P : List Int} (hP : ∀ i ∈ P, i ∈ g.V) {x : Int} (hx : x ∈ g.X) (hxm : x ∉ g.E me) : sF g me P x ≤ c.degree.get x := by
  unfold sF
  rw [if_pos hxm, H.dg x hx hxm]
  refine Finset.sum_le_sum_of_subset_of_nonneg (fun y hy => ?_) fun y hy _ => (H.wv y (Finset.mem_filter.1 hy).1).le
  rw [Finset.mem_filter, List.mem_toFinset] at hy
  exact Finset.mem_filter.2 ⟨hP y hy.1, hy.2⟩

theorem sF_nonneg (H : SH n iwlen g me M c pme1) {P : List Int} (hP : ∀ i ∈ P, i ∈ g.V) (x : Int) : 0 ≤ sF g me P x := by
  unfold sF
  split
  · exact Finset.sum_nonneg fun y hy => (H.wv y (hP y (List.mem_toFinset.1 (Finset.mem_filter.1 hy).1))).le
  · exact le_refl _

theorem sF_concat {P : List Int} {i x : Int} (hi : i ∉ P) : sF g me (P ++ [i]) x = sF g me P x + if x ∈ g.E i ∧ x ∉ g.E me then g.wt i else 0 := by
  unfold sF
  by_cases hx : x ∉ g.E me
  · rw [if_pos hx, if_pos hx]
    have hins : (P ++ [i]).toFinset = insert i P.toFinset := by ext y; simp [or_comm]
    rw [hins, Finset.filter_insert]
    by_cases hxi : x ∈ g.E i
    · rw [if_pos hxi, if_pos ⟨hxi, hx⟩, Finset.sum_insert (fun u => hi (List.mem_toFinset.1 (Finset.mem_filter.1 u).1))]; ring
    · rw [if_neg hxi, if_neg (fun u => hxi u.1)]; ring
  · rw [if_neg hx, if_neg hx, if_neg (fun u => hx u.2)]; ring

/-- The values during the scan. -/
def wS (c : St) (s : Int → Int) (x : Int) : Int := if s x = 0 then c.w.get x else c.wflg + c.degree.get x - s x

theorem wS_congr {c : St} {s t : Int → Int} {x : Int} (h : s x = t x) : wS c s x = wS c t x := by unfold wS; rw [h]

theorem wS_of {c : St} {s : Int → Int} {x v : Int} (h : s x = v) : wS c s x = if v = 0 then c.w.get x else c.wflg + c.degree.get x - v := by unfold wS; rw [h]

theorem scanW_runs (H : SH n iwlen g me M c pme1) {P Q : List Int} {i : Int} (hM : M = P ++ i :: Q) {w : Arr} (hws : w.size = n)
    (hw : ∀ x : Int, 0 ≤ x → x < n → w.get x = wS c (sF g me P) x) :
    Runs (scanW (pme1 + P.length) { c with w := w }) fun c' => c' = { c with w := c'.w } ∧ c'.w.size = n ∧ ∀ x : Int, 0 ≤ x → x < n → c'.w.get x = wS c (sF g me (P ++ [i])) x := by
  have hiM : i ∈ M := by rw [hM]; simp
  have hPM : ∀ x ∈ P, x ∈ M := fun x hx => by rw [hM]; simp [hx]
  have hPV : ∀ x ∈ P, x ∈ g.V := fun x hx => H.mv x (hPM x hx)
  have hiP : i ∉ P := fun u => by
    have := H.mn
    rw [hM] at this
    exact (List.nodup_append.1 this).2.2 i u i (by simp) rfl
  have hiV := H.mv i hiM
  have hin := H.vn i hiV
  have hseg := H.seg
  have hpl := H.pl
  have hp0 := H.p0
  have hwi := H.wv i hiV
  rw [hM] at hseg hpl
  rw [seg_append] at hseg
  rw [List.length_append, List.length_cons] at hpl
  push_cast at hpl
  obtain ⟨se1, se2, se3⟩ := H.se i hiM
  unfold scanW
  rw [runs_bind, runs_rdZ]
  refine ⟨⟨by omega, by show _ < c.iw.size; rw [H.sz.iw]; omega⟩, ?_⟩
  show Runs _ _
  have e1 : c.iw.get (pme1 + P.length) = i := hseg.2.1
  rw [show ({ c with w := w } : St).iw.get (pme1 + P.length) = i from e1, runs_bind, runs_rdZ]
  refine ⟨⟨hin.1, by show _ < c.elen.size; rw [H.sz.elen]; exact hin.2⟩, ?_⟩
  rw [show ({ c with w := w } : St).elen.get i = (g.E i).length from H.el i hiM]
  by_cases hE : g.E i = []
  · rw [if_neg (by rw [hE]; simp), runs_pure]
    refine ⟨rfl, hws, fun x a b => ?_⟩
    show w.get x = _
    rw [hw x a b]
    refine wS_congr ?_
    rw [sF_concat hiP, if_neg (fun u : x ∈ g.E i ∧ x ∉ g.E me => by rw [hE] at u; exact absurd u.1 (by simp)), add_zero]
  · have hl : 0 < (g.E i).length := List.length_pos_iff.2 hE
    rw [if_pos (by omega), runs_bind, runs_rdZ]
    refine ⟨⟨hin.1, by show _ < c.nv.size; rw [H.sz.nv]; exact hin.2⟩, ?_⟩
    rw [show ({ c with w := w } : St).nv.get i = -g.wt i from H.nv i hiM, runs_bind, runs_rdZ]
    refine ⟨⟨hin.1, by show _ < c.pe.size; rw [H.sz.pe]; exact hin.2⟩, ?_⟩
    rw [runs_bind]
    show Runs (forZ (c.pe.get i) (c.pe.get i + (g.E i).length) w _) _
    refine forZ_runs (fun k w' => w'.size = n ∧ ∃ done todo, g.E i = done ++ todo ∧ k = c.pe.get i + done.length ∧ ∀ x : Int, 0 ≤ x → x < n →
        w'.get x = wS c (fun x => sF g me P x + if x ∈ done ∧ x ∉ g.E me then g.wt i else 0) x) (by omega)
      ⟨hws, [], g.E i, rfl, by simp, fun x a b => ?_⟩ ?_ ?_
    · rw [hw x a b]; unfold wS; simp
    · rintro k w' h1 h2 ⟨i1, done, todo, e2, e3, i2⟩
      cases todo with
      | nil => rw [e2] at h2; simp at h2; omega
      | cons e todo =>
        have heE : e ∈ g.E i := by rw [e2]; simp
        have heX := H.ex i hiV e heE
        have hen := H.xn e heX
        have hnd := H.en i hiV
        rw [e2] at hnd
        have hed : e ∉ done := fun u => (List.nodup_append.1 hnd).2.2 e u e (by simp) rfl
        have hse := se1
        rw [e2, seg_append] at hse
        have hle : (g.E i).length = done.length + (todo.length + 1) := by rw [e2]; simp
        rw [runs_bind, runs_rdZ]
        refine ⟨⟨by omega, by show _ < c.iw.size; rw [H.sz.iw]; omega⟩, ?_⟩
        rw [show ({ c with w := w } : St).iw.get k = e by rw [e3]; exact hse.2.1, runs_bind, runs_rdZ]
        refine ⟨⟨hen.1, by rw [i1]; exact hen.2⟩, ?_⟩
        have hcase : ∀ x : Int, x ≠ e → (x ∈ done ++ [e] ∧ x ∉ g.E me ↔ x ∈ done ∧ x ∉ g.E me) := fun x hx => by simp [hx]
        have hother : ∀ x : Int, 0 ≤ x → x < n → x ≠ e → w'.get x = wS c (fun x => sF g me P x + if x ∈ done ++ [e] ∧ x ∉ g.E me then g.wt i else 0) x := fun x a b hx => by
          rw [i2 x a b]; unfold wS; simp only [hcase x hx]
        have hs0 := sF_nonneg H hPV e
        have hval := i2 e hen.1 hen.2
        have hwe : w'.get e = if sF g me P e = 0 then c.w.get e else c.wflg + c.degree.get e - sF g me P e := by
          rw [hval]
          exact wS_of (by
            show sF g me P e + (if e ∈ done ∧ e ∉ g.E me then g.wt i else 0) = _
            rw [if_neg (fun u : e ∈ done ∧ e ∉ g.E me => hed u.1), add_zero])
        have hfin : ∀ (w'' : Arr), w''.size = n → (∀ x, x ≠ e → w''.get x = w'.get x) → w''.get e = wS c (fun x => sF g me P x + if x ∈ done ++ [e] ∧ x ∉ g.E me then g.wt i else 0) e →
            w''.size = n ∧ ∃ done todo, g.E i = done ++ todo ∧ k + 1 = c.pe.get i + done.length ∧ ∀ x : Int, 0 ≤ x → x < n →
              w''.get x = wS c (fun x => sF g me P x + if x ∈ done ∧ x ∉ g.E me then g.wt i else 0) x := fun w'' q1 q2 q3 =>
          ⟨q1, done ++ [e], todo, by rw [e2]; simp, by rw [e3]; simp; ring, fun x a b => by
            by_cases hx : x = e
            · rw [hx]; exact q3
            · rw [q2 x hx]; exact hother x a b hx⟩
        have hwl := H.wl e hen.1 hen.2
        by_cases hem : e ∈ g.E me
        · have hz : sF g me P e = 0 := by unfold sF; rw [if_neg (fun u => u hem)]
          rw [hz, if_pos rfl, H.w0 e hem] at hwe
          rw [hwe, if_neg (show ¬ ({ c with w := w } : St).wflg ≤ 0 by show ¬ c.wflg ≤ 0; omega), if_neg (fun u => u rfl), runs_pure]
          refine hfin w' i1 (fun x _ => rfl) ?_
          rw [hwe, wS_of (v := 0) (by
            show sF g me P e + (if e ∈ done ++ [e] ∧ e ∉ g.E me then g.wt i else 0) = _
            rw [hz, if_neg (fun u : e ∈ done ++ [e] ∧ e ∉ g.E me => u.2 hem), add_zero]), if_pos rfl, H.w0 e hem]
        · have hthis : sF g me P e + (if e ∈ done ++ [e] ∧ e ∉ g.E me then g.wt i else 0) = sF g me P e + g.wt i := by
            rw [if_pos ⟨by simp, hem⟩]
          have htgt : wS c (fun x => sF g me P x + if x ∈ done ++ [e] ∧ x ∉ g.E me then g.wt i else 0) e = c.wflg + c.degree.get e - (sF g me P e + g.wt i) := by
            refine (wS_of (v := sF g me P e + g.wt i) (x := e) ?_).trans ?_
            · exact hthis
            · rw [if_neg (by omega)]
          by_cases hz : sF g me P e = 0
          · rw [if_pos hz] at hwe
            have hne := H.w1 e heX hem
            rw [hwe, if_neg (show ¬ ({ c with w := w } : St).wflg ≤ c.w.get e by show ¬ c.wflg ≤ _; omega), if_pos hne, runs_bind, runs_rdZ]
            refine ⟨⟨hen.1, by show _ < c.degree.size; rw [H.sz.degree]; exact hen.2⟩, ?_⟩
            rw [runs_wrZ]
            refine ⟨⟨hen.1, by rw [i1]; exact hen.2⟩, hfin _ i1 (fun x hx => Arr.set_ne _ _ hx) ?_⟩
            rw [Arr.set_same, htgt, hz]
            show c.degree.get e + (c.wflg + -g.wt i) = _
            ring
          · rw [if_neg hz] at hwe
            have hle2 := sF_le H hPV heX hem
            rw [hwe, if_pos (show ({ c with w := w } : St).wflg ≤ _ by show c.wflg ≤ _; omega), runs_wrZ]
            refine ⟨⟨hen.1, by rw [i1]; exact hen.2⟩, hfin _ i1 (fun x hx => Arr.set_ne _ _ hx) ?_⟩
            rw [Arr.set_same, htgt]
            ring
    · rintro w' ⟨i1, done, todo, e2, e3, i2⟩
      have ht : todo = [] := by
        rw [← List.length_eq_zero_iff]
        rw [e2, List.length_append] at e3
        push_cast at e3
        omega
      rw [ht, List.append_nil] at e2
      rw [runs_pure]
      refine ⟨rfl, i1, fun x a b => ?_⟩
      show w'.get x = _
      rw [i2 x a b]
      refine wS_congr ?_
      rw [sF_concat hiP, e2]

/-- **Sizes of the elements outside the new one.** -/
theorem scanAll_runs (H : SH n iwlen g me M c pme1) :
    Runs (forZ pme1 (pme1 + M.length) c fun pme c => scanW pme c) fun c' => c' = { c with w := c'.w } ∧ c'.w.size = n ∧
      ∀ x : Int, 0 ≤ x → x < n → c'.w.get x = wS c (sF g me M) x := by
  refine forZ_runs (fun k c' => ∃ P Q, M = P ++ Q ∧ k = pme1 + P.length ∧ c' = { c with w := c'.w } ∧ c'.w.size = n ∧ ∀ x : Int, 0 ≤ x → x < n → c'.w.get x = wS c (sF g me P) x) (by omega)
    ⟨[], M, rfl, by simp, rfl, H.sz.w, fun x a b => ?_⟩ ?_ ?_
  · unfold wS sF; simp
  · rintro k c' h1 h2 ⟨P, Q, e1, e2, e3, e4, e5⟩
    cases Q with
    | nil => rw [e1] at h2; simp at h2; omega
    | cons i Q =>
      rw [e3, e2]
      refine Runs.mono (scanW_runs H e1 e4 e5) fun c'' ⟨q1, q2, q3⟩ => ⟨P ++ [i], Q, by rw [e1]; simp, by simp; ring, q1, q2, q3⟩
  · rintro c' ⟨P, Q, e1, e2, e3, e4, e5⟩
    have ht : Q = [] := by
      rw [← List.length_eq_zero_iff]
      rw [e1, List.length_append] at e2
      push_cast at e2
      omega
    rw [ht, List.append_nil] at e1
    rw [e1]
    exact ⟨e3, e4, e5⟩

end

end Amd
end Hif
