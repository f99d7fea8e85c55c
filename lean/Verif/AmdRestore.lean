import Verif.AmdMerge

set_option linter.unusedVariables false

/-! # The nodes of the new element return to the degree lists (amd.hpp 684–699) -/

namespace Hif
namespace Amd

section
variable {n : Nat} {iwlen : Int} {me : Int} {M : List Int} {B pme1 : Int} {g1 : Gh} {c4 : St} {Dl : Int → List Int} {Vd : Finset Int} {h : Gh} {c5 : St}

/-- **All buckets.** -/
theorem buckets_runs {S : Finset Int} {c : St} (hMn : ∀ x ∈ M, (0 ≤ x ∧ x < (n : Int)) ∧ x ≠ me) (hseg : Seg c4.iw.get pme1 M) (hp0 : 0 ≤ pme1) (hpl : pme1 + M.length ≤ iwlen) (hB : B ≤ iwlen)
    (G : MG n iwlen me M B pme1 g1 c4 Dl Vd S h c) (hW : WB n c) :
    Runs (forZ pme1 (pme1 + M.length) c fun pme c => bucket n pme c) fun c' => ∃ h', MG n iwlen me M B pme1 g1 c4 Dl Vd ∅ h' c' ∧ WB n c' := by
  refine forZ_runs (fun k c' => ∃ P Q, M = P ++ Q ∧ k = pme1 + P.length ∧ ∃ h' S', MG n iwlen me M B pme1 g1 c4 Dl Vd S' h' c' ∧ WB n c' ∧ ∀ x ∈ P, x ∉ S') (by omega)
    ⟨[], M, rfl, by simp, h, S, G, hW, fun x hx => absurd hx (by simp)⟩ ?_ ?_
  · rintro k c' h1 h2 ⟨P, Q, e1, e2, h', S', G', W', s'⟩
    cases Q with
    | nil => rw [e1] at h2; simp at h2; omega
    | cons i Q =>
      have hs := hseg
      rw [e1, seg_append] at hs
      rw [e2]
      refine Runs.mono (bucket_runs e1 hMn (by rw [show c'.iw = c4.iw by rw [G'.eq]]; exact hs.2.1) hp0 hpl G' s' hB W') fun c'' ⟨h'', S'', a, b, c⟩ =>
        ⟨P ++ [i], Q, by rw [e1]; simp, by simp; ring, h'', S'', a, b, c⟩
  · rintro c' ⟨P, Q, e1, e2, h', S', G', W', s'⟩
    have ht : Q = [] := by
      rw [← List.length_eq_zero_iff]
      rw [e1, List.length_append] at e2
      push_cast at e2
      omega
    rw [ht, List.append_nil] at e1
    have hS : S' = ∅ := by
      rw [Finset.eq_empty_iff_forall_notMem]
      intro x hx
      exact s' x (e1 ▸ (G'.sm x hx).1) hx
    rw [hS] at G'
    exact ⟨h', G', W'⟩

/-- Nodes that are left of a list. -/
def lv (h : Gh) (P : List Int) : List Int := P.filter fun x => decide (x ∈ h.V)

theorem mem_lv {P : List Int} {x : Int} : x ∈ lv h P ↔ x ∈ P ∧ x ∈ h.V := by unfold lv; rw [List.mem_filter, decide_eq_true_iff]

theorem lv_concat {P : List Int} {i : Int} : lv h (P ++ [i]) = lv h P ++ if i ∈ h.V then [i] else [] := by
  unfold lv
  rw [List.filter_append]
  by_cases hi : i ∈ h.V
  · rw [if_pos hi]; simp [hi]
  · rw [if_neg hi]; simp [hi]

theorem lv_length (h : Gh) (P : List Int) : (lv h P).length ≤ P.length := List.length_filter_le _ _

/-- During the return. -/
structure RS (n : Nat) (iwlen : Int) (me : Int) (M : List Int) (pme1 : Int) (Vd : Finset Int) (h : Gh) (c5 : St) (P Q : List Int) (s : Int × St) : Prop where
  eq : s.2 = { c5 with iw := s.2.iw, nv := s.2.nv, next := s.2.next, last := s.2.last, head := s.2.head, degree := s.2.degree, mindeg := s.2.mindeg }
  sz : Szs n iwlen s.2
  p : s.1 = pme1 + (lv h P).length
  iw : ∀ q, q < pme1 ∨ pme1 + M.length ≤ q → s.2.iw.get q = c5.iw.get q
  s1 : Seg s.2.iw.get pme1 (lv h P)
  s2 : Seg s.2.iw.get (pme1 + P.length) Q
  nv : ∀ x : Int, 0 ≤ x → x < n → x ≠ me → s.2.nv.get x = if x ∈ Q then -h.wt x else h.wt x
  dg : ∀ x, x ∉ M → s.2.degree.get x = c5.degree.get x
  dq : ∀ x ∈ Q, s.2.degree.get x = c5.degree.get x
  dl : ∃ Dl', DLs n (Vd ∪ (lv h P).toFinset) Dl' noB s.2.head.get s.2.next.get s.2.last.get s.2.degree.get
  md : ∀ x ∈ Vd ∪ (lv h P).toFinset, s.2.mindeg ≤ s.2.degree.get x
  m0 : 0 ≤ s.2.mindeg
  nn : ∀ q, 0 ≤ c5.iw.get q → 0 ≤ s.2.iw.get q

theorem restore_runs {P Q : List Int} {i : Int} {s : Int × St} {degme : Int} (hM : M = P ++ i :: Q) (hMn : ∀ x ∈ M, (0 ≤ x ∧ x < (n : Int)) ∧ x ≠ me) (hnd : M.Nodup) (hp0 : 0 ≤ pme1)
    (hpl : pme1 + M.length ≤ iwlen) (hMV : ∀ x ∈ M, x ∉ h.V → h.wt x = 0) (hwv : ∀ x ∈ h.V, 0 < h.wt x) (hVd : ∀ x ∈ Vd, x ∉ M) (hdeg : ∀ x ∈ M, x ∈ h.V → h.wt x ≤ degme ∧ 0 ≤ c5.degree.get x)
    (hnel : ∀ x ∈ h.V, h.wt x ≤ n - c5.nel) (hnel0 : 0 ≤ c5.nel) (R : RS n iwlen me M pme1 Vd h c5 P (i :: Q) s) :
    Runs (restore n degme (pme1 + P.length) s) fun s' => RS n iwlen me M pme1 Vd h c5 (P ++ [i]) Q s' := by
  have hiM : i ∈ M := by rw [hM]; simp
  obtain ⟨hin, hime⟩ := hMn i hiM
  have hml : (M.length : Int) = P.length + (Q.length + 1) := by rw [hM]; simp
  have hnd' := hnd
  rw [hM] at hnd'
  have hiP : i ∉ P := fun u => (List.nodup_append.1 hnd').2.2 i u i (by simp) rfl
  have hiQ : i ∉ Q := (List.nodup_cons.1 (List.nodup_append.1 hnd').2.1).1
  have hPM : ∀ x ∈ P, x ∈ M := fun x hx => by rw [hM]; simp [hx]
  have hQM : ∀ x ∈ Q, x ∈ M := fun x hx => by rw [hM]; simp [hx]
  have hlvl := lv_length h P
  have hs1 := R.p
  unfold restore
  rw [runs_bind, runs_rdZ]
  refine ⟨⟨by omega, by rw [R.sz.iw]; omega⟩, ?_⟩
  rw [R.s2.1, runs_bind, runs_rdZ]
  refine ⟨⟨hin.1, by rw [R.sz.nv]; exact hin.2⟩, ?_⟩
  have hnvi : s.2.nv.get i = -h.wt i := by rw [R.nv i hin.1 hin.2 hime, if_pos (by simp)]
  rw [hnvi, neg_neg]
  have hlen1 : pme1 + ((P ++ [i]).length : Int) = pme1 + P.length + 1 := by simp; ring
  by_cases hiV : i ∈ h.V
  · have hwi := hwv i hiV
    dsimp only
    rw [if_pos hwi, runs_bind, runs_wrZ]
    refine ⟨⟨hin.1, by rw [R.sz.nv]; exact hin.2⟩, ?_⟩
    rw [runs_bind, runs_rdZ]
    refine ⟨⟨hin.1, by rw [R.sz.degree]; exact hin.2⟩, ?_⟩
    rw [R.dq i (by simp)]
    have hne : s.2.nel = c5.nel := by rw [R.eq]
    obtain ⟨d1, d2⟩ := hdeg i hiM hiV
    have d3 := hnel i hiV
    have d4 := hnel0
    rw [← hne] at d3 d4
    have g0 : 0 ≤ min (c5.degree.get i + degme - h.wt i) (n - s.2.nel - h.wt i) := le_min (by omega) (by omega)
    have g1 : min (c5.degree.get i + degme - h.wt i) (n - s.2.nel - h.wt i) < n := lt_of_le_of_lt (min_le_right _ _) (by omega)
    revert g0 g1
    generalize min (c5.degree.get i + degme - h.wt i) (n - s.2.nel - h.wt i) = deg
    intro g0 g1
    obtain ⟨Dl', D⟩ := R.dl
    have hiVd : i ∉ Vd ∪ (lv h P).toFinset := fun u => by
      rcases Finset.mem_union.1 u with v | v
      · exact hVd i v hiM
      · exact hiP (mem_lv.1 (List.mem_toFinset.1 v)).1
    rw [runs_bind]
    refine Runs.mono (addDeg_runs (c := { s.2 with nv := s.2.nv.set i (h.wt i) }) D hiVd hin g0 g1 R.sz.head R.sz.next R.sz.last) fun c' ⟨q1, q2, q3, q4, q5⟩ => ?_
    have t1 : c'.degree = s.2.degree := by rw [q1]
    have t2 : c'.iw = s.2.iw := by rw [q1]
    have t3 : c'.nv = s.2.nv.set i (h.wt i) := by rw [q1]
    have t4 : c'.mindeg = s.2.mindeg := by rw [q1]
    simp only [runs_bind, runs_rdZ, runs_wrZ, runs_pure, Arr.set_size]
    have hset : Vd ∪ (lv h (P ++ [i])).toFinset = insert i (Vd ∪ (lv h P).toFinset) := by
      rw [lv_concat, if_pos hiV]
      ext x
      simp only [Finset.mem_union, Finset.mem_insert, List.mem_toFinset, List.mem_append, List.mem_singleton]
      constructor
      · rintro (u | u | u)
        · exact Or.inr (Or.inl u)
        · exact Or.inr (Or.inr u)
        · exact Or.inl u
      · rintro (u | u | u)
        · exact Or.inr (Or.inr u)
        · exact Or.inl u
        · exact Or.inr (Or.inl u)
    have hiw' : ∀ q, q ≠ s.1 → (c'.iw.set s.1 i).get q = s.2.iw.get q := fun q hq => by rw [Arr.set_ne _ _ hq, t2]
    refine ⟨⟨hin.1, by rw [q4]; exact hin.2⟩, ⟨hin.1, by rw [t1, R.sz.degree]; exact hin.2⟩, ⟨by omega, by rw [t2, R.sz.iw]; omega⟩, ?_⟩
    refine ⟨?_, ?_, ?_, fun q hq => ?_, ?_, ?_, fun x a b hx => ?_, fun x hx => ?_, fun x hx => ?_, ?_, fun x hx => ?_, ?_, fun q hq => ?_⟩
    · refine (congrArg (fun t : St => { t with last := c'.last.set i (-1), degree := c'.degree.set i deg, iw := c'.iw.set s.1 i, mindeg := min c'.mindeg deg }) (q1.trans (congrArg (fun t : St => { t with nv := s.2.nv.set i (h.wt i), head := c'.head, next := c'.next, last := c'.last }) R.eq))).trans ?_
      simp only [t3]
    · exact ⟨by show c'.pe.size = n; rw [q1]; exact R.sz.pe, by show c'.iw.size = _; rw [t2]; exact R.sz.iw, by show c'.len.size = n; rw [q1]; exact R.sz.len, by show c'.nv.size = n; rw [t3]; exact R.sz.nv, q3, q4, q2,
        by show c'.elen.size = n; rw [q1]; exact R.sz.elen, by show c'.degree.size = n; rw [t1]; exact R.sz.degree, by show c'.w.size = n; rw [q1]; exact R.sz.w⟩
    · show s.1 + 1 = _
      rw [lv_concat, if_pos hiV, List.length_append]; push_cast; simp; omega
    · show (c'.iw.set s.1 i).get q = _
      rw [hiw' q (by omega)]; exact R.iw q hq
    · show Seg (c'.iw.set s.1 i).get _ _
      rw [lv_concat, if_pos hiV, seg_append]
      refine ⟨R.s1.congr fun q a b => hiw' q (by omega), ?_, trivial⟩
      rw [← hs1, Arr.set_same]
    · show Seg (c'.iw.set s.1 i).get _ _
      rw [hlen1]
      exact R.s2.2.congr fun q a b => hiw' q (by omega)
    · show c'.nv.get x = _
      rw [t3]
      by_cases hxi : x = i
      · rw [hxi, Arr.set_same, if_neg hiQ]
      · rw [Arr.set_ne _ _ hxi, R.nv x a b hx]
        have : x ∈ i :: Q ↔ x ∈ Q := by simp [hxi]
        simp only [this]
    · show (c'.degree.set i deg).get x = _
      rw [Arr.set_ne (k := x) _ _ fun e : x = i => hx (e ▸ hiM), t1]; exact R.dg x hx
    · show (c'.degree.set i deg).get x = _
      rw [Arr.set_ne (k := x) _ _ fun e : x = i => hiQ (e ▸ hx), t1]; exact R.dq x (by simp [hx])
    · show ∃ Dl', DLs n _ Dl' noB c'.head.get c'.next.get (c'.last.set i (-1)).get (c'.degree.set i deg).get
      rw [hset]
      exact q5 _ _ (Arr.set_same _ _ _) (fun x hx => Arr.set_ne _ _ hx) (Arr.set_same _ _ _) (fun x hx => by rw [Arr.set_ne _ _ hx, t1])
    · show min c'.mindeg deg ≤ (c'.degree.set i deg).get x
      rw [hset, Finset.mem_insert] at hx
      by_cases hxi : x = i
      · rw [hxi, Arr.set_same]; exact min_le_right _ _
      · rw [Arr.set_ne _ _ hxi, t1, t4]
        exact le_trans (min_le_left _ _) (R.md x (hx.resolve_left hxi))
    · show 0 ≤ min c'.mindeg deg
      rw [t4]; exact le_min R.m0 g0
    · show 0 ≤ (c'.iw.set s.1 i).get q
      by_cases hq' : q = s.1
      · rw [hq', Arr.set_same]; exact hin.1
      · rw [hiw' q hq']; exact R.nn q hq
  · rw [hMV i hiM hiV]
    dsimp only
    rw [if_neg (by omega), runs_pure]
    have e : lv h (P ++ [i]) = lv h P := by rw [lv_concat, if_neg hiV, List.append_nil]
    refine ⟨R.eq, R.sz, by rw [e]; exact R.p, R.iw, by rw [e]; exact R.s1, by rw [hlen1]; exact R.s2.2, fun x a b hx => ?_, R.dg, fun x hx => R.dq x (by simp [hx]), by rw [e]; exact R.dl, by rw [e]; exact R.md, R.m0, R.nn⟩
    rw [R.nv x a b hx]
    by_cases hxi : x = i
    · rw [hxi, if_pos (by simp), if_neg hiQ, hMV i hiM hiV]; rfl
    · have : x ∈ i :: Q ↔ x ∈ Q := by simp [hxi]
      simp only [this]

/-- **All nodes return.** -/
theorem restoreAll_runs {degme : Int} (hMn : ∀ x ∈ M, (0 ≤ x ∧ x < (n : Int)) ∧ x ≠ me) (hnd : M.Nodup) (hp0 : 0 ≤ pme1) (hseg : Seg c4.iw.get pme1 M)
    (hpl : pme1 + M.length ≤ iwlen) (hdeg : ∀ x ∈ M, x ∈ h.V → h.wt x ≤ degme ∧ 0 ≤ c5.degree.get x)
    (hnel0 : 0 ≤ c5.nel) (hm0 : 0 ≤ c5.mindeg) (hmd : ∀ x ∈ Vd, c5.mindeg ≤ c5.degree.get x) (G : MG n iwlen me M B pme1 g1 c4 Dl Vd ∅ h c5) :
    Runs (forZ pme1 (pme1 + M.length) (pme1, c5) fun pme r => restore n degme pme r) fun s => RS n iwlen me M pme1 Vd h c5 M [] s := by
  have hiw : c5.iw = c4.iw := by rw [G.eq]
  refine forZ_runs (fun k s => ∃ P Q, M = P ++ Q ∧ k = pme1 + P.length ∧ RS n iwlen me M pme1 Vd h c5 P Q s) (by omega) ⟨[], M, rfl, by simp, ?_⟩ ?_ ?_
  · refine ⟨rfl, G.sz, by simp [lv], fun q _ => rfl, trivial, ?_, G.nv, fun x _ => rfl, fun x _ => rfl, ?_, fun x hx => ?_, hm0, fun q hq => hq⟩
    · show Seg c5.iw.get _ M
      rw [hiw]; simpa using hseg
    · obtain ⟨Bl, D, Bk⟩ := G.bk
      have hBl : ∀ d : Int, 0 ≤ d → d < n → Bl d = [] := fun d a b => by
        rw [List.eq_nil_iff_forall_not_mem]
        intro x hx
        exact absurd ((Bk.mem d a b x).1 hx).1 (by simp)
      have e : Vd ∪ (lv h []).toFinset = Vd := by simp [lv]
      rw [e]
      exact ⟨Dl, ⟨fun d a b => by rw [D.hd d a b, hBl d a b]; rfl, D.nx, fun d a b => by have := D.bk d a b; rw [hBl d a b] at this; exact this, D.nd, D.mem, D.rng⟩⟩
    · have e : Vd ∪ (lv h []).toFinset = Vd := by simp [lv]
      rw [e] at hx; exact hmd x hx
  · rintro k s h1 h2 ⟨P, Q, e1, e2, R⟩
    cases Q with
    | nil => rw [e1] at h2; simp at h2; omega
    | cons i Q =>
      rw [e2]
      refine Runs.mono (restore_runs e1 hMn hnd hp0 hpl G.mw G.gr.wv (fun x hx => (G.vd x hx).2) hdeg (fun x hx => ?_) hnel0 R) fun s' h' => ⟨P ++ [i], Q, by rw [e1]; simp, by simp; ring, h'⟩
      have := G.gr.nel
      have := Finset.single_le_sum (f := h.wt) (fun y hy => (G.gr.wv y hy).le) hx
      omega
  · rintro s ⟨P, Q, e1, e2, R⟩
    have ht : Q = [] := by
      rw [← List.length_eq_zero_iff]
      rw [e1, List.length_append] at e2
      push_cast at e2
      omega
    rw [ht, List.append_nil] at e1
    rw [ht] at R
    subst e1
    exact R

end

end Amd
end Hif
