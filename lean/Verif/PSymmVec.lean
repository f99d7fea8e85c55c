import Verif.PSymm
import Verif.CroutFin
import Verif.SymmSim

set_option linter.unusedVariables false
set_option linter.unusedSectionVars false
set_option linter.unusedSimpArgs false

/-!
# The pieces of the Crout phase for a symmetric leading block (proofs)
-/

namespace Hif.PSymm
open Finset Crout
variable {K : Type _}

/-- The offsets separate the leading part of every column from its tail. -/
def OffOK (m2 k : Nat) (T : CS K) (off : Buf Nat) : Prop :=
  off.size = m2 ∧ ∀ i, i < k → off.get i ≤ (T.line i).length ∧ (∀ e ∈ (T.line i).take (off.get i), e.1 < m2) ∧
    ∀ e ∈ (T.line i).drop (off.get i), m2 ≤ e.1

/-- `symm_defer_l`. -/
theorem symDeferL_runs {n m2 k δ : Nat} {F : FacSide K} (h : Side n m2 k δ F) (hds : k + δ < m2) {off : Buf Nat} (ho : OffOK m2 k F.T off) :
    Runs (symDeferL k δ (n + δ) F off) fun s => Side n m2 k (δ + 1) s.1 ∧ s.1.start = F.start ∧
      (∀ i, i < k → (s.1.T.line i).Perm ((F.T.line i).map (ren (k + δ) (n + δ)))) ∧ OffOK m2 k s.1.T s.2 := by
  have hmn := h.mle
  obtain ⟨c, hc, hnd, hmem⟩ := h.links (k + δ) (le_refl _) (by omega)
  have hlz := h.lsz
  obtain ⟨o1, o2⟩ := ho
  unfold symDeferL
  simp only [runs_bind, runs_rd]
  refine ⟨by omega, ?_⟩
  have hcl : c.length ≤ F.list.size := by
    have := length_le_of_nodup hnd fun i hi => ((hmem i).1 hi).1
    omega
  refine chase_runs c (fun a s => DeferI n k δ F c a s.1 ∧ s.2.size = m2 ∧ ∀ i, i < k → s.2.get i = if i ∈ a then off.get i - 1 else off.get i)
    F.list.size hcl _ hc.1 (F, off) ⟨deferI_init h c, o1, fun i _ => by simp⟩ ?_ ?_
  · rintro a i b ⟨G, of⟩ hab ⟨g1, g2, g3⟩
    simp only at g1 g2 g3
    have hic : i ∈ c := by rw [hab]; simp
    have hik := ((hmem i).1 hic).1
    have hia : i ∉ a := by
      rw [hab, List.nodup_append] at hnd
      exact fun hc => hnd.2.2 i hc i (by simp) rfl
    unfold symDeferBody
    simp only [runs_bind, runs_rd, runs_wr, runs_pure]
    refine (deferBody_step h hds hc hnd hmem hab g1).mono ?_
    rintro r ⟨r1, r2⟩
    refine ⟨by omega, by omega, r1, r2, by rw [Buf.set_size]; exact g2, fun i' hi' => ?_⟩
    by_cases e : i' = i
    · subst e
      rw [Buf.set_get_self, if_pos (by simp), g3 i' hi', if_neg hia]
    · rw [Buf.set_get_ne _ _ e, g3 i' hi']
      simp [e]
  · rintro ⟨G, of⟩ ⟨g1, g2, g3⟩
    simp only at g1 g2 g3 ⊢
    refine (defer_done h hds hmem g1).mono ?_
    rintro list ⟨q1, q2, q3⟩
    simp only [runs_pure]
    refine ⟨q1, q2, q3, g2, fun i hi => ?_⟩
    obtain ⟨-, -, -, -, -, -, h7, -, h9, -⟩ := g1
    obtain ⟨p1, p2, p3⟩ := o2 i hi
    rw [g3 i hi]
    show _ ≤ (G.T.line i).length ∧ (∀ e ∈ (G.T.line i).take _, _) ∧ ∀ e ∈ (G.T.line i).drop _, _
    by_cases hic : i ∈ c
    · rw [if_pos hic]
      obtain ⟨v, r, e1, e2⟩ := h9 i hic
      have hst := (h.lines i hi).st_le
      generalize hA : (F.T.line i).take (F.start.get i) = A at e1 e2
      have hAl : A.length = F.start.get i := by rw [← hA, List.length_take, min_eq_left hst]
      rw [e1] at p1 p2 p3
      have hlt : A.length < off.get i := by
        by_contra hc
        have := p3 (k + δ, v) (by
          rw [List.drop_append_of_le_length (by omega)]
          simp)
        simp only at this; omega
      rw [List.length_append, List.length_cons] at p1
      rw [e2]
      obtain ⟨t, ht⟩ : ∃ t, off.get i = A.length + t + 1 := ⟨off.get i - A.length - 1, by omega⟩
      rw [ht] at p2 p3 ⊢
      refine ⟨by simp only [List.length_append, List.length_singleton]; omega, fun e he => ?_, fun e he => ?_⟩
      · rw [show A.length + t + 1 - 1 = A.length + t by omega, List.take_length_add_append, List.mem_append,
          List.take_append_of_le_length (by omega)] at he
        apply p2
        rw [show A.length + t + 1 = A.length + (t + 1) by omega, List.take_length_add_append, List.take_succ_cons]
        rcases he with he | he
        · exact List.mem_append_left _ he
        · exact List.mem_append_right _ (List.mem_cons_of_mem _ he)
      · rw [show A.length + t + 1 - 1 = A.length + t by omega, List.drop_length_add_append,
          List.drop_append_of_le_length (by omega), List.mem_append, List.mem_singleton] at he
        rcases he with he | rfl
        · apply p3
          rw [show A.length + t + 1 = A.length + (t + 1) by omega, List.drop_length_add_append, List.drop_succ_cons]
          exact he
        · show m2 ≤ n + δ; omega
    · rw [if_neg hic, h7 i hi hic]
      exact ⟨p1, p2, p3⟩

/-- Where the sweep starts when it starts at the offset. -/
theorem sweepOff_runs {n m2 k δ : Nat} {G : FacSide K} [AddCommMonoid K] (h : Core n m2 k δ G) (hds : k + δ < m2) {off : Buf Nat} (ho : OffOK m2 k G.T off) {i : Nat}
    (hi : i < k) :
    Runs (sweepFrom (k + δ) { G with start := off } i) fun lo => G.T.start.get i ≤ lo ∧ lo ≤ G.T.start.get (i + 1) ∧
      (∀ e ∈ G.T.seg lo (G.T.start.get (i + 1)), m2 ≤ e.1 ∧ e.1 < n + δ) ∧
      ∀ j, m2 ≤ j → ent (G.T.seg lo (G.T.start.get (i + 1))) j = ent (G.T.line i) j := by
  have hl := h.lines i hi
  have hss := h.asm.ssz
  have hkle := h.kle
  have hmono := h.asm.mono i hi
  obtain ⟨o1, o2⟩ := ho
  obtain ⟨p1, p2, p3⟩ := o2 i hi
  have hlen := line_length G.T i
  have e := CS.seg_append G.T (show G.T.start.get i ≤ G.T.start.get i + off.get i by omega) (show _ ≤ G.T.start.get (i + 1) by omega)
  have hsl : (G.T.seg (G.T.start.get i) (G.T.start.get i + off.get i)).length = off.get i := by rw [CS.seg_length]; omega
  have hdrop : (G.T.line i).drop (off.get i) = G.T.seg (G.T.start.get i + off.get i) (G.T.start.get (i + 1)) := by
    unfold CS.line; rw [← e, List.drop_left' hsl]
  have hall : ∀ e ∈ G.T.line i, e.1 < n + δ := by
    intro e hm
    rw [← List.take_append_drop (G.start.get i) (G.T.line i), List.mem_append] at hm
    have := h.mle
    rcases hm with hm | hm
    · have := hl.before e hm; omega
    · exact (hl.after e hm).2
  have key : G.T.start.get i ≤ G.T.start.get i + off.get i ∧ G.T.start.get i + off.get i ≤ G.T.start.get (i + 1) ∧
      (∀ e ∈ G.T.seg (G.T.start.get i + off.get i) (G.T.start.get (i + 1)), m2 ≤ e.1 ∧ e.1 < n + δ) ∧
      ∀ j, m2 ≤ j → ent (G.T.seg (G.T.start.get i + off.get i) (G.T.start.get (i + 1))) j = ent (G.T.line i) j := by
    refine ⟨by omega, by omega, ?_, ?_⟩
    · rw [← hdrop]
      exact fun e he => ⟨p3 e he, hall e (List.mem_of_mem_drop he)⟩
    · intro j hj
      rw [← hdrop]
      conv_rhs => rw [← List.take_append_drop (off.get i) (G.T.line i), ent_append, ent_zero (fun e he => by have := p2 e he; omega), zero_add]
  unfold sweepFrom
  simp only [runs_bind, runs_rd, runs_ite, runs_pure]
  refine ⟨by omega, by omega, by omega, ?_⟩
  by_cases hne : G.T.start.get i + off.get i ≠ G.T.start.get (i + 1)
  · rw [if_pos hne]
    have hlt : G.T.start.get i + off.get i < G.T.start.get (i + 1) := by omega
    refine ⟨(h.asm.lt_size hi hlt).1, ?_⟩
    have := (key.2.2.1 _ (CS.mem_seg.2 ⟨_, le_refl _, hlt, rfl⟩)).1
    simp only at this
    rw [if_neg (by omega)]
    exact key
  · rw [if_neg hne]
    exact key

section vec
variable [Field K] [DecidableEq K]

/-- `compute_l<true>`. -/
theorem computeTail_runs {n m2 k δ : Nat} {X Y : FacSide K} (hX : Side n m2 k δ X) (hY : Side n m2 k δ Y) (hlt : k + δ < m2)
    {off : Buf Nat} (ho : OffOK m2 k Y.T off)
    {v : SV K} (h : SV.Ready (2 * n) k v) (hv : v.vals.size = 2 * n) (sl : K) {A : CS K}
    (hA : A.WF) (hs : A.Sorted) {sc : Buf K} (hsc : A.ssize ≤ sc.size) {line : Nat} (hl : line < A.psize) {inv : Buf Nat}
    (hin : A.ssize ≤ inv.size) (hinv : ∀ a, a < A.ssize → inv.get a < n + δ)
    (hinj : ∀ a b, a < A.ssize → b < A.ssize → k + δ < inv.get a → inv.get a = inv.get b → a = b)
    {d : Buf K} (hd : k ≤ d.size) :
    Runs (computeTail n m2 k δ sl A sc line inv X Y off d v) fun r => SV.Busy (2 * n) k r ∧ r.vals.size = 2 * n ∧
      (∀ j ∈ r.list, m2 ≤ j ∧ j < n + δ) ∧
      (∀ a, a < A.ssize → m2 ≤ inv.get a → val r (inv.get a) = sl * A.entry line a * sc.get a -
        ∑ h ∈ range k, ent (X.T.line h) (k + δ) * d.get h * ent (Y.T.line h) (inv.get a)) := by
  have hkle := hX.kle
  have hmle := hX.mle
  unfold computeTail
  by_cases hskip : δ ≠ 0 ∨ m2 ≠ n
  swap
  · rw [if_neg hskip, runs_pure]
    push Not at hskip
    refine ⟨h.reset, hv, fun j hj => ?_, fun a ha hag => ?_⟩
    · unfold SV.list SV.reset at hj
      rw [Buf.slice_empty _ _ _ (le_refl _)] at hj
      simp at hj
    · have := hinv a ha; omega
  rw [if_pos hskip, runs_bind]
  have hthr : k + (m2 - 1 - k) = m2 - 1 := by omega
  refine (loadLine_runs (δ := m2 - 1 - k) h.reset hv (by unfold SV.list SV.reset; rw [Buf.slice_empty _ _ _ (le_refl _)]) sl hA hs hsc hl hin
    (hi := n + δ) (by omega) hinv (fun a b ha hb hg => hinj a b ha hb (by omega))).mono ?_
  rintro r ⟨r1, r2, r3, r4, r5⟩
  rw [hthr] at r3 r4 r5
  have r3' : ∀ j ∈ r.list, m2 ≤ j ∧ j < n + δ := fun j hj => by have := r3 j hj; omega
  have r4' : ∀ a, a < A.ssize → m2 ≤ inv.get a → val r (inv.get a) = sl * A.entry line a * sc.get a := fun a ha hag => r4 a ha (by omega)
  by_cases hk0 : k ≠ 0
  · rw [if_pos hk0]
    obtain ⟨c, c1, c2, c3, c4, c5⟩ := hX.nodes (by omega)
    simp only [runs_bind, runs_rd]
    refine ⟨by rw [hX.lsz]; omega, ?_⟩
    refine chase_runs c (fun a s => SV.Busy (2 * n) k s ∧ s.vals.size = 2 * n ∧ (∀ j ∈ s.list, m2 ≤ j ∧ j < n + δ) ∧
      ∀ j, m2 ≤ j → val s j = val r j -
        (a.map fun h => ent (X.T.line h) (k + δ) * d.get h * ent (Y.T.line h) j).sum) _ c3 _ c1.1 _ ?_ ?_ ?_
    · exact ⟨r1, r2, r3', fun j _ => by simp⟩
    · rintro a i b s hab ⟨s1, s2, s3, s4⟩
      have hi : i ∈ c := by rw [hab]; simp
      obtain ⟨d1, d2, d3, d4⟩ := c4 i hi
      have hss := hX.asm.ssz
      have hssY := hY.asm.ssz
      unfold computeBody
      simp only [runs_bind, runs_rd]
      refine ⟨by omega, by have := hX.stz; omega, (hX.asm.lt_size d1 d2).2, by omega, ?_⟩
      refine (sweepOff_runs hY.core hlt ho d1).mono ?_
      rintro lo ⟨l1, l2, l3, l4⟩
      refine ⟨by omega, ?_⟩
      rw [d4]
      refine (sweep_runs s1 s2 Y.T lo _ l2 ?_ (ent (X.T.line i) (k + δ) * d.get i)).mono ?_
      · intro p p1 p2
        have h1 := hY.asm.lt_size d1 p2
        have h2 := l3 _ (CS.mem_seg.2 ⟨p, p1, p2, rfl⟩)
        exact ⟨h1.1, h1.2, by have := h2.2; simp only at this; omega⟩
      · rintro s' ⟨q1, q2, q3, q4⟩
        simp only [runs_pure]
        refine ⟨by rw [hX.lsz]; omega, c1.2 a i b hab, q1, q2, fun j hj => ?_, fun j hj => ?_⟩
        · rcases (q3 j).1 hj with hj | ⟨e, he, rfl⟩
          · exact s3 j hj
          · exact l3 e he
        · rw [q4, s4 j hj, l4 j hj, List.map_append, List.sum_append]
          simp only [List.map_cons, List.map_nil, List.sum_cons, List.sum_nil, add_zero]
          ring
    · rintro s ⟨s1, s2, s3, s4⟩
      refine ⟨s1, s2, s3, fun a ha hag => ?_⟩
      rw [s4 _ hag, r4' a ha hag, sum_nodes c2 (fun i hi => (c4 i hi).1)]
      intro i hi hn
      rw [c5 i hi hn, zero_mul, zero_mul]
  · rw [if_neg hk0, runs_pure]
    rw [not_not] at hk0
    subst hk0
    refine ⟨r1, r2, r3', fun a ha hag => ?_⟩
    rw [r4' a ha hag]; simp

end vec

/-- Appending a line made of two ranges. -/
theorem pushLine2_runs {k : Nat} {T : CS K} (h : Asm k T) (l : List Nat) (v : Buf K) (hl : ∀ j ∈ l, j < v.size) (l' : List Nat) (v' : Buf K)
    (hl' : ∀ j ∈ l', j < v'.size) :
    Runs (T.pushLine2 l v l' v') fun T' => Asm (k + 1) T' ∧ T'.psize = T.psize ∧ T'.ssize = T.ssize ∧
      (∀ i, i ≤ k → T'.start.get i = T.start.get i) ∧
      (∀ i, i < k → T'.line i = T.line i) ∧ T'.line k = (l.map fun j => (j, v.get j)) ++ l'.map fun j => (j, v'.get j) := by
  have hs := h.ssz
  have hback : T.start.back = .ok (T.start.get k) := by
    unfold Buf.back Buf.rd
    rw [if_neg (by omega), if_pos (by omega), hs]; rfl
  unfold CS.pushLine2
  simp only [runs_bind]
  refine (CS.pushRange_runs v l hl (T.inds, T.vals) (by rw [h.isz, h.vsz])).mono ?_
  rintro ⟨oi', ov'⟩ ⟨w1, w2, w3, w4⟩
  simp only at w1 w2 w3 w4
  refine (CS.pushRange_runs v' l' hl' (oi', ov') (by simp only; rw [w1, w2])).mono ?_
  rintro ⟨oi, ov⟩ ⟨r1, r2, r3, r4⟩
  simp only at r1 r2 r3 r4
  rw [hback]
  simp only [runs_ok, runs_pure]
  have hst : ∀ i, i ≤ k → (T.start.push (T.start.get k + l.length + l'.length)).get i = T.start.get i := fun i hi => by
    simp only [Buf.push]; rw [if_neg (by omega)]
  have hst' : (T.start.push (T.start.get k + l.length + l'.length)).get (k + 1) = T.start.get k + l.length + l'.length := by
    simp only [Buf.push]; rw [if_pos hs.symm]
  have hisz := h.isz
  refine ⟨⟨?_, ?_, ?_, ?_, ?_⟩, trivial, trivial, hst, ?_, ?_⟩
  · simp [Buf.push, hs]
  · simp only []; rw [hst 0 (by omega)]; exact h.zero
  · intro i hi
    simp only []
    by_cases e : i = k
    · subst e; rw [hst i (by omega), hst']; omega
    · rw [hst i (by omega), hst (i + 1) (by omega)]; exact h.mono i (by omega)
  · simp only []; rw [hst', r1, w1, h.isz]
  · simp only []; rw [hst', r2, w1, h.isz]
  · intro i hi
    refine line_eq_of (hst i (by omega)) (hst (i + 1) (by omega)) fun x h1 h2 => ?_
    have hx := (h.lt_size hi h2).1
    obtain ⟨a1, a2⟩ := r3 x (by omega)
    obtain ⟨b1, b2⟩ := w3 x hx
    exact ⟨a1.trans b1, a2.trans b2⟩
  · refine List.ext_getElem ?_ fun t t1 t2 => ?_
    · rw [line_length]; simp only []; rw [hst k (by omega), hst', List.length_append, List.length_map, List.length_map]; omega
    · rw [line_getElem]
      simp only []
      rw [hst k (by omega)]
      rw [List.length_append, List.length_map, List.length_map] at t2
      by_cases ht : t < l.length
      · rw [List.getElem_append_left (by rw [List.length_map]; exact ht), List.getElem_map]
        have := w4 t ht
        rw [h.isz] at this
        have h3 := r3 (T.start.get k + t) (by omega)
        rw [h3.1, h3.2, this.1, this.2]
      · rw [List.getElem_append_right (by rw [List.length_map]; omega), List.getElem_map]
        simp only [List.length_map]
        have := r4 (t - l.length) (by omega)
        rw [w1, h.isz, show T.start.get k + l.length + (t - l.length) = T.start.get k + t by omega] at this
        rw [this.1, this.2]

/-- The new offset separates the new line. -/
theorem newOffset_runs {n m2 k δ : Nat} {T : CS K} (hT : Asm (k + 1) T) {off : Buf Nat} (hoff : off.size = m2) (hk : k < m2)
    (hs : (T.line k).Pairwise fun a b => a.1 < b.1) (hb : ∀ e ∈ T.line k, e.1 < n + δ) :
    Runs (newOffset n m2 k δ T off) fun r => r.size = m2 ∧ (∀ i, i ≠ k → r.get i = off.get i) ∧
      r.get k ≤ (T.line k).length ∧ (∀ e ∈ (T.line k).take (r.get k), e.1 < m2) ∧ ∀ e ∈ (T.line k).drop (r.get k), m2 ≤ e.1 := by
  have hss := hT.ssz
  have hmono := hT.mono k (by omega)
  have hlen := line_length T k
  unfold newOffset
  simp only [runs_bind, runs_rd, runs_ite]
  refine ⟨by omega, by omega, ?_⟩
  by_cases hc : δ = 0 ∧ m2 = n
  · rw [if_pos hc, runs_wr]
    refine ⟨by omega, by rw [Buf.set_size]; exact hoff, fun i hi => Buf.set_get_ne _ _ hi, ?_⟩
    rw [Buf.set_get_self, ← hlen]
    refine ⟨le_refl _, fun e he => ?_, fun e he => ?_⟩
    · rw [List.take_length] at he
      have := hb e he; omega
    · rw [List.drop_length] at he; simp at he
  · rw [if_neg hc]
    have hget : ∀ t, (h1 : T.start.get k ≤ t) → (ht : t < T.start.get (k + 1)) → (T.line k)[t - T.start.get k]'(by omega) = (T.inds.get t, T.vals.get t) := by
      intro t h1 h2
      rw [line_getElem, show T.start.get k + (t - T.start.get k) = t by omega]
    have hle := hT.le (show k + 1 ≤ k + 1 by omega) (le_refl _)
    refine (lowerBound_runs T.inds m2 _ (T.start.get k) (by rw [hT.isz]; omega) ?_).mono ?_
    · intro a b h1 h2 h3
      have := List.pairwise_iff_getElem.1 hs (a - T.start.get k) (b - T.start.get k) (by omega) (by omega) (by omega)
      rw [hget a h1 (by omega), hget b (by omega) (by omega)] at this
      exact this
    · rintro pos ⟨p1, p2, p3, p4⟩
      rw [runs_wr]
      refine ⟨by omega, by rw [Buf.set_size]; exact hoff, fun i hi => Buf.set_get_ne _ _ hi, ?_⟩
      rw [Buf.set_get_self]
      refine ⟨by omega, fun e he => ?_, fun e he => ?_⟩
      · obtain ⟨t, ht, rfl⟩ := List.getElem_of_mem he
        rw [List.length_take] at ht
        rw [List.getElem_take, line_getElem]
        exact p3 _ (by omega) (by omega)
      · obtain ⟨t, ht, rfl⟩ := List.getElem_of_mem he
        rw [List.length_drop] at ht
        rw [List.getElem_drop, line_getElem]
        exact p4 _ (by omega) (by omega)

end Hif.PSymm
