import Verif.CroutDefer
import Verif.Conv
import Mathlib.Tactic.Ring
import Mathlib.Tactic.Abel

set_option linter.unusedVariables false
set_option linter.unusedSectionVars false
set_option linter.unusedSimpArgs false

/-!
# Condition estimates and the computation of a row of `U` / column of `L` (proofs)
-/

namespace Hif.Crout
open Finset
variable {K : Type _}

/-- A sum over the nodes of a list is the sum over all lines when the others contribute nothing. -/
theorem sum_nodes [AddCommMonoid K] {c : List Nat} (hc : c.Nodup) {k : Nat} (hk : ∀ i ∈ c, i < k) (g : Nat → K)
    (h0 : ∀ i, i < k → i ∉ c → g i = 0) : (c.map g).sum = ∑ i ∈ range k, g i := by
  rw [← List.sum_toFinset g hc]
  refine sum_subset (fun i hi => ?_) (fun i hi hn => ?_)
  · rw [mem_range]; exact hk i (List.mem_toFinset.1 hi)
  · exact h0 i (mem_range.1 hi) (fun hc => hn (List.mem_toFinset.2 hc))

/-- The nodes of the list of the current position, with their entries. -/
theorem Side.nodes {n m2 k δ : Nat} {F : FacSide K} [AddCommMonoid K] (h : Side n m2 k δ F) (hds : k + δ < 2 * n) :
    ∃ c, Chain F.list.get (F.list.get (k + δ)) c ∧ c.Nodup ∧ c.length ≤ F.list.size ∧
      (∀ i ∈ c, i < k ∧ F.T.start.get i + F.start.get i < F.T.start.get (i + 1) ∧
        F.T.inds.get (F.T.start.get i + F.start.get i) = k + δ ∧
        F.T.vals.get (F.T.start.get i + F.start.get i) = ent (F.T.line i) (k + δ)) ∧
      ∀ i, i < k → i ∉ c → ent (F.T.line i) (k + δ) = 0 := by
  obtain ⟨c, c1, c2, c3⟩ := h.links (k + δ) (le_refl _) hds
  have hkn := h.kle
  have hmn := h.mle
  refine ⟨c, c1, c2, ?_, fun i hi => ?_, fun i hi hn => ?_⟩
  · have h1 : c ⊆ List.range k := fun i hi => List.mem_range.2 ((c3 i).1 hi).1
    have h2 := (c2.subperm h1).length_le
    rw [List.length_range] at h2
    rw [h.lsz]; omega
  · obtain ⟨hik, hh⟩ := (c3 i).1 hi
    have hl := h.lines i hik
    obtain ⟨v, r, e1, e2, e3, -⟩ := hl.head_split hh
    have e4 := hl.ent_ds (by omega) e1
    have hlen := e2
    rw [line_length] at hlen
    rw [List.getElem?_eq_getElem e2, line_getElem] at e3
    simp only [Option.some.injEq, Prod.mk.injEq] at e3
    exact ⟨hik, by omega, e3.1, by rw [e3.2, e4]⟩
  · refine ent_zero ((h.lines i hi).no_ds (by omega) fun hh => hn ((c3 i).2 ⟨hi, hh⟩))

section kappa
variable [Field K] [DecidableEq K] {R : Type _} [LinearOrder R]

/-- `update_kappa`: the new component solves the triangular system with a right-hand side entry `1` or `-1`, whichever gives the
larger magnitude. -/
theorem updateKappa_runs (nrm : K → R) {n m2 k δ : Nat} {F : FacSide K} (h : Side n m2 k δ F) (hlt : k + δ < m2)
    {kappa : Buf K} (hk : kappa.size = m2) :
    Runs (updateKappa nrm k δ F kappa) fun r => r.size = m2 ∧ (∀ i, i ≠ k → r.get i = kappa.get i) ∧
      r.get k = if k = 0 then 1 else kappaPick nrm (∑ i ∈ range k, kappa.get i * ent (F.T.line i) (k + δ)) := by
  have hmn := h.mle
  unfold updateKappa
  by_cases h0 : k = 0
  · subst h0
    simp only [runs_ite, if_pos, runs_wr, Buf.set_size, Buf.set_get]
    exact ⟨by omega, hk, fun i hi => if_neg hi, trivial⟩
  · rw [if_neg h0, if_neg h0]
    obtain ⟨c, c1, c2, c3, c4, c5⟩ := h.nodes (by omega)
    simp only [runs_bind, runs_rd]
    refine ⟨by rw [h.lsz]; omega, ?_⟩
    refine chase_runs c (fun a s => s = (a.map fun i => kappa.get i * ent (F.T.line i) (k + δ)).sum) _ c3 _ c1.1 _ (by simp) ?_ ?_
    · rintro a i b s hab rfl
      have hi : i ∈ c := by rw [hab]; simp
      obtain ⟨d1, d2, d3, d4⟩ := c4 i hi
      have hss := h.asm.ssz
      unfold kappaBody
      simp only [runs_bind, runs_rd, runs_pure]
      refine ⟨by omega, by omega, by have := h.stz; omega, (h.asm.lt_size d1 d2).2, by rw [h.lsz]; omega, c1.2 a i b hab, ?_⟩
      rw [d4, List.map_append, List.sum_append]
      simp
    · rintro s rfl
      simp only [runs_wr, Buf.set_size, Buf.set_get]
      refine ⟨by omega, hk, fun i hi => if_neg hi, ?_⟩
      rw [if_pos trivial, sum_nodes c2 (fun i hi => (c4 i hi).1)]
      intro i hi hn
      rw [c5 i hi hn, mul_zero]

end kappa

/-- Value of a sparse vector at an index (0 if the index is not in its list). -/
def val [Zero K] (v : SV K) (j : Nat) : K := if j ∈ v.list then v.vals.get j else 0

section vec
variable [Field K] [DecidableEq K]

theorem subAt_runs {N step : Nat} {v : SV K} (h : SV.Busy N step v) (hv : v.vals.size = N) {idx : Nat} (hi : idx < N) (x : K) :
    Runs (subAt step idx x v) fun r => SV.Busy N step r ∧ r.vals.size = N ∧ (∀ j, j ∈ r.list ↔ j ∈ v.list ∨ j = idx) ∧
      ∀ j, val r j = val v j - if j = idx then x else 0 := by
  unfold subAt
  rw [runs_bind]
  refine (SV.push_runs h hi).mono ?_
  rintro ⟨b, r⟩ ⟨e1, e2, e3, e4⟩
  simp only at e1 e2 e3 e4
  have hmem : ∀ j, j ∈ r.list ↔ j ∈ v.list ∨ j = idx := by
    intro j
    rw [e3]
    split
    · rename_i hin
      exact ⟨Or.inl, fun h => h.elim id (fun e => by rw [e]; exact hin)⟩
    · simp
  have hb : ∀ w : Buf K, SV.Busy N step { r with vals := w } := fun w =>
    ⟨e2.tags_size, e2.inds_size, e2.drop_size, e2.drop_false, e2.nodup, e2.mem, e2.le⟩
  by_cases hin : idx ∈ v.list
  · have hbf : b = false := by rw [e1]; simp [hin]
    simp only [hbf, Bool.false_eq_true, if_false, runs_bind, runs_rd, runs_wr, runs_pure, e4, hv]
    refine ⟨hi, hi, hb _, by rw [Buf.set_size, hv], hmem, fun j => ?_⟩
    show (if j ∈ r.list then (v.vals.set idx (v.vals.get idx - x)).get j else 0) = (if j ∈ v.list then v.vals.get j else 0) - _
    by_cases ej : j = idx
    · subst ej
      rw [if_pos ((hmem j).2 (Or.inl hin)), Buf.set_get_self, if_pos hin, if_pos rfl]
    · rw [Buf.set_get_ne _ _ ej, if_neg ej, sub_zero]
      by_cases hj : j ∈ v.list
      · rw [if_pos ((hmem j).2 (Or.inl hj)), if_pos hj]
      · rw [if_neg (fun hc => ((hmem j).1 hc).elim hj ej), if_neg hj]
  · have hbf : b = true := by rw [e1]; simp [hin]
    simp only [hbf, if_true, runs_bind, runs_wr, runs_pure, e4, hv]
    refine ⟨hi, hb _, by rw [Buf.set_size, hv], hmem, fun j => ?_⟩
    show (if j ∈ r.list then (v.vals.set idx (-x)).get j else 0) = (if j ∈ v.list then v.vals.get j else 0) - _
    by_cases ej : j = idx
    · subst ej
      rw [if_pos ((hmem j).2 (Or.inr rfl)), Buf.set_get_self, if_neg hin, if_pos rfl, zero_sub]
    · rw [Buf.set_get_ne _ _ ej, if_neg ej, sub_zero]
      by_cases hj : j ∈ v.list
      · rw [if_pos ((hmem j).2 (Or.inl hj)), if_pos hj]
      · rw [if_neg (fun hc => ((hmem j).1 hc).elim hj ej), if_neg hj]

/-- One sweep `v -= x * seg`. -/
theorem sweep_runs {N step : Nat} {v : SV K} (h : SV.Busy N step v) (hv : v.vals.size = N) (T : CS K) (lo hi : Nat) (hle : lo ≤ hi)
    (hin : ∀ p, lo ≤ p → p < hi → p < T.inds.size ∧ p < T.vals.size ∧ T.inds.get p < N) (x : K) :
    Runs (forUp lo hi v fun k v => do
      let idx ← T.inds.rd k
      let y ← T.vals.rd k
      subAt step idx (x * y) v) fun r => SV.Busy N step r ∧ r.vals.size = N ∧
        (∀ j, j ∈ r.list ↔ j ∈ v.list ∨ ∃ e ∈ T.seg lo hi, e.1 = j) ∧
        ∀ j, val r j = val v j - x * ent (T.seg lo hi) j := by
  refine forUp_runs' (fun k r => SV.Busy N step r ∧ r.vals.size = N ∧
        (∀ j, j ∈ r.list ↔ j ∈ v.list ∨ ∃ e ∈ T.seg lo k, e.1 = j) ∧
        ∀ j, val r j = val v j - x * ent (T.seg lo k) j) hle ?_ ?_ (fun _ q => q)
  · refine ⟨h, hv, fun j => ?_, fun j => ?_⟩
    · rw [CS.seg_empty _ (le_refl _)]; simp
    · rw [CS.seg_empty _ (le_refl _), ent_nil, mul_zero, sub_zero]
  · rintro k r h1 h2 ⟨r1, r2, r3, r4⟩
    obtain ⟨p1, p2, p3⟩ := hin k h1 h2
    simp only [runs_bind, runs_rd]
    refine ⟨p1, p2, (subAt_runs r1 r2 p3 _).mono ?_⟩
    rintro r' ⟨q1, q2, q3, q4⟩
    refine ⟨q1, q2, fun j => ?_, fun j => ?_⟩
    · rw [q3, r3, CS.seg_succ _ h1]
      simp only [List.mem_append, List.mem_singleton]
      constructor
      · rintro ((a | ⟨e, he, e2⟩) | a)
        · exact Or.inl a
        · exact Or.inr ⟨e, Or.inl he, e2⟩
        · exact Or.inr ⟨_, Or.inr rfl, a.symm⟩
      · rintro (a | ⟨e, he | he, e2⟩)
        · exact Or.inl (Or.inl a)
        · exact Or.inl (Or.inr ⟨e, he, e2⟩)
        · subst he; exact Or.inr e2.symm
    · rw [q4, r4, CS.seg_succ _ h1, ent_append, ent_cons, ent_nil, add_zero]
      by_cases e : j = T.inds.get k
      · rw [if_pos e, if_pos e.symm]; ring
      · rw [if_neg e, if_neg (fun hc => e hc.symm)]; ring

/-- Where the sweep starts, and what lies ahead. -/
theorem sweepFrom_runs {n m2 k δ : Nat} {G : FacSide K} (h : Core n m2 k δ G) {i : Nat} (hi : i < k) :
    Runs (sweepFrom (k + δ) G i) fun lo => G.T.start.get i ≤ lo ∧ lo ≤ G.T.start.get (i + 1) ∧
      (∀ e ∈ G.T.seg lo (G.T.start.get (i + 1)), k + δ < e.1 ∧ e.1 < n + δ) ∧
      ∀ j, k + δ < j → ent (G.T.seg lo (G.T.start.get (i + 1))) j = ent (G.T.line i) j := by
  have hl := h.lines i hi
  have hss := h.asm.ssz
  have hst := h.stz
  have hkle := h.kle
  have hmono := h.asm.mono i hi
  have hstl := hl.st_le
  rw [line_length] at hstl
  have hsplit : ∀ t, G.T.start.get i + t ≤ G.T.start.get (i + 1) →
      (G.T.line i).take t = G.T.seg (G.T.start.get i) (G.T.start.get i + t) ∧
      (G.T.line i).drop t = G.T.seg (G.T.start.get i + t) (G.T.start.get (i + 1)) := by
    intro t ht
    have e := CS.seg_append G.T (show G.T.start.get i ≤ G.T.start.get i + t by omega) ht
    have hlen : (G.T.seg (G.T.start.get i) (G.T.start.get i + t)).length = t := by rw [CS.seg_length]; omega
    constructor
    · unfold CS.line; rw [← e, List.take_left' hlen]
    · unfold CS.line; rw [← e, List.drop_left' hlen]
  have hent : ∀ t j, G.T.start.get i + t ≤ G.T.start.get (i + 1) → (∀ e ∈ (G.T.line i).take t, e.1 ≠ j) →
      ent (G.T.seg (G.T.start.get i + t) (G.T.start.get (i + 1))) j = ent (G.T.line i) j := by
    intro t j ht hne
    rw [← (hsplit t ht).2]
    conv_rhs => rw [← List.take_append_drop t (G.T.line i), ent_append, ent_zero hne, zero_add]
  unfold sweepFrom
  simp only [runs_bind, runs_rd, runs_ite, runs_pure]
  refine ⟨by omega, by omega, by omega, ?_⟩
  by_cases hne : G.T.start.get i + G.start.get i ≠ G.T.start.get (i + 1)
  · rw [if_pos hne]
    have hlt : G.T.start.get i + G.start.get i < G.T.start.get (i + 1) := by omega
    refine ⟨(h.asm.lt_size hi hlt).1, ?_⟩
    by_cases hd : G.T.inds.get (G.T.start.get i + G.start.get i) = k + δ
    · rw [if_pos hd]
      have hltl : G.start.get i < (G.T.line i).length := by rw [line_length]; omega
      have hg := line_getElem G.T i (G.start.get i) hltl
      have hh : ((G.T.line i).drop (G.start.get i)).head?.map Prod.fst = some (k + δ) := by
        rw [List.head?_drop, List.getElem?_eq_getElem hltl, hg]; simp [hd]
      obtain ⟨v, r, e1, e2, e3, e4⟩ := hl.head_split hh
      have hr := hl.rest_gt e1
      have hsp := hsplit (G.start.get i + 1) (by omega)
      rw [← Nat.add_assoc] at hsp
      refine ⟨by omega, by omega, ?_, ?_⟩
      · rw [← hsp.2, e4]; exact hr
      · intro j hj
        have := hent (G.start.get i + 1) j (by omega) ?_
        · rw [← Nat.add_assoc] at this; exact this
        · intro e he
          rw [List.take_add_one, List.getElem?_eq_getElem hltl, hg, List.mem_append] at he
          rcases he with he | he
          · have := hl.before e he; omega
          · simp at he; rw [he]; simp only; omega
    · rw [if_neg hd]
      refine ⟨by omega, by omega, ?_, ?_⟩
      · rw [← (hsplit _ (by omega)).2]
        intro e he
        have h1 := hl.after e he
        refine ⟨?_, h1.2⟩
        have h2 := hl.no_ds (ds := k + δ) (by omega) (fun hh => ?_) e (List.mem_of_mem_drop he)
        · omega
        · have hltl : G.start.get i < (G.T.line i).length := by rw [line_length]; omega
          rw [List.head?_drop, List.getElem?_eq_getElem hltl, line_getElem] at hh
          simp at hh; exact hd hh
      · intro j hj
        exact hent _ j (by omega) (fun e he => by have := hl.before e he; omega)
  · rw [if_neg hne]
    rw [not_not] at hne
    refine ⟨by omega, by omega, ?_, ?_⟩
    · rw [hne, CS.seg_empty _ (le_refl _)]; simp
    · intro j hj
      exact hent _ j (by omega) (fun e he => by have := hl.before e he; omega)

/-- Loading a line of `A`. -/
theorem loadLine_runs {N k δ : Nat} {v : SV K} (h : SV.Busy N k v) (hv : v.vals.size = N) (hnil : v.list = []) (sl : K) {A : CS K}
    (hA : A.WF) (hs : A.Sorted) {sc : Buf K} (hsc : A.ssize ≤ sc.size) {line : Nat} (hl : line < A.psize) {inv : Buf Nat}
    (hin : A.ssize ≤ inv.size) {hi : Nat} (hhi : hi ≤ N) (hinv : ∀ a, a < A.ssize → inv.get a < hi)
    (hinj : ∀ a b, a < A.ssize → b < A.ssize → k + δ < inv.get a → inv.get a = inv.get b → a = b) :
    Runs (loadLine k δ sl A sc line inv v) fun r => SV.Busy N k r ∧ r.vals.size = N ∧
      (∀ j ∈ r.list, k + δ < j ∧ j < hi) ∧
      (∀ a, a < A.ssize → k + δ < inv.get a → val r (inv.get a) = sl * A.entry line a * sc.get a) ∧
      ∀ j, k + δ < j → (∀ a, a < A.ssize → inv.get a ≠ j) → val r j = 0 := by
  unfold loadLine
  refine CS.forLine_runs hA hl (fun p r => SV.Busy N k r ∧ r.vals.size = N ∧
      (∀ j ∈ r.list, (k + δ < j ∧ j < hi) ∧ ∃ p', A.start.get line ≤ p' ∧ p' < p ∧ inv.get (A.inds.get p') = j) ∧
      (∀ a, a < A.ssize → k + δ < inv.get a → val r (inv.get a) =
        sl * (∑ p' ∈ Ico (A.start.get line) p, if A.inds.get p' = a then A.vals.get p' else 0) * sc.get a)) ?_ ?_ ?_
  · refine ⟨h, hv, fun j hj => by rw [hnil] at hj; simp at hj, fun a ha _ => ?_⟩
    simp [val, hnil]
  · rintro p r p1 p2 ⟨r1, r2, r3, r4⟩
    have hai := hA.line_lt hl p2
    simp only [runs_bind, runs_rd, runs_ite, runs_pure]
    refine ⟨by omega, ?_⟩
    by_cases hgt : inv.get (A.inds.get p) > k + δ
    · rw [if_pos hgt]
      have hlt := hinv _ hai
      refine (SV.push_runs r1 (i := inv.get (A.inds.get p)) (by omega)).mono ?_
      rintro ⟨b, r'⟩ ⟨e1, e2, e3, e4⟩
      simp only at e1 e2 e3 e4
      refine ⟨by omega, ?_⟩
      simp only [runs_wr, e4, Buf.set_size]
      have hnew : inv.get (A.inds.get p) ∉ r.list := by
        intro hc
        obtain ⟨-, p', q1, q2, q3⟩ := r3 _ hc
        have h1 := hA.line_lt hl (show p' < A.start.get (line + 1) by omega)
        have h2 := hinj _ _ hai h1 hgt q3.symm
        have h3 := hs line hl p' p ⟨q1, by omega⟩ ⟨p1, p2⟩ q2
        omega
      rw [if_neg hnew] at e3
      refine ⟨by rw [r2]; omega, ⟨e2.tags_size, e2.inds_size, e2.drop_size, e2.drop_false, e2.nodup, e2.mem, e2.le⟩, r2, fun j hj => ?_, fun a ha hag => ?_⟩
      · have hj' : j ∈ r'.list := hj
        rw [e3, List.mem_append, List.mem_singleton] at hj'
        rcases hj' with hj' | hj'
        · obtain ⟨q1, p', q2, q3, q4⟩ := r3 j hj'
          exact ⟨q1, p', q2, by omega, q4⟩
        · subst hj'; exact ⟨⟨hgt, hlt⟩, p, p1, by omega, rfl⟩
      · have hmem : ∀ x, x ∈ (SV.list { vals := r.vals.set (inv.get (A.inds.get p)) (sl * A.vals.get p * sc.get (A.inds.get p)), inds := r'.inds, counts := r'.counts, tags := r'.tags, drop := r'.drop }) ↔ x ∈ r.list ∨ x = inv.get (A.inds.get p) := by
          intro x
          show x ∈ r'.list ↔ _
          rw [e3, List.mem_append, List.mem_singleton]
        rw [sum_Ico_succ_top p1]
        have hold := r4 a ha hag
        unfold val at hold ⊢
        simp only [hmem]
        by_cases ea : inv.get a = inv.get (A.inds.get p)
        · have := hinj a _ ha hai hag ea
          subst this
          rw [if_neg hnew] at hold
          rw [if_pos (Or.inr rfl), Buf.set_get_self, if_pos rfl]
          rw [mul_add, add_mul, ← hold, zero_add]
        · rw [Buf.set_get_ne _ _ ea, if_neg (show ¬ A.inds.get p = a from fun hc => ea (by rw [hc])), add_zero, ← hold]
          simp only [ea, or_false]
    · rw [if_neg hgt]
      refine ⟨r1, r2, fun j hj => ?_, fun a ha hag => ?_⟩
      · obtain ⟨q1, p', q2, q3, q4⟩ := r3 j hj
        exact ⟨q1, p', q2, by omega, q4⟩
      · rw [sum_Ico_succ_top p1, if_neg (fun hc => hgt (by rw [hc]; exact hag)), add_zero]
        exact r4 a ha hag
  · rintro r ⟨r1, r2, r3, r4⟩
    refine ⟨r1, r2, fun j hj => (r3 j hj).1, r4, fun j hj hno => ?_⟩
    unfold val
    rw [if_neg]
    intro hc
    obtain ⟨-, p', q1, q2, q3⟩ := r3 j hc
    exact hno _ (hA.line_lt hl q2) q3

/-- `compute_ut` / `compute_l`. -/
theorem computeVec_runs {n m2 k δ : Nat} {X Y : FacSide K} (hX : Side n m2 k δ X) (hY : Side n m2 k δ Y) (hlt : k + δ < m2)
    {v : SV K} (h : SV.Ready (2 * n) k v) (hv : v.vals.size = 2 * n) (sl : K) {A : CS K}
    (hA : A.WF) (hs : A.Sorted) {sc : Buf K} (hsc : A.ssize ≤ sc.size) {line : Nat} (hl : line < A.psize) {inv : Buf Nat}
    (hin : A.ssize ≤ inv.size) (hinv : ∀ a, a < A.ssize → inv.get a < n + δ)
    (hinj : ∀ a b, a < A.ssize → b < A.ssize → k + δ < inv.get a → inv.get a = inv.get b → a = b)
    {d : Buf K} (hd : k ≤ d.size) :
    Runs (computeVec k δ sl A sc line inv X Y d v) fun r => SV.Busy (2 * n) k r ∧ r.vals.size = 2 * n ∧
      (∀ j ∈ r.list, k + δ < j ∧ j < n + δ) ∧
      (∀ a, a < A.ssize → k + δ < inv.get a → val r (inv.get a) = sl * A.entry line a * sc.get a -
        ∑ h ∈ range k, ent (X.T.line h) (k + δ) * d.get h * ent (Y.T.line h) (inv.get a)) := by
  have hkle := hX.kle
  have hmle := hX.mle
  unfold computeVec
  rw [runs_bind]
  refine (loadLine_runs h.reset hv (by unfold SV.list SV.reset; rw [Buf.slice_empty _ _ _ (le_refl _)]) sl hA hs hsc hl hin
    (hi := n + δ) (by omega) hinv hinj).mono ?_
  rintro r ⟨r1, r2, r3, r4, r5⟩
  by_cases hk0 : k ≠ 0
  · rw [if_pos hk0]
    obtain ⟨c, c1, c2, c3, c4, c5⟩ := hX.nodes (by omega)
    simp only [runs_bind, runs_rd]
    refine ⟨by rw [hX.lsz]; omega, ?_⟩
    refine chase_runs c (fun a s => SV.Busy (2 * n) k s ∧ s.vals.size = 2 * n ∧ (∀ j ∈ s.list, k + δ < j ∧ j < n + δ) ∧
      ∀ j, k + δ < j → val s j = val r j -
        (a.map fun h => ent (X.T.line h) (k + δ) * d.get h * ent (Y.T.line h) j).sum) _ c3 _ c1.1 _ ?_ ?_ ?_
    · exact ⟨r1, r2, r3, fun j _ => by simp⟩
    · rintro a i b s hab ⟨s1, s2, s3, s4⟩
      have hi : i ∈ c := by rw [hab]; simp
      obtain ⟨d1, d2, d3, d4⟩ := c4 i hi
      have hss := hX.asm.ssz
      have hssY := hY.asm.ssz
      unfold computeBody
      simp only [runs_bind, runs_rd]
      refine ⟨by omega, by have := hX.stz; omega, (hX.asm.lt_size d1 d2).2, by omega, ?_⟩
      refine (sweepFrom_runs hY.core d1).mono ?_
      rintro lo ⟨l1, l2, l3, l4⟩
      refine ⟨by omega, ?_⟩
      rw [d4]
      refine (sweep_runs s1 s2 Y.T lo _ l2 ?_ (ent (X.T.line i) (k + δ) * d.get i)).mono ?_
      · intro p p1 p2
        have h1 := hY.asm.lt_size d1 p2
        have h2 := l3 _ (CS.mem_seg.2 ⟨p, p1, p2, rfl⟩)
        exact ⟨h1.1, h1.2, by have := h2.2; simp only at this; omega⟩
      · rintro s' ⟨q1, q2, q3, q4⟩
        simp only [runs_pure]
        refine ⟨by rw [hX.lsz]; omega, c1.2 a i b hab, q1, q2, fun j hj => ?_, fun j hj => ?_⟩
        · rcases (q3 j).1 hj with hj | ⟨e, he, rfl⟩
          · exact s3 j hj
          · exact l3 e he
        · rw [q4, s4 j hj, l4 j hj, List.map_append, List.sum_append]
          simp only [List.map_cons, List.map_nil, List.sum_cons, List.sum_nil, add_zero]
          ring
    · rintro s ⟨s1, s2, s3, s4⟩
      refine ⟨s1, s2, s3, fun a ha hag => ?_⟩
      rw [s4 _ hag, r4 a ha hag, sum_nodes c2 (fun i hi => (c4 i hi).1)]
      intro i hi hn
      rw [c5 i hi hn, zero_mul, zero_mul]
  · rw [if_neg hk0, runs_pure]
    rw [not_not] at hk0
    subst hk0
    refine ⟨r1, r2, r3, fun a ha hag => ?_⟩
    rw [r4 a ha hag]; simp

/-- `scale_inv_diag`. -/
theorem scaleInv_runs {R : Type _} [LinearOrder R] (nrm : K → R) (safeMin : R) {dk : K} (hdk : dk ≠ 0) {N step : Nat} {v : SV K}
    (h : SV.Busy N step v) (hv : v.vals.size = N) :
    Runs (scaleInv nrm safeMin dk v) fun r => SV.Busy N step r ∧ r.vals.size = N ∧ r.list = v.list ∧ r.tags = v.tags ∧
      ∀ j, val r j = val v j / dk := by
  have hloop : ∀ f : K → K, (∀ x, f x = x / dk) → Runs (forUp 0 v.counts v.vals fun i vals => do
      let j ← v.inds.rd i
      let x ← vals.rd j
      vals.wr j (f x)) fun w => w.size = N ∧ ∀ j, w.get j = if j ∈ v.list then v.vals.get j / dk else v.vals.get j := by
    intro f hf
    refine forUp_runs' (fun i w => w.size = N ∧ ∀ j, w.get j = if j ∈ v.inds.slice 0 i then v.vals.get j / dk else v.vals.get j)
      (Nat.zero_le _) ⟨hv, fun j => by rw [Buf.slice_empty _ _ _ (le_refl _)]; simp⟩ ?_ (fun w hw => hw)
    rintro i w - hi ⟨w1, w2⟩
    have hc := h.counts_le
    have hsz := h.inds_size
    have hin : v.inds.get i ∈ v.list := Buf.mem_slice.2 ⟨i, Nat.zero_le _, hi, rfl⟩
    have hlt := ((h.mem _).1 hin).1
    simp only [runs_bind, runs_rd, runs_wr, Buf.set_size, Buf.set_get]
    refine ⟨by omega, by omega, by omega, w1, fun j => ?_⟩
    have hfresh : v.inds.get i ∉ v.inds.slice 0 i := by
      intro hm
      obtain ⟨t, -, t2, t3⟩ := Buf.mem_slice.1 hm
      have hnd := h.nodup
      unfold SV.list at hnd
      have hlen : ∀ t, t < v.counts → t < (v.inds.slice 0 v.counts).length := fun t ht => by rw [Buf.slice_length]; omega
      have := (List.Nodup.getElem_inj_iff hnd (hi := hlen t (by omega)) (hj := hlen i hi)).1
        (by rw [Buf.slice_getElem, Buf.slice_getElem]; simpa using t3)
      omega
    have hstep : ∀ j, j ∈ v.inds.slice 0 (i + 1) ↔ j ∈ v.inds.slice 0 i ∨ j = v.inds.get i := by
      intro j; rw [Buf.slice_succ _ (Nat.zero_le _), List.mem_append, List.mem_singleton]
    by_cases e : j = v.inds.get i
    · subst e
      rw [if_pos rfl, if_pos ((hstep _).2 (Or.inr rfl)), hf, w2, if_neg hfresh]
    · rw [if_neg e, w2]
      simp only [hstep, e, or_false]
  have hfin : ∀ w : Buf K, (w.size = N ∧ ∀ j, w.get j = if j ∈ v.list then v.vals.get j / dk else v.vals.get j) →
      SV.Busy N step { v with vals := w } ∧ w.size = N ∧ SV.list { v with vals := w } = v.list ∧ v.tags = v.tags ∧
        ∀ j, val { v with vals := w } j = val v j / dk := by
    rintro w ⟨w1, w2⟩
    refine ⟨⟨h.tags_size, h.inds_size, h.drop_size, h.drop_false, h.nodup, h.mem, h.le⟩, w1, rfl, rfl, fun j => ?_⟩
    show (if j ∈ v.list then w.get j else 0) = (if j ∈ v.list then v.vals.get j else 0) / dk
    by_cases hj : j ∈ v.list
    · rw [if_pos hj, if_pos hj, w2, if_pos hj]
    · rw [if_neg hj, if_neg hj, zero_div]
  unfold scaleInv
  rw [if_neg hdk]
  by_cases hs : nrm dk > safeMin
  · rw [if_pos hs, runs_bind]
    refine (hloop (fun x => x * (1 / dk)) (fun x => by rw [mul_one_div])).mono fun w hw => ?_
    rw [runs_pure]; exact hfin w hw
  · rw [if_neg hs, runs_bind]
    refine (hloop (fun x => x / dk) (fun x => rfl)).mono fun w hw => ?_
    rw [runs_pure]; exact hfin w hw

/-- `update_diag`. -/
theorem updateDiag_runs {N step : Nat} {l ut : SV K} (hl : SV.Busy N step l) (hlv : l.vals.size = N) (hu : SV.Busy N step ut)
    (huv : ut.vals.size = N) {m : Nat} {d : Buf K} (hd : d.size = m) (hm : m ≤ N) :
    Runs (updateDiag step m l ut d) fun r => r.size = m ∧
      ∀ j, r.get j = if j < m then d.get j - val l j * val ut j else d.get j := by
  have hsweep : ∀ a b : SV K, SV.Busy N step a → a.vals.size = N → SV.Busy N step b → b.vals.size = N →
      Runs (diagSweep step m a b d) fun r => r.size = m ∧
        ∀ j, r.get j = if j < m then d.get j - val a j * val b j else d.get j := by
    intro a b ha hav hb hbv
    have hnd := ha.nodup
    unfold diagSweep
    refine forUp_runs' (fun i r => r.size = m ∧ ∀ j, r.get j =
        if j < m ∧ j ∈ a.inds.slice 0 i then d.get j - val a j * val b j else d.get j) (Nat.zero_le _) ?_ ?_ ?_
    · refine ⟨hd, fun j => ?_⟩
      rw [Buf.slice_empty _ _ _ (le_refl _)]; simp
    · rintro i r - hi ⟨r1, r2⟩
      have hc := ha.counts_le
      have hsz := ha.inds_size
      have hin : a.inds.get i ∈ a.list := Buf.mem_slice.2 ⟨i, Nat.zero_le _, hi, rfl⟩
      have hlt := ((ha.mem _).1 hin).1
      have hfresh : a.inds.get i ∉ a.inds.slice 0 i := by
        intro hm
        obtain ⟨t, -, t2, t3⟩ := Buf.mem_slice.1 hm
        unfold SV.list at hnd
        have hlen : ∀ t, t < a.counts → t < (a.inds.slice 0 a.counts).length := fun t ht => by rw [Buf.slice_length]; omega
        have := (List.Nodup.getElem_inj_iff hnd (hi := hlen t (by omega)) (hj := hlen i hi)).1
          (by rw [Buf.slice_getElem, Buf.slice_getElem]; simpa using t3)
        omega
      have hstep : ∀ j, j ∈ a.inds.slice 0 (i + 1) ↔ j ∈ a.inds.slice 0 i ∨ j = a.inds.get i := by
        intro j; rw [Buf.slice_succ _ (Nat.zero_le _), List.mem_append, List.mem_singleton]
      simp only [runs_bind, runs_rd, runs_ite, runs_pure]
      refine ⟨by omega, ?_⟩
      by_cases hlm : a.inds.get i < m
      · rw [if_pos hlm]
        refine ⟨by rw [hb.tags_size]; omega, ?_⟩
        have hbm := hb.mem (a.inds.get i)
        by_cases ht : b.tags.get (a.inds.get i) = some step
        · rw [if_pos ht]
          have hinb : a.inds.get i ∈ b.list := hbm.2 ⟨hlt, ht⟩
          simp only [runs_wr, Buf.set_size, Buf.set_get]
          refine ⟨by omega, by omega, by omega, by omega, r1, fun j => ?_⟩
          by_cases e : j = a.inds.get i
          · subst e
            rw [if_pos rfl, if_pos ⟨hlm, (hstep _).2 (Or.inr rfl)⟩, r2, if_neg (fun hc => hfresh hc.2)]
            unfold val
            rw [if_pos hin, if_pos hinb]
          · rw [if_neg e, r2]
            simp only [hstep, e, or_false]
        · rw [if_neg ht]
          refine ⟨r1, fun j => ?_⟩
          have hnb : a.inds.get i ∉ b.list := fun hc => ht (hbm.1 hc).2
          rw [r2]
          by_cases e : j = a.inds.get i
          · subst e
            rw [if_neg (fun hc => hfresh hc.2), if_pos ⟨hlm, (hstep _).2 (Or.inr rfl)⟩]
            unfold val
            rw [if_neg hnb, mul_zero, sub_zero]
          · simp only [hstep, e, or_false]
      · rw [if_neg hlm]
        refine ⟨r1, fun j => ?_⟩
        rw [r2]
        by_cases e : j = a.inds.get i
        · subst e
          rw [if_neg (fun hc => hlm hc.1), if_neg (fun hc => hlm hc.1)]
        · simp only [hstep, e, or_false]
    · rintro r ⟨r1, r2⟩
      refine ⟨r1, fun j => ?_⟩
      rw [r2]
      have el : a.inds.slice 0 a.counts = a.list := rfl
      rw [el]
      by_cases hj : j ∈ a.list
      · simp only [hj, and_true]
      · simp only [hj, and_false, if_false]
        unfold val
        rw [if_neg hj, zero_mul, sub_zero]; simp
  unfold updateDiag
  rw [runs_ite]
  split
  · refine (hsweep ut l hu huv hl hlv).mono ?_
    rintro r ⟨r1, r2⟩
    refine ⟨r1, fun j => ?_⟩
    rw [r2, mul_comm]
  · exact hsweep l ut hl hlv hu huv

/-- `sort_indices`. -/
theorem sortInds_spec (v : SV K) : (sortInds v).list = v.list.insertionSort (· ≤ ·) ∧
    (sortInds v).vals = v.vals ∧ (sortInds v).counts = v.counts ∧ (sortInds v).tags = v.tags ∧ (sortInds v).drop = v.drop ∧
    (sortInds v).inds.size = v.inds.size := by
  refine ⟨?_, rfl, rfl, rfl, rfl, rfl⟩
  unfold sortInds SV.list
  exact SV.slice_of_list _ _ _ _ (by rw [List.length_insertionSort, Buf.slice_length]; omega)

end vec

end Hif.Crout
