import Verif.PCroutSide
import Mathlib.Tactic.Ring

set_option linter.unusedVariables false
set_option linter.unusedSectionVars false
set_option linter.unusedSimpArgs false

/-!
# Pivoting Crout update: estimates, computed vectors, appending and compressing (proofs)
-/

namespace Hif.PCrout
open Finset Crout
variable {K : Type _} {n m2 k δ : Nat} {S : PSide K}

section num
variable [Field K] [DecidableEq K]

/-- `update_kappa`. -/
theorem updateKappa_runs {R : Type _} [LinearOrder R] (nrm : K → R) (h : PSideOK n m2 k δ S) (hlt : k + δ < m2) {kappa : Buf K} (hk : kappa.size = m2) {entry j : Nat}
    (hj : j = if entry ≠ 0 then entry else k + δ) (hj1 : k + δ ≤ j) (hj2 : j < 2 * n) :
    Runs (updateKappa nrm k δ entry S kappa) fun r => r.size = m2 ∧ (∀ i, i ≠ k → r.get i = kappa.get i) ∧
      r.get k = if k = 0 then 1 else kappaPick nrm (∑ i ∈ range k, kappa.get i * ent (S.A.cs.line i) j) := by
  have hmn := h.mle
  unfold updateKappa
  by_cases h0 : k = 0
  · subst h0
    simp only [runs_ite, if_pos, runs_wr, Buf.set_size, Buf.set_get]
    exact ⟨by omega, hk, fun i hi => if_neg hi, trivial⟩
  · rw [if_neg h0, if_neg h0, ← hj]
    obtain ⟨L, hL⟩ := h.aug
    obtain ⟨c, c1, c2⟩ := walk_nodes hL (j := j) ⟨hj1, hj2⟩
    rw [c1]
    simp only [runs_bind, runs_ok]
    refine forL_runs c (fun a s => s = (a.map fun e => kappa.get e.1 * e.2).sum) _ (by simp) ?_ ?_
    · rintro a e b s hab rfl
      have he : e ∈ c := by rw [hab]; simp
      have := (c2.mem e he).1
      unfold kappaBody
      simp only [runs_bind, runs_rd, runs_pure]
      refine ⟨by omega, ?_⟩
      rw [List.map_append, List.sum_append]; simp
    · rintro s rfl
      simp only [runs_wr, Buf.set_size, Buf.set_get]
      refine ⟨by omega, hk, fun i hi => if_neg hi, ?_⟩
      rw [if_pos trivial, c2.sum (fun i x => kappa.get i * x) (fun i _ => mul_zero _)]

theorem diagFrom_runs {s : Buf K} {A : CS K} (tq : K) {inv : Buf Nat} {ds N a : Nat} (hs : N ≤ s.size) (hin : N ≤ inv.size) (ha : inv.get a = ds)
    (huniq : ∀ b, b < N → inv.get b = ds → b = a) : ∀ c k, k + c ≤ A.inds.size → k + c ≤ A.vals.size → (∀ p, k ≤ p → p < k + c → A.inds.get p < N) →
    (∀ p q, k ≤ p → p < q → q < k + c → A.inds.get p < A.inds.get q) →
    Runs (diagFrom s A tq inv ds c k) fun r => r = s.get a * (∑ p ∈ Ico k (k + c), if A.inds.get p = a then A.vals.get p else 0) * tq := by
  intro c
  induction c with
  | zero => intro k _ _ _ _; rw [diagFrom, runs_pure]; simp
  | succ c ih =>
    intro k h1 h2 h3 h4
    rw [diagFrom]
    simp only [runs_bind, runs_rd, runs_ite, runs_pure]
    have hlt := h3 k (le_refl _) (by omega)
    refine ⟨by omega, by omega, ?_⟩
    rw [sum_eq_sum_Ico_succ_bot (by omega)]
    by_cases hd : inv.get (A.inds.get k) = ds
    · rw [if_pos hd]
      have e := huniq _ hlt hd
      refine ⟨by omega, by omega, ?_⟩
      rw [if_pos e, sum_eq_zero, add_zero, e]
      intro p hp
      rw [mem_Ico] at hp
      have := h4 k p (le_refl _) (by omega) (by omega)
      rw [if_neg (by omega)]
    · rw [if_neg hd, if_neg (fun e => hd (by rw [e]; exact ha)), zero_add]
      have := ih (k + 1) (by omega) (by omega) (fun p p1 p2 => h3 p (by omega) (by omega)) (fun p q p1 p2 p3 => h4 p q (by omega) p2 (by omega))
      rw [show k + (c + 1) = k + 1 + c by omega]
      exact this

/-- `compute_dk`. -/
theorem computeDk_runs {L U : PSide K} (hL : PSideOK n m2 k δ L) (hU : PSideOK n m2 k δ U) (hlt : k + δ < m2) {s : Buf K} {A : CS K} {t : Buf K} {inv : Buf Nat}
    (hA : A.WF) (hso : A.Sorted) (hps : A.psize = n) (hss : A.ssize = n) (hs : s.size = n) (ht : t.size = n) (hin : inv.size = n) {qk a : Nat} (hq : qk < n) (ha : a < n)
    (hai : inv.get a = k + δ) (huniq : ∀ b, b < n → inv.get b = k + δ → b = a) {d : Buf K} (hd : k ≤ d.size) :
    Runs (computeDk k δ s A t inv qk L d U) fun r => r = s.get a * A.entry qk a * t.get qk -
      ∑ h ∈ range k, ent (L.A.cs.line h) (k + δ) * d.get h * ent (U.A.cs.line h) (k + δ) := by
  have hmn := hL.mle
  have hqp : qk < A.psize := by omega
  have hstart := hA.start_size
  have hmono := hA.mono qk hqp
  have hnn : A.start.get (qk + 1) ≤ A.inds.size ∧ A.start.get (qk + 1) ≤ A.vals.size := by
    have h1 := hA.start_mono (show qk + 1 ≤ A.psize by omega) (le_refl _)
    have h2 := hA.nnz_inds
    have h3 := hA.nnz_vals
    omega
  unfold computeDk
  simp only [runs_bind, runs_rd]
  refine ⟨by omega, by omega, by omega, ?_⟩
  refine (diagFrom_runs (t.get qk) (N := n) (by omega) (by omega) hai huniq _ _ (by omega) (by omega) (fun p p1 p2 => ?_) (fun p q p1 p2 p3 => ?_)).mono ?_
  · have := hA.line_lt hqp (show p < A.start.get (qk + 1) by omega); omega
  · exact hso qk hqp p q ⟨p1, by omega⟩ ⟨by omega, by omega⟩ p2
  rintro r rfl
  rw [show A.start.get qk + (A.start.get (qk + 1) - A.start.get qk) = A.start.get (qk + 1) by omega]
  show Runs _ _
  have hent : A.entry qk a = ∑ p ∈ Ico (A.start.get qk) (A.start.get (qk + 1)), if A.inds.get p = a then A.vals.get p else 0 := rfl
  rw [← hent]
  by_cases h0 : k = 0
  · subst h0
    rw [if_neg (not_not.mpr rfl), runs_pure]
    simp
  · rw [if_pos h0]
    obtain ⟨Lst, hI⟩ := hU.aug
    obtain ⟨c, c1, c2⟩ := walk_nodes hI (j := k + δ) ⟨le_refl _, by omega⟩
    rw [c1]
    simp only [runs_bind, runs_ok]
    refine forL_runs c (fun a' x => x = s.get a * A.entry qk a * t.get qk - (a'.map fun e => ent (L.A.cs.line e.1) (k + δ) * d.get e.1 * e.2).sum) _ (by simp) ?_ ?_
    · rintro a' e b x hab rfl
      have he : e ∈ c := by rw [hab]; simp
      have hek := (c2.mem e he).1
      obtain ⟨q1, q2, q3, q4⟩ := hL.head hek
      have hssz := hL.store.asm.ssz
      have hstz := hL.stz
      unfold dkBody
      simp only [runs_bind, runs_rd, runs_ite, runs_pure]
      refine ⟨by omega, by omega, by omega, by omega, ?_⟩
      rw [List.map_append, List.sum_append]
      simp only [List.map_cons, List.map_nil, List.sum_cons, List.sum_nil, add_zero]
      by_cases hb : L.A.cs.start.get e.1 + L.start.get e.1 ≠ L.A.cs.start.get (e.1 + 1)
      · rw [if_pos hb]
        have hlt' : L.A.cs.start.get e.1 + L.start.get e.1 < L.A.cs.start.get (e.1 + 1) := by omega
        have hsz := hL.store.asm.lt_size hek hlt'
        refine ⟨hsz.1, ?_⟩
        by_cases hi : L.A.cs.inds.get (L.A.cs.start.get e.1 + L.start.get e.1) = k + δ
        · rw [if_pos hi]
          refine ⟨hsz.2, ?_⟩
          rw [q3 hlt' hi]; ring
        · rw [if_neg hi, q4 (fun hc => hi hc.2)]; ring
      · rw [if_neg hb, q4 (fun hc => by omega)]; ring
    · rintro x rfl
      rw [c2.sum (fun i x => ent (L.A.cs.line i) (k + δ) * d.get i * x) (fun i _ => mul_zero _)]

/-- `compute_ut` / `compute_l`. -/
theorem computeVec_runs {X Y : PSide K} (hX : PSideOK n m2 k δ X) (hY : PSideOK n m2 k δ Y) (hlt : k + δ < m2)
    {v : SV K} (h : SV.Ready (2 * n) k v) (hv : v.vals.size = 2 * n) (sl : K) {A : CS K}
    (hA : A.WF) (hs : A.Sorted) {sc : Buf K} (hsc : A.ssize ≤ sc.size) {line : Nat} (hl : line < A.psize) {inv : Buf Nat}
    (hin : A.ssize ≤ inv.size) (hinv : ∀ a, a < A.ssize → inv.get a < n + δ)
    (hinj : ∀ a b, a < A.ssize → b < A.ssize → k + δ < inv.get a → inv.get a = inv.get b → a = b)
    {d : Buf K} (hd : k ≤ d.size) :
    Runs (computeVec k δ sl A sc line inv X Y d v) fun r => SV.Busy (2 * n) k r ∧ r.vals.size = 2 * n ∧
      (∀ j ∈ r.list, k + δ < j ∧ j < n + δ) ∧
      (∀ a, a < A.ssize → k + δ < inv.get a → val r (inv.get a) = sl * A.entry line a * sc.get a -
        ∑ h ∈ range k, ent (X.A.cs.line h) (k + δ) * d.get h * ent (Y.A.cs.line h) (inv.get a)) := by
  have hkle := hX.kle
  have hmle := hX.mle
  unfold computeVec
  rw [runs_bind]
  refine (loadLine_runs h.reset hv (by unfold SV.list SV.reset; rw [Buf.slice_empty _ _ _ (le_refl _)]) sl hA hs hsc hl hin
    (hi := n + δ) (by omega) hinv hinj).mono ?_
  rintro r ⟨r1, r2, r3, r4, r5⟩
  by_cases hk0 : k ≠ 0
  · rw [if_pos hk0]
    obtain ⟨Lst, hI⟩ := hX.aug
    obtain ⟨c, c1, c2⟩ := walk_nodes hI (j := k + δ) ⟨le_refl _, by omega⟩
    rw [c1]
    simp only [runs_bind, runs_ok]
    refine forL_runs c (fun a s => SV.Busy (2 * n) k s ∧ s.vals.size = 2 * n ∧ (∀ j ∈ s.list, k + δ < j ∧ j < n + δ) ∧
      ∀ j, k + δ < j → val s j = val r j - (a.map fun e => e.2 * d.get e.1 * ent (Y.A.cs.line e.1) j).sum) _ ?_ ?_ ?_
    · exact ⟨r1, r2, r3, fun j _ => by simp⟩
    · rintro a e b s hab ⟨s1, s2, s3, s4⟩
      have he : e ∈ c := by rw [hab]; simp
      have hek := (c2.mem e he).1
      have hssY := hY.store.asm.ssz
      unfold vecBody
      simp only [runs_bind, runs_rd]
      refine ⟨by omega, ?_⟩
      refine (sweepFrom_runs hY.core hek).mono ?_
      rintro lo ⟨l1, l2, l3, l4⟩
      refine ⟨by omega, ?_⟩
      refine (sweep_runs s1 s2 Y.A.cs lo _ l2 ?_ (e.2 * d.get e.1)).mono ?_
      · intro p p1 p2
        have h1 := hY.store.asm.lt_size hek p2
        have h2 := l3 _ (CS.mem_seg.2 ⟨p, p1, p2, rfl⟩)
        exact ⟨h1.1, h1.2, by have := h2.2; change Y.A.cs.inds.get p < n + δ at this; omega⟩
      · rintro s' ⟨q1, q2, q3, q4⟩
        refine ⟨q1, q2, fun j hj => ?_, fun j hj => ?_⟩
        · rcases (q3 j).1 hj with hj | ⟨e, he, rfl⟩
          · exact s3 j hj
          · exact l3 e he
        · have l4' := l4 j hj
          have q4' := q4 j
          change ent (Y.A.cs.seg lo (Y.A.cs.start.get (e.1 + 1))) j = ent (Y.A.cs.line e.1) j at l4'
          change val s' j = val s j - e.2 * d.get e.1 * ent (Y.A.cs.seg lo (Y.A.cs.start.get (e.1 + 1))) j at q4'
          rw [q4', s4 j hj, l4', List.map_append, List.sum_append]
          simp only [List.map_cons, List.map_nil, List.sum_cons, List.sum_nil, add_zero]
          ring
    · rintro s ⟨s1, s2, s3, s4⟩
      refine ⟨s1, s2, s3, fun a ha hag => ?_⟩
      rw [s4 _ hag, r4 a ha hag, c2.sum (fun i x => x * d.get i * ent (Y.A.cs.line i) (inv.get a)) (fun i _ => by ring)]
  · rw [if_neg hk0, runs_pure]
    rw [not_not] at hk0
    subst hk0
    refine ⟨r1, r2, r3, fun a ha hag => ?_⟩
    rw [r4 a ha hag]; simp

end num

/-! ### Appending and compressing -/

section app
variable [Field K] [DecidableEq K]

/-- Appending a line and making the current position final. -/
theorem pushKeep_runs (h : PSideOK n m2 k δ S) (hlt : k + δ < m2) {l : List Nat} {v : Buf K} (hs : l.Pairwise (· < ·))
    (hr : ∀ j ∈ l, (k + δ < j ∧ j < n + δ) ∧ j < v.size) :
    Runs (S.A.pushLine k l v) fun A' => Runs (updateCompress k δ { S with A := A' }) fun S' => PSideOK n m2 (k + 1) δ S' ∧
      (∀ i, i < k → S'.A.cs.line i = (S.A.cs.line i).map (ren (k + δ) k)) ∧ S'.A.cs.line k = l.map fun j => (j, v.get j) := by
  have hmle := h.mle
  refine (Aug.pushLine_runs h.aug l v (fun j hj => (hr j hj).2) hs (fun j hj => ⟨by have := hr j hj; omega, by have := hr j hj; omega⟩)).mono ?_
  rintro A ⟨⟨L, hI⟩, a1, a2, a3, a4⟩
  have hst := hI.store
  have hasm := hst.asm
  have hds : Up n (k + δ) (k + δ) := ⟨le_refl _, by omega⟩
  have hssz : A.cs.ssize = 2 * n := by rw [a2]; exact h.ssz
  obtain ⟨c, c1, c2⟩ := walk_nodes hI hds
  have hlk : ∀ e ∈ A.cs.line k, k + δ < e.1 ∧ e.1 < n + δ := by
    intro e he
    rw [a4] at he
    obtain ⟨j, hj, rfl⟩ := List.mem_map.1 he
    exact (hr j hj).1
  have hlines : ∀ i, i < k → LineOK k (k + δ) (n + δ) i (A.cs.line i) (S.start.get i) := fun i hi => by rw [a3 i hi]; exact h.lines i hi
  have hck : ∀ e ∈ c, e.1 < k := by
    intro e he
    obtain ⟨e1, -, v, e3⟩ := c2.mem e he
    by_contra hc
    have hek : e.1 = k := by omega
    rw [hek] at e3
    have := hlk _ e3
    simp only at this; omega
  -- where the current entries are
  have hpos : ∀ i, i < k → (∃ v, (k + δ, v) ∈ A.cs.line i) → A.cs.start.get i + S.start.get i < A.cs.start.get (i + 1) ∧
      A.cs.inds.get (A.cs.start.get i + S.start.get i) = k + δ := by
    rintro i hi ⟨v, hm⟩
    have hl := hlines i hi
    obtain ⟨v, r, e1, e2, e3, e4⟩ := hl.head_split (head_of_mem hl (by omega) hm)
    rw [List.getElem?_eq_getElem e2, line_getElem] at e3
    simp only [Option.some.injEq, Prod.mk.injEq] at e3
    rw [line_length] at e2
    exact ⟨by omega, e3.1⟩
  have hcpos : ∀ i ∈ c.map Prod.fst, i < k ∧ A.cs.start.get i + S.start.get i < A.cs.start.get (i + 1) ∧
      A.cs.inds.get (A.cs.start.get i + S.start.get i) = k + δ := by
    intro i hi
    obtain ⟨e, he, rfl⟩ := List.mem_map.1 hi
    exact ⟨hck e he, hpos _ (hck e he) (c2.mem e he).2.2⟩
  unfold updateCompress
  simp only [runs_bind]
  rw [c1, runs_ok]
  refine forL_runs c (fun a T => ∃ w st, T = ⟨{ A with cs := { A.cs with inds := w } }, st⟩ ∧ w.size = A.cs.inds.size ∧
    (∀ x, w.get x = if ∃ i ∈ a.map Prod.fst, x = A.cs.start.get i + S.start.get i then k else A.cs.inds.get x) ∧ st.size = m2 ∧
    ∀ i, st.get i = if i ∈ a.map Prod.fst then S.start.get i + 1 else S.start.get i) _ ?_ ?_ ?_
  · exact ⟨A.cs.inds, S.start, rfl, rfl, fun x => by simp, h.stz, fun i => by simp⟩
  · rintro a e b T hab ⟨w, st, rfl, w1, w2, w3, w4⟩
    have hi : e.1 ∈ c.map Prod.fst := by rw [hab]; simp
    obtain ⟨p1, p2, p3⟩ := hcpos _ hi
    have hnot : e.1 ∉ a.map Prod.fst := by
      have := c2.nodup
      rw [hab, List.map_append, List.map_cons, List.nodup_append] at this
      intro hc
      exact this.2.2 _ hc _ (by simp) rfl
    have hsub : ∀ i ∈ a.map Prod.fst, i ∈ c.map Prod.fst := fun i hi => by rw [hab, List.map_append]; exact List.mem_append_left _ hi
    have hste : st.get e.1 = S.start.get e.1 := by rw [w4, if_neg hnot]
    have hsz := (hasm.lt_size (show e.1 < k + 1 by omega) p2).1
    have hss := hasm.ssz
    unfold compressBody
    simp only [runs_bind, runs_rd, runs_wr, runs_pure, hste]
    have hwx : w.get (A.cs.start.get e.1 + S.start.get e.1) = k + δ := by
      rw [w2, if_neg, p3]
      rintro ⟨i, hi', e2⟩
      obtain ⟨q1, q2, q3⟩ := hcpos i (hsub i hi')
      exact hasm.disj (show e.1 < k + 1 by omega) (show i < k + 1 by omega) (fun e3 => hnot (e3 ▸ hi')) (Nat.le_add_right _ _) p2 (Nat.le_add_right _ _) q2 e2
    rw [hwx, w1, w3]
    have hmem : ∀ i, i ∈ (a ++ [e]).map Prod.fst ↔ i ∈ a.map Prod.fst ∨ i = e.1 := fun i => by simp
    refine ⟨by omega, by omega, hsz, hsz, by omega, w.set (A.cs.start.get e.1 + S.start.get e.1) (k + δ - δ), st.set e.1 (S.start.get e.1 + 1), rfl, by rw [Buf.set_size, w1], fun x => ?_, by rw [Buf.set_size, w3], fun i => ?_⟩
    · rw [Buf.set_get, Nat.add_sub_cancel, w2]
      by_cases ex : x = A.cs.start.get e.1 + S.start.get e.1
      · rw [if_pos ex, if_pos ⟨e.1, (hmem _).2 (Or.inr rfl), ex⟩]
      · rw [if_neg ex]
        congr 1
        refine propext ⟨fun ⟨i, hi, e2⟩ => ⟨i, (hmem _).2 (Or.inl hi), e2⟩, fun ⟨i, hi, e2⟩ => ?_⟩
        rcases (hmem _).1 hi with hi | rfl
        · exact ⟨i, hi, e2⟩
        · exact absurd e2 ex
    · rw [Buf.set_get, w4]
      by_cases ei : i = e.1
      · rw [if_pos ei, if_pos ((hmem _).2 (Or.inr ei)), ei]
      · rw [if_neg ei]
        congr 1
        exact propext ⟨fun h => (hmem _).2 (Or.inl h), fun h => ((hmem _).1 h).resolve_right ei⟩
  · rintro T ⟨w, st, rfl, w1, w2, w3, w4⟩
    have hk2 : k < 2 * n := by omega
    have hl := hI.lists
    have hss1 : A.nstart.size = 2 * n := by rw [hl.ss, hssz]
    have hss2 : A.nend.size = 2 * n := by rw [hl.se, hssz]
    have hss3 : A.counts.size = 2 * n := by rw [hl.sc, hssz]
    simp only [runs_bind, runs_rd, runs_wr, runs_pure]
    refine ⟨by omega, by omega, by omega, by omega, by omega, by omega, by omega, ?_⟩
    -- the new indices
    have hw : ∀ r, r < k + 1 → ∀ x, A.cs.start.get r ≤ x → x < A.cs.start.get (r + 1) → w.get x = if A.cs.inds.get x = k + δ then k else A.cs.inds.get x := by
      intro r hr x x1 x2
      rw [w2]
      by_cases hd : A.cs.inds.get x = k + δ
      · rw [if_pos hd, if_pos]
        have hm : (k + δ, A.cs.vals.get x) ∈ A.cs.line r := CS.mem_seg.2 ⟨x, x1, x2, by rw [← hd]⟩
        have hrc : r ∈ c.map Prod.fst := by
          by_contra hn
          exact c2.zero r hr hn _ hm rfl
        obtain ⟨q1, q2, q3⟩ := hcpos r hrc
        refine ⟨r, hrc, ?_⟩
        rcases Nat.lt_trichotomy x (A.cs.start.get r + S.start.get r) with hlt | he | hgt
        · have := hst.sorted r hr _ _ x1 hlt q2; omega
        · exact he
        · have := hst.sorted r hr _ _ (Nat.le_add_right _ _) hgt x2; omega
      · rw [if_neg hd, if_neg]
        rintro ⟨i, hi, rfl⟩
        exact hd (hcpos i hi).2.2
    have hline : ∀ r, r < k + 1 → ({ A.cs with inds := w } : CS K).line r = (A.cs.line r).map (ren (k + δ) k) := by
      intro r hr
      unfold CS.line CS.seg
      rw [List.map_map]
      refine List.map_congr_left fun x hx => ?_
      have hx : A.cs.start.get r ≤ x ∧ x < A.cs.start.get r + (A.cs.start.get (r + 1) - A.cs.start.get r) := List.mem_range'_1.1 hx
      have := hw r hr x hx.1 (by have := hasm.mono r hr; omega)
      simp only [Function.comp, this, ren]
      by_cases hd : A.cs.inds.get x = k + δ
      · rw [if_pos hd, if_pos hd]
      · rw [if_neg hd, if_neg hd]
    have hlk' : ({ A.cs with inds := w } : CS K).line k = A.cs.line k := by
      rw [hline k (by omega), map_ren_of_ne (fun e he => by have := hlk e he; omega)]
    have hok : ∀ i, i < k + 1 → LineOK (k + 1) (k + 1 + δ) (n + δ) i (({ A.cs with inds := w } : CS K).line i) ((st.set k 0).get i) := by
      intro i hi
      by_cases ei : i = k
      · rw [ei, hlk', Buf.set_get_self]
        have hsorted : (A.cs.line k).Pairwise fun a b => a.1 < b.1 := line_pairwise hst (by omega)
        refine ⟨hsorted, Nat.zero_le _, fun e he => by simp at he, fun e he => ?_⟩
        have := hlk e (by simpa using he); omega
      · have hi' : i < k := by omega
        rw [hline i hi, Buf.set_get_ne _ _ ei, w4]
        obtain ⟨o1, o2⟩ := lineOK_keep (hlines i hi') hi'
        by_cases hic : i ∈ c.map Prod.fst
        · rw [if_pos hic]
          obtain ⟨e, he, rfl⟩ := List.mem_map.1 hic
          obtain ⟨v, hv⟩ := (c2.mem e he).2.2
          exact o1 v hv
        · rw [if_neg hic]
          exact o2 (c2.zero i hi hic)
    have hcol : ∀ x, x < A.ninds.size → w.get (A.vpos.get x) = if A.cs.inds.get (A.vpos.get x) = k + δ then k else A.cs.inds.get (A.vpos.get x) := by
      intro x hx
      obtain ⟨b1, b2, b3⟩ := hst.row x hx
      exact hw _ b1 _ b2 b3
    refine ⟨⟨by omega, hmle, ⟨L, ⟨⟨hasm.ssz, hasm.zero, hasm.mono, by rw [← hasm.isz]; exact w1, hasm.vsz⟩, by rw [← hst.szi]; exact w1, hst.szp, hst.szv, hst.szn, hst.pi, hst.ip, hst.row, ?_, ?_⟩,
      ⟨?_, ?_, ?_, ?_, ?_, ?_, ?_, ?_, ?_⟩⟩, ?_, by show A.cs.ssize = 2 * n; exact hssz, ?_, hok⟩, fun i hi => ?_, ?_⟩
    · intro r hr x y x1 xy y2
      have hs := (hok r hr).sorted
      have b1 : x - A.cs.start.get r < (({ A.cs with inds := w } : CS K).line r).length := by
        rw [line_length]; show x - A.cs.start.get r < A.cs.start.get (r + 1) - A.cs.start.get r
        change y < A.cs.start.get (r + 1) at y2; change A.cs.start.get r ≤ x at x1; omega
      have b2 : y - A.cs.start.get r < (({ A.cs with inds := w } : CS K).line r).length := by
        rw [line_length]; show y - A.cs.start.get r < A.cs.start.get (r + 1) - A.cs.start.get r
        change y < A.cs.start.get (r + 1) at y2; change A.cs.start.get r ≤ x at x1; omega
      change A.cs.start.get r ≤ x at x1
      have := List.pairwise_iff_getElem.1 hs _ _ b1 b2 (by omega)
      rw [line_getElem, line_getElem] at this
      change w.get (A.cs.start.get r + (x - A.cs.start.get r)) < w.get (A.cs.start.get r + (y - A.cs.start.get r)) at this
      rw [show A.cs.start.get r + (x - A.cs.start.get r) = x by omega, show A.cs.start.get r + (y - A.cs.start.get r) = y by omega] at this
      exact this
    · intro p hp
      have := hst.ip p hp
      have h2 := hcol _ this.1
      rw [this.2] at h2
      show w.get p < A.cs.ssize
      rw [h2]
      have := hst.lt p hp
      split <;> omega
    · intro j hj; show j < A.cs.ssize; rw [hssz]; exact hj.2
    · rw [Buf.set_size]; exact hl.ss
    · rw [Buf.set_size]; exact hl.se
    · rw [Buf.set_size]; exact hl.sc
    · intro j hj
      have := hj.1
      show Aug.Chain A.nnext.get ((A.nstart.set k _).get j) (L j)
      rw [Buf.set_get_ne _ _ (by omega)]
      exact hl.chain j ⟨by omega, hj.2⟩
    · intro j hj x
      have := hj.1
      rw [hl.mem j ⟨by omega, hj.2⟩ x]
      refine and_congr_right fun hx => ?_
      show A.cs.inds.get (A.vpos.get x) = j ↔ w.get (A.vpos.get x) = j
      rw [hcol x hx]
      split <;> omega
    · intro j hj
      have := hj.1
      exact hl.asc j ⟨by omega, hj.2⟩
    · intro j hj
      have := hj.1
      show (A.nend.set k _).get j = _
      rw [Buf.set_get_ne _ _ (by omega)]
      exact hl.last j ⟨by omega, hj.2⟩
    · intro j hj
      have := hj.1
      show (A.counts.set k _).get j = _
      rw [Buf.set_get_ne _ _ (by omega)]
      exact hl.cnt j ⟨by omega, hj.2⟩
    · show A.cs.psize = m2; rw [a1]; exact h.psz
    · show (st.set k 0).size = m2; rw [Buf.set_size]; exact w3
    · show ({ A.cs with inds := w } : CS K).line i = _
      rw [hline i (by omega), a3 i hi]
    · show ({ A.cs with inds := w } : CS K).line k = _
      rw [hlk', a4]

end app

end Hif.PCrout
