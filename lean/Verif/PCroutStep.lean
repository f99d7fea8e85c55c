import Verif.PCroutPiv

set_option linter.unusedVariables false
set_option linter.unusedSectionVars false
set_option linter.unusedSimpArgs false

/-!
# The Crout update with pivoting: one elimination step, and the whole loop (proofs)
-/

namespace Hif.PCrout
open Finset Crout
variable {K : Type _} [Field K] [DecidableEq K] {R : Type _} [Mul R] [LinearOrder R]
variable {pr : Par K R} {I : In K} {ΦU ΦL : Nat → Nat → Prop}

/-- Entries of the lines after the step. -/
theorem ent_keep {n m2 k δ : Nat} {S S' : PSide K} (hS : PSideOK n m2 k δ S) (hlt : k + δ < n) {v o : Nat → Nat} (hp : PPos n k δ v o) {T : Nat → Nat → K} {l : List (Nat × K)}
    (h1 : ∀ i, i < k → S'.A.cs.line i = (S.A.cs.line i).map (ren (k + δ) k)) (h2 : S'.A.cs.line k = l) (h3 : ∀ e ∈ l, k + δ < e.1 ∧ e.1 < n + δ)
    (he : ∀ i, i < k → ∀ x, x < n → ent (S.A.cs.line i) (v x) = T i x) :
    ∀ i, i < k + 1 → ∀ x, x < n → ent (S'.A.cs.line i) (Equiv.swap k (k + δ) (v x)) = upd T k (fun x => ent l (v x)) i x := by
  intro i hi x hx
  by_cases ei : i = k
  · rw [ei, upd_self, h2]
    by_cases ex : v x = k + δ
    · rw [ex, Equiv.swap_apply_right, ent_zero, ent_zero]
      · intro e he; have := h3 e he; omega
      · intro e he; have := h3 e he; omega
    · rcases hp.other hlt hx ex with h | h <;> rw [Equiv.swap_apply_of_ne_of_ne (by omega) (by omega)]
  · have hi' : i < k := by omega
    rw [upd_ne _ _ ei, h1 i hi', ← he i hi' x hx]
    have hl := hS.lines i hi'
    have hnk : ∀ e ∈ S.A.cs.line i, e.1 = k → k + δ = k := by
      intro e hm e2
      rcases mem_lineOK hl hm with h | h <;> omega
    rw [ent_ren hnk]
    by_cases ex : v x = k + δ
    · rw [ex, Equiv.swap_apply_right, if_pos rfl]
    · rcases hp.other hlt hx ex with h | h <;> rw [Equiv.swap_apply_of_ne_of_ne (by omega) (by omega), if_neg (by omega), if_neg (by omega)]

/-- One estimate vector grows by an accepted component. -/
theorem kap_keep {k δ : Nat} {kap : Buf K} {T : Nat → Nat → K} {o : Nat → Nat} {t : Nat → K} (h : Kap pr.toPar k kap T o)
    (hnow : kap.get k = (if k = 0 then 1 else kappaPick pr.nrm (∑ i ∈ range k, kap.get i * T i (o (k + δ))))) (hle : pr.nrm (kap.get k) ≤ pr.kappa) :
    Kap pr.toPar (k + 1) kap (upd T k t) (fun j => o (Equiv.swap k (k + δ) j)) := by
  intro i hi
  by_cases ei : i = k
  · subst ei
    simp only [Equiv.swap_apply_left]
    refine ⟨hnow.trans ?_, hle⟩
    split
    · rfl
    · refine congrArg _ (sum_congr rfl fun j hj => ?_)
      have hj := mem_range.1 hj
      rw [upd_ne _ _ (by omega)]
  · have hi' : i < k := by omega
    have hsw : Equiv.swap k (k + δ) i = i := swap_low (le_refl k) (by omega) hi'
    obtain ⟨q1, q2⟩ := h i hi'
    refine ⟨q1.trans ?_, q2⟩
    split
    · rfl
    · refine congrArg _ (sum_congr rfl fun j hj => ?_)
      have hj := mem_range.1 hj
      simp only [hsw]
      rw [upd_ne _ _ (by omega)]

/-- The threshold of one factor after a step. -/
theorem thres_keep {n m2 k δ : Nat} {S S' : Finset Nat} {v o : Nat → Nat} {kap : Nat → K} {T Tt : Nat → Nat → K} {d : Buf K} {s t : Nat → K}
    (h : Thres pr n m2 k S v kap T Tt d.get) (hS : S ⊆ S') (hlt : k + δ < m2) (hm : m2 ≤ n) (hp : PPos n k δ v o)
    (hnow : k ∉ S' → ∀ i, k + δ < i → Cand pr m2 k kap (fun a j => T a (o j)) i → pr.gamma * pr.nrm (t (o i) * d.get (k + δ)) ≤ pr.nrm (d.get (k + δ))) :
    Thres pr n m2 (k + 1) S' (fun x => Equiv.swap k (k + δ) (v x)) kap (upd T k s) (upd Tt k t) (d.set k (d.get (k + δ))).get := by
  intro a ha hS' x hx h1 h2 h3
  beta_reduce at h1 h2
  replace h2 := (swap_below (show k < m2 by omega) hlt (v x)).1 h2
  have e3 : est pr.nrm kap (upd T k s) a x = est pr.nrm kap T a x := est_congr (fun _ _ => rfl) (fun i hi => by rw [upd_ne _ _ (by omega)])
  rw [e3] at h3
  by_cases ea : a = k
  · subst ea
    rw [upd_self, Buf.set_get_self]
    have hgt : a + δ < v x := by
      by_cases e : v x = a + δ
      · rw [e] at h1; simp only [Equiv.swap_apply_right] at h1; omega
      · rcases hp.other (by omega) hx e with h4 | h4
        · rw [Equiv.swap_apply_of_ne_of_ne (by omega) (by omega)] at h1; omega
        · exact h4.1
    have hox := (hp.to_pos x hx).2
    have := hnow hS' (v x) hgt ⟨h2, by simpa only [est, hox] using h3⟩
    rw [hox] at this
    exact this
  · rw [upd_ne _ _ ea, Buf.set_get_ne _ _ ea]
    exact h a (by omega) (fun hc => hS' (hS hc)) x hx ((lt_swap (le_refl _) (by omega) (by omega)).1 h1) h2 h3

theorem fine_set {c : St K} {g : Gh K} (h : Fine pr I c g) (hs : 4 * g.S.card ≤ 4 * c.defers + c.nU) :
    ∃ S', g.S ⊆ S' ∧ 4 * S'.card ≤ 4 * c.defers + c.nU ∧ (RookPar pr → c.step ∉ S' → ColFine pr I c g ∧ RowFine pr I c g) := by
  rcases h with h | h
  · exact ⟨g.S, fun _ h => h, hs, fun hR _ => h hR⟩
  · refine ⟨insert c.step g.S, Finset.subset_insert _ _, ?_, fun _ hc => absurd (Finset.mem_insert_self _ _) hc⟩
    have := Finset.card_insert_le c.step g.S
    omega

set_option maxHeartbeats 1000000 in
/-- One elimination step. -/
theorem updatePhase_runs (hI : InOK I) (hU : DropOK I.n ΦU pr.dropU) (hL : DropOK I.n ΦL pr.dropL) {c : St K} {g : Gh K}
    (h : Cur pr I ΦU ΦL c g) (hlt : c.step + c.defers < I.m2) (ha : Accepted pr I c g) :
    Runs (updatePhase pr I c) fun r => (∃ g', PInv pr I ΦU ΦL { r with step := r.step + 1 } g') ∧
      (SV.Ready (2 * I.n) (r.step + 1) r.l ∧ r.l.vals.size = 2 * I.n) ∧ (SV.Ready (2 * I.n) (r.step + 1) r.ut ∧ r.ut.vals.size = 2 * I.n) ∧
      r.step = c.step ∧ r.defers = c.defers ∧ r.m = c.m ∧ r.nDiag = c.nDiag ∧ r.nCond = c.nCond := by
  obtain ⟨ha1, hdk0, ⟨ha2, ha3⟩, ha4, ha5, ha6⟩ := ha
  obtain ⟨h, hlB, huB⟩ := h
  obtain ⟨S', hS1, hS2, hS3⟩ := fine_set ha6 h.slack
  have hmle := hI.mle
  have hn : c.step + c.defers < I.n := by omega
  have hlive := live_ds hI h hlt
  obtain ⟨o1, o2⟩ := h.cpos.from_pos _ hlive
  obtain ⟨q1, q2⟩ := h.rpos.from_pos _ hlive
  have hpp := h.perm.pend _ (le_refl _) hn
  have hqq := h.qerm.pend _ (le_refl _) hn
  have hpl := (hI.pinv.1 _ q1).1
  have hql := (hI.qinv.1 _ o1).1
  have hdk : c.d.get (c.step + c.defers) ≠ 0 := by
    intro hc; rw [hc] at ha1; simp [badDiag] at ha1
  unfold updatePhase
  simp only [runs_bind, runs_rd]
  rw [h.kUsz, h.kLsz]
  refine ⟨by omega, by omega, ?_⟩
  refine (doL_runs hI h hlt (restore := true) ⟨hlB.2, hlB.1⟩).mono ?_
  rintro _ ⟨l1, rfl, w1, w2⟩
  have h1 : PInv pr I ΦU ΦL { c with l := l1 } g :=
    h.same (d := c.d) (kU := c.kU) (kL := c.kL) (ut := c.ut) (a := c.nDiag) (b := c.nCond) h.dsz (fun _ _ => rfl) h.kUsz (fun _ _ => rfl) h.kLsz (fun _ _ => rfl)
  refine (doU_runs hI h1 hlt (restore := true) ⟨huB.2, huB.1⟩).mono ?_
  rintro _ ⟨ut1, rfl, u1, u2⟩
  have u2 : ∀ j, c.step + c.defers < j → j < I.n + c.defers → Crout.val ut1 j = rest I c g (c.step + c.defers) j := u2
  unfold compressArray
  simp only [runs_bind, runs_rd, runs_wr, Buf.set_size, Buf.set_get_self, hpp, hqq]
  rw [h.dsz, h.perm.psz, h.qerm.psz]
  refine ⟨by omega, by omega, by omega, by omega, by omega, by omega, by omega, ?_⟩
  refine (scaleInv_runs pr.nrm pr.safeMin hdk u1.busy u1.vsz).mono ?_
  rintro ut2 ⟨s1, s2, s3, s4, s5⟩
  refine (scaleInv_runs pr.nrm pr.safeMin hdk w1.busy w1.vsz).mono ?_
  rintro l2 ⟨x1, x2, x3, x4, x5⟩
  have hr2 : ∀ j ∈ ut2.list, c.step + c.defers < j ∧ j < I.n + c.defers := by rw [s3]; exact u1.range
  have hr3 : ∀ j ∈ l2.list, c.step + c.defers < j ∧ j < I.n + c.defers := by rw [x3]; exact w1.range
  refine ⟨by omega, ?_⟩
  refine (drop_runs hU s1 (le_refl _) s2 hr2 (c.kU.get c.step) hpl).mono ?_
  intro ut3 y
  rw [y.slice]
  obtain ⟨UA, eUA, hUA⟩ := pushKeep_runs h.U hlt y.sorted (v := (sortInds ut3).vals) (fun j hj => by rw [y.vsz]; exact y.range j hj)
  refine ⟨UA, eUA, by omega, ?_⟩
  refine (drop_runs hL x1 (le_refl _) x2 hr3 (c.kL.get c.step) hql).mono ?_
  intro l3 z
  rw [z.slice]
  obtain ⟨LA, eLA, hLA⟩ := pushKeep_runs h.L hlt z.sorted (v := (sortInds l3).vals) (fun j hj => by rw [z.vsz]; exact z.range j hj)
  refine ⟨LA, eLA, ?_⟩
  refine hUA.mono ?_
  rintro GU ⟨g1, g2, g3⟩
  refine hLA.mono ?_
  rintro GL ⟨k1, k2, k3⟩
  rw [runs_pure]
  -- the new lines
  generalize hlu : (sortInds ut3).list.map (fun j => (j, (sortInds ut3).vals.get j)) = lu at g3
  generalize hll : (sortInds l3).list.map (fun j => (j, (sortInds l3).vals.get j)) = ll at k3
  have hlur : ∀ e ∈ lu, c.step + c.defers < e.1 ∧ e.1 < I.n + c.defers := by
    intro e he; rw [← hlu, List.mem_map] at he
    obtain ⟨j, hj, rfl⟩ := he; exact (y.range j hj).1
  have hllr : ∀ e ∈ ll, c.step + c.defers < e.1 ∧ e.1 < I.n + c.defers := by
    intro e he; rw [← hll, List.mem_map] at he
    obtain ⟨j, hj, rfl⟩ := he; exact (z.range j hj).1
  obtain ⟨vr, orow, vc, ocol, Us, Ut, Ls, Lt, S⟩ := g
  simp only at o1 o2 q1 q2
  refine ⟨⟨⟨fun x => Equiv.swap c.step (c.step + c.defers) (vr x), fun j => orow (Equiv.swap c.step (c.step + c.defers) j),
    fun x => Equiv.swap c.step (c.step + c.defers) (vc x), fun j => ocol (Equiv.swap c.step (c.step + c.defers) j),
    upd Us c.step (fun x => ent lu (vc x)), upd Ut c.step (fun x => Crout.val ut2 (vc x)),
    upd Ls c.step (fun x => ent ll (vr x)), upd Lt c.step (fun x => Crout.val l2 (vr x)), S'⟩, ?_⟩, ⟨z.ready, z.vsz⟩, ⟨y.ready, y.vsz⟩, by tt, by tt, by tt, by tt, by tt⟩
  -- auxiliary facts
  have hdl : ∀ i, i < c.step → (c.d.set c.step (c.d.get (c.step + c.defers))).get i = c.d.get i := fun i hi => Buf.set_get_ne _ _ (by omega)
  have hdk' : (c.d.set c.step (c.d.get (c.step + c.defers))).get c.step = c.d.get (c.step + c.defers) := Buf.set_get_self _ _ _
  have hlow2 : ∀ j, j ≤ c.step + c.defers → Crout.val ut2 j = 0 := fun j hj => by
    unfold Crout.val; rw [if_neg]; intro hc; have := hr2 j hc; omega
  have hlow3 : ∀ j, j ≤ c.step + c.defers → Crout.val l2 j = 0 := fun j hj => by
    unfold Crout.val; rw [if_neg]; intro hc; have := hr3 j hc; omega
  have hsw : ∀ i, i < c.step → Equiv.swap c.step (c.step + c.defers) i = i := fun i hi => swap_low (le_refl _) (by omega) hi
  have hswk : Equiv.swap c.step (c.step + c.defers) c.step = c.step + c.defers := Equiv.swap_apply_left _ _
  have hvlt : ∀ i, i < c.step → ∀ j, i < Equiv.swap c.step (c.step + c.defers) j ↔ i < j := fun i hi j => lt_swap (le_refl _) (by omega) hi
  have hvgt : ∀ (v o : Nat → Nat), PPos I.n c.step c.defers v o → ∀ x, x < I.n → c.step < Equiv.swap c.step (c.step + c.defers) (v x) →
      c.step + c.defers < v x ∧ v x < I.n + c.defers := by
    intro v o hp x hx hv
    by_cases e : v x = c.step + c.defers
    · rw [e, Equiv.swap_apply_right] at hv; omega
    · rcases hp.other hn hx e with h1 | h1
      · rw [Equiv.swap_apply_of_ne_of_ne (by omega) (by omega)] at hv; omega
      · exact h1
  have hvle : ∀ (v o : Nat → Nat), PPos I.n c.step c.defers v o → ∀ x, x < I.n → Equiv.swap c.step (c.step + c.defers) (v x) ≤ c.step → v x ≤ c.step + c.defers := by
    intro v o hp x hx hv
    by_cases e : v x = c.step + c.defers
    · omega
    · rcases hp.other hn hx e with h1 | h1
      · omega
      · rw [Equiv.swap_apply_of_ne_of_ne (by omega) (by omega)] at hv; omega
  have N := h.num
  -- the residuals do not see the new column
  have hres : ∀ i a b, i ≤ c.step → res I.B (upd Ls c.step (fun x => ent ll (vr x))) (upd Us c.step (fun x => ent lu (vc x)))
      (c.d.set c.step (c.d.get (c.step + c.defers))).get i a b = res I.B Ls Us c.d.get i a b := fun i a b hi =>
    res_congr (fun t ht => by rw [upd_ne _ _ (by omega)]) (fun t ht => by rw [upd_ne _ _ (by omega)]) (fun t ht => hdl t (by omega))
  have hkeepU := y.keep
  have hkeepL := z.keep
  have hallU := y.all
  have hallL := z.all
  have hruleU := y.rule
  have hruleL := z.rule
  rw [hlu] at hkeepU hallU hruleU
  rw [hll] at hkeepL hallL hruleL
  exact {
    le := by show c.step + 1 + c.defers ≤ I.m2; omega
    m := h.m
    rpos := h.rpos.swap _ _ (live_keep hn)
    cpos := h.cpos.swap _ _ (live_keep hn)
    perm := by have := h.perm.keep hlt hmle; rw [hpp] at this; exact this
    qerm := by have := h.qerm.keep hlt hmle; rw [hqq] at this; exact this
    U := g1, L := k1, dsz := by rw [Buf.set_size]; exact h.dsz
    kUsz := h.kUsz, kLsz := h.kLsz
    entU := ent_keep h.U hn h.cpos g2 g3 hlur h.entU
    entL := ent_keep h.L hn h.rpos k2 k3 hllr h.entL
    num := {
      recU := by
        intro i hi x hx hv
        have hi' : i < c.step + 1 := hi
        rw [hres i _ _ (by omega)]
        by_cases ei : i = c.step
        · subst ei
          simp only [upd_self]
          obtain ⟨v1, v2⟩ := hvgt vc ocol h.cpos x hx hv
          rw [hdk', s5, mul_div_cancel₀ _ hdk, u2 _ v1 v2, hswk]
          show res I.B Ls Us c.d.get c.step (orow (c.step + c.defers)) (ocol (vc x)) = _
          rw [show ocol (vc x) = x from (h.cpos.to_pos x hx).2]
        · simp only [upd_ne _ _ ei]
          rw [hdl i (by omega), hsw i (by omega)]
          exact N.recU i (by omega) x hx ((hvlt i (by omega) _).1 hv)
      recL := by
        intro i hi x hx hv
        have hi' : i < c.step + 1 := hi
        rw [hres i _ _ (by omega)]
        by_cases ei : i = c.step
        · subst ei
          simp only [upd_self]
          obtain ⟨v1, v2⟩ := hvgt vr orow h.rpos x hx hv
          rw [hdk', x5, div_mul_cancel₀ _ hdk, w2 _ v1 v2, hswk]
          show res I.B Ls Us c.d.get c.step (orow (vr x)) (ocol (c.step + c.defers)) = _
          rw [show orow (vr x) = x from (h.rpos.to_pos x hx).2]
        · simp only [upd_ne _ _ ei]
          rw [hdl i (by omega), hsw i (by omega)]
          exact N.recL i (by omega) x hx ((hvlt i (by omega) _).1 hv)
      diag := by
        intro i hi
        have hi' : i < c.step + 1 := hi
        rw [hres i _ _ (by omega)]
        by_cases ei : i = c.step
        · subst ei
          show _ = res I.B Ls Us c.d.get c.step (orow (Equiv.swap c.step (c.step + c.defers) c.step)) (ocol (Equiv.swap c.step (c.step + c.defers) c.step))
          rw [hdk', hswk]; exact hdk0
        · show _ = res I.B Ls Us c.d.get i (orow (Equiv.swap c.step (c.step + c.defers) i)) (ocol (Equiv.swap c.step (c.step + c.defers) i))
          rw [hdl i (by omega), hsw i (by omega)]
          exact N.diag i (by omega)
      keepU := by
        intro i hi x hx
        have hi' : i < c.step + 1 := hi
        by_cases ei : i = c.step
        · subst ei; simp only [upd_self]; exact hkeepU _
        · simp only [upd_ne _ _ ei]; exact N.keepU i (by omega) x hx
      keepL := by
        intro i hi x hx
        have hi' : i < c.step + 1 := hi
        by_cases ei : i = c.step
        · subst ei; simp only [upd_self]; exact hkeepL _
        · simp only [upd_ne _ _ ei]; exact N.keepL i (by omega) x hx
      allU := by
        intro hk i hi x hx
        have hi' : i < c.step + 1 := hi
        by_cases ei : i = c.step
        · subst ei; simp only [upd_self]; exact hallU hk _
        · simp only [upd_ne _ _ ei]; exact N.allU hk i (by omega) x hx
      allL := by
        intro hk i hi x hx
        have hi' : i < c.step + 1 := hi
        by_cases ei : i = c.step
        · subst ei; simp only [upd_self]; exact hallL hk _
        · simp only [upd_ne _ _ ei]; exact N.allL hk i (by omega) x hx
      zeroU := by
        intro i hi x hx hv
        have hi' : i < c.step + 1 := hi
        by_cases ei : i = c.step
        · subst ei; simp only [upd_self]; exact hlow2 _ (hvle vc ocol h.cpos x hx hv)
        · simp only [upd_ne _ _ ei]
          refine N.zeroU i (by omega) x hx ?_
          have hv : Equiv.swap c.step (c.step + c.defers) (vc x) ≤ i := hv
          have := hvlt i (by omega) (vc x); show vc x ≤ i; omega
      zeroL := by
        intro i hi x hx hv
        have hi' : i < c.step + 1 := hi
        by_cases ei : i = c.step
        · subst ei; simp only [upd_self]; exact hlow3 _ (hvle vr orow h.rpos x hx hv)
        · simp only [upd_ne _ _ ei]
          refine N.zeroL i (by omega) x hx ?_
          have hv : Equiv.swap c.step (c.step + c.defers) (vr x) ≤ i := hv
          have := hvlt i (by omega) (vr x); show vr x ≤ i; omega
      good := by
        intro i hi
        have hi' : i < c.step + 1 := hi
        by_cases ei : i = c.step
        · subst ei; rw [hdk']; exact ha1
        · rw [hdl i (by omega)]; exact N.good i (by omega) }
    kapU := kap_keep h.kapU ha2 ha4
    kapL := kap_keep h.kapL ha3 ha5
    rulU := by
      intro Ψ hΨ i hi x hx
      have hi' : i < c.step + 1 := hi
      by_cases ei : i = c.step
      · subst ei; simp only [upd_self, hswk]; exact hruleU Ψ hΨ _
      · simp only [upd_ne _ _ ei, hsw i (show i < c.step by omega)]; exact h.rulU Ψ hΨ i (by omega) x hx
    rulL := by
      intro Ψ hΨ i hi x hx
      have hi' : i < c.step + 1 := hi
      by_cases ei : i = c.step
      · subst ei; simp only [upd_self, hswk]; exact hruleL Ψ hΨ _
      · simp only [upd_ne _ _ ei, hsw i (show i < c.step by omega)]; exact h.rulL Ψ hΨ i (by omega) x hx
    cntU := by
      intro i hi
      have hi' : i < c.step + 1 := hi
      by_cases ei : i = c.step
      · subst ei
        simp only [hswk]
        rw [g3, ← hlu, List.length_map]; exact y.cnt
      · simp only [hsw i (show i < c.step by omega)]
        rw [g2 i (by omega), List.length_map]; exact h.cntU i (by omega)
    cntL := by
      intro i hi
      have hi' : i < c.step + 1 := hi
      by_cases ei : i = c.step
      · subst ei
        simp only [hswk]
        rw [k3, ← hll, List.length_map]; exact z.cnt
      · simp only [hsw i (show i < c.step by omega)]
        rw [k2 i (by omega), List.length_map]; exact h.cntL i (by omega)
    thrU := fun hR => thres_keep (h.thrU hR) hS1 hlt hmle h.cpos fun hn i hi hc => by
      have h1 := (hS3 hR hn).2 i hi hc
      have hi' : c.step + c.defers < i := hi
      have him : i < I.m2 := hc.1
      have h2 := (h.cpos.from_pos i (Or.inr ⟨by omega, by omega⟩)).2
      rw [s5, show vc (ocol i) = i from h2, div_mul_cancel₀ _ hdk, u2 i hi (by omega)]
      exact h1
    thrL := fun hR => thres_keep (h.thrL hR) hS1 hlt hmle h.rpos fun hn i hi hc => by
      have h1 := (hS3 hR hn).1 i hi hc
      have hi' : c.step + c.defers < i := hi
      have him : i < I.m2 := hc.1
      have h2 := (h.rpos.from_pos i (Or.inr ⟨by omega, by omega⟩)).2
      rw [x5, show vr (orow i) = i from h2, div_mul_cancel₀ _ hdk, w2 i hi (by omega)]
      exact h1
    slack := hS2
    idle := h.idle }

/-- The whole loop: it ends with all candidates used up. -/
theorem mainLoop_runs (hs : SrtOK pr) (hI : InOK I) (hU : DropOK I.n ΦU pr.dropU) (hL : DropOK I.n ΦL pr.dropL) (f : Nat) :
    ∀ {c : St K} {g : Gh K}, PInv pr I ΦU ΦL c g → (SV.Ready (2 * I.n) c.step c.l ∧ c.l.vals.size = 2 * I.n) →
    (SV.Ready (2 * I.n) c.step c.ut ∧ c.ut.vals.size = 2 * I.n) → c.nDiag + c.nCond = c.defers → I.m2 - c.step ≤ f →
    Runs (mainLoop pr I f c) fun r => (∃ g', PInv pr I ΦU ΦL r g') ∧ (SV.Ready (2 * I.n) I.n r.l ∧ r.l.vals.size = 2 * I.n) ∧
      (SV.Ready (2 * I.n) I.n r.ut ∧ r.ut.vals.size = 2 * I.n) ∧ r.step + r.defers = I.m2 ∧ r.m = r.step ∧ r.nDiag + r.nCond = r.defers := by
  have hmle := hI.mle
  have hmono : ∀ {v : SV K} {a b : Nat}, a ≤ b → SV.Ready (2 * I.n) a v → SV.Ready (2 * I.n) b v := fun hab h =>
    ⟨h.tags_size, h.inds_size, h.drop_size, h.drop_false, fun i hi => by
      obtain ⟨h1, h2⟩ := h.old i hi
      exact ⟨fun e => by have := h2 _ e; omega, fun t e => by have := h2 _ e; omega⟩⟩
  induction f with
  | zero =>
    intro c g h hl hu hc hf
    have hle := h.le
    have hm := h.m
    rw [mainLoop, if_neg (by omega), runs_pure]
    exact ⟨⟨g, h⟩, ⟨hmono (by omega) hl.1, hl.2⟩, ⟨hmono (by omega) hu.1, hu.2⟩, by omega, by omega, hc⟩
  | succ f ih =>
    intro c g h hl hu hc hf
    have hle := h.le
    have hm := h.m
    rw [mainLoop]
    by_cases hlt : c.step < c.m
    · rw [if_pos hlt, runs_bind]
      refine (pivotPhase_runs hs hI h (by omega) hl hu hc).mono ?_
      rintro r ⟨⟨g', q1, q2⟩, q3, q4⟩
      have hle' := q1.inv.le
      have hm' := q1.inv.m
      rw [runs_ite]
      by_cases he : r.m = r.step
      · rw [if_pos he, runs_pure]
        exact ⟨⟨g', q1.inv⟩, ⟨q1.l.1.ready (by omega), q1.l.2⟩, ⟨q1.ut.1.ready (by omega), q1.ut.2⟩, by omega, he, q4⟩
      · rw [if_neg he, runs_bind]
        refine (updatePhase_runs hI hU hL q1 (by omega) (q2 (by omega))).mono ?_
        rintro r2 ⟨⟨g2, w1⟩, wl, wu, w2, w3, w4, w5, w6⟩
        exact ih w1 wl wu (by simp only; omega) (by simp only; omega)
    · rw [if_neg hlt, runs_pure]
      exact ⟨⟨g, h⟩, ⟨hmono (by omega) hl.1, hl.2⟩, ⟨hmono (by omega) hu.1, hu.2⟩, by omega, by omega, hc⟩

end Hif.PCrout
