import Verif.PCroutLoop

set_option linter.unusedVariables false
set_option linter.unusedSectionVars false
set_option linter.unusedSimpArgs false

/-!
# The Crout update with pivoting: the pivoting phase of a step (proofs)
-/

namespace Hif.PCrout
open Finset Crout
variable {K : Type _} [Field K] [DecidableEq K] {R : Type _} [Mul R] [LinearOrder R]
variable {pr : Par K R} {I : In K} {ΦU ΦL : Nat → Nat → Prop}

theorem DkOK.congr {c c' : St K} {g : Gh K} (h : DkOK I c g) (h1 : c'.step = c.step) (h2 : c'.defers = c.defers) (h3 : c'.d = c.d) : DkOK I c' g := by
  unfold DkOK rest at h ⊢
  rw [h1, h2, h3]; exact h

theorem rest_d {c c' : St K} {g : Gh K} (hs : c'.step = c.step) (hd : ∀ i, i < c.step → c'.d.get i = c.d.get i) (i j : Nat) : rest I c' g i j = rest I c g i j := by
  unfold rest
  rw [hs]
  exact res_congr (fun _ _ => rfl) (fun _ _ => rfl) hd

theorem RowFine.congr {c c' : St K} {g : Gh K} (h : RowFine pr I c g) (h1 : c'.step = c.step) (h2 : c'.defers = c.defers) (hk : ∀ i, i < c.step → c'.kU.get i = c.kU.get i)
    (hd : ∀ i, i < c.step → c'.d.get i = c.d.get i) (hdk : DkOK I c g) (hdk' : DkOK I c' g) : RowFine pr I c' g := by
  intro i hi hc
  rw [hdk', rest_d h1 hd, rest_d h1 hd, h1, h2, ← hdk]
  rw [h1] at hc
  rw [h1, h2] at hi
  exact h i hi ((Cand.congr Iff.rfl hk (fun _ _ => rfl)).1 hc)

theorem ColFine.congr {c c' : St K} {g : Gh K} (h : ColFine pr I c g) (h1 : c'.step = c.step) (h2 : c'.defers = c.defers) (hk : ∀ i, i < c.step → c'.kL.get i = c.kL.get i)
    (hd : ∀ i, i < c.step → c'.d.get i = c.d.get i) (hdk : DkOK I c g) (hdk' : DkOK I c' g) : ColFine pr I c' g := by
  intro i hi hc
  rw [hdk', rest_d h1 hd, rest_d h1 hd, h1, h2, ← hdk]
  rw [h1] at hc
  rw [h1, h2] at hi
  exact h i hi ((Cand.congr Iff.rfl hk (fun _ _ => rfl)).1 hc)

/-- Row pivoting. -/
theorem rowPart_runs (hs : SrtOK pr) (hI : InOK I) {c : St K} {g : Gh K} (h : PInv pr I ΦU ΦL c g) (hlt : c.step + c.defers < I.m2) {again : Bool}
    (hv : VPre I c.step again c.l) :
    Runs (rowPart pr I again c) fun r => ∃ g', PInv pr I ΦU ΦL r.2 g' ∧ DkOK I r.2 g' ∧ VBusy I c r.2.l ∧ r.2.ut = c.ut ∧ Kept c r.2 ∧
      g'.S = g.S ∧ r.2.nU = c.nU ∧ (RookPar pr → ColFine pr I r.2 g') ∧ (r.1 = false → g' = g ∧ (RowFine pr I c g → DkOK I c g → RowFine pr I r.2 g')) := by
  unfold rowPart
  rw [runs_bind]
  refine (doL_runs hI h hlt hv).mono ?_
  rintro _ ⟨l, rfl, l1, l2⟩
  rw [runs_bind]
  refine (findPivot_runs hs hI hlt h.L l1 h.kLsz).mono ?_
  rintro ⟨l', pv, kL⟩ ⟨f1, f2, f3, f4, f5, f6, f7⟩
  simp only at f1 f2 f3 f4 f5 f6 f7
  have h1 : PInv pr I ΦU ΦL { c with l := l', kL := kL } g :=
    h.same (d := c.d) (kU := c.kU) (ut := c.ut) (a := c.nDiag) (b := c.nCond) h.dsz (fun _ _ => rfl) h.kUsz (fun _ _ => rfl) f4 f5
  rw [runs_bind]
  refine (setDk_runs hI h1 hlt).mono ?_
  rintro _ ⟨d, rfl, d1, d2, d3⟩
  have h2 : PInv pr I ΦU ΦL { c with l := l', kL := kL, d := d } g :=
    h1.same (kU := c.kU) (kL := kL) (ut := c.ut) (l := l') (a := c.nDiag) (b := c.nCond) d1 d2 h.kUsz (fun _ _ => rfl) f4 (fun _ _ => rfl)
  refine (tryL_runs hI h2 hlt d3 ⟨f1.busy, f1.vsz, f1.range⟩ (fun i hi => ⟨(f3 i).2 (f6 i hi).1, (f6 i hi).2⟩) ?_ ?_).mono ?_
  · intro j j1 j2
    have := l2 j j1 j2
    have e : Crout.val l' j = Crout.val l j := by
      unfold Crout.val
      rw [f2]
      simp only [f3]
    show Crout.val l' j = _
    rw [e, this]
    unfold rest
    exact (res_congr (fun _ _ => rfl) (fun _ _ => rfl) d2).symm
  · intro hR j hj hc
    have hj' := (f3 j).1 hj
    have hr := l1.range j hj'
    obtain ⟨x1, x2⟩ := h.rpos.from_pos j (Or.inr ⟨le_of_lt hr.1, hr.2⟩)
    obtain ⟨pw, e1, e2⟩ := f7 hR j hj' ((Cand.congr Iff.rfl f5 (fun a ha => by
      have := h.entL a ha _ x1
      rw [x2] at this
      exact this.symm)).1 hc)
    exact ⟨pw, e1, by show pr.nrm (l'.vals.get j) ≤ pr.nrm (l'.vals.get pw); rw [f2]; exact e2⟩
  · rintro r ⟨g', r1, r2, r3, r4, r5, r6, r7, r8, r9⟩
    exact ⟨g', r1, r2, ⟨r3.busy, r3.vsz, r3.range⟩, r4, ⟨r5.step, r5.defers, r5.nDiag, r5.nCond⟩, r6, r7, r8, fun hf => ⟨(r9 hf).1, fun hF hF0 => by
      obtain ⟨e1, e2⟩ := r9 hf
      rw [e1, e2]
      exact hF.congr rfl rfl (fun _ _ => rfl) d2 hF0 d3⟩⟩

/-- Column pivoting. -/
theorem colPart_runs (hs : SrtOK pr) (hI : InOK I) {c : St K} {g : Gh K} (h : PInv pr I ΦU ΦL c g) (hlt : c.step + c.defers < I.m2) (hd : DkOK I c g) {again lp : Bool}
    (hv : VPre I c.step again c.ut) :
    Runs (colPart pr I again lp c) fun r => ∃ g', PInv pr I ΦU ΦL r.2 g' ∧ DkOK I r.2 g' ∧ VBusy I c r.2.ut ∧ r.2.l = c.l ∧ Kept c r.2 ∧
      g'.S = g.S ∧ r.2.nU = c.nU + (if r.1 then 1 else 0) ∧ (RookPar pr → RowFine pr I r.2 g') ∧ (r.1 = false → g' = g ∧ (ColFine pr I c g → ColFine pr I r.2 g')) := by
  unfold colPart
  rw [runs_bind]
  refine (doU_runs hI h hlt hv).mono ?_
  rintro _ ⟨l, rfl, l1, l2⟩
  rw [runs_bind]
  refine (findPivot_runs hs hI hlt h.U l1 h.kUsz).mono ?_
  rintro ⟨l', pv, kL⟩ ⟨f1, f2, f3, f4, f5, f6, f7⟩
  simp only at f1 f2 f3 f4 f5 f6 f7
  have h1 : PInv pr I ΦU ΦL { c with ut := l', kU := kL } g :=
    h.same (d := c.d) (kL := c.kL) (l := c.l) (a := c.nDiag) (b := c.nCond) h.dsz (fun _ _ => rfl) f4 f5 h.kLsz (fun _ _ => rfl)
  have hd1 : DkOK I { c with ut := l', kU := kL } g := hd.congr rfl rfl rfl
  have hset : Runs (if lp then setDk I { c with ut := l', kU := kL } else pure { c with ut := l', kU := kL } : M (St K)) fun r =>
      ∃ d, r = { c with ut := l', kU := kL, d := d } ∧ d.size = I.m2 ∧ (∀ i, i < c.step → d.get i = c.d.get i) ∧ DkOK I { c with ut := l', kU := kL, d := d } g := by
    cases lp with
    | true => rw [if_pos rfl]; exact setDk_runs hI h1 hlt
    | false => rw [if_neg Bool.false_ne_true, runs_pure]; exact ⟨c.d, rfl, h.dsz, fun _ _ => rfl, hd1⟩
  simp only [runs_bind]
  refine hset.mono ?_
  rintro _ ⟨d, rfl, d1, d2, d3⟩
  have h2 : PInv pr I ΦU ΦL { c with ut := l', kU := kL, d := d } g :=
    h1.same (kU := kL) (kL := c.kL) (ut := l') (l := c.l) (a := c.nDiag) (b := c.nCond) d1 d2 f4 (fun _ _ => rfl) h.kLsz (fun _ _ => rfl)
  refine (tryU_runs hI h2 hlt d3 ⟨f1.busy, f1.vsz, f1.range⟩ (fun i hi => ⟨(f3 i).2 (f6 i hi).1, (f6 i hi).2⟩) ?_ ?_).mono ?_
  · intro j j1 j2
    have := l2 j j1 j2
    have e : Crout.val l' j = Crout.val l j := by
      unfold Crout.val
      rw [f2]
      simp only [f3]
    show Crout.val l' j = _
    rw [e, this]
    unfold rest
    exact (res_congr (fun _ _ => rfl) (fun _ _ => rfl) d2).symm
  · intro hR j hj hc
    have hj' := (f3 j).1 hj
    have hr := l1.range j hj'
    obtain ⟨x1, x2⟩ := h.cpos.from_pos j (Or.inr ⟨le_of_lt hr.1, hr.2⟩)
    obtain ⟨pw, e1, e2⟩ := f7 hR j hj' ((Cand.congr Iff.rfl f5 (fun a ha => by
      have := h.entU a ha _ x1
      rw [x2] at this
      exact this.symm)).1 hc)
    exact ⟨pw, e1, by show pr.nrm (l'.vals.get j) ≤ pr.nrm (l'.vals.get pw); rw [f2]; exact e2⟩
  · rintro r ⟨g', r1, r2, r3, r4, r5, r6, r7, r8, r9⟩
    exact ⟨g', r1, r2, ⟨r3.busy, r3.vsz, r3.range⟩, r4, ⟨r5.step, r5.defers, r5.nDiag, r5.nCond⟩, r6, r7, r8, fun hf => ⟨(r9 hf).1, fun hF => by
      obtain ⟨e1, e2⟩ := r9 hf
      rw [e1, e2]
      exact hF.congr rfl rfl (fun _ _ => rfl) d2 hd d3⟩⟩

/-- State at the end of `apply_thres_pivot`. -/
structure Pivoted (pr : Par K R) (I : In K) (ΦU ΦL : Nat → Nat → Prop) (c : St K) (g : Gh K) : Prop where
  inv : PInv pr I ΦU ΦL c g
  dk : DkOK I c g
  l : VBusy I c c.l
  ut : VBusy I c c.ut

/-- The threshold is met, or the step counts as one of the exceptions. -/
def Fine (pr : Par K R) (I : In K) (c : St K) (g : Gh K) : Prop :=
  (RookPar pr → ColFine pr I c g ∧ RowFine pr I c g) ∨ 4 * (g.S.card + 1) ≤ 4 * c.defers + c.nU

theorem thresPivot_runs (hs : SrtOK pr) (hI : InOK I) (f : Nat) : ∀ {again : Bool} {c : St K} {g : Gh K}, PInv pr I ΦU ΦL c g → c.step + c.defers < I.m2 →
    VPre I c.step again c.l → VPre I c.step again c.ut → (again = false → 0 < f) → (again = true → Pivoted pr I ΦU ΦL c g ∧ (RookPar pr → RowFine pr I c g)) →
    4 * g.S.card + 4 ≤ 4 * c.defers + c.nU + f →
    Runs (thresPivot pr I f again c) fun r => ∃ g', Pivoted pr I ΦU ΦL r g' ∧ Kept c r ∧ Fine pr I r g' := by
  induction f with
  | zero =>
    intro again c g h hlt hl hu hf hp hn
    cases again with
    | false => exact absurd (hf rfl) (by omega)
    | true => rw [thresPivot, runs_pure]; exact ⟨g, (hp rfl).1, ⟨rfl, rfl, rfl, rfl⟩, Or.inr (by omega)⟩
  | succ f ih =>
    intro again c g h hlt hl hu hf hp hn
    rw [thresPivot, runs_bind]
    refine (rowPart_runs hs hI h hlt hl).mono ?_
    rintro ⟨lp, r⟩ ⟨g1, r1, r2, r3, r4, r5, r6, r7, r8, r9⟩
    simp only at r1 r2 r3 r4 r5 r6 r7 r8 r9
    have hlt1 : r.step + r.defers < I.m2 := by rw [r5.step, r5.defers]; exact hlt
    have hu1 : VPre I r.step again r.ut := by rw [r4, r5.step]; exact hu
    rw [runs_ite]
    by_cases hc : (!lp && again) = true
    · rw [if_pos hc, runs_pure]
      have ha : lp = false ∧ again = true := by simpa using hc
      obtain ⟨hp', hq'⟩ := hp ha.2
      refine ⟨g1, ⟨r1, r2, r3.kept r5, ?_⟩, r5, Or.inl fun hR => ⟨r8 hR, (r9 ha.1).2 (hq' hR) hp'.dk⟩⟩
      show VBusy I r r.ut
      rw [r4]; exact hp'.ut.kept r5
    · rw [if_neg hc, runs_bind]
      refine (colPart_runs hs hI r1 hlt1 r2 (lp := lp) hu1).mono ?_
      rintro ⟨cp, s⟩ ⟨g2, s1, s2, s3, s4, s5, s6, s7, s8, s9⟩
      simp only at s1 s2 s3 s4 s5 s6 s7 s8 s9
      have hk := r5.trans s5
      have hP : Pivoted pr I ΦU ΦL s g2 := ⟨s1, s2, by rw [s4]; exact r3.kept hk, s3.kept s5⟩
      cases cp with
      | false =>
        simp only [Bool.false_eq_true, if_false, runs_pure]
        exact ⟨g2, hP, hk, Or.inl fun hR => ⟨(s9 rfl).2 (r8 hR), s8 hR⟩⟩
      | true =>
        simp only [if_true] at s7 ⊢
        refine (ih (again := true) s1 (by rw [hk.step, hk.defers]; exact hlt) ⟨hP.l.vsz, hP.l.busy⟩ ⟨hP.ut.vsz, hP.ut.busy⟩ (fun hc => by simp at hc) (fun _ => ⟨hP, s8⟩)
          (by rw [s6, r6, hk.defers, s7, r7]; omega)).mono ?_
        rintro t ⟨g3, t1, t2, t3⟩
        exact ⟨g3, t1, hk.trans t2, t3⟩

/-- The estimates of the current candidate. -/
def KapNow (pr : Par K R) (c : St K) (g : Gh K) : Prop :=
  c.kU.get c.step = (if c.step = 0 then 1 else kappaPick pr.nrm (∑ i ∈ range c.step, c.kU.get i * g.Us i (g.ocol (c.step + c.defers)))) ∧
  c.kL.get c.step = (if c.step = 0 then 1 else kappaPick pr.nrm (∑ i ∈ range c.step, c.kL.get i * g.Ls i (g.orow (c.step + c.defers))))

/-- The current candidate is acceptable. -/
def Accepted (pr : Par K R) (I : In K) (c : St K) (g : Gh K) : Prop :=
  badDiag pr.toPar (c.d.get (c.step + c.defers)) = false ∧ DkOK I c g ∧ KapNow pr c g ∧
    pr.nrm (c.kU.get c.step) ≤ pr.kappa ∧ pr.nrm (c.kL.get c.step) ≤ pr.kappa ∧ Fine pr I c g

/-- Invariant together with work vectors in use. -/
structure Cur (pr : Par K R) (I : In K) (ΦU ΦL : Nat → Nat → Prop) (c : St K) (g : Gh K) : Prop where
  inv : PInv pr I ΦU ΦL c g
  l : SV.Busy (2 * I.n) c.step c.l ∧ c.l.vals.size = 2 * I.n
  ut : SV.Busy (2 * I.n) c.step c.ut ∧ c.ut.vals.size = 2 * I.n

section cur
variable (hI : InOK I) {c : St K} {g : Gh K} (h : Cur pr I ΦU ΦL c g) (hlt : c.step + c.defers < I.m2)
include hI h hlt

theorem kappas_runs : Runs (kappas pr c) fun r => Cur pr I ΦU ΦL r g ∧ KapNow pr r g ∧
    (∃ a b, r = { c with kU := a, kL := b } ∧ (∀ i, i < c.step → a.get i = c.kU.get i) ∧ ∀ i, i < c.step → b.get i = c.kL.get i) := by
  have hmle := hI.mle
  have hlive := live_ds hI h.inv hlt
  obtain ⟨o1, o2⟩ := h.inv.cpos.from_pos _ hlive
  obtain ⟨q1, q2⟩ := h.inv.rpos.from_pos _ hlive
  unfold kappas
  simp only [runs_bind]
  refine (updateKappa_runs pr.nrm h.inv.U hlt h.inv.kUsz (entry := 0) (j := c.step + c.defers) (by rw [if_neg (by simp)]) (le_refl _) (by omega)).mono ?_
  rintro a ⟨a1, a2, a3⟩
  refine (updateKappa_runs pr.nrm h.inv.L hlt h.inv.kLsz (entry := 0) (j := c.step + c.defers) (by rw [if_neg (by simp)]) (le_refl _) (by omega)).mono ?_
  rintro b ⟨b1, b2, b3⟩
  rw [runs_pure]
  refine ⟨⟨h.inv.same (d := c.d) (ut := c.ut) (l := c.l) (a := c.nDiag) (b := c.nCond) h.inv.dsz (fun _ _ => rfl) a1 (fun i hi => a2 i (by omega)) b1
    (fun i hi => b2 i (by omega)), h.l, h.ut⟩, ⟨?_, ?_⟩, a, b, rfl, fun i hi => a2 i (by omega), fun i hi => b2 i (by omega)⟩
  · refine a3.trans ?_
    show _ = if c.step = 0 then 1 else kappaPick pr.nrm (∑ i ∈ range c.step, a.get i * g.Us i (g.ocol (c.step + c.defers)))
    split
    · rfl
    · refine congrArg _ (sum_congr rfl fun i hi => ?_)
      have hi := mem_range.1 hi
      have h4 := h.inv.entU i hi _ o1
      rw [o2] at h4
      rw [a2 i (by omega), h4]
  · refine b3.trans ?_
    show _ = if c.step = 0 then 1 else kappaPick pr.nrm (∑ i ∈ range c.step, b.get i * g.Ls i (g.orow (c.step + c.defers)))
    split
    · rfl
    · refine congrArg _ (sum_congr rfl fun i hi => ?_)
      have hi := mem_range.1 hi
      have h4 := h.inv.entL i hi _ q1
      rw [q2] at h4
      rw [b2 i (by omega), h4]

theorem bigKappa_runs : Runs (bigKappa pr c) fun r => r = false ↔ pr.nrm (c.kU.get c.step) ≤ pr.kappa ∧ pr.nrm (c.kL.get c.step) ≤ pr.kappa := by
  unfold bigKappa
  simp only [runs_bind, runs_rd, runs_pure]
  refine ⟨by rw [h.inv.kUsz]; omega, by rw [h.inv.kLsz]; omega, ?_⟩
  simp

end cur

theorem PInv.counters {c : St K} {g : Gh K} (h : PInv pr I ΦU ΦL c g) (a b : Nat) : PInv pr I ΦU ΦL { c with nDiag := a, nCond := b } g :=
  h.same (d := c.d) (kU := c.kU) (kL := c.kL) (ut := c.ut) (l := c.l) h.dsz (fun _ _ => rfl) h.kUsz (fun _ _ => rfl) h.kLsz (fun _ _ => rfl)

theorem Cur.counters {c : St K} {g : Gh K} (h : Cur pr I ΦU ΦL c g) (a b : Nat) : Cur pr I ΦU ΦL { c with nDiag := a, nCond := b } g :=
  ⟨h.inv.counters a b, h.l, h.ut⟩

theorem Fine.congr {c c' : St K} {g : Gh K} (h : Fine pr I c g) (h1 : c'.step = c.step) (h2 : c'.defers = c.defers) (hU : ∀ i, i < c.step → c'.kU.get i = c.kU.get i)
    (hL : ∀ i, i < c.step → c'.kL.get i = c.kL.get i) (hd : ∀ i, i < c.step → c'.d.get i = c.d.get i) (hdk : DkOK I c g) (hdk' : DkOK I c' g) (hn : c'.nU = c.nU) : Fine pr I c' g := by
  rcases h with h | h
  · exact Or.inl fun hR => ⟨(h hR).1.congr h1 h2 hL hd hdk hdk', (h hR).2.congr h1 h2 hU hd hdk hdk'⟩
  · exact Or.inr (by rw [h2, hn]; exact h)

/-- First test of a step. -/
theorem firstTest_runs (hI : InOK I) {c : St K} {g : Gh K} (h : Cur pr I ΦU ΦL c g) (hd : DkOK I c g) (hlt : c.step + c.defers < I.m2) (hc : c.nDiag + c.nCond = c.defers)
    (hfi : Fine pr I c g) :
    Runs (firstTest pr c) fun r => Cur pr I ΦU ΦL r.2 g ∧ r.2.step = c.step ∧ r.2.defers = c.defers ∧
      r.2.nDiag + r.2.nCond = r.2.defers + (if r.1 then 1 else 0) ∧ (r.1 = false → Accepted pr I r.2 g) := by
  unfold firstTest
  simp only [runs_bind, runs_rd]
  refine ⟨by rw [h.inv.dsz]; omega, ?_⟩
  have h' := h.counters (if badDiag pr.toPar (c.d.get (c.step + c.defers)) then c.nDiag + 1 else c.nDiag) c.nCond
  refine (kappas_runs hI h' hlt).mono ?_
  rintro r ⟨r1, r2, a, b, rfl, hka, hkb⟩
  by_cases hb : badDiag pr.toPar (c.d.get (c.step + c.defers)) = true
  · simp only [hb, if_true, runs_pure] at r1 r2 ⊢
    exact ⟨r1, trivial, trivial, by omega, fun hc => by simp at hc⟩
  · rw [Bool.not_eq_true] at hb
    simp only [hb, Bool.false_eq_true, if_false, runs_bind] at r1 r2 ⊢
    refine (bigKappa_runs hI r1 hlt).mono ?_
    intro bb hbb
    simp only [runs_pure]
    refine ⟨r1.counters _ _, trivial, trivial, ?_, fun hc => ⟨hb, hd.congr rfl rfl rfl, r2, (hbb.1 hc).1, (hbb.1 hc).2, hfi.congr rfl rfl hka hkb (fun _ _ => rfl) hd (hd.congr rfl rfl rfl) rfl⟩⟩
    cases bb <;> simp <;> omega

/-- Test after a deferral. -/
theorem retest_runs (hI : InOK I) {c : St K} {g : Gh K} (h : Cur pr I ΦU ΦL c g) (hlt : c.step + c.defers < I.m2) (hc : c.nDiag + c.nCond = c.defers)
    (hfi : 4 * (g.S.card + 1) ≤ 4 * c.defers + c.nU) :
    Runs (retest pr I c) fun r => Cur pr I ΦU ΦL r.2 g ∧ r.2.step = c.step ∧ r.2.defers = c.defers ∧
      r.2.nDiag + r.2.nCond = r.2.defers + (if r.1 then 1 else 0) ∧ (r.1 = false → Accepted pr I r.2 g) ∧ r.2.nU = c.nU := by
  unfold retest
  simp only [runs_bind]
  refine (kappas_runs hI h hlt).mono ?_
  rintro r ⟨r1, r2, a, b, rfl, hka, hkb⟩
  refine (bigKappa_runs hI r1 hlt).mono ?_
  intro bb hbb
  cases bb with
  | true =>
    simp only [if_true, runs_pure]
    exact ⟨r1.counters _ _, trivial, trivial, by omega, fun hc => by simp at hc, by tt⟩
  | false =>
    simp only [Bool.false_eq_true, if_false, runs_bind]
    refine (setDk_runs hI r1.inv hlt).mono ?_
    rintro _ ⟨d, rfl, d1, d2, d3⟩
    simp only [runs_rd]
    refine ⟨by rw [d1]; exact hlt, ?_⟩
    have h2 : PInv pr I ΦU ΦL { c with kU := a, kL := b, d := d } g :=
      r1.inv.same (kU := a) (kL := b) (ut := c.ut) (l := c.l) (a := c.nDiag) (b := c.nCond) d1 d2 r1.inv.kUsz (fun _ _ => rfl) r1.inv.kLsz (fun _ _ => rfl)
    have h3 : Cur pr I ΦU ΦL { c with kU := a, kL := b, d := d } g := ⟨h2, h.l, h.ut⟩
    by_cases hb : badDiag pr.toPar (d.get (c.step + c.defers)) = true
    · simp only [hb, if_true, runs_pure]
      exact ⟨h3.counters _ _, trivial, trivial, by omega, fun hc => by simp at hc, by tt⟩
    · rw [Bool.not_eq_true] at hb
      simp only [hb, Bool.false_eq_true, if_false, runs_pure]
      exact ⟨h3, trivial, trivial, by omega, fun _ => ⟨hb, d3, r2, (hbb.1 rfl).1, (hbb.1 rfl).2, Or.inr hfi⟩, by tt⟩

theorem swap_defer {n m2 k δ j : Nat} (hm : m2 ≤ n) (hk : k ≤ m2) (h1 : Live n k δ j) (h2 : Equiv.swap (k + δ) (n + δ) j < m2) : j < m2 := by
  by_cases e1 : j = k + δ
  · rw [e1, Equiv.swap_apply_left] at h2; omega
  · by_cases e2 : j = n + δ
    · rcases h1 with h | h <;> omega
    · rwa [Equiv.swap_apply_of_ne_of_ne e1 e2] at h2

/-- Deferral of the current row and column. -/
theorem deferOne_runs (hI : InOK I) {c : St K} {g : Gh K} (h : Cur pr I ΦU ΦL c g) (hlt : c.step + c.defers < I.m2) :
    Runs (deferOne I.n c) fun r => (∃ g', Cur pr I ΦU ΦL r g' ∧ 4 * (g'.S.card + 1) ≤ 4 * r.defers + r.nU) ∧ r.step = c.step ∧ r.defers = c.defers + 1 ∧ r.nDiag = c.nDiag ∧ r.nCond = c.nCond := by
  have hmle := hI.mle
  have hlive := live_ds hI h.inv hlt
  obtain ⟨o1, o2⟩ := h.inv.cpos.from_pos _ hlive
  obtain ⟨q1, q2⟩ := h.inv.rpos.from_pos _ hlive
  have hpp := h.inv.perm.pend _ (le_refl _) (show c.step + c.defers < I.n by omega)
  have hqq := h.inv.qerm.pend _ (le_refl _) (show c.step + c.defers < I.n by omega)
  have hpl := (hI.pinv.1 _ q1).1
  have hql := (hI.qinv.1 _ o1).1
  unfold deferOne
  simp only [runs_bind]
  refine (sideDefer_runs h.inv.U hlt).mono ?_
  rintro U' ⟨u1, u2⟩
  refine (sideDefer_runs h.inv.L hlt).mono ?_
  rintro L' ⟨l1, l2⟩
  simp only [runs_rd, runs_wr, runs_pure, Buf.set_size, hpp, hqq]
  rw [h.inv.perm.psz, h.inv.qerm.psz, h.inv.perm.Psz, h.inv.qerm.Psz, h.inv.perm.isz, h.inv.qerm.isz]
  refine ⟨by omega, by omega, by omega, by omega, hpl, hql, by omega, by omega, ⟨g.swap (c.step + c.defers) (I.n + c.defers) (c.step + c.defers) (I.n + c.defers), ⟨?_, h.l, h.ut⟩,
    by have := h.inv.slack; show 4 * (g.S.card + 1) ≤ 4 * (c.defers + 1) + c.nU; omega⟩, by tt, by tt, by tt, by tt⟩
  · refine h.inv.move (by omega) (by omega) (by omega) (by omega) rfl (by show c.step + (c.defers + 1) ≤ I.m2; omega)
      (by show c.m - 1 = I.m2 - (c.defers + 1); rw [h.inv.m]; omega) (live_defer (k := c.step) (by omega)) (live_defer (k := c.step) (by omega))
      (h.inv.perm.defer h.inv.rpos hlt hmle hI.perm_p) (h.inv.qerm.defer h.inv.cpos hlt hmle hI.perm_q) u1 u2 l1 l2 h.inv.dsz (fun _ _ => rfl) rfl rfl
      (fun j h1 h2 => swap_defer (by omega) (by omega) h1 h2) (fun j h1 h2 => swap_defer (by omega) (by omega) h1 h2) (by simp only; omega) (fun _ => ⟨rfl, rfl⟩)

/-- The deferral loop. -/
theorem deferLoop_runs (hI : InOK I) (f : Nat) : ∀ {c : St K} {g : Gh K}, Cur pr I ΦU ΦL c g → c.step + c.defers < I.m2 →
    c.nDiag + c.nCond = c.defers + 1 → I.m2 - c.defers - c.step ≤ f →
    Runs (deferLoop pr I f c) fun r => (∃ g', Cur pr I ΦU ΦL r g' ∧ (r.step + r.defers < I.m2 → Accepted pr I r g')) ∧ r.step = c.step ∧
      r.nDiag + r.nCond = r.defers := by
  induction f with
  | zero => intro c g h hlt hc hf; omega
  | succ f ih =>
    intro c g h hlt hc hf
    rw [deferLoop, if_pos (by rw [h.inv.m]; omega), runs_bind]
    refine (deferOne_runs hI h hlt).mono ?_
    rintro r ⟨⟨g1, r1, r6⟩, r2, r3, r4, r5⟩
    simp only [runs_ite, runs_pure, runs_bind]
    by_cases hend : I.m2 ≤ r.step + r.defers
    · rw [if_pos hend]
      refine ⟨⟨g1, ⟨{ r1.inv with m := ?_ }, r1.l, r1.ut⟩, fun hc => ?_⟩, r2, by omega⟩
      · show r.step = I.m2 - r.defers
        have := r1.inv.le; omega
      · omega
    · rw [if_neg hend]
      refine (retest_runs hI r1 (by omega) (by omega) r6).mono ?_
      rintro ⟨b, r'⟩ ⟨q1, q2, q3, q4, q5, -⟩
      simp only at q1 q2 q3 q4 q5 ⊢
      cases b with
      | true =>
        simp only [if_true] at q4 ⊢
        refine (ih q1 (by omega) q4 (by omega)).mono ?_
        rintro r'' ⟨w1, w2, w3⟩
        exact ⟨w1, by omega, w3⟩
      | false =>
        simp only [Bool.false_eq_true, if_false, add_zero, runs_pure] at q4 ⊢
        exact ⟨⟨_, q1, fun _ => q5 rfl⟩, by omega, q4⟩

/-- Pivoting, tests and deferrals of a step. -/
theorem pivotPhase_runs (hs : SrtOK pr) (hI : InOK I) {c : St K} {g : Gh K} (h : PInv pr I ΦU ΦL c g) (hlt : c.step + c.defers < I.m2)
    (hl : SV.Ready (2 * I.n) c.step c.l ∧ c.l.vals.size = 2 * I.n) (hu : SV.Ready (2 * I.n) c.step c.ut ∧ c.ut.vals.size = 2 * I.n)
    (hc : c.nDiag + c.nCond = c.defers) :
    Runs (pivotPhase pr I c) fun r => (∃ g', Cur pr I ΦU ΦL r g' ∧ (r.step + r.defers < I.m2 → Accepted pr I r g')) ∧ r.step = c.step ∧
      r.nDiag + r.nCond = r.defers := by
  unfold pivotPhase
  rw [runs_bind]
  refine (thresPivot_runs hs hI 4 (again := false) h hlt ⟨hl.2, hl.1⟩ ⟨hu.2, hu.1⟩ (fun _ => by omega) (fun hc => by simp at hc) (by have := h.slack; omega)).mono ?_
  rintro r0 ⟨g0, p1, p2, p3⟩
  have hcur : Cur pr I ΦU ΦL r0 g0 := ⟨p1.inv, ⟨p1.l.busy, p1.l.vsz⟩, ⟨p1.ut.busy, p1.ut.vsz⟩⟩
  have hlt0 : r0.step + r0.defers < I.m2 := by rw [p2.step, p2.defers]; exact hlt
  rw [runs_bind]
  refine (firstTest_runs hI hcur p1.dk hlt0 (by rw [p2.nDiag, p2.nCond, p2.defers]; exact hc) p3).mono ?_
  rintro ⟨b, r⟩ ⟨q1, q2, q3, q4, q5⟩
  have hst := p2.step
  simp only at q1 q2 q3 q4 q5 ⊢
  cases b with
  | true =>
    simp only [if_true] at q4 ⊢
    refine (deferLoop_runs hI r.m q1 (by omega) q4 (by have := q1.inv.m; omega)).mono ?_
    rintro r'' ⟨w1, w2, w3⟩
    exact ⟨w1, by omega, w3⟩
  | false =>
    simp only [Bool.false_eq_true, if_false, add_zero, runs_pure] at q4 ⊢
    exact ⟨⟨_, q1, fun _ => q5 rfl⟩, by omega, q4⟩

end Hif.PCrout
