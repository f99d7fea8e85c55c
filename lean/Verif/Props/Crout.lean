import Verif.FacPars
import Verif.Examples
import Mathlib.Algebra.Order.Ring.Rat
import Mathlib.Data.Rat.Floor

set_option linter.unusedVariables false
set_option linter.unusedSectionVars false

/-!
# C24, C25, C54, C56, C57: the Crout phase of a level

Vocabulary.  `croutPhase pr I` is the incomplete factorization of one level, `I` its input (scalings `s`, `t`, the matrix by
rows and by columns, preprocessing permutations `p0`, `q0`, leading block size `m2`); `InOK I` says that the two stored copies
are well formed, sorted, describe the same matrix, and that the permutations come with their inverses.  `Runs m Q`: `m`
completes, without undefined behaviour or exception, with a result satisfying `Q`.
-/

namespace Hif.Crout
open Finset
variable {K : Type} [Field K] [DecidableEq K] [Inhabited K] {R : Type _}

section general
variable [LinearOrder R] (pr : Par K R) (I : In K) (ΦU ΦL : Nat → Nat → Prop)

/-- **C25.** For every magnitude function, every pair of thresholds and every dropping routine (hence every pattern of
deferrals): the phase completes; the row and column orderings are permutations with their inverses; the kept pivots are the
steps `kept 0 < kept 1 < …`, followed by the rows excluded by preprocessing in their old order, followed by the deferred steps
`dfr 0 < dfr 1 < …` in order of deferral; rows and columns are rearranged alike; every step is kept or deferred, and every
deferral is counted once. -/
theorem C25_deferral_permutations (hI : InOK I) (hU : DropOK I.n ΦU pr.dropU) (hL : DropOK I.n ΦL pr.dropL) :
    Runs (croutPhase pr I) fun r =>
      r.m + r.defers = I.m2 ∧ r.nDiag + r.nCond = r.defers ∧
      Spec.Inverse I.n r.p.p.get r.p.inv.get ∧ Spec.Inverse I.n r.q.p.get r.q.inv.get ∧
      ∃ kept dfr : Nat → Nat,
        (∀ a b, a < b → b < r.m → kept a < kept b) ∧ (∀ a b, a < b → b < r.defers → dfr a < dfr b) ∧
        (∀ a, a < r.m → kept a < I.m2) ∧ (∀ a, a < r.defers → dfr a < I.m2) ∧
        (∀ x, x < I.m2 → (∃ a, a < r.m ∧ kept a = x) ∨ ∃ a, a < r.defers ∧ dfr a = x) ∧
        (∀ a, a < r.m → r.p.p.get a = I.p0.get (kept a) ∧ r.q.p.get a = I.q0.get (kept a)) ∧
        (∀ x, I.m2 ≤ x → x < I.n → r.p.p.get (x - r.defers) = I.p0.get x ∧ r.q.p.get (x - r.defers) = I.q0.get x) ∧
        (∀ a, a < r.defers → r.p.p.get (I.n - r.defers + a) = I.p0.get (dfr a) ∧ r.q.p.get (I.n - r.defers + a) = I.q0.get (dfr a)) := by
  refine (croutPhase_runs hI hU hL).mono ?_
  rintro r ⟨g, h⟩
  have hmle := hI.mle
  have htot := h.tot
  have hdf : ∀ a, ∃ x, a < r.defers → x < r.m + r.defers ∧ g.v x = I.n + a := by
    intro a
    by_cases ha : a < r.defers
    · obtain ⟨x, hx⟩ := h.pos.surj (I.n + a) (by omega) (by omega)
      exact ⟨x, fun _ => hx⟩
    · exact ⟨0, fun hc => absurd hc ha⟩
  choose dfr hdfr using hdf
  refine ⟨htot, h.cnt, h.pinv.2, h.qinv.2, g.o, dfr, h.pos.omono, fun a b hab hb => ?_, fun a ha => ?_, fun a ha => ?_,
    fun x hx => ?_, fun a ha => ?_, fun x h1 h2 => ?_, fun a ha => ?_⟩
  · obtain ⟨a1, a2⟩ := hdfr a (by omega)
    obtain ⟨b1, b2⟩ := hdfr b hb
    rcases Nat.lt_trichotomy (dfr a) (dfr b) with c | c | c
    · exact c
    · rw [c, b2] at a2; omega
    · have := h.pos.dmono _ _ c a1 (by omega) (by omega); omega
  · have := (h.pos.orig a ha).1; omega
  · have := (hdfr a ha).1; omega
  · rcases h.pos.past x (by omega) with c | c
    · exact Or.inl ⟨g.v x, c⟩
    · refine Or.inr ⟨g.v x - I.n, by omega, ?_⟩
      obtain ⟨d1, d2⟩ := hdfr (g.v x - I.n) (by omega)
      exact h.pos.inj _ _ (by omega) (by omega) (by omega)
  · obtain ⟨o1, o2⟩ := h.pos.orig a ha
    have e1 := h.p (g.o a) (by omega)
    have e2 := h.q (g.o a) (by omega)
    unfold place at e1 e2
    rw [o2, if_pos ha] at e1 e2
    exact ⟨e1, e2⟩
  · have hv := h.pos.pend x (by omega)
    have e1 := h.p x h2
    have e2 := h.q x h2
    unfold place at e1 e2
    rw [hv, if_neg (by omega)] at e1 e2
    exact ⟨e1, e2⟩
  · obtain ⟨d1, d2⟩ := hdfr a ha
    have e1 := h.p (dfr a) (by omega)
    have e2 := h.q (dfr a) (by omega)
    unfold place at e1 e2
    rw [d2, if_neg (by omega), show I.n + a - r.defers = I.n - r.defers + a by omega] at e1 e2
    exact ⟨e1, e2⟩

/-- **C24 (form of the factors).** Whatever is dropped or deferred, the factors are stored as valid compressed matrices with
sorted lines, strictly triangular, `m` pivots; the split positions separate the leading block from the rest; every pivot is
nonzero and passes the diagonal test. -/
theorem C24_factor_form (hI : InOK I) (hU : DropOK I.n ΦU pr.dropU) (hL : DropOK I.n ΦL pr.dropL) :
    Runs (croutPhase pr I) fun r =>
      (∀ T ∈ [r.U, r.L], T.WF ∧ T.Tight ∧ T.Sorted ∧ T.psize = r.m ∧ T.ssize = I.n ∧ ∀ i, i < r.m → ∀ e ∈ T.line i, i < e.1) ∧
      (∀ i, i < r.m → r.U.start.get i ≤ r.Ustart.get i ∧ r.Ustart.get i ≤ r.U.start.get (i + 1) ∧
        (∀ k, r.U.start.get i ≤ k → k < r.Ustart.get i → r.U.inds.get k < r.m) ∧
        (∀ k, r.Ustart.get i ≤ k → k < r.U.start.get (i + 1) → r.m ≤ r.U.inds.get k)) ∧
      (∀ i, i < r.m → r.L.start.get i ≤ r.Lstart.get i ∧ r.Lstart.get i ≤ r.L.start.get (i + 1) ∧
        (∀ k, r.L.start.get i ≤ k → k < r.Lstart.get i → r.L.inds.get k < r.m) ∧
        (∀ k, r.Lstart.get i ≤ k → k < r.L.start.get (i + 1) → r.m ≤ r.L.inds.get k)) ∧
      (∀ i, i < r.m → ΦU (r.p.p.get i) (r.U.line i).length ∧ ΦL (r.q.p.get i) (r.L.line i).length) ∧
      (r.d.size = I.m2 ∧ ∀ i, i < r.m → r.d.get i ≠ 0 ∧ pr.nrm (1 / r.d.get i) ≤ pr.kappaD) := by
  refine (croutPhase_runs hI hU hL).mono ?_
  rintro r ⟨g, h⟩
  have hmle := hI.mle
  have htot := h.tot
  refine ⟨?_, fun i hi => h.U.st i hi, fun i hi => h.L.st i hi, fun i hi => ?_, h.dsz, fun i hi => ?_⟩
  · intro T hT
    simp only [List.mem_cons, List.not_mem_nil, or_false] at hT
    rcases hT with rfl | rfl
    · exact ⟨h.U.wf, h.U.tight, h.U.sorted, h.U.psz, h.U.ssz, h.U.upper⟩
    · exact ⟨h.L.wf, h.L.tight, h.L.sorted, h.L.psz, h.L.ssz, h.L.upper⟩
  · obtain ⟨z, z1, z2, z3, z4, z5⟩ := h.back hI
    rw [(z3 i (by omega)).1, (z3 i (by omega)).2, z2 i hi]
    exact ⟨h.U.cnt i hi, h.L.cnt i hi⟩
  · have := h.num.good i hi
    unfold badDiag at this
    simp only [Bool.or_eq_false_iff, decide_eq_false_iff_not, not_lt] at this
    exact this.1

/-- **C24 (recurrence with dropping).** For every dropping routine, the factors satisfy the incomplete-factorization
recurrence: there are rows `Ut` and columns `Lt` (the lines before dropping) such that each is the exact residual of the
entries stored so far, scaled by the pivot, each stored entry equals the computed one or is absent, and the pivots are the exact
diagonal residuals with the lines before dropping. -/
theorem C24_recurrence (hI : InOK I) (hU : DropOK I.n ΦU pr.dropU) (hL : DropOK I.n ΦL pr.dropL) :
    Runs (croutPhase pr I) fun r => ∃ Ut Lt : Nat → Nat → K,
      (∀ a, a < r.m → ∀ j, j < I.n → a < j →
        r.d.get a * Ut a j = Out.target I r a j - ∑ b ∈ range a, r.Lbar a b * r.d.get b * r.Ubar b j) ∧
      (∀ a, a < r.m → ∀ i, i < I.n → a < i →
        Lt i a * r.d.get a = Out.target I r i a - ∑ b ∈ range a, r.Lbar i b * r.d.get b * r.Ubar b a) ∧
      (∀ a, a < r.m → r.d.get a = Out.target I r a a - ∑ b ∈ range a, Lt a b * r.d.get b * Ut b a) ∧
      (∀ a, a < r.m → ∀ j, j < I.n → a < j →
        (r.Ubar a j = Ut a j ∨ r.Ubar a j = 0) ∧ (r.Lbar j a = Lt j a ∨ r.Lbar j a = 0)) := by
  refine (croutPhase_runs hI hU hL).mono ?_
  rintro r ⟨g, h⟩
  obtain ⟨Ut, Lt, h1, h2, h3, h4, -⟩ := h.recs hI
  exact ⟨Ut, Lt, h1, h2, h3, h4⟩

/-- **C24 (exactness).** If the dropping routines drop nothing then, whatever is deferred, `L D U` equals the scaled input
matrix in the final ordering in every row and every column of the leading block: `(L D U)_{ij} = s_{p(i)} A_{p(i),q(j)} t_{q(j)}`
for `min(i,j) < m`. -/
theorem C24_exact_without_dropping (hI : InOK I) (hU : DropOK I.n ΦU pr.dropU) (hL : DropOK I.n ΦL pr.dropL)
    (kU : KeepsAll I.n pr.dropU) (kL : KeepsAll I.n pr.dropL) :
    Runs (croutPhase pr I) fun r => ∀ i j, i < I.n → j < I.n → min i j < r.m →
      ∑ b ∈ range r.m, r.Lbar i b * r.d.get b * r.Ubar b j =
        I.s.get (r.p.p.get i) * I.Acrs.entry (r.p.p.get i) (r.q.p.get j) * I.t.get (r.q.p.get j) := by
  refine (croutPhase_runs hI hU hL).mono ?_
  rintro r ⟨g, h⟩ i j hi hj hm
  exact h.exact hI kU kL hi hj hm

end general

section real
variable [Field R] [LinearOrder R] [IsStrictOrderedRing R]

/-- **C54.** The estimates of both factors: at the end of the phase, `kU` solves `κᵀ U = e` and `kL` solves `L κ = e` on the
leading block for right-hand sides of entries `±1`; hence each `|κ_h|` is at least one, at most `kappa`, and at most the
corresponding column (row) sum of magnitudes of any inverse `X` of the unit triangular factor. -/
theorem C54_estimates (pr : Par K R) (I : In K) (ΦU ΦL : Nat → Nat → Prop) (hI : InOK I) (hU : DropOK I.n ΦU pr.dropU)
    (hL : DropOK I.n ΦL pr.dropL) (hn : IsAbs pr.nrm) :
    Runs (croutPhase pr I) fun r =>
      (∃ e : Nat → K, (∀ h, h < r.m → e h = 1 ∨ e h = -1) ∧ (∀ h, h < r.m → ∑ i ∈ range r.m, r.kU.get i * r.Ubar i h = e h)) ∧
      (∃ e : Nat → K, (∀ h, h < r.m → e h = 1 ∨ e h = -1) ∧ (∀ h, h < r.m → ∑ i ∈ range r.m, r.Lbar h i * r.kL.get i = e h)) ∧
      (∀ h, h < r.m → 1 ≤ pr.nrm (r.kU.get h) ∧ pr.nrm (r.kU.get h) ≤ pr.kappa ∧
        1 ≤ pr.nrm (r.kL.get h) ∧ pr.nrm (r.kL.get h) ≤ pr.kappa) ∧
      (∀ X : Nat → Nat → K, (∀ i h, i < r.m → h < r.m → ∑ g ∈ range r.m, r.Ubar i g * X g h = if i = h then 1 else 0) →
        ∀ h, h < r.m → pr.nrm (r.kU.get h) ≤ ∑ i ∈ range r.m, pr.nrm (X i h)) ∧
      (∀ X : Nat → Nat → K, (∀ i h, i < r.m → h < r.m → ∑ g ∈ range r.m, X i g * r.Lbar g h = if i = h then 1 else 0) →
        ∀ h, h < r.m → pr.nrm (r.kL.get h) ≤ ∑ i ∈ range r.m, pr.nrm (X h i)) := by
  refine (croutPhase_runs hI hU hL).mono ?_
  rintro r ⟨g, hF⟩
  have hmle := hI.mle
  have htot := hF.tot
  obtain ⟨z, z1, z2, z3, z4, z5⟩ := hF.back hI
  obtain ⟨eU, a1, a2, a3, a4⟩ := estimate (m := r.m) (kap := r.kU) (W := r.Ubar) hn
    (fun h hh => by
      rw [(hF.kapU h hh).1]
      split
      · rfl
      · refine congrArg _ (sum_congr rfl fun i hi => ?_)
        have hi := mem_range.1 hi
        unfold Out.Ubar
        rw [if_neg (by omega), (z5 i (by omega) h (by omega)).1, z2 h hh])
    (fun h _ => if_pos rfl)
    (fun i h h1 h2 => by unfold Out.Ubar; rw [if_neg (by omega)]; exact hF.U.zero h2 (by omega))
  obtain ⟨eL, b1, b2, b3, b4⟩ := estimate (m := r.m) (kap := r.kL) (W := fun i h => r.Lbar h i) hn
    (fun h hh => by
      rw [(hF.kapL h hh).1]
      split
      · rfl
      · refine congrArg _ (sum_congr rfl fun i hi => ?_)
        have hi := mem_range.1 hi
        unfold Out.Lbar
        rw [if_neg (by omega), (z5 i (by omega) h (by omega)).2, z2 h hh])
    (fun h _ => if_pos rfl)
    (fun i h h1 h2 => by unfold Out.Lbar; rw [if_neg (by omega)]; exact hF.L.zero h2 (by omega))
  refine ⟨⟨eU, a1, a2⟩, ⟨eL, b1, fun h hh => ?_⟩, fun h hh => ⟨a3 h hh, (hF.kapU h hh).2, b3 h hh, (hF.kapL h hh).2⟩, a4,
    fun X hX h hh => ?_⟩
  · rw [← b2 h hh]; exact sum_congr rfl fun i _ => by ring
  · refine b4 (fun i h => X h i) (fun i h hi hh => ?_) h hh
    rw [show (∑ g ∈ range r.m, r.Lbar g i * X h g) = ∑ g ∈ range r.m, X h g * r.Lbar g i from sum_congr rfl fun i _ => by ring,
      hX h i hh hi]
    by_cases e : h = i
    · rw [if_pos e, if_pos e.symm]
    · rw [if_neg e, if_neg (Ne.symm e)]

variable [FloorSemiring R]

/-- **C24 for the code's own dropping.** With `tau ≤ 0` and `alpha ≤ 0` for both factors (no dropping requested), the level's
Crout phase completes and is exact. -/
theorem C24_exact_level (nrm : K → R) (hn : ∀ x, 0 ≤ nrm x) (safeMin : R) (nth : (Nat → R) → Nat → List Nat → List Nat)
    (hnth : SV.NthSpec nth) (refuse : K → Bool) (kappaD kappa tauL tauU alphaL alphaU : R) (rowSizes colSizes : Buf Nat) (I : In K) (hI : InOK I)
    (hr : I.n ≤ rowSizes.size) (hc : I.n ≤ colSizes.size) (hk : 0 ≤ kappaD) (ht : tauL ≤ 0 ∧ tauU ≤ 0) (ha : alphaL ≤ 0 ∧ alphaU ≤ 0) :
    Runs (croutPhase (⟨nrm, kappaD, kappa, safeMin, realDrop nrm nth tauU kappaD alphaU rowSizes,
        realDrop nrm nth tauL kappaD alphaL colSizes, refuse⟩ : Par K R) I) fun r =>
      ∀ i j, i < I.n → j < I.n → min i j < r.m →
        ∑ b ∈ range r.m, r.Lbar i b * r.d.get b * r.Ubar b j =
          I.s.get (r.p.p.get i) * I.Acrs.entry (r.p.p.get i) (r.q.p.get j) * I.t.get (r.q.p.get j) :=
  C24_exact_without_dropping _ I _ _ hI (realDrop_ok I.n nrm nth hnth tauU kappaD alphaU rowSizes hr)
    (realDrop_ok I.n nrm nth hnth tauL kappaD alphaL colSizes hc)
    (realDrop_keeps I.n nrm hn nth hnth tauU kappaD alphaU rowSizes hr ha.2 ht.2 hk)
    (realDrop_keeps I.n nrm hn nth hnth tauL kappaD alphaL colSizes hc ha.1 ht.1 hk)

/-- **C57.** With threshold dropping only (no space limit), the residual of the factorization off the diagonal of the leading
rows and columns is bounded: `|(L D U − S A T)_{aj}| ≤ |d_a| · tau / (|κ_a| kappa_d)`, and exactly zero when `tau ≤ 0`. -/
theorem C57_dropping_error (nrm : K → R) (hn : IsAbs nrm) (safeMin : R) (nth : (Nat → R) → Nat → List Nat → List Nat)
    (hnth : SV.NthSpec nth) (refuse : K → Bool) (kappaD kappa tauL tauU alphaL alphaU : R) (rowSizes colSizes : Buf Nat) (I : In K) (hI : InOK I)
    (hr : I.n ≤ rowSizes.size) (hc : I.n ≤ colSizes.size) (hk : 0 ≤ kappaD) (ha : alphaL ≤ 0 ∧ alphaU ≤ 0) :
    Runs (croutPhase (⟨nrm, kappaD, kappa, safeMin, realDrop nrm nth tauU kappaD alphaU rowSizes,
        realDrop nrm nth tauL kappaD alphaL colSizes, refuse⟩ : Par K R) I) fun r =>
      ∀ a j, a < r.m → j < I.n → a < j →
        nrm ((∑ b ∈ range r.m, r.Lbar a b * r.d.get b * r.Ubar b j) - Out.target I r a j)
          ≤ nrm (r.d.get a) * max 0 (tauU / (nrm (r.kU.get a) * kappaD)) ∧
        nrm ((∑ b ∈ range r.m, r.Lbar j b * r.d.get b * r.Ubar b a) - Out.target I r j a)
          ≤ nrm (r.d.get a) * max 0 (tauL / (nrm (r.kL.get a) * kappaD)) := by
  refine (croutPhase_runs hI (realDrop_ok I.n nrm nth hnth tauU kappaD alphaU rowSizes hr)
    (realDrop_ok I.n nrm nth hnth tauL kappaD alphaL colSizes hc)).mono ?_
  rintro r ⟨g, h⟩ a j ham hj haj
  have hmle := hI.mle
  have htot := h.tot
  obtain ⟨Ut, Lt, e1, e2, -, -, -, -, e7, e8⟩ := h.recs hI
  have hU := e7 _ (realDrop_rule I.n nrm nth hnth tauU kappaD alphaU rowSizes hr ha.2) a ham j hj haj
  have hL := e8 _ (realDrop_rule I.n nrm nth hnth tauL kappaD alphaL colSizes hc ha.1) a ham j hj haj
  have hL1 : r.Lbar a a = 1 := if_pos rfl
  have hU1 : r.Ubar a a = 1 := if_pos rfl
  have hnn : ∀ t : R, 0 ≤ nrm (r.d.get a) * max 0 t := fun t => mul_nonneg (hn.nonneg _) (le_max_left _ _)
  constructor
  · rw [h.prod hI ham (show a = min a j by omega) (by omega) hj, hL1, one_mul]
    have e : (∑ b ∈ range a, r.Lbar a b * r.d.get b * r.Ubar b j) + r.d.get a * r.Ubar a j - Out.target I r a j =
        r.d.get a * (r.Ubar a j - Ut a j) := by rw [mul_sub, e1 a ham j hj haj]; ring
    rw [e, hn.mul]
    rcases hU with c | ⟨c1, c2, c3⟩
    · rw [c, sub_self, hn.zero, mul_zero]; exact hnn _
    · rw [c1, zero_sub, hn.neg]
      exact mul_le_mul_of_nonneg_left (le_trans c3 (le_max_right _ _)) (hn.nonneg _)
  · rw [h.prod hI ham (show a = min j a by omega) hj (by omega), hU1, mul_one]
    have e : (∑ b ∈ range a, r.Lbar j b * r.d.get b * r.Ubar b a) + r.Lbar j a * r.d.get a - Out.target I r j a =
        r.d.get a * (r.Lbar j a - Lt j a) := by rw [mul_sub, mul_comm _ (Lt j a), e2 a ham j hj haj]; ring
    rw [e, hn.mul]
    rcases hL with c | ⟨c1, c2, c3⟩
    · rw [c, sub_self, hn.zero, mul_zero]; exact hnn _
    · rw [c1, zero_sub, hn.neg]
      exact mul_le_mul_of_nonneg_left (le_trans c3 (le_max_right _ _)) (hn.nonneg _)

/-- **C21 at the level of the factorization.** With `alpha > 0` every row of `U` has at most `max 1 ⌈alpha_U·row_size⌉` entries and
every column of `L` at most `max 1 ⌈alpha_L·col_size⌉`, sizes being those of the corresponding input row and column. -/
theorem C21_factor_lines (nrm : K → R) (safeMin : R) (nth : (Nat → R) → Nat → List Nat → List Nat) (hnth : SV.NthSpec nth)
    (refuse : K → Bool) (kappaD kappa tauL tauU alphaL alphaU : R) (rowSizes colSizes : Buf Nat) (I : In K) (hI : InOK I)
    (hr : I.n ≤ rowSizes.size) (hc : I.n ≤ colSizes.size) (ha : 0 < alphaL ∧ 0 < alphaU) :
    Runs (croutPhase (⟨nrm, kappaD, kappa, safeMin, realDrop nrm nth tauU kappaD alphaU rowSizes,
        realDrop nrm nth tauL kappaD alphaL colSizes, refuse⟩ : Par K R) I) fun r =>
      ∀ i, i < r.m → r.U.start.get (i + 1) - r.U.start.get i ≤ max 1 ⌈alphaU * rowSizes.get (r.p.p.get i)⌉₊ ∧
        r.L.start.get (i + 1) - r.L.start.get i ≤ max 1 ⌈alphaL * colSizes.get (r.q.p.get i)⌉₊ := by
  refine (C24_factor_form _ I _ _ hI (realDrop_ok I.n nrm nth hnth tauU kappaD alphaU rowSizes hr)
    (realDrop_ok I.n nrm nth hnth tauL kappaD alphaL colSizes hc)).mono ?_
  rintro r ⟨-, -, -, h, -⟩ i hi
  obtain ⟨h1, h2⟩ := h i hi
  rw [line_length] at h1 h2
  exact ⟨h1 ha.2, h2 ha.1⟩

/-! ### C56 -/

/-- **C56 (what is true).** At every level, `kappa_d`, `kappa` and the two space limits are the documented functions of the
user's options (the options themselves without refinement; with refinement the square roots from level 2 on, at least 2, and
doubled `alpha` at level 2), each `alpha` applied to its own factor; each drop tolerance is one of the user's two, divided by ten
from level 2 on.  Missing for the full property: `tau_L` for `L` and `tau_U` for `U`, which is false (next theorem) unless the
two are equal. -/
theorem C56_parameters_partial (sqrt : R → R) (o : FacParOpts R) (lvl : Nat) (hl : 1 ≤ lvl) :
    let v := localPars sqrt o lvl
    (o.rfPar = false → v.kappaD = o.kappaD ∧ v.kappa = o.kappa ∧ v.alphaL = o.alphaL ∧ v.alphaU = o.alphaU) ∧
    (o.rfPar = true → lvl = 1 → v.kappaD = max 2 o.kappaD ∧ v.kappa = max 2 o.kappa ∧ v.alphaL = o.alphaL ∧ v.alphaU = o.alphaU) ∧
    (o.rfPar = true → 2 ≤ lvl → v.kappaD = max 2 (sqrt o.kappaD) ∧ v.kappa = max 2 (sqrt o.kappa) ∧
      v.alphaL = (if lvl = 2 then 2 else 1) * o.alphaL ∧ v.alphaU = (if lvl = 2 then 2 else 1) * o.alphaU) ∧
    (o.tauL = o.tauU → v.tauL = (if o.rfPar ∧ 2 ≤ lvl then o.tauL / 10 else o.tauL) ∧
      v.tauU = (if o.rfPar ∧ 2 ≤ lvl then o.tauU / 10 else o.tauU)) := by
  have hp : 2 ≤ lvl → facTau (R := R) lvl = 1 / 10 := by
    intro h
    unfold facTau
    have : (10 : R) ≤ 10 ^ (lvl - 1) := le_self_pow₀ (by norm_num) (by omega)
    rw [min_eq_left this]
  have h1 : lvl = 1 → facTau (R := R) lvl = 1 := by
    intro h; unfold facTau; rw [h]; norm_num
  refine ⟨fun h => ?_, fun h hl1 => ?_, fun h hl2 => ?_, fun ht => ?_⟩
  · simp [localPars, determineFacPars, h]
  · simp [localPars, determineFacPars, h, hl1, facRoot]
  · have hm : min lvl 2 = 2 := by omega
    simp only [localPars, determineFacPars, h, hm, facRoot]
    rcases Nat.lt_or_ge 2 lvl with c | c
    · simp [c, show lvl ≠ 2 by omega]
    · simp [show lvl = 2 by omega, mul_comm]
  · by_cases h : o.rfPar = true
    · rcases Nat.lt_or_ge lvl 2 with c | c
      · have : lvl = 1 := by omega
        have h2 := h1 this
        simp only [localPars, determineFacPars, h, if_true, h2, ht, mul_one, show ¬ (2 ≤ lvl) by omega, and_false, if_false, and_self]
      · have h2 := hp c
        simp only [localPars, determineFacPars, h, if_true, h2, ht, show (2 ≤ lvl) by omega, and_self, if_true]
        ring
    · simp [localPars, determineFacPars, h, ht]

/-- **C56 is false of the code**: the drop tolerances arrive exchanged — columns of `L` are dropped with the user's `tau_U` and
rows of `U` with `tau_L` (the tuple is built as `…, tau_U, tau_L, …` and unpacked as `…, tau_L, tau_U, …`). -/
theorem C56_tolerances_exchanged (sqrt : R → R) (o : FacParOpts R) (lvl : Nat) :
    let v := localPars sqrt o lvl
    (o.rfPar = false → v.tauL = o.tauU ∧ v.tauU = o.tauL) ∧
    (o.rfPar = true → v.tauL = o.tauU / min 10 (10 ^ (lvl - 1)) ∧ v.tauU = o.tauL / min 10 (10 ^ (lvl - 1))) := by
  constructor
  · intro h; simp [localPars, determineFacPars, h]
  · intro h; simp [localPars, determineFacPars, h, facTau, div_eq_mul_inv]

end real

/-! ### A concrete case: `n = 4`, `m2 = 3`, a non-trivial row permutation, one deferral (zero pivot), a static tail -/

theorem sorted_of_bounded {K : Type _} {A : CS K}
    (h : ∀ i, i < A.psize → ∀ l, l < A.start.get (i + 1) → ∀ k, k < l → A.start.get i ≤ k → A.inds.get k < A.inds.get l) : A.Sorted :=
  fun i hi k l hk hl hkl => h i hi l hl.2 k hkl hk.1

/-- `A = [[2,4,1,0],[0,1,0,1],[0,1,3,2],[1,0,2,5]]`, rows 0 and 1 exchanged by preprocessing, row scaling `(1,2,1,1)`. -/
def exIn : In ℚ :=
  { n := 4, m2 := 3, s := Buf.ofList [1, 2, 1, 1], t := Buf.ofList [1, 1, 1, 3],
    Acrs := Ex.mk 4 4 [0, 3, 5, 8, 11] [0, 1, 2, 1, 3, 1, 2, 3, 0, 2, 3] [2, 4, 1, 1, 1, 1, 3, 2, 1, 2, 5],
    Accs := Ex.mk 4 4 [0, 2, 5, 8, 11] [0, 3, 0, 1, 2, 0, 2, 3, 1, 2, 3] [2, 1, 4, 1, 1, 1, 3, 2, 1, 2, 5],
    p0 := Buf.ofList [1, 0, 2, 3], pinv0 := Buf.ofList [1, 0, 2, 3], q0 := Buf.ofList [0, 1, 2, 3], qinv0 := Buf.ofList [0, 1, 2, 3] }

theorem exIn_ok : InOK exIn := by
  constructor
  case rwf | cwf => constructor <;> decide
  case rsorted | csorted => exact sorted_of_bounded (by decide)
  case same =>
    have h : ∀ i, i < exIn.n → ∀ j, j < exIn.n → exIn.Accs.entry j i = exIn.Acrs.entry i j := by decide +kernel
    exact fun i j hi hj => h i hi j hj
  case pinv | qinv => constructor <;> decide
  all_goals first | rfl | decide

/-- Parameters that drop nothing. -/
def exPar : Par ℚ ℚ :=
  ⟨fun x => |x|, 100, 100, 0, realDrop (fun x => |x|) (fun _ _ l => l) 0 100 0 (Buf.ofList [2, 3, 3, 3]),
    realDrop (fun x => |x|) (fun _ _ l => l) 0 100 0 (Buf.ofList [2, 3, 3, 3]), fun _ => false⟩

/-- The first candidate is deferred: orderings `(0,2,3,1)` and `(1,2,3,0)`. -/
example : (croutPhase exPar exIn).toOption.map (fun r => (r.m, r.defers, r.p.p.toList, r.q.p.toList, r.d.toList.take 2)) =
    some (2, 1, [0, 2, 3, 1], [1, 2, 3, 0], [4, 11 / 4]) := by decide +kernel

example : (croutPhase exPar exIn).toOption.map (fun r => (r.U.inds.toList, r.U.vals.toList, r.L.inds.toList, r.L.vals.toList)) =
    some ([1, 3, 2, 3], [1 / 4, 1 / 2, 24 / 11, -2 / 11], [1, 3, 2, 3], [1 / 4, 1 / 2, 8 / 11, -2 / 11]) := by decide +kernel

/-- Dropping that happens: with `tau = 30` for `U` the entry of magnitude `1/4` is dropped. -/
example : (croutPhase { exPar with dropU := realDrop (fun x => |x|) (fun _ _ l => l) 30 100 0 (Buf.ofList [2, 3, 3, 3]) } exIn).toOption.map
    (fun r => (r.m, r.U.inds.toList)) = some (2, [3, 2]) := by decide +kernel

/-- The absolute value of `ℚ` is an absolute value. -/
example : IsAbs (fun x : ℚ => |x|) :=
  ⟨abs_nonneg, abs_add_le, abs_mul, abs_neg, by norm_num, by norm_num, by norm_num⟩

example : localPars (fun x : ℚ => x) ⟨true, 3, 3, 1 / 100, 1 / 1000, 10, 20⟩ 2 = ⟨3, 3, 1 / 10000, 1 / 1000, 20, 40⟩ := by
  simp [localPars, determineFacPars, facRoot, facTau]; norm_num

end Hif.Crout
