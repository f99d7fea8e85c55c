import Verif.CroutRes
import Verif.Props.Crout

set_option linter.unusedVariables false
set_option linter.unusedSectionVars false

/-!
# C65: the Crout phase with thresholded rook pivoting

Vocabulary as in `Props/Crout.lean`: `PCrout.croutPhase pr I` is the incomplete factorization of one level with pivoting; `pr` adds the
threshold `gamma` and the sorting routine to the parameters.  `SrtOK pr`: the sorting routine rearranges its list, in whatever order.
-/

namespace Hif.PCrout
open Finset Crout
variable {K : Type} [Field K] [DecidableEq K] [Inhabited K] {R : Type _}

section general
variable [Mul R] [LinearOrder R] (pr : Par K R) (I : In K) (ΦU ΦL : Nat → Nat → Prop)

/-- **C65 (orderings).** For every magnitude function, threshold, sorting and dropping routine: the phase completes within its bounds; the row and
column orderings are permutations with their inverses; every step is kept or deferred and every deferral is counted once; rows and columns
outside the leading block keep their order and directly follow the kept ones; kept and deferred rows (columns) come from the leading block. -/
theorem C65_pivot_orderings (hs : SrtOK pr) (hI : InOK I) (hU : DropOK I.n ΦU pr.dropU) (hL : DropOK I.n ΦL pr.dropL) :
    Runs (croutPhase pr I) fun r =>
      r.m + r.defers = I.m2 ∧ r.nDiag + r.nCond = r.defers ∧
      Spec.Inverse I.n r.p.p.get r.p.inv.get ∧ Spec.Inverse I.n r.q.p.get r.q.inv.get ∧
      (∀ x, I.m2 ≤ x → x < I.n → r.p.p.get (x - r.defers) = I.p0.get x ∧ r.q.p.get (x - r.defers) = I.q0.get x) ∧
      (∀ a, a < r.m ∨ (I.n - r.defers ≤ a ∧ a < I.n) →
        (∃ x, x < I.m2 ∧ r.p.p.get a = I.p0.get x) ∧ ∃ y, y < I.m2 ∧ r.q.p.get a = I.q0.get y) := by
  refine (croutPhase_runs hs hI hU hL).mono ?_
  rintro r ⟨g, h⟩
  have hmle := hI.mle
  have htot := h.tot
  obtain ⟨zr, r1, r2, r3, r4, r5⟩ := back_one h.rpos (by omega) h.p
  obtain ⟨zc, c1, c2, c3, c4, c5⟩ := back_one h.cpos (by omega) h.q
  have key : ∀ (z w : Nat → Nat), (∀ j, j < I.n → z j < I.n ∧ w (z j) = j) → (∀ x, I.m2 ≤ x → x < I.n → z (x - r.defers) = x) →
      ∀ a, a < r.m ∨ (I.n - r.defers ≤ a ∧ a < I.n) → z a < I.m2 := by
    intro z w hz hf a ha
    by_contra hc
    push Not at hc
    have han : a < I.n := by omega
    have h1 := (hz a han).1
    have h2 := hf _ hc h1
    have h3 := (hz a han).2
    have h4 := (hz (z a - r.defers) (by omega)).2
    rw [h2, h3] at h4
    omega
  refine ⟨h.tot, h.cnt, h.pinv.2, h.qinv.2, fun x h1 h2 => ?_, fun a ha => ⟨⟨zr a, ?_, r3 a (by omega)⟩, ⟨zc a, ?_, c3 a (by omega)⟩⟩⟩
  · rw [r3 _ (by omega), c3 _ (by omega), r5 x (by omega) h2 (h.rfix x h1 h2), c5 x (by omega) h2 (h.cfix x h1 h2)]
    exact ⟨rfl, rfl⟩
  · exact key zr _ r1 (fun x h1 h2 => r5 x (by omega) h2 (h.rfix x h1 h2)) a ha
  · exact key zc _ c1 (fun x h1 h2 => c5 x (by omega) h2 (h.cfix x h1 h2)) a ha

/-- **C65 (form of the factors).** As for the phase without pivoting (C24): well-formed strictly triangular factors with sorted lines and correct
boundaries between the leading block and the rest, line lengths as the dropping routine promises, and acceptable pivots. -/
theorem C65_pivot_factor_form (hs : SrtOK pr) (hI : InOK I) (hU : DropOK I.n ΦU pr.dropU) (hL : DropOK I.n ΦL pr.dropL) :
    Runs (croutPhase pr I) fun r =>
      (∀ T ∈ [r.U, r.L], T.WF ∧ T.Tight ∧ T.Sorted ∧ T.psize = r.m ∧ T.ssize = I.n ∧ ∀ i, i < r.m → ∀ e ∈ T.line i, i < e.1) ∧
      (∀ i, i < r.m → r.U.start.get i ≤ r.Ustart.get i ∧ r.Ustart.get i ≤ r.U.start.get (i + 1) ∧
        (∀ k, r.U.start.get i ≤ k → k < r.Ustart.get i → r.U.inds.get k < r.m) ∧
        (∀ k, r.Ustart.get i ≤ k → k < r.U.start.get (i + 1) → r.m ≤ r.U.inds.get k)) ∧
      (∀ i, i < r.m → r.L.start.get i ≤ r.Lstart.get i ∧ r.Lstart.get i ≤ r.L.start.get (i + 1) ∧
        (∀ k, r.L.start.get i ≤ k → k < r.Lstart.get i → r.L.inds.get k < r.m) ∧
        (∀ k, r.Lstart.get i ≤ k → k < r.L.start.get (i + 1) → r.m ≤ r.L.inds.get k)) ∧
      (∀ i, i < r.m → ΦU (r.p.p.get i) (r.U.line i).length ∧ ΦL (r.q.p.get i) (r.L.line i).length) ∧
      (r.d.size = I.m2 ∧ ∀ i, i < r.m → r.d.get i ≠ 0 ∧ pr.nrm (1 / r.d.get i) ≤ pr.kappaD) := by
  refine (croutPhase_runs hs hI hU hL).mono ?_
  rintro r ⟨g, h⟩
  have h := h.res hI
  refine ⟨?_, fun i hi => h.U.st i hi, fun i hi => h.L.st i hi, fun i hi => ⟨h.U.cnt i hi, h.L.cnt i hi⟩, h.dsz, fun i hi => ?_⟩
  · intro T hT
    simp only [List.mem_cons, List.not_mem_nil, or_false] at hT
    rcases hT with rfl | rfl
    · exact ⟨h.U.wf, h.U.tight, h.U.sorted, h.U.psz, h.U.ssz, h.U.upper⟩
    · exact ⟨h.L.wf, h.L.tight, h.L.sorted, h.L.psz, h.L.ssz, h.L.upper⟩
  · have := h.good i hi
    unfold badDiag at this
    simp only [Bool.or_eq_false_iff, decide_eq_false_iff_not, not_lt] at this
    exact this.1

/-- **C65 (recurrence with dropping).** For every dropping routine there are rows `Ut` and columns `Lt` (the lines before dropping), each the exact
residual of what is stored, scaled by the pivot; each stored entry is the computed one or absent; and, unlike in the phase without pivoting, every
pivot is the exact residual of the *stored* factors, so the diagonal of the leading block is reproduced exactly whatever is dropped. -/
theorem C65_pivot_recurrence (hs : SrtOK pr) (hI : InOK I) (hU : DropOK I.n ΦU pr.dropU) (hL : DropOK I.n ΦL pr.dropL) :
    Runs (croutPhase pr I) fun r => (∃ Ut Lt : Nat → Nat → K,
      (∀ a, a < r.m → ∀ j, j < I.n → a < j →
        r.d.get a * Ut a j = Out.target I r a j - ∑ b ∈ range a, r.Lbar a b * r.d.get b * r.Ubar b j) ∧
      (∀ a, a < r.m → ∀ i, i < I.n → a < i →
        Lt i a * r.d.get a = Out.target I r i a - ∑ b ∈ range a, r.Lbar i b * r.d.get b * r.Ubar b a) ∧
      (∀ a, a < r.m → ∀ j, j < I.n → a < j →
        (r.Ubar a j = Ut a j ∨ r.Ubar a j = 0) ∧ (r.Lbar j a = Lt j a ∨ r.Lbar j a = 0))) ∧
      ∀ i, i < r.m → ∑ b ∈ range r.m, r.Lbar i b * r.d.get b * r.Ubar b i =
        I.s.get (r.p.p.get i) * I.Acrs.entry (r.p.p.get i) (r.q.p.get i) * I.t.get (r.q.p.get i) := by
  refine (croutPhase_runs hs hI hU hL).mono ?_
  rintro r ⟨g, h⟩
  have hmle := hI.mle
  have htot := h.tot
  obtain ⟨Ut, Lt, h1, h2, h3, h4, -⟩ := h.recs hI
  exact ⟨⟨Ut, Lt, h1, h2, h4⟩, fun i hi => h.exact hI (by omega) (by omega) (by omega) (fun hc => by omega) (fun hc => by omega)⟩

/-- **C65 (exactness).** If the dropping routines drop nothing then, whatever is exchanged or deferred, `L D U` equals the scaled input in the final
orderings on all rows and columns of the leading block. -/
theorem C65_pivot_exact (hs : SrtOK pr) (hI : InOK I) (hU : DropOK I.n ΦU pr.dropU) (hL : DropOK I.n ΦL pr.dropL)
    (kU : KeepsAll I.n pr.dropU) (kL : KeepsAll I.n pr.dropL) :
    Runs (croutPhase pr I) fun r => ∀ i j, i < I.n → j < I.n → min i j < r.m →
      ∑ b ∈ range r.m, r.Lbar i b * r.d.get b * r.Ubar b j =
        I.s.get (r.p.p.get i) * I.Acrs.entry (r.p.p.get i) (r.q.p.get j) * I.t.get (r.q.p.get j) := by
  refine (croutPhase_runs hs hI hU hL).mono ?_
  rintro r ⟨g, h⟩ i j hi hj hm
  exact h.exact hI hi hj hm (fun _ => kU) (fun _ => kL)

end general

section real
variable [Field R] [LinearOrder R] [IsStrictOrderedRing R]

/-- **C65 (estimates).** With pivoting too, the two estimate vectors solve their triangular systems with right-hand sides `±1`, are between `1` and
the limit `kappa`, and bound the inverses of the factors from below. -/
theorem C65_pivot_estimates (pr : Par K R) (I : In K) (ΦU ΦL : Nat → Nat → Prop) (hs : SrtOK pr) (hI : InOK I) (hU : DropOK I.n ΦU pr.dropU)
    (hL : DropOK I.n ΦL pr.dropL) (hn : IsAbs pr.nrm) :
    Runs (croutPhase pr I) fun r =>
      (∃ e : Nat → K, (∀ h, h < r.m → e h = 1 ∨ e h = -1) ∧ (∀ h, h < r.m → ∑ i ∈ range r.m, r.kU.get i * r.Ubar i h = e h)) ∧
      (∃ e : Nat → K, (∀ h, h < r.m → e h = 1 ∨ e h = -1) ∧ (∀ h, h < r.m → ∑ i ∈ range r.m, r.Lbar h i * r.kL.get i = e h)) ∧
      (∀ h, h < r.m → 1 ≤ pr.nrm (r.kU.get h) ∧ pr.nrm (r.kU.get h) ≤ pr.kappa ∧
        1 ≤ pr.nrm (r.kL.get h) ∧ pr.nrm (r.kL.get h) ≤ pr.kappa) ∧
      (∀ X : Nat → Nat → K, (∀ i h, i < r.m → h < r.m → ∑ g ∈ range r.m, r.Ubar i g * X g h = if i = h then 1 else 0) →
        ∀ h, h < r.m → pr.nrm (r.kU.get h) ≤ ∑ i ∈ range r.m, pr.nrm (X i h)) ∧
      (∀ X : Nat → Nat → K, (∀ i h, i < r.m → h < r.m → ∑ g ∈ range r.m, X i g * r.Lbar g h = if i = h then 1 else 0) →
        ∀ h, h < r.m → pr.nrm (r.kL.get h) ≤ ∑ i ∈ range r.m, pr.nrm (X h i)) := by
  refine (croutPhase_runs hs hI hU hL).mono ?_
  rintro r ⟨g, hF⟩
  have hF := hF.res hI
  obtain ⟨eU, a1, a2, a3, a4⟩ := estimate (m := r.m) (kap := r.kU) (W := r.Ubar) hn (fun h hh => (hF.kapU h hh).1)
    (fun h _ => if_pos rfl)
    (fun i h h1 h2 => by unfold Out.Ubar; rw [if_neg (by omega)]; exact hF.U.zero h2 (by omega))
  obtain ⟨eL, b1, b2, b3, b4⟩ := estimate (m := r.m) (kap := r.kL) (W := fun i h => r.Lbar h i) hn (fun h hh => (hF.kapL h hh).1)
    (fun h _ => if_pos rfl)
    (fun i h h1 h2 => by unfold Out.Lbar; rw [if_neg (by omega)]; exact hF.L.zero h2 (by omega))
  refine ⟨⟨eU, a1, a2⟩, ⟨eL, b1, fun h hh => ?_⟩, fun h hh => ⟨a3 h hh, (hF.kapU h hh).2, b3 h hh, (hF.kapL h hh).2⟩, a4,
    fun X hX h hh => ?_⟩
  · rw [← b2 h hh]; exact sum_congr rfl fun i _ => by ring
  · refine b4 (fun i h => X h i) (fun i h hi hh => ?_) h hh
    rw [show (∑ g ∈ range r.m, r.Lbar g i * X h g) = ∑ g ∈ range r.m, X h g * r.Lbar g i from sum_congr rfl fun i _ => by ring,
      hX h i hh hi]
    by_cases e : h = i
    · rw [if_pos e, if_pos e.symm]
    · rw [if_neg e, if_neg (Ne.symm e)]

variable [FloorSemiring R]

/-- **C65 (dropping error and space limit).** With the code's own dropping: without space limit the residual off the diagonal of the leading rows and columns is
at most `|d_a| · tau / (|κ_a| kappa_d)`; with `alpha > 0` every row of `U` and column of `L` obeys the space limit. -/
theorem C65_pivot_dropping (nrm : K → R) (hn : IsAbs nrm) (safeMin gamma : R) (nth : (Nat → R) → Nat → List Nat → List Nat)
    (hnth : SV.NthSpec nth) (srt : (Nat → R) → List Nat → List Nat) (hsrt : ∀ f l, (srt f l).Perm l)
    (kappaD kappa tauL tauU alphaL alphaU : R) (rowSizes colSizes : Buf Nat) (I : In K) (hI : InOK I)
    (hr : I.n ≤ rowSizes.size) (hc : I.n ≤ colSizes.size) (hk : 0 ≤ kappaD) :
    Runs (croutPhase (⟨⟨nrm, kappaD, kappa, safeMin, realDrop nrm nth tauU kappaD alphaU rowSizes,
        realDrop nrm nth tauL kappaD alphaL colSizes, fun _ => false⟩, gamma, srt⟩ : Par K R) I) fun r =>
      (alphaU ≤ 0 → ∀ a j, a < r.m → j < I.n → a < j →
        nrm ((∑ b ∈ range r.m, r.Lbar a b * r.d.get b * r.Ubar b j) - Out.target I r a j)
          ≤ nrm (r.d.get a) * max 0 (tauU / (nrm (r.kU.get a) * kappaD))) ∧
      (alphaL ≤ 0 → ∀ a j, a < r.m → j < I.n → a < j →
        nrm ((∑ b ∈ range r.m, r.Lbar j b * r.d.get b * r.Ubar b a) - Out.target I r j a)
          ≤ nrm (r.d.get a) * max 0 (tauL / (nrm (r.kL.get a) * kappaD))) ∧
      (∀ i, i < r.m → (0 < alphaU → r.U.start.get (i + 1) - r.U.start.get i ≤ max 1 ⌈alphaU * rowSizes.get (r.p.p.get i)⌉₊) ∧
        (0 < alphaL → r.L.start.get (i + 1) - r.L.start.get i ≤ max 1 ⌈alphaL * colSizes.get (r.q.p.get i)⌉₊)) := by
  have hdU := realDrop_ok I.n nrm nth hnth tauU kappaD alphaU rowSizes hr
  have hdL := realDrop_ok I.n nrm nth hnth tauL kappaD alphaL colSizes hc
  have hform := C65_pivot_factor_form (⟨⟨nrm, kappaD, kappa, safeMin, realDrop nrm nth tauU kappaD alphaU rowSizes,
        realDrop nrm nth tauL kappaD alphaL colSizes, fun _ => false⟩, gamma, srt⟩ : Par K R) I _ _ hsrt hI hdU hdL
  refine ((croutPhase_runs (pr := (⟨⟨nrm, kappaD, kappa, safeMin, realDrop nrm nth tauU kappaD alphaU rowSizes,
        realDrop nrm nth tauL kappaD alphaL colSizes, fun _ => false⟩, gamma, srt⟩ : Par K R)) hsrt hI hdU hdL).and hform).mono ?_
  rintro r ⟨⟨g, h⟩, -, -, -, hlen, -⟩
  obtain ⟨Ut, Lt, e1, e2, -, -, -, -, e7, e8⟩ := h.recs hI
  have hnn : ∀ a, ∀ t : R, 0 ≤ nrm (r.d.get a) * max 0 t := fun a t => mul_nonneg (hn.nonneg _) (le_max_left _ _)
  refine ⟨fun ha a j ham hj haj => ?_, fun ha a j ham hj haj => ?_, fun i hi => ?_⟩
  · have hU := e7 _ (realDrop_rule I.n nrm nth hnth tauU kappaD alphaU rowSizes hr ha) a ham j hj haj
    have hL1 : r.Lbar a a = 1 := if_pos rfl
    rw [h.prod ham (show a = min a j by omega), hL1, one_mul]
    have e : (∑ b ∈ range a, r.Lbar a b * r.d.get b * r.Ubar b j) + r.d.get a * r.Ubar a j - Out.target I r a j =
        r.d.get a * (r.Ubar a j - Ut a j) := by rw [mul_sub, e1 a ham j hj haj]; ring
    rw [e, hn.mul]
    rcases hU with c | ⟨c1, c2, c3⟩
    · rw [c, sub_self, hn.zero, mul_zero]; exact hnn _ _
    · rw [c1, zero_sub, hn.neg]
      exact mul_le_mul_of_nonneg_left (le_trans c3 (le_max_right _ _)) (hn.nonneg _)
  · have hL := e8 _ (realDrop_rule I.n nrm nth hnth tauL kappaD alphaL colSizes hc ha) a ham j hj haj
    have hU1 : r.Ubar a a = 1 := if_pos rfl
    rw [h.prod ham (show a = min j a by omega), hU1, mul_one]
    have e : (∑ b ∈ range a, r.Lbar j b * r.d.get b * r.Ubar b a) + r.Lbar j a * r.d.get a - Out.target I r j a =
        r.d.get a * (r.Lbar j a - Lt j a) := by rw [mul_sub, mul_comm _ (Lt j a), e2 a ham j hj haj]; ring
    rw [e, hn.mul]
    rcases hL with c | ⟨c1, c2, c3⟩
    · rw [c, sub_self, hn.zero, mul_zero]; exact hnn _ _
    · rw [c1, zero_sub, hn.neg]
      exact mul_le_mul_of_nonneg_left (le_trans c3 (le_max_right _ _)) (hn.nonneg _)
  · obtain ⟨h1, h2⟩ := hlen i hi
    rw [line_length] at h1 h2
    exact ⟨h1, h2⟩

end real

/-! ### A concrete case: the input of `Props/Crout.lean`, whose first diagonal entry is zero -/

/-- Decreasing magnitude. -/
def exSrt (f : Nat → ℚ) (l : List Nat) : List Nat := l.insertionSort fun i j => f j ≤ f i

def exPar : Par ℚ ℚ := ⟨Crout.exPar, 1, exSrt⟩

example : SrtOK exPar := fun f l => List.perm_insertionSort _ l

/-- With pivoting the zero pivot is replaced: three steps, no deferral (without pivoting one step is deferred, see `Props/Crout.lean`). -/
example : (croutPhase exPar exIn).toOption.map (fun r => (r.m, r.defers, r.p.p.toList, r.q.p.toList, r.d.toList)) =
    some (3, 0, [0, 1, 2, 3], [1, 0, 2, 3], [4, -1, 3]) := by decide +kernel

example : (croutPhase exPar exIn).toOption.map (fun r => (r.U.inds.toList, r.U.vals.toList, r.L.inds.toList, r.L.vals.toList)) =
    some ([1, 2, 2, 3, 3], [1 / 2, 1 / 4, 1 / 2, -6, 1], [1, 2, 2, 3, 3], [1 / 2, 1 / 4, 1 / 2, -1, 1 / 2]) := by decide +kernel

/-- Exchanges and deferrals together: with the limit `1` for the estimates one step is kept. -/
example : (croutPhase { exPar with kappa := 1 } exIn).toOption.map (fun r => (r.m, r.defers, r.p.p.toList, r.q.p.toList)) =
    some (1, 2, [0, 3, 1, 2], [1, 3, 0, 2]) := by decide +kernel

/-- The hypotheses of the theorems hold for this case. -/
example : InOK exIn ∧ SrtOK exPar := ⟨exIn_ok, fun f l => List.perm_insertionSort _ l⟩

end Hif.PCrout
