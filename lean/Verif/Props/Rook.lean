import Verif.CroutRes
import Verif.Props.PCrout

set_option linter.unusedVariables false
set_option linter.unusedSectionVars false

/-!
# C67: the threshold of the rook pivoting

`croutCount pr I` is the Crout phase with pivoting together with the numbers of exchanges of rows and of columns (the code reports
them in its log).
-/

namespace Hif.PCrout
open Finset Crout
variable {K : Type} [Field K] [DecidableEq K] [Inhabited K] {R : Type _} [Field R] [LinearOrder R] [IsStrictOrderedRing R]

/-- What the first `a` rows of `U` and columns of `L` leave of the entry `(i, j)` of the scaled input in the final ordering. -/
def left (I : In K) (r : Out K) (a i j : Nat) : K := Out.target I r i j - ∑ b ∈ range a, r.Lbar i b * r.d.get b * r.Ubar b j

/-- Both values that the next component of the estimate for `U` could take if column `j` came at step `a` are within the limit. -/
def okCol (nrm : K → R) (kappa : R) (r : Out K) (a j : Nat) : Prop :=
  ∀ e : K, (e = 1 ∨ e = -1) → nrm (e - ∑ i ∈ range a, r.kU.get i * r.Ubar i j) ≤ kappa

/-- The same for row `i` and the estimate for `L`. -/
def okRow (nrm : K → R) (kappa : R) (r : Out K) (a i : Nat) : Prop :=
  ∀ e : K, (e = 1 ∨ e = -1) → nrm (e - ∑ b ∈ range a, r.kL.get b * r.Lbar i b) ≤ kappa

theorem est_ok {nrm : K → R} (hn : IsAbs nrm) {kappa : R} {kap : Nat → K} {T : Nat → Nat → K} {a x : Nat} {s : K} (hs : ∑ i ∈ range a, kap i * T i x = s)
    (h : ∀ e : K, (e = 1 ∨ e = -1) → nrm (e - s) ≤ kappa) : nrm (est nrm kap T a x) ≤ kappa := by
  unfold est
  rw [hs]
  by_cases h0 : a = 0
  · rw [if_pos h0]
    have := h 1 (Or.inl rfl)
    rw [h0, range_zero, sum_empty] at hs
    rwa [← hs, sub_zero] at this
  · rw [if_neg h0]
    unfold kappaPick
    split
    · exact h _ (Or.inr rfl)
    · exact h _ (Or.inl rfl)

theorem rookPar {pr : Par K R} (hn : IsAbs pr.nrm) (hg : pr.gamma ≤ 1) (hs : ∀ f l, (pr.srt f l).Pairwise fun a b => f b ≤ f a) : RookPar pr := by
  have key : ∀ x : R, 0 ≤ x → pr.gamma * x ≤ x := fun x hx => by nlinarith
  refine ⟨fun k => ?_, fun a b k h1 h2 => ?_, fun a b h => ?_, fun b k h => ?_, hs⟩
  · rw [hn.zero, mul_zero]; exact hn.nonneg _
  · rcases le_total pr.gamma 0 with h | h
    · exact le_trans (mul_nonpos_of_nonpos_of_nonneg h (hn.nonneg _)) (hn.nonneg _)
    · exact le_trans (mul_le_mul_of_nonneg_left (le_trans h1 (le_max_left _ _)) h) h2
  · exact le_trans (key _ (hn.nonneg _)) h
  · by_contra hc
    push Not at hc
    rw [max_eq_right (le_of_lt hc)] at h
    have := key _ (hn.nonneg k)
    linarith

/-- **C67 (threshold).** If the magnitude is an absolute value, `gamma ≤ 1` and the sorting really sorts by decreasing magnitude, then whatever is
dropped: all kept steps, except for at most one per deferral and one per four exchanges of columns, have a pivot `d_a` that is the exact
residual at its place and at least `gamma` times the residual of every later kept column in its row and of every later kept row in its
column, as far as these keep the estimates within their limit.  Consequently the stored entries there are at most `1 / gamma`. -/
theorem C67_rook_threshold (pr : Par K R) (I : In K) (ΦU ΦL : Nat → Nat → Prop) (hs : SrtOK pr) (hI : InOK I) (hU : DropOK I.n ΦU pr.dropU)
    (hL : DropOK I.n ΦL pr.dropL) (hn : IsAbs pr.nrm) (hg : pr.gamma ≤ 1) (hsort : ∀ f l, (pr.srt f l).Pairwise fun a b => f b ≤ f a) :
    Runs (croutCount pr I) fun (r, _, nU) => ∃ S : Finset Nat, 4 * S.card ≤ 4 * r.defers + nU ∧
      ∀ a, a < r.m → a ∉ S → r.d.get a = left I r a a a ∧ ∀ j, a < j → j < r.m →
        (okCol pr.nrm pr.kappa r a j → pr.gamma * pr.nrm (left I r a a j) ≤ pr.nrm (r.d.get a) ∧ pr.gamma * pr.nrm (r.Ubar a j) ≤ 1) ∧
        (okRow pr.nrm pr.kappa r a j → pr.gamma * pr.nrm (left I r a j a) ≤ pr.nrm (r.d.get a) ∧ pr.gamma * pr.nrm (r.Lbar j a) ≤ 1) := by
  refine (croutCount_runs hs hI hU hL).mono ?_
  rintro ⟨r, nL, nU⟩ ⟨g, h, hT⟩
  simp only at h hT ⊢
  have hmle := hI.mle
  have htot := h.tot
  have hR := rookPar hn hg hsort
  have hv : ∀ (v o : Nat → Nat), PPos I.n r.m r.defers v o → ∀ j, j < r.m → o j < I.n ∧ v (o j) = j ∧ place r.m r.defers v (o j) = j := by
    intro v o hp j hj
    obtain ⟨h1, h2⟩ := hp.from_pos j (Or.inl hj)
    exact ⟨h1, h2, by unfold place; rw [h2, if_pos hj]⟩
  have hUb : ∀ a j, a < r.m → j < r.m → a < j → r.Ubar a j = g.Us a (g.ocol j) := by
    intro a j ha hj hlt
    obtain ⟨c1, -, c3⟩ := hv _ _ h.cpos j hj
    have e1 := h.U.entry ha c1
    rw [c3] at e1
    unfold Out.Ubar; rw [if_neg (by omega)]; exact e1
  have hLb : ∀ a j, a < r.m → j < r.m → a < j → r.Lbar j a = g.Ls a (g.orow j) := by
    intro a j ha hj hlt
    obtain ⟨c1, -, c3⟩ := hv _ _ h.rpos j hj
    have e1 := h.L.entry ha c1
    rw [c3] at e1
    unfold Out.Lbar; rw [if_neg (by omega)]; exact e1
  have hB : ∀ i j, i < r.m → j < r.m → Out.target I r i j = I.B (g.orow i) (g.ocol j) := by
    intro i j hi hj
    obtain ⟨a1, -, a3⟩ := hv _ _ h.rpos i hi
    obtain ⟨c1, -, c3⟩ := hv _ _ h.cpos j hj
    have e1 := h.p _ a1
    have e2 := h.q _ c1
    rw [a3] at e1
    rw [c3] at e2
    unfold Out.target In.B
    rw [e1, e2]
  have hres : ∀ a i j, a ≤ i → a ≤ j → i < r.m → j < r.m → res I.B g.Ls g.Us r.d.get a (g.orow i) (g.ocol j) = left I r a i j := by
    intro a i j h1 h2 hi hj
    unfold res left
    rw [hB i j hi hj]
    congr 1
    refine sum_congr rfl fun b hb => ?_
    have hb := mem_range.1 hb
    rw [hLb b i (by omega) hi (by omega), hUb b j (by omega) hj (by omega)]
  have hbound : ∀ d x y : K, d ≠ 0 → (x = y ∨ x = 0) → pr.gamma * pr.nrm (y * d) ≤ pr.nrm d → pr.gamma * pr.nrm x ≤ 1 := by
    intro d x y hd hx hle
    rcases hx with rfl | rfl
    · rw [hn.mul, ← mul_assoc] at hle
      have hpos : 0 < pr.nrm d := by
        rcases lt_or_eq_of_le (hn.nonneg d) with h | h
        · exact h
        · exfalso
          have := hn.mul d d⁻¹
          rw [mul_inv_cancel₀ hd, hn.one, ← h, zero_mul] at this
          exact one_ne_zero this
      exact le_of_mul_le_mul_right (by rw [one_mul]; exact hle) hpos
    · rw [hn.zero, mul_zero]; exact zero_le_one
  refine ⟨g.S, hT.slack, fun a ha hS => ⟨?_, fun j haj hj => ⟨fun hok => ?_, fun hok => ?_⟩⟩⟩
  · rw [h.num.diag a ha, hres a a a (le_refl _) (le_refl _) ha ha]
  · obtain ⟨c1, c2, -⟩ := hv _ _ h.cpos j hj
    have hd : r.d.get a ≠ 0 := by
      intro hc; have := h.num.good a ha; rw [hc] at this; simp [badDiag] at this
    have h1 := hT.thrU hR a ha hS _ c1 (by rw [c2]; exact haj) (by rw [c2]; omega)
      (est_ok hn (sum_congr rfl fun i hi => by rw [← hUb i j (by have := mem_range.1 hi; omega) hj (by have := mem_range.1 hi; omega)]) hok)
    refine ⟨?_, hbound _ _ _ hd ?_ h1⟩
    · have h2 := h.num.recU a ha _ c1 (by rw [c2]; exact haj)
      rw [mul_comm (g.Ut _ _), h2, hres a a j (le_refl _) (by omega) ha hj] at h1
      exact h1
    · rw [hUb a j ha hj haj]; exact h.num.keepU a ha _ c1
  · obtain ⟨c1, c2, -⟩ := hv _ _ h.rpos j hj
    have hd : r.d.get a ≠ 0 := by
      intro hc; have := h.num.good a ha; rw [hc] at this; simp [badDiag] at this
    have h1 := hT.thrL hR a ha hS _ c1 (by rw [c2]; exact haj) (by rw [c2]; omega)
      (est_ok hn (sum_congr rfl fun i hi => by rw [← hLb i j (by have := mem_range.1 hi; omega) hj (by have := mem_range.1 hi; omega)]) hok)
    refine ⟨?_, hbound _ _ _ hd ?_ h1⟩
    · have h2 := h.num.recL a ha _ c1 (by rw [c2]; exact haj)
      rw [h2, hres a j a (by omega) (le_refl _) hj ha] at h1
      exact h1
    · rw [hLb a j ha hj haj]; exact h.num.keepL a ha _ c1

/-- **C67 (no deferral).** If nothing was deferred and fewer than four exchanges of columns took place, every pivot satisfies the threshold. -/
theorem C67_rook_everywhere (pr : Par K R) (I : In K) (ΦU ΦL : Nat → Nat → Prop) (hs : SrtOK pr) (hI : InOK I) (hU : DropOK I.n ΦU pr.dropU)
    (hL : DropOK I.n ΦL pr.dropL) (hn : IsAbs pr.nrm) (hg : pr.gamma ≤ 1) (hsort : ∀ f l, (pr.srt f l).Pairwise fun a b => f b ≤ f a) :
    Runs (croutCount pr I) fun (r, _, nU) => r.defers = 0 → nU < 4 → ∀ a j, a < j → j < I.m2 →
        (okCol pr.nrm pr.kappa r a j → pr.gamma * pr.nrm (left I r a a j) ≤ pr.nrm (r.d.get a)) ∧
        (okRow pr.nrm pr.kappa r a j → pr.gamma * pr.nrm (left I r a j a) ≤ pr.nrm (r.d.get a)) := by
  refine ((C67_rook_threshold pr I ΦU ΦL hs hI hU hL hn hg hsort).and (croutCount_runs hs hI hU hL)).mono ?_
  rintro ⟨r, nL, nU⟩ ⟨⟨S, h1, h2⟩, ⟨g, h3, -⟩⟩ hd hn a j haj hj
  have := h3.tot
  simp only at this h1 h2
  have hS : S = ∅ := by rw [← Finset.card_eq_zero]; omega
  have h4 := (h2 a (by omega) (by rw [hS]; simp)).2 j haj (by omega)
  exact ⟨fun h => (h4.1 h).1, fun h => (h4.2 h).1⟩

/-- **C67 (switched off).** With `gamma ≤ 0` there are no exchanges. -/
theorem C67_rook_off (pr : Par K R) (I : In K) (ΦU ΦL : Nat → Nat → Prop) (hs : SrtOK pr) (hI : InOK I) (hU : DropOK I.n ΦU pr.dropU)
    (hL : DropOK I.n ΦL pr.dropL) (hn : IsAbs pr.nrm) (hg : pr.gamma ≤ 0) :
    Runs (croutCount pr I) fun (_, nL, nU) => nL = 0 ∧ nU = 0 := by
  refine (croutCount_runs hs hI hU hL).mono ?_
  rintro ⟨r, nL, nU⟩ ⟨g, -, h⟩
  exact h.idle fun k b hc => absurd (lt_of_lt_of_le hc (mul_nonpos_of_nonpos_of_nonneg hg (le_trans (hn.nonneg k) (le_max_right _ _)))) (not_lt.2 (hn.nonneg k))

/-! ### Concrete cases -/

theorem exAbs : IsAbs exPar.nrm := ⟨fun x => abs_nonneg x, fun x y => abs_add_le x y, fun x y => abs_mul x y, fun x => abs_neg x, abs_one, abs_zero, by decide +kernel⟩

theorem exSort : ∀ f l, (exPar.srt f l).Pairwise fun a b => f b ≤ f a := by
  intro f l
  exact List.pairwise_insertionSort _ l

/-- One exchange of rows, one of columns and no deferral: the hypotheses of the theorems hold, and the threshold is met everywhere. -/
example : InOK exIn ∧ SrtOK exPar ∧ IsAbs exPar.nrm ∧ exPar.gamma ≤ 1 := ⟨exIn_ok, fun f l => List.perm_insertionSort _ l, exAbs, by decide +kernel⟩

example : (croutCount exPar exIn).toOption.map (fun r => (r.1.m, r.1.defers, r.2.1, r.2.2)) = some (3, 0, 1, 1) := by decide +kernel

/-- With `gamma = 0` the zero pivot is deferred instead. -/
example : (croutCount { exPar with gamma := 0 } exIn).toOption.map (fun r => (r.1.m, r.1.defers, r.2.1, r.2.2)) = some (2, 1, 0, 0) := by decide +kernel

end Hif.PCrout
