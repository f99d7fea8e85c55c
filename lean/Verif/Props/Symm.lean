import Verif.SymmRun
import Verif.Props.Crout

set_option linter.unusedVariables false
set_option linter.unusedSectionVars false

/-!
# C68: the symmetric Crout phase

Vocabulary as in `Props/Crout.lean`.  `Symm.croutPhase pr I` is the incomplete factorization of one symmetric level: only the columns of `L` are
computed and stored, the upper factor being its transpose.  `SymIn I`: the input is a valid symmetric matrix with one scaling and one
preprocessing permutation used on both sides.
-/

namespace Hif.Symm
open Finset Crout
variable {K : Type} [Field K] [DecidableEq K] [Inhabited K] {R : Type _}

/-- A valid input of the symmetric phase. -/
structure SymIn (I : In K) : Prop where
  mle : I.m2 ≤ I.n
  wf : I.A.WF
  sorted : I.A.Sorted
  psize : I.A.psize = I.n
  ssize : I.A.ssize = I.n
  sym : ∀ i j, i < I.n → j < I.n → I.A.entry i j = I.A.entry j i
  ssz : I.s.size = I.n
  tsz : I.t.size = I.n
  st : ∀ i, i < I.n → I.t.get i = I.s.get i
  psz : I.p0.size = I.n
  pisz : I.pinv0.size = I.n
  qsz : I.q0.size = I.n
  pq : ∀ i, i < I.n → I.q0.get i = I.p0.get i
  pinv : Spec.Inverse I.n I.p0.get I.pinv0.get

theorem SymIn.ok {I : In K} (h : SymIn I) : InOK I.sym :=
  ⟨h.mle, h.wf, h.sorted, h.psize, h.ssize, h.wf, h.sorted, h.psize, h.ssize, fun i j hi hj => h.sym j i hj hi, h.ssz, h.ssz, h.psz, h.pisz, h.psz, h.pisz,
    h.pinv, h.pinv⟩

theorem SymIn.ht {I : In K} (h : SymIn I) : ∀ i, I.t.rd i = I.s.rd i := Level.rd_ext h.tsz h.ssz h.st

theorem SymIn.hq {I : In K} (h : SymIn I) : ∀ i, I.q0.rd i = I.p0.rd i := Level.rd_ext h.qsz h.psz h.pq

/-- The unit lower triangular factor: column `b` of `L` is stored as line `b`. -/
def Out.Lbar (r : Out K) (i b : Nat) : K := if i = b then 1 else r.L.entry b i

theorem lift_Lbar (r : Out K) (i b : Nat) : r.lift.Lbar i b = r.Lbar i b := rfl

theorem lift_Ubar (r : Out K) (b j : Nat) : r.lift.Ubar b j = r.Lbar j b := by
  unfold Crout.Out.Ubar Out.Lbar
  by_cases h : b = j
  · rw [if_pos h, if_pos h.symm]
  · rw [if_neg h, if_neg (Ne.symm h)]; rfl

section general
variable [LinearOrder R] (pr : Par K R) (I : In K) (Φ : Nat → Nat → Prop)

/-- **C68 (ordering).** For every magnitude function, thresholds, sign test and dropping routine: the phase completes within its bounds; the ordering is
a permutation with its inverse; the kept pivots are the steps `kept 0 < kept 1 < …`, followed by the rows excluded by preprocessing in their old
order, followed by the deferred steps in order of deferral; every step is kept or deferred, and every deferral is counted once. -/
theorem C68_symm_ordering (hI : SymIn I) (hd : DropOK I.n Φ pr.drop) :
    Runs (croutPhase pr I) fun r =>
      r.m + r.defers = I.m2 ∧ r.nDiag + r.nCond = r.defers ∧ Spec.Inverse I.n r.p.p.get r.p.inv.get ∧
      ∃ kept dfr : Nat → Nat,
        (∀ a b, a < b → b < r.m → kept a < kept b) ∧ (∀ a b, a < b → b < r.defers → dfr a < dfr b) ∧
        (∀ a, a < r.m → kept a < I.m2) ∧ (∀ a, a < r.defers → dfr a < I.m2) ∧
        (∀ x, x < I.m2 → (∃ a, a < r.m ∧ kept a = x) ∨ ∃ a, a < r.defers ∧ dfr a = x) ∧
        (∀ a, a < r.m → r.p.p.get a = I.p0.get (kept a)) ∧
        (∀ x, I.m2 ≤ x → x < I.n → r.p.p.get (x - r.defers) = I.p0.get x) ∧
        (∀ a, a < r.defers → r.p.p.get (I.n - r.defers + a) = I.p0.get (dfr a)) := by
  refine (transfer hI.ok hI.ht hI.hq hd hd (C25_deferral_permutations pr.gen I.sym Φ Φ hI.ok hd hd)).mono ?_
  rintro r ⟨h1, h2, h3, -, kept, dfr, k1, k2, k3, k4, k5, k6, k7, k8⟩
  exact ⟨h1, h2, h3, kept, dfr, k1, k2, k3, k4, k5, fun a ha => (k6 a ha).1, fun x a b => (k7 x a b).1, fun a ha => (k8 a ha).1⟩

/-- **C68 (form of the factor).** Whatever is dropped or deferred, `L` is a valid compressed matrix with sorted lines, strictly triangular, the split
positions separate the leading block from the rest, the line lengths are what the dropping routine promises for the label of the row, and every
pivot is nonzero, passes the diagonal test and is not refused by the sign test. -/
theorem C68_symm_factor_form (hI : SymIn I) (hd : DropOK I.n Φ pr.drop) :
    Runs (croutPhase pr I) fun r =>
      (r.L.WF ∧ r.L.Tight ∧ r.L.Sorted ∧ r.L.psize = r.m ∧ r.L.ssize = I.n ∧ ∀ i, i < r.m → ∀ e ∈ r.L.line i, i < e.1) ∧
      (∀ i, i < r.m → r.L.start.get i ≤ r.Lstart.get i ∧ r.Lstart.get i ≤ r.L.start.get (i + 1) ∧
        (∀ k, r.L.start.get i ≤ k → k < r.Lstart.get i → r.L.inds.get k < r.m) ∧
        (∀ k, r.Lstart.get i ≤ k → k < r.L.start.get (i + 1) → r.m ≤ r.L.inds.get k)) ∧
      (∀ i, i < r.m → Φ (r.p.p.get i) (r.L.line i).length) ∧
      (r.d.size = I.m2 ∧ ∀ i, i < r.m → r.d.get i ≠ 0 ∧ pr.nrm (1 / r.d.get i) ≤ pr.kappaD ∧ pr.refuse (r.d.get i) = false) := by
  refine (transfer hI.ok hI.ht hI.hq hd hd ((Crout.croutPhase_runs (pr := pr.gen) (ΦU := Φ) (ΦL := Φ) hI.ok hd hd).mono fun r ⟨g, hr⟩ => hr.res hI.ok)).mono ?_
  intro r h
  refine ⟨⟨h.L.wf, h.L.tight, h.L.sorted, h.L.psz, h.L.ssz, h.L.upper⟩, fun i hi => h.L.st i hi, fun i hi => h.L.cnt i hi, h.dsz, fun i hi => ?_⟩
  have := h.good i hi
  unfold Crout.badDiag at this
  simp only [Bool.or_eq_false_iff, decide_eq_false_iff_not, not_lt] at this
  exact ⟨this.1.1, this.1.2, this.2⟩

/-- **C68 (recurrence with dropping).** For every dropping routine there are columns `Lt` (those before dropping), each the exact residual of what is
stored, scaled by the pivot; each stored entry is the computed one or absent; the pivots are the exact diagonal residuals with the columns before dropping. -/
theorem C68_symm_recurrence (hI : SymIn I) (hd : DropOK I.n Φ pr.drop) :
    Runs (croutPhase pr I) fun r => ∃ Lt : Nat → Nat → K,
      (∀ a, a < r.m → ∀ i, i < I.n → a < i →
        Lt i a * r.d.get a = I.s.get (r.p.p.get i) * I.A.entry (r.p.p.get i) (r.p.p.get a) * I.s.get (r.p.p.get a) -
          ∑ b ∈ range a, r.Lbar i b * r.d.get b * r.Lbar a b) ∧
      (∀ a, a < r.m → r.d.get a = I.s.get (r.p.p.get a) * I.A.entry (r.p.p.get a) (r.p.p.get a) * I.s.get (r.p.p.get a) -
          ∑ b ∈ range a, r.d.get b * Lt a b ^ 2) ∧
      (∀ a, a < r.m → ∀ i, i < I.n → a < i → r.Lbar i a = Lt i a ∨ r.Lbar i a = 0) := by
  have h1 := transfer hI.ok hI.ht hI.hq hd hd (C24_recurrence pr.gen I.sym Φ Φ hI.ok hd hd)
  have h2 := C68_symm_factor_form pr I Φ hI hd
  have h3 := C68_symm_ordering pr I Φ hI hd
  refine (h1.and (h2.and h3)).mono ?_
  rintro r ⟨⟨Ut, Lt, e1, e2, e3, e4⟩, ⟨-, -, -, -, hp⟩, hm, -, hinv, -⟩
  have hmle := hI.mle
  have hU : ∀ a, a < r.m → ∀ j, j < I.n → a < j → Ut a j = Lt j a := by
    intro a ha j hj haj
    have h1 := e1 a ha j hj haj
    have h2 := e2 a ha j hj haj
    have ht : Crout.Out.target I.sym r.lift a j = Crout.Out.target I.sym r.lift j a := by
      show I.s.get (r.p.p.get a) * I.A.entry (r.p.p.get a) (r.p.p.get j) * I.s.get (r.p.p.get j) =
        I.s.get (r.p.p.get j) * I.A.entry (r.p.p.get j) (r.p.p.get a) * I.s.get (r.p.p.get a)
      rw [hI.sym _ _ (hinv.1 a (by omega)).1 (hinv.1 j hj).1]
      ring
    have hs : (∑ b ∈ range a, r.lift.Lbar a b * r.lift.d.get b * r.lift.Ubar b j) = ∑ b ∈ range a, r.lift.Lbar j b * r.lift.d.get b * r.lift.Ubar b a :=
      sum_congr rfl fun b _ => by rw [lift_Lbar, lift_Lbar, lift_Ubar, lift_Ubar]; ring
    rw [ht, hs, ← h2, mul_comm] at h1
    exact mul_right_cancel₀ (hp a ha).1 h1
  refine ⟨Lt, fun a ha i hi hai => ?_, fun a ha => ?_, fun a ha i hi hai => (e4 a ha i hi hai).2⟩
  · have := e2 a ha i hi hai
    rw [show (∑ b ∈ range a, r.lift.Lbar i b * r.lift.d.get b * r.lift.Ubar b a) = ∑ b ∈ range a, r.Lbar i b * r.d.get b * r.Lbar a b from
      sum_congr rfl fun b _ => by rw [lift_Lbar, lift_Ubar]; rfl] at this
    exact this
  · have := e3 a ha
    rw [show (∑ b ∈ range a, Lt a b * r.lift.d.get b * Ut b a) = ∑ b ∈ range a, r.d.get b * Lt a b ^ 2 from
      sum_congr rfl fun b hb => by
        have hb := mem_range.1 hb
        have ha' : a < r.m := ha
        rw [hU b (by omega) a (by omega) hb]
        show Lt a b * r.d.get b * Lt a b = _
        ring] at this
    exact this

/-- **C68 (exactness).** If the dropping routine drops nothing then, whatever is deferred, `L D Lᵀ` equals the scaled input matrix in the final ordering
in every row and every column of the leading block. -/
theorem C68_symm_exact (hI : SymIn I) (hd : DropOK I.n Φ pr.drop) (hk : KeepsAll I.n pr.drop) :
    Runs (croutPhase pr I) fun r => ∀ i j, i < I.n → j < I.n → min i j < r.m →
      ∑ b ∈ range r.m, r.Lbar i b * r.d.get b * r.Lbar j b =
        I.s.get (r.p.p.get i) * I.A.entry (r.p.p.get i) (r.p.p.get j) * I.s.get (r.p.p.get j) := by
  refine (transfer hI.ok hI.ht hI.hq hd hd (C24_exact_without_dropping pr.gen I.sym Φ Φ hI.ok hd hd hk hk)).mono ?_
  intro r h i j hi hj hm
  rw [show (∑ b ∈ range r.m, r.Lbar i b * r.d.get b * r.Lbar j b) = ∑ b ∈ range r.lift.m, r.lift.Lbar i b * r.lift.d.get b * r.lift.Ubar b j from
    sum_congr rfl fun b _ => by rw [lift_Lbar, lift_Ubar]; rfl]
  exact h i j hi hj hm

end general

section real
variable [Field R] [LinearOrder R] [IsStrictOrderedRing R]

/-- **C68 (estimate).** At the end of the phase `kL` solves `L κ = e` on the leading block for a right-hand side of entries `±1`; each `|κ_h|` is at least
one, at most `kappa`, and at most the row sum of magnitudes of any inverse `X` of `L`. -/
theorem C68_symm_estimates (pr : Par K R) (I : In K) (Φ : Nat → Nat → Prop) (hI : SymIn I) (hd : DropOK I.n Φ pr.drop) (hn : IsAbs pr.nrm) :
    Runs (croutPhase pr I) fun r =>
      (∃ e : Nat → K, (∀ h, h < r.m → e h = 1 ∨ e h = -1) ∧ (∀ h, h < r.m → ∑ i ∈ range r.m, r.Lbar h i * r.kL.get i = e h)) ∧
      (∀ h, h < r.m → 1 ≤ pr.nrm (r.kL.get h) ∧ pr.nrm (r.kL.get h) ≤ pr.kappa) ∧
      (∀ X : Nat → Nat → K, (∀ i h, i < r.m → h < r.m → ∑ g ∈ range r.m, X i g * r.Lbar g h = if i = h then 1 else 0) →
        ∀ h, h < r.m → pr.nrm (r.kL.get h) ≤ ∑ i ∈ range r.m, pr.nrm (X h i)) := by
  refine (transfer hI.ok hI.ht hI.hq hd hd (C54_estimates pr.gen I.sym Φ Φ hI.ok hd hd hn)).mono ?_
  rintro r ⟨-, h1, h2, -, h3⟩
  exact ⟨h1, fun h hh => ⟨(h2 h hh).2.2.1, (h2 h hh).2.2.2⟩, h3⟩

variable [FloorSemiring R] (nrm : K → R) (safeMin : R) (nth : (Nat → R) → Nat → List Nat → List Nat) (hnth : SV.NthSpec nth)
  (refuse : K → Bool) (kappaD kappa tau alpha : R) (rowSizes : Buf Nat) (I : In K) (hI : SymIn I) (hr : I.n ≤ rowSizes.size)
include hnth hI hr

/-- **C68 (dropping error).** With threshold dropping only, the residual off the diagonal of the leading rows and columns is at most
`|d_a| · tau / (|κ_a| kappa_d)`, and zero when `tau ≤ 0`. -/
theorem C68_symm_dropping_error (hn : IsAbs nrm) (hk : 0 ≤ kappaD) (ha : alpha ≤ 0) :
    Runs (croutPhase (⟨nrm, kappaD, kappa, safeMin, realDrop nrm nth tau kappaD alpha rowSizes, refuse⟩ : Par K R) I) fun r =>
      ∀ a j, a < r.m → j < I.n → a < j →
        nrm ((∑ b ∈ range r.m, r.Lbar j b * r.d.get b * r.Lbar a b) -
            I.s.get (r.p.p.get j) * I.A.entry (r.p.p.get j) (r.p.p.get a) * I.s.get (r.p.p.get a))
          ≤ nrm (r.d.get a) * max 0 (tau / (nrm (r.kL.get a) * kappaD)) := by
  have hd := realDrop_ok I.n nrm nth hnth tau kappaD alpha rowSizes hr
  refine (transfer hI.ok hI.ht hI.hq hd hd (C57_dropping_error nrm hn safeMin nth hnth refuse kappaD kappa tau tau alpha alpha rowSizes rowSizes
    I.sym hI.ok hr hr hk ⟨ha, ha⟩)).mono ?_
  intro r h a j h1 h2 h3
  rw [show (∑ b ∈ range r.m, r.Lbar j b * r.d.get b * r.Lbar a b) = ∑ b ∈ range r.lift.m, r.lift.Lbar j b * r.lift.d.get b * r.lift.Ubar b a from
    sum_congr rfl fun b _ => by rw [lift_Lbar, lift_Ubar]; rfl]
  exact (h a j h1 h2 h3).2

/-- **C68 (space limit).** With `alpha > 0` every column of `L` has at most `max 1 ⌈alpha·row_size⌉` entries, the size being that of the input row. -/
theorem C68_symm_space (ha : 0 < alpha) :
    Runs (croutPhase (⟨nrm, kappaD, kappa, safeMin, realDrop nrm nth tau kappaD alpha rowSizes, refuse⟩ : Par K R) I) fun r =>
      ∀ i, i < r.m → r.L.start.get (i + 1) - r.L.start.get i ≤ max 1 ⌈alpha * rowSizes.get (r.p.p.get i)⌉₊ := by
  have hd := realDrop_ok I.n nrm nth hnth tau kappaD alpha rowSizes hr
  refine (transfer hI.ok hI.ht hI.hq hd hd (C21_factor_lines nrm safeMin nth hnth refuse kappaD kappa tau tau alpha alpha rowSizes rowSizes
    I.sym hI.ok hr hr ⟨ha, ha⟩)).mono ?_
  intro r h i hi
  exact (h i hi).2

end real

section definite
variable {R : Type} [Field R] [LinearOrder R] [IsStrictOrderedRing R] [FloorSemiring R] [Inhabited R]

/-- A sum of squares weighted by pivots of one sign, with a unit lower triangular matrix, is definite. -/
theorem quad_pos {m : Nat} {L : Nat → Nat → R} {d x : Nat → R} (hL1 : ∀ b, b < m → L b b = 1) (hL0 : ∀ i b, i < b → b < m → L i b = 0)
    (hd : ∀ b, b < m → 0 < d b) (hx : ∃ i, i < m ∧ x i ≠ 0) :
    0 < ∑ i ∈ range m, ∑ j ∈ range m, x i * (∑ b ∈ range m, L i b * d b * L j b) * x j := by
  have e : (∑ i ∈ range m, ∑ j ∈ range m, x i * (∑ b ∈ range m, L i b * d b * L j b) * x j) =
      ∑ b ∈ range m, d b * (∑ i ∈ range m, x i * L i b) ^ 2 := by
    calc (∑ i ∈ range m, ∑ j ∈ range m, x i * (∑ b ∈ range m, L i b * d b * L j b) * x j)
        = ∑ i ∈ range m, ∑ j ∈ range m, ∑ b ∈ range m, d b * ((x i * L i b) * (x j * L j b)) := by
          refine sum_congr rfl fun i _ => sum_congr rfl fun j _ => ?_
          rw [mul_sum, sum_mul]
          exact sum_congr rfl fun b _ => by ring
      _ = ∑ i ∈ range m, ∑ b ∈ range m, ∑ j ∈ range m, d b * ((x i * L i b) * (x j * L j b)) := sum_congr rfl fun i _ => sum_comm
      _ = ∑ b ∈ range m, ∑ i ∈ range m, ∑ j ∈ range m, d b * ((x i * L i b) * (x j * L j b)) := sum_comm
      _ = _ := by
          refine sum_congr rfl fun b _ => ?_
          rw [pow_two, sum_mul_sum, mul_sum]
          exact sum_congr rfl fun i _ => by rw [mul_sum]
  rw [e]
  obtain ⟨i, hi, hxi⟩ := hx
  let P := (range m).filter fun i => x i ≠ 0
  have hP : P.Nonempty := ⟨i, mem_filter.2 ⟨mem_range.2 hi, hxi⟩⟩
  obtain ⟨hbm, hb⟩ := mem_filter.1 (P.max'_mem hP)
  set b := P.max' hP with hbdef
  have hbm := mem_range.1 hbm
  have hy : (∑ i ∈ range m, x i * L i b) = x b := by
    rw [sum_eq_single_of_mem b (mem_range.2 hbm), hL1 b hbm, mul_one]
    intro i hi hne
    have hi := mem_range.1 hi
    rcases Nat.lt_or_ge i b with c | c
    · rw [hL0 i b c hbm, mul_zero]
    · by_cases hz : x i = 0
      · rw [hz, zero_mul]
      · have := P.le_max' i (mem_filter.2 ⟨mem_range.2 hi, hz⟩)
        omega
  refine sum_pos' (fun c hc => mul_nonneg (le_of_lt (hd c (mem_range.1 hc))) (sq_nonneg _)) ⟨b, mem_range.2 hbm, ?_⟩
  rw [hy]
  exact mul_pos (hd b hbm) (by positivity)

/-- **C68 (definiteness).** With `spd > 0` the leading part `L D Lᵀ` of every symmetric level is positive definite, with `spd < 0` negative definite,
whatever the matrix, the thresholds, the deferrals and the dropping. -/
theorem C68_symm_definite (pr : Par R R) (I : In R) (Φ : Nat → Nat → Prop) (hI : SymIn I) (hd : DropOK I.n Φ pr.drop) (spd : Int)
    (hspd : pr.refuse = Level.refuseOf (⟨fun a => a, spd⟩ : Level.SymmPar R R)) :
    Runs (croutPhase pr I) fun r => ∀ x : Nat → R, (∃ i, i < r.m ∧ x i ≠ 0) →
      (0 < spd → 0 < ∑ i ∈ range r.m, ∑ j ∈ range r.m, x i * (∑ b ∈ range r.m, r.Lbar i b * r.d.get b * r.Lbar j b) * x j) ∧
      (spd < 0 → ∑ i ∈ range r.m, ∑ j ∈ range r.m, x i * (∑ b ∈ range r.m, r.Lbar i b * r.d.get b * r.Lbar j b) * x j < 0) := by
  refine ((C68_symm_factor_form pr I Φ hI hd).and (transfer hI.ok hI.ht hI.hq hd hd
    ((Crout.croutPhase_runs (pr := pr.gen) (ΦU := Φ) (ΦL := Φ) hI.ok hd hd).mono fun r ⟨g, hr⟩ => hr.res hI.ok))).mono ?_
  rintro r ⟨⟨⟨-, -, -, hps, hss, -⟩, -, -, -, hp⟩, hres⟩ x hx
  have hmle := hI.mle
  have htot : r.m + r.defers = I.m2 := hres.tot
  have hL0 : ∀ i b, i < b → b < r.m → r.Lbar i b = 0 := fun i b h1 h2 => by
    unfold Out.Lbar
    rw [if_neg (by omega)]
    exact hres.L.zero h2 (by omega)
  constructor
  · intro h0
    refine quad_pos (fun b _ => if_pos rfl) hL0 (fun b hb => ?_) hx
    have := (hp b hb).2.2
    rw [hspd] at this
    unfold Level.refuseOf at this
    simp [h0] at this
    exact this.1
  · intro h0
    have hneg := quad_pos (m := r.m) (L := r.Lbar) (d := fun b => -r.d.get b) (x := x) (fun b _ => if_pos rfl) hL0 (fun b hb => ?_) hx
    · simp only [mul_neg, neg_mul, sum_neg_distrib] at hneg
      exact neg_pos.1 hneg
    · have := (hp b hb).2.2
      rw [hspd] at this
      unfold Level.refuseOf at this
      simp [h0] at this
      exact neg_pos.2 this.2

end definite

/-! ### A concrete case: `n = 4`, a permutation, one deferral because of the sign, a static tail -/

/-- `A = [[4,2,1,0],[2,-3,0,1],[1,0,3,2],[0,1,2,5]]`; preprocessing exchanged the first two, excluded the last, and scaled the first by `1/2`. -/
def exIn : In ℚ :=
  { n := 4, m2 := 3, s := Buf.ofList [1 / 2, 1, 1, 1], t := Buf.ofList [1 / 2, 1, 1, 1],
    A := Ex.mk 4 4 [0, 3, 6, 9, 12] [0, 1, 2, 0, 1, 3, 0, 2, 3, 1, 2, 3] [4, 2, 1, 2, -3, 1, 1, 3, 2, 1, 2, 5],
    p0 := Buf.ofList [1, 0, 2, 3], pinv0 := Buf.ofList [1, 0, 2, 3], q0 := Buf.ofList [1, 0, 2, 3], qinv0 := Buf.ofList [1, 0, 2, 3] }

theorem exIn_ok : SymIn exIn := by
  constructor
  case wf => constructor <;> decide
  case sorted => exact sorted_of_bounded (by decide)
  case sym =>
    have h : ∀ i, i < exIn.n → ∀ j, j < exIn.n → exIn.A.entry i j = exIn.A.entry j i := by decide +kernel
    exact fun i j hi hj => h i hi j hj
  case pinv => constructor <;> decide
  all_goals first | rfl | decide | decide +kernel

/-- Parameters that drop nothing; `spd = 1`. -/
def exPar (spd : Int) : Par ℚ ℚ :=
  ⟨fun x => |x|, 100, 100, 0, realDrop (fun x => |x|) (fun _ _ l => l) 0 100 0 (Buf.ofList [3, 3, 3, 3]), Level.refuseOf ⟨fun a => a, spd⟩⟩

/-- With `spd = 1` the row with the negative diagonal is deferred, … -/
example : (croutPhase (exPar 1) exIn).toOption.map (fun r => (r.m, r.defers, r.p.p.toList, r.d.toList.take 2)) =
    some (2, 1, [0, 2, 3, 1], [1, 11 / 4]) := by decide +kernel

/-- … with `spd = 0` it is not, … -/
example : (croutPhase (exPar 0) exIn).toOption.map (fun r => (r.m, r.defers, r.p.p.toList, r.d.toList)) =
    some (3, 0, [1, 0, 2, 3], [-3, 4 / 3, 45 / 16]) := by decide +kernel

/-- … and with `spd = -1` the others are. -/
example : (croutPhase (exPar (-1)) exIn).toOption.map (fun r => (r.m, r.defers, r.p.p.toList, r.d.toList.take 1)) =
    some (1, 2, [1, 3, 0, 2], [-3]) := by decide +kernel

example : (croutPhase (exPar 1) exIn).toOption.map (fun r => (r.L.inds.toList, r.L.vals.toList)) =
    some ([1, 3, 2, 3], [1 / 2, 1, 8 / 11, -2 / 11]) := by decide +kernel


end Hif.Symm
