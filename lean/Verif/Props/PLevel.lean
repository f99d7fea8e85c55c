import Verif.Props.Level
import Verif.Props.LevelEx

set_option linter.unusedSectionVars false
set_option linter.unusedVariables false

/-!
# C66: one level of the factorization with pivoting
-/

namespace Hif.Props
open Hif Level Spec HIF HM Finset

section
variable {K R : Type} [Field K] [StarRing K] [DecidableEq K] [Inhabited K] [Field R] [LinearOrder R] [IsStrictOrderedRing R] [FloorSemiring R]

/-- C66: for every valid square matrix, all options covered by the contract, every threshold `gamma` and every order in which the candidates are visited, a level
with pivoting runs to the end without an access out of range; if anything is eliminated, it hands over a valid level (triangular factors, nonzero pivots and
scalings, mutually inverse permutations) and a valid matrix for the next level, of dimension `n - m`. -/
theorem C66_level {e : Env K R} {o : Level.Opts R} (hc : LevelContract e o) (rowMajor : Bool) (lvl N : Nat) (hlvl : 0 < lvl) (A : CS K) (hA : A.WF)
    (ht : A.Tight) (hs : A.Sorted) (hsq : A.ssize = A.psize) (hsz : SizesOK e A.psize) :
    ∃ out, pivotLevel e o rowMajor lvl N A.psize A = .ok out ∧ out.m ≤ out.m2 ∧ out.m2 ≤ A.psize ∧
      (out.m2 < 4 * out.m →
        (out.toPrec A.psize out.m).OK ∧ out.schur.psize = A.psize - out.m ∧ out.schur.ssize = A.psize - out.m ∧
        (out.m < A.psize → out.schur.WF ∧ out.schur.Tight ∧ out.schur.Sorted)) := by
  obtain ⟨out, eo, ho⟩ := pivotLevel_runs hc.envOK o (hc.prepOK fun _ _ => True) (fun _ _ _ _ _ => trivial) rowMajor lvl N hlvl hA ht hs hsq trivial hsz
  refine ⟨out, eo, ho.mle, ho.m2le, fun h4 => ?_⟩
  obtain ⟨k1, k2, k3, k4, -⟩ := ho.kept (by unfold postFlag; rw [if_neg (by omega)]; split <;> (show out.m ≠ 0; omega)) (fun hc => by cases hc)
  exact ⟨k1, k2, k3, k4⟩

/-- C66 (exact): with parameters that drop nothing, the level and the matrix handed to the next level represent the input exactly: in the final
ordering (chosen by deferring and by exchanges of rows and of columns) and scaling it is `[[L D U, F], [E, L_E D U_F + S]]` with `E = L_E D U` and `F = L D U_F`
(`Spec.ExactLevel`); hence solving with the level and with `S` solves with `A`, and `S` is nonsingular if `A` is. -/
theorem C66_exact {e : Env K R} {o : Level.Opts R} (hc : LevelContract e o) (rowMajor : Bool) (lvl N : Nat) (hlvl : 0 < lvl) (A : CS K) (hA : A.WF)
    (ht : A.Tight) (hs : A.Sorted) (hsq : A.ssize = A.psize) (hsz : SizesOK e A.psize) (hnd : NoDrop o A.psize) (out : CroutOut K)
    (ho : pivotLevel e o rowMajor lvl N A.psize A = .ok out) (h4 : out.m2 < 4 * out.m) :
    let v := (out.toPrec A.psize out.m).toLevel
    let S := mat rowMajor out.schur
    (∃ LE UF, ExactLevel v S (mat rowMajor A) LE UF) ∧
    (∀ x b z g : Nat → K,
      (∀ i, i < v.m → ldu v.m v.L v.d v.U (fun j => x (v.q j) / v.t (v.q j)) i +
        mulVec (v.n - v.m) v.F (fun j => x (v.q (v.m + j)) / v.t (v.q (v.m + j))) i = v.s (v.p i) * b (v.p i)) →
      (∀ i, i < v.m → ldu v.m v.L v.d v.U z i = v.s (v.p i) * b (v.p i)) →
      (∀ i, i < v.n - v.m → mulVec (v.n - v.m) S (fun j => x (v.q (v.m + j)) / v.t (v.q (v.m + j))) i = g i) →
      (∀ i, i < v.n - v.m → mulVec v.m v.E z i + g i = v.s (v.p (v.m + i)) * b (v.p (v.m + i))) →
      ∀ i, i < A.psize → mulVec A.psize (mat rowMajor A) x i = b i) ∧
    (Injective A.psize (mat rowMajor A) → Injective (A.psize - out.m) S) := by
  intro v S
  obtain ⟨out', eo, hl⟩ := pivotLevel_runs hc.envOK o (hc.prepOK fun _ _ => True) (fun _ _ _ _ _ => trivial) rowMajor lvl N hlvl hA ht hs hsq trivial hsz
  obtain rfl : out = out' := Except.ok.inj (ho.symm.trans eo)
  obtain ⟨k1, -, -, -, k5⟩ := hl.kept (by unfold postFlag; rw [if_neg (by omega)]; split <;> (show out.m ≠ 0; omega)) (fun hc => by cases hc)
  obtain ⟨LE, UF, hx⟩ := k5 hnd
  obtain ⟨pm, pn, -⟩ := toPrec_m out A.psize out.m
  have hn : v.n = A.psize := pn
  have hm : v.m = out.m := pm
  refine ⟨⟨LE, UF, hx⟩, fun x b z g h1 h2 h3 h4 => ?_, fun hi => ?_⟩
  · have := hx.solves h1 h2 h3 h4
    rwa [hn] at this
  · have := hx.injective (fun c => by
      obtain ⟨w, -, -, hw, -⟩ := Prec.solveLdu_runs k1 ⟨v.m, c⟩ (le_refl _)
      exact ⟨w.get, hw⟩) (by rw [hn]; exact hi)
    rwa [hn, hm] at this

/-- C66 (statistics): what a level with pivoting adds to `stats(0..3)`, as for a level without (C62). -/
theorem C66_stats {e : Env K R} {o : Level.Opts R} (hc : LevelContract e o) (rowMajor : Bool) (lvl N : Nat) (hlvl : 0 < lvl) (A : CS K) (hA : A.WF)
    (ht : A.Tight) (hs : A.Sorted) (hsq : A.ssize = A.psize) (hsz : SizesOK e A.psize) (out : CroutOut K)
    (ho : pivotLevel e o rowMajor lvl N A.psize A = .ok out) :
    (4 * out.m ≤ out.m2 → out.stats 0 = A.psize ∧ out.stats 1 = 0 ∧ out.stats 2 = 0 ∧ out.stats 3 = 0) ∧
    (out.m2 < 4 * out.m → out.stats 0 + out.m = A.psize ∧ out.stats 1 + out.m = out.m2 ∧ out.stats 2 + out.stats 3 = out.stats 1) := by
  obtain ⟨out', eo, hl⟩ := pivotLevel_runs hc.envOK o (hc.prepOK fun _ _ => True) (fun _ _ _ _ _ => trivial) rowMajor lvl N hlvl hA ht hs hsq trivial hsz
  obtain rfl : out = out' := Except.ok.inj (ho.symm.trans eo)
  obtain ⟨s0, s1, s2⟩ := hl.stats
  have h1 := hl.mle
  have h2 := hl.m2le
  constructor
  · intro h4
    have hp : postFlag out.m2 out.m = (2, 0) := by unfold postFlag; rw [if_pos h4]
    rw [hp] at s0 s1 s2
    simp at s0 s1 s2
    exact ⟨s0, s1, s2.1, s2.2⟩
  · intro h4
    have hp : (postFlag out.m2 out.m).2 = out.m ∧ (postFlag out.m2 out.m).1 ≠ 2 := by
      unfold postFlag
      rw [if_neg (by omega)]
      split <;> exact ⟨rfl, by simp⟩
    rw [hp.1] at s0 s1
    rw [if_neg hp.2] at s2
    rw [if_pos (by omega)] at s1
    omega

end

namespace ExLevel

/-- `[[1,4,0],[4,1,1],[0,1,0]]` by rows: every acceptable pivot of the first step is off the diagonal if `gamma = 1`. -/
def P3 : CS ℚ := Ex.mk 3 3 [0, 2, 5, 6] [0, 1, 0, 1, 2, 1] [1, 4, 4, 1, 1, 1]

theorem P3_wf : P3.WF := by constructor <;> decide
theorem P3_tight : P3.Tight := by constructor <;> decide
theorem P3_sorted : P3.Sorted := ExPre.sorted_of_bounded (by decide)

/-- Non-vacuity of C66: the matrix meets the hypotheses; the first two rows are exchanged by the threshold test with `gamma = 1`, two unknowns are eliminated,
the third is deferred, and the exact Schur complement is handed over. -/
example : LevelContract env opts ∧ P3.WF ∧ P3.Tight ∧ P3.Sorted ∧ P3.ssize = P3.psize ∧ SizesOK env P3.psize ∧ NoDrop opts P3.psize ∧
    (pivotLevel env opts true 1 3 3 P3).map (fun o => (o.m2, o.m, o.p.toList, o.schur.vals.toList)) = .ok (3, 2, [1, 0, 2], [1/15]) ∧
    (pivotLevel env opts true 1 3 3 P3).map (fun o => (o.d.toList.take 2, o.q.toList)) = .ok ([4, 15/4], [0, 1, 2]) :=
  ⟨contract, P3_wf, P3_tight, P3_sorted, rfl, sizes _ (by decide), noDrop _ (by decide), by decide +kernel, by decide +kernel⟩

/-- A permutation matrix without diagonal entries. -/
def D4 : CS ℚ := Ex.mk 4 4 [0, 1, 2, 3, 4] [1, 0, 3, 2] [1, 1, 1, 1]

/-- Why the automatic mode of C63 matters: without pivoting (and without preprocessing) every unknown is deferred and the level is given up; repeated with pivoting,
all four are eliminated. -/
example : (plainLevel env opts true true 1 4 4 D4).map (fun o => (o.m2, o.m)) = .ok (4, 0) ∧
    givesUp (.plain false) ⟨.auto, false, -1, true⟩ (postFlag 4 0).1 = true ∧
    (pivotLevel env opts true 1 4 4 D4).map (fun o => (o.m2, o.m, o.p.toList, o.q.toList)) = .ok (4, 4, [1, 0, 3, 2], [0, 1, 2, 3]) :=
  ⟨by decide +kernel, by decide, by decide +kernel⟩

end ExLevel
end Hif.Props
