import Verif.Props.SymmLevel
import Verif.Props.LevelEx
import Verif.Props.DenseCrit
import Verif.Props.Growth

set_option linter.unusedSectionVars false
set_option linter.unusedVariables false

/-!
# Examples for C69 and C70
-/

namespace Hif.Props.ExSymm
open Hif Level Spec HIF HM Finset ExLevel

theorem contract : SymmContract env opts := ⟨rfl, fun _ _ => rfl, fun x => abs_nonneg x, nth_spec, fun _ _ => List.perm_insertionSort _ _, Or.inl rfl⟩

theorem patSym_of {K : Type} {A : CS K} (h : ∀ i, i < A.psize → ∀ j, j < A.psize →
    (∃ k, k < A.start.get (i + 1) ∧ A.start.get i ≤ k ∧ A.inds.get k = j) → ∃ k, k < A.start.get (j + 1) ∧ A.start.get j ≤ k ∧ A.inds.get k = i) : A.PatSym := by
  rintro i j hi hj ⟨k, h1, h2, h3⟩
  obtain ⟨k, h1, h2, h3⟩ := h i hi j hj ⟨k, h2, h1, h3⟩
  exact ⟨k, h2, h1, h3⟩

/-- The matrix of `ExLevel`, `[[2,0,1],[0,4,1],[1,1,0]]`, is symmetric. -/
theorem A3_sym : SymCS A3 := by
  refine ⟨A3_wf, A3_tight, A3_sorted, rfl, ?_, patSym_of (by decide)⟩
  have h : ∀ i, i < A3.psize → ∀ j, j < A3.psize → A3.entry i j = A3.entry j i := by decide +kernel
  exact fun i j hi hj => h i hi j hj

/-- Non-vacuity of C69: with `spd = 1` two unknowns are eliminated, the third is deferred, the exact Schur complement is `[-3/4]`, … -/
example : SymmContract env opts ∧ SymCS A3 ∧ SizesOK env A3.psize ∧ NoDrop opts A3.psize ∧
    (symmLevel env opts ⟨fun a => a, 1⟩ true 1 3 3 A3).map (fun o => (o.m2, o.m, o.d.toList.take 2, o.schur.vals.toList)) = .ok (3, 2, [2, 4], [-3/4]) :=
  ⟨contract, A3_sym, sizes _ (by decide), noDrop _ (by decide), by decide +kernel⟩

/-- … and `U = Lᵀ`, `F = Eᵀ` (here `E` is `1 × 2` by columns, `F` is `2 × 1` by columns). -/
example : (symmLevel env opts ⟨fun a => a, 1⟩ true 1 3 3 A3).map (fun o => (o.E.start.toList, o.E.vals.toList, o.F.start.toList, o.F.inds.toList)) =
    .ok ([0, 1, 2], [1, 1], [0, 2], [0, 1]) := by decide +kernel

/-- With `spd = -1` every pivot is refused and the level is given up. -/
example : (symmLevel env opts ⟨fun a => a, -1⟩ true 1 3 3 A3).map (fun o => (o.m2, o.m, o.stats 0)) = .ok (3, 0, 3) := by decide +kernel

theorem raw3_sym : SymMat 3 (mat true (raw3.toCS 3 in3.vals)) := by
  have h : ∀ i, i < 3 → ∀ j, j < 3 → mat true (raw3.toCS 3 in3.vals) i j = mat true (raw3.toCS 3 in3.vals) j i := by decide +kernel
  exact fun i j hi hj => h i hi j hj

theorem raw3_pat : (raw3.toCS 3 in3.vals).PatSym := patSym_of (by decide +kernel)

theorem dense_exact (rk : Nat) (S : CS ℚ) (h : Injective S.psize (mat true S)) :
    (exactDense true true S).2 = none ∧ SymDenseExact rk S.psize (mat true S) (exactDense true true S).1 := by
  have hu := isUnit_of_injective h
  exact ⟨rfl, fun y hy => ⟨_, rfl, rfl, fun i hi => pick_spec hu y.get hi⟩, fun y hy => ⟨_, rfl, rfl, fun i hi => rfl⟩⟩

/-- A new object. -/
def new (junk : Nat → ℚ) : HIF ℚ := { precs := [], work := ⟨0, junk⟩, nsp := none, nspTran := none, stats := fun _ => 0, nrows := 0, ncols := 0 }

/-- Non-vacuity of C70 (exactness), and an instance of it. -/
example (junk : Nat → ℚ) (spd : Int) :
    ∃ h₁, factorize junk (fun _ => 0) (allKernels env opts ⟨fun a => a, spd⟩ false true other) ⟨.off, true, -1, true⟩ in3 0 (new junk) = (h₁, .ok ()) ∧
    ∃ h₂ x, solve junk (Buf.ofList [3, 5, 2]) (Buf.mk' 3 0) false 0 h₁ = (h₂, .ok x) ∧ x.size = 3 ∧
      ∀ i, i < 3 → Spec.mulVec 3 (mat true (raw3.toCS 3 in3.vals)) x.get i = (Buf.ofList [3, 5, 2]).get i := by
  obtain ⟨h₁, e1, e2⟩ := C70_exact env opts contract ⟨fun a => a, spd⟩ other junk (fun _ => 0) ⟨.off, true, -1, true⟩ rfl in3 raw3 3 valid3 raw3_sym raw3_pat
    (sizes 3 (by decide)) (noDrop 3 (by decide)) inj3 0 (fun S _ _ _ hi => dense_exact 0 S hi) (new junk) (fun _ => rfl) rfl
  obtain ⟨h₂, x, s1, s2, s3⟩ := e2 (Buf.ofList [3, 5, 2]) (Buf.mk' 3 0) rfl rfl
  exact ⟨h₁, e1, h₂, x, s1, s2, s3⟩

/-- Non-vacuity of C70 (symmetry) and (definiteness): the factorization of the same input completes with valid levels and a symmetric dense block, nonempty. -/
example (junk : Nat → ℚ) (spd : Int) :
    ∃ h₁, ∃ S : CS ℚ, factorize junk (fun _ => 0) (allKernels env opts ⟨fun a => a, spd⟩ false true other) ⟨.off, true, -1, true⟩ in3 0 (new junk) = (h₁, .ok ()) ∧
      SymMat S.psize (mat true S) ∧ Prec.Good 0 (mat true S) S.psize h₁.precs 3 := by
  rcases symm_represents env opts contract ⟨fun a => a, spd⟩ other junk (fun _ => 0) ⟨.off, true, -1, true⟩ rfl in3 raw3 3 valid3 raw3_sym raw3_pat (sizes 3 (by decide))
      (fun S => SymCS S ∧ S.psize ≤ 3 ∧ Injective S.psize (mat true S)) ⟨input_symCS valid3 raw3_sym raw3_pat, le_refl _, inj3⟩ (fun _ h => h.1)
      (fun S _ _ _ d i => Or.inr rfl) (fun _ B out hout hk hle hi hlt hs _ => by
        obtain ⟨k1, k2, -, -, k5⟩ := hout.kept hk (fun hc => by cases hc)
        obtain ⟨LE, UF, hx⟩ := k5 ((noDrop 3 (by decide)).mono hle)
        obtain ⟨pm, pn, -⟩ := toPrec_m out B.psize out.m
        have hn : (out.toPrec B.psize out.m).toLevel.n = B.psize := pn
        have hm : (out.toPrec B.psize out.m).toLevel.m = out.m := pm
        have := hx.injective (fun c => by
          obtain ⟨w, -, -, hw, -⟩ := Prec.solveLdu_runs k1 ⟨(out.toPrec B.psize out.m).toLevel.m, c⟩ (le_refl _)
          exact ⟨w.get, hw⟩) (by rw [hn]; exact hi.2.2)
        rw [hn, hm] at this
        refine ⟨hs, by omega, ?_⟩
        rw [k2]
        exact this) (new junk) with ⟨h', S, k1, k2⟩ | ⟨h', msg, S, k1, k2, k3, k4, k5⟩
  · refine ⟨h', S, k1, fun i j hi hj => (k2.block (by omega)).1.good.1.symMat true i j hi hj, ?_⟩
    exact k2.good 0 fun h0 => by
      obtain ⟨b, -⟩ := k2.block h0
      exact lastOK_symm b.good.1 true (dense_exact 0 S b.good.2.2).2
  · exact absurd k5 (by show ¬ (exactDense true true S).2 = _; simp [exactDense])

/-- `diag(2, 2, 2, 0, 0)`. -/
def A5 : CS ℚ := Ex.mk 5 5 [0, 1, 2, 3, 4, 5] [0, 1, 2, 3, 4] [2, 2, 2, 0, 0]

/-- Options under which the third condition of the dense criterion fails for two deferred rows. -/
def optsD (rho : ℚ) : Level.Opts ℚ := { opts with denseThres := 1, cD := 0, rho := rho }

/-- Non-vacuity of the dense criterion: both answers occur (`4 rho` against `200 · (2 + 2)`), for every kind of level. -/
example : ((plainLevel env (optsD 200) false true 1 5 5 A5).map (fun o => (o.m2, o.m, useDense (.plain false) ⟨.off, false, -1, true⟩ o 0 5 3)) = .ok (5, 3, true)) ∧
    ((plainLevel env (optsD 201) false true 1 5 5 A5).map (fun o => (o.m2, o.m, useDense (.plain false) ⟨.off, false, -1, true⟩ o 0 5 3)) = .ok (5, 3, false)) ∧
    ((symmLevel env (optsD 200) ⟨fun a => a, 0⟩ true 1 5 5 A5).map (fun o => (o.m2, o.m, useDense .symm ⟨.off, false, -1, true⟩ o 0 5 3)) = .ok (5, 3, true)) ∧
    ((symmLevel env (optsD 201) ⟨fun a => a, 0⟩ true 1 5 5 A5).map (fun o => (o.m2, o.m, useDense .symm ⟨.off, false, -1, true⟩ o 0 5 3)) = .ok (5, 3, false)) := by
  decide +kernel

example : ((pivotLevel env (optsD 200) true 1 5 5 A5).map (fun o => (o.m2, o.m, useDense .pivot ⟨.on, false, -1, true⟩ o 0 5 3)) = .ok (5, 3, true)) ∧
    ((pivotLevel env (optsD 201) true 1 5 5 A5).map (fun o => (o.m2, o.m, useDense .pivot ⟨.on, false, -1, true⟩ o 0 5 3)) = .ok (5, 3, false)) := by
  decide +kernel

/-- `[[1,3,0],[0,1,0],[0,0,1]]` by rows. -/
def A3k : CS ℚ := Ex.mk 3 3 [0, 2, 3, 4] [0, 1, 1, 2] [1, 3, 1, 1]

/-- Options with a condition threshold `k`. -/
def optsK (k : ℚ) : Level.Opts ℚ := { opts with par := { opts.par with kappa := k } }

/-- Non-vacuity of C62, C66, C69 (growth): the absolute value; the growth of `U` is four, so that with the threshold 4 everything is eliminated and with the threshold 3
an unknown is deferred. -/
example : Crout.IsAbs env.a.nrm ∧ LevelContract env (optsK 3) ∧ LevelContract env (optsK 4) ∧ A3k.WF ∧ A3k.Tight ∧ A3k.Sorted ∧
    (localPars env.a.sqrt (optsK 3).par 1).kappa = 3 ∧ (localPars env.a.sqrt (optsK 4).par 1).kappa = 4 ∧
    (plainLevel env (optsK 3) false true 1 3 3 A3k).map (fun o => (o.m2, o.m)) = .ok (3, 2) ∧
    (plainLevel env (optsK 4) false true 1 3 3 A3k).map (fun o => (o.m2, o.m)) = .ok (3, 3) ∧
    (pivotLevel env (optsK 3) true 1 3 3 A3k).map (fun o => (o.m2, o.m)) = .ok (3, 2) :=
  ⟨⟨fun x => abs_nonneg x, abs_add_le, abs_mul, abs_neg, abs_one, abs_zero, by show |(1 + 1 : ℚ)| = 2; norm_num⟩,
    ⟨rfl, fun _ _ => rfl, fun x => abs_nonneg x, nth_spec, fun _ _ => List.perm_insertionSort _ _, Or.inl rfl⟩,
    ⟨rfl, fun _ _ => rfl, fun x => abs_nonneg x, nth_spec, fun _ _ => List.perm_insertionSort _ _, Or.inl rfl⟩,
    by constructor <;> decide, by constructor <;> decide, ExPre.sorted_of_bounded (by decide), by decide +kernel, by decide +kernel, by decide +kernel, by decide +kernel,
    by decide +kernel⟩

end Hif.Props.ExSymm
