import Verif.LevelGrow
import Verif.Props.SymmLevel

set_option linter.unusedVariables false
set_option linter.unusedSectionVars false

/-!
# C62, C66, C69: element growth of a level

`Level.Growth nrm kappa kappaD v` says about a stored level `v`: every pivot `d` satisfies `|1/d| ≤ kappaD`; there are vectors `x` with `xᵀ (I + U) = e` and `y` with
`(I + L) y = f`, the right-hand sides having entries `±1`, such that `1 ≤ |x_h|, |y_h| ≤ kappa` for every `h`.  The thresholds of level `lvl` are those of
`determine_fac_pars` (C56).
-/

namespace Hif.Props
open Level Spec Pre Finset HIF HM

section
variable {K R : Type} [Field K] [StarRing K] [DecidableEq K] [Inhabited K] [Field R] [LinearOrder R] [IsStrictOrderedRing R] [FloorSemiring R]

theorem kept_of {m2 m : Nat} (h4 : m2 < 4 * m) : (postFlag m2 m).2 ≠ 0 := by unfold postFlag; rw [if_neg (by omega)]; split <;> (show m ≠ 0; omega)

/-- C62 (growth): whatever is dropped, the level stored without pivoting keeps the growth bounds of its level. -/
theorem C62_growth {e : Env K R} {o : Level.Opts R} (hc : LevelContract e o) (hn : Crout.IsAbs e.a.nrm) (auto rowMajor : Bool) (lvl N : Nat) (hlvl : 0 < lvl) (A : CS K)
    (hA : A.WF) (ht : A.Tight) (hs : A.Sorted) (hsq : A.ssize = A.psize) (hsz : SizesOK e A.psize) (out : CroutOut K)
    (ho : plainLevel e o auto rowMajor lvl N A.psize A = .ok out) (h4 : out.m2 < 4 * out.m) (h5 : auto = true → 2 * out.m2 < 5 * out.m) :
    Growth e.a.nrm (localPars e.a.sqrt o.par lvl).kappa (localPars e.a.sqrt o.par lvl).kappaD (out.toPrec A.psize out.m).toLevel :=
  plainLevel_growth hc.envOK hn o (hc.prepOK fun _ _ => True) (fun _ _ _ _ _ => trivial) auto rowMajor lvl N hlvl hA ht hs hsq trivial hsz ho (kept_of h4)
    (fun ha => by have := h5 ha; unfold postFlag; rw [if_neg (by omega), if_neg (by omega)])

/-- C66 (growth): the same with pivoting. -/
theorem C66_growth {e : Env K R} {o : Level.Opts R} (hc : LevelContract e o) (hn : Crout.IsAbs e.a.nrm) (rowMajor : Bool) (lvl N : Nat) (hlvl : 0 < lvl) (A : CS K)
    (hA : A.WF) (ht : A.Tight) (hs : A.Sorted) (hsq : A.ssize = A.psize) (hsz : SizesOK e A.psize) (out : CroutOut K)
    (ho : pivotLevel e o rowMajor lvl N A.psize A = .ok out) (h4 : out.m2 < 4 * out.m) :
    Growth e.a.nrm (localPars e.a.sqrt o.par lvl).kappa (localPars e.a.sqrt o.par lvl).kappaD (out.toPrec A.psize out.m).toLevel :=
  pivotLevel_growth hc.envOK hn o (hc.prepOK fun _ _ => True) (fun _ _ _ _ _ => trivial) rowMajor lvl N hlvl hA ht hs hsq trivial hsz ho (kept_of h4)

/-- C69 (growth): the same for the symmetric level. -/
theorem C69_growth {e : Env K R} {o : Level.Opts R} (hc : SymmContract e o) (hn : Crout.IsAbs e.a.nrm) (x : SymmPar K R) (rowMajor : Bool) (lvl N : Nat) (A : CS K)
    (hA : SymCS A) (hsz : SizesOK e A.psize) (out : CroutOut K) (ho : symmLevel e o x rowMajor lvl N A.psize A = .ok out) (h4 : out.m2 < 4 * out.m) :
    Growth e.a.nrm (localPars e.a.sqrt o.par lvl).kappa (localPars e.a.sqrt o.par lvl).kappaD (out.toPrec A.psize out.m).toLevel :=
  symmLevel_growth hc.envOK hn o x rowMajor lvl N hA.wf hA.sorted hA.sq hA.sym (hc.prepared lvl hA) hsz ho (kept_of h4)

end
end Hif.Props
