import Verif.CroutProps

set_option linter.unusedVariables false
set_option linter.unusedSectionVars false

/-!
# Factorization parameters of a level (model)

Models `internal::determine_fac_pars` (src/hif/alg/factor.hpp 74–109) and how the level kernels receive its result
(factor.hpp 776–781; identically pivot_factor.hpp 234–240 and symm_factor.hpp 279–282).  Simplifications: exact arithmetic;
`pow(x, 1./2)` is a parameter `sqrt`; levels are numbered from 1 as in the code, `lvl = 0` does not occur.
-/

namespace Hif
variable {R : Type _} [Field R] [LinearOrder R]

/-- The options read by `determine_fac_pars` (Options.h). -/
structure FacParOpts (R : Type _) where
  rfPar : Bool
  kappaD : R
  kappa : R
  tauL : R
  tauU : R
  alphaL : R
  alphaU : R

/-- `pow(x, 1. / min(lvl, 2))` (83, 85–86). -/
def facRoot (sqrt : R → R) (lvl : Nat) (x : R) : R := if min lvl 2 = 1 then x else sqrt x

/-- `1. / min(10.0, pow(10.0, lvl - 1))` (84). -/
def facTau (lvl : Nat) : R := 1 / min 10 (10 ^ (lvl - 1))

/-- `determine_fac_pars` (79–109): the six components of the returned tuple, in the order of `make_tuple` on line 108:
`(kappa_d, kappa, tau_U, tau_L, alpha_L, alpha_U)`. -/
def determineFacPars (sqrt : R → R) (o : FacParOpts R) (lvl : Nat) : R × R × R × R × R × R :=
  if o.rfPar then
    (max 2 (facRoot sqrt lvl o.kappaD), max 2 (facRoot sqrt lvl o.kappa), o.tauU * facTau lvl, o.tauL * facTau lvl,
      if lvl > 2 then o.alphaL else o.alphaL * (min lvl 2 : Nat), if lvl > 2 then o.alphaU else o.alphaU * (min lvl 2 : Nat))
  else (o.kappaD, o.kappa, o.tauU, o.tauL, o.alphaL, o.alphaU)

/-- The local variables of a level kernel. -/
structure FacPars (R : Type _) where
  kappaD : R
  kappa : R
  tauL : R
  tauU : R
  alphaL : R
  alphaU : R

/-- `std::tie(kappa_d, kappa, tau_L, tau_U, alpha_L, alpha_U) = determine_fac_pars(opts, cur_level)` (779–781). -/
def localPars (sqrt : R → R) (o : FacParOpts R) (lvl : Nat) : FacPars R :=
  let v := determineFacPars sqrt o lvl
  { kappaD := v.1, kappa := v.2.1, tauL := v.2.2.1, tauU := v.2.2.2.1, alphaL := v.2.2.2.2.1, alphaU := v.2.2.2.2.2 }

variable {K : Type _} [Field K] [DecidableEq K] [FloorSemiring R]

/-- The parameters of the Crout loop of `level_factorize` at a level (factor.hpp 779–786, 933–968): rows of `U` are dropped with
`tau_U`, `alpha_U`, `row_sizes`, columns of `L` with `tau_L`, `alpha_L`, `col_sizes`. -/
def levelPar (nrm : K → R) (safeMin : R) (nth : (Nat → R) → Nat → List Nat → List Nat) (sqrt : R → R) (o : FacParOpts R) (lvl : Nat)
    (rowSizes colSizes : Buf Nat) : Crout.Par K R :=
  let v := localPars sqrt o lvl
  { nrm := nrm, kappaD := v.kappaD, kappa := v.kappa, safeMin := safeMin,
    dropU := Crout.realDrop nrm nth v.tauU v.kappaD v.alphaU rowSizes,
    dropL := Crout.realDrop nrm nth v.tauL v.kappaD v.alphaL colSizes }

end Hif
