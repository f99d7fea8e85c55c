import Verif.Options
import Verif.Ascii

/-!
# Options as text (model)

Model of `opt_repr` (src/hif/Options.h 323–366), `get_verbose` (598–632) and `hif_get_reorder_name` (192–208).  `std::to_string` of a `double` is the parameter `pd`;
of an `int` it is the decimal numeral (`Ascii.showInt`).
-/

namespace Hif
namespace Options
open Hif.Ascii (showInt)

variable {D : Type _}

/-- `leading_size` (Options.h 326). -/
def leadingSize : Nat := 30

/-- `cat + string(leading_size - cat.size(), ' ') + … + "\n"` (Options.h 327–336). -/
def pack (cat : String) (v : List Char) : List Char := cat.toList ++ (List.replicate (leadingSize - cat.toList.length) ' ' ++ (v ++ ['\n']))

/-- `if (name != "") name += "," + t; else name = t;` (Options.h 606–628). -/
def addName (on : Bool) (t name : String) : String := if on then (if name ≠ "" then name ++ ("," ++ t) else t) else name

/-- `get_verbose` (Options.h 598–632). -/
def getVerbose (o : Options D) : String :=
  if o.verbose = 0 then "none"
  else
    let name := if verboseOn .warn o then "warning" else if verboseOn .info o then "info" else ""
    let name := addName (verboseOn .pre o) "pre" name
    let name := addName (verboseOn .fac o) "fac" name
    let name := addName (verboseOn .preTime o) "pre_time" name
    addName (verboseOn .mem o) "mem" name

/-- `hif_get_reorder_name` (Options.h 192–208). -/
def reorderName (o : Options D) : String :=
  if o.reorder = 0 then "Off" else if o.reorder = 1 then "Auto" else if o.reorder = 2 then "AMD" else if o.reorder = 3 then "RCM" else "Null"

/-- `opt_repr` (Options.h 323–366). -/
def repr (pd : D → List Char) (o : Options D) : List Char :=
  pack "tau_L" (pd o.tau_L) ++ pack "tau_U" (pd o.tau_U) ++
  pack "kappa_d" (pd o.kappa_d) ++ pack "kappa" (pd o.kappa) ++
  pack "alpha_L" (pd o.alpha_L) ++
  pack "alpha_U" (pd o.alpha_U) ++ pack "rho" (pd o.rho) ++
  pack "c_d" (pd o.c_d) ++ pack "c_h" (pd o.c_h) ++
  pack "N" (showInt o.N) ++ pack "verbose" (getVerbose o).toList ++
  pack "rf_par" (showInt o.rf_par) ++
  pack "reorder" (reorderName o).toList ++ pack "spd" (showInt o.spd) ++
  pack "check" (if o.check ≠ 0 then "yes".toList else "no".toList) ++
  pack "pre_scale" (showInt o.pre_scale) ++
  pack "symm_pre_lvls" (showInt o.symm_pre_lvls) ++
  pack "threads" (showInt o.threads) ++
  pack "fat_schur_1st" (showInt o.fat_schur_1st) ++
  pack "rrqr_cond" (pd o.rrqr_cond) ++
  pack "pivot" (if o.pivot = 0 then "off".toList else if o.pivot = 1 then "on".toList else "auto".toList) ++
  pack "gamma" (pd o.gamma) ++ pack "beta" (pd o.beta) ++
  pack "is_symm" (showInt o.is_symm) ++ pack "no_pre" (showInt o.no_pre) ++
  pack "nzp_thres" (pd o.nzp_thres) ++
  pack "dense_thres" (showInt o.dense_thres)

end Options
end Hif
