import Verif.Core
import Mathlib.Algebra.Field.Basic
import Mathlib.Data.Int.Cast.Basic
import Mathlib.Data.Int.Bitwise
import Mathlib.Tactic.Ring

/-!
# Control parameters (model)

Models `hif_Options` and its defaults (src/hif/Options.h 82–164), the verbosity constants (46–55) and
`hif_enable_verbose` (178–185), the table of names and `set_option_attr` (368–541), the stream reader `operator>>` (566–574),
and the C parameter array (libhifir/include/libhifir.h 96–117, libhifir/src/libhifir.cpp 73–94, 232–268).
`double` is an arbitrary field `D` with the conversions of C: an `int` becomes the corresponding number, a `double` is
truncated by the parameter `trunc`.
-/

namespace Hif

/-- `struct hif_Options` (Options.h 82–118), the fields in the order of their declaration. -/
structure Options (D : Type _) where
  tau_L : D
  tau_U : D
  kappa_d : D
  kappa : D
  alpha_L : D
  alpha_U : D
  rho : D
  c_d : D
  c_h : D
  N : Int
  verbose : Int
  rf_par : Int
  reorder : Int
  spd : Int
  check : Int
  pre_scale : Int
  symm_pre_lvls : Int
  threads : Int
  mumps_blr : Int
  fat_schur_1st : Int
  rrqr_cond : D
  pivot : Int
  gamma : D
  beta : D
  is_symm : Int
  no_pre : Int
  nzp_thres : D
  dense_thres : Int

/-- A value passed for an option: the template parameter `T` of `set_option_attr` is `double` or `int` (Options.h 446–447). -/
inductive OptVal (D : Type _) where
  | dbl (x : D)
  | int (z : Int)
deriving DecidableEq

section
variable {D : Type _} [Field D]

/-- Implicit conversion to `double`. -/
def OptVal.asD : OptVal D → D
  | .dbl x => x
  | .int z => (z : D)

/-- Implicit conversion to `int`. -/
def OptVal.asI (trunc : D → Int) : OptVal D → Int
  | .dbl x => trunc x
  | .int z => z

namespace Options

/-- `hif_get_default_options` (Options.h 135–164). -/
def defaults : Options D where
  tau_L := 1 / 10000
  tau_U := 1 / 10000
  kappa_d := 3
  kappa := 3
  alpha_L := 10
  alpha_U := 10
  rho := 1 / 2
  c_d := 10
  c_h := 2
  N := -1
  verbose := 1
  rf_par := 1
  reorder := 2
  spd := 0
  check := 1
  pre_scale := 0
  symm_pre_lvls := -2
  threads := 0
  mumps_blr := 1
  fat_schur_1st := 0
  rrqr_cond := 0
  pivot := 2
  gamma := 1
  beta := 1000
  is_symm := 0
  no_pre := 0
  nzp_thres := 65 / 100
  dense_thres := 2000

/-- `internal::option_tag2pos` (Options.h 404–432). -/
def tag2pos : String → Option Nat
  | "tau_L" => some 0
  | "tau_U" => some 1
  | "kappa_d" => some 2
  | "kappa" => some 3
  | "alpha_L" => some 4
  | "alpha_U" => some 5
  | "rho" => some 6
  | "c_d" => some 7
  | "c_h" => some 8
  | "N" => some 9
  | "verbose" => some 10
  | "rf_par" => some 11
  | "reorder" => some 12
  | "spd" => some 13
  | "check" => some 14
  | "pre_scale" => some 15
  | "symm_pre_lvls" => some 16
  | "threads" => some 17
  | "mumps_blr" => some 18
  | "fat_schur_1st" => some 19
  | "rrqr_cond" => some 20
  | "pivot" => some 21
  | "gamma" => some 22
  | "beta" => some 23
  | "is_symm" => some 24
  | "no_pre" => some 25
  | "nzp_thres" => some 26
  | "dense_thres" => some 27
  | _ => none

/-- `internal::option_dtypes` (Options.h 371–401): `true` for `double`. -/
def dtypes : List Bool :=
  [true, true, true, true, true, true, true, true, true, false, false, false, false, false, false, false, false, false, false, false, true, false, true, true, false, false, true, false]

/-- The `switch` of `set_option_attr` (Options.h 455–539). -/
def setPos (trunc : D → Int) (v : OptVal D) (o : Options D) : Nat → Options D
  | 0 => { o with tau_L := v.asD }
  | 1 => { o with tau_U := v.asD }
  | 2 => { o with kappa_d := v.asD }
  | 3 => { o with kappa := v.asD }
  | 4 => { o with alpha_L := v.asD }
  | 5 => { o with alpha_U := v.asD }
  | 6 => { o with rho := v.asD }
  | 7 => { o with c_d := v.asD }
  | 8 => { o with c_h := v.asD }
  | 9 => { o with N := v.asI trunc }
  | 10 => { o with verbose := v.asI trunc }
  | 11 => { o with rf_par := v.asI trunc }
  | 12 => { o with reorder := v.asI trunc }
  | 13 => { o with spd := v.asI trunc }
  | 14 => { o with check := v.asI trunc }
  | 15 => { o with pre_scale := v.asI trunc }
  | 16 => { o with symm_pre_lvls := v.asI trunc }
  | 17 => { o with threads := v.asI trunc }
  | 18 => { o with mumps_blr := v.asI trunc }
  | 19 => { o with fat_schur_1st := v.asI trunc }
  | 20 => { o with rrqr_cond := v.asD }
  | 21 => { o with pivot := v.asI trunc }
  | 22 => { o with gamma := v.asD }
  | 23 => { o with beta := v.asD }
  | 24 => { o with is_symm := v.asI trunc }
  | 25 => { o with no_pre := v.asI trunc }
  | 26 => { o with nzp_thres := v.asD }
  | 27 => { o with dense_thres := v.asI trunc }
  | _ => o

/-- `set_option_attr` (Options.h 446–541): the returned flag is `true` on failure. -/
def setAttr (trunc : D → Int) (attr : String) (v : OptVal D) (o : Options D) : Bool × Options D :=
  match tag2pos attr with
  | none => (true, o)
  | some pos => (false, setPos trunc v o pos)

/-! ### Reading from a stream -/

/-- Formatted extraction from a stream of tokens: how one token is read as a `double` or as an `int`.  Simplification: a token is
taken as a whole (`3.5` is not an integer followed by `.5`). -/
structure Reader (D T : Type _) where
  readD : T → Option D
  readI : T → Option Int

/-- State of the input stream: remaining tokens and whether `failbit` is set.  Once it is set, further extractions do nothing;
the extraction that fails stores 0 (C++11). -/
structure Stream (T : Type _) where
  toks : List T
  failed : Bool

variable {T : Type _}

/-- One `>>`. -/
def Stream.next {α : Type _} (s : Stream T) (old : α) (zero : α) (rd : T → Option α) : α × Stream T :=
  if s.failed then (old, s)
  else match s.toks with
    | [] => (old, ⟨[], true⟩)
    | t :: ts =>
      match rd t with
      | some v => (v, ⟨ts, false⟩)
      | none => (zero, ⟨ts, true⟩)

/-- The next token as a `double` for one field. -/
def getD' (r : Reader D T) (f : Options D → D) (g : D → Options D → Options D) (x : Options D × Stream T) : Options D × Stream T :=
  let y := x.2.next (f x.1) 0 r.readD
  (g y.1 x.1, y.2)

/-- The next token as an `int` for one field. -/
def getI' (r : Reader D T) (f : Options D → Int) (g : Int → Options D → Options D) (x : Options D × Stream T) : Options D × Stream T :=
  let y := x.2.next (f x.1) 0 r.readI
  (g y.1 x.1, y.2)

/-- `operator>>` (Options.h 565–574). -/
def read (r : Reader D T) (o : Options D) (s : Stream T) : Options D × Stream T :=
  let x := (o, s)
  let x := getD' r (·.tau_L) (fun v o => { o with tau_L := v }) x
  let x := getD' r (·.tau_U) (fun v o => { o with tau_U := v }) x
  let x := getD' r (·.kappa_d) (fun v o => { o with kappa_d := v }) x
  let x := getD' r (·.kappa) (fun v o => { o with kappa := v }) x
  let x := getD' r (·.alpha_L) (fun v o => { o with alpha_L := v }) x
  let x := getD' r (·.alpha_U) (fun v o => { o with alpha_U := v }) x
  let x := getD' r (·.rho) (fun v o => { o with rho := v }) x
  let x := getD' r (·.c_d) (fun v o => { o with c_d := v }) x
  let x := getD' r (·.c_h) (fun v o => { o with c_h := v }) x
  let x := getI' r (·.N) (fun v o => { o with N := v }) x
  let x := getI' r (·.verbose) (fun v o => { o with verbose := v }) x
  let x := getI' r (·.rf_par) (fun v o => { o with rf_par := v }) x
  let x := getI' r (·.reorder) (fun v o => { o with reorder := v }) x
  let x := getI' r (·.spd) (fun v o => { o with spd := v }) x
  let x := getI' r (·.check) (fun v o => { o with check := v }) x
  let x := getI' r (·.pre_scale) (fun v o => { o with pre_scale := v }) x
  let x := getI' r (·.symm_pre_lvls) (fun v o => { o with symm_pre_lvls := v }) x
  let x := getI' r (·.threads) (fun v o => { o with threads := v }) x
  let x := getI' r (·.mumps_blr) (fun v o => { o with mumps_blr := v }) x
  let x := getI' r (·.fat_schur_1st) (fun v o => { o with fat_schur_1st := v }) x
  let x := getD' r (·.rrqr_cond) (fun v o => { o with rrqr_cond := v }) x
  let x := getD' r (·.gamma) (fun v o => { o with gamma := v }) x
  let x := getD' r (·.beta) (fun v o => { o with beta := v }) x
  let x := getI' r (·.is_symm) (fun v o => { o with is_symm := v }) x
  let x := getI' r (·.no_pre) (fun v o => { o with no_pre := v }) x
  let x := getD' r (·.nzp_thres) (fun v o => { o with nzp_thres := v }) x
  let x := getI' r (·.dense_thres) (fun v o => { o with dense_thres := v }) x
  x

end Options

/-! ### The C parameter array -/

/-- Positions in the parameter array (libhifir.h 96–117). -/
def LHF_NUMBER_PARAMS : Nat := 17

/-- `create_params` (libhifir.cpp 73–94). -/
def createParams (trunc : D → Int) (params : Buf D) : M (Options D) := do
  let tau_L ← params.rd 0
  let tau_U ← params.rd 1
  let kappa_d ← params.rd 2
  let kappa ← params.rd 3
  let alpha_L ← params.rd 4
  let alpha_U ← params.rd 5
  let verbose ← params.rd 6
  let reorder ← params.rd 7
  let symm_pre_lvls ← params.rd 8
  let threads ← params.rd 9
  let rrqr_cond ← params.rd 10
  let pivot ← params.rd 11
  let beta ← params.rd 12
  let is_symm ← params.rd 13
  let no_pre ← params.rd 14
  let nzp_thres ← params.rd 15
  let dense_thres ← params.rd 16
  pure { (Options.defaults : Options D) with
    tau_L := tau_L,
    tau_U := tau_U,
    kappa_d := kappa_d,
    kappa := kappa,
    alpha_L := alpha_L,
    alpha_U := alpha_U,
    verbose := trunc verbose,
    reorder := trunc reorder,
    symm_pre_lvls := trunc symm_pre_lvls,
    threads := trunc threads,
    rrqr_cond := rrqr_cond,
    pivot := trunc pivot,
    beta := beta,
    is_symm := trunc is_symm,
    no_pre := trunc no_pre,
    nzp_thres := nzp_thres,
    dense_thres := trunc dense_thres }

/-- `lhfSetDefaultParams` (libhifir.cpp 232–251). -/
def setDefaultParams (params : Buf D) : M (Buf D) := do
  let o : Options D := Options.defaults
  let params ← params.wr 0 o.tau_L
  let params ← params.wr 1 o.tau_U
  let params ← params.wr 2 o.kappa_d
  let params ← params.wr 3 o.kappa
  let params ← params.wr 4 o.alpha_L
  let params ← params.wr 5 o.alpha_U
  let params ← params.wr 6 (o.verbose : D)
  let params ← params.wr 7 (o.reorder : D)
  let params ← params.wr 8 (o.symm_pre_lvls : D)
  let params ← params.wr 9 (o.threads : D)
  let params ← params.wr 10 o.rrqr_cond
  let params ← params.wr 11 (o.pivot : D)
  let params ← params.wr 12 o.beta
  let params ← params.wr 13 (o.is_symm : D)
  let params ← params.wr 14 (o.no_pre : D)
  let params ← params.wr 15 o.nzp_thres
  let params ← params.wr 16 (o.dense_thres : D)
  pure params

/-- `lhfSetDroptol` (254–257): the assignment chain stores the second slot first. -/
def setDroptol (droptol : D) (params : Buf D) : M (Buf D) := do
  let params ← params.wr 1 droptol
  params.wr 0 droptol

/-- `lhfSetAlpha` (260–263). -/
def setAlpha (alpha : D) (params : Buf D) : M (Buf D) := do
  let params ← params.wr 5 alpha
  params.wr 4 alpha

/-- `lhfSetKappa` (265–268). -/
def setKappa (kappa : D) (params : Buf D) : M (Buf D) := do
  let params ← params.wr 2 kappa
  params.wr 3 kappa

end

/-! ### Verbosity -/

/-- `HIF_VERBOSE_*` (Options.h 46–55): bit positions of the message classes of the core. -/
inductive CoreClass where
  | warn | info | pre | fac | preTime | mem | info2
deriving DecidableEq, Repr

/-- Value of `HIF_VERBOSE_*`. -/
def CoreClass.const : CoreClass → Int
  | .warn => 1
  | .info => 2
  | .pre => 4
  | .fac => 8
  | .preTime => 16
  | .mem => 32
  | .info2 => 64

/-- `hif_verbose(LVL, opt)` (Options.h 583, 596): `opt.verbose & VERBOSE_LVL`. -/
def verboseOn {D : Type _} (c : CoreClass) (o : Options D) : Bool := Int.land o.verbose c.const != 0

/-- `LHF_VERBOSE_*` (libhifir.h 120–127). -/
inductive LhfClass where
  | info | pre | fac | preTime | mem
deriving DecidableEq, Repr

/-- Value of `LHF_VERBOSE_*`. -/
def LhfClass.const : LhfClass → Int
  | .info => 1
  | .pre => 2
  | .fac => 4
  | .preTime => 8
  | .mem => 16

/-- `hif_enable_verbose` (Options.h 178–185). -/
def enableVerbose {D : Type _} (flag : Int) (o : Options D) : Options D :=
  if 0 < flag then { o with verbose := Int.lor o.verbose flag } else { o with verbose := 0 }

end Hif
