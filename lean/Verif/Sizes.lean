import Verif.SymmLevel
import Verif.PSymmLevel

set_option linter.unusedSectionVars false
set_option linter.unusedVariables false

/-!
# The driver with the reference sizes it carries along (model)

In `Level.lean` the arrays `row_sizes`, `col_sizes` are inputs of every level.  Here is the driver as it is in the code: the arrays are local
variables of `factorize` (builder.hpp 352), initialized by the level kernels at level 1, read by them at every level, and overwritten with
the sizes of the deferred rows and columns when the recursion goes on.

Simplification: the arrays are initialized before the level kernel is called (the code does it at its beginning, after checking that the matrix is
square and building its counterpart); they are updated after the level has been pushed (the code does it just before, with the same permutations).
-/

namespace Hif
namespace Level

/-- `row_sizes` and `col_sizes` (builder.hpp 352). -/
structure Sizes where
  rows : Buf Nat
  cols : Buf Nat

section
variable {K R : Type _} [Field K] [DecidableEq K] [Inhabited K] [Field R] [LinearOrder R] [FloorSemiring R]

/-- `if (cur_level == 1u) { … }` (factor.hpp 629–653, pivot_factor.hpp 105–124, symm_factor.hpp 165–178, which leaves `col_sizes` alone). -/
def Sizes.init (isSymm rowMajor : Bool) (A : CS K) : M Sizes := do
  let C ← A.convert
  let Acrs := if rowMajor then A else C
  let Accs := if rowMajor then C else A
  let r ← initSizes Acrs (A.start.get A.psize) A.psize
  if isSymm then pure ⟨r, Buf.mk' 0 0⟩
  else do
    let c ← initSizes Accs (A.start.get A.psize) A.psize
    pure ⟨r, c⟩

/-- `if (S_D.empty()) { … }` (factor.hpp 1243–1257, pivot_factor.hpp 696–707, symm_factor.hpp 609–614). -/
def Sizes.next (isSymm : Bool) (sz : Sizes) (P : Prec K) : M Sizes := do
  let r ← nextSizes P.n P.m sz.rows P.p
  if isSymm then pure ⟨r, sz.cols⟩
  else do
    let c ← nextSizes P.n P.m sz.cols P.q
    pure ⟨r, c⟩

/-- The environment of a level whose reference sizes are `sz`. -/
def Env.with (e : Env K R) (sz : Sizes) : Env K R := { e with rows := fun _ => sz.rows, cols := fun _ => sz.cols }

/-- The kernels of the driver, all kinds of levels, without the reference sizes. -/
def fullKernels (e : Env K R) (o : Opts R) (x : SymmPar K R) (auto rowMajor : Bool) (dense : Bool → CS K → DenseOps K × Option Err) : Kernels K :=
  { level := fun kind lvl N m0 A =>
      match kind with
      | .plain false => plainLevel e o auto rowMajor lvl N m0 A
      | .plain true => partLevel e o auto rowMajor lvl N m0 A
      | .pivot => pivotLevel e o rowMajor lvl N m0 A
      | .symm => symmLevel e o x rowMajor lvl N m0 A,
    dense := dense }
end

end Level

open Level
section
variable {K : Type _} [Zero K] [One K]

/-- `_factorize_kernel` (builder.hpp 516–575) with the reference sizes, which the level kernels take as an argument; compare `HIF.factorizeKernel`. -/
def HIF.sizedKernel (ker : Sizes → Kernels K) (init : CS K → M Sizes) (next : Sizes → Prec K → M Sizes) (opts : FacOpts) :
    Nat → CS K → (m0 : Nat) → (mustPivot : Bool) → Sizes → HM K Unit
  | 0, _, _, _, _ => HM.lift (throw (.ub "out of fuel"))
  | fuel + 1, A, m0, mustPivot, sz =>
    if A.psize ≠ A.ssize then HM.fail "Currently only squared systems are supported"
    else do
      let h ← HM.read
      let lvl := h.levels + 1
      let sz ← HM.lift (if lvl = 1 then init A else pure sz)
      let sym := lvl == 1 && decide (0 < m0)
      let m := if sym then m0 else A.psize
      let res ← HIF.levelFactorize (ker sz) opts (levelKind opts sym mustPivot) lvl (refSize opts h A) m A
      let h' ← HM.read
      if h'.unfinished then
        match res with
        | .retry => HIF.sizedKernel ker init next opts fuel A 0 (pivotFlag opts mustPivot res) sz
        | .next S => do
          let sz ← HM.lift (match h'.precs.getLast? with | some P => next sz P | none => pure sz)
          HIF.sizedKernel ker init next opts fuel S 0 (pivotFlag opts mustPivot res) sz
      else pure ()

/-- `factorize` (builder.hpp 264–366) with the reference sizes; the arrays start empty. -/
def HIF.sizedFactorize (junk : Nat → K) (ijunk : Nat → Int) (ker : Sizes → Kernels K) (init : CS K → M Sizes) (next : Sizes → Prec K → M Sizes)
    (opts : FacOpts) (A : Input K) (m0 : Nat) : HM K Unit := do
  HIF.beginFactorize junk A.nrows A.ncols
  let raw ← HM.lift (A.toZeroBased ijunk)
  HM.lift (if opts.check then raw.checkValidity A.other else pure ())
  HIF.sizedKernel ker init next opts (2 * A.raw.psize + 2) (raw.toCS A.other A.vals) m0 false ⟨Buf.mk' 0 0, Buf.mk' 0 0⟩

end
end Hif
