import Verif.Builder
import Verif.Valid

set_option linter.unusedSectionVars false
set_option linter.unusedVariables false

/-!
# Driver of the multilevel factorization

Model of `HIF::factorize`, `HIF::_factorize_kernel` (src/hif/builder.hpp 264–366, 516–575) and of the decisions taken at the
end of `level_factorize` (src/hif/alg/factor.hpp 1032–1050, 1128, 1190–1316), `pivot_level_factorize`
(src/hif/alg/pivot_factor.hpp 489–495, 582, 650–760) and `symm_level_factorize` (src/hif/alg/symm_factor.hpp 444–450, 513,
575–690).

The numerical work of a level (preprocessing, Crout update, Schur complement, dense factorization) is a parameter here: a
routine that may raise an exception at any point, or return arbitrary factors.  What the driver needs from it is the contract
`CroutOK` (leading block sizes and the size of the Schur complement).
Simplifications: the comparison `m <= 0.4 * m2` is done exactly (`5 m ≤ 2 m2`); the first dense criterion
`ceil(nm * nm * rho) <= dense_thres1` is a Boolean of the routine; value conversion between precisions is the identity.
-/

namespace Hif
open Finset

/-- `opts.pivot` (Options.h). -/
inductive Pivoting where
  | off
  | on
  | auto
deriving DecidableEq, Repr

/-- The options the driver looks at (Options.h). -/
structure FacOpts where
  pivot : Pivoting
  isSymm : Bool
  N : Int
  check : Bool

/-- The three level kernels. -/
inductive LevelKind where
  | plain (sym : Bool)
  | pivot
  | symm
deriving DecidableEq, Repr

/-- What a level's numerical work produces before the driver's decisions: `m2` is the leading block size after preprocessing,
`m` after deferral.  `few` is the first dense criterion (for the block that is kept), `fewAll` the same if nothing is kept,
`dt2` is `dense_thres2`; `stats` are the increments of the statistics. -/
structure CroutOut (K : Type _) where
  m2 : Nat
  m : Nat
  L : CS K
  U : CS K
  E : CS K
  F : CS K
  d : Buf K
  s : Buf K
  t : Buf K
  p : Buf Nat
  pinv : Buf Nat
  q : Buf Nat
  qinv : Buf Nat
  schur : CS K
  few : Bool
  fewAll : Bool
  dt2 : Nat
  stats : Nat → Nat

/-- The numerical routines used by the driver: one level, and the dense factorization of the final block (which returns the
state of the dense solver and possibly an exception). -/
structure Kernels (K : Type _) where
  level : LevelKind → (level N m0 : Nat) → CS K → M (CroutOut K)
  dense : Bool → CS K → DenseOps K × Option Err

/-- Post-Crout decision (factor.hpp 1032–1038): `post_flag` and the leading block size. -/
def postFlag (m2 m : Nat) : Int × Nat :=
  if 4 * m ≤ m2 then (2, 0) else if 5 * m ≤ 2 * m2 then (-1, m) else (0, m)

/-- An identity permutation array (`make_eye`). -/
def eyeBuf (n : Nat) : Buf Nat := ⟨n, fun i => i⟩

section
variable {K : Type _} [Zero K] [One K]

/-- An array of ones. -/
def onesBuf (n : Nat) : Buf K := ⟨n, fun _ => 1⟩

/-- A compressed matrix without entries. -/
def CS.zero (psize ssize : Nat) : CS K := ⟨psize, ssize, ⟨psize + 1, fun _ => 0⟩, ⟨0, fun _ => 0⟩, ⟨0, fun _ => 0⟩⟩

/-- The level that is pushed (factor.hpp 1278–1281): the computed factors, or — if nothing was eliminated (factor.hpp 1128,
1186–1192) — trivial factors with unit scalings and identity permutations. The code leaves `L` and `U` of such a level
default-constructed, without any position array; here they have one with a single zero, which `solve` and `mmultiply` never
notice. Exporting them is the business of C80, which models the default-constructed storage itself. -/
def CroutOut.toPrec (o : CroutOut K) (n m : Nat) : Prec K :=
  if m ≠ 0 then
    { m := m, n := n, L := o.L, d := o.d, U := o.U, E := o.E, F := o.F, s := o.s, t := o.t, p := o.p, pinv := o.pinv, q := o.q,
      qinv := o.qinv, last := .none }
  else
    { m := 0, n := n, L := CS.zero 0 0, d := o.d, U := CS.zero 0 0, E := CS.zero 0 n, F := CS.zero n 0, s := onesBuf n,
      t := onesBuf n, p := eyeBuf n, pinv := eyeBuf n, q := eyeBuf n, qinv := eyeBuf n, last := .none }

/-- The dense criterion (factor.hpp 1232–1234, pivot_factor.hpp 686–688, symm_factor.hpp 599–601). -/
def useDense (kind : LevelKind) (opts : FacOpts) (o : CroutOut K) (post : Int) (n m : Nat) : Bool :=
  (post < 0 && (match kind with | .plain _ => opts.pivot != .auto | _ => true)) ||
    (if m ≠ 0 then o.few else o.fewAll) || decide (n - m ≤ o.dt2) || m == 0

/-- `DenseMatrix::from_sparse(S)` is empty iff `S` has no rows or no columns (DenseMatrix.hpp 255, 300–330). -/
def denseEmpty (S : CS K) : Bool := S.psize * S.ssize == 0

/-- Outcome of a level: retry the same matrix with pivoting, or continue with the Schur complement. -/
inductive LevelRes (K : Type _) where
  | retry
  | next (S : CS K)

/-- Which matrix goes on: the Schur complement, or the whole matrix if nothing was eliminated (factor.hpp 1128–1192). -/
def CroutOut.rest (o : CroutOut K) (A : CS K) (m : Nat) : CS K := if m ≠ 0 then o.schur else A

/-- Is the level given up in favour of the pivoting kernel (factor.hpp 1040–1050)? -/
def givesUp (kind : LevelKind) (opts : FacOpts) (post : Int) : Bool :=
  match kind with
  | .plain _ => opts.pivot == .auto && post != 0
  | _ => false

/-- Change the last element of a list (`precs.back()`). -/
def mapLast {α : Type _} : List α → (α → α) → List α
  | [], _ => []
  | [a], f => [f a]
  | a :: b :: l, f => a :: mapLast (b :: l) f

/-- Push a level (factor.hpp 1278–1281); the statistics are updated before (factor.hpp 1052–1060). -/
def HIF.push (P : Prec K) (st : Nat → Nat) : HM K Unit := fun h =>
  ({ h with precs := h.precs ++ [P], stats := fun i => h.stats i + st i }, .ok ())

/-- Which of the two solver members is used (factor.hpp 1290, symm_factor.hpp 655). -/
def mkLast (symm : Bool) (D : DenseOps K) : Last K := if symm then .symm D else .dense D

/-- `precs.back().dense_solver.set_matrix(S_D); …factorize(opts)` (factor.hpp 1290–1293, symm_factor.hpp 655–658): the solver is
set first; if its factorization raises an exception it stays set. -/
def HIF.setDense (symm : Bool) (D : DenseOps K) (err : Option Err) : HM K Unit := fun h =>
  let h' := { h with precs := mapLast h.precs fun P => { P with last := mkLast symm D } }
  match err with
  | none => (h', .ok ())
  | some e => (h', .error e)

/-- A level kernel: numerical work, then the decisions. -/
def HIF.levelFactorize (ker : Kernels K) (opts : FacOpts) (kind : LevelKind) (lvl N m0 : Nat) (A : CS K) :
    HM K (LevelRes K) := do
  let o ← HM.lift (ker.level kind lvl N m0 A)
  let pf := postFlag o.m2 o.m
  if givesUp kind opts pf.1 then pure .retry
  else do
    HIF.push (o.toPrec A.psize pf.2) o.stats
    let S := o.rest A pf.2
    if useDense kind opts o pf.1 A.psize pf.2 && !denseEmpty S then do
      let r := ker.dense (kind == .symm) S
      HIF.setDense (kind == .symm) r.1 r.2
      pure (.next S)
    else pure (.next S)

/-- Which kernel (builder.hpp 538–566). -/
def levelKind (opts : FacOpts) (sym mustPivot : Bool) : LevelKind :=
  if opts.isSymm then .symm
  else match opts.pivot with
    | .off => .plain sym
    | .on => .pivot
    | .auto => if mustPivot then .pivot else .plain sym

/-- `pivot_flag` after the level (builder.hpp 537, 553–563). -/
def pivotFlag (opts : FacOpts) (mustPivot : Bool) (r : LevelRes K) : Bool :=
  if opts.isSymm then false
  else match opts.pivot with
    | .auto => mustPivot || (match r with | .retry => true | .next _ => false)
    | _ => false

/-- The reference size (builder.hpp 525–529). -/
def refSize (opts : FacOpts) (h : HIF K) (A : CS K) : Nat :=
  if 0 ≤ opts.N then opts.N.toNat
  else match h.precs with
    | [] => A.psize
    | P :: _ => P.n

/-- Must the driver go on (builder.hpp 571)? -/
def HIF.unfinished (h : HIF K) : Bool :=
  match h.precs.getLast? with
  | none => true
  | some P => !P.isLast

/-- `_factorize_kernel` (builder.hpp 516–575).  `fuel` bounds the recursion depth; running out is reported as an undefined
outcome (C26 shows it never happens with `2 n + 2`). -/
def HIF.factorizeKernel (ker : Kernels K) (opts : FacOpts) : Nat → CS K → (m0 : Nat) → (mustPivot : Bool) → HM K Unit
  | 0, _, _, _ => HM.lift (throw (.ub "out of fuel"))
  | fuel + 1, A, m0, mustPivot =>
    if A.psize ≠ A.ssize then HM.fail "Currently only squared systems are supported"
    else do
      let h ← HM.read
      let lvl := h.levels + 1
      let sym := lvl == 1 && decide (0 < m0)
      let m := if sym then m0 else A.psize
      let res ← HIF.levelFactorize ker opts (levelKind opts sym mustPivot) lvl (refSize opts h A) m A
      let h' ← HM.read
      if h'.unfinished then
        HIF.factorizeKernel ker opts fuel (match res with | .retry => A | .next S => S) 0 (pivotFlag opts mustPivot res)
      else pure ()

/-- The user's matrix: index arrays as given, values, and the number of rows and columns; `psize` of `raw` is the number of rows
for CRS and of columns for CCS. -/
structure Input (K : Type _) where
  raw : RawCS
  other : Nat
  vals : Buf K
  rowMajor : Bool

/-- `nrows()` / `ncols()` of the input. -/
def Input.nrows (A : Input K) : Nat := if A.rowMajor then A.raw.psize else A.other
def Input.ncols (A : Input K) : Nat := if A.rowMajor then A.other else A.raw.psize

/-- Conversion to zero base (builder.hpp 308–333).  `junk` is the content of the freshly resized pointer array of a matrix
without rows. -/
def Input.toZeroBased (junk : Nat → Int) (A : Input K) : M RawCS :=
  if A.nrows ≠ 0 then do
    let b ← A.raw.start.rd 0
    if b = 0 then pure A.raw
    else if b = 1 then
      pure { A.raw with start := ⟨A.raw.start.size, fun i => A.raw.start.get i - 1⟩, inds := ⟨A.raw.inds.size, fun i => A.raw.inds.get i - 1⟩ }
    else throw (.hif "only {0,1}-based compressed sparse matrices are supported!")
  else pure { A.raw with start := ⟨A.raw.psize + 1, junk⟩, inds := ⟨0, fun _ => 0⟩ }

/-- The beginning of `factorize` (builder.hpp 291–306): record the sizes, wipe old levels, reset the statistics. -/
def HIF.beginFactorize (junk : Nat → K) (nr nc : Nat) : HM K Unit := fun h =>
  ({ h with nrows := nr, ncols := nc, precs := [], work := if h.empty then h.work else ⟨0, junk⟩, stats := fun _ => 0 }, .ok ())

/-- `factorize` (builder.hpp 264–366). -/
def HIF.factorize (junk : Nat → K) (ijunk : Nat → Int) (ker : Kernels K) (opts : FacOpts) (A : Input K) (m0 : Nat) : HM K Unit := do
  HIF.beginFactorize junk A.nrows A.ncols
  let raw ← HM.lift (A.toZeroBased ijunk)
  HM.lift (if opts.check then raw.checkValidity A.other else pure ())
  HIF.factorizeKernel ker opts (2 * A.raw.psize + 2) (raw.toCS A.other A.vals) m0 false

end
end Hif
