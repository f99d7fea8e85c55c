import Verif.Qrcp
import Mathlib.Logic.Equiv.Basic

set_option linter.unusedSectionVars false
set_option linter.unusedVariables false

/-!
# The other dense solver: LU with partial pivoting (model)

Model of `LUP` (src/hif/small_scale/LUP.hpp 48–209), the solver of the last block if the library is compiled with `HIF_DENSE_MODE = 0` (Prec.hpp 104, solver.hpp 50–54).

Simplifications.
* The LAPACK/BLAS routines enter through what they compute, with the bounds of the memory they access checked: `?getrf` is a parameter (`getf2` below is its textbook form),
  `?getrs` exchanges rows and substitutes, `?gemv` multiplies.  `?getrs` with a zero on the diagonal is the outcome `ub` (in floating point it produces infinities, except that some
  BLAS skip the division for a zero component).
* The wrappers for other value types (148–155, 190–199) convert; messages are not modelled.
* `mat()` and `mat_backup()` give write access to the matrices; only `set_matrix` is modelled, so both have the same shape.
-/

namespace Hif
namespace Lup
open Finset

variable {K R : Type _}

/-- Members of `LUP` (202–208) that matter: `_mat` and `_mat_backup` are column-major with `nrows` rows, `_ipiv` is 1-based. -/
structure St (K : Type _) where
  nrows : Nat
  ncols : Nat
  mat : Buf K
  backup : Buf K
  ipiv : Buf Nat
  rank : Nat

/-- The constructor (58): everything empty. -/
def St.init (junk : Nat → K) : St K := ⟨0, 0, ⟨0, junk⟩, ⟨0, junk⟩, ⟨0, fun _ => 0⟩, 0⟩

/-- What `?getrf` returns: the overwritten matrix, the exchanges, `info`. -/
structure LuOut (K : Type _) where
  mat : Buf K
  ipiv : Buf Nat
  info : Int

/-- `set_matrix` (73–98): neither `_ipiv` nor `_rank` is reset. -/
def setMatrix (s : St K) (nrows ncols : Nat) (mat : Buf K) : St K :=
  { s with nrows := nrows, ncols := ncols, mat := mat, backup := mat }

/-- `full_rank` (68). -/
def fullRank (s : St K) : Bool := s.rank != 0 && s.rank == s.ncols

/-- `factorize` (102–122). -/
def factorize (getrf : Nat → Buf K → LuOut K) (s : St K) : M (St K) :=
  if s.nrows = 0 ∨ s.ncols = 0 then throw (.hif "matrix is still empty!")
  else if s.nrows ≠ s.ncols then throw (.hif "the matrix must be squared!")
  else
    let r := getrf s.nrows s.mat
    if r.info < 0 then throw (.hif "GETRF returned negative info!")
    else if 0 < r.info then pure { s with mat := r.mat, ipiv := r.ipiv, rank := r.info.toNat - 1 }
    else pure { s with mat := r.mat, ipiv := r.ipiv, rank := s.ncols }

/-- `refactorize` (125–131): from the backup. -/
def refactorize (getrf : Nat → Buf K → LuOut K) (s : St K) : M (St K) := factorize getrf { s with mat := s.backup }

section lapack
variable [Field K] [StarRing K] [DecidableEq K]

/-- One exchange of `?laswp`: row `k` and row `ipiv(k)` of the values at offset `off`. -/
def swapRow (ipiv : Buf Nat) (off k : Nat) (x : Buf K) : M (Buf K) := do
  let p ← ipiv.rd k
  if p = 0 then throw .oob
  else do
    let a ← x.rd (off + k)
    let b ← x.rd (off + (p - 1))
    let x ← x.wr (off + k) b
    x.wr (off + (p - 1)) a

/-- `?laswp` forwards. -/
def laswp (n : Nat) (ipiv : Buf Nat) (off : Nat) (x : Buf K) : M (Buf K) := forUp 0 n x fun k x => swapRow ipiv off k x

/-- `?laswp` backwards. -/
def laswpBack (n : Nat) (ipiv : Buf Nat) (off : Nat) (x : Buf K) : M (Buf K) := forDown n x fun k x => swapRow ipiv off k x

/-- The unit lower triangle. -/
def lower (n : Nat) (mat : Nat → K) (i j : Nat) : K := if j < i then mat (i + j * n) else if j = i then 1 else 0

/-- Forward substitution `T x = y` with a lower triangle: after `t` steps the first `t` unknowns are known. -/
def lowSub (T : Nat → Nat → K) (y : Nat → K) : Nat → Nat → K
  | 0 => y
  | t + 1 =>
    let x := lowSub T y t
    fun i => if i = t then (y i - ∑ j ∈ range t, T i j * x j) / T i i else x i

/-- The two triangular systems of `?getrs` on the `n` values at offset `off`: `L U x = b`, or `Uᵀ Lᵀ x = b` (plain transpose, `'T'`). -/
def luSub (tran : Bool) (n : Nat) (mat : Buf K) (off : Nat) (x : Buf K) : M (Buf K) :=
  if n * n ≤ mat.size ∧ off + n ≤ x.size then
    if ∀ i, i < n → Qrcp.upper n mat.get i i ≠ 0 then
      let y := fun i => x.get (off + i)
      let L := lower n mat.get
      let U := Qrcp.upper n mat.get
      let f := if tran then Qrcp.backSub n (fun i j => L j i) (lowSub (fun i j => U j i) y n) n else Qrcp.backSub n U (lowSub L y n) n
      pure { x with get := fun i => if off ≤ i ∧ i < off + n then f (i - off) else x.get i }
    else throw (.ub "division by zero")
  else throw .oob

/-- `?getrs` on the `n` values at offset `off`. -/
def getrs (tran : Bool) (n : Nat) (mat : Buf K) (ipiv : Buf Nat) (off : Nat) (x : Buf K) : M (Buf K) :=
  if tran then do
    let x ← luSub true n mat off x
    laswpBack n ipiv off x
  else do
    let x ← laswp n ipiv off x
    luSub false n mat off x

/-- The checks of a call (138–142, 161–165). -/
def guarded (s : St K) (n : Nat) (m : M (Buf K)) : M (Buf K) :=
  if s.nrows = 0 ∨ s.ncols = 0 ∨ s.ipiv.size = 0 then throw (.hif "not factorized")
  else if n ≠ s.nrows then throw (.hif "unmatched sizes between system and rhs")
  else m

/-- `solve` (136–145): the rank is ignored; `tran ? 'T' : 'N'`. -/
def solve (s : St K) (x : Buf K) (_rank : Nat) (tran : Bool) : M (Buf K) :=
  guarded s x.size (getrs tran s.nrows s.mat s.ipiv 0 x)

/-- `solve_mrhs` (158–174) for `N` right-hand sides, row-major; `?getrs` treats the columns independently. -/
def solveMrhs (s : St K) (N : Nat) (x : Buf K) (_rank : Nat) (tran : Bool) : M (Buf K) :=
  guarded s (x.size / N) (do
    let m ← SyEig.copyIn s.nrows N x (Buf.mk' (s.nrows * N) 0)
    let m ← forUp 0 N m fun i m => getrs tran s.nrows s.mat s.ipiv (i * s.nrows) m
    SyEig.copyOut s.nrows N m x)

/-- `?gemv` with the `r × c` matrix `mat`: the product with it, or with its adjoint (`'C'`); `y` is overwritten (`beta = 0`). -/
def gemv (tran : Bool) (r c : Nat) (mat x y : Buf K) : M (Buf K) :=
  if tran then
    if r * c ≤ mat.size ∧ r ≤ x.size ∧ c ≤ y.size then
      pure { y with get := fun i => if i < c then ∑ j ∈ range r, star (mat.get (j + i * r)) * x.get j else y.get i }
    else throw .oob
  else
    if r * c ≤ mat.size ∧ c ≤ x.size ∧ r ≤ y.size then
      pure { y with get := fun i => if i < r then ∑ j ∈ range c, mat.get (i + j * r) * x.get j else y.get i }
    else throw .oob

/-- `multiply` (179–187) into `y`: with the backup, `tran ? 'C' : 'N'`; there is no check that a matrix is set or square. -/
def multiply (s : St K) (x y : Buf K) (_rank : Nat) (tran : Bool) : M (Buf K) :=
  if x.size ≠ s.nrows then throw (.hif "unmatched sizes between system and x")
  else if x.size ≠ y.size then throw (.hif "unmatched sizes x and y")
  else gemv tran s.nrows s.ncols s.backup x y

/-- The operations the preconditioner uses. -/
def ops (s : St K) : DenseOps K :=
  { solve := fun x rank tran => solve s x rank tran, multiply := fun x rank tran => multiply s x (Buf.mk' x.size 0) rank tran,
    solveMrhs := fun N x rank => solveMrhs s N x rank false, rank := s.rank }

/-- `dense_solver.set_matrix(S_D)` (73–78) and `factorize`: the kernel of the driver. -/
def dense (junk : Nat → K) (getrf : Nat → Buf K → LuOut K) (rowMajor : Bool) (_symm : Bool) (S : CS K) : DenseOps K × Option Err :=
  let r : M (St K) := do
    let d ← (if rowMajor then S.denseFromCRS else S.denseFromCCS)
    factorize getrf (setMatrix (St.init junk) (if rowMajor then S.psize else S.ssize) (if rowMajor then S.ssize else S.psize) d)
  match r with
  | .ok s => (ops s, none)
  | .error e => (Qrcp.failed, some e)

end lapack

/-! ### the textbook factorization (unblocked `?getf2`) -/

section getf2
variable [Field K] [DecidableEq K] [LinearOrder R]

/-- `i?amax`: the first of the rows `k, …, k + c` with the largest magnitude in column `j`. -/
def amax (nrm : K → R) (a : Nat → Nat → K) (j k : Nat) : Nat → Nat
  | 0 => k
  | c + 1 => if nrm (a (amax nrm a j k c) j) < nrm (a (k + c + 1) j) then k + c + 1 else amax nrm a j k c

/-- Exchange of two rows. -/
def rowSwap (a : Nat → Nat → K) (k p : Nat) : Nat → Nat → K := fun i j => a (Equiv.swap k p i) j

/-- Elimination in column `k`. -/
def elim (a : Nat → Nat → K) (k : Nat) : Nat → Nat → K := fun i j =>
  if k < i then
    if j = k then a i k / a k k else if k < j then a i j - a i k / a k k * a k j else a i j
  else a i j

/-- State of `?getf2`. -/
structure LuSt (K : Type _) where
  a : Nat → Nat → K
  ipiv : Nat → Nat
  info : Int

/-- Step `k`: without a nonzero pivot nothing happens (the column below is zero), the first such step is reported. -/
def luStep (nrm : K → R) (n k : Nat) (s : LuSt K) : LuSt K :=
  let p := amax nrm s.a k k (n - 1 - k)
  { a := if s.a p k ≠ 0 then elim (rowSwap s.a k p) k else s.a
    ipiv := fun i => if i = k then p + 1 else s.ipiv i
    info := if s.a p k = 0 ∧ s.info = 0 then (k : Int) + 1 else s.info }

/-- The first `k` steps. -/
def luIter (nrm : K → R) (n : Nat) (a : Nat → Nat → K) : Nat → LuSt K
  | 0 => ⟨a, fun _ => 0, 0⟩
  | k + 1 => luStep nrm n k (luIter nrm n a k)

/-- `?getf2` on a column-major `n × n` matrix. -/
def getf2 (nrm : K → R) (n : Nat) (mat : Buf K) : LuOut K :=
  let s := luIter nrm n (fun i j => mat.get (i + j * n)) n
  ⟨⟨mat.size, fun l => s.a (l % n) (l / n)⟩, ⟨n, s.ipiv⟩, s.info⟩

end getf2
end Lup
end Hif
