import Verif.SyEig
import Verif.Coo
import Verif.Prec

set_option linter.unusedSectionVars false
set_option linter.unusedVariables false

/-!
# The dense solver: QR with column pivoting (model)

Model of `QRCP` (src/hif/small_scale/QRCP.hpp 44–557), the default solver of the last block.  `K` are the matrix entries, `R` the real scalars, `nrm` the magnitude.

Simplifications.
* The LAPACK/BLAS routines enter through what they compute, with the bounds of the memory they access checked: `?geqp3` and `?laic1` are parameters; `?ormqr` applies
  the elementary reflectors stored below the diagonal, `?trsv` and `?trmv` are substitution and product with the upper triangle.  A division by zero in `?trsv` is the
  outcome `ub` (in floating point it produces infinities).
* Workspace queries and buffers (`_work`, `_rwork`) are sized by LAPACK and not modelled, except where the code itself writes to `_work`.
* The rank estimate is the default one (`_est_rank_2norm`); messages are not modelled.
-/

namespace Hif
namespace Qrcp
open Finset

variable {K R : Type _}

/-- Members of `QRCP` (545–556) that matter: `_mat` is column-major with `nrows` rows, `_jpvt` is 1-based. -/
structure St (K : Type _) where
  nrows : Nat
  ncols : Nat
  mat : Buf K
  jpvt : Buf Nat
  tau : Buf K
  rank : Nat

/-- What `?geqp3` returns: the overwritten matrix, the pivots, the scalars of the reflectors, `info`. -/
structure QrOut (K : Type _) where
  mat : Buf K
  jpvt : Buf Nat
  tau : Buf K
  info : Int

/-- Outside routines and constants: `geqp3 nrows ncols mat`, `laic1 max j x sest w gamma = (sestpr, s, c)` (`max`: JOB = 1), `diag_tol`, `cond_thres`. -/
structure Env (K R : Type _) where
  nrm : K → R
  geqp3 : Nat → Nat → Buf K → QrOut K
  laic1 : Bool → Nat → (Nat → K) → R → (Nat → K) → K → R × K × K
  diagTol : R
  condThres : R

section factorize
variable [Field K] [Field R] [LinearOrder R]

/-- `_mat(i, j)` (DenseMatrix.hpp: column-major). -/
def St.at (s : St K) (i j : Nat) : M K := s.mat.rd (i + j * s.nrows)

/-- The test of the diagonal (144–156): from the last one down, is one smaller than `eps`? -/
def smallDiag (nrm : K → R) (s : St K) (eps : R) : Nat → M Bool
  | 0 => pure false
  | i + 1 => do
    let d ← s.at i i
    if nrm d < eps then pure true else smallDiag nrm s eps i

/-- State of the incremental estimate (337–343). -/
structure Est (K R : Type _) where
  x : Buf K
  y : Buf K
  smin : R
  smax : R

/-- One accepted step (351–360). -/
def accept (rk : Nat) (e : Est K R) (a b : R × K × K) : M (Est K R) := do
  let x ← forUp 0 rk e.x fun i x => do let v ← x.rd i; x.wr i (v * a.2.1)
  let y ← forUp 0 rk e.y fun i y => do let v ← y.rd i; y.wr i (v * b.2.1)
  let x ← x.wr rk a.2.2
  let y ← y.wr rk b.2.2
  pure ⟨x, y, a.1, b.1⟩

/-- `_est_rank_2norm` (333–363), the loop from `rk` with `k` columns left. -/
def estRank (env : Env K R) (s : St K) : Nat → Nat → Est K R → M Nat
  | 0, rk, _ => pure rk
  | k + 1, rk, e => do
    let g ← s.at rk rk
    if rk + rk * s.nrows ≤ s.mat.size ∧ rk ≤ e.x.size ∧ rk ≤ e.y.size then
      let a := env.laic1 false rk e.x.get e.smin (fun i => s.mat.get (i + rk * s.nrows)) g
      let b := env.laic1 true rk e.y.get e.smax (fun i => s.mat.get (i + rk * s.nrows)) g
      if b.1 ≤ a.1 * env.condThres then do
        let e ← accept rk e a b
        estRank env s k (rk + 1) e
      else pure rk
    else throw .oob

/-- `_est_rank_2norm` from the beginning; `x` and `y` are the halves of `_work`. -/
def estRank2 (env : Env K R) (s : St K) : M Nat := do
  let d ← s.at 0 0
  let x ← (Buf.mk' s.ncols (0 : K)).wr 0 1
  let y ← (Buf.mk' s.ncols (0 : K)).wr 0 1
  estRank env s s.ncols 0 ⟨x, y, env.nrm d, env.nrm d⟩

/-- `factorize` (107–177) of the matrix set before. -/
def factorize (env : Env K R) (nrows ncols : Nat) (mat : Buf K) : M (St K) :=
  if nrows = 0 ∨ ncols = 0 then throw (.hif "matrix is still empty!")
  else if nrows < ncols then throw (.hif "matrix must have no smaller row size")
  else
    let r := env.geqp3 nrows ncols mat
    if r.info < 0 then throw (.hif "GEQP3 returned negative info")
    else
      let s : St K := ⟨nrows, ncols, r.mat, r.jpvt, r.tau, ncols⟩
      do
        let d ← s.mat.rd 0
        let small ← smallDiag env.nrm s (env.diagTol * env.nrm d) (min nrows ncols)
        if small then do
          let rk ← estRank2 env s
          pure { s with rank := rk }
        else pure s

end factorize

/-! ### the outside routines used by solve and multiply -/

section lapack
variable [Field K] [StarRing K] [DecidableEq K]

/-- The vector of reflector `i`: zero above, one at position `i`, the stored column below the diagonal. -/
def hvec (n : Nat) (mat : Nat → K) (i j : Nat) : K := if j < i ∨ n ≤ j then 0 else if j = i then 1 else mat (j + i * n)

/-- `(I - t v vᴴ) x`. -/
def refl (n : Nat) (v : Nat → K) (t : K) (x : Nat → K) : Nat → K := fun i => x i - t * v i * ∑ j ∈ range n, star (v j) * x j

/-- `Q x`, `Q = H_1 ⋯ H_k`: `?ormqr('L', 'N', …)`. -/
def applyQ (n : Nat) (mat tau : Nat → K) : Nat → (Nat → K) → Nat → K
  | 0, x => x
  | k + 1, x => applyQ n mat tau k (refl n (hvec n mat k) (tau k) x)

/-- `Qᴴ x`: `?ormqr('L', 'T', …)`, which is called with `'C'` for complex numbers (lapackf.hpp 519, 540). -/
def applyQH (n : Nat) (mat tau : Nat → K) : Nat → (Nat → K) → Nat → K
  | 0, x => x
  | k + 1, x => refl n (hvec n mat k) (star (tau k)) (applyQH n mat tau k x)

/-- `?ormqr` on the `n` values at offset `off`. -/
def ormqr (tran : Bool) (n k : Nat) (mat tau : Buf K) (off : Nat) (x : Buf K) : M (Buf K) :=
  if n * k ≤ mat.size ∧ k ≤ tau.size ∧ off + n ≤ x.size then
    let f := (if tran then applyQH else applyQ) n mat.get tau.get k fun i => x.get (off + i)
    pure { x with get := fun i => if off ≤ i ∧ i < off + n then f (i - off) else x.get i }
  else throw .oob

/-- The upper triangle. -/
def upper (n : Nat) (mat : Nat → K) (i j : Nat) : K := if i ≤ j then mat (i + j * n) else 0

/-- Back substitution `R x = y` with the leading `k` rows: after `t` steps the last `t` unknowns are known. -/
def backSub (k : Nat) (T : Nat → Nat → K) (y : Nat → K) : Nat → Nat → K
  | 0 => y
  | t + 1 =>
    let x := backSub k T y t
    fun i => if i = k - 1 - t then (y i - ∑ j ∈ Ico (k - t) k, T i j * x j) / T i i else x i

/-- Forward substitution `Rᴴ x = y`: after `t` steps the first `t` unknowns are known. -/
def fwdSub (T : Nat → Nat → K) (y : Nat → K) : Nat → Nat → K
  | 0 => y
  | t + 1 =>
    let x := fwdSub T y t
    fun i => if i = t then (y i - ∑ j ∈ range t, star (T j i) * x j) / star (T i i) else x i

/-- `?trsv('U', tran ? 'C' : 'N', 'N', …)` on the `k` values at offset `off`. -/
def trsv (tran : Bool) (n k : Nat) (mat : Buf K) (off : Nat) (x : Buf K) : M (Buf K) :=
  if (k ≠ 0 → k + (k - 1) * n ≤ mat.size) ∧ off + k ≤ x.size then
    if ∀ i, i < k → upper n mat.get i i ≠ 0 then
      let y := fun i => x.get (off + i)
      let f := if tran then fwdSub (upper n mat.get) y k else backSub k (upper n mat.get) y k
      pure { x with get := fun i => if off ≤ i ∧ i < off + k then f (i - off) else x.get i }
    else throw (.ub "division by zero")
  else throw .oob

/-- `?trmv('U', tran ? 'C' : 'N', 'N', …)` on the `k` values at offset `off`. -/
def trmv (tran : Bool) (n k : Nat) (mat : Buf K) (off : Nat) (x : Buf K) : M (Buf K) :=
  if (k ≠ 0 → k + (k - 1) * n ≤ mat.size) ∧ off + k ≤ x.size then
    let f := fun i => ∑ j ∈ range k, (if tran then star (upper n mat.get j i) else upper n mat.get i j) * x.get (off + j)
    pure { x with get := fun i => if off ≤ i ∧ i < off + k then f (i - off) else x.get i }
  else throw .oob

/-! ### solve and multiply -/

/-- Rank used by a call (375–376, 422–423, 464–465, 506–507). -/
def effRank (s : St K) (rank : Nat) : Nat := if rank = 0 then s.rank else if s.nrows < rank then s.nrows else rank

/-- `_work[_jpvt[i] - 1] = xi[i]`, zeros from `rk` on, copied back (403–410, 534–541). -/
def scatter (s : St K) (rk off : Nat) (x : Buf K) : M (Buf K) := do
  let w ← forUp 0 rk (Buf.mk' s.nrows (0 : K)) fun i w => do
    let p ← s.jpvt.rd i
    let v ← x.rd (off + i)
    w.wr (p - 1) v
  let w ← forUp rk s.jpvt.size w fun i w => do
    let p ← s.jpvt.rd i
    w.wr (p - 1) 0
  forUp 0 s.jpvt.size x fun i x => do
    let v ← w.rd i
    x.wr (off + i) v

/-- `_work[i] = xi[_jpvt[i] - 1]`, zeros from `rk` on, copied back (426–433, 468–475). -/
def gather (s : St K) (rk off : Nat) (x : Buf K) : M (Buf K) := do
  let w ← forUp 0 rk (Buf.mk' s.nrows (0 : K)) fun i w => do
    let p ← s.jpvt.rd i
    let v ← x.rd (off + (p - 1))
    w.wr i v
  let w ← forUp rk s.jpvt.size w fun i w => w.wr i 0
  forUp 0 s.jpvt.size x fun i x => do
    let v ← w.rd i
    x.wr (off + i) v

/-- `_solve_nt` (371–411), one right-hand side at offset `off`. -/
def solveNt (s : St K) (rk off : Nat) (x : Buf K) : M (Buf K) := do
  let x ← ormqr true s.nrows rk s.mat s.tau off x
  let x ← trsv false s.nrows rk s.mat off x
  scatter s rk off x

/-- `_solve_t` (418–455). -/
def solveT (s : St K) (rk off : Nat) (x : Buf K) : M (Buf K) := do
  let x ← gather s rk off x
  let x ← trsv true s.nrows rk s.mat off x
  ormqr false s.nrows rk s.mat s.tau off x

/-- `_multiply_nt` (460–495). -/
def multNt (s : St K) (rk off : Nat) (x : Buf K) : M (Buf K) := do
  let x ← gather s rk off x
  let x ← trmv false s.nrows rk s.mat off x
  ormqr false s.nrows rk s.mat s.tau off x

/-- `_multiply_t` (502–542). -/
def multT (s : St K) (rk off : Nat) (x : Buf K) : M (Buf K) := do
  let x ← ormqr true s.nrows rk s.mat s.tau off x
  let x ← trmv true s.nrows rk s.mat off x
  scatter s rk off x

/-- The checks of a call (213–214, 372–374). -/
def guarded (s : St K) (n : Nat) (m : M (Buf K)) : M (Buf K) :=
  if n ≠ s.nrows then throw (.hif "unmatched sizes between system and rhs")
  else if s.nrows = 0 ∨ s.ncols = 0 ∨ s.jpvt.size = 0 then throw (.hif "not factorized")
  else m

/-- `solve` (211–216). -/
def solve (s : St K) (x : Buf K) (rank : Nat) (tran : Bool) : M (Buf K) :=
  guarded s x.size (if tran then solveT s (effRank s rank) 0 x else solveNt s (effRank s rank) 0 x)

/-- `multiply` (251–256). -/
def multiply (s : St K) (x : Buf K) (rank : Nat) (tran : Bool) : M (Buf K) :=
  guarded s x.size (if tran then multT s (effRank s rank) 0 x else multNt s (effRank s rank) 0 x)

/-- `solve_mrhs` (230–243) for `N` right-hand sides, row-major.  (The template applies `?ormqr` to all columns at once; the result is the same column by column.) -/
def solveMrhs (s : St K) (N : Nat) (x : Buf K) (rank : Nat) (tran : Bool) : M (Buf K) :=
  guarded s (x.size / N) (do
    let m ← SyEig.copyIn s.nrows N x (Buf.mk' (s.nrows * N) 0)
    let m ← forUp 0 N m fun i m => if tran then solveT s (effRank s rank) (i * s.nrows) m else solveNt s (effRank s rank) (i * s.nrows) m
    SyEig.copyOut s.nrows N m x)

/-- `multiply_mrhs` (270–284). -/
def multMrhs (s : St K) (N : Nat) (x : Buf K) (rank : Nat) (tran : Bool) : M (Buf K) :=
  guarded s (x.size / N) (do
    let m ← SyEig.copyIn s.nrows N x (Buf.mk' (s.nrows * N) 0)
    let m ← forUp 0 N m fun i m => if tran then multT s (effRank s rank) (i * s.nrows) m else multNt s (effRank s rank) (i * s.nrows) m
    SyEig.copyOut s.nrows N m x)

/-- The operations the preconditioner uses. -/
def ops (s : St K) : DenseOps K :=
  { solve := fun x rank tran => solve s x rank tran, multiply := fun x rank tran => multiply s x rank tran,
    solveMrhs := fun N x rank => solveMrhs s N x rank false, rank := s.rank }

/-- What is left if the factorization fails: nothing to solve with. -/
def failed : DenseOps K :=
  { solve := fun _ _ _ => throw (.hif "not factorized"), multiply := fun _ _ _ => throw (.hif "not factorized"),
    solveMrhs := fun _ _ _ => throw (.hif "not factorized"), rank := 0 }

variable [Field R] [LinearOrder R]

/-- `dense_solver.set_matrix(S_D)` (79–84) and `factorize`: the kernel of the driver. -/
def dense (env : Env K R) (rowMajor : Bool) (_symm : Bool) (S : CS K) : DenseOps K × Option Err :=
  let r : M (St K) := do
    let d ← (if rowMajor then S.denseFromCRS else S.denseFromCCS)
    factorize env (if rowMajor then S.psize else S.ssize) (if rowMajor then S.ssize else S.psize) d
  match r with
  | .ok s => (ops s, none)
  | .error e => (failed, some e)

end lapack
end Qrcp
end Hif
