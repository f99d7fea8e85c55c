import Verif.Slice
import Mathlib.Algebra.BigOperators.Group.Finset.Basic
import Mathlib.Algebra.Order.Field.Basic
import Mathlib.Algebra.Star.BigOperators
import Mathlib.Algebra.BigOperators.Ring.Finset
import Mathlib.Algebra.BigOperators.Intervals

/-!
# The symmetric dense solver (model)

Model of `SYEIG` (src/hif/small_scale/SYEIG.hpp 44–331).  `R` are the (real) eigenvalues, `V` the (real or complex) matrix entries, `c` the embedding.

Simplifications: the LAPACK routine `?syev` and the BLAS routine `?gemv` enter through what they compute (`syev` is a parameter, `gemv` the sum), with the bounds of the
memory they access checked; a division by zero is the outcome `ub` (in floating point it produces infinities); the sort of the standard library is a parameter.
-/

namespace Hif
namespace SyEig
open Finset

variable {R : Type _} [Field R] [LinearOrder R] {V : Type _}

/-- Members of `SYEIG` (319–331). -/
structure St (R V : Type _) where
  /-- rows and columns of `_mat` -/
  nrows : Nat
  ncols : Nat
  /-- `_mat`, column-major -/
  mat : Buf V
  w : Buf R
  work : Buf V
  order : Buf Nat
  rank : Nat

/-- `std::max_element` with the comparison of magnitudes (136–140): position of the first largest. -/
def maxAbs (w : Buf R) : Nat → Nat → Nat → Nat
  | 0, _, best => best
  | n + 1, i, best => maxAbs w n (i + 1) (if |w.get best| < |w.get i| then i else best)

/-- Counting down the rank (144–148, 165–169): positions `i-1, i-2, …` of `idx` as long as the eigenvalue is refused. -/
def dropBack (w : Buf R) (refuse : R → Bool) (idx : Buf Nat) : Nat → M Nat
  | 0 => pure 0
  | i + 1 => do
    let o ← idx.rd i
    let x ← w.rd o
    if refuse x then dropBack w refuse idx i else pure (i + 1)

/-- Counting up (153–157): `k` eigenvalues are left, from position `i`. -/
def dropFront (w : Buf R) (refuse : R → Bool) : Nat → Nat → M Nat
  | 0, _ => pure 0
  | k + 1, i => do
    let x ← w.rd i
    if refuse x then dropFront w refuse k (i + 1) else pure (k + 1)

/-- `std::iota` (135). -/
def iota (n : Nat) : Buf Nat := { size := n, get := fun i => i }

/-- `std::reverse` (152). -/
def reverse (b : Buf Nat) : Buf Nat := { size := b.size, get := fun i => b.get (b.size - 1 - i) }

/-- The truncation (133–170) for eigenvalues `w`: order and rank.  `srt key` sorts by descending key. -/
def truncate (spd : Int) (eps : R) (srt : (Nat → R) → Buf Nat → Buf Nat) (w : Buf R) : M (Buf Nat × Nat) :=
  let n := w.size
  if n = 0 then throw (.ub "dereferences the end iterator")
  else
    let thres := eps * w.get (maxAbs w (n - 1) 1 0)
    if 0 < spd then do
      let rk ← dropBack w (fun x => decide (x ≤ 0 ∨ |x| ≤ thres)) (iota n) n
      pure (iota n, rk)
    else if spd < 0 then do
      let rk ← dropFront w (fun x => decide (0 ≤ x ∨ |x| ≤ thres)) n 0
      pure (reverse (iota n), rk)
    else do
      let ord := srt (fun i => |w.get i|) (iota n)
      let rk ← dropBack w (fun x => decide (|x| ≤ thres)) ord n
      pure (ord, rk)

/-- `factorize` (107–175); `syev` returns eigenvalues, eigenvectors (overwriting the matrix) and `info`; `lwork` is the answer of the workspace query. -/
def factorize [Inhabited V] (spd : Int) (eps : R) (srt : (Nat → R) → Buf Nat → Buf Nat) (syev : Nat → Buf V → Buf R × Buf V × Int) (lwork : Nat) (s : St R V) : M (St R V) :=
  if s.nrows = 0 ∨ s.ncols = 0 then throw (.hif "matrix is still empty!")
  else if s.nrows ≠ s.ncols then throw (.hif "the matrix must be squared!")
  else
    let r := syev s.nrows s.mat
    if 0 < r.2.2 then throw (.hif "?syev failed to converge")
    else if r.2.2 < 0 then throw (.hif "?syev's arg is illegal")
    else do
      let t ← truncate spd eps srt { r.1 with size := s.nrows }
      pure { s with mat := r.2.1, w := { r.1 with size := s.nrows }, work := Buf.mk' (max lwork s.nrows) default, order := t.1, rank := t.2 }

variable [Field V] [StarRing V]

/-- `gemv('C', …)`: `y = Qᴴ x`, `x` at offset `off` of its buffer. -/
def gemvC (n : Nat) (q x : Buf V) (off : Nat) (y : Buf V) : M (Buf V) :=
  if off + n ≤ x.size ∧ n * n ≤ q.size ∧ n ≤ y.size then
    pure { y with get := fun i => if i < n then ∑ j ∈ range n, star (q.get (i * n + j)) * x.get (off + j) else y.get i }
  else throw .oob

/-- `gemv('N', …)`: `x = Q y`, result at offset `off`. -/
def gemvN (n : Nat) (q y x : Buf V) (off : Nat) : M (Buf V) :=
  if off + n ≤ x.size ∧ n * n ≤ q.size ∧ n ≤ y.size then
    pure { x with get := fun i => if off ≤ i ∧ i < off + n then ∑ j ∈ range n, q.get (j * n + (i - off)) * y.get j else x.get i }
  else throw .oob

/-- `_work[_trunc_order[i]] /= _w[_trunc_order[i]]` (202–203). -/
def divAt (c : R → V) (w : Buf R) (order : Buf Nat) (i : Nat) (work : Buf V) : M (Buf V) := do
  let o ← order.rd i
  let x ← work.rd o
  let l ← w.rd o
  if l = 0 then throw (.ub "division by zero") else work.wr o (x / c l)

/-- `_work[_trunc_order[i]] *= _w[_trunc_order[i]]` (268–269). -/
def mulAt (c : R → V) (w : Buf R) (order : Buf Nat) (i : Nat) (work : Buf V) : M (Buf V) := do
  let o ← order.rd i
  let x ← work.rd o
  let l ← w.rd o
  work.wr o (x * c l)

/-- `_work[_trunc_order[i]] = 0` (204). -/
def zeroAt (order : Buf Nat) (i : Nat) (work : Buf V) : M (Buf V) := do
  let o ← order.rd i
  work.wr o 0

/-- Rank used by a call (197). -/
def effRank (s : St R V) (n rank : Nat) : Nat := if rank = 0 then s.rank else if n < rank then n else rank

/-- Steps 1–3 (199–206, 235–246) on the `n` values at offset `off`; `at'` is `divAt` or `mulAt`. -/
def apply (at' : (R → V) → Buf R → Buf Nat → Nat → Buf V → M (Buf V)) (c : R → V) (s : St R V) (n rk off : Nat) (x work : Buf V) : M (Buf V × Buf V) := do
  let work ← gemvC n s.mat x off work
  let work ← forUp 0 rk work (at' c s.w s.order)
  let work ← forUp rk n work (zeroAt s.order)
  let x ← gemvN n s.mat work x off
  pure (x, work)

/-- `solve` (190–207). -/
def solve (c : R → V) (s : St R V) (x : Buf V) (rank : Nat) : M (Buf V) :=
  if s.nrows = 0 ∨ s.w.size = 0 then throw (.hif "not factorized")
  else if x.size ≠ s.nrows then throw (.hif "unmatched sizes between system and rhs")
  else do
    let r ← apply divAt c s x.size (effRank s x.size rank) 0 x s.work
    pure r.1

/-- `multiply` (256–273). -/
def multiply (c : R → V) (s : St R V) (x : Buf V) (rank : Nat) : M (Buf V) :=
  if s.nrows = 0 ∨ s.w.size = 0 then throw (.hif "not factorized")
  else if x.size ≠ s.nrows then throw (.hif "unmatched sizes between system and rhs")
  else do
    let r ← apply mulAt c s x.size (effRank s x.size rank) 0 x s.work
    pure r.1

/-- Copy to the column-major buffer `_mrhs` (230–233); `x` is row-major, `k` right-hand sides. -/
def copyIn (n k : Nat) (x : Buf V) (m : Buf V) : M (Buf V) :=
  forUp 0 k m fun j m => forUp 0 n m fun i m => do
    let v ← x.rd (i * k + j)
    m.wr (j * n + i) v

/-- Copy back (248–250). -/
def copyOut (n k : Nat) (m : Buf V) (x : Buf V) : M (Buf V) :=
  forUp 0 k x fun j x => forUp 0 n x fun i x => do
    let v ← m.rd (j * n + i)
    x.wr (i * k + j) v

/-- `solve_mrhs` / `multiply_mrhs` (221–251, 287–317) for `k` right-hand sides; `x` has `n·k` elements.  The offset of right-hand side `i` is that of
`&_mrhs(0, i * Nrhs)`. -/
def mrhs (at' : (R → V) → Buf R → Buf Nat → Nat → Buf V → M (Buf V)) (c : R → V) (s : St R V) (n k : Nat) (x : Buf V) (rank : Nat) : M (Buf V) :=
  if s.nrows = 0 ∨ s.w.size = 0 then throw (.hif "not factorized")
  else if n ≠ s.nrows then throw (.hif "unmatched sizes between system and rhs")
  else do
    let m ← copyIn n k x (Buf.mk' (n * k) 0)
    let r ← forUp 0 k (m, s.work) fun i p => apply at' c s n (effRank s n rank) ((i * k) * n) p.1 p.2
    copyOut n k r.1 x

end SyEig
end Hif
