import Verif.Core
import Mathlib.Algebra.BigOperators.Intervals
import Mathlib.Algebra.Star.BigOperators
import Mathlib.Algebra.Star.Basic
import Mathlib.Algebra.BigOperators.Ring.Finset

/-!
# Compressed storage: data layout, products and triangular kernels

Model of `hif::CompressedStorage`, `hif::CRS`, `hif::CCS` (src/hif/ds/CompressedStorage.hpp).
Simplifications: indices are `Nat`; values live in one ring `K` (the C++ code mixes precisions);
`std::array<T,Nrhs>` rows are stored contiguously, so an `Array<std::array<T,Nrhs>>` of length `n` is
one flat buffer of `n * Nrhs` values with `y[i][k]` at position `i*Nrhs+k` (this is its memory layout, and
the `_low` kernels index it exactly so).
-/

namespace Hif
open Finset

/-- `CompressedStorage` (CompressedStorage.hpp 50–850): `start = _ind_start`, `inds = _indices`,
`vals = _vals`, `psize = _psize`; `ssize` is `_ncols` for CRS (line 840ff) and `_nrows` for CCS. -/
structure CS (K : Type _) where
  psize : Nat
  ssize : Nat
  start : Buf Nat
  inds : Buf Nat
  vals : Buf K

namespace CS
variable {K : Type _}

/-- Well-formed compressed storage (what `check_validity`, lines 182–217, is meant to establish,
without sortedness). -/
structure WF (A : CS K) : Prop where
  start_size : A.psize + 1 ≤ A.start.size
  start_zero : A.start.get 0 = 0
  mono : ∀ i, i < A.psize → A.start.get i ≤ A.start.get (i + 1)
  nnz_inds : A.start.get A.psize ≤ A.inds.size
  nnz_vals : A.start.get A.psize ≤ A.vals.size
  inds_lt : ∀ k, k < A.start.get A.psize → A.inds.get k < A.ssize

/-- Array lengths are exactly those demanded by the pointer array. -/
structure Tight (A : CS K) : Prop where
  start_size : A.start.size = A.psize + 1
  inds_size : A.inds.size = A.start.get A.psize
  vals_size : A.vals.size = A.start.get A.psize

/-- The represented matrix, in primary/secondary coordinates: the sum of the stored values of line
`i` at index `j`. -/
def entry [AddCommMonoid K] (A : CS K) (i j : Nat) : K :=
  ∑ k ∈ Ico (A.start.get i) (A.start.get (i + 1)), if A.inds.get k = j then A.vals.get k else 0

/-- Matrix entry of a CRS (rows are primary). -/
def crs [AddCommMonoid K] (A : CS K) (i j : Nat) : K := A.entry i j
/-- Matrix entry of a CCS (columns are primary). -/
def ccs [AddCommMonoid K] (A : CS K) (i j : Nat) : K := A.entry j i

/-- Iteration over the stored entries of line `i`: the idiom
`for (itr = ind_cbegin(i), v_itr = val_cbegin(i), last = ind_cend(i); itr != last; ++itr, ++v_itr)`
(lines 129–170, 1109–1116). -/
def forLine {σ : Type _} (A : CS K) (i : Nat) (s : σ) (f : Nat → K → σ → M σ) : M σ := do
  let lo ← A.start.rd i
  let hi ← A.start.rd (i + 1)
  forUp lo hi s fun k s => do
    let j ← A.inds.rd k
    let v ← A.vals.rd k
    f j v s

/-- The same with reverse iterators (lines 1404–1418). -/
def forLineRev {σ : Type _} (A : CS K) (i : Nat) (s : σ) (f : Nat → K → σ → M σ) : M σ := do
  let lo ← A.start.rd i
  let hi ← A.start.rd (i + 1)
  forDown (hi - lo) s fun k s => do
    let j ← A.inds.rd (lo + k)
    let v ← A.vals.rd (lo + k)
    f j v s

/-- `std::fill_n(y, n, 0)`. -/
def fillZero [Zero K] (y : Buf K) (n : Nat) : M (Buf K) :=
  forUp 0 n y fun i y => y.wr i 0

section products
variable [CommRing K]

/-- CRS `multiply_nt_low(x, istart, len, y)` (lines 1096–1127). -/
def crsMulRange (A : CS K) (x : Buf K) (istart len : Nat) (y : Buf K) : M (Buf K) :=
  forUp istart (istart + len) y fun i y => do
    let tmp ← A.forLine i (0 : K) fun j v tmp => do
      let xj ← x.rd j
      pure (tmp + v * xj)
    y.wr i tmp

/-- CRS `multiply_nt_low(x, y)` (lines 1090–1100). -/
def crsMul (A : CS K) (x y : Buf K) : M (Buf K) := A.crsMulRange x 0 A.psize y

/-- CRS `multiply_nt(x, y)` with the size checks (lines 1179–1185). -/
def crsMultiplyNt (A : CS K) (x y : Buf K) : M (Buf K) :=
  if A.psize ≠ y.size ∨ A.ssize ≠ x.size then throw (.hif "matrix vector multiplication unmatched sizes!")
  else A.crsMul x y

/-- CRS `multiply_mrhs_nt_low` (lines 1137–1171). `tmp` is a `std::array<v_t,Nrhs>`. -/
def crsMulMrhs (A : CS K) (N : Nat) (x y : Buf K) : M (Buf K) :=
  forUp 0 A.psize y fun i y => do
    let tmp ← A.forLine i (Buf.mk' N (0 : K)) fun j v tmp =>
      forUp 0 N tmp fun k tmp => do
        let t ← tmp.rd k
        let xj ← x.rd (j * N + k)
        tmp.wr k (t + v * xj)
    forUp 0 N y fun k y => do
      let t ← tmp.rd k
      y.wr (i * N + k) t

/-- CRS `multiply_t_low` (lines 1249–1267).  Note the early return that leaves `y` untouched. -/
def crsMulT [StarRing K] (A : CS K) (x y : Buf K) : M (Buf K) :=
  if A.psize = 0 then pure y else do
    let y ← fillZero y A.ssize
    forUp 0 A.psize y fun i y => do
      let temp ← x.rd i
      A.forLine i y fun j v y => do
        let yj ← y.rd j
        y.wr j (yj + temp * star v)

/-- CRS `multiply_t` with the size checks (lines 1276–1283). -/
def crsMultiplyT [StarRing K] (A : CS K) (x y : Buf K) : M (Buf K) :=
  if A.psize ≠ x.size ∨ A.ssize ≠ y.size then throw (.hif "T(matrix) vector multiplication unmatched sizes!")
  else A.crsMulT x y

/-- CRS `multiply_mrhs_t_low` (lines 1289–1308): no conjugation in the code. -/
def crsMulMrhsT (A : CS K) (N : Nat) (x y : Buf K) : M (Buf K) :=
  if A.psize = 0 then pure y else do
    let y ← fillZero y (N * A.ssize)
    forUp 0 A.psize y fun i y => do
      let temp ← forUp 0 N (Buf.mk' N (0 : K)) fun k temp => do
        let xi ← x.rd (i * N + k)
        temp.wr k xi
      A.forLine i y fun j v y =>
        forUp 0 N y fun k y => do
          let yj ← y.rd (j * N + k)
          let t ← temp.rd k
          y.wr (j * N + k) (yj + t * v)

/-- CCS `multiply_nt_low` (lines 2079–2096). -/
def ccsMul (A : CS K) (x y : Buf K) : M (Buf K) := do
  let y ← fillZero y A.ssize
  if A.psize = 0 then pure y else
    forUp 0 A.psize y fun i y => do
      let temp ← x.rd i
      A.forLine i y fun j v y => do
        let yj ← y.rd j
        y.wr j (yj + temp * v)

/-- CCS `multiply_nt` (lines 2105–2109). -/
def ccsMultiplyNt (A : CS K) (x y : Buf K) : M (Buf K) :=
  if A.ssize ≠ y.size ∨ A.psize ≠ x.size then throw (.hif "matrix vector unmatched sizes!")
  else A.ccsMul x y

/-- CCS `multiply_mrhs_nt_low` (lines 2118–2137). -/
def ccsMulMrhs (A : CS K) (N : Nat) (x y : Buf K) : M (Buf K) := do
  let y ← fillZero y (N * A.ssize)
  if A.psize = 0 then pure y else
    forUp 0 A.psize y fun i y => do
      let temp ← forUp 0 N (Buf.mk' N (0 : K)) fun k temp => do
        let xi ← x.rd (i * N + k)
        temp.wr k xi
      A.forLine i y fun j v y =>
        forUp 0 N y fun k y => do
          let yj ← y.rd (j * N + k)
          let t ← temp.rd k
          y.wr (j * N + k) (yj + t * v)

/-- CCS `multiply_t_low` (lines 2161–2178). -/
def ccsMulT [StarRing K] (A : CS K) (x y : Buf K) : M (Buf K) :=
  forUp 0 A.psize y fun i y => do
    let tmp ← A.forLine i (0 : K) fun j v tmp => do
      let xi ← x.rd j
      pure (tmp + xi * star v)
    y.wr i tmp

/-- CCS `multiply_t` (lines 2187–2191). -/
def ccsMultiplyT [StarRing K] (A : CS K) (x y : Buf K) : M (Buf K) :=
  if A.ssize ≠ x.size ∨ A.psize ≠ y.size then throw (.hif "T(matrix) vector unmatched sizes!")
  else A.ccsMulT x y

/-- CCS `multiply_mrhs_t_low` (lines 2200–2219): no conjugation in the code. -/
def ccsMulMrhsT (A : CS K) (N : Nat) (x y : Buf K) : M (Buf K) :=
  forUp 0 A.psize y fun i y => do
    let tmp ← A.forLine i (Buf.mk' N (0 : K)) fun j v tmp =>
      forUp 0 N tmp fun k tmp => do
        let t ← tmp.rd k
        let xj ← x.rd (j * N + k)
        tmp.wr k (t + xj * v)
    forUp 0 N y fun k y => do
      let t ← tmp.rd k
      y.wr (i * N + k) t

end products

section tri
variable [CommRing K] [StarRing K]

/-- `for (j = n - 1; j != 0; --j) body(j - 1)` on `size_type`: for `n = 0` the subtraction wraps
around to `2^64-1` and the body indexes far outside the arrays. -/
def forDownSkip {σ : Type _} (n : Nat) (s : σ) (f : Nat → σ → M σ) : M σ :=
  if n = 0 then throw (.ub "size_type wrap-around in loop start") else forDown (n - 1) s f

/-- `for (j = n - 1; j != 0; --j) body(j)`. -/
def forDownTo1 {σ : Type _} (n : Nat) (s : σ) (f : Nat → σ → M σ) : M σ :=
  if n = 0 then throw (.ub "size_type wrap-around in loop start")
  else forDown (n - 1) s fun j s => f (j + 1) s

/-- CRS `solve_as_strict_lower` (lines 1357–1372). -/
def crsLower (A : CS K) (y : Buf K) : M (Buf K) :=
  forUp 1 A.psize y fun j y => do
    let tmp ← A.forLine j (0 : K) fun c v tmp => do
      let yc ← y.rd c
      pure (tmp + v * yc)
    let yj ← y.rd j
    y.wr j (yj - tmp)

/-- CRS `solve_as_strict_lower_tran` (lines 1404–1418); loop bound is `_ncols`. -/
def crsLowerT (A : CS K) (y : Buf K) : M (Buf K) :=
  forDown A.ssize y fun j1 y => do
    let yj ← y.rd j1
    A.forLineRev j1 y fun c v y => do
      let yc ← y.rd c
      y.wr c (yc - star v * yj)

/-- CRS `solve_as_strict_upper` (lines 1450–1467). -/
def crsUpper (A : CS K) (y : Buf K) : M (Buf K) :=
  forDownSkip A.psize y fun j1 y => do
    let tmp ← A.forLine j1 (0 : K) fun c v tmp => do
      let yc ← y.rd c
      pure (tmp + v * yc)
    let yj ← y.rd j1
    y.wr j1 (yj - tmp)

/-- CRS `solve_as_strict_upper_tran` (lines 1501–1510). -/
def crsUpperT (A : CS K) (y : Buf K) : M (Buf K) :=
  forUp 0 A.ssize y fun j y => do
    let yj ← y.rd j
    A.forLine j y fun c v y => do
      let yc ← y.rd c
      y.wr c (yc - star v * yj)

/-- CCS `solve_as_strict_lower` (lines 2268–2280). -/
def ccsLower (A : CS K) (y : Buf K) : M (Buf K) :=
  forUp 0 A.psize y fun j y => do
    let yj ← y.rd j
    A.forLine j y fun c v y => do
      let yc ← y.rd c
      y.wr c (yc - v * yj)

/-- CCS `solve_as_strict_lower_tran` (lines 2307–2324). -/
def ccsLowerT (A : CS K) (y : Buf K) : M (Buf K) :=
  forDownSkip A.ssize y fun j1 y => do
    let tmp ← A.forLine j1 (0 : K) fun c v tmp => do
      let yc ← y.rd c
      pure (tmp + star v * yc)
    let yj ← y.rd j1
    y.wr j1 (yj - tmp)

/-- CCS `solve_as_strict_upper` (lines 2357–2369). -/
def ccsUpper (A : CS K) (y : Buf K) : M (Buf K) :=
  forDownTo1 A.psize y fun j y => do
    let yj ← y.rd j
    A.forLineRev j y fun c v y => do
      let yc ← y.rd c
      y.wr c (yc - v * yj)

/-- CCS `solve_as_strict_upper_tran` (lines 2399–2414). -/
def ccsUpperT (A : CS K) (y : Buf K) : M (Buf K) :=
  forUp 1 A.ssize y fun j y => do
    let tmp ← A.forLine j (0 : K) fun c v tmp => do
      let yc ← y.rd c
      pure (tmp + star v * yc)
    let yj ← y.rd j
    y.wr j (yj - tmp)

/-! ### Multiple right-hand sides -/

/-- `for k < Nrhs: tmp[k] += a * y[c][k]`. -/
def accRow (N : Nat) (a : K) (y : Buf K) (c : Nat) (tmp : Buf K) : M (Buf K) :=
  forUp 0 N tmp fun k tmp => do
    let t ← tmp.rd k
    let yc ← y.rd (c * N + k)
    tmp.wr k (t + a * yc)

/-- `for k < Nrhs: y[j][k] -= tmp[k]`. -/
def subRow (N : Nat) (tmp : Buf K) (j : Nat) (y : Buf K) : M (Buf K) :=
  forUp 0 N y fun k y => do
    let yj ← y.rd (j * N + k)
    let t ← tmp.rd k
    y.wr (j * N + k) (yj - t)

/-- `for k < Nrhs: y[c][k] -= a * tmp[k]`. -/
def axpyRow (N : Nat) (a : K) (tmp : Buf K) (c : Nat) (y : Buf K) : M (Buf K) :=
  forUp 0 N y fun k y => do
    let yc ← y.rd (c * N + k)
    let t ← tmp.rd k
    y.wr (c * N + k) (yc - a * t)

/-- `tmp = y[j]` / `for k < Nrhs: tmp[k] = y[j][k]`. -/
def loadRow (N : Nat) (y : Buf K) (j : Nat) : M (Buf K) :=
  forUp 0 N (Buf.mk' N (0 : K)) fun k tmp => do
    let yj ← y.rd (j * N + k)
    tmp.wr k yj

/-- CRS `solve_as_strict_lower_mrhs` (lines 1381–1399). -/
def crsLowerMrhs (A : CS K) (N : Nat) (y : Buf K) : M (Buf K) :=
  forUp 1 A.psize y fun j y => do
    let tmp ← A.forLine j (Buf.mk' N (0 : K)) fun c v tmp => accRow N v y c tmp
    subRow N tmp j y

/-- CRS `solve_as_strict_lower_mrhs_tran` (lines 1425–1443): starts at `_ncols - 1`, body at `j-1`. -/
def crsLowerMrhsT (A : CS K) (N : Nat) (y : Buf K) : M (Buf K) :=
  forDownSkip A.ssize y fun j1 y => do
    let tmp ← loadRow N y j1
    A.forLineRev j1 y fun c v y => axpyRow N (star v) tmp c y

/-- CRS `solve_as_strict_upper_mrhs` (lines 1476–1496). -/
def crsUpperMrhs (A : CS K) (N : Nat) (y : Buf K) : M (Buf K) :=
  forDownSkip A.psize y fun j1 y => do
    let tmp ← A.forLine j1 (Buf.mk' N (0 : K)) fun c v tmp => accRow N v y c tmp
    subRow N tmp j1 y

/-- CRS `solve_as_strict_upper_mrhs_tran` (lines 1517–1530). -/
def crsUpperMrhsT (A : CS K) (N : Nat) (y : Buf K) : M (Buf K) :=
  forUp 0 A.ssize y fun j y => do
    let tmp ← loadRow N y j
    A.forLine j y fun c v y => axpyRow N (star v) tmp c y

/-- CCS `solve_as_strict_lower_mrhs` (lines 2287–2303). -/
def ccsLowerMrhs (A : CS K) (N : Nat) (y : Buf K) : M (Buf K) :=
  forUp 0 A.psize y fun j y => do
    let tmp ← loadRow N y j
    A.forLine j y fun c v y => axpyRow N v tmp c y

/-- CCS `solve_as_strict_lower_mrhs_tran` (lines 2331–2350): the inner loop runs from
`row_ind_cbegin(j1)` to `row_ind_cbegin(j1)`, i.e. over nothing. -/
def ccsLowerMrhsT (A : CS K) (N : Nat) (y : Buf K) : M (Buf K) :=
  forDownSkip A.ssize y fun j1 y => do
    let lo ← A.start.rd j1
    let tmp ← forUp lo lo (Buf.mk' N (0 : K)) fun k tmp => do
      let c ← A.inds.rd k
      let v ← A.vals.rd k
      accRow N (star v) y c tmp
    subRow N tmp j1 y

/-- CCS `solve_as_strict_upper_mrhs` (lines 2377–2394). -/
def ccsUpperMrhs (A : CS K) (N : Nat) (y : Buf K) : M (Buf K) :=
  forDownTo1 A.psize y fun j y => do
    let tmp ← loadRow N y j
    A.forLineRev j y fun c v y => axpyRow N v tmp c y

/-- CCS `solve_as_strict_upper_mrhs_tran` (lines 2421–2440). -/
def ccsUpperMrhsT (A : CS K) (N : Nat) (y : Buf K) : M (Buf K) :=
  forUp 1 A.ssize y fun j y => do
    let tmp ← A.forLine j (Buf.mk' N (0 : K)) fun c v tmp => accRow N (star v) y c tmp
    subRow N tmp j y

end tri

section scale
variable [CommRing K]

/-- CRS `scale_diag_left` / CCS `scale_diag_right` (lines 1044–1055, 2045–2056): scale each primary line. -/
def scalePrimary (A : CS K) (s : Buf K) : M (CS K) :=
  if A.start.size > s.size + 1 then throw (.hif "sizes do not match") else do
    let vals ← forUp 1 A.start.size A.vals fun i vals => do
      let d ← s.rd (i - 1)
      let lo ← A.start.rd (i - 1)
      let hi ← A.start.rd i
      forUp lo hi vals fun k vals => do
        let v ← vals.rd k
        vals.wr k (v * d)
    pure { A with vals := vals }

/-- CRS `scale_diag_right` / CCS `scale_diag_left` (lines 1065–1073, 2027–2034): run over the whole
index and value arrays. -/
def scaleSecondary (A : CS K) (t : Buf K) : M (CS K) :=
  if A.ssize > t.size then throw (.hif "sizes do not match") else do
    let vals ← forUp 0 A.inds.size A.vals fun k vals => do
      let v ← vals.rd k
      let j ← A.inds.rd k
      let d ← t.rd j
      vals.wr k (v * d)
    pure { A with vals := vals }

end scale
end CS
end Hif
