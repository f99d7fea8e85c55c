import Verif.Core
import Mathlib.Algebra.BigOperators.Intervals
import Mathlib.Algebra.Order.Field.Basic

set_option linter.unusedSectionVars false
set_option linter.unusedVariables false

/-!
# The Krylov drivers: GMRES and FGMRES (model)

Model of `gmres_hif` and `fgmres_hifir` (examples/advanced/gmres.hpp 16–122, 124–230) and of `inner`, `norm2_sq`, `norm2` (src/hif/utils/math.hpp 81–138).

`K` are the vector entries, `R` the real scalars; `Scal` has the scalar functions of the C++ code.  The two drivers differ in four places, which the model selects with `flex`.

Simplifications.
* Arithmetic is exact.  Where floating point would produce NaN and the NaN is used (`v / beta` with `beta = 0`, the division by `rho = 0`, by a zero `R(k, k)`, by a zero `beta0`)
  the outcome is `ub`; the NaNs of `v / v_norm` with `v_norm = 0` (68–69) are the arbitrary value `nan`.
* `restart` and `maxit` are natural numbers (a negative `maxit` behaves like 0); `ceil((double)maxit / restart)` is exact for `int` operands, with `restart = 0` converting infinity to `int` is `ub`.
* `1 << it_outer` (164) is `ub` from 31 on (no positive `int`).
* Messages are not modelled.
-/

namespace Hif
namespace Gmres
open Finset

universe u

variable {K R : Type u}

/-- Scalar functions: `hif::conjugate`, `hif::real`, the conversion of a real scalar, `hif::abs`, `std::sqrt` on reals and on values. -/
structure Scal (K R : Type u) where
  conj : K → K
  re : K → R
  of : R → K
  abs : K → R
  sqrt : R → R
  csqrt : K → K

/-- Arguments of the drivers (19–22, 127–130): `mul x y` is `A.multiply(x, y)`, `prec nirs v w` is `M.solve(v, w, …)` (58) or `M.hifir(A, v, nirs, w, …)` (167); both return the
overwritten array.  `stag` is the constant `1.0 - 1e-8` (89, 201). -/
structure Env (K R : Type u) where
  sc : Scal K R
  flex : Bool
  restart : Nat
  rtol : R
  maxit : Nat
  stag : R
  nan : K
  mul : Buf K → Buf K → M (Buf K)
  prec : Nat → Buf K → Buf K → M (Buf K)

/-- Local variables (27–43, 135–151).  Dense matrices are column-major: `Q(i, k)` is at `i + k * n`, `R(i, k)` at `i + k * restart`, `J(i, k)` at `i + k * restart`. -/
structure St (K R : Type u) where
  x : Buf K
  v : Buf K
  w : Buf K
  y : Buf K
  w2 : Buf K
  Q : Buf K
  Z : Buf K
  Rm : Buf K
  J : Buf K
  resid : R
  iter : Nat
  flag : Nat
  numMv : Nat

variable [Field K] [Field R] [LinearOrder R]

/-! ### math.hpp -/

/-- Largest magnitude of the first `n` entries (`max_element`, math.hpp 122–125). -/
def maxMag (sc : Scal K R) (v : Nat → K) : Nat → R
  | 0 => 0
  | n + 1 => max (maxMag sc v n) (sc.abs (v n))

/-- `norm2` (math.hpp 111–138). -/
def norm2 (sc : Scal K R) (v : Buf K) : R :=
  let m := maxMag sc v.get v.size
  if m = 0 then ∑ i ∈ range v.size, sc.abs (v.get i)
  else m * sc.sqrt (∑ i ∈ range v.size, sc.re (sc.conj (v.get i * sc.of (1 / m)) * (v.get i * sc.of (1 / m))))

/-- `norm2_sq` (math.hpp 94–105). -/
def norm2Sq (sc : Scal K R) (v : Buf K) : R := ∑ i ∈ range v.size, sc.re (sc.conj (v.get i) * v.get i)

/-- `inner(v, Q.col_cbegin(k))` (math.hpp 81–90); `off` is the start of the column.  The *first* argument is conjugated. -/
def inner (sc : Scal K R) (v Q : Buf K) (off : Nat) : M K :=
  forUp 0 v.size 0 fun i t => do
    let a ← v.rd i
    let q ← Q.rd (off + i)
    pure (t + sc.conj a * q)

/-! ### one inner iteration -/

/-- `std::copy(Q.col_cbegin(j), Q.col_cend(j), v.begin())` (57, 166); also `std::copy(w.cbegin(), w.cend(), Z.col_begin(j))` (170) with the offsets exchanged. -/
def copyTo (n : Nat) (src : Buf K) (so : Nat) (dst : Buf K) (d : Nat) : M (Buf K) :=
  forUp 0 n dst fun i dst => do
    let a ← src.rd (so + i)
    dst.wr (d + i) a

/-- `v[i] -= w2[k] * Q(i, k)` (64, 176). -/
def subCol (n k : Nat) (Q w2 v : Buf K) : M (Buf K) :=
  forUp 0 n v fun i v => do
    let a ← v.rd i
    let h ← w2.rd k
    let q ← Q.rd (i + k * n)
    v.wr i (a - h * q)

/-- Modified Gram–Schmidt (62–65, 174–177). -/
def mgs (sc : Scal K R) (n j : Nat) (Q : Buf K) (p : Buf K × Buf K) : M (Buf K × Buf K) :=
  forUp 0 (j + 1) p fun k p => do
    let h ← inner sc p.1 Q (k * n)
    let w2 ← p.2.wr k h
    let v ← subCol n k Q w2 p.1
    pure (v, w2)

/-- `Q(i, k) = v[i] / d` (54, 69, 162, 181); `nan` if `d = 0`. -/
def setCol (nan : K) (n k : Nat) (v : Buf K) (d : K) (Q : Buf K) [DecidableEq K] : M (Buf K) :=
  forUp 0 n Q fun i Q => do
    let a ← v.rd i
    Q.wr (i + k * n) (if d = 0 then nan else a / d)

/-- The earlier rotations on the new column (72–77, 184–189). -/
def rotations (sc : Scal K R) (restart j : Nat) (J w2 : Buf K) : M (Buf K) :=
  forUp 0 j w2 fun c w2 => do
    let tmp ← w2.rd c
    let c0 ← J.rd c
    let s ← J.rd (c + restart)
    let u ← w2.rd (c + 1)
    let w2 ← w2.wr c (sc.conj c0 * tmp + sc.conj s * u)
    w2.wr (c + 1) (-s * tmp + c0 * u)

/-- The new rotation and the new column of `R` (78–84, 190–196). -/
def newRot (sc : Scal K R) (restart j : Nat) (vn2 vn : R) (s : St K R) [DecidableEq K] : M (St K R) := do
  let h ← s.w2.rd j
  let rho := sc.csqrt (sc.conj h * h + sc.of vn2)
  if rho = 0 then throw (.ub "breakdown: 0/0")
  else do
    let J ← s.J.wr j (h / rho)
    let J ← J.wr (j + restart) (sc.of vn / rho)
    let c0 ← J.rd j
    let s1 ← J.rd (j + restart)
    let yj ← s.y.rd j
    let y ← s.y.wr (j + 1) (-s1 * yj)
    let y ← y.wr j (sc.conj c0 * yj)
    let w2 ← s.w2.wr j rho
    let Rm ← copyTo (j + 1) w2 0 s.Rm (j * restart)
    pure { s with J := J, y := y, w2 := w2, Rm := Rm }

/-- Inner iteration `j` up to the residual (57–84, 166–196); `nirs` as in 164. -/
def arnoldi (e : Env K R) (n nirs j : Nat) (s : St K R) [DecidableEq K] : M (St K R) := do
  let v ← copyTo n s.Q (j * n) s.v 0
  let w ← e.prec nirs v s.w
  let Z ← (if e.flex then copyTo w.size w 0 s.Z (j * n) else pure s.Z)
  let v ← e.mul w v
  let p ← mgs e.sc n j s.Q (v, s.w2)
  let vn2 := norm2Sq e.sc p.1
  let vn := e.sc.sqrt vn2
  let Q ← (if j + 1 < e.restart then setCol e.nan n (j + 1) p.1 (e.sc.of vn) s.Q else pure s.Q)
  let w2 ← rotations e.sc e.restart j s.J p.2
  newRot e.sc e.restart j vn2 vn { s with v := p.1, w := w, Z := Z, Q := Q, w2 := w2, numMv := if e.flex then s.numMv + nirs else s.numMv }

/-- The loop `for (;;)` (56–103, 165–215) from iteration `j`; returns the last value of `j`.  `fuel` is the number of columns left. -/
def innerLoop (e : Env K R) (n nirs : Nat) (beta0 : R) [DecidableEq K] : Nat → Nat → St K R → M (St K R × Nat)
  | 0, _, _ => throw (.ub "unreachable")
  | fuel + 1, j, s => do
    let s' ← arnoldi e n nirs j s
    let yn ← s'.y.rd (j + 1)
    let resid := e.sc.abs yn / beta0
    let s' := { s' with resid := resid }
    if s.resid * e.stag ≤ resid then pure ({ s' with flag := 1 }, j)
    else if e.maxit ≤ s'.iter then pure ({ s' with flag := 2 }, j)
    else
      let s' := { s' with iter := s'.iter + 1 }
      if resid ≤ e.rtol ∨ e.restart ≤ j + 1 then pure (s', j) else innerLoop e n nirs beta0 fuel (j + 1) s'

/-! ### one outer iteration -/

/-- Back substitution (105–109, 217–221). -/
def backsolve (restart j : Nat) (Rm y : Buf K) [DecidableEq K] : M (Buf K) :=
  forDown (j + 1) y fun k y => do
    let a ← y.rd k
    let d ← Rm.rd (k + k * restart)
    if d = 0 then throw (.ub "division by zero")
    else do
      let y ← y.wr k (a / d)
      let tmp ← y.rd k
      forDown k y fun i y => do
        let b ← y.rd i
        let r ← Rm.rd (i + k * restart)
        y.wr i (b - tmp * r)

/-- `dst[k] += y[i] * B(k, i)` for all `i ≤ j` (112–115 with `Q`, 223–226 with `Z`). -/
def comb (n j : Nat) (B y dst : Buf K) : M (Buf K) :=
  forUp 0 (j + 1) dst fun i dst => do
    let tmp ← y.rd i
    forUp 0 n dst fun k dst => do
      let a ← dst.rd k
      let q ← B.rd (k + i * n)
      dst.wr k (a + tmp * q)

/-- The new iterate (110–118, 222–226). -/
def update (e : Env K R) (n j : Nat) (s : St K R) : M (St K R) :=
  if e.flex then do
    let x ← comb n j s.Z s.y s.x
    pure { s with x := x }
  else do
    let v ← forUp 0 n s.v fun i v => v.wr i 0
    let v ← comb n j s.Q s.y v
    let w ← e.prec 1 v s.w
    let x ← forUp 0 n s.x fun k x => do
      let a ← x.rd k
      let d ← w.rd k
      x.wr k (a + d)
    pure { s with x := x, v := v, w := w }

/-- The residual at the start of an outer iteration (46–51, 154–159). -/
def startResid (e : Env K R) (n : Nat) (b : Buf K) (s : St K R) : M (Buf K) :=
  if s.iter ≠ 0 then do
    let v ← e.mul s.x s.v
    forUp 0 n v fun i v => do
      let bi ← b.rd i
      let a ← v.rd i
      v.wr i (bi - a)
  else copyTo n b 0 s.v 0

/-- Body of the outer loop (45–118, 153–226). -/
def outerBody (e : Env K R) (n : Nat) (b : Buf K) (beta0 : R) (it : Nat) (s : St K R) [DecidableEq K] : M (St K R) := do
  let v ← startResid e n b s
  let beta := norm2 e.sc v
  let y ← s.y.wr 0 (e.sc.of beta)
  if beta = 0 then throw (.ub "division by zero")
  else do
    let Q ← setCol e.nan n 0 v (e.sc.of beta) s.Q
    if e.flex ∧ 31 ≤ it then throw (.ub "shift")
    else do
      let r ← innerLoop e n (if e.flex then 2 ^ it else 1) beta0 e.restart 0 { s with v := v, y := y, Q := Q }
      let y ← backsolve e.restart r.2 r.1.Rm r.1.y
      update e n r.2 { r.1 with y := y }

/-- The outer loop (44–120, 152–228) from iteration `it` with `rem` iterations left. -/
def outer (e : Env K R) (n : Nat) (b : Buf K) (beta0 : R) [DecidableEq K] : Nat → Nat → St K R → M (St K R)
  | 0, _, s => pure s
  | rem + 1, it, s => do
    let s ← outerBody e n b beta0 it s
    if s.resid ≤ e.rtol ∨ s.flag ≠ 0 then pure s else outer e n b beta0 rem (it + 1) s

/-- Variables at the start (32–43, 140–151): `x` is zero, the workspace has arbitrary contents. -/
def St.init (junk : Nat → K) (n restart : Nat) : St K R :=
  { x := Buf.mk' n 0, v := ⟨n, junk⟩, w := ⟨n, junk⟩, y := ⟨restart + 1, junk⟩, w2 := ⟨restart, junk⟩, Q := ⟨n * restart, junk⟩, Z := ⟨n * restart, junk⟩,
    Rm := ⟨restart * restart, junk⟩, J := ⟨restart * 2, junk⟩, resid := 1, iter := 0, flag := 0, numMv := 0 }

/-- The driver with all its variables (19–121, 127–229). -/
def run (e : Env K R) (junk : Nat → K) (b : Buf K) [DecidableEq K] : M (St K R) :=
  let beta0 := norm2 e.sc b
  if beta0 = 0 then pure (St.init junk b.size e.restart)
  else if e.restart = 0 then throw (.ub "infinity to int")
  else outer e b.size b beta0 ((e.maxit + e.restart - 1) / e.restart) 0 (St.init junk b.size e.restart)

/-- `fgmres_hifir(A, b, M, restart, rtol, maxit, verbose)` (127–230): solution, flag, iterations, products. -/
def fgmres (e : Env K R) (junk : Nat → K) (b : Buf K) [DecidableEq K] : M (Buf K × Nat × Nat × Nat) := do
  let s ← run { e with flex := true } junk b
  pure (s.x, s.flag, s.iter, s.numMv)

/-- `gmres_hif(A, b, M, restart, rtol, maxit, verbose)` (19–122): solution, flag, iterations. -/
def gmres (e : Env K R) (junk : Nat → K) (b : Buf K) [DecidableEq K] : M (Buf K × Nat × Nat) := do
  let s ← run { e with flex := false } junk b
  pure (s.x, s.flag, s.iter)

end Gmres
end Hif
