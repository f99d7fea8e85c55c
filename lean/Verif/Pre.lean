import Verif.Crout
import Verif.PermLemmas
import Mathlib.Algebra.Order.Field.Basic
import Mathlib.Algebra.Order.Group.Abs

set_option linter.unusedVariables false

/-!
# Preprocessing (model)

Models of src/hif/pre/matching_scaling.hpp, src/hif/pre/a_priori_scaling.hpp, src/hif/pre/EqlDriver.hpp and
src/hif/pre/driver.hpp.

Simplifications, common to the file.
* Values live in `K`, magnitudes and scaling factors in an ordered field `R`; `nrm : K → R` is `std::abs`, `emb : R → K` the
  conversion of a scaling factor to a value, `sqrt : R → R` is `std::sqrt`.
* The weighted matching (HSL_MC64) and the AMD ordering are parameters with contracts; the shift of the indices of `B` to
  Fortran numbering and back (a_priori_scaling.hpp 135–142, matching_scaling.hpp 427–431) is not modelled.
* Allocation failures are not modelled; timers and messages are not modelled.
-/

namespace Hif
namespace Pre

/-! ### A-priori scaling -/

section scaling
variable {K R : Type _} [Mul K] [Field R] [LinearOrder R]

/-- `B.nnz_in_row(i) ? std::abs(*std::max_element(val_cbegin(i), val_cend(i), |l| < |r|)) : 0`
(a_priori_scaling.hpp 99–105; matching_scaling.hpp 111–122). -/
def lineMax (nrm : K → R) (A : CS K) (i : Nat) : M R := do
  let lo ← A.start.rd i
  let hi ← A.start.rd (i + 1)
  if lo ≠ hi then do
    let v ← A.vals.rd lo
    forUp (lo + 1) hi (nrm v) fun k b => do
      let w ← A.vals.rd k
      pure (if b < nrm w then nrm w else b)
  else pure 0

/-- `tmp == 0 ? 1 : 1/tmp` (a_priori_scaling.hpp 106–107, 123–128). -/
def invOrOne (x : R) : R := if x = 0 then 1 else 1 / x

/-- One row of the row sweep of `scale_extreme_values` (a_priori_scaling.hpp 98–111). -/
def scaleRow (nrm : K → R) (emb : R → K) (row : Nat) (s : CS K × Buf R) : M (CS K × Buf R) := do
  let mx ← lineMax nrm s.1 row
  let tmp := invOrOne mx
  let rs ← s.2.wr row tmp
  let lo ← s.1.start.rd row
  let hi ← s.1.start.rd (row + 1)
  let vals ← forUp lo hi s.1.vals fun k vals => do
    let v ← vals.rd k
    vals.wr k (v * emb tmp)
  pure ({ s.1 with vals := vals }, rs)

/-- Column maxima (a_priori_scaling.hpp 116–122). -/
def colMax (nrm : K → R) (B : CS K) (cs : Buf R) : M (Buf R) := do
  let cs ← forUp 0 B.psize cs fun i cs => cs.wr i 0
  let nnz ← B.start.rd B.psize
  forUp 0 nnz cs fun k cs => do
    let j ← B.inds.rd k
    let v ← B.vals.rd k
    let c ← cs.rd j
    cs.wr j (max (nrm v) c)

/-- Reciprocals of the column maxima (a_priori_scaling.hpp 123–128). -/
def colInv (n : Nat) (cs : Buf R) : M (Buf R) :=
  forUp 0 n cs fun i cs => do
    let c ← cs.rd i
    cs.wr i (invOrOne c)

/-- Column scaling of the values (a_priori_scaling.hpp 131–133). -/
def scaleCols (emb : R → K) (B : CS K) (cs : Buf R) : M (CS K) := do
  let nnz ← B.start.rd B.psize
  let vals ← forUp 0 nnz B.vals fun k vals => do
    let v ← vals.rd k
    let j ← B.inds.rd k
    let c ← cs.rd j
    vals.wr k (v * emb c)
  pure { B with vals := vals }

/-- `scale_extreme_values<IsSymm>` (a_priori_scaling.hpp 86–143); `IsSymm` copies the row scaling (113–114). -/
def scaleExtreme (nrm : K → R) (emb : R → K) (isSymm : Bool) (B : CS K) (rs cs : Buf R) : M (CS K × Buf R × Buf R) := do
  let s ← forUp 0 B.psize (B, rs) (scaleRow nrm emb)
  let cs ← if isSymm then forUp 0 B.psize cs fun i cs => do
              let r ← s.2.rd i
              cs.wr i r
           else do
              let cs ← colMax nrm s.1 cs
              colInv B.psize cs
  let B' ← scaleCols emb s.1 cs
  pure (B', s.2, cs)

/-- `scale_eye` (a_priori_scaling.hpp 56–71): both scalings are one. -/
def scaleEye (B : CS K) (rs cs : Buf R) : M (CS K × Buf R × Buf R) := do
  let r ← forUp 0 B.psize (rs, cs) fun i r => do
    let rs ← r.1.wr i 1
    let cs ← r.2.wr i 1
    pure (rs, cs)
  pure (B, r.1, r.2)

/-! ### Iterative scaling -/

/-- `1. / std::sqrt(x)`.  In floating point a zero `x` gives an infinite scaling factor; here it is the outcome `ub`. -/
def rsqrt (sqrt : R → R) (x : R) : M R := if x = 0 then throw (.ub "1/sqrt(0)") else pure (1 / sqrt x)

/-- `b[j] = std::max(x, b[j])`. -/
def maxInto (b : Buf R) (j : Nat) (x : R) : M (Buf R) := do
  let c ← b.rd j
  b.wr j (max x c)

/-- Column part of the sweeps, absent in the symmetric case (a_priori_scaling.hpp 196–200, 225). -/
def maxIntoIf (isSymm : Bool) (b : Buf R) (j : Nat) (x : R) : M (Buf R) := if isSymm then pure b else maxInto b j x

/-- First sweep (a_priori_scaling.hpp 190–203): row maxima into `local_rs` (as `1/sqrt`), column maxima into `local_cs`. -/
def iterMaxRow (nrm : K → R) (sqrt : R → R) (isSymm : Bool) (B : CS K) (row : Nat) (l : Buf R × Buf R) : M (Buf R × Buf R) := do
  let r ← B.forLine row ((0 : R), l.2) fun j v r => do
    let lcs ← maxIntoIf isSymm r.2 j (nrm v)
    pure (max (nrm v) r.1, lcs)
  let x ← rsqrt sqrt r.1
  let lrs ← l.1.wr row x
  pure (lrs, r.2)

/-- `rs[i] *= local_rs[i]` (a_priori_scaling.hpp 204, 209). -/
def mulInto (n : Nat) (a b : Buf R) : M (Buf R) :=
  forUp 0 n a fun i a => do
    let x ← a.rd i
    let y ← b.rd i
    a.wr i (x * y)

/-- `local_cs[i] = 1/sqrt(local_cs[i])` (a_priori_scaling.hpp 206–208). -/
def rsqrtAll (sqrt : R → R) (n : Nat) (b : Buf R) : M (Buf R) :=
  forUp 0 n b fun i b => do
    let x ← b.rd i
    let y ← rsqrt sqrt x
    b.wr i y

/-- Second sweep (a_priori_scaling.hpp 213–229): values are scaled, residual maxima are collected.  `f` is `local_cs`, or `local_rs` in the
symmetric case. -/
def iterScaleRow (nrm : K → R) (emb : R → K) (isSymm : Bool) (lrs f : Buf R) (B : CS K) (row : Nat)
    (s : Buf K × Buf R × Buf R) : M (Buf K × Buf R × Buf R) := do
  let lo ← B.start.rd row
  let hi ← B.start.rd (row + 1)
  let r ← lrs.rd row
  let z ← forUp lo hi (s.1, (0 : R), s.2.2) fun k z => do
    let j ← B.inds.rd k
    let v ← z.1.rd k
    let c ← f.rd j
    let vals ← z.1.wr k (v * emb r * emb c)
    let rcs ← maxIntoIf isSymm z.2.2 j (nrm (v * emb r * emb c))
    pure (vals, max (nrm (v * emb r * emb c)) z.2.1, rcs)
  let rrs ← s.2.1.wr row z.2.1
  pure (z.1, rrs, z.2.2)

/-- `max_i |1 - res[i]|` (a_priori_scaling.hpp 230–238). -/
def residual (n : Nat) (b : Buf R) : M R :=
  forUp 0 n (0 : R) fun i t => do
    let x ← b.rd i
    pure (max |1 - x| t)

/-- State between iterations: matrix, row and column scaling, the two residuals. -/
structure IterSt (K R : Type _) where
  B : CS K
  rs : Buf R
  cs : Buf R
  resR : R
  resC : R

/-- The column factors of one iteration (a_priori_scaling.hpp 205–211): nothing in the symmetric case. -/
def iterCols (sqrt : R → R) (isSymm : Bool) (n : Nat) (lcs cs : Buf R) : M (Buf R × Buf R) :=
  if isSymm then pure (lcs, cs)
  else do
    let lcs ← rsqrtAll sqrt n lcs
    let cs ← mulInto n cs lcs
    pure (lcs, cs)

/-- Second residual (a_priori_scaling.hpp 234–239): in the symmetric case the first one is reused. -/
def resC (isSymm : Bool) (n : Nat) (b : Buf R) (r : R) : M R := if isSymm then pure r else residual n b

/-- One pass of the `do … while` body (a_priori_scaling.hpp 185–240), identity permutation. -/
def iterStep (nrm : K → R) (emb : R → K) (sqrt : R → R) (isSymm : Bool) (s : IterSt K R) : M (IterSt K R) := do
  let n := s.B.psize
  let l ← forUp 0 n (Buf.mk' n (0 : R), Buf.mk' n (0 : R)) (iterMaxRow nrm sqrt isSymm s.B)
  let rs ← mulInto n s.rs l.1
  let c ← iterCols sqrt isSymm n l.2 s.cs
  let z ← forUp 0 n (s.B.vals, Buf.mk' n (0 : R), Buf.mk' n (0 : R))
    (iterScaleRow nrm emb isSymm l.1 (if isSymm then l.1 else c.1) s.B)
  let rr ← residual n z.2.1
  let rc ← resC isSymm n z.2.2 rr
  pure { B := { s.B with vals := z.1 }, rs := rs, cs := c.2, resR := rr, resC := rc }

/-- The `do … while ((res_r > tol || res_c > tol) && iters < max_iters)` loop (a_priori_scaling.hpp 185–244), with the remaining number of passes. -/
def iterLoop (nrm : K → R) (emb : R → K) (sqrt : R → R) (isSymm : Bool) (tol : R) : Nat → IterSt K R → M (IterSt K R)
  | 0, s => pure s
  | k + 1, s => do
    let s ← iterStep nrm emb sqrt isSymm s
    if tol < s.resR ∨ tol < s.resC then iterLoop nrm emb sqrt isSymm tol k s else pure s

/-- `std::fill_n(b, n, 1)`. -/
def fillOne (n : Nat) (b : Buf R) : M (Buf R) := forUp 0 n b fun i b => b.wr i 1

/-- `std::copy_n(rs, n, cs)`. -/
def copyInto (n : Nat) (a b : Buf R) : M (Buf R) :=
  forUp 0 n b fun i b => do
    let x ← a.rd i
    b.wr i x

/-- Filling or copying of the column scaling when `c` holds. -/
def whenB (c : Bool) (x : M (Buf R)) (b : Buf R) : M (Buf R) := if c then x else pure b

/-- `iterative_scale<IsSymm>` (a_priori_scaling.hpp 272–286, 162–256). -/
def iterScale (nrm : K → R) (emb : R → K) (sqrt : R → R) (isSymm : Bool) (tol : R) (iters : Nat) (B : CS K) (rs cs : Buf R) :
    M (CS K × Buf R × Buf R) := do
  let n := B.psize
  let rs ← fillOne n rs
  let cs ← whenB (!isSymm) (fillOne n cs) cs
  let s ← iterLoop nrm emb sqrt isSymm tol iters { B := B, rs := rs, cs := cs, resR := 1, resC := 1 }
  let cs ← whenB isSymm (copyInto n s.rs s.cs) s.cs
  pure (s.B, s.rs, cs)

/-! ### Fixing poorly scaled weights -/

/-- One pair of weights (matching_scaling.hpp 74–76). -/
def fixOne (sqrt : R → R) (beta0 : R) (p q : Buf Nat) (i : Nat) (st : Buf R × Buf R) : M (Buf R × Buf R) := do
  let pi ← p.rd i
  let qi ← q.rd i
  let a ← st.1.rd pi
  let b ← st.2.rd qi
  if min a b * beta0 < max a b then do
    let t ← st.2.wr qi (sqrt (a * b))
    let s ← st.1.wr pi (sqrt (a * b))
    pure (s, t)
  else pure st

/-- `fix_poor_scaling` (matching_scaling.hpp 59–76). -/
def fixPoor (sqrt : R → R) (m0 level : Nat) (p q : Buf Nat) (s t : Buf R) (beta : R) : M (Buf R × Buf R) :=
  let beta0 := if beta < 0 then 1000 else beta
  if 1 < level ∧ 1 < beta0 then forUp 0 m0 (s, t) (fixOne sqrt beta0 p q) else pure (s, t)

/-! ### Static deferral of tiny diagonal entries -/

/-- `compute_max_mag(i)` (matching_scaling.hpp 109–125). -/
def maxRowCol (nrm : K → R) (Accs Acrs : CS K) (p q : Buf Nat) (i : Nat) : M R := do
  let pi ← p.rd i
  let a ← lineMax nrm Acrs pi
  let qi ← q.rd i
  let b ← lineMax nrm Accs qi
  let v := max (max 0 a) b
  pure (if v = 0 then 1 else v)

/-- `is_good_diag(col)` for `IsSymm = false` (matching_scaling.hpp 128–153; the only instantiation used, 440). -/
def isGood (nrm : K → R) (eps : R) (Accs Acrs : CS K) (p q : Buf Nat) (col : Nat) : M Bool := do
  let qc ← q.rd col
  let pd ← p.rd col
  let lo ← Accs.start.rd qc
  let hi ← Accs.start.rd (qc + 1)
  let pos ← Crout.lowerBound Accs.inds pd (hi - lo) lo
  if pos ≠ hi then do
    let x ← Accs.inds.rd pos
    if x = pd then do
      let v ← Accs.vals.rd pos
      let mx ← maxRowCol nrm Accs Acrs p q col
      pure (decide (¬ nrm v ≤ mx * eps))
    else pure false
  else pure false

end scaling

/-- State of `defer_tiny_diags` (matching_scaling.hpp 155–156). -/
structure Defer where
  m : Nat
  deferrals : Nat
  p : Buf Nat
  q : Buf Nat
  wp : Buf Nat
  wq : Buf Nat

/-- The loop `while (!is_good_diag(i + deferrals)) …` (matching_scaling.hpp 159–168), with fuel. -/
def deferWhile (good : Buf Nat → Buf Nat → Nat → M Bool) (m0 i : Nat) : Nat → Defer → M Defer
  | 0, _ => throw (.ub "endless deferral")
  | f + 1, s => do
    let g ← good s.p s.q (i + s.deferrals)
    if g then pure s
    else do
      let x ← s.p.rd (i + s.deferrals)
      let wp ← s.wp.wr s.deferrals x
      let y ← s.q.rd (i + s.deferrals)
      let wq ← s.wq.wr s.deferrals y
      if m0 ≤ i + (s.deferrals + 1) then
        pure { s with m := i, deferrals := s.deferrals + 1, wp := wp, wq := wq }
      else deferWhile good m0 i f { s with m := s.m - 1, deferrals := s.deferrals + 1, wp := wp, wq := wq }

/-- Compression step (matching_scaling.hpp 171–172). -/
def deferCompress (i : Nat) (s : Defer) : M Defer := do
  let x ← s.p.rd (i + s.deferrals)
  let p ← s.p.wr i x
  let y ← s.q.rd (i + s.deferrals)
  let q ← s.q.wr i y
  pure { s with p := p, q := q }

/-- The loop `for (i = 0; i < m; ++i)` whose bound shrinks (matching_scaling.hpp 157–173), with fuel. -/
def deferLoop (good : Buf Nat → Buf Nat → Nat → M Bool) (m0 : Nat) : Nat → Nat → Defer → M Defer
  | 0, _, _ => throw (.ub "endless deferral")
  | f + 1, i, s =>
    if i < s.m then do
      let s ← deferWhile good m0 i (m0 + 1) s
      if s.m = i then pure s
      else do
        let s ← deferCompress i s
        deferLoop good m0 f (i + 1) s
    else pure s

/-- Copying the deferred entries back behind the leading block (matching_scaling.hpp 174–180). -/
def deferTail (m0 : Nat) (s : Defer) : M Defer :=
  if s.deferrals ≠ 0 then
    forUp s.m m0 s fun i s' => do
      let x ← s'.wp.rd (i - s.m)
      let p ← s'.p.wr i x
      let y ← s'.wq.rd (i - s.m)
      let q ← s'.q.wr i y
      pure { s' with p := p, q := q }
  else pure s

/-- `defer_tiny_diags` (matching_scaling.hpp 97–183); `wp`, `wq` are the inverse mappings used as buffers (438–440). -/
def deferTiny (good : Buf Nat → Buf Nat → Nat → M Bool) (m0 : Nat) (p q wp wq : Buf Nat) : M Defer := do
  let s ← deferLoop good m0 (m0 + 1) 0 { m := m0, deferrals := 0, p := p, q := q, wp := wp, wq := wq }
  deferTail m0 s

/-! ### The pattern of the leading block -/

/-- A pattern in compressed column storage without values. -/
structure Pat where
  start : Buf Nat
  inds : Buf Nat

section pattern
variable {K : Type _}

/-- Sweep over the indices of a line (no values are read). -/
def forInds {σ : Type _} (A : CS K) (i : Nat) (s : σ) (f : Nat → σ → M σ) : M σ := do
  let lo ← A.start.rd i
  let hi ← A.start.rd (i + 1)
  forUp lo hi s fun k s => do
    let j ← A.inds.rd k
    f j s

/-- Append `x` to a growing array with write position `s.1`: `*itr++ = x`. -/
def push (x : Nat) (s : Nat × Buf Nat) : M (Nat × Buf Nat) := do
  let b ← s.2.wr s.1 x
  pure (s.1 + 1, b)

/-- `compute_leading_block` with `apat = false` (matching_scaling.hpp 207–244). -/
def leadPlain (A : CS K) (m : Nat) (q pinv : Buf Nat) : M Pat := do
  let st ← (Buf.mk' (m + 1) 0).wr 0 0
  let st ← forUp 0 m st fun c st => do
    let qc ← q.rd c
    let cnt ← forInds A qc 0 fun i cnt => do
      let r ← pinv.rd i
      pure (if r < m then cnt + 1 else cnt)
    let a ← st.rd c
    st.wr (c + 1) (a + cnt)
  let nnz ← st.rd m
  let r ← forUp 0 m (0, Buf.mk' nnz 0) fun c s => do
    let qc ← q.rd c
    let s ← forInds A qc s fun i s => do
      let r ← pinv.rd i
      if r < m then push r s else pure s
    let b ← st.rd c
    let inds ← CS.sortRange s.2 b s.1
    pure (s.1, inds)
  pure { start := st, inds := r.2 }

/-- State of the sweeps that form `A + A^T` (matching_scaling.hpp 245–318): the mask and the array under construction. -/
structure Apat where
  masks : Buf Bool
  pos : Nat
  buf : Buf Nat

/-- An index of the column (matching_scaling.hpp 257–264, 294–301): `if (ind < m) { masks[ind] = true; *itr++ = ind; }`. -/
def apatCol (m : Nat) (pinv : Buf Nat) (i : Nat) (s : Apat) : M Apat := do
  let ind ← pinv.rd i
  if ind < m then do
    let mk ← s.masks.wr ind true
    let b ← s.buf.wr s.pos ind
    pure { masks := mk, pos := s.pos + 1, buf := b }
  else pure s

/-- An index of the row (matching_scaling.hpp 269–276, 304–309).  The code tests `!masks[ind] && ind < m` in this order: the mask is read before
the index is known to lie inside it. -/
def apatRow (m : Nat) (qinv : Buf Nat) (i : Nat) (s : Apat) : M Apat := do
  let ind ← qinv.rd i
  let mk ← s.masks.rd ind
  if mk = false ∧ ind < m then do
    let mk ← s.masks.wr ind true
    let b ← s.buf.wr s.pos ind
    pure { masks := mk, pos := s.pos + 1, buf := b }
  else pure s

/-- Both sweeps for line `i` (matching_scaling.hpp 254–276, 292–310). -/
def apatLine (Accs Acrs : CS K) (m : Nat) (p q pinv qinv : Buf Nat) (i : Nat) (s : Apat) : M Apat := do
  let col ← q.rd i
  let s ← forInds Accs col s (apatCol m pinv)
  let row ← p.rd i
  forInds Acrs row s (apatRow m qinv)

/-- Resetting the mask over the positions `[lo,hi)` of the array (matching_scaling.hpp 279–280, 315–316). -/
def apatReset (lo hi : Nat) (buf : Buf Nat) (masks : Buf Bool) : M (Buf Bool) :=
  forUp lo hi masks fun k masks => do
    let j ← buf.rd k
    masks.wr j false

/-- `compute_leading_block` with `apat = true` (matching_scaling.hpp 245–318). -/
def leadSymm (Accs Acrs : CS K) (m : Nat) (p q pinv qinv : Buf Nat) : M Pat := do
  let st ← (Buf.mk' (m + 1) 0).wr 0 0
  let r ← forUp 0 m (st, Buf.mk' m false, Buf.mk' m 0) fun i r => do
    let s ← apatLine Accs Acrs m p q pinv qinv i { masks := r.2.1, pos := 0, buf := r.2.2 }
    let a ← r.1.rd i
    let st ← r.1.wr (i + 1) (a + s.pos)
    let masks ← apatReset 0 s.pos s.buf s.masks
    pure (st, masks, s.buf)
  let st := r.1
  let nnz ← st.rd m
  let s ← forUp 0 m ({ masks := r.2.1, pos := 0, buf := Buf.mk' nnz 0 } : Apat) fun i s => do
    let s ← apatLine Accs Acrs m p q pinv qinv i s
    let b ← st.rd i
    let inds ← CS.sortRange s.buf b s.pos
    let e ← st.rd (i + 1)
    let masks ← apatReset b e inds s.masks
    pure { masks := masks, pos := s.pos, buf := inds }
  pure { start := st, inds := s.buf }

end pattern

/-! ### Applying the fill-reducing ordering -/

/-- `reorder_finalize_perm` (driver.hpp 122–130): the leading part of the permutation is composed with `P`, using the inverse
mapping as a buffer; then the inverse mapping is rebuilt. -/
def reorderFinalize (P : Buf Nat) (m : Nat) (Q : BiPerm) : M BiPerm := do
  let buf ← forUp 0 m Q.inv fun i buf => do
    let j ← P.rd i
    let x ← Q.p.rd j
    buf.wr i x
  let buf ← forUp m Q.p.size buf fun i buf => do
    let x ← Q.p.rd i
    buf.wr i x
  BiPerm.buildInv { p := buf, inv := Q.p }

/-! ### Matching driver and the whole preprocessing -/

/-- Result of the weighted matching (`eql::Equilibrator::compute`, EqlDriver.hpp 93–97): flag, signed 1-based row
permutation, scalings `eq.s`, `eq.t`. -/
structure MatchOut (R : Type _) where
  info : Int
  perm : Buf Int
  s : Buf R
  t : Buf R

/-- External kernels: matching (HSL_MC64), minimum degree ordering (AMD), reverse Cuthill–McKee (`run_rcm`,
reordering.hpp 103–125), each taking the pattern and its dimension. -/
structure Kernels (K R : Type _) where
  mc64 : CS K → MatchOut R
  amd : Nat → Pat → M (Buf Nat)
  rcm : Nat → Pat → M (Buf Nat)

/-- Options used here (Options.hpp): `reorder` (0 off, 1 auto, 2 AMD, 3 RCM), `pre_scale`, `beta`. -/
structure Opts (R : Type _) where
  reorder : Int
  preScale : Int
  beta : R

section driver
variable {K R : Type _} [Mul K] [Inhabited K] [Field R] [LinearOrder R]

/-- Arithmetic parameters: magnitude, conversion, square root, machine precision, and the tolerance `1e-10` of the
iterative scaling. -/
structure Arith (K R : Type _) where
  nrm : K → R
  emb : R → K
  sqrt : R → R
  eps : R
  tol : R

/-- The choice of the a-priori scaling (EqlDriver.hpp 81–92). -/
def preScale (a : Arith K R) (isSymm : Bool) (kind : Int) (B : CS K) (s t : Buf R) : M (CS K × Buf R × Buf R) :=
  if kind = 0 then scaleEye B s t
  else if kind = 1 then scaleExtreme a.nrm a.emb isSymm B s t
  else iterScale a.nrm a.emb a.sqrt isSymm a.tol 5 B s t

/-- Multiplying in the scalings of the matching; the matrix is passed transposed, hence the exchange of roles
(EqlDriver.hpp 113–118). -/
def mulScales (o : MatchOut R) (n : Nat) (s t : Buf R) : M (Buf R × Buf R) :=
  forUp 0 n (s, t) fun i st => do
    let a ← st.1.rd i
    let b ← o.t.rd i
    let s ← st.1.wr i (a * b)
    let c ← st.2.rd i
    let d ← o.s.rd i
    let t ← st.2.wr i (c * d)
    pure (s, t)

/-- Post-processing of the permutation (EqlDriver.hpp 121–123). -/
def absPerm (o : MatchOut R) (n : Nat) (p : Buf Nat) : M (Buf Nat) :=
  forUp 0 n p fun i p => do
    let x ← o.perm.rd i
    p.wr i (x.natAbs - 1)

/-- Symmetric case (EqlDriver.hpp 126–129) or identity column permutation (130–131). -/
def symmFix (sqrt : R → R) (isSymm : Bool) (n : Nat) (p q : Buf Nat) (s t : Buf R) : M (Buf Nat × Buf R × Buf R) :=
  if isSymm then
    forUp 0 n (q, s, t) fun i r => do
      let x ← p.rd i
      let q ← r.1.wr i x
      let a ← r.2.1.rd i
      let b ← r.2.2.rd i
      let s ← r.2.1.wr i (sqrt (a * b))
      let t ← r.2.2.wr i (sqrt (a * b))
      pure (q, s, t)
  else
    forUp 0 n (q, s, t) fun i r => do
      let q ← r.1.wr i i
      pure (q, r.2)

/-- `EqlDriver::do_matching<IsSymm>` (EqlDriver.hpp 67–132).  The guard "must be squared systems" (74) compares
`B.nrows()` with itself and never fires. -/
def eqlMatch (a : Arith K R) (ker : Kernels K R) (isSymm : Bool) (kind : Int) (B : CS K) (p q : Buf Nat) (s t : Buf R) :
    M (Buf Nat × Buf Nat × Buf R × Buf R) := do
  let n := B.psize
  let r ← preScale a isSymm kind B s t
  let o := ker.mc64 r.1
  if o.info < 0 then throw (.hif "MC64 matching returned negative flag!")
  else do
    let st ← mulScales o n r.2.1 r.2.2
    let p ← absPerm o n p
    let z ← symmFix a.sqrt isSymm n p q st.1 st.2
    pure (p, z.1, z.2.1, z.2.2)

/-- Identity mapping and unit scaling beyond the leading block (matching_scaling.hpp 417–425). -/
def fillTail (m0 M : Nat) (p : Buf Nat) (s : Buf R) : Hif.M (Buf Nat × Buf R) :=
  forUp m0 M (p, s) fun i r => do
    let p ← r.1.wr i i
    let s ← r.2.wr i 1
    pure (p, s)

/-- Result of `do_maching`: pattern of the leading block (if needed), its size, scalings and permutations. -/
structure Matched (R : Type _) where
  pat : Pat
  m : Nat
  s : Buf R
  t : Buf R
  p : BiPerm
  q : BiPerm

/-- The pattern needed by the ordering (matching_scaling.hpp 441–448); `none` when no ordering follows. -/
def matchPattern (isSymm : Bool) (reorder : Int) (Accs Acrs : CS K) (m : Nat) (p q : BiPerm) : M (Pat × BiPerm × BiPerm) :=
  if reorder ≠ 0 ∧ m ≠ 0 then do
    let p ← p.buildInv
    if isSymm = false ∧ reorder = 3 then do
      let q ← q.buildInv
      let b ← leadSymm Accs Acrs m p.p q.p p.inv q.inv
      pure (b, p, q)
    else do
      let b ← leadPlain Accs m q.p p.inv
      pure (b, p, q)
  else pure (⟨Buf.mk' 1 0, Buf.mk' 0 0⟩, p, q)

/-- The matrix handed to the matching (matching_scaling.hpp 374–406): all of `A_crs` or its leading block. -/
def matchInput (Acrs : CS K) (m0 : Nat) : M (CS K) :=
  if m0 = Acrs.psize then pure Acrs else Acrs.extractLeading m0

/-- `do_maching<IsSymm>` (matching_scaling.hpp 346–450). -/
def doMatching (a : Arith K R) (ker : Kernels K R) (isSymm : Bool) (opts : Opts R) (m0 level : Nat) (Accs Acrs : CS K) :
    M (Matched R) := do
  let rows := Accs.ssize
  let cols := Accs.psize
  let B ← matchInput Acrs m0
  let r ← eqlMatch a ker isSymm opts.preScale B (Buf.mk' rows 0) (Buf.mk' cols 0) (Buf.mk' rows 0) (Buf.mk' cols 0)
  let ps ← fillTail m0 rows r.1 r.2.2.1
  let qt ← fillTail m0 cols r.2.1 r.2.2.2
  let st ← fixPoor a.sqrt m0 level ps.1 qt.1 ps.2 qt.2 opts.beta
  let d ← deferTiny (isGood a.nrm a.eps Accs Acrs) m0 ps.1 qt.1 (Buf.mk' rows 0) (Buf.mk' cols 0)
  let b ← matchPattern isSymm opts.reorder Accs Acrs d.m ⟨d.p, d.wp⟩ ⟨d.q, d.wq⟩
  pure { pat := b.1, m := d.m, s := st.1, t := st.2, p := b.2.1, q := b.2.2 }

/-- The choice of the ordering (driver.hpp 99–112). -/
def runOrdering (ker : Kernels K R) (isSymm : Bool) (reorder : Int) (m0 level m : Nat) (b : Pat) : M (Buf Nat) :=
  if reorder = 1 then
    if isSymm = true ∧ level = 1 ∧ m ≠ m0 then ker.rcm m b else ker.amd m b
  else if reorder = 2 then ker.amd m b
  else ker.rcm m b

/-- `do_preprocessing<IsSymm>` (driver.hpp 66–142). -/
def doPreprocess (a : Arith K R) (ker : Kernels K R) (isSymm : Bool) (opts : Opts R) (m0 level : Nat) (Accs Acrs : CS K) :
    M (Matched R) :=
  if opts.reorder < 0 ∨ 4 ≤ opts.reorder then throw (.hif "invalid reorder flag")
  else do
    let r ← doMatching a ker isSymm opts m0 level Accs Acrs
    if opts.reorder ≠ 0 ∧ r.m ≠ 0 then do
      let P ← runOrdering ker isSymm opts.reorder m0 level r.m r.pat
      let p ← reorderFinalize P r.m r.p
      let q ← reorderFinalize P r.m r.q
      pure { r with p := p, q := q }
    else do
      let p ← r.p.buildInv
      let q ← r.q.buildInv
      pure { r with p := p, q := q }

end driver

end Pre
end Hif
