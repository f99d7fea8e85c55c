import Verif.Core
import Mathlib.Order.WithBot
import Mathlib.Algebra.Order.Field.Basic

set_option linter.unusedVariables false
set_option linter.unusedSectionVars false

/-!
# The weighted matching (model)

Model of src/hif/pre/equilibrate.hpp: the matching kernel `kernel` (388–684) with the binary heap (`kernel_` 164–199, `kernel__` 203–262,
`kernel___` 266–345) and `cleanup` (348–385), and of `compute` (67–160) and `Equilibrator` (724–798).

Conventions.  The source shifts every pointer by one and counts from 1.  Here an array of length `n` is a buffer of size `n + 1` whose element 0
is never touched: `rd1`/`wr1` report an access to element 0 as an access outside the array.  (In the source the arrays are consecutive parts of two
work arrays, so such an access would hit the neighbouring array.)

Numbers are a linearly ordered field `R` extended by `⊤` (`rinf`, `HUGE_VAL`).  The operations on `⊤` whose result in C++ would be `-inf` or NaN
are reported as `Err.ub`; the theorems show that they are never executed.  Simplifications: the flag of the heap routines is `false` in every call
(498, 520, 552, 560), so only that branch is modelled; the column number `-1` that marks the root of the search tree in `pr` is written 0 (no
column has this number); `isp`, `jsp` are reset for every search; the check of the input for repeated indices (98–117) is compiled in only with
`HIF_DEBUG` (738–740) and is not modelled.
-/

namespace Hif
namespace Mc64

/-- Extended numbers. -/
abbrev D (R : Type _) := WithTop R

/-- Checked load with numbering from 1. -/
def rd1 {α : Type _} (b : Buf α) (i : Nat) : M α := if i = 0 then throw .oob else b.rd i

/-- Checked store with numbering from 1. -/
def wr1 {α : Type _} (b : Buf α) (i : Nat) (v : α) : M (Buf α) := if i = 0 then throw .oob else b.wr i v

section
variable {R : Type _} [Field R] [LinearOrder R]

/-- `x - y`. -/
def fsub : D R → D R → M (D R)
  | some x, some y => pure (some (x - y))
  | none, some _ => pure none
  | _, none => throw (.ub "infinite operand")

/-- `x + y`. -/
def fadd : D R → D R → M (D R)
  | some x, some y => pure (some (x + y))
  | _, _ => pure none

/-! ### The heap -/

/-- The upward loop (179–196 and 300–309, 322–332): the hole at `pos` moves towards the root while the element above has a larger key. -/
def upLoop (d : Buf (D R)) (dj : D R) : Nat → Nat → Buf Nat → Buf Nat → M (Nat × Buf Nat × Buf Nat)
  | 0, pos, q, l => pure (pos, q, l)
  | f + 1, pos, q, l => do
    let ph := pos / 2
    let qk ← rd1 q ph
    let dk ← rd1 d qk
    if dk ≤ dj then pure (pos, q, l)
    else do
      let q ← wr1 q pos qk
      let l ← wr1 l qk pos
      if ph ≤ 1 then pure (ph, q, l) else upLoop d dj f ph q l

/-- `kernel_(j, n, q, d, l, false)` (164–199): move node `j` up to its place. -/
def heapUp (j n : Nat) (d : Buf (D R)) (q l : Buf Nat) : M (Buf Nat × Buf Nat) := do
  let pos ← rd1 l j
  let r ← (if 1 < pos then do
      let dj ← rd1 d j
      upLoop d dj n pos q l
    else pure (pos, q, l))
  let q ← wr1 r.2.1 r.1 j
  let l ← wr1 r.2.2 j r.1
  pure (q, l)

/-- The smaller child (242–250, 333–341). -/
def child (d : Buf (D R)) (q : Buf Nat) (ql p2 : Nat) : M (Nat × D R) := do
  let x ← rd1 q p2
  let dk ← rd1 d x
  if p2 < ql then do
    let y ← rd1 q (p2 + 1)
    let dr ← rd1 d y
    pure (if dr < dk then (p2 + 1, dr) else (p2, dk))
  else pure (p2, dk)

/-- The downward loop (239–256 and 329–344). -/
def downLoop (d : Buf (D R)) (dj : D R) (ql : Nat) : Nat → Nat → Buf Nat → Buf Nat → M (Nat × Buf Nat × Buf Nat)
  | 0, pos, q, l => pure (pos, q, l)
  | f + 1, pos, q, l =>
    if ql < 2 * pos then pure (pos, q, l)
    else do
      let c ← child d q ql (2 * pos)
      if dj ≤ c.2 then pure (pos, q, l)
      else do
        let qk ← rd1 q c.1
        let q ← wr1 q pos qk
        let l ← wr1 l qk pos
        downLoop d dj ql f c.1 q l

/-- `kernel__(&qlen, n, q, d, l, false)` (203–262): delete the root; `ql` is the length before. -/
def popRoot (ql n : Nat) (d : Buf (D R)) (q l : Buf Nat) : M (Buf Nat × Buf Nat) := do
  let j ← rd1 q ql
  let dj ← rd1 d j
  let r ← downLoop d dj (ql - 1) n 1 q l
  let q ← wr1 r.2.1 r.1 j
  let l ← wr1 r.2.2 j r.1
  pure (q, l)

/-- `kernel___(&pos, &qlen, n, q, d, l, false)` (266–345): delete the node at `pos`; `ql` is the length before. -/
def removeAt (pos ql n : Nat) (d : Buf (D R)) (q l : Buf Nat) : M (Buf Nat × Buf Nat) :=
  if ql = pos then pure (q, l)
  else do
    let j ← rd1 q ql
    let dj ← rd1 d j
    let r ← (if 1 < pos then upLoop d dj n pos q l else pure (pos, q, l))
    let q ← wr1 r.2.1 r.1 j
    let l ← wr1 r.2.2 j r.1
    if r.1 ≠ pos then pure (q, l)
    else do
      let r ← downLoop d dj (ql - 1) n pos q l
      let q ← wr1 r.2.1 r.1 j
      let l ← wr1 r.2.2 j r.1
      pure (q, l)

/-! ### The kernel -/

/-- The matrix (arguments of `kernel`, 388–392): column pointers, row numbers and costs. -/
structure Mat (R : Type _) where
  n : Nat
  ip : Buf Nat
  irn : Buf Nat
  a : Buf (D R)

/-- Work arrays and outputs of `kernel` (388–392). -/
structure St (R : Type _) where
  iperm : Buf Nat
  jperm : Buf Nat
  out : Buf Nat
  pr : Buf Nat
  q : Buf Nat
  l : Buf Nat
  u : Buf (D R)
  d : Buf (D R)
  num : Nat

/-- Loop over the entries of column `j`. -/
def forCol {σ : Type _} (A : Mat R) (j : Nat) (s : σ) (f : Nat → σ → M σ) : M σ := do
  let lo ← rd1 A.ip j
  let hi ← rd1 A.ip (j + 1)
  forUp lo hi s f

/-- Initial values (409–418); `junk` is what the allocated work arrays contain. -/
def start (A : Mat R) (junk : Nat → Nat) : M (St R) := do
  let z : Buf Nat := Buf.mk' (A.n + 1) 0
  let pr ← forUp 1 (A.n + 1) (⟨A.n + 1, junk⟩ : Buf Nat) fun k pr => do
    let x ← rd1 A.ip k
    wr1 pr k x
  pure ⟨z, z, ⟨A.n + 1, junk⟩, pr, ⟨A.n + 1, junk⟩, z, Buf.mk' (A.n + 1) ⊤, Buf.mk' (A.n + 1) ((0 : R) : D R), 0⟩

/-- Smallest cost of every row (420–429). -/
def initU (A : Mat R) (c : St R) : M (St R) :=
  forUp 1 (A.n + 1) c fun j c =>
    forCol A j c fun k c => do
      let i ← rd1 A.irn k
      let x ← rd1 A.a k
      let ui ← rd1 c.u i
      if ui < x then pure c
      else do
        let u ← wr1 c.u i x
        let iperm ← wr1 c.iperm i j
        let l ← wr1 c.l i k
        pure { c with u := u, iperm := iperm, l := l }

/-- One row of the cheap assignment (431–442). -/
def cheapBody (A : Mat R) (i : Nat) (c : St R) : M (St R) := do
  let j ← rd1 c.iperm i
  if j = 0 then pure c
  else do
    let iperm ← wr1 c.iperm i 0
    let kj ← rd1 c.jperm j
    if kj ≠ 0 then pure { c with iperm := iperm }
    else do
      let lo ← rd1 A.ip j
      let hi ← rd1 A.ip (j + 1)
      if A.n / 10 < hi - lo ∧ 50 < A.n then pure { c with iperm := iperm }
      else do
        let iperm ← wr1 iperm i j
        let k ← rd1 c.l i
        let jperm ← wr1 c.jperm j k
        pure { c with iperm := iperm, jperm := jperm, num := c.num + 1 }

/-- Cheap assignment (430–443). -/
def cheap (A : Mat R) (c : St R) : M (St R) := forUp 1 (A.n + 1) c fun i c => cheapBody A i c

/-- The smallest reduced cost of a column, an unassigned row preferred (457–475); the result is `vj`, `i0`, `k0`. -/
def pickBody (A : Mat R) (c : St R) (k : Nat) (r : D R × Nat × Nat) : M (D R × Nat × Nat) := do
  let i ← rd1 A.irn k
  let x ← rd1 A.a k
  let ui ← rd1 c.u i
  let di ← fsub x ui
  if r.1 < di then pure r
  else if di < r.1 ∨ di = ⊤ then pure (di, i, k)
  else do
    let pi ← rd1 c.iperm i
    if pi ≠ 0 then pure r
    else do
      let p0 ← rd1 c.iperm r.2.1
      if p0 = 0 then pure r else pure (di, i, k)

/-- The remaining part of an assigned column is searched for an unassigned row of smallest reduced cost (491–496). -/
def findFree (A : Mat R) (c : St R) (jj : Nat) : Nat → Nat → M (Option Nat)
  | 0, _ => pure none
  | f + 1, kk => do
    let ii ← rd1 A.irn kk
    let p ← rd1 c.iperm ii
    if 0 < p then findFree A c jj f (kk + 1)
    else do
      let x ← rd1 A.a kk
      let ui ← rd1 c.u ii
      let v ← fsub x ui
      let dj ← rd1 c.d jj
      if v ≤ dj then pure (some kk) else findFree A c jj f (kk + 1)

/-- The exchange along a path with two columns (497–504). -/
def swapTwo (A : Mat R) (j k jj kk : Nat) (c : St R) : M (St R) := do
  let jperm ← wr1 c.jperm jj kk
  let ii ← rd1 A.irn kk
  let iperm ← wr1 c.iperm ii jj
  let pr ← wr1 c.pr jj (kk + 1)
  let jperm ← wr1 jperm j k
  let i ← rd1 A.irn k
  let iperm ← wr1 iperm i j
  let pr ← wr1 pr j (k + 1)
  pure { c with jperm := jperm, iperm := iperm, pr := pr, num := c.num + 1 }

/-- `for (k = k0; k <= kstop; ++k)` (485–512); the first argument is the number of entries left. -/
def tryTwo (A : Mat R) (j : Nat) (vj : D R) : Nat → Nat → St R → M (St R)
  | 0, _, c => pure c
  | f + 1, k, c => do
    let i ← rd1 A.irn k
    let x ← rd1 A.a k
    let ui ← rd1 c.u i
    let di ← fsub x ui
    if vj < di then tryTwo A j vj f (k + 1) c
    else do
      let jj ← rd1 c.iperm i
      let kk1 ← rd1 c.pr jj
      let e ← rd1 A.ip (jj + 1)
      if e ≤ kk1 then tryTwo A j vj f (k + 1) c
      else do
        let r ← findFree A c jj (e - kk1) kk1
        match r with
        | some kk => swapTwo A j k jj kk c
        | none => do
          let pr ← wr1 c.pr jj e
          tryTwo A j vj f (k + 1) { c with pr := pr }

/-- One unassigned column (449–513). -/
def scanCol (A : Mat R) (j : Nat) (c : St R) : M (St R) := do
  let kj ← rd1 c.jperm j
  if kj ≠ 0 then pure c
  else do
    let k1 ← rd1 A.ip j
    let e ← rd1 A.ip (j + 1)
    if e ≤ k1 then pure c
    else do
      let i0 ← rd1 A.irn k1
      let x ← rd1 A.a k1
      let u0 ← rd1 c.u i0
      let v0 ← fsub x u0
      let r ← forUp (k1 + 1) e (v0, i0, k1) fun k r => pickBody A c k r
      let d ← wr1 c.d j r.1
      let c := { c with d := d }
      let p0 ← rd1 c.iperm r.2.1
      if p0 = 0 then do
        let jperm ← wr1 c.jperm j r.2.2
        let iperm ← wr1 c.iperm r.2.1 j
        let pr ← wr1 c.pr j (r.2.2 + 1)
        pure { c with jperm := jperm, iperm := iperm, pr := pr, num := c.num + 1 }
      else tryTwo A j r.1 (e - r.2.2) r.2.2 c

/-- All unassigned columns (448–514). -/
def scanCols (A : Mat R) (c : St R) : M (St R) := forUp 1 (A.n + 1) c fun j c => scanCol A j c

/-- Preparation of the main loop (519–522). -/
def prepMain (A : Mat R) (c : St R) : M (St R) :=
  forUp 1 (A.n + 1) c fun i c => do
    let d ← wr1 c.d i ⊤
    let l ← wr1 c.l i 0
    pure { c with d := d, l := l }

/-- Variables of a search (525–533). -/
structure W (R : Type _) where
  dmin : D R
  csp : D R
  isp : Nat
  jsp : Nat
  qlen : Nat
  low : Nat
  up : Nat
  c : St R

/-- An entry of the column the search starts from (537–551). -/
def firstBody (A : Mat R) (j k : Nat) (w : W R) : M (W R) := do
  let i ← rd1 A.irn k
  let x ← rd1 A.a k
  let ui ← rd1 w.c.u i
  let dnew ← fsub x ui
  if w.csp ≤ dnew then pure w
  else do
    let pi ← rd1 w.c.iperm i
    if pi = 0 then pure { w with csp := dnew, isp := k, jsp := j }
    else do
      let d ← wr1 w.c.d i dnew
      let q ← wr1 w.c.q (w.qlen + 1) k
      pure { w with dmin := if dnew < w.dmin then dnew else w.dmin, qlen := w.qlen + 1, c := { w.c with d := d, q := q } }

/-- `--low; q[low] = i; l[i] = low` (565–567, 590–592, 636–638). -/
def pushLow (i : Nat) (w : W R) : M (W R) := do
  let q ← wr1 w.c.q (w.low - 1) i
  let l ← wr1 w.c.l i (w.low - 1)
  pure { w with low := w.low - 1, c := { w.c with q := q, l := l } }

/-- `l[i] = ++qlen` if `i` is not in the heap, then `kernel_` (569–571, 640–644). -/
def pushHeap (n i : Nat) (w : W R) : M (W R) := do
  let li ← rd1 w.c.l i
  let l ← (if li = 0 then wr1 w.c.l i (w.qlen + 1) else pure w.c.l)
  let r ← heapUp i n w.c.d w.c.q l
  pure { w with qlen := if li = 0 then w.qlen + 1 else w.qlen, c := { w.c with q := r.1, l := r.2 } }

/-- `jj = iperm[i]; out[jj] = k; pr[jj] = j` (574–576, 647–649). -/
def setTree (i j k : Nat) (w : W R) : M (W R) := do
  let jj ← rd1 w.c.iperm i
  let out ← wr1 w.c.out jj k
  let pr ← wr1 w.c.pr jj j
  pure { w with c := { w.c with out := out, pr := pr } }

/-- One of the rows collected by `firstBody` (556–577).  The source writes `l[i] = ++qlen` without looking at `l[i]`. -/
def heapBody (A : Mat R) (j kk : Nat) (w : W R) : M (W R) := do
  let k ← rd1 w.c.q kk
  let i ← rd1 A.irn k
  let di ← rd1 w.c.d i
  if w.csp ≤ di then do
    let d ← wr1 w.c.d i ⊤
    pure { w with c := { w.c with d := d } }
  else do
    let w ← (if di ≤ w.dmin then pushLow i w
      else do
        let l ← wr1 w.c.l i (w.qlen + 1)
        let r ← heapUp i A.n w.c.d w.c.q l
        pure { w with qlen := w.qlen + 1, c := { w.c with q := r.1, l := r.2 } })
    setTree i j k w

/-- Start of a search (526–577). -/
def begin_ (A : Mat R) (j : Nat) (c : St R) : M (W R) := do
  let pr ← wr1 c.pr j 0
  let w ← forCol A j (⟨⊤, ⊤, 0, 0, 0, A.n + 1, A.n + 1, { c with pr := pr }⟩ : W R) fun k w => firstBody A j k w
  forUp 1 (w.qlen + 1) { w with qlen := 0 } fun kk w => heapBody A j kk w

/-- Rows with the smallest key go from the heap to the second list (588–597); the first argument bounds the number of rows. -/
def extract (n : Nat) : Nat → Nat → W R → M (W R)
  | 0, _, _ => throw (.ub "endless loop")
  | f + 1, i, w => do
    let r ← popRoot w.qlen n w.c.d w.c.q w.c.l
    let w ← pushLow i { w with qlen := w.qlen - 1, c := { w.c with q := r.1, l := r.2 } }
    if w.qlen = 0 then pure w
    else do
      let i ← rd1 w.c.q 1
      let di ← rd1 w.c.d i
      if w.dmin < di then pure w else extract n f i w

/-- An entry of a column reached by the search (611–651). -/
def relax (A : Mat R) (j : Nat) (vj : D R) (k : Nat) (w : W R) : M (W R) := do
  let i ← rd1 A.irn k
  let li ← rd1 w.c.l i
  if w.up ≤ li then pure w
  else do
    let x ← rd1 A.a k
    let s ← fadd vj x
    let ui ← rd1 w.c.u i
    let dnew ← fsub s ui
    if w.csp ≤ dnew then pure w
    else do
      let pi ← rd1 w.c.iperm i
      if pi = 0 then pure { w with csp := dnew, isp := k, jsp := j }
      else do
        let di ← rd1 w.c.d i
        if di ≤ dnew then pure w
        else if w.low ≤ li then pure w
        else do
          let d ← wr1 w.c.d i dnew
          let w := { w with c := { w.c with d := d } }
          let w ← (if dnew ≤ w.dmin then do
              let w ← (if li ≠ 0 then do
                  let r ← removeAt li w.qlen A.n w.c.d w.c.q w.c.l
                  pure { w with qlen := w.qlen - 1, c := { w.c with q := r.1, l := r.2 } }
                else pure w)
              pushLow i w
            else pushHeap A.n i w)
          setTree i j k w

/-- Scan of the column assigned to the row `q[up - 1]` (600–652); the flag tells whether the search goes on. -/
def scanNext (A : Mat R) (w : W R) : M (Bool × W R) := do
  let q0 ← rd1 w.c.q (w.up - 1)
  let dq0 ← rd1 w.c.d q0
  if w.csp ≤ dq0 then pure (false, w)
  else do
    let j ← rd1 w.c.iperm q0
    let kj ← rd1 w.c.jperm j
    let aj ← rd1 A.a kj
    let uq ← rd1 w.c.u q0
    let v ← fsub dq0 aj
    let vj ← fadd v uq
    let w ← forCol A j { w with up := w.up - 1 } fun k w => relax A j vj k w
    pure (true, w)

/-- One pass of the search (581–652). -/
def pass (A : Mat R) (w : W R) : M (Bool × W R) :=
  if w.low = w.up then
    if w.qlen = 0 then pure (false, w)
    else do
      let i ← rd1 w.c.q 1
      let di ← rd1 w.c.d i
      if w.csp ≤ di then pure (false, w)
      else do
        let w ← extract A.n w.qlen i { w with dmin := di }
        scanNext A w
  else scanNext A w

/-- The search loop (578–653), at most `num` passes. -/
def search (A : Mat R) : Nat → W R → M (W R)
  | 0, w => pure w
  | f + 1, w => do
    let r ← pass A w
    if r.1 then search A f r.2 else pure r.2

/-- Tracing back the augmenting path (665–673). -/
def trace (A : Mat R) : Nat → Nat → St R → M (St R)
  | 0, _, c => pure c
  | f + 1, j, c => do
    let jj ← rd1 c.pr j
    if jj = 0 then pure c
    else do
      let k ← rd1 c.out j
      let i ← rd1 A.irn k
      let iperm ← wr1 c.iperm i jj
      let jperm ← wr1 c.jperm jj k
      trace A f jj { c with iperm := iperm, jperm := jperm }

/-- Augmentation and update of `u` (656–679). -/
def augment (A : Mat R) (w : W R) : M (St R) := do
  let i ← rd1 A.irn w.isp
  let iperm ← wr1 w.c.iperm i w.jsp
  let jperm ← wr1 w.c.jperm w.jsp w.isp
  let c ← trace A (w.c.num + 1) w.jsp { w.c with iperm := iperm, jperm := jperm, num := w.c.num + 1 }
  forUp w.up (A.n + 1) c fun kk c => do
    let i ← rd1 c.q kk
    let ui ← rd1 c.u i
    let di ← rd1 c.d i
    let s ← fadd ui di
    let v ← fsub s w.csp
    let u ← wr1 c.u i v
    pure { c with u := u }

/-- Resetting `d` and `l` (681–685, 686–690). -/
def resetBody (kk : Nat) (c : St R) : M (St R) := do
  let i ← rd1 c.q kk
  let d ← wr1 c.d i ⊤
  let l ← wr1 c.l i 0
  pure { c with d := d, l := l }

/-- One column of the main loop (525–691). -/
def mainBody (A : Mat R) (jord : Nat) (c : St R) : M (St R) := do
  let kj ← rd1 c.jperm jord
  if kj ≠ 0 then pure c
  else do
    let w ← begin_ A jord c
    let w ← search A w.c.num w
    let c ← (if w.csp ≠ ⊤ then augment A w else pure w.c)
    let c ← forUp w.low (A.n + 1) c fun kk c => resetBody kk c
    forUp 1 (w.qlen + 1) c fun kk c => resetBody kk c

/-- Column values (353–360). -/
def dualBody (A : Mat R) (j : Nat) (c : St R) : M (St R) := do
  let k ← rd1 c.jperm j
  let x ← (if k ≠ 0 then do
      let x ← rd1 A.a k
      let i ← rd1 A.irn k
      let ui ← rd1 c.u i
      fsub x ui
    else pure ((0 : R) : D R))
  let d ← wr1 c.d j x
  let pj ← rd1 c.iperm j
  let u ← (if pj = 0 then wr1 c.u j ((0 : R) : D R) else pure c.u)
  pure { c with d := d, u := u }

/-- Completion of the permutation (363–384): the rows left over get the columns left over, with a negative sign. -/
def complete (n : Nat) (c : St R) (ip : Buf Int) : M (Buf Int) := do
  let r ← forUp 1 (n + 1) (Buf.mk' (n + 1) 0, c.out, 0) fun i (r : Buf Nat × Buf Nat × Nat) => do
    let j ← rd1 c.iperm i
    if j = 0 then do
      let out ← wr1 r.2.1 (r.2.2 + 1) i
      pure (r.1, out, r.2.2 + 1)
    else do
      let jp ← wr1 r.1 j i
      pure (jp, r.2)
  let s ← forUp 1 (n + 1) (ip, 0) fun j (s : Buf Int × Nat) => do
    let x ← rd1 r.1 j
    if x ≠ 0 then pure s
    else do
      let i ← rd1 r.2.1 (s.2 + 1)
      let ip ← wr1 s.1 i (-(j : Int))
      pure (ip, s.2 + 1)
  pure s.1

/-- What `kernel` leaves: the permutation, the values of the rows and of the columns, and the number of assigned columns. -/
structure Out (R : Type _) where
  perm : Buf Int
  u : Buf (D R)
  d : Buf (D R)
  num : Nat

/-- `cleanup` (348–385). -/
def cleanup (A : Mat R) (c : St R) : M (Out R) := do
  let c ← forUp 1 (A.n + 1) c fun j c => dualBody A j c
  let ip : Buf Int := ⟨c.iperm.size, fun i => (c.iperm.get i : Int)⟩
  if c.num = A.n then pure ⟨ip, c.u, c.d, c.num⟩
  else do
    let p ← complete A.n c ip
    pure ⟨p, c.u, c.d, c.num⟩

/-- `kernel` (388–694). -/
def kernel (A : Mat R) (junk : Nat → Nat) : M (Out R) := do
  let c ← start A junk
  let c ← initU A c
  let c ← cheap A c
  if c.num = A.n then cleanup A c
  else do
    let c ← scanCols A c
    if c.num = A.n then cleanup A c
    else do
      let c ← prepMain A c
      let c ← forUp 1 (A.n + 1) c fun j c => mainBody A j c
      cleanup A c

end
end Mc64
end Hif
