import Verif.Conv
import Verif.Slice
import Mathlib.Data.List.Sort

set_option linter.unusedSectionVars false
set_option linter.unusedVariables false

/-!
# Structural operations: split, leading block, permutation

Model of `_split`, `_split_dual`, `_extract_leading`, `_compute_perm` and their public wrappers
(src/hif/ds/CompressedStorage.hpp 370–648, 1590–1717, 2485–2630).
-/

namespace Hif
namespace CS
variable {K : Type _}

/-! ## Model -/

/-- The loop of `std::lower_bound` (called by `find_sorted`, src/hif/utils/common.hpp 59–66): halve the
remaining length.  `fuel` only makes the recursion structural; it is called with `fuel = len`, and
every round at least halves `len`. -/
def lowerBoundLoop (b : Buf Nat) (v : Nat) : (fuel first len : Nat) → M Nat
  | 0, first, _ => pure first
  | fuel + 1, first, len =>
    if len = 0 then pure first else do
      let mid := first + len / 2
      let x ← b.rd mid
      if x < v then lowerBoundLoop b v fuel (mid + 1) (len - len / 2 - 1)
      else lowerBoundLoop b v fuel first (len / 2)

/-- `find_sorted(_ind_cbegin(i), _ind_cend(i), m).second - _indices.cbegin()`. -/
def findSorted (A : CS K) (i m : Nat) : M Nat := do
  let lo ← A.start.rd i
  let hi ← A.start.rd (i + 1)
  lowerBoundLoop A.inds m (hi - lo) lo (hi - lo)

/-- `std::copy(src+lo, src+hi, dst+pos)` followed/combined with the map `g` on each element. -/
def copyRange {α β : Type _} (src : Buf α) (lo hi : Nat) (g : α → M β) (dst : Buf β) (pos : Nat) : M (Buf β) :=
  forUp lo hi dst fun k dst => do
    let v ← src.rd k
    let w ← g v
    dst.wr (pos + (k - lo)) w

/-- Output state of `_split`. -/
structure SplitSt (K : Type _) where
  pos : Nat
  indptr : Buf Nat
  inds : Buf Nat
  vals : Buf K

/-- `start[i]` in `_split`: a user array, or (`none`) the aliased `indptr.data() + 1`. -/
def startAt (start : Option (Buf Nat)) (indptr : Buf Nat) (i : Nat) : M Nat :=
  match start with
  | some s => s.rd i
  | none => indptr.rd (i + 1)

/-- The sub-range of line `i` that is copied. -/
def splitRange (A : CS K) (second : Bool) (st i : Nat) : M (Nat × Nat) := do
  let lo ← A.start.rd i
  let hi ← A.start.rd (i + 1)
  if st < lo ∨ hi < st then throw (.ub "split position outside the line")
  else pure (if second then (st, hi) else (lo, st))

/-- `*itr -= m` for the second part (the code would store a negative index when `*itr < m`). -/
def shiftIdx (second : Bool) (m j : Nat) : M Nat :=
  if second then (if j < m then throw (.ub "negative index") else pure (j - m)) else pure j

/-- `_split<IsSecond>(m, start, indptr, indices, vals)` (lines 378–424).  The two output iterators advance in
lock step (equal range lengths), so one position is kept. -/
def splitCore (A : CS K) [Inhabited K] (second : Bool) (m : Nat) (start : Option (Buf Nat))
    (indptr : Buf Nat) : M (Buf Nat × Buf Nat × Buf K) := do
  let nnz ← forUp 0 A.psize 0 fun i nnz => do
    let st ← startAt start indptr i
    let r ← A.splitRange second st i
    pure (nnz + (r.2 - r.1))
  if nnz = 0 then pure (Buf.mk' indptr.size 0, Buf.mk' 0 0, Buf.mk' 0 default)
  else do
    let indptr ← indptr.wr 0 0
    let s ← forUp 0 A.psize (SplitSt.mk 0 indptr (Buf.mk' nnz 0) (Buf.mk' nnz default)) fun i s => do
      let st ← startAt start s.indptr i
      let r ← A.splitRange second st i
      let inds ← copyRange A.inds r.1 r.2 (shiftIdx second m) s.inds s.pos
      let vals ← copyRange A.vals r.1 r.2 pure s.vals s.pos
      let b ← s.indptr.rd i
      let indptr ← s.indptr.wr (i + 1) (b + (r.2 - r.1))
      pure (SplitSt.mk (s.pos + (r.2 - r.1)) indptr inds vals)
    pure (s.indptr, s.inds, s.vals)

/-- `split<IsSecond>(m, start)` (lines 1609–1618, CCS 2490–2530). -/
def splitWith (A : CS K) [Inhabited K] (second : Bool) (m : Nat) (start : Buf Nat) : M (CS K) :=
  if m > A.ssize then throw (.hif "invalid split threshold")
  else if start.size < A.psize then throw (.hif "invalid starting position size")
  else do
    let r ← A.splitCore second m (some start) (Buf.mk' A.start.size 0)
    pure { psize := A.psize, ssize := if second then A.ssize - m else m,
           start := r.1, inds := r.2.1, vals := r.2.2 }

/-- `split<IsSecond>(m)` (lines 1590–1597) with the position search of lines 433–443. -/
def split (A : CS K) [Inhabited K] (second : Bool) (m : Nat) : M (CS K) :=
  if m > A.ssize then throw (.hif "invalid split threshold")
  else do
    let indptr ← forUp 0 A.psize (Buf.mk' A.start.size 0) fun i indptr => do
      let p ← A.findSorted i m
      indptr.wr (i + 1) p
    let r ← A.splitCore second m none indptr
    pure { psize := A.psize, ssize := if second then A.ssize - m else m,
           start := r.1, inds := r.2.1, vals := r.2.2 }

/-- Counting loops of `_split_dual` (lines 466–478). -/
def dualCount (A : CS K) (second : Bool) (m : Nat) (start : Buf Nat) (indptr : Buf Nat) : M (Buf Nat) :=
  forUp 0 A.psize indptr fun i indptr => do
    let st ← start.rd i
    let r ← A.splitRange second st i
    forUp r.1 r.2 indptr fun k indptr => do
      let j ← A.inds.rd k
      let jj ← shiftIdx second m j
      let c ← indptr.rd (jj + 1)
      indptr.wr (jj + 1) (c + 1)

/-- Scatter loops of `_split_dual` (lines 494–514). -/
def dualScatter (A : CS K) (second : Bool) (m : Nat) (start : Buf Nat) (s : ConvSt K) : M (ConvSt K) :=
  forUp 0 A.psize s fun i s => do
    let st ← start.rd i
    let r ← A.splitRange second st i
    forUp r.1 r.2 s fun k s => do
      let j ← A.inds.rd k
      let idx ← shiftIdx second m j
      let p ← s.os.rd idx
      let oi ← s.oi.wr p i
      let v ← A.vals.rd k
      let ov ← s.ov.wr p v
      let os ← s.os.wr idx (p + 1)
      pure { it := s.it + 1, os := os, oi := oi, ov := ov }

/-- `_split_dual<IsSecond>(m, n, start, …)` (lines 455–520) wrapped by `split_ccs(m, start)` /
CCS `split_crs` (lines 1646–1656).  The result is stored in the other order; its primary
size is the number of split secondary indices. -/
def splitDualWith (A : CS K) [Inhabited K] (second : Bool) (m : Nat) (start : Buf Nat) : M (CS K) :=
  if m > A.ssize then throw (.hif "invalid split threshold")
  else if start.size < A.psize then throw (.hif "invalid starting position size")
  else do
    let w := if second then A.ssize - m else m
    let indptr ← A.dualCount second m start (Buf.mk' (w + 1) 0)
    let n2 := indptr.size - 1
    let indptr ← prefixSum n2 indptr
    let nnz ← indptr.rd n2
    if nnz = 0 then
      pure { psize := w, ssize := A.psize, start := Buf.mk' (w + 1) 0, inds := Buf.mk' 0 0,
             vals := Buf.mk' 0 default }
    else do
      let s ← A.dualScatter second m start
        { it := 0, os := indptr, oi := Buf.mk' nnz 0, ov := Buf.mk' nnz default }
      let indptr ← convShift n2 s.os
      pure { psize := w, ssize := A.psize, start := indptr, inds := s.oi, vals := s.ov }

/-- `split_ccs<IsSecond>(m)` (lines 522–545, 1634–1642): search the positions first. -/
def splitDual (A : CS K) [Inhabited K] (second : Bool) (m : Nat) : M (CS K) :=
  if m > A.ssize then throw (.hif "invalid split threshold")
  else do
    let buf ← forUp 0 A.psize (Buf.mk' A.psize 0) fun i buf => do
      let p ← A.findSorted i m
      buf.wr i p
    A.splitDualWith second m buf

/-- `extract_leading(m)` (lines 611–648, 1712–1717).  With an empty leading block
`vals.resize(0)` leaves a fresh array in state `DATA_UNDEF`, and line 644 throws. -/
def extractLeading (A : CS K) [Inhabited K] (m : Nat) : M (CS K) := do
  let indptr ← (Buf.mk' (m + 1) 0).wr 0 0
  let (indptr, nz) ← forUp 0 m (indptr, 0) fun i (s : Buf Nat × Nat) => do
    let last ← A.findSorted i m
    let lo ← A.start.rd i
    let indptr ← s.1.wr (i + 1) last
    pure (indptr, s.2 + (last - lo))
  if nz = 0 then throw (.hif "memory allocation failed")
  else do
    let indptr ← indptr.wr 0 0
    let s ← forUp 0 m (0, indptr, Buf.mk' nz 0) fun i (s : Nat × Buf Nat × Buf Nat) => do
      let last ← s.2.1.rd (i + 1)
      let lo ← A.start.rd i
      let inds ← copyRange A.inds lo last pure s.2.2 s.1
      let b ← s.2.1.rd i
      let indptr ← s.2.1.wr (i + 1) (b + (last - lo))
      pure (s.1 + (last - lo), indptr, inds)
    let v ← forUp 0 m (0, Buf.mk' nz default) fun i (v : Nat × Buf K) => do
      let a ← s.2.1.rd i
      let b ← s.2.1.rd (i + 1)
      let lo ← A.start.rd i
      let vals ← copyRange A.vals lo (lo + (b - a)) pure v.2 v.1
      pure (v.1 + (b - a), vals)
    pure { psize := m, ssize := m, start := s.2.1, inds := s.2.2, vals := v.2 }

/-- `std::sort(b+lo, b+hi)` on indices: the unique sorted rearrangement. -/
def sortRange (b : Buf Nat) (lo hi : Nat) : M (Buf Nat) :=
  if b.size < hi then throw .oob
  else pure { size := b.size,
              get := fun k => if lo ≤ k ∧ k < hi then ((b.slice lo hi).insertionSort (· ≤ ·)).getD (k - lo) 0 else b.get k }

/-- State of the inner loop of `_compute_perm`. -/
structure PermLn (K : Type _) where
  ip : Nat
  inds : Buf Nat
  buf : Buf K

/-- Inner loop of `_compute_perm` (lines 580–594, `DoValue = true`) over line `p_i`. -/
def permLine (A : CS K) (qt : Buf Nat) (only : Bool) (psize pi : Nat) (s : PermLn K) : M (PermLn K) :=
  A.forLine pi s fun j v s => do
    let q ← qt.rd j
    if only && !(decide (q < psize)) then pure s
    else do
      let inds ← s.inds.wr s.ip q
      let buf ← s.buf.wr q v
      pure { ip := s.ip + 1, inds := inds, buf := buf }

/-- State of the outer loop of `_compute_perm`. -/
structure PermSt (K : Type _) where
  ip : Nat
  vp : Nat
  indptr : Buf Nat
  inds : Buf Nat
  vals : Buf K
  buf : Buf K

/-- `_compute_perm<true, OnlyLeading>` (lines 550–605). -/
def computePermCore (A : CS K) [Inhabited K] (p qt : Buf Nat) (only : Bool) (leading : Nat) :
    M (Buf Nat × Buf Nat × Buf K) :=
  if p.size ≠ A.psize then throw (.hif "permutation out of bound") else do
    let psize := if only then leading else p.size
    let buf : Buf K := Buf.mk' (if only then leading else qt.size) default
    let indptr : Buf Nat := Buf.mk' (psize + 1) 0
    let nnz ← forUp 0 psize 0 fun i nnz => do
      let pi ← p.rd i
      let lo ← A.start.rd pi
      let hi ← A.start.rd (pi + 1)
      pure (nnz + (hi - lo))
    if nnz = 0 then pure (Buf.mk' (psize + 1) 0, Buf.mk' 0 0, Buf.mk' 0 default)
    else do
      let indptr ← indptr.wr 0 0
      let s ← forUp 0 psize (PermSt.mk 0 0 indptr (Buf.mk' nnz 0) (Buf.mk' nnz default) buf) fun i s => do
        let pi ← p.rd i
        let r ← A.permLine qt only psize pi { ip := s.ip, inds := s.inds, buf := s.buf }
        let b ← s.indptr.rd i
        let indptr ← s.indptr.wr (i + 1) (b + (r.ip - s.ip))
        let inds ← sortRange r.inds s.ip r.ip
        let v ← forUp s.ip r.ip (s.vp, s.vals) fun k (v : Nat × Buf K) => do
          let j ← inds.rd k
          let x ← r.buf.rd j
          let vals ← v.2.wr v.1 x
          pure (v.1 + 1, vals)
        pure (PermSt.mk r.ip v.1 indptr inds v.2 r.buf)
      pure (s.indptr, { size := s.ip, get := s.inds.get }, { size := s.vp, get := s.vals.get })

/-- `compute_perm(p, qt, leading)` (lines 1680–1708). -/
def computePerm (A : CS K) [Inhabited K] (p qt : Buf Nat) (leading : Nat) : M (CS K) :=
  if qt.size ≠ A.ssize then throw (.hif "invalid column permutation vector length")
  else if leading = 0 ∨ (leading = A.psize ∧ leading = A.ssize) then do
    let r ← A.computePermCore p qt false leading
    pure { psize := A.psize, ssize := A.ssize, start := r.1, inds := r.2.1, vals := r.2.2 }
  else if leading > min A.psize A.ssize then throw (.hif "invalid leading block size")
  else do
    let r ← A.computePermCore p qt true leading
    pure { psize := leading, ssize := leading, start := r.1, inds := r.2.1, vals := r.2.2 }

end CS
end Hif
