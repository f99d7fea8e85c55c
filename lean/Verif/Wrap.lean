import Verif.Valid

/-!
# Wrapping a user's arrays

Model of `wrap_const_crs` and `wrap_const_ccs` (src/hif/ds/CompressedStorage.hpp 1760–1801, 2661–2703).
-/

namespace Hif
namespace RawCS

/-- Lines 1784–1797 (2687–2699) for a nonempty line: `is_sorted_until` with `<=`, then only the last index is compared, as an unsigned number, with `other`. -/
def wrapLine (inds : Buf Int) (other : Nat) (lo hi : Int) : M Unit :=
  if hi < lo then throw (.ub "reversed range")
  else if lo < 0 then throw .oob
  else do
    forUp (lo.toNat + 1) hi.toNat () fun k _ => do
      let b ← inds.rd k
      let a ← inds.rd (k - 1)
      if b ≤ a then throw (.hif "not sorted") else pure ()
    let j ← inds.rd (hi.toNat - 1)
    if j < 0 ∨ (other : Int) ≤ j then throw (.hif "exceeds bound") else pure ()

/-- `wrap_const_crs` (`rowMajor`) and `wrap_const_ccs`: `start` and `inds` are the user's arrays with the lengths the user allocated, `vsize` the length of the value array.  The wrapped
matrix has `n + 1` pointers and `ind_start[n] - ind_start[0]` entries (lines 91–96; converted to `size_t`).  The check (lines 1777–1799, 2679–2701) runs over `nrows` lines in both cases. -/
def wrapConst (rowMajor : Bool) (nrows ncols : Nat) (start inds : Buf Int) (check : Bool) : M RawCS := do
  let p := if rowMajor then nrows else ncols
  let other := if rowMajor then ncols else nrows
  let back ← start.rd p
  let front ← start.rd 0
  let nz := ((back - front) % (2 : Int) ^ 64).toNat
  let mat : RawCS := { undef := false, psize := p, start := { size := p + 1, get := start.get }, inds := { size := nz, get := inds.get }, vsize := nz }
  if check then do
    if front ≠ 0 then throw (.hif "first entry of row_start does not agree with 0.") else
    forUp 0 nrows () fun i _ => do
      let lo ← start.rd i
      let hi ← start.rd (i + 1)
      if hi = lo then pure () else wrapLine inds other lo hi
    pure mat
  else pure mat

end RawCS
end Hif
