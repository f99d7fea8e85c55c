import Verif.CSLemmas
import Verif.Conv

/-!
# Input validation

Model of `CompressedStorage::check_validity` (src/hif/ds/CompressedStorage.hpp 182–217) and of the `nnz`
helper (lines 134–138).  Pointer and index entries are signed integers here, because they come
unchecked from the user.
-/

namespace Hif

/-- A matrix as handed over by a user. `undef`: `_indices.status() == DATA_UNDEF`; only the length of the value
array matters here. -/
structure RawCS where
  undef : Bool
  psize : Nat
  start : Buf Int
  inds : Buf Int
  vsize : Nat

namespace RawCS

/-- Lines 200–213 for one line with iterators `lo`, `hi` (as signed offsets): `std::is_sorted` with `<=` compares
neighbours, then every index is compared, as an unsigned number, with `other`.  A reversed range never meets its
end iterator (undefined behaviour). -/
def checkLine (inds : Buf Int) (other : Nat) (lo hi : Int) : M Unit :=
  if hi < lo then throw (.ub "reversed range")
  else if lo = hi then pure ()
  else if lo < 0 then throw .oob
  else do
    forUp (lo.toNat + 1) hi.toNat () fun k _ => do
      let b ← inds.rd k
      let a ← inds.rd (k - 1)
      if b ≤ a then throw (.hif "not sorted") else pure ()
    forUp lo.toNat hi.toNat () fun k _ => do
      let j ← inds.rd k
      if j < 0 ∨ (other : Int) ≤ j then throw (.hif "exceeds bound") else pure ()

/-- `check_validity` (lines 182–217).  `nnz() = start.back() - start.front()` converted to `size_t`: a negative
value is larger than every length. -/
def checkValidity (A : RawCS) (other : Nat) : M Unit :=
  if A.undef then pure ()
  else if A.start.size < A.psize + 1 then throw (.hif "invalid size and start array length")
  else do
    let front ← A.start.rd 0
    if front ≠ 0 then throw (.hif "the leading entry should be zero") else
    let back ← A.start.rd (A.start.size - 1)
    if back - front < 0 ∨ (A.inds.size : Int) < back - front ∨ (A.vsize : Int) < back - front then
      throw (.hif "inconsistent nnz")
    else
      forUp 0 A.psize () fun i _ => do
        let lo ← A.start.rd i
        let hi ← A.start.rd (i + 1)
        checkLine A.inds other lo hi

/-- The same matrix with natural-number entries (meaningful after validation). -/
def toCS {K : Type _} (A : RawCS) (other : Nat) (vals : Buf K) : CS K :=
  { psize := A.psize, ssize := other,
    start := { size := A.start.size, get := fun i => (A.start.get i).toNat },
    inds := { size := A.inds.size, get := fun i => (A.inds.get i).toNat }, vals := vals }

end RawCS
end Hif
