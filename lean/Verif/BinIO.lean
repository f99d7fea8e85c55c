import Verif.Conv

/-!
# Native binary files (HDF5)

Model of `hif::write_bin`, `hif::read_bin` (src/hif/utils/io.hpp 75–303) and of `CRS/CCS::read_bin`, `write_bin`, `from_bin` (src/hif/ds/CompressedStorage.hpp 854–859, 1535–1561,
1838–1843, 2443–2469), compiled with `HIF_HAS_HDF5`.  HDF5 itself is modelled as a set of named one-dimensional datasets; a dataset that was created but not written contains zeros (the
default fill value); reading with the data type of the file copies the stored words.  Machine integers are modelled with their width and signedness; floating-point numbers by a type for
each format and an arbitrary conversion between formats.
-/

namespace Hif
namespace Bin

/-- An integer type of at least 32 bits (io.hpp 91–92): 64 bits or 32, signed or not. -/
structure IntTy where
  wide : Bool
  signed : Bool
deriving DecidableEq

/-- Number of bits. -/
def IntTy.bits (t : IntTy) : Nat := if t.wide then 64 else 32

/-- The bit pattern of `z` in type `t`. -/
def IntTy.store (t : IntTy) (z : Int) : Nat := (z % (2 : Int) ^ t.bits).toNat

/-- The value of a bit pattern in type `t`. -/
def IntTy.load (t : IntTy) (r : Nat) : Int := if t.signed ∧ 2 ^ (t.bits - 1) ≤ r then (r : Int) - (2 : Int) ^ t.bits else r

/-- Implicit conversion of an integer to type `t` (`std::copy`, io.hpp 247, 251, 261, 265). -/
def IntTy.conv (t : IntTy) (z : Int) : Int := t.load (t.store z)

/-- `float`, `double`, `long double` (io.hpp 171–183). -/
inductive Fmt where
  | single | double | extended
deriving DecidableEq

/-- A real (`c = false`) or complex value whose parts have format `f`. -/
def Val (F : Fmt → Type) (c : Bool) (f : Fmt) : Type :=
  match c with
  | false => F f
  | true => F f × F f

section
variable {F : Fmt → Type}

/-- The value array as an array of scalars (io.hpp 168–169: `A.vals().size() * (info[3] == 0u ? 2 : 1)` scalars starting at `A.vals().data()`). -/
def toScal : (c : Bool) → (f : Fmt) → Buf (Val F c f) → Buf (F f)
  | false, _, b => b
  | true, _, b => { size := b.size * 2, get := fun k => if k % 2 = 0 then (b.get (k / 2)).1 else (b.get (k / 2)).2 }

/-- The array of scalars seen as an array of values (io.hpp 269–273, 276, 280, 284, 288). -/
def fromScal : (c : Bool) → (f : Fmt) → Buf (F f) → Buf (Val F c f)
  | false, _, b => b
  | true, _, b => { size := b.size / 2, get := fun k => ((b.get (2 * k), b.get (2 * k + 1)) : F _ × F _) }

/-- The same function on all parts of a value. -/
def mapVal {a b : Fmt} (g : F a → F b) : (c : Bool) → Val F c a → Val F c b
  | false, x => g x
  | true, x => ((g x.1, g x.2) : F b × F b)

/-- Reading a scalar of format `a` as one of format `b`: the same bits if the formats agree (io.hpp 275–276), else a conversion (lines 277–289). -/
def castFmt (conv : ∀ a b, F a → F b) (a b : Fmt) (x : F a) : F b := if h : a = b then h ▸ x else conv a b x

end

/-- A dataset of integers: width of its elements and their bit patterns. -/
structure Ints where
  wide : Bool
  raw : Buf Nat

/-- A dataset of floating-point numbers. -/
structure Reals (F : Fmt → Type) where
  fmt : Fmt
  data : Buf (F fmt)

/-- The datasets of a file: `sparse_info`, `ind_start`, `indices`, `vals`. -/
structure File (F : Fmt → Type) where
  info : Option (Buf Nat)
  indStart : Option Ints
  indices : Option Ints
  vals : Option (Reals F)

/-- Static type of a matrix: storage order, index pointer and index types, value type. -/
structure Ty where
  rowMajor : Bool
  ip : IntTy
  ix : IntTy
  cplx : Bool
  fmt : Fmt

/-- A matrix object (CompressedStorage.hpp 50–130, 860–935). -/
structure Mat (F : Fmt → Type) (t : Ty) where
  nrows : Nat
  ncols : Nat
  start : Buf Int
  inds : Buf Int
  vals : Buf (Val F t.cplx t.fmt)

section
variable {F : Fmt → Type}

/-- The file after `H5F_ACC_TRUNC` (io.hpp 102). -/
def File.empty : File F := { info := none, indStart := none, indices := none, vals := none }

/-- `info` (io.hpp 94–98). -/
def infoOf {t : Ty} (A : Mat F t) : Buf Nat :=
  { size := 4, get := fun k => if k = 0 then A.nrows else if k = 1 then A.ncols else if k = 2 then (if t.rowMajor then 1 else 0) else if t.cplx then 0 else 1 }

/-- The steps of `write_bin` after the file was truncated (io.hpp 103–183): each dataset is created, then written. -/
def writeSteps [∀ f, Zero (F f)] {t : Ty} (A : Mat F t) : List (File F → File F) :=
  [ fun f => { f with info := some (Buf.mk' 4 0) },
    fun f => { f with info := some (infoOf A) },
    fun f => { f with indStart := some { wide := t.ip.wide, raw := Buf.mk' A.start.size 0 } },
    fun f => { f with indStart := some { wide := t.ip.wide, raw := { size := A.start.size, get := fun k => t.ip.store (A.start.get k) } } },
    fun f => { f with indices := some { wide := t.ix.wide, raw := Buf.mk' A.inds.size 0 } },
    fun f => { f with indices := some { wide := t.ix.wide, raw := { size := A.inds.size, get := fun k => t.ix.store (A.inds.get k) } } },
    fun f => { f with vals := some { fmt := t.fmt, data := Buf.mk' (toScal t.cplx t.fmt A.vals).size 0 } },
    fun f => { f with vals := some { fmt := t.fmt, data := toScal t.cplx t.fmt A.vals } } ]

/-- The file if writing stops (with an exception) after `k` steps. -/
def writeUpTo [∀ f, Zero (F f)] {t : Ty} (A : Mat F t) (k : Nat) : File F := ((writeSteps A).take k).foldl (fun f s => s f) File.empty

/-- `write_bin` (io.hpp 75–193; CompressedStorage.hpp 1559–1561, 2467–2469). -/
def writeBin [∀ f, Zero (F f)] {t : Ty} (A : Mat F t) : File F := (writeSteps A).foldl (fun f s => s f) File.empty

/-- `DataSet::read` into a buffer of `n` elements with arbitrary contents. -/
def fill {α : Type} (junk : Nat → α) (n : Nat) (src : Buf α) : M (Buf α) :=
  if n < src.size then throw .oob else pure { size := n, get := fun i => if i < src.size then src.get i else junk i }

/-- Reading integers (io.hpp 240–252, 255–266). -/
def readInts (t : IntTy) (junk : Nat → Int) (n : Nat) (d : Ints) : M (Buf Int) :=
  if t.wide = d.wide then fill junk n { size := d.raw.size, get := fun i => t.load (d.raw.get i) }
  else do
    let b ← fill junk n { size := d.raw.size, get := fun i => ({ wide := d.wide, signed := true } : IntTy).load (d.raw.get i) }
    pure { size := n, get := fun i => t.conv (b.get i) }

/-- The error for everything HDF5 reports (io.hpp 290–292). -/
def h5err {α : Type} : M α := throw (.hif "HDF5 returned error")

/-- Opening a dataset. -/
def openSet {α : Type} : Option α → M α
  | some d => pure d
  | none => h5err

/-- What `hif::read_bin` returns. -/
structure Raw (F : Fmt → Type) (c : Bool) (f : Fmt) where
  info : Buf Nat
  start : Buf Int
  inds : Buf Int
  vals : Buf (Val F c f)

/-- `hif::read_bin` (io.hpp 208–303); `none`: the file cannot be opened. -/
def readArrays (conv : ∀ a b, F a → F b) (ip ix : IntTy) (c : Bool) (f : Fmt) (junk : Nat → Int) (njunk : Nat → Nat) (file : Option (File F)) : M (Raw F c f) := do
  let h ← openSet file
  let inf ← openSet h.info
  let info ← fill njunk 4 inf
  if (c = false ∧ info.get 3 = 0) ∨ (c = true ∧ info.get 3 = 1) then throw (.hif "cannot mixed real and complex in read_bin") else do
  let n := if info.get 2 ≠ 0 then info.get 0 + 1 else info.get 1 + 1
  let ds ← openSet h.indStart
  let start ← readInts ip junk n ds
  let di ← openSet h.indices
  let inds ← readInts ix junk di.raw.size di
  let dv ← openSet h.vals
  pure { info := info, start := start, inds := inds, vals := fromScal c f { size := dv.data.size, get := fun k => castFmt conv dv.fmt f (dv.data.get k) } }

/-- The arrays as natural numbers. -/
def asCS {V : Type} (psize ssize : Nat) (start inds : Buf Int) (vals : Buf V) : CS V :=
  { psize := psize, ssize := ssize, start := { size := start.size, get := fun i => (start.get i).toNat }, inds := { size := inds.size, get := fun i => (inds.get i).toNat }, vals := vals }

/-- `CRS(A)` / `CCS(A)` for what was read (CompressedStorage.hpp 1546–1551, 2454–2459).  Simplification: a negative index or start position counts as an access out of range at once. -/
def convertRead {V : Type} [Inhabited V] (ip ix : IntTy) (psize ssize : Nat) (start inds : Buf Int) (vals : Buf V) : M (Buf Int × Buf Int × Buf V) :=
  if (∃ k, k < start.size ∧ start.get k < 0) ∨ (∃ k, k < inds.size ∧ inds.get k < 0) then throw .oob
  else do
    let B ← (asCS psize ssize start inds vals).convert
    pure ({ size := B.start.size, get := fun i => ip.conv (B.start.get i) }, { size := B.inds.size, get := fun i => ix.conv (B.inds.get i) }, B.vals)

/-- `CRS::read_bin`, `CCS::read_bin` (CompressedStorage.hpp 1535–1555, 2443–2463): the object afterwards and the returned number, or the exception. -/
def readBin {t : Ty} [Inhabited (Val F t.cplx t.fmt)] (conv : ∀ a b, F a → F b) (junk : Nat → Int) (njunk : Nat → Nat) (file : Option (File F)) (this : Mat F t) : Mat F t × Except Err Nat :=
  match readArrays conv t.ip t.ix t.cplx t.fmt junk njunk file with
  | .error e => (this, .error e)
  | .ok r =>
    let n := r.info.get 0
    let m := r.info.get 1
    if r.info.get 2 = (if t.rowMajor then 1 else 0) then
      ({ nrows := n, ncols := m, start := r.start, inds := r.inds, vals := r.vals }, .ok (min n m))
    else
      match convertRead t.ip t.ix (if t.rowMajor then m else n) (if t.rowMajor then n else m) r.start r.inds r.vals with
      | .error e => ({ this with nrows := n, ncols := m }, .error e)
      | .ok B => ({ nrows := n, ncols := m, start := B.1, inds := B.2.1, vals := B.2.2 }, .ok (min n m))

/-- `CRS::from_bin`, `CCS::from_bin` (CompressedStorage.hpp 854–859, 1838–1843): a default-constructed matrix reads the file. -/
def fromBin {t : Ty} [Inhabited (Val F t.cplx t.fmt)] (conv : ∀ a b, F a → F b) (junk : Nat → Int) (njunk : Nat → Nat) (file : Option (File F)) : Mat F t × Except Err Nat :=
  readBin conv junk njunk file { nrows := 0, ncols := 0, start := Buf.mk' 0 0, inds := Buf.mk' 0 0, vals := Buf.mk' 0 default }

end
end Bin
end Hif
