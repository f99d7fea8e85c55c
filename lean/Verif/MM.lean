import Verif.Coo
import Verif.LibHifir
import Mathlib.Algebra.Star.Basic

set_option linter.unusedVariables false
set_option linter.unusedSectionVars false

/-!
# MatrixMarket files (model)

Models the readers and writers of src/hif/utils/io.hpp 510–941, `CRS::read_mm`/`CCS::read_mm`
(src/hif/ds/CompressedStorage.hpp 1566–1575, 2473–2483), and `lhfQueryMmFile`, `mm_read_sparse`, `lhfdReadVector` of
libhifir/src/libhifir.cpp (270–291, 96–127, 362–374).  A file is the list of its characters; `fgets`, `sscanf` and `fscanf` with the
formats that are used act on such lists.

Simplifications: characters are plain ASCII without NUL; `%d` does not overflow; the conversion `%lg`, the output of floating
point numbers and the value types are parameters (`Num`); failing allocations are not modelled; an index `0` or a negative index in
a file becomes a huge unsigned number instead of a negative `int` (neither is a legal array index).
-/

namespace Hif.MM

/-- `isspace` in the C locale (used by the conversions of `scanf`). -/
def isSpace (c : Char) : Bool := c = ' ' || c = '\t' || c = '\n' || c = '\x0b' || c = '\x0c' || c = '\r'

/-- Reading of at most `k` characters up to a line feed, which is included. -/
def getsUpto : Nat → List Char → List Char × List Char
  | 0, s => ([], s)
  | _ + 1, [] => ([], [])
  | k + 1, c :: s => if c = '\n' then ([c], s) else (c :: (getsUpto k s).1, (getsUpto k s).2)

/-- `fgets(line, 1025, f)`: the line and the rest of the file; nothing at the end of the file. -/
def fgets : List Char → Option (List Char × List Char)
  | [] => none
  | s => some (getsUpto 1024 s)

/-- Conversion `%s` into an array of 65 characters (line 622–626 declare them): longer words overflow it. -/
def scanWord (s : List Char) : M (Option (List Char × List Char)) :=
  if ((s.dropWhile isSpace).takeWhile fun c => !isSpace c) = [] then pure none
  else if ((s.dropWhile isSpace).takeWhile fun c => !isSpace c).length < 65 then
    pure (some ((s.dropWhile isSpace).takeWhile (fun c => !isSpace c), (s.dropWhile isSpace).dropWhile fun c => !isSpace c))
  else throw .oob

/-- `sscanf(line, "%s %s …")` with `k` conversions: the words read. -/
def scanWords : Nat → List Char → M (List (List Char))
  | 0, _ => pure []
  | k + 1, s => do
    let w ← scanWord s
    match w with
    | none => pure []
    | some p => do
      let ws ← scanWords k p.2
      pure (p.1 :: ws)

/-- The optional sign in front of a number. -/
def scanSign : List Char → Bool × List Char
  | [] => (false, [])
  | c :: s => if c = '-' then (true, s) else if c = '+' then (false, s) else (false, c :: s)

/-- Conversion `%d`: the number, if there is one, and the rest of the input. -/
def scanInt (s : List Char) : Option Int × List Char :=
  let p := scanSign (s.dropWhile isSpace)
  let ds := p.2.takeWhile Char.isDigit
  if ds = [] then (none, p.2)
  else (some (if p.1 then -(Nat.ofDigitChars 10 ds 0 : Int) else (Nat.ofDigitChars 10 ds 0 : Int)), p.2.dropWhile Char.isDigit)

/-- `scanf("%d %d …")` with `k` conversions: the numbers converted and the rest of the input. -/
def scanInts : Nat → List Char → List Int × List Char
  | 0, s => ([], s)
  | k + 1, s =>
    match scanInt s with
    | (none, t) => ([], t)
    | (some z, t) => (z :: (scanInts k t).1, (scanInts k t).2)

/-- `to_lower` (644–647). -/
def toLower (s : List Char) : List Char := s.map Char.toLower

/-- The storage schemes (type ids 0 to 3). -/
inductive Kind where
  | general | symmetric | hermitian | skew
deriving DecidableEq, Repr

/-- The storage scheme named by a word (672–684). -/
def kindOf (s : List Char) : M Kind :=
  if s = "general".toList then pure .general
  else if s = "symmetric".toList then pure .symmetric
  else if s = "hermitian".toList then pure .hermitian
  else if s = "skew-symmetric".toList then pure .skew
  else throw (.hif "unknown storage_scheme")

/-- The tests of the words of the first line (635–684). -/
def checkWords : List (List Char) → M (Bool × Bool × Kind)
  | [banner, mtx, crd, dt, scheme] =>
    if banner ≠ "%%MatrixMarket".toList then throw (.hif "incorrect banner")
    else if toLower mtx ≠ "matrix".toList then throw (.hif "incorrect mtx")
    else if toLower crd ≠ "coordinate".toList ∧ toLower crd ≠ "array".toList then throw (.hif "unknown crd")
    else if toLower dt ≠ "real".toList ∧ toLower dt ≠ "complex".toList then throw (.hif "unsupported data type")
    else do
      let k ← kindOf (toLower scheme)
      pure (decide (toLower crd ≠ "array".toList), decide (toLower dt ≠ "complex".toList), k)
  | _ => throw (.hif "insufficient number of tokens in the first line")

/-- `mm_read_firstline` (620–685): sparse?, real?, storage scheme, and the rest of the file. -/
def readFirst (s : List Char) : M ((Bool × Bool × Kind) × List Char) :=
  match fgets s with
  | none => throw (.hif "unable to read the first line")
  | some (line, rest) => do
    let ws ← scanWords 5 line
    let h ← checkWords ws
    pure (h, rest)

/-- The loop that skips the comments (695–700, 730–735): the first line that does not start with `%`.  Every step consumes
at least one character, so the length of the file bounds the number of steps. -/
def skipComments : Nat → List Char → M (List Char × List Char)
  | 0, _ => throw (.hif "unable to read file")
  | n + 1, s =>
    match fgets s with
    | none => throw (.hif "unable to read file")
    | some (line, rest) => if line.head? = some '%' then skipComments n rest else pure (line, rest)

/-- The loop that retries `fscanf` (710–717, 744–750).  A step that consumes nothing repeats forever; this outcome is
`ub "endless loop"`, reached when there were more steps than characters. -/
def retryInts (k : Nat) : Nat → List Char → M (List Int × List Char)
  | 0, _ => throw (.ub "endless loop")
  | n + 1, s =>
    if s.dropWhile isSpace = [] then throw (.hif "reached EOF!")
    else if (scanInts k s).1.length = k then pure (scanInts k s)
    else retryInts k n (scanInts k s).2

/-- `mm_read_sparse_size` (`k = 3`, 688–721) and `mm_read_dense_size` (`k = 2`, 723–754). -/
def readSize (k : Nat) (s : List Char) : M (List Int × List Char) := do
  let p ← skipComments (s.length + 1) s
  if (scanInts k p.1).1.length = k then pure ((scanInts k p.1).1, p.2)
  else retryInts k (p.2.length + 1) p.2

/-- What the readers and writers need to know about numbers: `real` is `std::is_floating_point<ValueType>::value`; `scan` is the
conversion `%lg` and `print` the output of a `double` with the precision chosen (871–884); `set vr vi` is
`set_real(vr, x); set_imag(vi, x)` (514–537), `re`, `im` its inverses. -/
structure Num (D V : Type) where
  real : Bool
  scan : List Char → Option (D × List Char)
  print : D → List Char
  set : D → D → V
  re : V → D
  im : V → D

/-- Contents of fresh memory (`Array::resize` does not initialise) and of the uninitialised variable `vi`. -/
structure Junk (D V : Type) where
  idx : Nat → Int
  val : Nat → V
  vi : D

section
variable {D V : Type} [Inhabited V] [Neg V] [Star V]

/-- The values `fscanf("%lg")` or `fscanf("%lg %lg")` (566–567, 609–610). -/
def scanVal (num : Num D V) (jk : Junk D V) (real : Bool) (s : List Char) : Option (V × List Char) :=
  match num.scan (s.dropWhile isSpace) with
  | none => none
  | some (vr, s) =>
    if real then some (num.set vr jk.vi, s)
    else match num.scan (s.dropWhile isSpace) with
      | none => none
      | some (vi, s) => some (num.set vr vi, s)

/-- One line of a sparse file (566–571): row, column, value, rest. -/
def scanEntry (num : Num D V) (jk : Junk D V) (real : Bool) (s : List Char) : Option (Int × Int × V × List Char) :=
  match scanInt s with
  | (none, _) => none
  | (some r, s) => match scanInt s with
    | (none, _) => none
    | (some c, s) => (scanVal num jk real s).map fun p => (r, c, p.1, p.2)

/-- State of the reading loop. -/
structure RdSt (V : Type) where
  index : Nat
  rows : Buf Int
  cols : Buf Int
  vals : Buf V
  rest : List Char

/-- The value stored for the mirrored entry (583–589). -/
def mirror (kind : Kind) (v : V) : V :=
  match kind with
  | .symmetric => v
  | .hermitian => star v
  | _ => -v

/-- One step of the reading loop (565–591). -/
def readStep (num : Num D V) (jk : Junk D V) (kind : Kind) (real : Bool) (st : RdSt V) : M (RdSt V) :=
  match scanEntry num jk real st.rest with
  | none => throw (.hif "insufficient objects scanned from fscanf")
  | some (r, c, v, rest) => do
    let rows ← st.rows.wr st.index (r - 1)
    let cols ← st.cols.wr st.index (c - 1)
    let vals ← st.vals.wr st.index v
    if kind = .general ∨ r = c then pure ⟨st.index + 1, rows, cols, vals, rest⟩
    else do
      let rows ← rows.wr (st.index + 1) (c - 1)
      let cols ← cols.wr (st.index + 1) (r - 1)
      let w ← vals.rd st.index
      let vals ← vals.wr (st.index + 1) (mirror kind w)
      pure ⟨st.index + 2, rows, cols, vals, rest⟩

/-- `mm_read_sparse_data` (547–599). -/
def readData (num : Num D V) (jk : Junk D V) (kind : Kind) (real : Bool) (nnz : Nat) (s : List Char) : M (Buf Int × Buf Int × Buf V) := do
  let cap := if kind ≠ .general then nnz * 2 else nnz
  let st ← forUp 0 nnz (⟨0, ⟨cap, jk.idx⟩, ⟨cap, jk.idx⟩, ⟨cap, jk.val⟩, s⟩ : RdSt V) fun _ st => readStep num jk kind real st
  if st.index ≠ nnz then
    pure ({ st.rows with size := st.index }, { st.cols with size := st.index }, { st.vals with size := st.index })
  else pure (st.rows, st.cols, st.vals)

/-- The arrays `read_mm_sparse` delivers. -/
structure Triples (V : Type) where
  nrows : Nat
  ncols : Nat
  rows : Buf Int
  cols : Buf Int
  vals : Buf V

/-- `read_mm_sparse` (782–824) for a file that can be opened. -/
def readSparse (num : Num D V) (jk : Junk D V) (s : List Char) : M (Triples V) := do
  let (h, s) ← readFirst s
  if h.1 = false then throw (.hif "must be sparse matrix")
  else if num.real ≠ h.2.1 then throw (.hif "data types did not match between array and file")
  else do
    let (z, s) ← readSize 3 s
    let nnz := Lhf.sizeT (z.getD 2 0)
    let (rows, cols, vals) ← readData num jk h.2.2 h.2.1 nnz s
    pure ⟨Lhf.sizeT (z.getD 0 0), Lhf.sizeT (z.getD 1 0), rows, cols, vals⟩

/-- Indices as array subscripts. -/
def subs (b : Buf Int) : Buf Nat := ⟨b.size, fun i => Lhf.sizeT (b.get i)⟩

/-- `CRS::read_mm` (CompressedStorage.hpp 1566–1575). -/
def readCRS (num : Num D V) (jk : Junk D V) (s : List Char) : M (CS V) := do
  let t ← readSparse num jk s
  CS.cooToCS t.nrows t.ncols (subs t.rows) (subs t.cols) t.vals

/-- `CCS::read_mm` (2473–2483). -/
def readCCS (num : Num D V) (jk : Junk D V) (s : List Char) : M (CS V) := do
  let t ← readSparse num jk s
  CS.cooToCS t.ncols t.nrows (subs t.cols) (subs t.rows) t.vals

/-- `mm_read_vector_data` (603–617). -/
def readVecData (num : Num D V) (jk : Junk D V) (real : Bool) (n : Nat) (s : List Char) : M (Buf V) := do
  let st ← forUp 0 n ((⟨n, jk.val⟩, s) : Buf V × List Char) fun i st =>
    match scanVal num jk real st.2 with
    | none => throw (.hif "insufficient objects scanned from fscanf")
    | some (v, rest) => do
      let b ← st.1.wr i v
      pure (b, rest)
  pure st.1

/-- `read_mm_vector` (833–859). -/
def readVector (num : Num D V) (jk : Junk D V) (s : List Char) : M (Buf V) := do
  let (h, s) ← readFirst s
  if h.1 then throw (.hif "must be dense matrix")
  else if num.real ≠ h.2.1 then throw (.hif "data types did not match between array and file")
  else do
    let (z, s) ← readSize 2 s
    readVecData num jk h.2.1 (Lhf.sizeT (z.getD 0 0)) s

/-- What `lhfQueryMmFile` reports. -/
structure Info where
  sparse : Bool
  real : Bool
  nrows : Nat
  ncols : Nat
  nnz : Nat
deriving DecidableEq, Repr

/-- `lhfQueryMmFile` (libhifir.cpp 271–291): `none` is a file that cannot be opened.  Exceptions are not caught here: the outcome
`hif` leaves a C function. -/
def query (file : Option (List Char)) : M (Lhf.Status × Option Info) :=
  match file with
  | none => pure (.nullObj, none)
  | some s => do
    let (h, s) ← readFirst s
    if h.1 then do
      let (z, _) ← readSize 3 s
      pure (.success, some ⟨true, h.2.1, Lhf.sizeT (z.getD 0 0), Lhf.sizeT (z.getD 1 0), Lhf.sizeT (z.getD 2 0)⟩)
    else do
      let (z, _) ← readSize 2 s
      pure (.success, some ⟨false, h.2.1, Lhf.sizeT (z.getD 0 0), Lhf.sizeT (z.getD 1 0), 0⟩)

/-- `std::copy(src.cbegin(), src.cend(), dst)`. -/
def copyOut {α β : Type} (f : α → β) (src : Buf α) (dst : Buf β) : M (Buf β) :=
  forUp 0 src.size dst fun i dst => do
    let x ← src.rd i
    dst.wr i (f x)

/-- Result of a reading call of the C interface: the caught exception's message is kept as a ghost. -/
inductive Out (α : Type) where
  | status (s : Lhf.Status) (a : α)
  | caught (msg : String) (a : α)

/-- The part of `mm_read_sparse` common to both formats (108–111, 119–122). -/
def deliver (mat : Lhf.Mat V) (arr : Lhf.Arrays V) (A : CS V) : M (Out (Lhf.Mat V)) :=
  if A.psize ≠ mat.n ∨ A.ssize ≠ mat.n then pure (.status .mismatched mat)
  else do
    let ip ← copyOut Int.ofNat A.start arr.indptr
    let ix ← copyOut Int.ofNat A.inds arr.indices
    let vs ← copyOut id A.vals arr.vals
    pure (.status .success { mat with arrays := some ⟨ip, ix, vs⟩ })

/-- `mm_read_sparse` (98–127) behind `lhf?ReadSparse`. -/
def readMat (num : Num D V) (jk : Junk D V) (file : Option (List Char)) (mat : Lhf.Mat V) : M (Out (Lhf.Mat V)) :=
  match file with
  | none => pure (.caught "unable to open matrix market file" mat)
  | some s =>
    match (if mat.rowMajor then readCRS num jk s else readCCS num jk s) with
    | .error (.hif e) => pure (.caught e mat)
    | .error e => throw e
    | .ok A =>
      match mat.arrays with
      | none => throw (.ub "null pointer")
      | some arr => deliver mat arr A

/-- `lhf?ReadVector` (363–374). -/
def readVec (num : Num D V) (jk : Junk D V) (file : Option (List Char)) (n : Nat) (v : Buf V) : M (Out (Buf V)) :=
  match file with
  | none => pure (.caught "unable to open matrix market file" v)
  | some s =>
    match readVector num jk s with
    | .error (.hif e) => pure (.caught e v)
    | .error e => throw e
    | .ok vec =>
      if n ≠ vec.size then pure (.status .mismatched v)
      else do
        let v ← copyOut id vec v
        pure (.status .success v)

/-! ### writing -/

/-- `f << n` for an integer. -/
def showNat (n : Nat) : List Char := Nat.toDigits 10 n

/-- The first two lines of the output (873–876, 921–924); the second one names the version
(src/hif/version.h). -/
def header (num : Num D V) (what : String) : List Char :=
  ("%%MatrixMarket matrix ".toList ++ what.toList ++ " ".toList ++ (if num.real then "real".toList else "complex".toList) ++ " general\n".toList) ++
    "% Written by HIFIR 0.2.0\n".toList

/-- A value (and its imaginary part) as written at 880–882, 934–936. -/
def showVal (num : Num D V) (v : V) : List Char :=
  num.print (num.re v) ++ (if num.real then [] else '\t' :: num.print (num.im v))

/-- `write_mm_vector` (864–888). -/
def writeVector (num : Num D V) (v : Buf V) : List Char :=
  header num "array" ++ (' ' :: showNat v.size) ++ " 1\n".toList ++ (v.toList.flatMap fun x => showVal num x ++ ['\n'])

/-- One line of `write_mm_sparse` (932–937) for the index pair `(i, j)`. -/
def showEntry (num : Num D V) (i j : Nat) (v : V) : List Char :=
  showNat i ++ '\t' :: (showNat j ++ '\t' :: (showVal num v ++ ['\n']))

/-- `write_mm_sparse` (906–941): `rowMajor` is the template argument; the text produced. -/
def writeSparse (num : Num D V) (rowMajor : Bool) (A : CS V) : M (List Char) := do
  if A.start.size = 0 then throw (.hif "cannot write empty matrix")
  else do
    let primary := A.start.size - 1
    let txt := header num "coordinate" ++
      ' ' :: (showNat (if rowMajor then primary else A.ssize) ++ ' ' :: (showNat (if rowMajor then A.ssize else primary) ++
        ' ' :: (showNat A.vals.size ++ ['\n'])))
    forUp 0 primary txt fun i txt => do
      let lo ← A.start.rd i
      let hi ← A.start.rd (i + 1)
      forUp lo hi txt fun k txt => do
        let index ← A.inds.rd k
        let v ← A.vals.rd k
        pure (txt ++ if rowMajor then showEntry num (i + 1) (index + 1) v else showEntry num (index + 1) (i + 1) v)

end
end Hif.MM
