import Verif.MM

set_option linter.unusedVariables false
set_option linter.unusedSectionVars false

/-!
# Native ASCII files (model)

Models `hif::write_ascii`, `hif::query_info_ascii` and `hif::read_ascii` (src/hif/utils/io.hpp 319–500).  A file is the list of its characters; `std::getline` and `operator>>` act on such
lists.  Simplifications: plain characters; integers read with `>>` do not overflow the index type (sizes are taken modulo 2^64); output and input of values are parameters (`Fmt`); the file
can be opened and allocations succeed.
-/

namespace Hif.Ascii
open Hif.MM (isSpace scanInt showNat)

/-- What is needed of the value type: `real` is `std::is_floating_point`, `size` is `sizeof`; `print prec v` is the output with `std::ios::scientific` and that precision; `scan` is `operator>>` on
input without leading blanks; `fail x` is what a failed extraction leaves in a variable that was `x`. -/
structure Fmt (V : Type) where
  real : Bool
  size : Nat
  print : Nat → V → List Char
  scan : List Char → Option (V × List Char)
  fail : V → V

/-- `dtype` (io.hpp 329–331). -/
def Fmt.dtype {V : Type} (f : Fmt V) : Char := if f.real then (if f.size = 8 then 'D' else 'S') else if f.size = 16 then 'Z' else 'C'

/-- `prec` (io.hpp 332). -/
def Fmt.prec {V : Type} (f : Fmt V) : Nat := if f.dtype = 'D' ∨ f.dtype = 'Z' then 16 else 8

/-- Output of an integer. -/
def showInt (z : Int) : List Char := if z < 0 then '-' :: showNat z.natAbs else showNat z.natAbs

/-- One item on a line. -/
def itemLine (w : List Char) : List Char := w ++ ['\n']

section
variable {V : Type}

/-- `write_ascii<IsRowMajor>` (io.hpp 319–358): the text of the file. -/
def write (f : Fmt V) (rowMajor : Bool) (start : Buf Int) (other : Nat) (inds : Buf Int) (vals : Buf V) (m : Nat) : M (List Char) :=
  if start.size = 0 then throw (.hif "cannot write matrix with empty ind_start")
  else if vals.size ≠ inds.size then throw (.hif "inconsistent nnz")
  else if inds.size ≠ Lhf.sizeT (start.get (start.size - 1) - start.get 0) then throw (.hif "inconsistent nnz")
  else
    let nrows := if rowMajor then start.size - 1 else other
    let ncols := if rowMajor then other else start.size - 1
    pure ([if rowMajor then 'R' else 'C', 'C', f.dtype] ++ '\n' ::
      (showNat nrows ++ ' ' :: (showNat ncols ++ ' ' :: (showNat inds.size ++ ' ' :: (showNat m ++ '\n' ::
        (start.toList.flatMap (fun v => itemLine (showInt v)) ++ (inds.toList.flatMap (fun v => itemLine (showInt v)) ++
          vals.toList.flatMap fun v => itemLine (f.print f.prec v))))))))

/-- `std::getline`: the line and the rest; nothing if no character is left. -/
def getline : List Char → Option (List Char × List Char)
  | [] => none
  | s => some (s.takeWhile (fun c => c ≠ '\n'), (s.dropWhile fun c => c ≠ '\n').drop 1)

/-- The loop that skips empty lines and comments (io.hpp 377–382, 436–441).  A failed `getline` leaves the line empty, so that at the end of the file the loop goes on forever; this outcome is
`ub "endless loop"`.  The number of characters bounds the number of other steps. -/
def skipLines : Nat → List Char → M (List Char × List Char)
  | 0, _ => throw (.ub "endless loop")
  | n + 1, s =>
    match getline s with
    | none => throw (.ub "endless loop")
    | some (l, r) => if l = [] ∨ l.head? = some '#' then skipLines n r else pure (l, r)

/-- Storage order, index base, and letter of the data type. -/
structure FKind where
  rowMajor : Bool
  cIndex : Bool
  dtype : Char
deriving DecidableEq

/-- The tests of the information line (io.hpp 385–399, 444–464); only the reader tests the second letter. -/
def parseKind (reader : Bool) (l : List Char) : M FKind :=
  match l with
  | [a, b, c] =>
    if a ≠ 'R' ∧ a ≠ 'C' then throw (.hif "the first char should be either R or C (row or column major)")
    else if reader ∧ b ≠ 'C' ∧ b ≠ 'F' then throw (.hif "the second char should be either C or F (c index or fortran index)")
    else if c ≠ 'D' ∧ c ≠ 'S' ∧ c ≠ 'Z' ∧ c ≠ 'C' then throw (.hif "unknown data type")
    else pure ⟨decide (a = 'R'), decide (b = 'C'), c⟩
  | _ => throw (.hif "not a valid native hif ascii file")

/-- `f >> x` for an integer variable with value `x`; `none` is a stream in a failed state.  At the end of the file the variable keeps its value, on anything but a number it becomes 0. -/
def getInt (x : Int) : Option (List Char) → Int × Option (List Char)
  | none => (x, none)
  | some s =>
    if s.dropWhile isSpace = [] then (x, none)
    else match scanInt s with
      | (some z, t) => (z, some t)
      | (none, _) => (0, none)

/-- `f >> x` for a value. -/
def getVal (f : Fmt V) (x : V) : Option (List Char) → V × Option (List Char)
  | none => (x, none)
  | some s =>
    if s.dropWhile isSpace = [] then (x, none)
    else match f.scan (s.dropWhile isSpace) with
      | some (v, t) => (v, some t)
      | none => (f.fail x, none)

/-- The four sizes. -/
structure Sizes where
  nrows : Nat
  ncols : Nat
  nnz : Nat
  m : Nat
deriving DecidableEq

/-- `f >> nrows >> ncols >> nnz >> m` (io.hpp 409, 475); the variables are not initialized, their contents are `j 0`, …, `j 3`. -/
def getSizes (j : Nat → Int) (s : List Char) : Sizes × Option (List Char) :=
  let a := getInt (j 0) (some s)
  let b := getInt (j 1) a.2
  let c := getInt (j 2) b.2
  let d := getInt (j 3) c.2
  (⟨Lhf.sizeT a.1, Lhf.sizeT b.1, Lhf.sizeT c.1, Lhf.sizeT d.1⟩, d.2)

/-- `query_info_ascii` (io.hpp 366–413): kind and sizes.  Instead of the letter of the data type the code returns whether it is one of `D`, `Z` and one of `D`, `S`, see `FKind.isDouble`, `FKind.isReal`. -/
def queryFile (j : Nat → Int) (s : List Char) : M (FKind × Sizes) := do
  let (l, s) ← skipLines (s.length + 1) s
  let k ← parseKind false l
  pure (k, (getSizes j s).1)

/-- `is_double` (io.hpp 405). -/
def FKind.isDouble (k : FKind) : Bool := k.dtype = 'D' || k.dtype = 'Z'

/-- `is_real` (io.hpp 406). -/
def FKind.isReal (k : FKind) : Bool := k.dtype = 'D' || k.dtype = 'S'

/-- `for (i < n) f >> b[i]` for integers (io.hpp 490–491). -/
def readInts (n : Nat) (b : Buf Int) (s : Option (List Char)) : M (Buf Int × Option (List Char)) :=
  forUp 0 n (b, s) fun i st => do
    let x ← st.1.rd i
    let b ← st.1.wr i (getInt x st.2).1
    pure (b, (getInt x st.2).2)

/-- `for (i < n) f >> b[i]` for values (io.hpp 492). -/
def readVals (f : Fmt V) (n : Nat) (b : Buf V) (s : Option (List Char)) : M (Buf V × Option (List Char)) :=
  forUp 0 n (b, s) fun i st => do
    let x ← st.1.rd i
    let b ← st.1.wr i (getVal f x st.2).1
    pure (b, (getVal f x st.2).2)

/-- `for (auto &v : b) --v` (io.hpp 495–496). -/
def decr (b : Buf Int) : M (Buf Int) :=
  forUp 0 b.size b fun i b => do
    let x ← b.rd i
    b.wr i (x - 1)

/-- What `read_ascii` delivers. -/
structure Out (V : Type) where
  kind : FKind
  sizes : Sizes
  start : Buf Int
  inds : Buf Int
  vals : Buf V

/-- `read_ascii` (io.hpp 420–500); `js`, `ji`, `jv` are the contents of the arrays after `resize`. -/
def readFile (f : Fmt V) (j js ji : Nat → Int) (jv : Nat → V) (s : List Char) : M (Out V) := do
  let (l, s) ← skipLines (s.length + 1) s
  let k ← parseKind true l
  if f.real ∧ (k.dtype = 'Z' ∨ k.dtype = 'C') then throw (.hif "cannot load complex data to real array")
  else if ¬ f.real ∧ (k.dtype = 'D' ∨ k.dtype = 'S') then throw (.hif "cannot load real data to complex array")
  else do
    let z := getSizes j s
    let n := ((if k.rowMajor then z.1.nrows else z.1.ncols) + 1) % 2 ^ 64
    let st ← readInts n ⟨n, js⟩ z.2
    let ix ← readInts z.1.nnz ⟨z.1.nnz, ji⟩ st.2
    let vs ← readVals f z.1.nnz ⟨z.1.nnz, jv⟩ ix.2
    if k.cIndex then pure ⟨k, z.1, st.1, ix.1, vs.1⟩
    else do
      let start ← decr st.1
      let inds ← decr ix.1
      pure ⟨k, z.1, start, inds, vs.1⟩

end
end Hif.Ascii
