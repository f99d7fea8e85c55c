import Verif.MM

/-!
# What a MatrixMarket file says (specification)

Independent of the reader: a file is text that falls into lines and blank-separated words; the words denote numbers.
-/

namespace Hif.Spec.MM
open Hif.MM (Kind Num)

/-- Characters that separate words. -/
def Blank (c : Char) : Prop := c ∈ [' ', '\t', '\n', '\x0b', '\x0c', '\r']

/-- The text ends or goes on with a separator. -/
def Ends (s : List Char) : Prop := ∀ c, s.head? = some c → Blank c

/-- A word: not empty, no separators. -/
def Word (w : List Char) : Prop := w ≠ [] ∧ ∀ c ∈ w, ¬ Blank c

/-- The text consists of these words, separated by one or more separators, with any separators in front and behind. -/
inductive Words : List Char → List (List Char) → Prop
  | nil (s : List Char) : (∀ c ∈ s, Blank c) → Words s []
  | cons (b w s : List Char) (ws : List (List Char)) : (∀ c ∈ b, Blank c) → Word w → Ends s → Words s ws → Words (b ++ (w ++ s)) (w :: ws)

/-- The word is a decimal numeral of `n`. -/
def Numeral (n : Nat) (w : List Char) : Prop := w ≠ [] ∧ (∀ c ∈ w, c.isDigit = true) ∧ Nat.ofDigitChars 10 w 0 = n

/-- A line of text: no line feed in it and at most 1023 characters (longer lines do not fit the buffer of the reader). -/
def Line (l : List Char) : Prop := '\n' ∉ l ∧ l.length ≤ 1023

variable {D V : Type}

/-- The word denotes the floating point number `d`: the conversion `%lg` reads exactly it. -/
def Numeric (num : Num D V) (d : D) (w : List Char) : Prop := Word w ∧ ∀ s, Ends s → num.scan (w ++ s) = some (d, s)

/-- The words (one for real, two for complex files) denote the value `v`. -/
def ValWords (num : Num D V) (v : V) : List (List Char) → Prop
  | [w] => num.real = true ∧ ∃ d, Numeric num d w ∧ ∀ x, num.set d x = v
  | [w, w'] => num.real = false ∧ ∃ d d', Numeric num d w ∧ Numeric num d' w' ∧ num.set d d' = v
  | _ => False

/-- One line of the data: 1-based row and column and the value. -/
structure Entry (V : Type) where
  row : Nat
  col : Nat
  val : V

/-- The words of an entry. -/
def EntryWords (num : Num D V) (e : Entry V) : List (List Char) → Prop
  | w :: w' :: ws => Numeral e.row w ∧ Numeral e.col w' ∧ ValWords num e.val ws
  | _ => False

/-- The content of a sparse file. -/
structure File (V : Type) where
  kind : Kind
  nrows : Nat
  ncols : Nat
  entries : List (Entry V)

/-- The name of a storage scheme. -/
def schemeName : Kind → String
  | .general => "general"
  | .symmetric => "symmetric"
  | .hermitian => "hermitian"
  | .skew => "skew-symmetric"

/-- The first line: the banner, then four words in any mixture of cases. -/
def Head (l : List Char) (format field scheme : String) : Prop :=
  Line l ∧ ∃ w2 w3 w4 w5, Words l ["%%MatrixMarket".toList, w2, w3, w4, w5] ∧ w2.map Char.toLower = "matrix".toList ∧
    w3.map Char.toLower = format.toList ∧ w4.map Char.toLower = field.toList ∧ w5.map Char.toLower = scheme.toList

/-- Comment lines start with `%`. -/
def Comments (cs : List (List Char)) : Prop := ∀ c ∈ cs, Line c ∧ c.head? = some '%'

/-- The layout of a file: the first line, comment lines, and then the words `size` (the dimensions) followed by the words `data`; the dimensions are
on the line behind the comments, or anywhere behind a first empty line. -/
inductive Layout : List Char → List Char → List (List Char) → List (List Char) → Prop
  | direct (head size data : List Char) (cs : List (List Char)) (sz ds : List (List Char)) : Comments cs → Line size → Words size sz → Words data ds →
      Layout (head ++ '\n' :: (cs.flatMap (fun c => c ++ ['\n']) ++ (size ++ '\n' :: data))) head sz ds
  | blankLine (head blank data : List Char) (cs : List (List Char)) (sz ds : List (List Char)) : Comments cs → Line blank → (∀ c ∈ blank, Blank c) →
      Words data (sz ++ ds) → Layout (head ++ '\n' :: (cs.flatMap (fun c => c ++ ['\n']) ++ (blank ++ '\n' :: data))) head sz ds

/-- The text describes the sparse matrix file `f`, with values of the type `num` is about. -/
def Describes (num : Num D V) (f : File V) (text : List Char) : Prop :=
  ∃ head wm wn wz dss, Head head "coordinate" (if num.real then "real" else "complex") (schemeName f.kind) ∧
    Numeral f.nrows wm ∧ Numeral f.ncols wn ∧ Numeral f.entries.length wz ∧ List.Forall₂ (EntryWords num) f.entries dss ∧
    Layout text head [wm, wn, wz] dss.flatten

/-- The text describes a vector. -/
def DescribesVec (num : Num D V) (v : List V) (text : List Char) : Prop :=
  ∃ head k wm wn dss n, Head head "array" (if num.real then "real" else "complex") (schemeName k) ∧ Numeral v.length wm ∧ Numeral n wn ∧
    List.Forall₂ (ValWords num) v dss ∧ Layout text head [wm, wn] dss.flatten

/-- Sizes and indices are in range (the sizes fit an `int`). -/
structure File.InRange (f : File V) : Prop where
  rows : f.nrows < 2 ^ 31
  cols : f.ncols < 2 ^ 31
  nnz : f.entries.length < 2 ^ 31
  row : ∀ e ∈ f.entries, 1 ≤ e.row ∧ e.row ≤ f.nrows
  col : ∀ e ∈ f.entries, 1 ≤ e.col ∧ e.col ≤ f.ncols

/-- A position is listed at most once; for the symmetric kinds also not once on each side of the diagonal. -/
def File.Distinct (f : File V) : Prop :=
  f.entries.Pairwise fun a b => (a.row, a.col) ≠ (b.row, b.col) ∧ (f.kind ≠ .general → (a.row, a.col) ≠ (b.col, b.row))

/-- The value at the mirrored position. -/
def mirrored [Neg V] [Star V] : Kind → V → V
  | .symmetric, v => v
  | .hermitian, v => star v
  | _, v => -v

/-- Element `(i, j)`, counted from 0, of the matrix the file stands for. -/
def File.entry [AddCommGroup V] [Star V] (f : File V) (i j : Nat) : V :=
  (f.entries.map fun e =>
    (if e.row = i + 1 ∧ e.col = j + 1 then e.val else 0) +
      (if f.kind ≠ .general ∧ e.row ≠ e.col ∧ e.row = j + 1 ∧ e.col = i + 1 then mirrored f.kind e.val else 0)).sum

/-- Number of elements of the expanded matrix. -/
def File.stored (f : File V) : Nat :=
  if f.kind = .general then f.entries.length else f.entries.length + (f.entries.filter fun e => e.row ≠ e.col).length

end Hif.Spec.MM
