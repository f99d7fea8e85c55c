import Verif.MMMat
import Mathlib.Data.List.Sort

set_option linter.unusedVariables false
set_option linter.unusedSectionVars false

/-!
# The text the MatrixMarket writers produce
-/

namespace Hif.MM
open Hif.Spec.MM
variable {D V : Type} [Inhabited V]

/-! ### splitting a text into words -/

/-- The words of a text. -/
def splitWords : Nat → List Char → List (List Char)
  | 0, _ => []
  | n + 1, s =>
    if s.dropWhile isSpace = [] then []
    else (s.dropWhile isSpace).takeWhile (fun c => !isSpace c) :: splitWords n ((s.dropWhile isSpace).dropWhile fun c => !isSpace c)

theorem head_dropWhile {p : Char → Bool} {s : List Char} {c : Char} (h : (s.dropWhile p).head? = some c) : p c = false := by
  induction s with
  | nil => cases h
  | cons d s ih =>
    by_cases hd : p d = true
    · rw [List.dropWhile_cons_of_pos hd] at h
      exact ih h
    · rw [List.dropWhile_cons_of_neg hd] at h
      cases h
      simpa using hd

theorem mem_takeWhile {p : Char → Bool} {s : List Char} {c : Char} (h : c ∈ s.takeWhile p) : p c = true := by
  induction s with
  | nil => cases h
  | cons d s ih =>
    by_cases hd : p d = true
    · rw [List.takeWhile_cons_of_pos hd] at h
      rcases List.mem_cons.mp h with rfl | h
      · exact hd
      · exact ih h
    · rw [List.takeWhile_cons_of_neg hd] at h
      cases h

theorem words_split (n : Nat) (s : List Char) (h : s.length < n) : Words s (splitWords n s) := by
  induction n generalizing s with
  | zero => omega
  | succ n ih =>
    unfold splitWords
    have hs : s = s.takeWhile isSpace ++ s.dropWhile isSpace := (List.takeWhile_append_dropWhile).symm
    have hb : ∀ c ∈ s.takeWhile isSpace, Blank c := fun c hc => (isSpace_iff c).mp (mem_takeWhile hc)
    split
    · rename_i e
      rw [e, List.append_nil] at hs
      exact .nil _ (by rw [hs]; exact hb)
    · rename_i e
      set t := s.dropWhile isSpace with ht
      have ht2 : t = t.takeWhile (fun c => !isSpace c) ++ t.dropWhile fun c => !isSpace c := (List.takeWhile_append_dropWhile).symm
      have hne : t.takeWhile (fun c => !isSpace c) ≠ [] := by
        cases htc : t with
        | nil => exact absurd htc e
        | cons c u =>
          have : isSpace c = false := head_dropWhile (s := s) (by rw [← ht, htc]; rfl)
          rw [List.takeWhile_cons_of_pos (by rw [this]; rfl)]
          simp
      have hlen : (t.dropWhile fun c => !isSpace c).length < n := by
        have h1 := congrArg List.length ht2
        rw [List.length_append] at h1
        have h2 := List.length_pos_iff.mpr hne
        have h3 : t.length ≤ s.length := by rw [ht]; exact (List.dropWhile_sublist _).length_le
        omega
      have hw := Words.cons (s.takeWhile isSpace) (t.takeWhile fun c => !isSpace c) (t.dropWhile fun c => !isSpace c) _ hb
        ⟨hne, fun c hc hbl => by have h1 := mem_takeWhile hc; rw [(isSpace_iff c).mpr hbl] at h1; cases h1⟩
        (fun c hc => by have h1 := head_dropWhile hc; simp only [Bool.not_eq_false'] at h1; exact (isSpace_iff c).mp h1)
        (ih _ hlen)
      rw [← ht2, ← hs] at hw
      exact hw

/-! ### building texts -/

theorem words_word {w s : List Char} {ws : List (List Char)} (hw : Word w) (he : Ends s) (h : Words s ws) : Words (w ++ s) (w :: ws) :=
  .cons [] w s ws (by intro c hc; cases hc) hw he h

theorem words_blank {c : Char} (hc : Blank c) {s : List Char} {ws : List (List Char)} (h : Words s ws) : Words (c :: s) ws := by
  cases h with
  | nil _ h1 => exact .nil _ (by intro d hd; rcases List.mem_cons.mp hd with rfl | hd; exacts [hc, h1 d hd])
  | cons b w t ws h1 h2 h3 h4 =>
    exact Words.cons (c :: b) w t ws (by intro d hd; rcases List.mem_cons.mp hd with rfl | hd; exacts [hc, h1 d hd]) h2 h3 h4

theorem blank_space : Blank ' ' := by unfold Blank; decide
theorem blank_tab : Blank '\t' := by unfold Blank; decide
theorem blank_nl : Blank '\n' := by unfold Blank; decide

theorem showNat_numeral (n : Nat) : Numeral n (showNat n) :=
  ⟨Nat.toDigits_ne_nil, fun c hc => Nat.isDigit_of_mem_toDigits (by decide) (by decide) hc, Nat.ofDigitChars_toDigits (by decide) (by decide)⟩

theorem showNat_length {n : Nat} (h : n < 2 ^ 31) : (showNat n).length ≤ 10 :=
  (Nat.length_toDigits_le_iff (by decide) (by decide)).mpr (by omega)

theorem showNat_noNl (n : Nat) : '\n' ∉ showNat n := by
  intro h
  have := (showNat_numeral n).2.1 _ h
  revert this; decide

end Hif.MM

namespace Hif.Spec.MM
open Hif.MM (Num)
variable {D V : Type}

/-- What is assumed of output and input of numbers: a printed number is read back as the same number, and a value is determined by its parts. -/
structure PrintOK (num : Num D V) : Prop where
  re : ∀ v, Numeric num (num.re v) (num.print (num.re v))
  im : ∀ v, Numeric num (num.im v) (num.print (num.im v))
  real : num.real = true → ∀ v x, num.set (num.re v) x = v
  complex : num.real = false → ∀ v, num.set (num.re v) (num.im v) = v

/-- The list of the entries of a compressed matrix in storage order, with 1-based positions. -/
def listing (rowMajor : Bool) (A : CS V) : List (Entry V) :=
  (List.range A.psize).flatMap fun i => (A.line i).map fun p => if rowMajor then ⟨i + 1, p.1 + 1, p.2⟩ else ⟨p.1 + 1, i + 1, p.2⟩

/-- The content of the file a compressed matrix is written to. -/
def fileOf (rowMajor : Bool) (A : CS V) : File V :=
  ⟨.general, if rowMajor then A.psize else A.ssize, if rowMajor then A.ssize else A.psize, listing rowMajor A⟩

end Hif.Spec.MM

namespace Hif.MM
open Hif.Spec.MM
variable {D V : Type} [Inhabited V]

/-- The words of a value. -/
def valWords (num : Num D V) (v : V) : List (List Char) := if num.real then [num.print (num.re v)] else [num.print (num.re v), num.print (num.im v)]

theorem valWords_ok {num : Num D V} (h : PrintOK num) (v : V) : ValWords num v (valWords num v) := by
  unfold valWords
  cases hr : num.real with
  | true => exact ⟨hr, _, h.re v, fun x => h.real hr v x⟩
  | false => exact ⟨hr, _, _, h.re v, h.im v, h.complex hr v⟩

theorem showVal_words {num : Num D V} (h : PrintOK num) (v : V) {s : List Char} {ws : List (List Char)} (hs : Words s ws) (he : Ends s) :
    Words (showVal num v ++ s) (valWords num v ++ ws) := by
  unfold showVal valWords
  cases hr : num.real with
  | true =>
    rw [if_pos rfl, if_pos rfl, List.append_nil]
    exact words_word (h.re v).1 he hs
  | false =>
    rw [if_neg (by decide), if_neg (by decide), List.append_assoc]
    exact words_word (h.re v).1 (ends_cons blank_tab) (words_blank blank_tab (words_word (h.im v).1 he hs))

theorem showEntry_words {num : Num D V} (h : PrintOK num) (e : Entry V) {s : List Char} {ws : List (List Char)} (hs : Words s ws) :
    Words (showEntry num e.row e.col e.val ++ s) ((showNat e.row :: showNat e.col :: valWords num e.val) ++ ws) := by
  unfold showEntry
  rw [show showNat e.row ++ '\t' :: (showNat e.col ++ '\t' :: (showVal num e.val ++ ['\n'])) ++ s =
    showNat e.row ++ '\t' :: (showNat e.col ++ '\t' :: (showVal num e.val ++ '\n' :: s)) by simp]
  refine words_word (numeral_word (showNat_numeral _)) (ends_cons blank_tab) (words_blank blank_tab ?_)
  refine words_word (numeral_word (showNat_numeral _)) (ends_cons blank_tab) (words_blank blank_tab ?_)
  exact showVal_words h _ (words_blank blank_nl hs) (ends_cons blank_nl)

theorem data_words {num : Num D V} (h : PrintOK num) (es : List (Entry V)) :
    Words (es.flatMap fun e => showEntry num e.row e.col e.val) (es.map fun e => showNat e.row :: showNat e.col :: valWords num e.val).flatten := by
  induction es with
  | nil => exact .nil _ (by intro c hc; cases hc)
  | cons e es ih =>
    rw [List.flatMap_cons, List.map_cons, List.flatten_cons]
    exact showEntry_words h e ih

theorem entryWords_ok {num : Num D V} (h : PrintOK num) (es : List (Entry V)) :
    List.Forall₂ (EntryWords num) es (es.map fun e => showNat e.row :: showNat e.col :: valWords num e.val) := by
  induction es with
  | nil => exact .nil
  | cons e es ih => exact .cons ⟨showNat_numeral _, showNat_numeral _, valWords_ok h _⟩ ih

/-- First line of the output without the line feed. -/
def headLine (num : Num D V) (what : String) : List Char :=
  "%%MatrixMarket matrix ".toList ++ what.toList ++ " ".toList ++ (if num.real then "real".toList else "complex".toList) ++ " general".toList

theorem header_eq (num : Num D V) (what : String) :
    header num what = headLine num what ++ '\n' :: ([("% Written by HIFIR 0.2.0".toList : List Char)].flatMap fun c => c ++ ['\n']) := by
  unfold header headLine
  have e1 : " general\n".toList = " general".toList ++ ['\n'] := by decide
  have e2 : "% Written by HIFIR 0.2.0\n".toList = "% Written by HIFIR 0.2.0".toList ++ ['\n'] := by decide
  rw [e1, e2]
  simp only [List.flatMap_cons, List.flatMap_nil, List.append_nil, List.append_assoc, List.cons_append, List.nil_append]

theorem comment_ok : Comments ["% Written by HIFIR 0.2.0".toList] := by
  intro c hc
  rw [List.mem_singleton] at hc
  subst hc
  unfold Line
  decide

theorem headLine_ok (num : Num D V) {what : String} (hw : what = "coordinate" ∨ what = "array") :
    Head (headLine num what) what (if num.real then "real" else "complex") (schemeName .general) := by
  have key : ∀ l : List Char, ∀ fld : String, ('\n' ∉ l ∧ l.length ≤ 1023) → splitWords (l.length + 1) l =
      ["%%MatrixMarket".toList, "matrix".toList, what.toList, fld.toList, "general".toList] → "matrix".toList.map Char.toLower = "matrix".toList →
      what.toList.map Char.toLower = what.toList → fld.toList.map Char.toLower = fld.toList →
      "general".toList.map Char.toLower = "general".toList → Head l what fld (schemeName .general) := by
    intro l fld h1 h2 h3 h4 h5 h6
    refine ⟨h1, "matrix".toList, what.toList, fld.toList, "general".toList, ?_, h3, h4, h5, h6⟩
    rw [← h2]
    exact words_split _ _ (Nat.lt_succ_self _)
  unfold headLine
  rcases hw with rfl | rfl <;> cases num.real
  · exact key _ _ (by decide) (by decide) (by decide) (by decide) (by decide) (by decide)
  · exact key _ _ (by decide) (by decide) (by decide) (by decide) (by decide) (by decide)
  · exact key _ _ (by decide) (by decide) (by decide) (by decide) (by decide) (by decide)
  · exact key _ _ (by decide) (by decide) (by decide) (by decide) (by decide) (by decide)

theorem write_describes {num : Num D V} (h : PrintOK num) {f : File V} (hk : f.kind = .general) (hm : f.nrows < 2 ^ 31) (hn : f.ncols < 2 ^ 31)
    (hz : f.entries.length < 2 ^ 31) :
    Describes num f (header num "coordinate" ++ ' ' :: (showNat f.nrows ++ ' ' :: (showNat f.ncols ++ ' ' :: (showNat f.entries.length ++ ['\n']))) ++
      f.entries.flatMap fun e => showEntry num e.row e.col e.val) := by
  refine ⟨headLine num "coordinate", showNat f.nrows, showNat f.ncols, showNat f.entries.length,
    f.entries.map (fun e => showNat e.row :: showNat e.col :: valWords num e.val), ?_, showNat_numeral _, showNat_numeral _, showNat_numeral _,
    entryWords_ok h _, ?_⟩
  · rw [hk]; exact headLine_ok num (Or.inl rfl)
  · rw [header_eq]
    have key := Layout.direct (headLine num "coordinate") (' ' :: (showNat f.nrows ++ ' ' :: (showNat f.ncols ++ ' ' :: showNat f.entries.length)))
      (f.entries.flatMap fun e => showEntry num e.row e.col e.val) ["% Written by HIFIR 0.2.0".toList] [showNat f.nrows, showNat f.ncols, showNat f.entries.length]
      _ comment_ok ?_ ?_ (data_words h f.entries)
    · simp only [List.append_assoc, List.cons_append, List.nil_append] at key ⊢
      exact key
    · constructor
      · simp [showNat_noNl]
      · have l1 := showNat_length hm
        have l2 := showNat_length hn
        have l3 := showNat_length hz
        simp only [List.length_cons, List.length_append]
        omega
    · refine words_blank blank_space (words_word (numeral_word (showNat_numeral _)) (ends_cons blank_space) (words_blank blank_space ?_))
      refine words_word (numeral_word (showNat_numeral _)) (ends_cons blank_space) (words_blank blank_space ?_)
      have := words_word (numeral_word (showNat_numeral f.entries.length)) ends_nil (.nil [] (by intro c hc; cases hc))
      rwa [List.append_nil] at this

end Hif.MM
