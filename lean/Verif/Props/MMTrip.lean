import Verif.MMReject
import Verif.Props.MM
import Verif.Props.Pre

set_option linter.unusedVariables false
set_option linter.unusedSectionVars false

/-!
# C52 (vectors), C60: writing a matrix or vector to a MatrixMarket file and reading it back
-/

namespace Hif.Props
open Hif.MM Hif.Spec.MM

section
variable {D V : Type} [Inhabited V] [AddCommGroup V] [Star V] {num : Num D V} (jk : Junk D V)

/-- **C52, vectors**: the values of the file in order, none missing. -/
theorem C52_read_vector {vs : List V} {text : List Char} (h : DescribesVec num vs text) (hn : vs.length < 2 ^ 31) :
    ∃ b, readVector num jk text = .ok b ∧ b.toList = vs :=
  readVector_runs jk h hn

/-- **C52, vectors through the C interface**: an array of at least as many elements as declared is filled with the values of the file when the declared length
is the file's, and left alone with a status otherwise. -/
theorem C52_read_vec {vs : List V} {text : List Char} (h : DescribesVec num vs text) (hn : vs.length < 2 ^ 31) (n : Nat) (v : Buf V) (hv : n ≤ v.size) :
    (n = vs.length → ∃ v', readVec num jk (some text) n v = .ok (.status .success v') ∧ v'.size = v.size ∧ (∀ k (hk : k < vs.length), v'.get k = vs[k]) ∧
      ∀ k, n ≤ k → v'.get k = v.get k) ∧
    (n ≠ vs.length → readVec num jk (some text) n v = .ok (.status .mismatched v)) := by
  obtain ⟨b, e, hb⟩ := C52_read_vector jk h hn
  have hs : b.size = vs.length := by rw [← hb]; simp [Buf.toList]
  unfold readVec
  simp only [e, hs]
  constructor
  · intro hnn
    rw [if_neg (not_not.mpr hnn)]
    obtain ⟨v', e', h1, h2, h3⟩ := C52.copyOut_runs' id b v (by omega)
    rw [e']
    refine ⟨v', rfl, h1, fun k hk => ?_, fun k hk => h3 k (by omega)⟩
    rw [h2 k (by omega)]
    subst hb
    simp [Buf.toList]
  · intro hnn
    rw [if_pos hnn]
    rfl

/-- **C52, wrong size through the C interface**: a file whose dimensions are not the ones declared leaves the caller's arrays alone and is reported by a status. -/
theorem C52_read_mat_mismatch {f : File V} {text : List Char} (h : Describes num f text) (hr : f.InRange) (hd : f.Distinct) (h0 : f.entries ≠ [])
    (hq : f.kind ≠ .general → f.nrows = f.ncols) (hk : f.kind = .general ∨ ∃ e ∈ f.entries, e.row ≠ e.col) {mat : Lhf.Mat V} {arr : Lhf.Arrays V}
    (ha : mat.arrays = some arr) (hn : f.nrows ≠ mat.n ∨ f.ncols ≠ mat.n) :
    readMat num jk (some text) mat = .ok (.status .mismatched mat) := by
  unfold readMat
  simp only
  cases hm : mat.rowMajor with
  | true =>
    obtain ⟨A, e, a1, a2, a3, a4, a5, a6, a7⟩ := C52_read_crs_partial jk h hr hd hq h0 hk
    simp only [if_true, e, ha]
    unfold deliver
    rw [if_pos (by omega)]
    rfl
  | false =>
    obtain ⟨A, e, a1, a2, a3, a4, a5, a6, a7⟩ := C52_read_ccs_partial jk h hr hd hq h0 hk
    simp only [e, ha, Bool.false_eq_true, if_false]
    unfold deliver
    rw [if_pos (by omega)]
    rfl

/-- **C52, nothing else is read as a matrix**: a text that a sparse reader accepts starts with a line whose first words are the banner, `matrix`, `coordinate`, the word
for the value type of the reader, and one of the four storage schemes (letter cases do not matter behind the banner). -/
theorem C52_accepts_only {text : List Char} {A : CS V} (h : readCRS num jk text = .ok A ∨ readCCS num jk text = .ok A) :
    ∃ l s w2 w3 w4 w5 k more, text = l ++ s ∧ (∀ c ∈ l.dropLast, c ≠ '\n') ∧ Words l (["%%MatrixMarket".toList, w2, w3, w4, w5] ++ more) ∧
      w2.map Char.toLower = "matrix".toList ∧ w3.map Char.toLower = "coordinate".toList ∧
      w4.map Char.toLower = (if num.real then "real" else "complex").toList ∧ w5.map Char.toLower = (schemeName k).toList := by
  have : ∃ t, readSparse num jk text = .ok t := by
    rcases h with h | h
    · unfold readCRS at h; obtain ⟨t, e, -⟩ := bindOkInv h; exact ⟨t, e⟩
    · unfold readCCS at h; obtain ⟨t, e, -⟩ := bindOkInv h; exact ⟨t, e⟩
  obtain ⟨t, e⟩ := this
  obtain ⟨k, s, e⟩ := readSparse_inv e
  obtain ⟨l, w2, w3, w4, w5, more, r⟩ := readFirst_inv e
  exact ⟨l, s, w2, w3, w4, w5, k, more, r⟩

/-- **C52, nothing else is read as a vector.** -/
theorem C52_accepts_only_vector {text : List Char} {b : Buf V} (h : readVector num jk text = .ok b) :
    ∃ l s w2 w3 w4 w5 k more, text = l ++ s ∧ (∀ c ∈ l.dropLast, c ≠ '\n') ∧ Words l (["%%MatrixMarket".toList, w2, w3, w4, w5] ++ more) ∧
      w2.map Char.toLower = "matrix".toList ∧ w3.map Char.toLower = "array".toList ∧
      w4.map Char.toLower = (if num.real then "real" else "complex").toList ∧ w5.map Char.toLower = (schemeName k).toList := by
  obtain ⟨k, s, e⟩ := readVector_inv h
  obtain ⟨l, w2, w3, w4, w5, more, r⟩ := readFirst_inv e
  exact ⟨l, s, w2, w3, w4, w5, k, more, r⟩

/-- **C52, truncated files**: a file that announces `nnz` entries but ends after fewer is rejected with an error by both readers; nothing made up is delivered. -/
theorem C52_truncated {f : File V} {head wm wn wz text : List Char} {dss : List (List (List Char))} {nnz : Nat}
    (hh : Head head "coordinate" (if num.real then "real" else "complex") (schemeName f.kind)) (h1 : Numeral f.nrows wm) (h2 : Numeral f.ncols wn) (h3 : Numeral nnz wz)
    (h4 : List.Forall₂ (EntryWords num) f.entries dss) (h5 : Layout text head [wm, wn, wz] dss.flatten) (hn : nnz < 2 ^ 31) (hlt : f.entries.length < nnz) :
    readCRS num jk text = .error (.hif "insufficient objects scanned from fscanf") ∧ readCCS num jk text = .error (.hif "insufficient objects scanned from fscanf") := by
  have key : readSparse num jk text = .error (.hif "insufficient objects scanned from fscanf") := by
    obtain ⟨s, t, e1, e2, e3⟩ := layout_readSize h5 hh.1 (ns := [f.nrows, f.ncols, nnz]) (.cons h1 (.cons h2 (.cons h3 .nil))) (by simp)
    have e0 : readFirst text = .ok ((true, num.real, f.kind), s) := by
      rw [readFirst_ok hh (Or.inl rfl) (by cases num.real <;> simp) e1]
      cases num.real <;> rfl
    have e2' : readSize 3 s = .ok ([(f.nrows : Int), (f.ncols : Int), (nnz : Int)], t) := e2
    unfold readSparse
    rw [e0]
    simp only [bind, Except.bind, e2', Bool.true_eq_false, if_false, ne_eq, not_true_eq_false, List.getD_cons_zero, List.getD_cons_succ]
    rw [sizeT_nat hn, readData_short jk h4 e3 hlt]
  constructor
  · unfold readCRS; rw [key]; rfl
  · unfold readCCS; rw [key]; rfl

/-- **C52, truncated vector files** are rejected (`%lg` reads no number from nothing). -/
theorem C52_truncated_vector (hnum : num.scan [] = none) {vs : List V} {head wm wn text : List Char} {dss : List (List (List Char))} {k : Kind} {n n' : Nat}
    (hh : Head head "array" (if num.real then "real" else "complex") (schemeName k)) (h1 : Numeral n wm) (h2 : Numeral n' wn)
    (h4 : List.Forall₂ (ValWords num) vs dss) (h5 : Layout text head [wm, wn] dss.flatten) (hn : n < 2 ^ 31) (hlt : vs.length < n) :
    readVector num jk text = .error (.hif "insufficient objects scanned from fscanf") := by
  obtain ⟨s, t, e1, e2, e3⟩ := layout_readSize h5 hh.1 (ns := [n, n']) (.cons h1 (.cons h2 .nil)) (by simp)
  have e0 : readFirst text = .ok ((false, num.real, k), s) := by
    rw [readFirst_ok hh (Or.inr rfl) (by cases num.real <;> simp) e1]
    cases num.real <;> rfl
  have e2' : readSize 2 s = .ok ([(n : Int), (n' : Int)], t) := e2
  unfold readVector
  rw [e0]
  simp only [bind, Except.bind, e2', Bool.false_eq_true, if_false, ne_eq, not_true_eq_false, List.getD_cons_zero]
  rw [sizeT_nat hn]
  exact readVecData_short jk hnum h4 e3 hlt

namespace C60

theorem trip_crs (hpr : PrintOK num) {A : CS V} (h : A.WF) (ht : A.Tight) (hs : A.Sorted) (h0 : 0 < A.start.get A.psize) (hp : A.psize < 2 ^ 31) (hss : A.ssize < 2 ^ 31)
    (hn : A.start.get A.psize < 2 ^ 31) (rowMajor : Bool) :
    ∃ text, writeSparse num rowMajor A = .ok text ∧ Describes num (fileOf rowMajor A) text ∧ (fileOf rowMajor A).InRange ∧ (fileOf rowMajor A).Distinct ∧
      (fileOf rowMajor A).entries ≠ [] := by
  have hr := fileOf_inRange h rowMajor hp hss hn
  refine ⟨_, writeSparse_runs h ht num rowMajor, write_describes hpr rfl hr.rows hr.cols hr.nnz, hr, fileOf_distinct hs rowMajor, ?_⟩
  intro e
  have : (listing rowMajor A).length = 0 := congrArg List.length e
  rw [listing_length h] at this
  omega

end C60

/-- **C60**: a valid matrix with sorted lines, row-major or column-major, written to a file and read back by the reader of the same format is the same matrix,
array by array. (`PrintOK`: a printed number is read back as the same number. What is excluded: matrices without stored entries, which the reader rejects.) -/
theorem C60_same_format_partial (hpr : PrintOK num) {A : CS V} (h : A.WF) (ht : A.Tight) (hs : A.Sorted) (h0 : 0 < A.start.get A.psize) (hp : A.psize < 2 ^ 31)
    (hss : A.ssize < 2 ^ 31) (hn : A.start.get A.psize < 2 ^ 31) (rowMajor : Bool) :
    ∃ text B, writeSparse num rowMajor A = .ok text ∧ (if rowMajor then readCRS num jk text else readCCS num jk text) = .ok B ∧
      B.psize = A.psize ∧ B.ssize = A.ssize ∧ B.start.size = A.start.size ∧ B.inds.size = A.inds.size ∧ B.vals.size = A.vals.size ∧
      (∀ i, i ≤ A.psize → B.start.get i = A.start.get i) ∧
      ∀ k, k < A.inds.size → B.inds.get k = A.inds.get k ∧ B.vals.get k = A.vals.get k := by
  obtain ⟨text, e, hd, hr, hdis, hne⟩ := C60.trip_crs hpr h ht hs h0 hp hss hn rowMajor
  have fin : ∀ B : CS V, B.WF → B.Tight → B.Sorted → B.psize = A.psize → B.ssize = A.ssize → (∀ i, i < A.psize → ∀ p, p ∈ B.line i ↔ p ∈ A.line i) →
      B.psize = A.psize ∧ B.ssize = A.ssize ∧ B.start.size = A.start.size ∧ B.inds.size = A.inds.size ∧ B.vals.size = A.vals.size ∧
      (∀ i, i ≤ A.psize → B.start.get i = A.start.get i) ∧
      ∀ k, k < A.inds.size → B.inds.get k = A.inds.get k ∧ B.vals.get k = A.vals.get k := by
    intro B b1 b2 b3 b4 b5 b6
    obtain ⟨r1, r2⟩ := arrays_eq h b1 b4 (fun i hi => line_eq_of_mem hs b3 hi (by omega) (b6 i hi))
    refine ⟨b4, b5, by rw [b2.start_size, ht.start_size, b4], ?_, ?_, r1, fun k hk => r2 k (by rw [← ht.inds_size]; exact hk)⟩
    · rw [b2.inds_size, ht.inds_size, b4, r1 _ (le_refl _)]
    · rw [b2.vals_size, ht.vals_size, b4, r1 _ (le_refl _)]
  cases rowMajor with
  | true =>
    obtain ⟨B, e', b1, b2, b3, b4, b5, b6, b7, b8⟩ := C52.readCRS_runs jk hd hr hdis (fun hk => absurd rfl hk) hne (Or.inl rfl)
    refine ⟨text, B, e, by rw [if_pos rfl]; exact e', fin B b1 b2 b3 b4 b5 fun i hi p => ?_⟩
    rw [b8 i hi p, mem_expand_fileOf]
    constructor
    · rintro ⟨i', q, hi', hq, e⟩
      simp only [mkEntry, if_true, Entry.mk.injEq, Nat.add_right_cancel_iff] at e
      obtain ⟨rfl, e1, e2⟩ := e
      rwa [show p = q from Prod.ext e1.symm e2.symm]
    · intro hp
      exact ⟨i, p, hi, hp, rfl⟩
  | false =>
    obtain ⟨B, e', b1, b2, b3, b4, b5, b6, b7, b8⟩ := C52.readCCS_runs jk hd hr hdis (fun hk => absurd rfl hk) hne (Or.inl rfl)
    refine ⟨text, B, e, by rw [if_neg (by decide)]; exact e', fin B b1 b2 b3 b4 b5 fun i hi p => ?_⟩
    have hmem := mem_expand_fileOf (A := A) false p.1 i p.2
    rw [b8 i hi p]
    constructor
    · rintro ⟨x, hx, x1, x2, x3⟩
      obtain ⟨i', q, hi', hq, e⟩ := hmem.mp ⟨x, hx, x2, x1, x3⟩
      simp only [mkEntry, Bool.false_eq_true, if_false, Entry.mk.injEq, Nat.add_right_cancel_iff] at e
      obtain ⟨e1, rfl, e2⟩ := e
      rwa [show p = q from Prod.ext e1.symm e2.symm]
    · intro hp
      obtain ⟨x, hx, x1, x2, x3⟩ := hmem.mpr ⟨i, p, hi, hp, rfl⟩
      exact ⟨x, hx, x2, x1, x3⟩

/-- **C60, across formats**: whichever format wrote the file, both readers give valid sorted matrices with the elements of the matrix written. -/
theorem C60_cross_format_partial (hpr : PrintOK num) {A : CS V} (h : A.WF) (ht : A.Tight) (hs : A.Sorted) (h0 : 0 < A.start.get A.psize) (hp : A.psize < 2 ^ 31)
    (hss : A.ssize < 2 ^ 31) (hn : A.start.get A.psize < 2 ^ 31) (rowMajor : Bool) :
    ∃ text B C, writeSparse num rowMajor A = .ok text ∧ readCRS num jk text = .ok B ∧ readCCS num jk text = .ok C ∧ B.WF ∧ B.Sorted ∧ C.WF ∧ C.Sorted ∧
      B.psize = (if rowMajor then A.psize else A.ssize) ∧ B.ssize = (if rowMajor then A.ssize else A.psize) ∧ C.psize = B.ssize ∧ C.ssize = B.psize ∧
      ∀ i, i < A.psize → ∀ j, j < A.ssize →
        (if rowMajor then B.entry i j else B.entry j i) = A.entry i j ∧ (if rowMajor then C.entry j i else C.entry i j) = A.entry i j := by
  obtain ⟨text, e, hd, hr, hdis, hne⟩ := C60.trip_crs hpr h ht hs h0 hp hss hn rowMajor
  obtain ⟨B, e1, b1, b2, b3, b4, b5, b6, b7⟩ := C52_read_crs_partial jk hd hr hdis (fun hk => absurd rfl hk) hne (Or.inl rfl)
  obtain ⟨C, e2, c1, c2, c3, c4, c5, c6, c7⟩ := C52_read_ccs_partial jk hd hr hdis (fun hk => absurd rfl hk) hne (Or.inl rfl)
  refine ⟨text, B, C, e, e1, e2, b1, b3, c1, c3, b4, b5, c4.trans b5.symm, c5.trans b4.symm, fun i hi j hj => ?_⟩
  have key : (if rowMajor then (fileOf rowMajor A).entry i j else (fileOf rowMajor A).entry j i) = A.entry i j := by
    rw [fileOf_entry h rowMajor hi]
  cases rowMajor with
  | true =>
    simp only [if_true] at key ⊢
    exact ⟨(b7 i hi j).trans key, (c7 j hj i).trans key⟩
  | false =>
    simp only [Bool.false_eq_true, if_false] at key ⊢
    exact ⟨(b7 j hj i).trans key, (c7 i hi j).trans key⟩

/-- **C60, vectors**: any vector written and read back is the same vector. -/
theorem C60_vector (hpr : PrintOK num) (v : Buf V) (hn : v.size < 2 ^ 31) :
    ∃ b, readVector num jk (writeVector num v) = .ok b ∧ b.toList = v.toList :=
  C52_read_vector jk (writeVector_describes hpr v hn) (by simpa [Buf.toList] using hn)

end

/-! ### examples -/

namespace ExMM

/-- Integers in place of floating point numbers. -/
def num : Num Int Int where
  real := true
  scan s := match scanInt s with
    | (some z, t) => some (z, t)
    | (none, _) => none
  print z := if z < 0 then '-' :: showNat z.natAbs else showNat z.natAbs
  set d _ := d
  re v := v
  im _ := 0

def jk : Junk Int Int := ⟨fun k => 7 - 100 * k, fun _ => 13, 5⟩

theorem takeDigits {w s : List Char} (hd : ∀ c ∈ w, c.isDigit = true) (hs : Ends s) :
    (w ++ s).takeWhile Char.isDigit = w ∧ (w ++ s).dropWhile Char.isDigit = s :=
  takeWhile_all hd fun c hc => blank_not_digit (hs c hc)

theorem not_space {c : Char} (h : c.isDigit = true) : isSpace c = false := isSpace_false (digit_not_blank h)

theorem numeric (z : Int) : Numeric num z (num.print z) := by
  have hn := showNat_numeral z.natAbs
  obtain ⟨h1, h2, h3⟩ := hn
  have hw := numeral_word (showNat_numeral z.natAbs)
  by_cases hz : z < 0
  · have e : num.print z = '-' :: showNat z.natAbs := if_pos hz
    rw [e]
    refine ⟨⟨by simp, fun c hc => ?_⟩, fun s hs => ?_⟩
    · rcases List.mem_cons.mp hc with rfl | hc
      · unfold Blank; decide
      · exact hw.2 c hc
    · have es : scanInt ('-' :: showNat z.natAbs ++ s) = (some z, s) := by
        unfold scanInt
        have e1 : ('-' :: showNat z.natAbs ++ s).dropWhile isSpace = '-' :: (showNat z.natAbs ++ s) := rfl
        have e2 : scanSign ('-' :: (showNat z.natAbs ++ s)) = (true, showNat z.natAbs ++ s) := rfl
        rw [e1, e2]
        obtain ⟨t1, t2⟩ := takeDigits h2 hs
        simp only [t1, t2, if_neg h1, h3, if_true, Prod.mk.injEq, Option.some.injEq, and_true]
        omega
      show (match scanInt ('-' :: showNat z.natAbs ++ s) with | (some z, t) => some (z, t) | (none, _) => none) = _
      rw [es]
  · have e : num.print z = showNat z.natAbs := if_neg hz
    rw [e]
    refine ⟨hw, fun s hs => ?_⟩
    have es : scanInt (showNat z.natAbs ++ s) = (some z, s) := by
      unfold scanInt
      have e1 : (showNat z.natAbs ++ s).dropWhile isSpace = showNat z.natAbs ++ s := by
        cases hc : showNat z.natAbs with
        | nil => exact absurd hc h1
        | cons c u =>
          rw [List.cons_append, List.dropWhile_cons_of_neg (by rw [not_space (h2 c (by rw [hc]; simp))]; decide)]
      rw [e1, scanSign_digit h1 h2]
      obtain ⟨t1, t2⟩ := takeDigits h2 hs
      simp only [t1, t2, if_neg h1, h3, Bool.false_eq_true, if_false, Prod.mk.injEq, Option.some.injEq, and_true]
      omega
    show (match scanInt (showNat z.natAbs ++ s) with | (some z, t) => some (z, t) | (none, _) => none) = _
    rw [es]

/-- The number type of the examples meets the assumption of C60. -/
theorem printOK : PrintOK num := ⟨fun v => numeric v, fun v => numeric 0, fun _ _ _ => rfl, fun h => absurd h (by decide)⟩

/-- A 2 × 3 matrix with a negative and a two-digit value. -/
def A : CS Int := ⟨2, 3, Buf.ofList [0, 2, 3], Buf.ofList [0, 2, 1], Buf.ofList [4, -5, 16]⟩

/-- A symmetric 2 × 2 file. -/
def symText : List Char := "%%MatrixMarket MATRIX coordinate Real symmetric\n% c\n2 2 2\n1 1 3\n2 1 -7\n".toList
def sym : File Int := ⟨.symmetric, 2, 2, [⟨1, 1, 3⟩, ⟨2, 1, -7⟩]⟩

theorem sym_describes : Describes num sym symText := by
  refine ⟨"%%MatrixMarket MATRIX coordinate Real symmetric".toList, ['2'], ['2'], ['2'], [[['1'], ['1'], ['3']], [['2'], ['1'], ['-', '7']]], ?_, ?_, ?_, ?_, ?_, ?_⟩
  · refine ⟨by unfold Line; decide, "MATRIX".toList, "coordinate".toList, "Real".toList, "symmetric".toList, ?_, by decide, by decide, by decide, by decide⟩
    exact words_split 60 _ (by decide)
  · exact ⟨by decide, by decide, by decide⟩
  · exact ⟨by decide, by decide, by decide⟩
  · exact ⟨by decide, by decide, by decide⟩
  · refine .cons ⟨⟨by decide, by decide, by decide⟩, ⟨by decide, by decide, by decide⟩, rfl, 3, numeric 3, fun _ => rfl⟩
      (.cons ⟨⟨by decide, by decide, by decide⟩, ⟨by decide, by decide, by decide⟩, rfl, -7, numeric (-7), fun _ => rfl⟩ .nil)
  · have w1 : Words "2 2 2".toList [['2'], ['2'], ['2']] := by
      have := words_split 6 "2 2 2".toList (by decide)
      rwa [show splitWords 6 "2 2 2".toList = [['2'], ['2'], ['2']] by decide] at this
    have w2 : Words "1 1 3\n2 1 -7\n".toList [['1'], ['1'], ['3'], ['2'], ['1'], ['-', '7']] := by
      have := words_split 20 "1 1 3\n2 1 -7\n".toList (by decide)
      rwa [show splitWords 20 "1 1 3\n2 1 -7\n".toList = [['1'], ['1'], ['3'], ['2'], ['1'], ['-', '7']] by decide] at this
    have e : symText = "%%MatrixMarket MATRIX coordinate Real symmetric".toList ++ '\n' :: (["% c".toList].flatMap (fun c => c ++ ['\n']) ++
      ("2 2 2".toList ++ '\n' :: "1 1 3\n2 1 -7\n".toList)) := by decide
    rw [e]
    exact Layout.direct _ "2 2 2".toList "1 1 3\n2 1 -7\n".toList ["% c".toList] _ _
      (by intro c hc; rw [List.mem_singleton] at hc; subst hc; unfold Line; decide) (by unfold Line; decide) w1 w2

theorem sym_ok : sym.InRange ∧ sym.Distinct ∧ sym.kind ≠ .general ∧ ∃ e ∈ sym.entries, e.row ≠ e.col := by
  refine ⟨⟨by decide, by decide, by decide, by decide, by decide⟩, ?_, by decide, by decide⟩
  unfold File.Distinct
  decide

end ExMM

/-- Non-vacuity of C52 for symmetric files, and what the calls return: the query reports 2 entries, the matrix has 3. -/
example : Describes ExMM.num ExMM.sym ExMM.symText ∧ ExMM.sym.InRange ∧ ExMM.sym.Distinct ∧
    query (some ExMM.symText) = .ok (.success, some ⟨true, true, 2, 2, 2⟩) ∧
    (readCRS ExMM.num ExMM.jk ExMM.symText).map (fun A => (A.start.toList, A.inds.toList, A.vals.toList)) = .ok ([0, 2, 3], [0, 1, 0], [3, -7, -7]) ∧
    ExMM.sym.entry 0 1 = -7 ∧ ExMM.sym.entry 1 0 = -7 := by
  refine ⟨ExMM.sym_describes, ExMM.sym_ok.1, ExMM.sym_ok.2.1, by decide +kernel, by decide +kernel, by decide +kernel, by decide +kernel⟩

/-- Non-vacuity of `C52_symmetric_overflow_witness`: the arrays of the reported size. -/
example : (match readMat ExMM.num ExMM.jk (some ExMM.symText) ⟨some ⟨Buf.mk' 3 0, Buf.mk' 2 0, Buf.mk' 2 0⟩, 2, true⟩ with | .error e => some e | _ => none) = some .oob := by
  have := C52_symmetric_overflow_witness ExMM.jk ExMM.sym_describes ExMM.sym_ok.1 ExMM.sym_ok.2.1 ExMM.sym_ok.2.2.1 ExMM.sym_ok.2.2.2
    (C52_query ExMM.sym_describes ExMM.sym_ok.1) rfl (arr := ⟨Buf.mk' 3 0, Buf.mk' 2 0, Buf.mk' 2 0⟩) rfl true
  rw [show (⟨some ⟨Buf.mk' 3 0, Buf.mk' 2 0, Buf.mk' 2 0⟩, 2, true⟩ : Lhf.Mat Int) = ⟨some ⟨Buf.mk' 3 0, Buf.mk' 2 0, Buf.mk' 2 0⟩, ExMM.sym.nrows, true⟩ from rfl]
  rw [this]

/-- Non-vacuity of C60, and the text written. -/
example : PrintOK ExMM.num ∧ ExMM.A.WF ∧ ExMM.A.Tight ∧ ExMM.A.Sorted ∧
    (writeSparse ExMM.num true ExMM.A).map String.ofList =
      .ok "%%MatrixMarket matrix coordinate real general\n% Written by HIFIR 0.2.0\n 2 3 3\n1\t1\t4\n1\t3\t-5\n2\t2\t16\n" ∧
    (do let t ← writeSparse ExMM.num true ExMM.A; let B ← readCRS ExMM.num ExMM.jk t; pure (B.start.toList, B.inds.toList, B.vals.toList)) =
      .ok ([0, 2, 3], [0, 2, 1], [4, -5, 16]) ∧
    (do let t ← writeSparse ExMM.num false ExMM.A; let B ← readCRS ExMM.num ExMM.jk t; pure (B.start.toList, B.inds.toList, B.vals.toList)) =
      .ok ([0, 1, 2, 3], [0, 1, 0], [4, 16, -5]) := by
  refine ⟨ExMM.printOK, ⟨by decide, by decide, by decide, by decide, by decide, by decide⟩, ⟨by decide, by decide, by decide⟩, ?_, by decide +kernel, by decide +kernel, by decide +kernel⟩
  exact ExPre.sorted_of_bounded (by decide)

/-- Vectors. -/
example : (readVector ExMM.num ExMM.jk (writeVector ExMM.num (Buf.ofList [1, -20, 3]))).map Buf.toList = .ok [1, -20, 3] := by decide +kernel

/-- Non-vacuity of the rejections: a missing entry; a complex file read as real; a wrong banner. -/
example : (readCRS ExMM.num ExMM.jk "%%MatrixMarket matrix coordinate real general\n2 2 3\n1 1 3\n2 2 4\n".toList).map (fun _ => ()) =
      .error (.hif "insufficient objects scanned from fscanf") ∧
    (readCRS ExMM.num ExMM.jk "%%MatrixMarket matrix coordinate complex general\n2 2 1\n1 1 3 4\n".toList).map (fun _ => ()) =
      .error (.hif "data types did not match between array and file") ∧
    (readVector ExMM.num ExMM.jk "%MatrixMarket matrix array real general\n1 1\n3\n".toList).map (fun _ => ()) = .error (.hif "incorrect banner") := by
  refine ⟨by decide +kernel, by decide +kernel, by decide +kernel⟩

/-! ### what goes wrong -/

/-- A file whose dimensions are not numbers makes the reader, and the query, loop for ever. -/
theorem C52_endless_loop_witness : query (some "%%MatrixMarket matrix coordinate real general\n\nx\n".toList) = .error (.ub "endless loop") := by decide +kernel

/-- A word of 65 or more characters in the first line overruns a local array of 65 bytes, whatever follows. -/
theorem C52_long_word_witness : query (some ("%%MatrixMarket matrix ".toList ++ List.replicate 65 'x' ++ " real general\n".toList)) = .error .oob := by decide +kernel

/-- The query lets exceptions out of a C function: an empty file. -/
theorem C52_query_throws_witness : ∃ m, query (some []) = .error (.hif m) := ⟨_, rfl⟩

/-- A symmetric file with diagonal entries only: the reader continues with uninitialised indices, here out of bounds. -/
theorem C52_diagonal_only_oob_witness :
    (readCRS ExMM.num ExMM.jk "%%MatrixMarket matrix coordinate real symmetric\n2 2 2\n1 1 3\n2 2 4\n".toList).map (fun _ => ()) = .error .oob := by decide +kernel

/-- Indices are not checked: an index 0 writes in front of the array. -/
theorem C52_index_zero_witness :
    (readCRS ExMM.num ExMM.jk "%%MatrixMarket matrix coordinate real general\n2 2 1\n0 1 3\n".toList).map (fun _ => ()) = .error .oob := by decide +kernel

/-- A matrix whose value array is longer than what is in use is written with the wrong number of entries, and cannot be read back. -/
theorem C60_untight_witness : ∃ A : CS Int, A.WF ∧ A.Sorted ∧ (∃ text, writeSparse ExMM.num true A = .ok text ∧ ∃ m, (readCRS ExMM.num ExMM.jk text).map (fun _ => ()) = .error (.hif m)) := by
  refine ⟨⟨2, 3, Buf.ofList [0, 2, 3], Buf.ofList [0, 2, 1, 0], Buf.ofList [4, -5, 16, 0]⟩, ⟨by decide, by decide, by decide, by decide, by decide, by decide⟩,
    ExPre.sorted_of_bounded (by decide), _, rfl, "insufficient objects scanned from fscanf", ?_⟩
  decide +kernel

/-- A matrix without stored entries can be written but not read back. -/
theorem C60_empty_witness : ∃ A : CS Int, A.WF ∧ A.Tight ∧ A.Sorted ∧ (∃ text, writeSparse ExMM.num true A = .ok text ∧ (readCRS ExMM.num ExMM.jk text).map (fun _ => ()) = .error (.hif "memory allocation failed")) := by
  refine ⟨⟨1, 1, Buf.ofList [0, 0], Buf.ofList [], Buf.ofList []⟩, ⟨by decide, by decide, by decide, by decide, by decide, by decide⟩, ⟨by decide, by decide, by decide⟩,
    ExPre.sorted_of_bounded (by decide), _, rfl, ?_⟩
  decide +kernel

end Hif.Props
