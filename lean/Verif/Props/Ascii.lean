import Verif.Ascii
import Verif.MMTrip

set_option linter.unusedVariables false
set_option linter.unusedSectionVars false

/-!
# C88: native ASCII files

`Describes f c text`: the text is a native ASCII file with the content `c`; stated without the reader and the writer.
-/

namespace Hif.Spec.Ascii
open Hif.Ascii Hif.Spec.MM

variable {V : Type}

/-- The word is a decimal numeral of the integer, with a minus sign if it is negative (or zero). -/
def IntNumeral (z : Int) (w : List Char) : Prop := (∃ n : Nat, z = n ∧ Numeral n w) ∨ ∃ (n : Nat) (w' : List Char), z = -(n : Int) ∧ w = '-' :: w' ∧ Numeral n w'

/-- The word denotes the value: `>>` reads exactly it. -/
def ValueWord (f : Fmt V) (v : V) (w : List Char) : Prop := Word w ∧ ∀ s, Ends s → f.scan (w ++ s) = some (v, s)

/-- The content of a file. -/
structure Content (V : Type) where
  kind : FKind
  nrows : Nat
  ncols : Nat
  m : Nat
  start : List Int
  inds : List Int
  vals : List V

/-- Lines in front of the information line: empty ones and comments. -/
def HeadLines (cs : List (List Char)) : Prop := ∀ l ∈ cs, '\n' ∉ l ∧ (l = [] ∨ l.head? = some '#')

/-- The information line. -/
def kindLine (k : FKind) : List Char := [if k.rowMajor then 'R' else 'C', if k.cIndex then 'C' else 'F', k.dtype]

/-- The text is a file with this content: comments, information line, then the words for the sizes, the positions, the indices and the values. -/
def Describes (f : Fmt V) (c : Content V) (text : List Char) : Prop :=
  ∃ (cs : List (List Char)) (body : List Char) (wn wc wz wm : List Char) (wst win wv : List (List Char)), HeadLines cs ∧
    text = cs.flatMap (fun l => l ++ ['\n']) ++ (kindLine c.kind ++ '\n' :: body) ∧
    Numeral c.nrows wn ∧ Numeral c.ncols wc ∧ Numeral c.inds.length wz ∧ Numeral c.m wm ∧
    List.Forall₂ IntNumeral c.start wst ∧ List.Forall₂ IntNumeral c.inds win ∧ List.Forall₂ (ValueWord f) c.vals wv ∧
    Words body (wn :: wc :: wz :: wm :: (wst ++ (win ++ wv)))

/-- The content fits together and suits the value type; sizes fit `size_t`. -/
structure Content.OK (f : Fmt V) (c : Content V) : Prop where
  dtype : if f.real then c.kind.dtype = 'D' ∨ c.kind.dtype = 'S' else c.kind.dtype = 'Z' ∨ c.kind.dtype = 'C'
  start : c.start.length = (if c.kind.rowMajor then c.nrows else c.ncols) + 1
  vals : c.vals.length = c.inds.length
  nrows : c.nrows < 2 ^ 64 - 1
  ncols : c.ncols < 2 ^ 64 - 1
  nnz : c.inds.length < 2 ^ 64
  m : c.m < 2 ^ 64

/-- Values are printed as words that are read back as the same values (with the precision of the writer). -/
def PrintOK (f : Fmt V) : Prop := ∀ v, ValueWord f v (f.print f.prec v)

end Hif.Spec.Ascii

namespace Hif.Props
open Hif.Ascii Hif.Spec.MM Hif.Spec.Ascii Hif.MM

variable {V : Type}

theorem sizeT_small {n : Nat} (h : n < 2 ^ 64) : Lhf.sizeT (n : Int) = n := by
  unfold Lhf.sizeT
  omega

theorem intNumeral_word {z : Int} {w : List Char} (h : IntNumeral z w) : Word w := by
  rcases h with ⟨n, -, h⟩ | ⟨n, w', -, rfl, h⟩
  · exact numeral_word h
  · refine ⟨by simp, fun c hc => ?_⟩
    rcases List.mem_cons.1 hc with rfl | hc
    · unfold Blank; decide
    · exact (numeral_word h).2 c hc

theorem getInt_ok {z : Int} {w s : List Char} {ws : List (List Char)} (x : Int) (h : Words s (w :: ws)) (hz : IntNumeral z w) :
    ∃ t, getInt x (some s) = (z, some t) ∧ Words t ws := by
  obtain ⟨t, e, hw, he, ht⟩ := words_cons_inv h
  have hne : s.dropWhile isSpace ≠ [] := by
    rw [e]
    intro hh
    exact hw.1 (List.append_eq_nil_iff.1 hh).1
  rcases hz with ⟨n, rfl, hn⟩ | ⟨n, w', rfl, rfl, hn⟩
  · obtain ⟨t', e', ht'⟩ := scanInt_ok h hn
    refine ⟨t', ?_, ht'⟩
    show (if s.dropWhile isSpace = [] then _ else _) = _
    rw [if_neg hne, e']
  · obtain ⟨a, b⟩ := takeWhile_all (p := Char.isDigit) (w := w') (t := t) hn.2.1 (fun c hc => blank_not_digit (he c hc))
    have e' : scanInt s = (some (-(n : Int)), t) := by
      unfold scanInt
      simp only
      rw [e]
      show (if List.takeWhile Char.isDigit (w' ++ t) = [] then (none, w' ++ t) else (some (-(Nat.ofDigitChars 10 (List.takeWhile Char.isDigit (w' ++ t)) 0 : Int)), List.dropWhile Char.isDigit (w' ++ t))) = _
      rw [a, b, if_neg hn.1, hn.2.2]
    refine ⟨t, ?_, ht⟩
    show (if s.dropWhile isSpace = [] then _ else _) = _
    rw [if_neg hne, e']

theorem getInt_nat {n : Nat} {w s : List Char} {ws : List (List Char)} (x : Int) (h : Words s (w :: ws)) (hz : Numeral n w) :
    ∃ t, getInt x (some s) = ((n : Int), some t) ∧ Words t ws := getInt_ok x h (Or.inl ⟨n, rfl, hz⟩)

theorem getVal_ok {f : Fmt V} {v : V} {w s : List Char} {ws : List (List Char)} (x : V) (h : Words s (w :: ws)) (hv : ValueWord f v w) :
    ∃ t, getVal f x (some s) = (v, some t) ∧ Words t ws := by
  obtain ⟨t, e, hw, he, ht⟩ := words_cons_inv h
  have hne : s.dropWhile isSpace ≠ [] := by
    rw [e]
    intro hh
    exact hw.1 (List.append_eq_nil_iff.1 hh).1
  refine ⟨t, ?_, ht⟩
  show (if s.dropWhile isSpace = [] then _ else _) = _
  rw [if_neg hne, e, hv.2 t he]

/-- Both reading loops. -/
theorem fill_ok {α : Type} {get : α → Option (List Char) → α × Option (List Char)} {R : α → List Char → Prop}
    (hget : ∀ {x : α} {w s : List Char} {ws : List (List Char)} (old : α), Words s (w :: ws) → R x w → ∃ t, get old (some s) = (x, some t) ∧ Words t ws)
    {xs : List α} {ws vs : List (List Char)} (h : List.Forall₂ R xs ws) {s : List Char} (hs : Words s (ws ++ vs)) {n : Nat} (hn : n = xs.length) (g : Nat → α) :
    Runs (forUp 0 n ((⟨n, g⟩ : Buf α), some s) fun i st => do
      let x ← st.1.rd i
      let b ← st.1.wr i (get x st.2).1
      pure (b, (get x st.2).2)) fun r => r.1.toList = xs ∧ ∃ t, r.2 = some t ∧ Words t vs := by
  subst hn
  have hlen := h.length_eq
  refine forUp_runs' (fun i st => st.1.size = xs.length ∧ (∀ k (h : k < xs.length), k < i → st.1.get k = xs[k]) ∧ ∃ t, st.2 = some t ∧ Words t (ws.drop i ++ vs))
    (Nat.zero_le _) ⟨rfl, fun k _ h => absurd h (Nat.not_lt_zero _), s, rfl, by simpa using hs⟩ ?_ ?_
  · rintro i ⟨b, o⟩ - hi ⟨h1, h2, t, h3, h4⟩
    simp only at h1 h2 h3 ⊢
    subst h3
    rw [List.drop_eq_getElem_cons (by omega : i < ws.length), List.cons_append] at h4
    obtain ⟨rest, e, hr⟩ := hget (b.get i) h4 (List.forall₂_iff_get.mp h |>.2 i hi (by omega))
    simp only [runs_bind, runs_rd, runs_wr, runs_pure, Buf.set_size, Buf.set_get]
    refine ⟨by omega, by omega, h1, fun k hk hki => ?_, rest, by rw [e], hr⟩
    by_cases hk2 : k = i
    · subst hk2; rw [if_pos rfl, e]; rfl
    · rw [if_neg hk2]; exact h2 k hk (by omega)
  · rintro ⟨b, o⟩ ⟨h1, h2, t, h3, h4⟩
    simp only at h1 h3 ⊢
    refine ⟨List.ext_getElem (by simp [Buf.toList, h1]) fun k k1 k2 => ?_, t, h3, ?_⟩
    · have := h2 k k2 k2
      simpa [Buf.toList] using this
    · rw [hlen, List.drop_length] at h4
      exact h4

theorem decr_runs (b : Buf Int) : Runs (decr b) fun r => r.toList = b.toList.map (· - 1) := by
  unfold decr
  refine forUp_runs' (fun i r => r.size = b.size ∧ ∀ k, r.get k = if k < i then b.get k - 1 else b.get k) (Nat.zero_le _) ⟨rfl, fun k => by simp⟩ ?_ ?_
  · rintro i r - hi ⟨h1, h2⟩
    simp only [runs_bind, runs_rd, runs_wr, Buf.set_size, Buf.set_get]
    refine ⟨by omega, by omega, h1, fun k => ?_⟩
    by_cases hk : k = i
    · subst hk
      rw [if_pos rfl, if_pos (by omega), h2 k, if_neg (by omega)]
    · rw [if_neg hk, h2 k]
      by_cases hk' : k < i
      · rw [if_pos hk', if_pos (by omega)]
      · rw [if_neg hk', if_neg (by omega)]
  · rintro r ⟨h1, h2⟩
    unfold Buf.toList
    rw [h1, List.map_map]
    refine List.map_congr_left fun k hk => ?_
    rw [h2 k, if_pos (List.mem_range.1 hk)]
    rfl

theorem getline_line {l : List Char} (h : '\n' ∉ l) (s : List Char) : getline (l ++ '\n' :: s) = some (l, s) := by
  obtain ⟨a, b⟩ := takeWhile_all (p := fun c : Char => decide (c ≠ '\n')) (w := l) (t := '\n' :: s) (fun c hc => by simp; rintro rfl; exact h hc)
    (fun c hc => by simp at hc; simp [← hc])
  unfold getline
  split
  · next e => simp at e
  · rw [a, b]; rfl

theorem skipLines_ok {cs : List (List Char)} (hc : HeadLines cs) {l : List Char} (hl : '\n' ∉ l) (h0 : l ≠ []) (h1 : l.head? ≠ some '#') (s : List Char) {k : Nat}
    (hk : cs.length < k) : skipLines k (cs.flatMap (fun l => l ++ ['\n']) ++ (l ++ '\n' :: s)) = .ok (l, s) := by
  induction cs generalizing k with
  | nil =>
    obtain ⟨k, rfl⟩ : ∃ j, k = j + 1 := ⟨k - 1, by simp at hk; omega⟩
    rw [List.flatMap_nil, List.nil_append, skipLines, getline_line hl]
    simp only
    rw [if_neg (by rintro (h | h); exacts [h0 h, h1 h])]
    rfl
  | cons c cs ih =>
    obtain ⟨k, rfl⟩ : ∃ j, k = j + 1 := ⟨k - 1, by simp at hk; omega⟩
    have hcc := hc c List.mem_cons_self
    rw [List.flatMap_cons, List.append_assoc, List.append_assoc, List.cons_append, List.nil_append, skipLines, getline_line hcc.1]
    simp only
    rw [if_pos hcc.2]
    exact ih (fun l hl => hc l (List.mem_cons_of_mem _ hl)) (by simp at hk; omega)

theorem flatMap_length_le (cs : List (List Char)) : cs.length ≤ (cs.flatMap (fun c => c ++ ['\n'])).length := by
  induction cs with
  | nil => simp
  | cons c cs ih => simp only [List.flatMap_cons, List.length_append, List.length_cons, List.length_nil]; omega

theorem Describes.skip {f : Fmt V} {c : Content V} (hok : c.OK f) {cs : List (List Char)} (hc : HeadLines cs) {text body : List Char}
    (e : text = cs.flatMap (fun l => l ++ ['\n']) ++ (kindLine c.kind ++ '\n' :: body)) : skipLines (text.length + 1) text = .ok (kindLine c.kind, body) := by
  have hd : c.kind.dtype = 'D' ∨ c.kind.dtype = 'S' ∨ c.kind.dtype = 'Z' ∨ c.kind.dtype = 'C' := by
    have := hok.dtype
    split at this
    · rcases this with h | h <;> simp [h]
    · rcases this with h | h <;> simp [h]
  have hl : text.length = (cs.flatMap (fun l => l ++ ['\n'])).length + (kindLine c.kind ++ '\n' :: body).length := by rw [e, List.length_append]
  have := flatMap_length_le cs
  rw [e] at *
  refine skipLines_ok hc ?_ (by simp [kindLine]) ?_ body (by rw [List.length_append]; omega)
  · unfold kindLine
    cases c.kind.rowMajor <;> cases c.kind.cIndex <;> rcases hd with h | h | h | h <;> rw [h] <;> decide
  · unfold kindLine
    cases c.kind.rowMajor <;> simp

theorem parseKind_ok {f : Fmt V} {c : Content V} (hok : c.OK f) (reader : Bool) : parseKind reader (kindLine c.kind) = .ok c.kind := by
  have hd := hok.dtype
  generalize c.kind = k at hd ⊢
  rcases k with ⟨r, ci, d⟩
  simp only at hd
  have hd' : d = 'D' ∨ d = 'S' ∨ d = 'Z' ∨ d = 'C' := by
    split at hd
    · rcases hd with h | h <;> simp [h]
    · rcases hd with h | h <;> simp [h]
  clear hd
  rcases hd' with rfl | rfl | rfl | rfl <;> revert r ci reader <;> decide

theorem getSizes_ok {c : Content V} {f : Fmt V} (hok : c.OK f) {body wn wc wz wm : List Char} {ws : List (List Char)} (h : Words body (wn :: wc :: wz :: wm :: ws))
    (h1 : Numeral c.nrows wn) (h2 : Numeral c.ncols wc) (h3 : Numeral c.inds.length wz) (h4 : Numeral c.m wm) (j : Nat → Int) :
    ∃ t, getSizes j body = (⟨c.nrows, c.ncols, c.inds.length, c.m⟩, some t) ∧ Words t ws := by
  obtain ⟨t1, e1, w1⟩ := getInt_nat (j 0) h h1
  obtain ⟨t2, e2, w2⟩ := getInt_nat (j 1) w1 h2
  obtain ⟨t3, e3, w3⟩ := getInt_nat (j 2) w2 h3
  obtain ⟨t4, e4, w4⟩ := getInt_nat (j 3) w3 h4
  refine ⟨t4, ?_, w4⟩
  have a1 := hok.nrows
  have a2 := hok.ncols
  unfold getSizes
  simp only [e1, e2, e3, e4]
  rw [sizeT_small (by omega), sizeT_small (by omega), sizeT_small hok.nnz, sizeT_small hok.m]

/-- Reading a native ASCII file: comments and empty lines in front are skipped; the arrays are those of the file, made zero-based if the file is one-based. -/
theorem C88_read (f : Fmt V) {c : Content V} (hok : c.OK f) {text : List Char} (h : Describes f c text) (j js ji : Nat → Int) (jv : Nat → V) :
    Runs (readFile f j js ji jv text) fun o => o.kind = c.kind ∧ o.sizes = ⟨c.nrows, c.ncols, c.inds.length, c.m⟩ ∧
      o.start.toList = (if c.kind.cIndex then c.start else c.start.map (· - 1)) ∧ o.inds.toList = (if c.kind.cIndex then c.inds else c.inds.map (· - 1)) ∧ o.vals.toList = c.vals := by
  obtain ⟨cs, body, wn, wc, wz, wm, wst, win, wv, hc, e, h1, h2, h3, h4, h5, h6, h7, hw⟩ := h
  obtain ⟨t, et, ht⟩ := getSizes_ok hok hw h1 h2 h3 h4 j
  unfold readFile
  rw [Describes.skip hok hc e]
  simp only [runs_bind, runs_ok]
  rw [parseKind_ok hok]
  simp only [runs_ok]
  have hd := hok.dtype
  have g1 : ¬ ((f.real = true) ∧ (c.kind.dtype = 'Z' ∨ c.kind.dtype = 'C')) := by
    rintro ⟨a, b⟩
    rw [if_pos a] at hd
    rcases hd with hd | hd <;> rw [hd] at b <;> revert b <;> decide
  have g2 : ¬ (¬ (f.real = true) ∧ (c.kind.dtype = 'D' ∨ c.kind.dtype = 'S')) := by
    rintro ⟨a, b⟩
    rw [if_neg a] at hd
    rcases hd with hd | hd <;> rw [hd] at b <;> revert b <;> decide
  rw [if_neg g1, if_neg g2, et]
  simp only [runs_bind]
  have hn : ((if c.kind.rowMajor = true then c.nrows else c.ncols) + 1) % 2 ^ 64 = c.start.length := by
    rw [hok.start]
    have := hok.nrows
    have := hok.ncols
    split <;> omega
  refine (fill_ok (fun old => getInt_ok old) h5 ht hn js).mono ?_
  rintro ⟨b1, o1⟩ ⟨r1, t1, r2, r3⟩
  simp only at r1 r2 ⊢
  subst r2
  refine (fill_ok (fun old => getInt_ok old) h6 r3 rfl ji).mono ?_
  rintro ⟨b2, o2⟩ ⟨s1, t2, s2, s3⟩
  simp only at s1 s2 ⊢
  subst s2
  rw [← List.append_nil wv] at s3
  refine (fill_ok (fun old => getVal_ok old) h7 s3 hok.vals.symm jv).mono ?_
  rintro ⟨b3, o3⟩ ⟨v1, t3, v2, v3⟩
  simp only at v1 v2 ⊢
  by_cases hci : c.kind.cIndex = true
  · rw [if_pos hci, runs_pure]
    simp only [if_pos hci]
    exact ⟨trivial, trivial, r1, s1, v1⟩
  · rw [if_neg hci]
    simp only [runs_bind, if_neg hci]
    refine (decr_runs b1).mono fun d1 q1 => ?_
    refine (decr_runs b2).mono fun d2 q2 => ?_
    rw [runs_pure]
    exact ⟨rfl, rfl, by rw [q1, r1], by rw [q2, s1], v1⟩

/-- The query reports what the file says. -/
theorem C88_query (f : Fmt V) {c : Content V} (hok : c.OK f) {text : List Char} (h : Describes f c text) (j : Nat → Int) :
    queryFile j text = .ok (c.kind, ⟨c.nrows, c.ncols, c.inds.length, c.m⟩) := by
  obtain ⟨cs, body, wn, wc, wz, wm, wst, win, wv, hc, e, h1, h2, h3, h4, h5, h6, h7, hw⟩ := h
  obtain ⟨t, et, ht⟩ := getSizes_ok hok hw h1 h2 h3 h4 j
  unfold queryFile
  rw [Describes.skip hok hc e]
  show (do let k ← parseKind false (kindLine c.kind); pure (k, (getSizes j body).1) : M (FKind × Hif.Ascii.Sizes)) = _
  rw [parseKind_ok hok, et]
  rfl

/-! ### writing -/

theorem showInt_numeral (z : Int) : IntNumeral z (showInt z) := by
  unfold showInt
  split
  · next h => exact Or.inr ⟨z.natAbs, showNat z.natAbs, by omega, rfl, showNat_numeral _⟩
  · next h => exact Or.inl ⟨z.natAbs, by omega, showNat_numeral _⟩

theorem lines_words {α : Type} (sh : α → List Char) (hw : ∀ x, Word (sh x)) (xs : List α) {s : List Char} {ws : List (List Char)} (h : Words s ws) :
    Words (xs.flatMap (fun x => itemLine (sh x)) ++ s) (xs.map sh ++ ws) := by
  induction xs with
  | nil => simpa using h
  | cons x xs ih =>
    rw [List.flatMap_cons, List.map_cons, List.cons_append, List.append_assoc]
    unfold itemLine
    rw [List.append_assoc]
    exact words_word (hw x) (ends_cons blank_nl) (words_blank blank_nl ih)

theorem forall₂_show {α : Type} {R : α → List Char → Prop} {sh : α → List Char} (h : ∀ x, R x (sh x)) (xs : List α) : List.Forall₂ R xs (xs.map sh) := by
  induction xs with
  | nil => exact .nil
  | cons x xs ih => exact .cons (h x) ih

/-- Consistent arrays are written, and the file says what they contain. -/
theorem C88_write (f : Fmt V) (hp : PrintOK f) (rowMajor : Bool) (start : Buf Int) (other : Nat) (inds : Buf Int) (vals : Buf V) (m : Nat) (h0 : start.size ≠ 0)
    (h1 : vals.size = inds.size) (h2 : start.get (start.size - 1) - start.get 0 = inds.size) (h3 : inds.size < 2 ^ 64) :
    Runs (write f rowMajor start other inds vals m) fun text =>
      Describes f ⟨⟨rowMajor, true, f.dtype⟩, if rowMajor then start.size - 1 else other, if rowMajor then other else start.size - 1, m, start.toList, inds.toList, vals.toList⟩ text := by
  have hli : inds.toList.length = inds.size := by simp [Buf.toList]
  unfold write
  rw [if_neg h0, if_neg (not_not.2 h1), if_neg (not_not.2 (by rw [h2, sizeT_small h3])), runs_pure]
  refine ⟨[], showNat (if rowMajor then start.size - 1 else other) ++ ' ' :: (showNat (if rowMajor then other else start.size - 1) ++ ' ' :: (showNat inds.size ++ ' ' :: (showNat m ++ '\n' ::
        (start.toList.flatMap (fun v => itemLine (showInt v)) ++ (inds.toList.flatMap (fun v => itemLine (showInt v)) ++
          vals.toList.flatMap fun v => itemLine (f.print f.prec v)))))), showNat (if rowMajor then start.size - 1 else other), showNat (if rowMajor then other else start.size - 1), showNat inds.size, showNat m, start.toList.map showInt,
    inds.toList.map showInt, vals.toList.map (f.print f.prec), (fun l hl => by cases hl), ?_, showNat_numeral _, showNat_numeral _, by rw [hli]; exact showNat_numeral _, showNat_numeral _,
    forall₂_show showInt_numeral _, forall₂_show showInt_numeral _, forall₂_show hp _, ?_⟩
  · rfl
  · refine words_word (numeral_word (showNat_numeral _)) (ends_cons blank_space) (words_blank blank_space ?_)
    refine words_word (numeral_word (showNat_numeral _)) (ends_cons blank_space) (words_blank blank_space ?_)
    refine words_word (numeral_word (showNat_numeral _)) (ends_cons blank_space) (words_blank blank_space ?_)
    refine words_word (numeral_word (showNat_numeral _)) (ends_cons blank_nl) (words_blank blank_nl ?_)
    refine lines_words showInt (fun z => intNumeral_word (showInt_numeral z)) _ ?_
    refine lines_words showInt (fun z => intNumeral_word (showInt_numeral z)) _ ?_
    have := lines_words (f.print f.prec) (fun v => (hp v).1) vals.toList (.nil [] (by intro c hc; cases hc))
    rwa [List.append_nil, List.append_nil] at this

/-- Inconsistent arrays are refused. -/
theorem C88_write_refused (f : Fmt V) (rowMajor : Bool) (start : Buf Int) (other : Nat) (inds : Buf Int) (vals : Buf V) (m : Nat)
    (h : start.size = 0 ∨ vals.size ≠ inds.size ∨ (0 ≤ start.get (start.size - 1) - start.get 0 ∧ start.get (start.size - 1) - start.get 0 < 2 ^ 64 ∧
      start.get (start.size - 1) - start.get 0 ≠ inds.size)) : ∃ msg, write f rowMajor start other inds vals m = .error (.hif msg) := by
  unfold write
  by_cases h0 : start.size = 0
  · rw [if_pos h0]; exact ⟨_, rfl⟩
  by_cases h1 : vals.size ≠ inds.size
  · rw [if_neg h0, if_pos h1]; exact ⟨_, rfl⟩
  rcases h with h | h | ⟨a, b, h⟩
  · exact absurd h h0
  · exact absurd h h1
  · rw [if_neg h0, if_neg h1, if_pos]
    · exact ⟨_, rfl⟩
    · unfold Lhf.sizeT
      omega

theorem dtype_ok (f : Fmt V) : if f.real then f.dtype = 'D' ∨ f.dtype = 'S' else f.dtype = 'Z' ∨ f.dtype = 'C' := by
  unfold Fmt.dtype
  by_cases h : f.real = true
  · rw [if_pos h, if_pos h]; split <;> simp
  · rw [if_neg h, if_neg h]; split <;> simp

/-- Whatever was written is read back: the same arrays, storage order and sizes; and the query reports the same. -/
theorem C88_roundtrip (f : Fmt V) (hp : PrintOK f) (rowMajor : Bool) (start : Buf Int) (other : Nat) (inds : Buf Int) (vals : Buf V) (m : Nat) (h0 : start.size ≠ 0)
    (h1 : vals.size = inds.size) (h2 : start.get (start.size - 1) - start.get 0 = inds.size) (h3 : inds.size < 2 ^ 64) (h4 : start.size < 2 ^ 64) (h5 : other < 2 ^ 64 - 1)
    (h6 : m < 2 ^ 64) (j js ji : Nat → Int) (jv : Nat → V) :
    ∃ text, write f rowMajor start other inds vals m = .ok text ∧
      (Runs (readFile f j js ji jv text) fun o => o.kind = ⟨rowMajor, true, f.dtype⟩ ∧
        o.sizes = ⟨if rowMajor then start.size - 1 else other, if rowMajor then other else start.size - 1, inds.size, m⟩ ∧
        o.start.toList = start.toList ∧ o.inds.toList = inds.toList ∧ o.vals.toList = vals.toList) ∧
      queryFile j text = .ok (⟨rowMajor, true, f.dtype⟩, ⟨if rowMajor then start.size - 1 else other, if rowMajor then other else start.size - 1, inds.size, m⟩) := by
  obtain ⟨text, e, hd⟩ := C88_write f hp rowMajor start other inds vals m h0 h1 h2 h3
  have hl : ∀ {α : Type} (b : Buf α), b.toList.length = b.size := fun b => by simp [Buf.toList]
  have hok : Content.OK f ⟨⟨rowMajor, true, f.dtype⟩, if rowMajor then start.size - 1 else other, if rowMajor then other else start.size - 1, m, start.toList, inds.toList, vals.toList⟩ := by
    refine ⟨dtype_ok f, ?_, ?_, ?_, ?_, ?_, h6⟩
    · show start.toList.length = (if rowMajor then (if rowMajor then start.size - 1 else other) else (if rowMajor then other else start.size - 1)) + 1
      rw [hl]
      cases rowMajor <;> simp <;> omega
    · show vals.toList.length = inds.toList.length
      rw [hl, hl, h1]
    · show (if rowMajor then start.size - 1 else other) < 2 ^ 64 - 1
      split <;> omega
    · show (if rowMajor then other else start.size - 1) < 2 ^ 64 - 1
      split <;> omega
    · show inds.toList.length < 2 ^ 64
      rw [hl]; exact h3
  have hq := C88_query f hok hd j
  have hr := C88_read f hok hd j js ji jv
  simp only [hl] at hq hr
  exact ⟨text, e, hr, hq⟩

/-! ### arbitrary text -/

theorem fill_any {α : Type} (get : α → Option (List Char) → α × Option (List Char)) (n : Nat) (g : Nat → α) (s : Option (List Char)) :
    Runs (forUp 0 n ((⟨n, g⟩ : Buf α), s) fun i st => do
      let x ← st.1.rd i
      let b ← st.1.wr i (get x st.2).1
      pure (b, (get x st.2).2)) fun r => r.1.size = n := by
  refine forUp_runs' (fun i st => st.1.size = n) (Nat.zero_le _) rfl ?_ (fun s h => h)
  rintro i ⟨b, o⟩ - hi h1
  simp only at h1
  simp only [runs_bind, runs_rd, runs_wr, runs_pure, Buf.set_size]
  exact ⟨by omega, by omega, h1⟩

theorem skipLines_cases (n : Nat) (s : List Char) : (∃ p, skipLines n s = .ok p) ∨ skipLines n s = .error (.ub "endless loop") := by
  induction n generalizing s with
  | zero => exact Or.inr rfl
  | succ n ih =>
    rw [skipLines]
    cases h : getline s with
    | none => exact Or.inr rfl
    | some p =>
      obtain ⟨l, r⟩ := p
      simp only
      split
      · exact ih r
      · exact Or.inl ⟨_, rfl⟩

theorem parseKind_cases (b : Bool) (l : List Char) : (∃ k, parseKind b l = .ok k) ∨ ∃ msg, parseKind b l = .error (.hif msg) := by
  unfold parseKind
  split
  · split
    · exact Or.inr ⟨_, rfl⟩
    split
    · exact Or.inr ⟨_, rfl⟩
    split
    · exact Or.inr ⟨_, rfl⟩
    · exact Or.inl ⟨_, rfl⟩
  · exact Or.inr ⟨_, rfl⟩

theorem parseKind_mono {l : List Char} {k : FKind} (h : parseKind true l = .ok k) : parseKind false l = .ok k := by
  unfold parseKind at h ⊢
  split
  · next a b c =>
    simp only at h
    split at h
    · cases h
    · next h1 =>
      split at h
      · cases h
      · split at h
        · cases h
        · next h3 =>
          rw [if_neg h1, if_neg (by simp), if_neg h3]
          exact h
  · next hh =>
    split at h
    · next a b c => exact absurd rfl (hh a b c)
    · cases h

/-- What the reader does, whatever the text: it never leaves an array; it delivers arrays of the sizes it reports, throws an error of the library, or loops forever looking for the
information line. -/
theorem C88_any_text (f : Fmt V) (j js ji : Nat → Int) (jv : Nat → V) (text : List Char) :
    (Runs (readFile f j js ji jv text) fun o => o.start.size = ((if o.kind.rowMajor then o.sizes.nrows else o.sizes.ncols) + 1) % 2 ^ 64 ∧ o.inds.size = o.sizes.nnz ∧ o.vals.size = o.sizes.nnz ∧
      queryFile j text = .ok (o.kind, o.sizes)) ∨
    (∃ msg, readFile f j js ji jv text = .error (.hif msg)) ∨ readFile f j js ji jv text = .error (.ub "endless loop") := by
  unfold readFile queryFile
  rcases skipLines_cases (text.length + 1) text with ⟨⟨l, s⟩, e⟩ | e
  · rw [e]
    rcases parseKind_cases true l with ⟨k, ek⟩ | ⟨msg, ek⟩
    · have ek' := parseKind_mono ek
      simp only [runs_bind, runs_ok]
      rw [ek]
      simp only [runs_ok]
      by_cases g1 : (f.real = true) ∧ (k.dtype = 'Z' ∨ k.dtype = 'C')
      · refine Or.inr (Or.inl ⟨"cannot load complex data to real array", ?_⟩)
        show (do let k ← parseKind true l; _ : M (Hif.Ascii.Out V)) = _
        rw [ek]
        show (if _ then _ else _) = _
        rw [if_pos g1]; rfl
      by_cases g2 : ¬ (f.real = true) ∧ (k.dtype = 'D' ∨ k.dtype = 'S')
      · refine Or.inr (Or.inl ⟨"cannot load real data to complex array", ?_⟩)
        show (do let k ← parseKind true l; _ : M (Hif.Ascii.Out V)) = _
        rw [ek]
        show (if _ then _ else _) = _
        rw [if_neg g1, if_pos g2]; rfl
      left
      rw [if_neg g1, if_neg g2]
      simp only [runs_bind]
      refine (fill_any getInt _ js _).mono ?_
      rintro ⟨b1, o1⟩ q1
      refine (fill_any getInt _ ji _).mono ?_
      rintro ⟨b2, o2⟩ q2
      refine (fill_any (getVal f) _ jv _).mono ?_
      rintro ⟨b3, o3⟩ q3
      simp only at q1 q2 q3
      have hq : (do let (l, s) ← (Except.ok (l, s) : M (List Char × List Char)); let k ← parseKind false l; pure (k, (getSizes j s).1) : M (FKind × Hif.Ascii.Sizes)) = .ok (k, (getSizes j s).1) := by
        show (do let k ← parseKind false l; pure (k, (getSizes j s).1) : M (FKind × Hif.Ascii.Sizes)) = _
        rw [ek']; rfl
      by_cases hci : k.cIndex = true
      · rw [if_pos hci, runs_pure]
        exact ⟨q1, q2, q3, hq⟩
      · rw [if_neg hci]
        simp only [runs_bind]
        have hsz : ∀ b : Buf Int, Runs (decr b) fun r => r.size = b.size := fun b => (decr_runs b).mono fun r hr => by
          have := congrArg List.length hr
          simpa [Buf.toList] using this
        refine (hsz b1).mono fun d1 z1 => ?_
        refine (hsz b2).mono fun d2 z2 => ?_
        rw [runs_pure]
        exact ⟨z1.trans q1, z2.trans q2, q3, hq⟩
    · refine Or.inr (Or.inl ⟨msg, ?_⟩)
      show (do let k ← parseKind true l; _ : M (Hif.Ascii.Out V)) = _
      rw [ek]; rfl
  · rw [e]
    exact Or.inr (Or.inr rfl)

theorem skipLines_only {cs : List (List Char)} (hc : HeadLines cs) (k : Nat) : skipLines k (cs.flatMap fun l => l ++ ['\n']) = .error (.ub "endless loop") := by
  induction cs generalizing k with
  | nil => cases k <;> rfl
  | cons c cs ih =>
    cases k with
    | zero => rfl
    | succ k =>
      have hcc := hc c List.mem_cons_self
      rw [List.flatMap_cons, List.append_assoc, List.cons_append, List.nil_append, skipLines, getline_line hcc.1]
      simp only
      rw [if_pos hcc.2]
      exact ih (fun l hl => hc l (List.mem_cons_of_mem _ hl)) k

/-- A file with nothing but empty lines and comments (also an empty file) is never refused: query and reader do not terminate. -/
theorem C88_endless (f : Fmt V) {cs : List (List Char)} (hc : HeadLines cs) (j js ji : Nat → Int) (jv : Nat → V) :
    queryFile j (cs.flatMap fun l => l ++ ['\n']) = .error (.ub "endless loop") ∧ readFile f j js ji jv (cs.flatMap fun l => l ++ ['\n']) = .error (.ub "endless loop") := by
  unfold queryFile readFile
  rw [skipLines_only hc]
  exact ⟨rfl, rfl⟩

/-! ### a concrete format -/

/-- Integers as values: printed as such. -/
def intFmt : Fmt Int := ⟨true, 8, fun _ => showInt, fun s => match MM.scanInt s with
  | (some z, t) => some (z, t)
  | (none, _) => none, fun _ => 0⟩

theorem intFmt_printOK : PrintOK intFmt := by
  intro v
  refine ⟨intNumeral_word (showInt_numeral v), fun s hs => ?_⟩
  have hw := intNumeral_word (showInt_numeral v)
  obtain ⟨t, e, ht⟩ := getInt_ok 0 (words_word hw hs (words_split (s.length + 1) s (by omega))) (showInt_numeral v)
  obtain ⟨t', e', hw', he', ht'⟩ := words_cons_inv (words_word hw hs (words_split (s.length + 1) s (by omega)))
  have hh : (showInt v ++ s).dropWhile isSpace = showInt v ++ s := by
    have : ∀ c, (showInt v).head? = some c → isSpace c = false := fun c hc => isSpace_false (hw.2 c (List.mem_of_mem_head? hc))
    cases hv : showInt v with
    | nil => exact absurd hv hw.1
    | cons c r =>
      rw [hv] at this
      rw [List.cons_append, List.dropWhile_cons_of_neg]
      rw [this c rfl]; simp
  rw [hh] at e'
  have hst : s = t' := List.append_cancel_left e'
  subst hst
  show (match MM.scanInt (showInt v ++ s) with
  | (some z, t) => some (z, t)
  | (none, _) => none) = _
  have hsc : MM.scanInt (showInt v ++ s) = (some v, s) := by
    rcases showInt_numeral v with ⟨n, hn, hnum⟩ | ⟨n, w', hn, hwe, hnum⟩
    · obtain ⟨a, b⟩ := takeWhile_all (p := Char.isDigit) (w := showInt v) (t := s) hnum.2.1 (fun c hc => blank_not_digit (he' c hc))
      unfold MM.scanInt
      simp only
      rw [hh, scanSign_digit hnum.1 hnum.2.1]
      simp only
      rw [a, b, if_neg hnum.1, hnum.2.2, hn]
      simp
    · obtain ⟨a, b⟩ := takeWhile_all (p := Char.isDigit) (w := w') (t := s) hnum.2.1 (fun c hc => blank_not_digit (he' c hc))
      unfold MM.scanInt
      simp only
      rw [hh, hwe]
      show (if List.takeWhile Char.isDigit (w' ++ s) = [] then (none, w' ++ s) else (some (-(Nat.ofDigitChars 10 (List.takeWhile Char.isDigit (w' ++ s)) 0 : Int)), List.dropWhile Char.isDigit (w' ++ s))) = _
      rw [a, b, if_neg hnum.1, hnum.2.2, hn]
  rw [hsc]

/-- Non-vacuity of `C88_roundtrip`: a 2×3 matrix with two entries. -/
example (j js ji jv : Nat → Int) := C88_roundtrip intFmt intFmt_printOK true (.ofList [0, 1, 2]) 3 (.ofList [2, 0]) (.ofList [-7, 5]) 0 (by decide) rfl rfl (by decide) (by decide) (by decide)
  (by decide) j js ji jv

/-- Non-vacuity of `C88_read`: comments, an empty line, one-based indices. -/
example : Describes intFmt ⟨⟨false, false, 'S'⟩, 4, 1, 0, [1, 2], [4], [9]⟩ "# a\n\nCFS\n4 1\t1 0\n1 2 4 9".toList := by
  refine ⟨["# a".toList, []], "4 1\t1 0\n1 2 4 9".toList, ['4'], ['1'], ['1'], ['0'], [['1'], ['2']], [['4']], [['9']], ?_, by decide, by unfold Numeral; decide, by unfold Numeral; decide,
    by unfold Numeral; decide, by unfold Numeral; decide, ?_, ?_, ?_, ?_⟩
  · intro l hl
    rcases List.mem_cons.1 hl with rfl | hl
    · decide
    · rcases List.mem_cons.1 hl with rfl | hl
      · decide
      · cases hl
  · exact .cons (Or.inl ⟨1, rfl, by unfold Numeral; decide⟩) (.cons (Or.inl ⟨2, rfl, by unfold Numeral; decide⟩) .nil)
  · exact .cons (Or.inl ⟨4, rfl, by unfold Numeral; decide⟩) .nil
  · refine .cons ?_ .nil
    have := intFmt_printOK 9
    exact this
  · have := words_split 100 "4 1\t1 0\n1 2 4 9".toList (by decide)
    have e : splitWords 100 "4 1\t1 0\n1 2 4 9".toList = [['4'], ['1'], ['1'], ['0'], ['1'], ['2'], ['4'], ['9']] := by decide
    rw [e] at this
    exact this

/-- A file that ends too early is accepted: the rest of the arrays is what the memory contained. -/
theorem C88_truncated_witness : Runs (readFile intFmt (fun _ => 77) (fun _ => 77) (fun _ => 77) (fun _ => 77) "RCD\n1 1 1 0\n0 1".toList) fun o =>
    o.start.toList = [0, 1] ∧ o.inds.toList = [77] ∧ o.vals.toList = [77] := ⟨_, rfl, by decide⟩

/-- Also the sizes may be missing: they are uninitialized then. -/
theorem C88_sizes_witness : queryFile (fun _ => 77) "RCD\n".toList = .ok (⟨true, true, 'D'⟩, ⟨77, 77, 77, 77⟩) := by rfl

/-- The query accepts a letter for the index base that the reader refuses. -/
theorem C88_query_witness : (∃ r, queryFile (fun _ => 0) "RXD\n1 1 0 0\n".toList = .ok r) ∧
    readFile intFmt (fun _ => 0) (fun _ => 0) (fun _ => 0) (fun _ => 0) "RXD\n1 1 0 0\n".toList =
      .error (.hif "the second char should be either C or F (c index or fortran index)") := ⟨⟨_, rfl⟩, rfl⟩

end Hif.Props
