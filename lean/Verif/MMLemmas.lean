import Verif.MMSpec

set_option linter.unusedVariables false
set_option linter.unusedSectionVars false

/-!
# Lemmas on the MatrixMarket reader
-/

namespace Hif.MM
open Hif.Spec.MM

theorem isSpace_iff (c : Char) : isSpace c = true ↔ Blank c := by
  unfold isSpace Blank
  simp [or_assoc]

theorem isSpace_false {c : Char} (h : ¬ Blank c) : isSpace c = false := by
  rw [← isSpace_iff] at h
  simpa using h

theorem dropWhile_all {p : Char → Bool} {b : List Char} (h : ∀ c ∈ b, p c = true) (t : List Char) : (b ++ t).dropWhile p = t.dropWhile p := by
  induction b with
  | nil => rfl
  | cons c b ih =>
    rw [List.cons_append, List.dropWhile_cons_of_pos (h c List.mem_cons_self)]
    exact ih fun d hd => h d (List.mem_cons_of_mem _ hd)

theorem takeWhile_all {p : Char → Bool} {w : List Char} (h : ∀ c ∈ w, p c = true) {t : List Char} (ht : ∀ c, t.head? = some c → p c = false) :
    (w ++ t).takeWhile p = w ∧ (w ++ t).dropWhile p = t := by
  induction w with
  | nil =>
    cases t with
    | nil => exact ⟨rfl, rfl⟩
    | cons c t =>
      have := ht c rfl
      simp [this]
  | cons c w ih =>
    have h1 := h c List.mem_cons_self
    obtain ⟨a, b⟩ := ih fun d hd => h d (List.mem_cons_of_mem _ hd)
    rw [List.cons_append, List.takeWhile_cons_of_pos h1, List.dropWhile_cons_of_pos h1, a, b]
    exact ⟨rfl, rfl⟩

/-- The first word of a text. -/
theorem words_cons_inv {s w : List Char} {ws : List (List Char)} (h : Words s (w :: ws)) :
    ∃ t, s.dropWhile isSpace = w ++ t ∧ Word w ∧ Ends t ∧ Words t ws := by
  cases h with
  | cons b _ t _ h1 h2 h3 h4 =>
    refine ⟨t, ?_, h2, h3, h4⟩
    rw [dropWhile_all fun c hc => (isSpace_iff c).mpr (h1 c hc)]
    obtain ⟨c, w', e⟩ : ∃ c w', w = c :: w' := by
      cases w with
      | nil => exact absurd rfl h2.1
      | cons c w' => exact ⟨c, w', rfl⟩
    subst e
    rw [List.cons_append, List.dropWhile_cons_of_neg]
    rw [isSpace_false (h2.2 c List.mem_cons_self)]
    decide

theorem words_nil_inv {s : List Char} (h : Words s []) : s.dropWhile isSpace = [] := by
  cases h with
  | nil _ h1 =>
    have := dropWhile_all (t := []) fun c hc => (isSpace_iff c).mpr (h1 c hc)
    rw [List.append_nil] at this
    rw [this]; rfl

theorem ends_nil : Ends [] := by intro c h; cases h

theorem ends_cons {c : Char} {s : List Char} (h : Blank c) : Ends (c :: s) := by
  intro d hd
  cases hd
  exact h

theorem ends_append {s t : List Char} (h : Ends s) (ht : Ends t) : Ends (s ++ t) := by
  cases s with
  | nil => exact ht
  | cons c s => exact ends_cons (h c rfl)

theorem words_append {s : List Char} {ws : List (List Char)} (h : Words s ws) {t : List Char} {vs : List (List Char)} (ht : Words t vs) (he : Ends t) :
    Words (s ++ t) (ws ++ vs) := by
  induction h with
  | nil s h =>
    rw [List.nil_append]
    cases ht with
    | nil _ h2 => exact .nil _ fun c hc => (List.mem_append.mp hc).elim (h c) (h2 c)
    | cons b w t' ws h1 h2 h3 h4 =>
      rw [← List.append_assoc]
      exact .cons _ _ _ _ (fun c hc => (List.mem_append.mp hc).elim (h c) (h1 c)) h2 h3 h4
  | cons b w s ws h1 h2 h3 h4 ih =>
    have : (b ++ (w ++ s)) ++ t = b ++ (w ++ (s ++ t)) := by simp
    rw [this]
    exact .cons _ _ _ _ h1 h2 (ends_append h3 he) ih

theorem words_newline {s : List Char} {ws : List (List Char)} (h : Words s ws) : Words (s ++ ['\n']) ws := by
  have hb : Blank '\n' := by unfold Blank; decide
  have := words_append h (t := ['\n']) (vs := []) (.nil _ (by intro c hc; simp at hc; subst hc; exact hb)) (ends_cons hb)
  rwa [List.append_nil] at this

theorem scanWord_ok {s w : List Char} {ws : List (List Char)} (h : Words s (w :: ws)) (hl : w.length < 65) :
    ∃ t, scanWord s = .ok (some (w, t)) ∧ Words t ws := by
  obtain ⟨t, e, hw, he, ht⟩ := words_cons_inv h
  obtain ⟨a, b⟩ := takeWhile_all (p := fun c => !isSpace c) (w := w) (t := t) (fun c hc => by rw [isSpace_false (hw.2 c hc)]; rfl)
    (fun c hc => by rw [(isSpace_iff c).mpr (he c hc)]; rfl)
  refine ⟨t, ?_, ht⟩
  unfold scanWord
  rw [e, a, b, if_neg hw.1, if_pos hl]
  rfl

theorem scanWords_ok {ws : List (List Char)} {s : List Char} (h : Words s ws) (hl : ∀ w ∈ ws, w.length < 65) : scanWords ws.length s = .ok ws := by
  induction ws generalizing s with
  | nil => rfl
  | cons w ws ih =>
    obtain ⟨t, e, ht⟩ := scanWord_ok h (hl w List.mem_cons_self)
    show (do
      let w ← scanWord s
      match w with
      | none => pure []
      | some p => do
        let ws ← scanWords ws.length p.2
        pure (p.1 :: ws)) = _
    rw [e]
    show (do
      let ws ← scanWords ws.length t
      pure (w :: ws)) = _
    rw [ih ht fun v hv => hl v (List.mem_cons_of_mem _ hv)]
    rfl

theorem digit_not_blank {c : Char} (h : c.isDigit = true) : ¬ Blank c := by
  unfold Blank
  intro hb
  simp only [List.mem_cons, List.not_mem_nil, or_false] at hb
  rcases hb with rfl | rfl | rfl | rfl | rfl | rfl <;> revert h <;> decide

theorem blank_not_digit {c : Char} (h : Blank c) : c.isDigit = false := by
  by_contra hc
  exact digit_not_blank (by simpa using hc) h

theorem numeral_word {n : Nat} {w : List Char} (h : Numeral n w) : Word w := ⟨h.1, fun c hc => digit_not_blank (h.2.1 c hc)⟩

theorem scanSign_digit {w t : List Char} (hw : w ≠ []) (hd : ∀ c ∈ w, c.isDigit = true) : scanSign (w ++ t) = (false, w ++ t) := by
  cases w with
  | nil => exact absurd rfl hw
  | cons c w =>
    have := hd c List.mem_cons_self
    show (if c = '-' then _ else if c = '+' then _ else _) = _
    rw [if_neg, if_neg]
    · rfl
    · rintro rfl; revert this; decide
    · rintro rfl; revert this; decide

theorem scanInt_ok {s w : List Char} {ws : List (List Char)} {n : Nat} (h : Words s (w :: ws)) (hn : Numeral n w) :
    ∃ t, scanInt s = (some (n : Int), t) ∧ Words t ws := by
  obtain ⟨t, e, hw, he, ht⟩ := words_cons_inv h
  obtain ⟨a, b⟩ := takeWhile_all (p := Char.isDigit) (w := w) (t := t) hn.2.1 (fun c hc => blank_not_digit (he c hc))
  refine ⟨t, ?_, ht⟩
  unfold scanInt
  simp only
  rw [e, scanSign_digit hn.1 hn.2.1]
  simp only
  rw [a, b, if_neg hn.1, hn.2.2]
  simp

theorem scanInts_ok {ns : List Nat} {ws : List (List Char)} {vs : List (List Char)} (hn : List.Forall₂ Numeral ns ws) {s : List Char} (h : Words s (ws ++ vs)) :
    ∃ t, scanInts ns.length s = (ns.map Int.ofNat, t) ∧ Words t vs := by
  induction hn generalizing s with
  | nil => exact ⟨s, rfl, h⟩
  | @cons n w ns ws h1 h2 ih =>
    obtain ⟨t, e, ht⟩ := scanInt_ok h h1
    obtain ⟨t', e', ht'⟩ := ih ht
    refine ⟨t', ?_, ht'⟩
    show (match scanInt s with
      | (none, t) => ([], t)
      | (some z, t) => (z :: (scanInts ns.length t).1, (scanInts ns.length t).2)) = _
    rw [e]
    show ((n : Int) :: (scanInts ns.length t).1, (scanInts ns.length t).2) = _
    rw [e']
    rfl

theorem scanInts_blank {s : List Char} (h : ∀ c ∈ s, Blank c) (k : Nat) : (scanInts (k + 1) s).1 = [] := by
  have e := words_nil_inv (.nil s h)
  have : scanInt s = (none, []) := by
    unfold scanInt
    rw [e]
    rfl
  show (match scanInt s with
      | (none, t) => ([], t)
      | (some z, t) => (z :: (scanInts k t).1, (scanInts k t).2)).1 = _
  rw [this]

theorem getsUpto_line {l s : List Char} (h : '\n' ∉ l) {k : Nat} (hk : l.length < k) : getsUpto k (l ++ '\n' :: s) = (l ++ ['\n'], s) := by
  induction l generalizing k with
  | nil =>
    obtain ⟨k, rfl⟩ : ∃ j, k = j + 1 := ⟨k - 1, by simp at hk; omega⟩
    rfl
  | cons c l ih =>
    obtain ⟨k, rfl⟩ : ∃ j, k = j + 1 := ⟨k - 1, by simp at hk; omega⟩
    show (if c = '\n' then ([c], l ++ '\n' :: s) else (c :: (getsUpto k (l ++ '\n' :: s)).1, (getsUpto k (l ++ '\n' :: s)).2)) = _
    rw [if_neg (by rintro rfl; exact h List.mem_cons_self), ih (fun hc => h (List.mem_cons_of_mem _ hc)) (by simp at hk; omega)]
    rfl

theorem fgets_line {l : List Char} (h : Line l) (s : List Char) : fgets (l ++ '\n' :: s) = some (l ++ ['\n'], s) := by
  have := getsUpto_line (s := s) h.1 (k := 1024) (by have := h.2; omega)
  cases l with
  | nil => exact congrArg some this
  | cons c l => exact congrArg some this

theorem head?_newline {l : List Char} (c : Char) (h : c ≠ '\n') : (l ++ ['\n']).head? = some c ↔ l.head? = some c := by
  cases l with
  | nil => simp [h.symm]
  | cons d l => simp

theorem skipComments_ok {cs : List (List Char)} (hc : Comments cs) {l : List Char} (hl : Line l) (h0 : l.head? ≠ some '%') (s : List Char) {k : Nat}
    (hk : cs.length < k) : skipComments k (cs.flatMap (fun c => c ++ ['\n']) ++ (l ++ '\n' :: s)) = .ok (l ++ ['\n'], s) := by
  induction cs generalizing k with
  | nil =>
    obtain ⟨k, rfl⟩ : ∃ j, k = j + 1 := ⟨k - 1, by simp at hk; omega⟩
    unfold skipComments
    rw [List.flatMap_nil, List.nil_append, fgets_line hl]
    simp only
    rw [if_neg (by rw [head?_newline _ (by decide)]; exact h0)]
    rfl
  | cons c cs ih =>
    obtain ⟨k, rfl⟩ : ∃ j, k = j + 1 := ⟨k - 1, by simp at hk; omega⟩
    have h1 := hc c List.mem_cons_self
    have e : ((c :: cs).flatMap (fun c => c ++ ['\n']) ++ (l ++ '\n' :: s)) = c ++ '\n' :: (cs.flatMap (fun c => c ++ ['\n']) ++ (l ++ '\n' :: s)) := by simp
    unfold skipComments
    rw [e, fgets_line h1.1]
    simp only
    rw [if_pos (by rw [head?_newline _ (by decide)]; exact h1.2)]
    exact ih (fun d hd => hc d (List.mem_cons_of_mem _ hd)) (by simp at hk; omega)

theorem flatMap_length (cs : List (List Char)) : cs.length ≤ (cs.flatMap (fun c => c ++ ['\n'])).length := by
  induction cs with
  | nil => simp
  | cons c cs ih => simp; omega

theorem forall₂_length {α β : Type} {R : α → β → Prop} {l : List α} {m : List β} (h : List.Forall₂ R l m) : l.length = m.length := h.length_eq

/-- The first line and the dimensions of a file. -/
theorem layout_readSize {text head : List Char} {sz ds : List (List Char)} (h : Layout text head sz ds) (hh : Line head) {ns : List Nat}
    (hn : List.Forall₂ Numeral ns sz) (h0 : ns ≠ []) :
    ∃ s t, fgets text = some (head ++ ['\n'], s) ∧ readSize ns.length s = .ok (ns.map Int.ofNat, t) ∧ Words t ds := by
  obtain ⟨n, ns', rfl⟩ : ∃ n ns', ns = n :: ns' := by
    cases ns with
    | nil => exact absurd rfl h0
    | cons n ns' => exact ⟨n, ns', rfl⟩
  cases h with
  | direct _ size data cs _ _ h1 h2 h3 h4 =>
    have hsz : size.head? ≠ some '%' := by
      intro hp
      cases hn with
      | @cons _ w _ _ a b =>
        obtain ⟨t, e, _⟩ := words_cons_inv h3
        cases size with
        | nil => cases hp
        | cons c size =>
          cases hp
          rw [List.dropWhile_cons_of_neg (by decide)] at e
          cases w with
          | nil => exact absurd rfl a.1
          | cons d w' =>
            cases e
            exact absurd (a.2.1 '%' List.mem_cons_self) (by decide)
    refine ⟨_, data, fgets_line hh _, ?_, h4⟩
    unfold readSize
    rw [skipComments_ok h1 h2 hsz data (by have := flatMap_length cs; simp; omega)]
    show (if (scanInts _ (size ++ ['\n'])).1.length = _ then _ else _) = _
    have hw := words_newline h3
    rw [← List.append_nil sz] at hw
    obtain ⟨t, e, _⟩ := scanInts_ok hn hw
    rw [e, if_pos (by rw [List.length_map])]
    rfl
  | blankLine _ blank data cs _ _ h1 h2 h3 h4 =>
    have hsz : blank.head? ≠ some '%' := by
      intro hp
      cases blank with
      | nil => cases hp
      | cons c b =>
        cases hp
        exact absurd (h3 '%' List.mem_cons_self) (by unfold Blank; decide)
    obtain ⟨t, e, ht⟩ := scanInts_ok hn h4
    refine ⟨_, t, fgets_line hh _, ?_, ht⟩
    unfold readSize
    rw [skipComments_ok h1 h2 hsz data (by have := flatMap_length cs; simp; omega)]
    have hbl : ∀ c ∈ blank ++ ['\n'], Blank c := by
      intro c hc
      rcases List.mem_append.mp hc with h | h
      · exact h3 c h
      · simp at h; subst h; unfold Blank; decide
    show (if (scanInts (ns'.length + 1) (blank ++ ['\n'])).1.length = ns'.length + 1 then _ else _) = _
    rw [scanInts_blank hbl, if_neg (by simp)]
    show retryInts (n :: ns').length (data.length + 1) data = _
    unfold retryInts
    have hne : data.dropWhile isSpace ≠ [] := by
      cases hn with
      | cons a b =>
        obtain ⟨t, e, h5, _⟩ := words_cons_inv h4
        rw [e]
        intro h6
        exact h5.1 (List.append_eq_nil_iff.mp h6).1
    rw [if_neg hne, e, if_pos (by rw [List.length_map])]
    rfl

theorem lower_length {w v : List Char} (h : w.map Char.toLower = v) : w.length = v.length := by rw [← h, List.length_map]

theorem kindOf_name (k : Kind) : kindOf (schemeName k).toList = .ok k := by
  cases k <;> rfl

theorem readFirst_ok {l s : List Char} {fmt fld : String} {k : Kind} (h : Head l fmt fld (schemeName k)) (hf : fmt = "coordinate" ∨ fmt = "array")
    (hd : fld = "real" ∨ fld = "complex") {text : List Char} (ht : fgets text = some (l ++ ['\n'], s)) :
    readFirst text = .ok ((decide (fmt = "coordinate"), decide (fld = "real"), k), s) := by
  obtain ⟨hl, w2, w3, w4, w5, hw, e2, e3, e4, e5⟩ := h
  have l2 := lower_length e2
  have l3 := lower_length e3
  have l4 := lower_length e4
  have l5 := lower_length e5
  have hsc := scanWords_ok (words_newline hw) (by
    intro w hm
    simp only [List.mem_cons, List.not_mem_nil, or_false] at hm
    rcases hm with rfl | rfl | rfl | rfl | rfl
    · decide
    · rw [l2]; decide
    · rw [l3]; rcases hf with rfl | rfl <;> decide
    · rw [l4]; rcases hd with rfl | rfl <;> decide
    · rw [l5]; cases k <;> decide)
  have e2' : toLower w2 = "matrix".toList := e2
  have e3' : toLower w3 = fmt.toList := e3
  have e4' : toLower w4 = fld.toList := e4
  have e5' : toLower w5 = (schemeName k).toList := e5
  have hck : checkWords ["%%MatrixMarket".toList, w2, w3, w4, w5] = .ok (decide (fmt = "coordinate"), decide (fld = "real"), k) := by
    unfold checkWords
    simp only
    rw [if_neg (not_not.mpr rfl), e2', if_neg (not_not.mpr rfl), e3', e4', e5', kindOf_name]
    rcases hf with rfl | rfl <;> rcases hd with rfl | rfl <;> rfl
  unfold readFirst
  rw [ht]
  have hsc' : scanWords 5 (l ++ ['\n']) = .ok ["%%MatrixMarket".toList, w2, w3, w4, w5] := hsc
  simp only [hsc']
  show (do
    let h ← checkWords ["%%MatrixMarket".toList, w2, w3, w4, w5]
    pure (h, s)) = _
  rw [hck]
  rfl

end Hif.MM
