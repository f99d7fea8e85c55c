import Verif.MMTrip

set_option linter.unusedVariables false
set_option linter.unusedSectionVars false

/-!
# Files the MatrixMarket readers refuse
-/

namespace Hif.MM
open Hif.Spec.MM

/-- A loop whose `m`-th step fails. -/
theorem forUp_fails {σ : Type} {lo n : Nat} {s : σ} {f : Nat → σ → M σ} {e : Err} (I : Nat → σ → Prop) (m : Nat) (hm : lo ≤ m) (hn : m < n) (h0 : I lo s)
    (hstep : ∀ k s, lo ≤ k → k < m → I k s → Runs (f k s) (I (k + 1))) (herr : ∀ s, I m s → f m s = .error e) : forUp lo n s f = .error e := by
  obtain ⟨d, rfl⟩ := Nat.exists_eq_add_of_le hm
  induction d generalizing lo s with
  | zero =>
    rw [forUp_step s f (by omega : lo < n)]
    have := herr s h0
    rw [Nat.add_zero] at this
    rw [this]
    rfl
  | succ d ih =>
    rw [forUp_step s f (by omega)]
    obtain ⟨s', es, hs'⟩ := hstep lo s (le_refl _) (by omega) h0
    rw [es]
    show forUp (lo + 1) n s' f = .error e
    refine ih (lo := lo + 1) (s := s') hs' (by omega) (by omega) (fun k s h1 h2 => hstep k s (by omega) (by omega)) (fun s hs => ?_)
    rw [show lo + 1 + d = lo + (d + 1) by omega] at hs ⊢
    exact herr s hs

theorem bindOkInv {α β : Type} {m : M α} {f : α → M β} {b : β} (h : (m >>= f) = .ok b) : ∃ a, m = .ok a ∧ f a = .ok b := by
  cases m with
  | error e => cases h
  | ok a => exact ⟨a, rfl, h⟩

/-- What `%s` reads. -/
theorem scanWord_inv {s : List Char} {p : List Char × List Char} (h : scanWord s = .ok (some p)) {ws : List (List Char)} (hw : Words p.2 ws) : Words s (p.1 :: ws) := by
  unfold scanWord at h
  set t := s.dropWhile isSpace with ht
  by_cases h1 : t.takeWhile (fun c => !isSpace c) = []
  · rw [if_pos h1] at h; cases h
  · rw [if_neg h1] at h
    by_cases h2 : (t.takeWhile fun c => !isSpace c).length < 65
    · rw [if_pos h2] at h
      cases h
      have hs : s = s.takeWhile isSpace ++ t := (List.takeWhile_append_dropWhile).symm
      have ht2 : t = t.takeWhile (fun c => !isSpace c) ++ t.dropWhile fun c => !isSpace c := (List.takeWhile_append_dropWhile).symm
      have := Words.cons (s.takeWhile isSpace) (t.takeWhile fun c => !isSpace c) (t.dropWhile fun c => !isSpace c) _ (fun c hc => (isSpace_iff c).mp (mem_takeWhile hc))
        ⟨h1, fun c hc hbl => by have h1 := mem_takeWhile hc; rw [(isSpace_iff c).mpr hbl] at h1; cases h1⟩
        (fun c hc => by have h1 := head_dropWhile hc; simp only [Bool.not_eq_false'] at h1; exact (isSpace_iff c).mp h1) hw
      rw [← ht2, ← hs] at this
      exact this
    · rw [if_neg h2] at h; cases h

theorem scanWords_inv {k : Nat} {s : List Char} {ws : List (List Char)} (h : scanWords k s = .ok ws) (hl : ws.length = k) : ∃ more, Words s (ws ++ more) := by
  induction k generalizing s ws with
  | zero =>
    cases List.length_eq_zero_iff.mp hl
    exact ⟨_, words_split (s.length + 1) s (Nat.lt_succ_self _)⟩
  | succ k ih =>
    unfold scanWords at h
    obtain ⟨w, e1, h⟩ := bindOkInv h
    cases w with
    | none => cases h; cases hl
    | some p =>
      obtain ⟨us, e2, h⟩ := bindOkInv h
      cases h
      obtain ⟨more, hm⟩ := ih e2 (by simpa using hl)
      exact ⟨more, scanWord_inv e1 hm⟩

theorem kindOf_inv {s : List Char} {k : Kind} (h : kindOf s = .ok k) : s = (schemeName k).toList := by
  unfold kindOf at h
  by_cases h1 : s = "general".toList
  · rw [if_pos h1] at h; cases h; exact h1
  · rw [if_neg h1] at h
    by_cases h2 : s = "symmetric".toList
    · rw [if_pos h2] at h; cases h; exact h2
    · rw [if_neg h2] at h
      by_cases h3 : s = "hermitian".toList
      · rw [if_pos h3] at h; cases h; exact h3
      · rw [if_neg h3] at h
        by_cases h4 : s = "skew-symmetric".toList
        · rw [if_pos h4] at h; cases h; exact h4
        · rw [if_neg h4] at h; cases h

theorem checkWords_inv {ws : List (List Char)} {b r : Bool} {k : Kind} (h : checkWords ws = .ok (b, r, k)) :
    ∃ w2 w3 w4 w5, ws = ["%%MatrixMarket".toList, w2, w3, w4, w5] ∧ w2.map Char.toLower = "matrix".toList ∧
      w3.map Char.toLower = (if b then "coordinate" else "array").toList ∧ w4.map Char.toLower = (if r then "real" else "complex").toList ∧
      w5.map Char.toLower = (schemeName k).toList := by
  unfold checkWords at h
  split at h
  · rename_i w1 w2 w3 w4 w5
    by_cases h1 : w1 = "%%MatrixMarket".toList
    · rw [if_neg (not_not.mpr h1)] at h
      by_cases h2 : toLower w2 = "matrix".toList
      · rw [if_neg (not_not.mpr h2)] at h
        by_cases h3 : toLower w3 ≠ "coordinate".toList ∧ toLower w3 ≠ "array".toList
        · rw [if_pos h3] at h; cases h
        · rw [if_neg h3] at h
          by_cases h4 : toLower w4 ≠ "real".toList ∧ toLower w4 ≠ "complex".toList
          · rw [if_pos h4] at h; cases h
          · rw [if_neg h4] at h
            obtain ⟨k', e, h⟩ := bindOkInv h
            cases h
            refine ⟨w2, w3, w4, w5, by rw [h1], h2, ?_, ?_, kindOf_inv e⟩
            · show toLower w3 = _
              by_cases hc : toLower w3 = "array".toList
              · rw [if_neg (by simp [hc]), hc]
              · rw [if_pos (by simpa using hc)]
                by_contra hne
                exact h3 ⟨hne, hc⟩
            · show toLower w4 = _
              by_cases hc : toLower w4 = "complex".toList
              · rw [if_neg (by simp [hc]), hc]
              · rw [if_pos (by simpa using hc)]
                by_contra hne
                exact h4 ⟨hne, hc⟩
      · rw [if_pos h2] at h; cases h
    · rw [if_pos h1] at h; cases h
  · cases h

theorem getsUpto_prefix (k : Nat) (s : List Char) : s = (getsUpto k s).1 ++ (getsUpto k s).2 ∧ ∀ c ∈ (getsUpto k s).1.dropLast, c ≠ '\n' := by
  induction k generalizing s with
  | zero => exact ⟨by simp [getsUpto], by simp [getsUpto]⟩
  | succ k ih =>
    cases s with
    | nil => exact ⟨by simp [getsUpto], by simp [getsUpto]⟩
    | cons c s =>
      unfold getsUpto
      by_cases h : c = '\n'
      · rw [if_pos h]; exact ⟨by simp, by simp⟩
      · rw [if_neg h]
        obtain ⟨h1, h2⟩ := ih s
        refine ⟨by rw [List.cons_append, ← h1], ?_⟩
        intro d hd
        simp only at hd
        cases hg : (getsUpto k s).1 with
        | nil => rw [hg] at hd; simp at hd
        | cons a l =>
          rw [hg, List.dropLast_cons_cons] at hd
          rcases List.mem_cons.mp hd with rfl | hd
          · exact h
          · exact h2 d (by rw [hg]; exact hd)

theorem readFirst_inv {text s : List Char} {b r : Bool} {k : Kind} (h : readFirst text = .ok ((b, r, k), s)) :
    ∃ l w2 w3 w4 w5 more, text = l ++ s ∧ (∀ c ∈ l.dropLast, c ≠ '\n') ∧ Words l (["%%MatrixMarket".toList, w2, w3, w4, w5] ++ more) ∧
      w2.map Char.toLower = "matrix".toList ∧ w3.map Char.toLower = (if b then "coordinate" else "array").toList ∧
      w4.map Char.toLower = (if r then "real" else "complex").toList ∧ w5.map Char.toLower = (schemeName k).toList := by
  unfold readFirst at h
  cases hf : fgets text with
  | none => rw [hf] at h; cases h
  | some p =>
    obtain ⟨line, rest⟩ := p
    rw [hf] at h
    simp only at h
    obtain ⟨ws, e1, h⟩ := bindOkInv h
    obtain ⟨hd, e2, h⟩ := bindOkInv h
    cases h
    obtain ⟨w2, w3, w4, w5, rfl, h2, h3, h4, h5⟩ := checkWords_inv e2
    obtain ⟨more, hm⟩ := scanWords_inv e1 rfl
    have hp : text = line ++ s ∧ ∀ c ∈ line.dropLast, c ≠ '\n' := by
      unfold fgets at hf
      split at hf
      · cases hf
      · have e := Option.some.inj hf
        have := getsUpto_prefix 1024 text
        rw [e] at this
        exact this
    exact ⟨line, w2, w3, w4, w5, more, hp.1, hp.2, hm, h2, h3, h4, h5⟩

section
variable {D V : Type} [Inhabited V] [Neg V] [Star V]

theorem readSparse_inv {num : Num D V} {jk : Junk D V} {text : List Char} {t : Triples V} (h : readSparse num jk text = .ok t) :
    ∃ k s, readFirst text = .ok ((true, num.real, k), s) := by
  unfold readSparse at h
  obtain ⟨⟨⟨b, r, k⟩, s⟩, e, h⟩ := bindOkInv h
  simp only at h
  cases b with
  | false => rw [if_pos rfl] at h; cases h
  | true =>
    rw [if_neg (by decide)] at h
    by_cases hr : num.real = r
    · subst hr; exact ⟨k, s, e⟩
    · rw [if_pos hr] at h; cases h

theorem readVector_inv {num : Num D V} {jk : Junk D V} {text : List Char} {t : Buf V} (h : readVector num jk text = .ok t) :
    ∃ k s, readFirst text = .ok ((false, num.real, k), s) := by
  unfold readVector at h
  obtain ⟨⟨⟨b, r, k⟩, s⟩, e, h⟩ := bindOkInv h
  simp only at h
  cases b with
  | true => rw [if_pos rfl] at h; cases h
  | false =>
    rw [if_neg (by decide)] at h
    by_cases hr : num.real = r
    · subst hr; exact ⟨k, s, e⟩
    · rw [if_pos hr] at h; cases h

theorem scanInt_blank {s : List Char} (h : Words s []) : (scanInt s).1 = none := by
  unfold scanInt
  rw [words_nil_inv h]
  rfl

theorem scanEntry_blank {num : Num D V} (jk : Junk D V) {s : List Char} (h : Words s []) (r : Bool) : scanEntry num jk r s = none := by
  unfold scanEntry
  have := scanInt_blank h
  cases hs : scanInt s with
  | mk a b =>
    rw [hs] at this
    simp only at this
    subst this
    rfl

theorem readData_short {num : Num D V} (jk : Junk D V) {kind : Kind} {es : List (Entry V)} {dss : List (List (List Char))}
    (hf : List.Forall₂ (EntryWords num) es dss) {s : List Char} (hw : Words s dss.flatten) {nnz : Nat} (hn : es.length < nnz) :
    readData num jk kind num.real nnz s = .error (.hif "insufficient objects scanned from fscanf") := by
  have hlen : es.length = dss.length := hf.length_eq
  unfold readData
  simp only
  rw [forUp_fails (e := .hif "insufficient objects scanned from fscanf")
    (fun i st => Has (if kind ≠ .general then nnz * 2 else nnz) st (expand kind (es.take i)) ∧ Words st.rest (dss.drop i).flatten) es.length (Nat.zero_le _) hn]
  · rfl
  · refine ⟨⟨rfl, rfl, rfl, rfl, ?_, ?_, ?_⟩, hw⟩ <;> intro k hk <;> simp [expand] at hk
  · rintro i st - hi ⟨h1, h2⟩
    have hi' : i < dss.length := by omega
    rw [List.drop_eq_getElem_cons hi', List.flatten_cons] at h2
    have he : EntryWords num es[i] dss[i] := List.forall₂_iff_get.mp hf |>.2 i hi hi'
    refine (readStep_runs jk h1 h2 he ?_).mono ?_
    · have := expand_take_le kind es i hi
      split at this <;> split <;> omega
    · rintro st' ⟨a, b⟩
      refine ⟨?_, b⟩
      rw [List.take_succ_eq_append_getElem hi]
      unfold expand
      rw [List.flatMap_append, List.flatMap_singleton]
      exact a
  · rintro st ⟨h1, h2⟩
    rw [hlen, List.drop_length, List.flatten_nil] at h2
    unfold readStep
    rw [scanEntry_blank jk h2]
    rfl

theorem readVecData_short {num : Num D V} (jk : Junk D V) (hnum : num.scan [] = none) {vs : List V} {dss : List (List (List Char))} (hv : List.Forall₂ (ValWords num) vs dss)
    {s : List Char} (hw : Words s dss.flatten) {n : Nat} (hn : vs.length < n) :
    readVecData num jk num.real n s = .error (.hif "insufficient objects scanned from fscanf") := by
  have hlen := hv.length_eq
  unfold readVecData
  rw [forUp_fails (e := .hif "insufficient objects scanned from fscanf") (fun i st => st.1.size = n ∧ Words st.2 (dss.drop i).flatten) vs.length (Nat.zero_le _) hn]
  · rfl
  · exact ⟨rfl, by simpa using hw⟩
  · rintro i ⟨b, s⟩ - hi ⟨h1, h3⟩
    simp only at h1 h3 ⊢
    rw [List.drop_eq_getElem_cons (by omega : i < dss.length), List.flatten_cons] at h3
    obtain ⟨rest, e, hr⟩ := scanVal_ok jk h3 (List.forall₂_iff_get.mp hv |>.2 i hi (by omega))
    rw [e]
    simp only [runs_bind, runs_wr, runs_pure, Buf.set_size]
    exact ⟨by omega, h1, hr⟩
  · rintro ⟨b, s⟩ ⟨h1, h2⟩
    simp only at h2 ⊢
    rw [hlen, List.drop_length, List.flatten_nil] at h2
    have : scanVal num jk num.real s = none := by
      unfold scanVal
      rw [words_nil_inv h2, hnum]
    rw [this]
    rfl

end
end Hif.MM
