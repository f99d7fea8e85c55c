import Verif.MMWrite

set_option linter.unusedVariables false
set_option linter.unusedSectionVars false

/-!
# The MatrixMarket writers run, and what they write
-/

namespace Hif.MM
open Hif.Spec.MM
variable {D V : Type} [Inhabited V]

/-- The file entry for a stored pair. -/
def mkEntry (rowMajor : Bool) (i : Nat) (p : Nat × V) : Entry V := if rowMajor then ⟨i + 1, p.1 + 1, p.2⟩ else ⟨p.1 + 1, i + 1, p.2⟩

def showE (num : Num D V) (e : Entry V) : List Char := showEntry num e.row e.col e.val

theorem listing_eq (rowMajor : Bool) (A : CS V) : listing rowMajor A = (List.range A.psize).flatMap fun i => (A.line i).map (mkEntry rowMajor i) := rfl

theorem listing_length {A : CS V} (h : A.WF) (rowMajor : Bool) : (listing rowMajor A).length = A.start.get A.psize := by
  rw [listing_eq]
  have key : ∀ n, n ≤ A.psize → ((List.range n).flatMap fun i => (A.line i).map (mkEntry rowMajor i)).length = A.start.get n := by
    intro n
    induction n with
    | zero => intro _; rw [h.start_zero]; rfl
    | succ n ih =>
      intro hn
      rw [List.range_succ, List.flatMap_append, List.length_append, ih (by omega), List.flatMap_singleton, List.length_map, Crout.line_length]
      have := h.mono n (by omega)
      omega
  exact key _ (le_refl _)

theorem eq_ok_of_runs {α : Type} {m : M α} {a : α} (h : Runs m fun s => s = a) : m = .ok a := by
  obtain ⟨s, e, rfl⟩ := h
  exact e

theorem writeSparse_runs {A : CS V} (h : A.WF) (ht : A.Tight) (num : Num D V) (rowMajor : Bool) :
    writeSparse num rowMajor A = .ok (header num "coordinate" ++ ' ' :: (showNat (fileOf rowMajor A).nrows ++ ' ' :: (showNat (fileOf rowMajor A).ncols ++ ' ' ::
      (showNat (fileOf rowMajor A).entries.length ++ ['\n']))) ++ (fileOf rowMajor A).entries.flatMap fun e => showEntry num e.row e.col e.val) := by
  unfold writeSparse
  rw [if_neg (by have := ht.start_size; omega)]
  simp only
  have e0 : A.start.size - 1 = A.psize := by have := ht.start_size; omega
  have e1 : A.vals.size = (listing rowMajor A).length := by rw [listing_length h, ht.vals_size]
  rw [e0, e1]
  show _ = Except.ok (_ ++ _ ++ (listing rowMajor A).flatMap (showE num))
  rw [listing_eq]
  refine eq_ok_of_runs ?_
  set T := header num "coordinate" ++ ' ' :: (showNat (if rowMajor then A.psize else A.ssize) ++ ' ' :: (showNat (if rowMajor then A.ssize else A.psize) ++
        ' ' :: (showNat ((List.range A.psize).flatMap fun i => (A.line i).map (mkEntry rowMajor i)).length ++ ['\n']))) with hT
  refine forUp_runs' (fun i s => s = T ++ ((List.range i).flatMap fun i => (A.line i).map (mkEntry rowMajor i)).flatMap (showE num)) (Nat.zero_le _) (by simp) ?_ ?_
  · rintro i s - hi rfl
    have hs := ht.start_size
    simp only [runs_bind, runs_rd]
    refine ⟨by omega, by omega, ?_⟩
    have hm := h.mono i hi
    refine forUp_runs' (fun k s => s = T ++ ((List.range i).flatMap fun i => (A.line i).map (mkEntry rowMajor i)).flatMap (showE num) ++
      ((A.seg (A.start.get i) k).map (mkEntry rowMajor i)).flatMap (showE num)) hm (by rw [CS.seg_empty _ (le_refl _)]; simp) ?_ ?_
    · rintro k s hk1 hk2 rfl
      have := h.start_mono (show i + 1 ≤ A.psize from hi) (le_refl _)
      simp only [runs_bind, runs_rd, runs_pure]
      refine ⟨by rw [ht.inds_size]; omega, by rw [ht.vals_size]; omega, ?_⟩
      rw [CS.seg_succ _ hk1, List.map_append, List.flatMap_append]
      cases rowMajor <;> simp [mkEntry, showE]
    · rintro s rfl
      rw [List.range_succ, List.flatMap_append, List.flatMap_append]
      simp [CS.line]
  · rintro s rfl
    rfl

/-- The content of the file is in range. -/
theorem fileOf_inRange {A : CS V} (h : A.WF) (rowMajor : Bool) (hp : A.psize < 2 ^ 31) (hs : A.ssize < 2 ^ 31) (hn : A.start.get A.psize < 2 ^ 31) :
    (fileOf rowMajor A).InRange := by
  have key : ∀ e ∈ listing rowMajor A, ∃ i p, i < A.psize ∧ p ∈ A.line i ∧ p.1 < A.ssize ∧ e = mkEntry rowMajor i p := by
    intro e he
    rw [listing_eq, List.mem_flatMap] at he
    obtain ⟨i, hi, he⟩ := he
    obtain ⟨p, hp, rfl⟩ := List.mem_map.mp he
    rw [List.mem_range] at hi
    refine ⟨i, p, hi, hp, ?_, rfl⟩
    obtain ⟨k, k1, k2, rfl⟩ := CS.mem_seg.mp hp
    exact h.inds_lt k (by have := h.start_mono (show i + 1 ≤ A.psize from hi) (le_refl _); omega)
  constructor
  · show (if rowMajor then A.psize else A.ssize) < _; split <;> assumption
  · show (if rowMajor then A.ssize else A.psize) < _; split <;> assumption
  · show (listing rowMajor A).length < _; rw [listing_length h]; exact hn
  · intro e he
    obtain ⟨i, p, h1, h2, h3, rfl⟩ := key e he
    show _ ∧ _ ≤ (if rowMajor then A.psize else A.ssize)
    cases rowMajor
    · exact ⟨Nat.succ_pos _, h3⟩
    · exact ⟨Nat.succ_pos _, h1⟩
  · intro e he
    obtain ⟨i, p, h1, h2, h3, rfl⟩ := key e he
    show _ ∧ _ ≤ (if rowMajor then A.ssize else A.psize)
    cases rowMajor
    · exact ⟨Nat.succ_pos _, h1⟩
    · exact ⟨Nat.succ_pos _, h3⟩

theorem fileOf_distinct {A : CS V} (h : A.Sorted) (rowMajor : Bool) : (fileOf rowMajor A).Distinct := by
  have key : (listing rowMajor A).Pairwise fun a b => (a.row, a.col) ≠ (b.row, b.col) := by
    rw [listing_eq, List.pairwise_flatMap]
    refine ⟨fun i hi => ?_, ?_⟩
    · rw [List.mem_range] at hi
      rw [List.pairwise_map]
      have := CS.line_fst_pairwise h hi
      rw [List.pairwise_map] at this
      refine this.imp ?_
      intro p q hpq e
      cases rowMajor <;> simp [mkEntry] at e <;> omega
    · refine List.pairwise_lt_range.imp ?_
      intro i j hij a ha b hb e
      obtain ⟨p, -, rfl⟩ := List.mem_map.mp ha
      obtain ⟨q, -, rfl⟩ := List.mem_map.mp hb
      cases rowMajor <;> simp [mkEntry] at e <;> omega
  exact key.imp fun h => ⟨h, fun h' => absurd rfl h'⟩

theorem mem_expand_fileOf [Neg V] [Star V] {A : CS V} (rowMajor : Bool) (r c : Nat) (v : V) :
    (∃ x ∈ expand (fileOf rowMajor A).kind (fileOf rowMajor A).entries, x.1 = (r : Int) ∧ x.2.1 = (c : Int) ∧ x.2.2 = v) ↔
      ∃ i p, i < A.psize ∧ p ∈ A.line i ∧ mkEntry rowMajor i p = ⟨r + 1, c + 1, v⟩ := by
  show (∃ x ∈ expand .general (listing rowMajor A), _) ↔ _
  constructor
  · rintro ⟨x, hx, e1, e2, e3⟩
    obtain ⟨e, he, hx⟩ := List.mem_flatMap.mp hx
    rw [listing_eq] at he
    obtain ⟨i, hi, he⟩ := List.mem_flatMap.mp he
    obtain ⟨p, hp, rfl⟩ := List.mem_map.mp he
    refine ⟨i, p, List.mem_range.mp hi, hp, ?_⟩
    unfold expand1 at hx
    rw [if_pos (Or.inl rfl), List.mem_singleton] at hx
    subst hx
    simp only at e1 e2 e3
    have : (mkEntry rowMajor i p).row = r + 1 := by omega
    have : (mkEntry rowMajor i p).col = c + 1 := by omega
    cases hm : mkEntry rowMajor i p
    simp_all
  · rintro ⟨i, p, hi, hp, e⟩
    refine ⟨((r : Int), (c : Int), v), List.mem_flatMap.mpr ⟨⟨r + 1, c + 1, v⟩, ?_, ?_⟩, rfl, rfl, rfl⟩
    · rw [listing_eq, ← e]
      exact List.mem_flatMap.mpr ⟨i, List.mem_range.mpr hi, List.mem_map_of_mem hp⟩
    · unfold expand1
      rw [if_pos (Or.inl rfl)]
      simp

theorem fileOf_entry [AddCommGroup V] [Star V] {A : CS V} (h : A.WF) (rowMajor : Bool) {i j : Nat} (hi : i < A.psize) :
    (if rowMajor then (fileOf rowMajor A).entry i j else (fileOf rowMajor A).entry j i) = A.entry i j := by
  set g : Entry V → V := fun e => if (if rowMajor then e.row else e.col) = i + 1 ∧ (if rowMajor then e.col else e.row) = j + 1 then e.val else 0 with hg
  have e1 : (if rowMajor then (fileOf rowMajor A).entry i j else (fileOf rowMajor A).entry j i) = ((listing rowMajor A).map g).sum := by
    unfold File.entry
    have hk : (fileOf rowMajor A).kind = .general := rfl
    have he : (fileOf rowMajor A).entries = listing rowMajor A := rfl
    simp only [hk, he, ne_eq, not_true_eq_false, false_and, if_false, add_zero]
    cases rowMajor with
    | true => rfl
    | false =>
      simp only [Bool.false_eq_true, if_false]
      congr 1
      refine List.map_congr_left fun e _ => ?_
      simp only [hg, Bool.false_eq_true, if_false]
      exact if_congr and_comm rfl rfl
  rw [e1, listing_eq]
  have key : ∀ n, n ≤ A.psize → (((List.range n).flatMap fun i => (A.line i).map (mkEntry rowMajor i)).map g).sum = if i < n then A.entry i j else 0 := by
    intro n
    induction n with
    | zero => intro _; simp
    | succ n ih =>
      intro hn
      rw [List.range_succ, List.flatMap_append, List.map_append, List.sum_append, ih (by omega), List.flatMap_singleton, List.map_map]
      have e2 : ((A.line n).map (g ∘ mkEntry rowMajor n)).sum = if n = i then A.entry i j else 0 := by
        by_cases hni : n = i
        · subst hni
          rw [if_pos rfl, CS.entry_eq_line A n j (h.mono n (by omega))]
          congr 1
          refine List.map_congr_left fun p _ => ?_
          cases rowMajor <;> simp [hg, mkEntry]
        · rw [if_neg hni]
          refine List.sum_eq_zero fun x hx => ?_
          obtain ⟨p, -, rfl⟩ := List.mem_map.mp hx
          cases rowMajor <;> simp [hg, mkEntry, hni]
      rw [e2]
      by_cases h1 : i < n
      · rw [if_pos h1, if_neg (by omega), if_pos (by omega), add_zero]
      · rw [if_neg h1, zero_add]
        exact if_congr (by omega) rfl rfl
  rw [key _ (le_refl _), if_pos hi]

/-- Two sorted matrices with the same lines have the same arrays. -/
theorem arrays_eq {A B : CS V} (hA : A.WF) (hB : B.WF) (hp : B.psize = A.psize) (hl : ∀ i, i < A.psize → B.line i = A.line i) :
    (∀ i, i ≤ A.psize → B.start.get i = A.start.get i) ∧ ∀ k, k < A.start.get A.psize → B.inds.get k = A.inds.get k ∧ B.vals.get k = A.vals.get k := by
  have hst : ∀ i, i ≤ A.psize → B.start.get i = A.start.get i := by
    intro i
    induction i with
    | zero => intro _; rw [hA.start_zero, hB.start_zero]
    | succ i ih =>
      intro hi
      have h1 := congrArg List.length (hl i (by omega))
      rw [Crout.line_length, Crout.line_length] at h1
      have := ih (by omega)
      have := hA.mono i (by omega)
      have := hB.mono i (by omega)
      omega
  refine ⟨hst, ?_⟩
  have key : ∀ n, n ≤ A.psize → ∀ k, k < A.start.get n → B.inds.get k = A.inds.get k ∧ B.vals.get k = A.vals.get k := by
    intro n
    induction n with
    | zero => intro _ k hk; rw [hA.start_zero] at hk; omega
    | succ n ih =>
      intro hn k hk
      by_cases hk' : k < A.start.get n
      · exact ih (by omega) k hk'
      · have h1 := hl n (by omega)
        have hlen : k - A.start.get n < (A.line n).length := by rw [Crout.line_length]; omega
        have hlen2 : k - A.start.get n < (B.line n).length := by rw [h1]; exact hlen
        have h2 : (B.line n)[k - A.start.get n] = (A.line n)[k - A.start.get n] := by simp only [h1]
        rw [Crout.line_getElem, Crout.line_getElem, hst n (by omega), show A.start.get n + (k - A.start.get n) = k by omega, Prod.mk.injEq] at h2
        exact h2
  exact key _ (le_refl _)

theorem line_eq_of_mem {A B : CS V} (hA : A.Sorted) (hB : B.Sorted) {i : Nat} (hi : i < A.psize) (hi' : i < B.psize) (h : ∀ p, p ∈ B.line i ↔ p ∈ A.line i) :
    B.line i = A.line i := by
  have p1 := CS.line_fst_pairwise hA hi
  have p2 := CS.line_fst_pairwise hB hi'
  rw [List.pairwise_map] at p1 p2
  have : Std.Irrefl fun p q : Nat × V => p.1 < q.1 := ⟨fun p => lt_irrefl _⟩
  have : Std.Antisymm fun p q : Nat × V => p.1 < q.1 := ⟨fun p q h1 h2 => absurd h2 (lt_asymm h1)⟩
  exact List.Pairwise.eq_of_mem_iff p2 p1 (fun {p} => h p)

/-! ### vectors -/

theorem readVecData_runs [Neg V] [Star V] {num : Num D V} (jk : Junk D V) {vs : List V} {dss : List (List (List Char))} (hv : List.Forall₂ (ValWords num) vs dss)
    {s : List Char} (hw : Words s dss.flatten) :
    Runs (readVecData num jk num.real vs.length s) fun b => b.toList = vs := by
  unfold readVecData
  rw [runs_bind]
  have hlen := hv.length_eq
  refine forUp_runs' (fun i st => st.1.size = vs.length ∧ (∀ k (h : k < vs.length), k < i → st.1.get k = vs[k]) ∧ Words st.2 (dss.drop i).flatten)
    (Nat.zero_le _) ⟨rfl, fun k _ h => absurd h (Nat.not_lt_zero _), by simpa using hw⟩ ?_ ?_
  · rintro i ⟨b, s⟩ - hi ⟨h1, h2, h3⟩
    simp only at h1 h2 h3 ⊢
    rw [List.drop_eq_getElem_cons (by omega : i < dss.length), List.flatten_cons] at h3
    obtain ⟨rest, e, hr⟩ := scanVal_ok jk h3 (List.forall₂_iff_get.mp hv |>.2 i hi (by omega))
    rw [e]
    simp only [runs_bind, runs_wr, runs_pure, Buf.set_size, Buf.set_get]
    refine ⟨by omega, h1, fun k hk hki => ?_, hr⟩
    by_cases hk2 : k = i
    · subst hk2; rw [if_pos rfl]; rfl
    · rw [if_neg hk2]; exact h2 k hk (by omega)
  · rintro ⟨b, s⟩ ⟨h1, h2, -⟩
    simp only at h1
    simp only [runs_pure]
    refine List.ext_getElem (by simp [Buf.toList, h1]) fun k k1 k2 => ?_
    have := h2 k k2 k2
    simpa [Buf.toList] using this

theorem readVector_runs [Neg V] [Star V] {num : Num D V} (jk : Junk D V) {vs : List V} {text : List Char} (h : DescribesVec num vs text) (hn : vs.length < 2 ^ 31) :
    Runs (readVector num jk text) fun b => b.toList = vs := by
  obtain ⟨head, k, wm, wn, dss, n, h1, h2, h3, h4, h5⟩ := h
  obtain ⟨s, t, e1, e2, e3⟩ := layout_readSize h5 h1.1 (ns := [vs.length, n]) (.cons h2 (.cons h3 .nil)) (by simp)
  unfold readVector
  have e0 : readFirst text = .ok ((false, num.real, k), s) := by
    rw [readFirst_ok h1 (Or.inr rfl) (by cases num.real <;> simp) e1]
    cases num.real <;> rfl
  rw [e0, runs_bind, runs_ok]
  show Runs (if false = true then _ else if num.real ≠ num.real then _ else _) _
  rw [if_neg (by decide), if_neg (not_not.mpr rfl)]
  have e2' : readSize 2 s = .ok ([(vs.length : Int), (n : Int)], t) := e2
  rw [e2', runs_bind, runs_ok]
  show Runs (readVecData num jk num.real (Lhf.sizeT (vs.length : Int)) t) _
  rw [sizeT_nat hn]
  exact readVecData_runs jk h4 e3

theorem vec_words {num : Num D V} (h : PrintOK num) (vs : List V) :
    Words (vs.flatMap fun v => showVal num v ++ ['\n']) (vs.map (valWords num)).flatten := by
  induction vs with
  | nil => exact .nil _ (by intro c hc; cases hc)
  | cons v vs ih =>
    rw [List.flatMap_cons, List.map_cons, List.flatten_cons, List.append_assoc]
    exact showVal_words h v (words_blank blank_nl ih) (ends_cons blank_nl)

theorem vecVals_ok {num : Num D V} (h : PrintOK num) (vs : List V) : List.Forall₂ (ValWords num) vs (vs.map (valWords num)) := by
  induction vs with
  | nil => exact .nil
  | cons v vs ih => exact .cons (valWords_ok h v) ih

theorem writeVector_describes {num : Num D V} (h : PrintOK num) (v : Buf V) (hn : v.size < 2 ^ 31) : DescribesVec num v.toList (writeVector num v) := by
  have hl : v.toList.length = v.size := by simp [Buf.toList]
  refine ⟨headLine num "array", .general, showNat v.size, ['1'], v.toList.map (valWords num), 1, headLine_ok num (Or.inr rfl), by rw [hl]; exact showNat_numeral _,
    showNat_numeral 1, vecVals_ok h _, ?_⟩
  unfold writeVector
  rw [header_eq]
  have key := Layout.direct (headLine num "array") (' ' :: (showNat v.size ++ " 1".toList))
    (v.toList.flatMap fun x => showVal num x ++ ['\n']) ["% Written by HIFIR 0.2.0".toList] [showNat v.size, ['1']]
    _ comment_ok ?_ ?_ (vec_words h v.toList)
  · have e1 : " 1\n".toList = " 1".toList ++ ['\n'] := by decide
    rw [e1]
    simp only [List.append_assoc, List.cons_append, List.nil_append] at key ⊢
    exact key
  · constructor
    · simp [showNat_noNl]
    · have l1 := showNat_length hn
      have : " 1".toList.length = 2 := by decide
      simp only [List.length_cons, List.length_append, this]
      omega
  · refine words_blank blank_space ?_
    have e1 : " 1".toList = [' ', '1'] := by decide
    rw [e1]
    refine words_word (numeral_word (showNat_numeral _)) (ends_cons blank_space) (words_blank blank_space ?_)
    have := words_word (numeral_word (showNat_numeral 1)) ends_nil (.nil [] (by intro c hc; cases hc))
    rwa [List.append_nil] at this

end Hif.MM
