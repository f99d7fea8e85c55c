import Verif.MMLemmas

set_option linter.unusedVariables false
set_option linter.unusedSectionVars false

/-!
# The data part of MatrixMarket files
-/

namespace Hif.MM
open Hif.Spec.MM
variable {D V : Type} [Inhabited V] [Neg V] [Star V]

theorem scan_ok {num : Num D V} {d : D} {w s : List Char} {ws : List (List Char)} (h : Words s (w :: ws)) (hn : Numeric num d w) :
    ∃ t, num.scan (s.dropWhile isSpace) = some (d, t) ∧ Words t ws := by
  obtain ⟨t, e, hw, he, ht⟩ := words_cons_inv h
  exact ⟨t, by rw [e]; exact hn.2 t he, ht⟩

theorem scanVal_ok {num : Num D V} (jk : Junk D V) {v : V} {s : List Char} {ws vs : List (List Char)} (h : Words s (ws ++ vs)) (hv : ValWords num v ws) :
    ∃ t, scanVal num jk num.real s = some (v, t) ∧ Words t vs := by
  match ws, hv with
  | [w], ⟨hr, d, hn, hs⟩ =>
    obtain ⟨t, e, ht⟩ := scan_ok h hn
    refine ⟨t, ?_, ht⟩
    unfold scanVal
    rw [e]
    simp only
    rw [if_pos hr, hs]
  | [w, w'], ⟨hr, d, d', hn, hn', hs⟩ =>
    obtain ⟨t, e, ht⟩ := scan_ok h hn
    obtain ⟨t', e', ht'⟩ := scan_ok ht hn'
    refine ⟨t', ?_, ht'⟩
    unfold scanVal
    rw [e]
    simp only
    rw [if_neg (by rw [hr]; decide), e']
    simp only
    rw [hs]

theorem scanEntry_ok {num : Num D V} (jk : Junk D V) {en : Entry V} {s : List Char} {ws vs : List (List Char)} (h : Words s (ws ++ vs))
    (hv : EntryWords num en ws) : ∃ t, scanEntry num jk num.real s = some ((en.row : Int), (en.col : Int), en.val, t) ∧ Words t vs := by
  match ws, hv with
  | w :: w' :: ws, ⟨h1, h2, h3⟩ =>
    obtain ⟨t1, e1, ht1⟩ := scanInt_ok h h1
    obtain ⟨t2, e2, ht2⟩ := scanInt_ok ht1 h2
    obtain ⟨t3, e3, ht3⟩ := scanVal_ok jk ht2 h3
    refine ⟨t3, ?_, ht3⟩
    unfold scanEntry
    rw [e1]
    simp only
    rw [e2]
    simp only
    rw [e3]
    rfl

/-- The triples an entry is expanded to (0-based). -/
def expand1 (kind : Kind) (e : Entry V) : List (Int × Int × V) :=
  if kind = .general ∨ e.row = e.col then [((e.row : Int) - 1, (e.col : Int) - 1, e.val)]
  else [((e.row : Int) - 1, (e.col : Int) - 1, e.val), ((e.col : Int) - 1, (e.row : Int) - 1, mirrored kind e.val)]

/-- The triples of a file. -/
def expand (kind : Kind) (es : List (Entry V)) : List (Int × Int × V) := es.flatMap (expand1 kind)

/-- The array starts with the list. -/
def Holds {α : Type} (b : Buf α) (l : List α) : Prop := ∀ k (h : k < l.length), b.get k = l[k]

theorem Holds.push {α : Type} {b : Buf α} {l : List α} (h : Holds b l) (x : α) : Holds (b.set l.length x) (l ++ [x]) := by
  intro k hk
  rw [Buf.set_get]
  by_cases e : k = l.length
  · subst e; rw [if_pos rfl]; simp
  · rw [if_neg e]
    have : k < l.length := by simp at hk; omega
    rw [List.getElem_append_left this]
    exact h k this

/-- The state of the loop holds the triples `l`. -/
structure Has (cap : Nat) (st : RdSt V) (l : List (Int × Int × V)) : Prop where
  index : st.index = l.length
  rsz : st.rows.size = cap
  csz : st.cols.size = cap
  vsz : st.vals.size = cap
  rows : Holds st.rows (l.map fun t => t.1)
  cols : Holds st.cols (l.map fun t => t.2.1)
  vals : Holds st.vals (l.map fun t => t.2.2)

theorem Has.push {cap : Nat} {st : RdSt V} {l : List (Int × Int × V)} (h : Has cap st l) (r c : Int) (v : V) (rest : List Char) :
    Has cap ⟨st.index + 1, st.rows.set st.index r, st.cols.set st.index c, st.vals.set st.index v, rest⟩ (l ++ [(r, c, v)]) where
  index := by rw [h.index]; simp
  rsz := h.rsz
  csz := h.csz
  vsz := h.vsz
  rows := by rw [List.map_append, h.index]; have := h.rows.push r; rwa [List.length_map] at this
  cols := by rw [List.map_append, h.index]; have := h.cols.push c; rwa [List.length_map] at this
  vals := by rw [List.map_append, h.index]; have := h.vals.push v; rwa [List.length_map] at this

theorem mirror_eq (k : Kind) (v : V) : mirror k v = mirrored k v := by cases k <;> rfl

theorem readStep_runs {num : Num D V} (jk : Junk D V) {kind : Kind} {en : Entry V} {cap : Nat} {st : RdSt V} {l : List (Int × Int × V)} (h : Has cap st l)
    {ws vs : List (List Char)} (hw : Words st.rest (ws ++ vs)) (he : EntryWords num en ws) (hc : l.length + (expand1 kind en).length ≤ cap) :
    Runs (readStep num jk kind num.real st) fun st' => Has cap st' (l ++ expand1 kind en) ∧ Words st'.rest vs := by
  obtain ⟨t, e, ht⟩ := scanEntry_ok jk hw he
  unfold readStep
  rw [e]
  simp only [runs_bind, runs_wr]
  have hi := h.index
  have hr := h.rsz
  have hcs := h.csz
  have hv := h.vsz
  have hl : l.length < cap := by
    have : 0 < (expand1 kind en).length := by
      unfold expand1
      split <;> simp
    omega
  refine ⟨by omega, by omega, by omega, ?_⟩
  by_cases hg : kind = .general ∨ en.row = en.col
  · rw [if_pos (by rcases hg with hg | hg; exacts [Or.inl hg, Or.inr (by rw [hg])]), runs_pure]
    have ex : expand1 kind en = [((en.row : Int) - 1, (en.col : Int) - 1, en.val)] := if_pos hg
    rw [ex]
    exact ⟨h.push _ _ _ t, ht⟩
  · rw [if_neg (by
      rintro (h1 | h1)
      · exact hg (Or.inl h1)
      · exact hg (Or.inr (by exact_mod_cast h1)))]
    have ex : expand1 kind en = [((en.row : Int) - 1, (en.col : Int) - 1, en.val), ((en.col : Int) - 1, (en.row : Int) - 1, mirrored kind en.val)] := if_neg hg
    rw [ex] at hc
    simp only [List.length_cons, List.length_nil] at hc
    simp only [runs_bind, runs_wr, runs_rd, Buf.set_size, runs_pure]
    refine ⟨by omega, by omega, by omega, by omega, ?_, ht⟩
    rw [ex]
    have h1 := h.push ((en.row : Int) - 1) ((en.col : Int) - 1) en.val t
    have h2 := h1.push ((en.col : Int) - 1) ((en.row : Int) - 1) (mirror kind en.val) t
    rw [List.append_assoc, mirror_eq] at h2
    rw [Buf.set_get_self, mirror_eq]
    exact h2

theorem expand1_length (kind : Kind) (e : Entry V) : (expand1 kind e).length = if kind = .general then 1 else if e.row = e.col then 1 else 2 := by
  unfold expand1
  by_cases h1 : kind = .general <;> by_cases h2 : e.row = e.col <;> simp [h1, h2]

theorem expand_length (kind : Kind) (m n : Nat) (es : List (Entry V)) : (expand kind es).length = (File.mk kind m n es).stored := by
  unfold File.stored
  simp only
  induction es with
  | nil => simp [expand]
  | cons e es ih =>
    have : expand kind (e :: es) = expand1 kind e ++ expand kind es := rfl
    rw [this, List.length_append, ih, expand1_length]
    by_cases h1 : kind = .general
    · simp [h1]; omega
    · by_cases h2 : e.row = e.col
      · simp [h1, h2]; omega
      · simp [h1, h2]; omega

theorem expand_take_le (kind : Kind) (es : List (Entry V)) (i : Nat) (h : i < es.length) :
    (expand kind (es.take i)).length + (expand1 kind es[i]).length ≤ if kind ≠ .general then es.length * 2 else es.length := by
  have e1 : ∀ es : List (Entry V), (expand kind es).length ≤ if kind ≠ .general then es.length * 2 else es.length := by
    intro es
    rw [expand_length kind 0 0]
    unfold File.stored
    simp only
    by_cases hk : kind = .general
    · simp [hk]
    · rw [if_neg hk, if_pos hk]
      have := List.length_filter_le (fun e : Entry V => decide (e.row ≠ e.col)) es
      omega
  have := e1 (es.take i)
  rw [List.length_take] at this
  rw [expand1_length]
  have hm : min i es.length = i := by omega
  rw [hm] at this
  by_cases hk : kind = .general
  · rw [if_neg (not_not.mpr hk)] at this
    rw [if_pos hk, if_neg (not_not.mpr hk)]
    omega
  · rw [if_pos hk] at this
    rw [if_neg hk, if_pos hk]
    split <;> omega

/-- The loop over the entries. -/
theorem readLoop_runs {num : Num D V} (jk : Junk D V) {kind : Kind} {es : List (Entry V)} {dss : List (List (List Char))}
    (hf : List.Forall₂ (EntryWords num) es dss) {s : List Char} (hw : Words s dss.flatten) {cap : Nat} (hcap : cap = if kind ≠ .general then es.length * 2 else es.length) :
    Runs (forUp 0 es.length (⟨0, ⟨cap, jk.idx⟩, ⟨cap, jk.idx⟩, ⟨cap, jk.val⟩, s⟩ : RdSt V) fun _ st => readStep num jk kind num.real st)
      fun st => Has cap st (expand kind es) := by
  have hlen : es.length = dss.length := hf.length_eq
  refine forUp_runs' (fun i st => Has cap st (expand kind (es.take i)) ∧ Words st.rest (dss.drop i).flatten) (Nat.zero_le _) ?_ ?_ ?_
  · refine ⟨⟨rfl, rfl, rfl, rfl, ?_, ?_, ?_⟩, hw⟩ <;> intro k hk <;> simp [expand] at hk
  · rintro i st - hi ⟨h1, h2⟩
    have hi' : i < dss.length := by omega
    rw [List.drop_eq_getElem_cons hi', List.flatten_cons] at h2
    have he : EntryWords num es[i] dss[i] := List.forall₂_iff_get.mp hf |>.2 i hi hi'
    refine (readStep_runs jk h1 h2 he ?_).mono ?_
    · rw [hcap]; exact expand_take_le kind es i hi
    · rintro st' ⟨a, b⟩
      refine ⟨?_, b⟩
      rw [List.take_succ_eq_append_getElem hi]
      unfold expand
      rw [List.flatMap_append, List.flatMap_singleton]
      exact a
  · rintro st ⟨h1, -⟩
    rwa [List.take_length] at h1

/-- The arrays hold exactly these triples. -/
structure Exact (t : Buf Int × Buf Int × Buf V) (l : List (Int × Int × V)) : Prop where
  rsz : t.1.size = l.length
  csz : t.2.1.size = l.length
  vsz : t.2.2.size = l.length
  rows : Holds t.1 (l.map fun t => t.1)
  cols : Holds t.2.1 (l.map fun t => t.2.1)
  vals : Holds t.2.2 (l.map fun t => t.2.2)

theorem readData_runs {num : Num D V} (jk : Junk D V) {kind : Kind} {es : List (Entry V)} {dss : List (List (List Char))}
    (hf : List.Forall₂ (EntryWords num) es dss) {s : List Char} (hw : Words s dss.flatten) (hk : kind = .general ∨ es = [] ∨ ∃ e ∈ es, e.row ≠ e.col) :
    Runs (readData num jk kind num.real es.length s) fun t => Exact t (expand kind es) := by
  unfold readData
  simp only
  rw [runs_bind]
  refine (readLoop_runs jk hf hw rfl).mono ?_
  rintro st h
  rw [runs_ite]
  have hx : (expand kind es).length = _ := expand_length kind 0 0 es
  unfold File.stored at hx
  simp only at hx
  have h6 := h.index
  have h7 := h.rsz
  have h8 := h.csz
  have h9 := h.vsz
  by_cases hg : kind = .general
  · rw [if_neg (by simp [hg])] at h7 h8 h9
    rw [if_pos hg] at hx
    rw [if_neg (by rw [h6, hx]; exact not_not.mpr rfl), runs_pure]
    exact ⟨by rw [h7, hx], by rw [h8, hx], by rw [h9, hx], h.rows, h.cols, h.vals⟩
  · rw [if_neg hg] at hx
    rcases hk with hk | rfl | ⟨e, he, hne⟩
    · exact absurd hk hg
    · rw [if_neg (by rw [h6, hx]; simp), runs_pure]
      simp only [List.length_nil, Nat.zero_mul, ite_self] at h7 h8 h9
      simp only [List.length_nil, List.filter_nil] at hx
      exact ⟨by rw [h7, hx], by rw [h8, hx], by rw [h9, hx], h.rows, h.cols, h.vals⟩
    · have : 0 < (es.filter fun e => e.row ≠ e.col).length := by
        rw [List.length_pos_iff_exists_mem]
        exact ⟨e, List.mem_filter.mpr ⟨he, by simpa using hne⟩⟩
      rw [if_pos (by omega), runs_pure]
      exact ⟨h6, h6, h6, h.rows, h.cols, h.vals⟩

/-- For a symmetric kind with diagonal entries only, the arrays keep twice the size. -/
theorem readData_diag {num : Num D V} (jk : Junk D V) {kind : Kind} {es : List (Entry V)} {dss : List (List (List Char))}
    (hf : List.Forall₂ (EntryWords num) es dss) {s : List Char} (hw : Words s dss.flatten) (hk : kind ≠ .general) (hd : ∀ e ∈ es, e.row = e.col) :
    Runs (readData num jk kind num.real es.length s) fun t => t.1.size = es.length * 2 ∧ t.2.1.size = es.length * 2 ∧ t.2.2.size = es.length * 2 := by
  unfold readData
  simp only
  rw [runs_bind]
  refine (readLoop_runs jk hf hw rfl).mono ?_
  rintro st h
  rw [runs_ite]
  have hx : (expand kind es).length = _ := expand_length kind 0 0 es
  unfold File.stored at hx
  simp only at hx
  have h6 := h.index
  have h7 := h.rsz
  have h8 := h.csz
  have h9 := h.vsz
  have hfl : (es.filter fun e => e.row ≠ e.col) = [] := by
    rw [List.filter_eq_nil_iff]
    intro e he
    simp [hd e he]
  rw [if_neg hk, hfl] at hx
  simp only [List.length_nil, Nat.add_zero] at hx
  rw [if_pos hk] at h7 h8 h9
  rw [if_neg (by rw [h6, hx]; exact not_not.mpr rfl), runs_pure]
  exact ⟨h7, h8, h9⟩

end Hif.MM
