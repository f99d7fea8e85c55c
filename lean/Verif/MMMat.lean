import Verif.MMRead
import Verif.CroutList

set_option linter.unusedVariables false
set_option linter.unusedSectionVars false

/-!
# From the triples of a MatrixMarket file to compressed storage
-/

namespace Hif.MM
open Hif.Spec.MM
variable {D V : Type} [Inhabited V]

theorem sum_range_list {α β : Type} [AddCommMonoid β] (l : List α) (f : Nat → β) (g : α → β) (h : ∀ k (hk : k < l.length), f k = g l[k]) :
    ∑ k ∈ Finset.range l.length, f k = (l.map g).sum := by
  induction l using List.reverseRecOn with
  | nil => simp
  | append_singleton l a ih =>
    rw [List.length_append, List.length_singleton, Finset.sum_range_succ, List.map_append, List.sum_append]
    congr 1
    · refine ih fun k hk => ?_
      rw [h k (by simp; omega), List.getElem_append_left hk]
    · rw [h l.length (by simp)]
      simp

/-- Indices are legal. -/
structure Fits (m n : Nat) (l : List (Int × Int × V)) : Prop where
  hm : m < 2 ^ 31
  hn : n < 2 ^ 31
  row : ∀ x ∈ l, 0 ≤ x.1 ∧ x.1 < m
  col : ∀ x ∈ l, 0 ≤ x.2.1 ∧ x.2.1 < n
  distinct : l.Pairwise fun a b => ¬ (a.1 = b.1 ∧ a.2.1 = b.2.1)

theorem sizeT_of {z : Int} {m : Nat} (h : 0 ≤ z) (h2 : z < m) (hm : m < 2 ^ 31) : (Lhf.sizeT z : Int) = z := by
  unfold Lhf.sizeT
  rw [Int.emod_eq_of_lt h (by omega), Int.toNat_of_nonneg h]

theorem sizeT_nat {n : Nat} (h : n < 2 ^ 31) : Lhf.sizeT (n : Int) = n := by
  have := sizeT_of (z := n) (m := n + 1) (by omega) (by omega)
  unfold Lhf.sizeT
  rw [Int.emod_eq_of_lt (by omega) (by omega)]
  simp

theorem coo_runs [AddCommMonoid V] {t : Buf Int × Buf Int × Buf V} {l : List (Int × Int × V)} (h : Exact t l) {m n : Nat} (hf : Fits m n l) (h0 : l ≠ []) :
    Runs (CS.cooToCS m n (subs t.1) (subs t.2.1) t.2.2) fun A => A.WF ∧ A.Tight ∧ A.Sorted ∧ A.psize = m ∧ A.ssize = n ∧ A.inds.size = l.length ∧
      (∀ i, i < m → ∀ j, A.entry i j = (l.map fun x => if x.1 = (i : Int) ∧ x.2.1 = (j : Int) then x.2.2 else 0).sum) ∧
      ∀ i, i < m → ∀ p, p ∈ A.line i ↔ ∃ x ∈ l, x.1 = i ∧ x.2.1 = p.1 ∧ x.2.2 = p.2 := by
  have hpos : 0 < l.length := List.length_pos_iff.mpr h0
  have hr : ∀ k (hk : k < l.length), ((subs t.1).get k : Int) = l[k].1 := by
    intro k hk
    have := h.rows k (by simpa using hk)
    rw [List.getElem_map] at this
    show (Lhf.sizeT (t.1.get k) : Int) = _
    rw [this]
    have hx := hf.row _ (List.getElem_mem hk)
    exact sizeT_of hx.1 hx.2 hf.hm
  have hc : ∀ k (hk : k < l.length), ((subs t.2.1).get k : Int) = l[k].2.1 := by
    intro k hk
    have := h.cols k (by simpa using hk)
    rw [List.getElem_map] at this
    show (Lhf.sizeT (t.2.1.get k) : Int) = _
    rw [this]
    have hx := hf.col _ (List.getElem_mem hk)
    exact sizeT_of hx.1 hx.2 hf.hn
  have hv : ∀ k (hk : k < l.length), t.2.2.get k = l[k].2.2 := by
    intro k hk
    have := h.vals k (by simpa using hk)
    rwa [List.getElem_map] at this
  have hsz : (subs t.1).size = l.length := h.rsz
  have hd : ∀ k k', k < k' → k' < (subs t.1).size → ¬ ((subs t.1).get k = (subs t.1).get k' ∧ (subs t.2.1).get k = (subs t.2.1).get k') := by
    rintro k k' h1 h2 ⟨e1, e2⟩
    rw [hsz] at h2
    refine List.pairwise_iff_getElem.mp hf.distinct k k' (by omega) h2 h1 ⟨?_, ?_⟩
    · rw [← hr k (by omega), ← hr k' h2, e1]
    · rw [← hc k (by omega), ← hc k' h2, e2]
  have a1 : 0 < (subs t.1).size := by omega
  have a2 : (subs t.2.1).size = (subs t.1).size := by rw [hsz]; exact h.csz
  have a3 : t.2.2.size = (subs t.1).size := by rw [hsz]; exact h.vsz
  have a4 : ∀ k, k < (subs t.1).size → (subs t.1).get k < m := by
    intro k hk
    rw [hsz] at hk
    have := hr k hk
    have := hf.row _ (List.getElem_mem hk)
    omega
  have a5 : ∀ k, k < (subs t.1).size → (subs t.2.1).get k < n := by
    intro k hk
    rw [hsz] at hk
    have := hc k hk
    have := hf.col _ (List.getElem_mem hk)
    omega
  have b1 := CS.cooToCS_strict m n _ _ _ a1 a2 a3 a4 a5 hd
  have b2 := CS.cooToCS_runs m n _ _ _ a1 a2 a3 a4 a5 (fun i hi => Or.inl fun k k' h1 h2 e1 e2 e3 => hd k k' h1 h2 ⟨by rw [e1, e2], e3⟩)
  refine (b1.and b2).mono ?_
  rintro A ⟨⟨c1, c2, c3⟩, d1, d2, d3, d4, d5, d6, d7, d8, d9⟩
  refine ⟨c1, d2, c2, d3, d4, by rw [d5, hsz], ?_, ?_⟩
  · intro i hi j
    rw [c3 i hi j, hsz]
    refine sum_range_list l _ _ fun k hk => ?_
    rw [hv k hk]
    have e1 := hr k hk
    have e2 := hc k hk
    have : ((subs t.1).get k = i ∧ (subs t.2.1).get k = j) ↔ (l[k].1 = (i : Int) ∧ l[k].2.1 = (j : Int)) := by omega
    simp only [this]
  · intro i hi p
    rw [d9 i hi p]
    constructor
    · rintro ⟨k, k1, k2, rfl⟩
      rw [hsz] at k1
      refine ⟨l[k], List.getElem_mem k1, ?_, ?_, (hv k k1).symm⟩
      · have := hr k k1; omega
      · have := hc k k1; exact this.symm
    · rintro ⟨x, hx, e1, e2, e3⟩
      obtain ⟨k, hk, rfl⟩ := List.getElem_of_mem hx
      refine ⟨k, by omega, ?_, ?_⟩
      · have := hr k hk; omega
      · have h1 := hc k hk
        have h2 : (subs t.2.1).get k = p.1 := by omega
        rw [h2, hv k hk, e3]

/-- Rows and columns exchanged. -/
def swap (x : Int × Int × V) : Int × Int × V := (x.2.1, x.1, x.2.2)

theorem Exact.swap {t : Buf Int × Buf Int × Buf V} {l : List (Int × Int × V)} (h : Exact t l) : Exact (t.2.1, t.1, t.2.2) (l.map swap) where
  rsz := by rw [List.length_map]; exact h.csz
  csz := by rw [List.length_map]; exact h.rsz
  vsz := by rw [List.length_map]; exact h.vsz
  rows := by rw [List.map_map]; exact h.cols
  cols := by rw [List.map_map]; exact h.rows
  vals := by rw [List.map_map]; exact h.vals

theorem Fits.swap {m n : Nat} {l : List (Int × Int × V)} (h : Fits m n l) : Fits n m (l.map swap) where
  hm := h.hn
  hn := h.hm
  row := by
    intro x hx
    obtain ⟨y, hy, rfl⟩ := List.mem_map.mp hx
    exact h.col y hy
  col := by
    intro x hx
    obtain ⟨y, hy, rfl⟩ := List.mem_map.mp hx
    exact h.row y hy
  distinct := by
    rw [List.pairwise_map]
    exact h.distinct.imp fun hab e => hab ⟨e.2, e.1⟩

section
variable [Neg V] [Star V]

theorem expand1_mem {kind : Kind} {e : Entry V} {x : Int × Int × V} (h : x ∈ expand1 kind e) :
    (x.1 = (e.row : Int) - 1 ∧ x.2.1 = (e.col : Int) - 1) ∨ (kind ≠ .general ∧ e.row ≠ e.col ∧ x.1 = (e.col : Int) - 1 ∧ x.2.1 = (e.row : Int) - 1) := by
  unfold expand1 at h
  split at h
  · simp only [List.mem_singleton] at h
    subst h
    exact Or.inl ⟨rfl, rfl⟩
  · rename_i hn
    simp only [List.mem_cons, List.not_mem_nil, or_false] at h
    rcases h with rfl | rfl
    · exact Or.inl ⟨rfl, rfl⟩
    · exact Or.inr ⟨fun h => hn (Or.inl h), fun h => hn (Or.inr h), rfl, rfl⟩

theorem fits_expand {f : File V} (hr : f.InRange) (hd : f.Distinct) (hq : f.kind ≠ .general → f.nrows = f.ncols) :
    Fits f.nrows f.ncols (expand f.kind f.entries) where
  hm := hr.rows
  hn := hr.cols
  row := by
    intro x hx
    obtain ⟨e, he, hx⟩ := List.mem_flatMap.mp hx
    have h1 := hr.row e he
    have h2 := hr.col e he
    rcases expand1_mem hx with ⟨a, b⟩ | ⟨k, _, a, b⟩
    · omega
    · have := hq k
      omega
  col := by
    intro x hx
    obtain ⟨e, he, hx⟩ := List.mem_flatMap.mp hx
    have h1 := hr.row e he
    have h2 := hr.col e he
    rcases expand1_mem hx with ⟨a, b⟩ | ⟨k, _, a, b⟩
    · omega
    · have := hq k
      omega
  distinct := by
    unfold expand
    rw [List.pairwise_flatMap]
    constructor
    · intro e he
      unfold expand1
      split
      · exact List.pairwise_singleton _ _
      · rename_i hn
        rw [List.pairwise_pair]
        rintro ⟨h1, h2⟩
        refine hn (Or.inr ?_)
        simp only at h1
        omega
    · refine hd.imp ?_
      rintro a b ⟨h1, h2⟩ x hx y hy ⟨e1, e2⟩
      rcases expand1_mem hx with ⟨a1, a2⟩ | ⟨k, _, a1, a2⟩ <;> rcases expand1_mem hy with ⟨b1, b2⟩ | ⟨k', _, b1, b2⟩
      · exact h1 (by ext <;> simp only <;> omega)
      · exact h2 k' (by ext <;> simp only <;> omega)
      · exact h2 k (by ext <;> simp only <;> omega)
      · exact h1 (by ext <;> simp only <;> omega)

end

theorem expand_entry [AddCommGroup V] [Star V] (f : File V) (i j : Nat) :
    ((expand f.kind f.entries).map fun x => if x.1 = (i : Int) ∧ x.2.1 = (j : Int) then x.2.2 else 0).sum = f.entry i j := by
  unfold File.entry expand
  generalize f.entries = es
  induction es with
  | nil => rfl
  | cons e es ih =>
    rw [List.flatMap_cons, List.map_append, List.sum_append, ih, List.map_cons, List.sum_cons]
    congr 1
    have c1 : ((e.row : Int) - 1 = i ∧ (e.col : Int) - 1 = j) ↔ (e.row = i + 1 ∧ e.col = j + 1) := by omega
    have c2 : ((e.col : Int) - 1 = i ∧ (e.row : Int) - 1 = j) ↔ (e.row = j + 1 ∧ e.col = i + 1) := by omega
    unfold expand1
    by_cases hg : f.kind = .general ∨ e.row = e.col
    · rw [if_pos hg]
      have : ¬ (f.kind ≠ .general ∧ e.row ≠ e.col ∧ e.row = j + 1 ∧ e.col = i + 1) := by
        rintro ⟨h1, h2, _⟩
        exact hg.elim h1 h2
      rw [if_neg this]
      simp only [List.map_cons, List.map_nil, List.sum_cons, List.sum_nil, c1]
    · rw [if_neg hg]
      have : (f.kind ≠ .general ∧ e.row ≠ e.col ∧ e.row = j + 1 ∧ e.col = i + 1) ↔ (e.row = j + 1 ∧ e.col = i + 1) := by
        constructor
        · exact fun h => h.2.2
        · exact fun h => ⟨fun h1 => hg (Or.inl h1), fun h1 => hg (Or.inr h1), h⟩
      simp only [this]
      simp only [List.map_cons, List.map_nil, List.sum_cons, List.sum_nil, c1, c2, add_zero]

section
variable [Neg V] [Star V]

/-- The head and the dimensions of a sparse file. -/
theorem describes_head {num : Num D V} {f : File V} {text : List Char} (h : Describes num f text) :
    ∃ s t dss, readFirst text = .ok ((true, num.real, f.kind), s) ∧
      readSize 3 s = .ok ([(f.nrows : Int), (f.ncols : Int), (f.entries.length : Int)], t) ∧ List.Forall₂ (EntryWords num) f.entries dss ∧ Words t dss.flatten := by
  obtain ⟨head, wm, wn, wz, dss, h1, h2, h3, h4, h5, h6⟩ := h
  obtain ⟨s, t, e1, e2, e3⟩ := layout_readSize h6 h1.1 (ns := [f.nrows, f.ncols, f.entries.length]) (.cons h2 (.cons h3 (.cons h4 .nil))) (by simp)
  refine ⟨s, t, dss, ?_, e2, h5, e3⟩
  rw [readFirst_ok h1 (Or.inl rfl) (by cases num.real <;> simp) e1]
  cases num.real <;> rfl

theorem readSparse_runs {num : Num D V} (jk : Junk D V) {f : File V} {text : List Char} (h : Describes num f text) (hr : f.InRange)
    {Q : Buf Int × Buf Int × Buf V → Prop}
    (hk : ∀ dss s, List.Forall₂ (EntryWords num) f.entries dss → Words s dss.flatten → Runs (readData num jk f.kind num.real f.entries.length s) Q) :
    Runs (readSparse num jk text) fun t => t.nrows = f.nrows ∧ t.ncols = f.ncols ∧ Q (t.rows, t.cols, t.vals) := by
  obtain ⟨s, t, dss, e1, e2, e3, e4⟩ := describes_head h
  unfold readSparse
  rw [e1, runs_bind, runs_ok]
  show Runs (if true = false then _ else if num.real ≠ num.real then _ else _) _
  rw [if_neg (by decide), if_neg (not_not.mpr rfl), e2, runs_bind, runs_ok]
  show Runs (do
    let (rows, cols, vals) ← readData num jk f.kind num.real (Lhf.sizeT (f.entries.length : Int)) t
    pure (⟨Lhf.sizeT (f.nrows : Int), Lhf.sizeT (f.ncols : Int), rows, cols, vals⟩ : Triples V)) _
  rw [sizeT_nat hr.nnz, sizeT_nat hr.rows, sizeT_nat hr.cols, runs_bind]
  refine (hk dss t e3 e4).mono ?_
  rintro ⟨a, b, c⟩ hq
  rw [runs_pure]
  exact ⟨rfl, rfl, hq⟩

end
end Hif.MM
