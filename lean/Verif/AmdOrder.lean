import Verif.AmdOne

set_option linter.unusedVariables false

/-! # Checks, transposition of unsorted patterns, and the whole ordering -/

namespace Hif
namespace Amd

/-- A compressed pattern whose columns may hold their entries in any order and more than once. -/
structure Raw (n : Nat) (ap ai : Arr) : Prop where
  ps : ap.size = n + 1
  p0 : ap.get 0 = 0
  mono : ∀ j : Int, 0 ≤ j → j < n → ap.get j ≤ ap.get (j + 1)
  is : ap.get n ≤ ai.size
  rng : ∀ q : Int, 0 ≤ q → q < ap.get n → 0 ≤ ai.get q ∧ ai.get q < n

section
variable {n : Nat} {ap ai : Arr}

theorem Raw.le (R : Raw n ap ai) {j : Int} (h0 : 0 ≤ j) : ∀ (d : Nat), j + d ≤ n → ap.get j ≤ ap.get (j + d) := by
  intro d
  induction d with
  | zero => intro _; simp
  | succ d ih =>
    intro h
    push_cast at h ⊢
    have h1 := ih (by omega)
    have h2 := R.mono (j + d) (by omega) (by omega)
    rw [show j + d + 1 = j + (d + 1) by ring] at h2
    omega

theorem Raw.pos (R : Raw n ap ai) {j : Int} (h0 : 0 ≤ j) (h1 : j ≤ n) : 0 ≤ ap.get j ∧ ap.get j ≤ ap.get n := by
  have a := R.le (le_refl 0) j.toNat (by omega)
  have b := R.le h0 (n - j).toNat (by omega)
  rw [show (0 : Int) + (j.toNat : Int) = j by omega, R.p0] at a
  rw [show j + ((n - j).toNat : Int) = n by omega] at b
  exact ⟨a, b⟩

/-- The entries of column `j` increase. -/
def Inc (ap ai : Arr) (j : Int) : Prop := ∀ q r : Int, ap.get j ≤ q → q < r → r < ap.get (j + 1) → ai.get q < ai.get r

theorem Raw.csc (R : Raw n ap ai) (h : ∀ j : Int, 0 ≤ j → j < n → Inc ap ai j) : Csc n ap ai :=
  ⟨R.ps, fun j h0 h1 => (R.pos h0 (by omega)).1, R.mono, fun j h0 h1 => (R.pos (j := j + 1) (by omega) (by omega)).2.trans R.is,
    fun j h0 h1 q q0 q1 => R.rng q ((R.pos h0 (by omega)).1.trans q0) (lt_of_lt_of_le q1 (R.pos (j := j + 1) (by omega) (by omega)).2), h⟩

/-- **The checks**: a valid pattern is accepted, and called jumbled exactly if some column does not increase. -/
theorem valid_runs (R : Raw n ap ai) : Runs (valid n ap ai) fun r => (r = 0 ∨ r = 1) ∧ (r = 0 ↔ ∀ j : Int, 0 ≤ j → j < n → Inc ap ai j) := by
  unfold valid
  have hn := R.pos (j := (n : Int)) (by omega) (le_refl _)
  have hps := R.ps
  simp only [runs_bind, runs_rdZ]
  refine ⟨by omega, by omega, ?_⟩
  rw [if_neg (show ¬ (ap.get 0 ≠ 0 ∨ ap.get n < 0) by rw [R.p0]; omega)]
  refine forZ_runs (fun k (r : Int) => 0 ≤ k ∧ (r = 0 ∨ r = 1) ∧ (r = 0 ↔ ∀ j : Int, 0 ≤ j → j < k → Inc ap ai j)) (by omega) ⟨le_refl _, Or.inl rfl, ⟨fun _ j a b => by omega, fun _ => rfl⟩⟩
    (fun j r _ hj ⟨j0, k1, k2⟩ => ?_) fun r h => h.2
  rw [if_neg (show ¬ r = -2 by omega)]
  simp only [runs_bind, runs_rdZ]
  refine ⟨by omega, by omega, ?_⟩
  have hm := R.mono j j0 hj
  rw [if_neg (show ¬ ap.get (j + 1) < ap.get j by omega), runs_bind]
  refine forZ_runs (fun p (s : Int × Int) => ap.get j ≤ p ∧ (s.1 = 0 ∨ s.1 = 1) ∧ (s.1 = 0 ↔ (∀ j' : Int, 0 ≤ j' → j' < j → Inc ap ai j') ∧ ∀ q t : Int, ap.get j ≤ q → q < t → t < p → ai.get q < ai.get t) ∧
      ((p = ap.get j ∧ s.2 = -1) ∨ (ap.get j < p ∧ s.2 = ai.get (p - 1)))) hm
    ⟨le_refl _, k1, ⟨fun h => ⟨k2.1 h, fun q t a b c => by omega⟩, fun h => k2.2 h.1⟩, Or.inl ⟨rfl, rfl⟩⟩ (fun p s hp0 hp1 ⟨_, s1, s2, s3⟩ => ?_) fun s ⟨_, s1, s2, _⟩ => ?_
  · rw [if_neg (show ¬ s.1 = -2 by omega)]
    have a1 := (R.pos (j := j) j0 (by omega)).1
    have a2 := (R.pos (j := j + 1) (by omega) (by omega)).2
    have a3 := R.is
    simp only [runs_bind, runs_rdZ]
    refine ⟨by omega, ?_⟩
    have hr := R.rng p (by omega) (by omega)
    rw [if_neg (show ¬ (ai.get p < 0 ∨ (n : Int) ≤ ai.get p) by omega), runs_pure]
    refine ⟨by omega, ?_, ?_, Or.inr ⟨by omega, by simp⟩⟩
    · by_cases e : ai.get p ≤ s.2
      · rw [if_pos e]; exact Or.inr rfl
      · rw [if_neg e]; exact s1
    · by_cases e : ai.get p ≤ s.2
      · simp only [if_pos e]
        refine ⟨fun h => by omega, fun ⟨_, h⟩ => ?_⟩
        rcases s3 with ⟨u, v⟩ | ⟨u, v⟩
        · omega
        · have := h (p - 1) p (by omega) (by omega) (by omega)
          omega
      · simp only [if_neg e]
        rw [s2]
        constructor
        · rintro ⟨h1, h2⟩
          refine ⟨h1, fun q t a b c => ?_⟩
          by_cases hh : t < p
          · exact h2 q t a b hh
          · have ht : t = p := by omega
            subst ht
            rcases s3 with ⟨u, v⟩ | ⟨u, v⟩
            · omega
            · by_cases hq : q = t - 1
              · rw [hq]; omega
              · have := h2 q (t - 1) a (by omega) (by omega); omega
        · rintro ⟨h1, h2⟩
          exact ⟨h1, fun q t a b c => h2 q t a b (by omega)⟩
  · rw [runs_pure]
    refine ⟨by omega, s1, s2.trans ⟨fun ⟨h1, h2⟩ j' a b => ?_, fun h => ⟨fun j' a b => h j' a (by omega), fun q t a b c => h j j0 (by omega) q t a b c⟩⟩⟩
    by_cases e : j' = j
    · subst e; exact fun q t a b c => h2 q t a b c
    · exact h1 j' a (by omega)

/-- A row index out of range is found. -/
theorem valid_bad (hps : ap.size = n + 1) (hp0 : ap.get 0 = 0) (hmono : ∀ j : Int, 0 ≤ j → j < n → ap.get j ≤ ap.get (j + 1)) (his : ap.get n ≤ ai.size)
    (hbad : ∃ q : Int, 0 ≤ q ∧ q < ap.get n ∧ (ai.get q < 0 ∨ n ≤ ai.get q)) : valid n ap ai = .ok (-2) := by
  obtain ⟨q, q0, q1, q2⟩ := hbad
  have hpos : ∀ (j : Nat), (j : Int) ≤ n → 0 ≤ ap.get j := fun j => by
    induction j with
    | zero => intro _; rw [Nat.cast_zero, hp0]
    | succ j ih => intro h; push_cast at h ⊢; exact (ih (by omega)).trans (hmono j (by omega) (by omega))
  have hup : ∀ (d : Nat) (j : Int), 0 ≤ j → j + d ≤ n → ap.get j ≤ ap.get (j + d) := fun d => by
    induction d with
    | zero => intro j _ _; simp
    | succ d ih =>
      intro j a h
      push_cast at h ⊢
      have h1 := ih j a (by omega)
      have h2 := hmono (j + d) (by omega) (by omega)
      rw [show j + d + 1 = j + (d + 1) by ring] at h2
      omega
  suffices h : Runs (valid n ap ai) fun r => r = -2 by
    obtain ⟨r, e, rfl⟩ := h
    exact e
  unfold valid
  simp only [runs_bind, runs_rdZ]
  refine ⟨by omega, by omega, ?_⟩
  rw [if_neg (show ¬ (ap.get 0 ≠ 0 ∨ ap.get n < 0) by rw [hp0]; omega)]
  refine forZ_runs (fun k (r : Int) => 0 ≤ k ∧ (r = -2 ∨ ap.get k ≤ q)) (by omega) ⟨le_refl _, Or.inr (by omega)⟩ (fun j r _ hj ⟨j0, k1⟩ => ?_) fun r h => h.2.elim id fun h => by omega
  by_cases e : r = -2
  · rw [if_pos e, runs_pure]; exact ⟨by omega, Or.inl e⟩
  rw [if_neg e]
  have hq : ap.get j ≤ q := k1.resolve_left e
  simp only [runs_bind, runs_rdZ]
  refine ⟨by omega, by omega, ?_⟩
  have hm := hmono j j0 hj
  rw [if_neg (show ¬ ap.get (j + 1) < ap.get j by omega), runs_bind]
  have a1 := hpos j.toNat (by omega)
  rw [show ((j.toNat : Nat) : Int) = j by omega] at a1
  have a2 := hup (n - (j + 1)).toNat (j + 1) (by omega) (by omega)
  rw [show j + 1 + ((n - (j + 1)).toNat : Int) = n by omega] at a2
  refine forZ_runs (fun p (s : Int × Int) => s.1 = -2 ∨ p ≤ q) hm (Or.inr hq) (fun p s hp0 hp1 k => ?_) fun s k => ?_
  · by_cases e : s.1 = -2
    · rw [if_pos e, runs_pure]; exact Or.inl e
    · rw [if_neg e]
      have hk := k.resolve_left e
      simp only [runs_bind, runs_rdZ]
      refine ⟨by omega, ?_⟩
      by_cases w : ai.get p < 0 ∨ (n : Int) ≤ ai.get p
      · rw [if_pos w, runs_pure]; exact Or.inl rfl
      · rw [if_neg w, runs_pure]
        refine Or.inr ?_
        by_contra hc
        have : p = q := by omega
        rw [this] at w
        exact w q2
  · rw [runs_pure]; exact ⟨by omega, k⟩

/-! ### Transposition -/

open Classical in
/-- Columns before `j` with an entry in row `i`. -/
noncomputable def tr (ap ai : Arr) (j i : Int) : List Int := ((List.range j.toNat).map Int.ofNat).filter fun k => decide (In ap ai k i)

open Classical in
theorem mem_tr {j i k : Int} : k ∈ tr ap ai j i ↔ (0 ≤ k ∧ k < j) ∧ In ap ai k i := by
  unfold tr
  rw [List.mem_filter, List.mem_map]
  simp only [List.mem_range, decide_eq_true_eq]
  refine and_congr_left fun _ => ⟨?_, fun h => ⟨k.toNat, by omega, ?_⟩⟩
  · rintro ⟨a, h, rfl⟩
    simp only [Int.ofNat_eq_natCast]; omega
  · simp only [Int.ofNat_eq_natCast]; omega

open Classical in
theorem tr_succ {j i : Int} (h : 0 ≤ j) : tr ap ai (j + 1) i = tr ap ai j i ++ if In ap ai j i then [j] else [] := by
  unfold tr
  rw [show (j + 1).toNat = j.toNat + 1 by omega, List.range_succ, List.map_append, List.filter_append]
  congr 1
  simp only [List.map_cons, List.map_nil, Int.ofNat_eq_natCast]
  rw [show ((j.toNat : Nat) : Int) = j by omega]
  by_cases e : In ap ai j i
  · simp [e]
  · simp [e]

theorem tr_zero (i : Int) : tr ap ai 0 i = [] := by unfold tr; simp

open Classical in
theorem tr_sorted (j i : Int) : (tr ap ai j i).Pairwise (· < ·) := by
  unfold tr
  refine List.Pairwise.filter _ ?_
  rw [List.pairwise_map]
  exact List.pairwise_lt_range.imp fun h => by simpa using h

open Classical in
theorem tr_len {j i : Int} (h0 : 0 ≤ j) : ∀ (d : Nat), (tr ap ai j i).length ≤ (tr ap ai (j + d) i).length := by
  intro d
  induction d with
  | zero => simp
  | succ d ih =>
    push_cast
    rw [← add_assoc, tr_succ (by omega), List.length_append]
    omega

/-- Row `i` has been met in column `j` before position `p`. -/
def Seen (ap ai : Arr) (j p i : Int) : Prop := ∃ q : Int, ap.get j ≤ q ∧ q < p ∧ ai.get q = i

open Classical in
/-- Lists when the pass over column `j` is at position `p`. -/
noncomputable def lp (ap ai : Arr) (j p i : Int) : List Int := tr ap ai j i ++ if Seen ap ai j p i then [j] else []

theorem lp_start (j i : Int) : lp ap ai j (ap.get j) i = tr ap ai j i := by
  unfold lp
  rw [if_neg (fun ⟨q, a, b, _⟩ => by omega), List.append_nil]

theorem lp_end {j i : Int} (h : 0 ≤ j) : lp ap ai j (ap.get (j + 1)) i = tr ap ai (j + 1) i := by
  unfold lp
  rw [tr_succ h]
  rfl

theorem seen_succ {j p i : Int} (h : ap.get j ≤ p) : Seen ap ai j (p + 1) i ↔ Seen ap ai j p i ∨ i = ai.get p := by
  constructor
  · rintro ⟨q, a, b, c⟩
    by_cases e : q = p
    · subst e; exact Or.inr c.symm
    · exact Or.inl ⟨q, a, by omega, c⟩
  · rintro (⟨q, a, b, c⟩ | e)
    · exact ⟨q, a, by omega, c⟩
    · exact ⟨p, h, by omega, e.symm⟩

theorem lp_same {j p i : Int} (h : ap.get j ≤ p) (hs : Seen ap ai j p i ∨ i ≠ ai.get p) : lp ap ai j (p + 1) i = lp ap ai j p i := by
  unfold lp
  have : Seen ap ai j (p + 1) i ↔ Seen ap ai j p i := by
    rw [seen_succ h]
    exact ⟨fun u => u.elim id fun e => hs.elim id fun w => absurd e w, Or.inl⟩
  by_cases e : Seen ap ai j p i
  · rw [if_pos e, if_pos (this.2 e)]
  · rw [if_neg e, if_neg (fun w => e (this.1 w))]

theorem lp_new {j p : Int} (h : ap.get j ≤ p) (hs : ¬ Seen ap ai j p (ai.get p)) : lp ap ai j (p + 1) (ai.get p) = lp ap ai j p (ai.get p) ++ [j] := by
  unfold lp
  rw [if_pos ((seen_succ h).2 (Or.inr rfl)), if_neg hs, List.append_nil]

theorem lp_len {j p i : Int} (h0 : 0 ≤ j) (h1 : j < n) (hp : p ≤ ap.get (j + 1)) : (lp ap ai j p i).length ≤ (tr ap ai n i).length := by
  have h := tr_len (ap := ap) (ai := ai) (i := i) (show 0 ≤ j + 1 by omega) (n - (j + 1)).toNat
  rw [show j + 1 + ((n - (j + 1)).toNat : Int) = n by omega, tr_succ h0, List.length_append] at h
  unfold lp
  rw [List.length_append]
  by_cases e : Seen ap ai j p i
  · obtain ⟨q, a, b, c⟩ := e
    rw [if_pos ⟨q, a, b, c⟩]
    rw [if_pos ⟨q, a, by omega, c⟩] at h
    exact h
  · rw [if_neg e]; simp; omega

variable {σ : Type}

/-- **A pass over the columns** with a flag for every row: the body appends column `j` to the list of the row, once. -/
theorem sweep_runs (R : Raw n ap ai) (fl : σ → Arr) (body : Int → Int → σ → Hif.M σ) (J : (Int → List Int) → Int → σ → Prop) {s : σ} (h0 : J (fun _ => []) 0 s)
    (hs0 : (fl s).size = n) (hf0 : ∀ i : Int, 0 ≤ i → i < n → (fl s).get i = -1)
    (hold : ∀ (j p : Int) (s : σ) (L : Int → List Int), 0 ≤ j → j < n → 0 ≤ p → p < ap.get n → J L p s → (fl s).size = n → (fl s).get (ai.get p) = j → Runs (body j p s) fun s' => fl s' = fl s ∧ J L (p + 1) s')
    (hnew : ∀ (j p : Int) (s : σ) (L L' : Int → List Int), 0 ≤ j → j < n → 0 ≤ p → p < ap.get n → J L p s → (fl s).size = n → (fl s).get (ai.get p) ≠ j → (∀ i, ((L' i).length : Int) ≤ (tr ap ai n i).length) →
      (∀ i, L' i = if i = ai.get p then L i ++ [j] else L i) → Runs (body j p s) fun s' => fl s' = (fl s).set (ai.get p) j ∧ J L' (p + 1) s') :
    Runs (forZ 0 n s fun j s => do
      let p2 ← ap.rd (j + 1)
      let p1 ← ap.rd j
      forZ p1 p2 s fun p s => body j p s) fun s' => (fl s').size = n ∧ J (fun i => tr ap ai n i) (ap.get n) s' := by
  have hps := R.ps
  refine forZ_runs (fun j s => 0 ≤ j ∧ (fl s).size = n ∧ (∀ i : Int, 0 ≤ i → i < n → (fl s).get i < j) ∧ J (fun i => tr ap ai j i) (ap.get j) s) (by omega)
    ⟨le_refl _, hs0, fun i a b => by rw [hf0 i a b]; omega, ?_⟩ (fun j s _ hj ⟨j0, k1, k2, k3⟩ => ?_) fun s h => ⟨h.2.1, h.2.2.2⟩
  · rw [R.p0]; simp only [tr_zero]; exact h0
  · simp only [runs_bind, runs_rdZ]
    refine ⟨by omega, by omega, ?_⟩
    have a1 := (R.pos (j := j) j0 (by omega)).1
    have a2 := (R.pos (j := j + 1) (by omega) (by omega)).2
    refine forZ_runs (fun p s => ap.get j ≤ p ∧ (fl s).size = n ∧ (∀ i : Int, 0 ≤ i → i < n → (fl s).get i ≤ j ∧ ((fl s).get i = j ↔ Seen ap ai j p i)) ∧ J (fun i => lp ap ai j p i) p s) (R.mono j j0 hj)
      ⟨le_refl _, k1, fun i a b => ⟨(k2 i a b).le, fun e => by have := k2 i a b; omega, fun ⟨q, u, v, _⟩ => by omega⟩, ?_⟩ (fun p s hp0 hp1 ⟨_, m1, m2, m3⟩ => ?_)
      fun s ⟨_, m1, m2, m3⟩ => ⟨by omega, m1, fun i a b => by have := (m2 i a b).1; omega, ?_⟩
    · simp only [lp_start]; exact k3
    · obtain ⟨i0, i1⟩ := R.rng p (by omega) (by omega)
      by_cases e : (fl s).get (ai.get p) = j
      · refine (hold j p s _ j0 hj (by omega) (by omega) m3 m1 e).mono fun s' ⟨u, v⟩ => ⟨by omega, by rw [u]; exact m1, fun i a b => ?_, ?_⟩
        · rw [u]
          refine ⟨(m2 i a b).1, (m2 i a b).2.trans ?_⟩
          rw [seen_succ hp0]
          exact ⟨Or.inl, fun w => w.elim id fun w => by rw [w]; exact (m2 _ i0 i1).2.1 e⟩
        · have : (fun i => lp ap ai j (p + 1) i) = fun i => lp ap ai j p i := funext fun i => by
            by_cases w : i = ai.get p
            · exact lp_same hp0 (Or.inl (by rw [w]; exact (m2 _ i0 i1).2.1 e))
            · exact lp_same hp0 (Or.inr w)
          rw [this]; exact v
      · have hns : ¬ Seen ap ai j p (ai.get p) := fun w => e ((m2 _ i0 i1).2.2 w)
        refine (hnew j p s _ (fun i => lp ap ai j (p + 1) i) j0 hj (by omega) (by omega) m3 m1 e (fun i => by exact_mod_cast lp_len j0 hj (by omega)) fun i => ?_).mono fun s' ⟨u, v⟩ =>
          ⟨by omega, by rw [u]; exact m1, fun i a b => ?_, v⟩
        · by_cases w : i = ai.get p
          · rw [if_pos w, w]; exact lp_new hp0 hns
          · rw [if_neg w]; exact lp_same hp0 (Or.inr w)
        · rw [u, seen_succ hp0]
          by_cases w : i = ai.get p
          · rw [w, Arr.set_same]; exact ⟨le_refl _, ⟨fun _ => Or.inr rfl, fun _ => rfl⟩⟩
          · rw [Arr.set_ne _ _ w]
            exact ⟨(m2 i a b).1, (m2 i a b).2.trans ⟨Or.inl, fun z => z.elim id fun z => absurd z w⟩⟩
    · simp only [lp_end j0] at m3; exact m3

/-- Sum of the lengths of the lists before `k`. -/
noncomputable def pt (n : Nat) (ap ai : Arr) (k : Int) : Int := ∑ x ∈ (nodes n).filter fun x => x < k, ((tr ap ai n x).length : Int)

theorem pt_zero : pt n ap ai 0 = 0 := by
  unfold pt
  rw [Finset.filter_false_of_mem (fun x hx => by have := (mem_nodes.1 hx).1; omega), Finset.sum_empty]

theorem pt_succ {k : Int} (h0 : 0 ≤ k) (h1 : k < n) : pt n ap ai (k + 1) = pt n ap ai k + (tr ap ai n k).length := by
  unfold pt
  have : (nodes n).filter (fun x => x < k + 1) = insert k ((nodes n).filter fun x => x < k) := by
    ext x
    rw [Finset.mem_insert, Finset.mem_filter, Finset.mem_filter]
    constructor
    · intro u
      by_cases hx : x = k
      · exact Or.inl hx
      · exact Or.inr ⟨u.1, by omega⟩
    · rintro (u | u)
      · rw [u]; exact ⟨mem_nodes.2 ⟨h0, h1⟩, by omega⟩
      · exact ⟨u.1, by omega⟩
  rw [this, Finset.sum_insert (by rw [Finset.mem_filter]; omega)]; ring

theorem pt_mono {k l : Int} (h : k ≤ l) : pt n ap ai k ≤ pt n ap ai l := by
  unfold pt
  refine Finset.sum_le_sum_of_subset_of_nonneg (fun x hx => ?_) fun x _ _ => by omega
  rw [Finset.mem_filter] at hx ⊢
  exact ⟨hx.1, by omega⟩

theorem pt_nonneg (k : Int) : 0 ≤ pt n ap ai k := Finset.sum_nonneg fun x _ => by omega

theorem pt_all : pt n ap ai n = ∑ x ∈ nodes n, ((tr ap ai n x).length : Int) := by
  unfold pt
  rw [Finset.filter_true_of_mem fun x hx => (mem_nodes.1 hx).2]

/-- Entries of a part of an array that holds a sorted list. -/
theorem Seg.sorted {f : Int → Int} : ∀ {l : List Int} {p : Int}, Seg f p l → l.Pairwise (· < ·) → ∀ q r : Int, p ≤ q → q < r → r < p + l.length → f q < f r
  | [], p, _, _, q, r, a, b, c => by simp at c; omega
  | x :: l, p, h, hp, q, r, a, b, c => by
    rw [List.pairwise_cons] at hp
    rw [List.length_cons] at c
    push_cast at c
    by_cases e : q = p
    · have hr : f r ∈ l := by
        have := Seg.get_mem (k := r - (p + 1)) h.2 (by omega) (by omega)
        rwa [show p + 1 + (r - (p + 1)) = r by ring] at this
      have hq : f q = x := by rw [e]; exact h.1
      rw [hq]; exact hp.1 _ hr
    · exact Seg.sorted h.2 hp.2 q r (by omega) b (by omega)

/-- The rows stored one after the other are a compressed pattern. -/
theorem rows_csc {rp ri : Arr} {z : Int} (u1 : rp.size = n + 1) (u2 : ∀ i : Int, 0 ≤ i → i ≤ n → rp.get i = pt n ap ai i) (z3 : ri.size = z) (z4 : ∀ i : Int, 0 ≤ i → i < n → Seg ri.get (pt n ap ai i) (tr ap ai n i))
    (hall : pt n ap ai n ≤ z) : Csc n rp ri ∧ (∀ i j : Int, 0 ≤ i → i < n → 0 ≤ j → j < n → (In rp ri i j ↔ In ap ai j i)) ∧ rp.get 0 = 0 := by
  have hin : ∀ i j : Int, 0 ≤ i → i < n → (In rp ri i j ↔ j ∈ tr ap ai n i) := fun i j i0 i1 => by
    unfold In
    rw [u2 i i0 (by omega), u2 (i + 1) (by omega) (by omega), pt_succ i0 i1]
    constructor
    · rintro ⟨q, a, b, c⟩
      have := Seg.get_mem (k := q - pt n ap ai i) (z4 i i0 i1) (by omega) (by omega)
      rwa [show pt n ap ai i + (q - pt n ap ai i) = q by ring, c] at this
    · intro h
      obtain ⟨k, hk, e⟩ := Seg.mem (z4 i i0 i1) h
      exact ⟨_, by omega, by omega, e⟩
  refine ⟨⟨u1, fun i a b => by rw [u2 i a (by omega)]; exact pt_nonneg _, fun i a b => ?_, fun i a b => ?_, fun i a b q c d => ?_, fun i a b q t c d e => ?_⟩, fun i j a b c d => ?_, by rw [u2 0 (le_refl _) (by omega), pt_zero]⟩
  · rw [u2 i a (by omega), u2 (i + 1) (by omega) (by omega)]; exact pt_mono (by omega)
  · rw [u2 (i + 1) (by omega) (by omega), z3]; exact (pt_mono (by omega)).trans hall
  · have hm := (hin i (ri.get q) a b).1 ⟨q, c, d, rfl⟩
    exact (mem_tr.1 hm).1
  · rw [u2 i a (by omega)] at c
    rw [u2 (i + 1) (by omega) (by omega), pt_succ a b] at e
    exact (z4 i a b).sorted (tr_sorted _ _) q t c d e
  · rw [hin i j a b, mem_tr]
    exact ⟨fun h => h.2, fun h => ⟨⟨c, d⟩, h⟩⟩

/-- A pattern with sorted columns that begins at 0. -/
theorem Csc.raw (C : Csc n ap ai) (hn : n ≠ 0) (h0 : ap.get 0 = 0) : Raw n ap ai := by
  have hle : ∀ (k : Nat), (k : Int) ≤ n → ∀ q : Int, 0 ≤ q → q < ap.get k → ∃ j : Int, (0 ≤ j ∧ j < n) ∧ ap.get j ≤ q ∧ q < ap.get (j + 1) := fun k => by
    induction k with
    | zero => intro _ q a b; rw [Nat.cast_zero, h0] at b; omega
    | succ k ih =>
      intro hk q a b
      push_cast at hk b
      by_cases e : q < ap.get k
      · exact ih (by omega) q a e
      · exact ⟨k, by omega, by omega, b⟩
  refine ⟨C.ps, h0, C.mono, ?_, fun q a b => ?_⟩
  · have := C.is (n - 1) (by omega) (by omega)
    rwa [show (n : Int) - 1 + 1 = n by ring] at this
  · obtain ⟨j, hj, u, v⟩ := hle n (le_refl _) q a b
    exact C.rng j hj.1 hj.2 q u v

/-- **Transposition**: column `i` of the result lists the columns with an entry in row `i`, increasing and once each. -/
theorem preprocess_runs (R : Raw n ap ai) {rp ri w flag : Arr} (h1 : rp.size = n + 1) (h2 : ri.size = ap.get n) (h3 : w.size = n) (h4 : flag.size = n) :
    Runs (preprocess n ap ai rp ri w flag) fun r => Csc n r.1 r.2 ∧ (∀ i j : Int, 0 ≤ i → i < n → 0 ≤ j → j < n → (In r.1 r.2 i j ↔ In ap ai j i)) ∧ r.1.get 0 = 0 := by
  unfold preprocess
  rw [runs_bind]
  refine Runs.mono (P := fun r : Arr × Arr => (r.1.size = n ∧ r.2.size = n) ∧ ∀ i : Int, 0 ≤ i → i < n → r.1.get i = 0 ∧ r.2.get i = -1) ?_ fun r ⟨⟨r1, r2⟩, r3⟩ => ?_
  · refine forZ_runs (fun k (r : Arr × Arr) => 0 ≤ k ∧ (r.1.size = n ∧ r.2.size = n) ∧ ∀ i : Int, 0 ≤ i → i < k → r.1.get i = 0 ∧ r.2.get i = -1) (by omega) ⟨le_refl _, ⟨h3, h4⟩, fun i a b => by omega⟩
      (fun k r _ hk ⟨k0, ⟨k1, k2⟩, k3⟩ => ?_) fun r h => h.2
    simp only [runs_bind, runs_wrZ, runs_pure]
    refine ⟨by omega, by omega, by omega, ⟨k1, k2⟩, fun i a b => ?_⟩
    by_cases e : i = k
    · subst e; rw [Arr.set_same, Arr.set_same]; exact ⟨rfl, rfl⟩
    · rw [Arr.set_ne _ _ e, Arr.set_ne _ _ e]; exact k3 i a (by omega)
  rw [runs_bind]
  refine Runs.mono (sweep_runs R (fun r : Arr × Arr => r.2) (fun j p r => do
      let i ← ai.rd p
      let fl ← r.2.rd i
      if fl ≠ j then do
        let x ← r.1.rd i
        let w ← r.1.wr i (x + 1)
        let flag ← r.2.wr i j
        pure (w, flag)
      else pure r) (fun L p r => r.1.size = n ∧ (∀ i : Int, 0 ≤ i → i < n → r.1.get i = (L i).length) ∧ ∑ i ∈ nodes n, ((L i).length : Int) ≤ p) ⟨r1, fun i a b => by rw [(r3 i a b).1]; rfl, by simp⟩ r2 (fun i a b => (r3 i a b).2) ?_ ?_)
    fun r ⟨q1, q2, q3, q4⟩ => ?_
  · intro j p s L j0 j1 p0 p1 ⟨k1, k2, k3⟩ hf e
    obtain ⟨i0, i1⟩ := R.rng p p0 p1
    have := R.is
    simp only [runs_bind, runs_rdZ]
    refine ⟨by omega, by omega, ?_⟩
    rw [if_neg (not_not.2 e), runs_pure]
    exact ⟨rfl, k1, k2, by omega⟩
  · intro j p s L L' j0 j1 p0 p1 ⟨k1, k2, k3⟩ hf e hlen hL
    obtain ⟨i0, i1⟩ := R.rng p p0 p1
    have := R.is
    simp only [runs_bind, runs_rdZ]
    refine ⟨by omega, by omega, ?_⟩
    rw [if_pos e]
    simp only [runs_bind, runs_rdZ, runs_wrZ, runs_pure]
    refine ⟨by omega, by omega, by omega, trivial, k1, fun i a b => ?_, ?_⟩
    · rw [hL i]
      by_cases w : i = ai.get p
      · subst w; rw [Arr.set_same, if_pos rfl, k2 _ i0 i1]; simp
      · rw [Arr.set_ne _ _ w, if_neg w]; exact k2 i a b
    · have hm : ai.get p ∈ nodes n := mem_nodes.2 ⟨i0, i1⟩
      rw [← Finset.add_sum_erase _ _ hm] at k3 ⊢
      have : ∑ x ∈ (nodes n).erase (ai.get p), ((L' x).length : Int) = ∑ x ∈ (nodes n).erase (ai.get p), ((L x).length : Int) :=
        Finset.sum_congr rfl fun x hx => by rw [hL x, if_neg (Finset.ne_of_mem_erase hx)]
      rw [this, hL (ai.get p), if_pos rfl, List.length_append]
      push_cast
      simp only [List.length_cons, List.length_nil]
      push_cast
      omega
  rw [runs_bind, runs_wrZ]
  refine ⟨by omega, ?_⟩
  rw [runs_bind]
  refine Runs.mono (P := fun rp : Arr => rp.size = n + 1 ∧ ∀ i : Int, 0 ≤ i → i ≤ n → rp.get i = pt n ap ai i) ?_ fun rp ⟨u1, u2⟩ => ?_
  · refine forZ_runs (fun k (rp : Arr) => 0 ≤ k ∧ rp.size = n + 1 ∧ ∀ i : Int, 0 ≤ i → i ≤ k → rp.get i = pt n ap ai i) (by omega) ⟨le_refl _, h1, fun i a b => ?_⟩ (fun k rp _ hk ⟨k0, k1, k2⟩ => ?_) fun r h => h.2
    · rw [show i = 0 by omega, Arr.set_same, pt_zero]
    · simp only [runs_bind, runs_rdZ, runs_wrZ]
      refine ⟨by omega, by omega, by omega, by omega, k1, fun i a b => ?_⟩
      by_cases e : i = k + 1
      · rw [e, Arr.set_same, pt_succ k0 hk, k2 k k0 (le_refl _), q3 k k0 hk]
      · rw [Arr.set_ne _ _ e]; exact k2 i a (by omega)
  rw [runs_bind]
  refine Runs.mono (P := fun r : Arr × Arr => (r.1.size = n ∧ r.2.size = n) ∧ ∀ i : Int, 0 ≤ i → i < n → r.1.get i = pt n ap ai i ∧ r.2.get i = -1) ?_ fun r' ⟨⟨v1, v2⟩, v3⟩ => ?_
  · refine forZ_runs (fun k (r : Arr × Arr) => 0 ≤ k ∧ (r.1.size = n ∧ r.2.size = n) ∧ ∀ i : Int, 0 ≤ i → i < k → r.1.get i = pt n ap ai i ∧ r.2.get i = -1) (by omega) ⟨le_refl _, ⟨q2, q1⟩, fun i a b => by omega⟩
      (fun k r _ hk ⟨k0, ⟨k1, k2⟩, k3⟩ => ?_) fun r h => h.2
    simp only [runs_bind, runs_rdZ, runs_wrZ, runs_pure]
    refine ⟨by omega, by omega, by omega, by omega, ⟨k1, k2⟩, fun i a b => ?_⟩
    by_cases e : i = k
    · subst e; rw [Arr.set_same, Arr.set_same]; exact ⟨u2 i a (by omega), rfl⟩
    · rw [Arr.set_ne _ _ e, Arr.set_ne _ _ e]; exact k3 i a (by omega)
  have hall : pt n ap ai n ≤ ap.get n := by rw [pt_all]; exact q4
  rw [runs_bind]
  refine Runs.mono (sweep_runs R (fun r : Arr × Arr × Arr => r.2.1) (fun j p s => do
      let i ← ai.rd p
      let fl ← s.2.1.rd i
      if fl ≠ j then do
        let x ← s.1.rd i
        let ri ← s.2.2.wr x j
        let w ← s.1.wr i (x + 1)
        let flag ← s.2.1.wr i j
        pure (w, flag, ri)
      else pure s) (fun L p s => s.1.size = n ∧ s.2.2.size = ap.get n ∧ (∀ i : Int, 0 ≤ i → i < n → s.1.get i = pt n ap ai i + (L i).length ∧ Seg s.2.2.get (pt n ap ai i) (L i)) ∧ ∀ i, ((L i).length : Int) ≤ (tr ap ai n i).length)
      ⟨v1, h2, fun i a b => ⟨by rw [(v3 i a b).1]; simp, trivial⟩, fun i => by simp⟩ v2 (fun i a b => (v3 i a b).2) ?_ ?_)
    fun s ⟨z1, z2, z3, z4, z5⟩ => ?_
  · intro j p s L j0 j1 p0 p1 ⟨k1, k2, k3, k4⟩ hf e
    obtain ⟨i0, i1⟩ := R.rng p p0 p1
    have := R.is
    simp only [runs_bind, runs_rdZ]
    refine ⟨by omega, by omega, ?_⟩
    rw [if_neg (not_not.2 e), runs_pure]
    exact ⟨rfl, k1, k2, k3, k4⟩
  · intro j p s L L' j0 j1 p0 p1 ⟨k1, k2, k3, k4⟩ hf e hlen hL
    obtain ⟨i0, i1⟩ := R.rng p p0 p1
    have := R.is
    have hpos := pt_nonneg (n := n) (ap := ap) (ai := ai) (ai.get p)
    have hsu := pt_succ (ap := ap) (ai := ai) i0 i1
    have hmo := pt_mono (n := n) (ap := ap) (ai := ai) (show ai.get p + 1 ≤ n by omega)
    have hc := hlen (ai.get p)
    rw [hL, if_pos rfl, List.length_append, List.length_singleton] at hc
    push_cast at hc
    simp only [runs_bind, runs_rdZ]
    refine ⟨by omega, by omega, ?_⟩
    rw [if_pos e]
    simp only [runs_bind, runs_rdZ, runs_wrZ, runs_pure]
    rw [(k3 _ i0 i1).1]
    refine ⟨by omega, by omega, by omega, by omega, trivial, k1, k2, fun i a b => ?_, hlen⟩
    rw [hL i]
    by_cases w : i = ai.get p
    · subst w; rw [Arr.set_same, if_pos rfl, List.length_append, List.length_singleton, seg_append]
      refine ⟨by push_cast; ring, (k3 _ i0 i1).2.congr fun q a b => Arr.set_ne _ _ (by omega), ?_, trivial⟩
      rw [Arr.set_same]
    · rw [Arr.set_ne _ _ w, if_neg w]
      refine ⟨(k3 i a b).1, (k3 i a b).2.congr fun q c d => Arr.set_ne _ _ fun eq => ?_⟩
      have e1 := k4 i
      have e2 := pt_succ (ap := ap) (ai := ai) a b
      rcases lt_or_gt_of_ne w with u | u
      · have := pt_mono (n := n) (ap := ap) (ai := ai) (show i + 1 ≤ ai.get p by omega); omega
      · have := pt_mono (n := n) (ap := ap) (ai := ai) (show ai.get p + 1 ≤ i by omega); omega
  · rw [runs_pure]
    exact rows_csc u1 u2 z3 (fun i a b => (z4 i a b).2) hall

/-! ### The whole ordering -/

/-- **The ordering** of a valid pattern is a permutation, whatever the parameters, the order and the repetitions of the entries, and the contents of the arrays before. -/
theorem order_runs (R : Raw n ap ai) {wbig dense : Int} {aggressive : Bool} {junk : Nat → Int → Int} : Runs (order n wbig dense aggressive ap ai junk) fun P => P.size = n ∧
    (∀ i : Int, 0 ≤ i → i < n → 0 ≤ P.get i ∧ P.get i < n) ∧ ∀ i : Int, 0 ≤ i → i < n → ∀ j : Int, 0 ≤ j → j < n → P.get i = P.get j → i = j := by
  unfold order
  have hps := R.ps
  by_cases h : n = 0
  · rw [if_pos h, runs_pure]
    subst h
    exact ⟨rfl, fun i a b => by simp at b; omega, fun i a b => by simp at b; omega⟩
  rw [if_neg h, runs_bind, runs_rdZ]
  refine ⟨by omega, ?_⟩
  rw [runs_bind]
  refine (valid_runs R).mono fun st ⟨s1, s2⟩ => ?_
  rw [if_neg (show ¬ st = -2 by omega), runs_bind]
  refine Runs.mono (P := fun cp : Arr × Arr => Csc n cp.1 cp.2) ?_ fun cp C => ?_
  · by_cases e : st = 1
    · rw [if_pos e]
      exact (preprocess_runs R rfl rfl rfl rfl).mono fun r h => h.1
    · rw [if_neg e, runs_pure]
      exact R.csc (s2.1 (by omega))
  · rw [runs_bind]
    refine (aat_runs C (by rfl) (by rfl)).mono fun r ⟨r1, r2, r3⟩ => ?_
    refine one_runs C r2 r3 ?_
    have := pre_nonneg (n := n) (ap := cp.1) (ai := cp.2) n
    rw [r1]; omega

end
end Amd
end Hif
