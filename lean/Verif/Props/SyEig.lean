import Verif.SyEigLemmas
import Mathlib.Data.Finset.Card
import Mathlib.Algebra.Order.Ring.Rat
import Mathlib.Algebra.Star.Basic
import Mathlib.Data.Rat.Star
import Mathlib.Tactic.Linarith

set_option linter.unusedVariables false

/-!
# C50, C51: the symmetric dense solver

`syev` returns ascending eigenvalues `w` and orthonormal eigenvectors.  Eigenvalue `x` should be kept if its magnitude exceeds the threshold and it has the
sign the user declared.
-/

namespace Hif
namespace Spec
variable {R : Type _} [Field R] [LinearOrder R]

/-- The eigenvalues that should be kept: `spd` is the declared definiteness (positive, negative, indefinite). -/
def Accepted (spd : Int) (thr x : R) : Prop := thr < |x| ∧ (0 < spd → 0 < x) ∧ (spd < 0 → x < 0)

/-- `M` is the largest magnitude of the first `n` eigenvalues. -/
def MaxMag (n : Nat) (w : Nat → R) (M : R) : Prop := (∃ i, i < n ∧ |w i| = M) ∧ ∀ i, i < n → |w i| ≤ M

/-- Every eigenvalue of largest magnitude is non-negative. -/
def PosDominant (n : Nat) (w : Nat → R) : Prop := ∀ i, i < n → (∀ j, j < n → |w j| ≤ |w i|) → 0 ≤ w i

/-- Every eigenvalue of largest magnitude is negative. -/
def NegDominant (n : Nat) (w : Nat → R) : Prop := ∀ i, i < n → (∀ j, j < n → |w j| ≤ |w i|) → w i < 0

/-- Contract of `std::sort` used with the comparison `key a > key b`. -/
def SortDesc (srt : (Nat → R) → Buf Nat → Buf Nat) : Prop :=
  ∀ (key : Nat → R) (n : Nat), SyEig.IsOrder n (srt key (SyEig.iota n)) ∧
    ∀ s t, s < t → t < n → key ((srt key (SyEig.iota n)).get t) ≤ key ((srt key (SyEig.iota n)).get s)

/-- `a = q diag(w) qᴴ` with unitary `q` (column-major arrays). -/
structure EigDecomp {V : Type _} [Field V] [StarRing V] (c : R → V) (n : Nat) (a q : Buf V) (w : Buf R) : Prop where
  size : q.size = n * n
  orth : ∀ l, l < n → ∀ l', l' < n → ∑ i ∈ Finset.range n, star (q.get (l * n + i)) * q.get (l' * n + i) = if l = l' then 1 else 0
  orth' : ∀ i, i < n → ∀ j, j < n → ∑ l ∈ Finset.range n, q.get (l * n + i) * star (q.get (l * n + j)) = if i = j then 1 else 0
  eq : ∀ i, i < n → ∀ j, j < n → a.get (j * n + i) = ∑ l ∈ Finset.range n, q.get (l * n + i) * c (w.get l) * star (q.get (l * n + j))

end Spec

namespace Props
open SyEig Spec Finset
variable {R : Type _} [Field R] [LinearOrder R] [IsStrictOrderedRing R]

namespace C50

theorem thres_pos {w : Buf R} {n : Nat} (hn : 0 < n) (hd : PosDominant n w.get) {M : R} (hM : MaxMag n w.get M) : w.get (maxAbs w (n - 1) 1 0) = M := by
  obtain ⟨h1, h2⟩ := maxAbs_max w hn
  obtain ⟨⟨i, hi, e⟩, h3⟩ := hM
  have h4 := hd _ h1 h2
  rw [← abs_of_nonneg h4]
  exact le_antisymm (h3 _ h1) (by rw [← e]; exact h2 i hi)

theorem indefinite {spd : Int} (hs : spd = 0) {eps : R} {srt : (Nat → R) → Buf Nat → Buf Nat} (hsrt : SortDesc srt) (w : Buf R) (hn : 0 < w.size) :
    Runs (truncate spd eps srt w) fun r => IsOrder w.size r.1 ∧ r.2 ≤ w.size ∧
      ∀ t, t < w.size → (t < r.2 ↔ eps * w.get (maxAbs w (w.size - 1) 1 0) < |w.get (r.1.get t)|) := by
  unfold truncate
  simp only
  rw [if_neg (by omega), if_neg (by omega), if_neg (by omega), runs_bind]
  obtain ⟨o1, o2⟩ := hsrt (fun i => |w.get i|) w.size
  refine (dropBack_runs w _ _ w.size (by rw [o1.1]) o1.2.1).mono ?_
  rintro rk ⟨r1, r2, r3⟩
  rw [runs_pure]
  refine ⟨o1, r1, fun t ht => ⟨fun h => ?_, fun h => ?_⟩⟩
  · have := r3 (by omega)
    simp only [decide_eq_false_iff_not, not_le] at this
    refine lt_of_lt_of_le this ?_
    by_cases e : t = rk - 1
    · rw [e]
    · exact o2 t (rk - 1) (by omega) (by omega)
  · by_contra hge
    have := r2 t (by omega) ht
    simp only [decide_eq_true_eq] at this
    exact absurd h (not_lt.mpr this)

open Classical in
/-- The number of kept eigenvalues. -/
theorem card_kept {n rk : Nat} {o : Buf Nat} (ho : IsOrder n o) (hrk : rk ≤ n) {p : Nat → Prop} (h : ∀ t, t < n → (t < rk ↔ p (o.get t))) :
    rk = ((range n).filter p).card := by
  rw [← Finset.card_range rk]
  refine Finset.card_bij (fun t _ => o.get t) ?_ ?_ ?_
  · intro t ht
    rw [mem_range] at ht
    rw [mem_filter, mem_range]
    exact ⟨ho.2.1 t (by omega), (h t (by omega)).mp ht⟩
  · intro s hs t ht e
    rw [mem_range] at hs ht
    exact ho.2.2 s (by omega) t (by omega) e
  · intro i hi
    rw [mem_filter, mem_range] at hi
    obtain ⟨t, ht, e⟩ := ho.surj hi.1
    exact ⟨t, by rw [mem_range]; exact (h t ht).mpr (by rw [e]; exact hi.2), e⟩

end C50

open Classical in
/-- **C50, indefinite matrices, partial** (the dominant eigenvalues are non-negative; see `C50_negative_dominant_witness` for the rest): the rank is the number of
eigenvalues whose magnitude exceeds `eps` times the largest, and those are the ones in front of the order. -/
theorem C50_indefinite_partial {eps : R} {srt : (Nat → R) → Buf Nat → Buf Nat} (hsrt : SortDesc srt) (w : Buf R) (hn : 0 < w.size) (hd : PosDominant w.size w.get)
    {M : R} (hM : MaxMag w.size w.get M) :
    ∃ o rk, truncate 0 eps srt w = .ok (o, rk) ∧ rk = ((range w.size).filter fun i => Accepted 0 (eps * M) (w.get i)).card ∧
      (∀ i, i < w.size → ∃ t, t < w.size ∧ o.get t = i) ∧ ∀ t, t < w.size → (t < rk ↔ Accepted 0 (eps * M) (w.get (o.get t))) := by
  obtain ⟨⟨o, rk⟩, e, h1, h2, h3⟩ := C50.indefinite (spd := 0) (eps := eps) rfl hsrt w hn
  rw [C50.thres_pos hn hd hM] at h3
  have acc : ∀ x : R, Accepted 0 (eps * M) x ↔ eps * M < |x| := fun x => ⟨fun h => h.1, fun h => ⟨h, fun h => absurd h (by decide), fun h => absurd h (by decide)⟩⟩
  refine ⟨o, rk, e, ?_, fun i hi => h1.surj hi, fun t ht => by rw [acc]; exact h3 t ht⟩
  exact C50.card_kept h1 h2 (fun t ht => by rw [acc]; exact h3 t ht)

/-- **C50, the missing part is false**: if the eigenvalue of largest magnitude is negative, the threshold is negative and nothing is truncated, however small or
zero an eigenvalue is. -/
theorem C50_negative_dominant_witness {eps : R} (he : 0 < eps) {srt : (Nat → R) → Buf Nat → Buf Nat} (hsrt : SortDesc srt) (w : Buf R) (hn : 0 < w.size)
    (hd : NegDominant w.size w.get) : ∃ o, truncate 0 eps srt w = .ok (o, w.size) := by
  obtain ⟨⟨o, rk⟩, e, h1, h2, h3⟩ := C50.indefinite (spd := 0) (eps := eps) rfl hsrt w hn
  refine ⟨o, ?_⟩
  obtain ⟨m1, m2⟩ := maxAbs_max w hn
  have hneg := hd _ m1 m2
  have : w.size - 1 < rk := (h3 (w.size - 1) (by omega)).mpr (lt_of_lt_of_le (mul_neg_of_pos_of_neg he hneg) (abs_nonneg _))
  have : rk = w.size := by simp only at h2; omega
  rw [e, this]

/-- **C50, definite matrices, partial**: if all eigenvalues have the declared sign and exceed the threshold, nothing is truncated. (The eigenvalues need not be
positive-dominant, the largest being accepted.)  What is missing: a spectrum of which only a part is acceptable, see `C50_definite_witness`. -/
theorem C50_definite_partial {spd : Int} (hs : spd ≠ 0) {eps : R} (he : 0 ≤ eps) (he1 : eps ≤ 1) {srt : (Nat → R) → Buf Nat → Buf Nat} (w : Buf R) (hn : 0 < w.size)
    {M : R} (hM : MaxMag w.size w.get M) (hacc : ∀ i, i < w.size → Accepted spd (eps * M) (w.get i)) :
    ∃ o, truncate spd eps srt w = .ok (o, w.size) ∧ IsOrder w.size o := by
  obtain ⟨m1, m2⟩ := maxAbs_max w hn
  have hle : eps * w.get (maxAbs w (w.size - 1) 1 0) ≤ eps * M :=
    mul_le_mul_of_nonneg_left ((le_abs_self _).trans (hM.2 _ m1)) he
  unfold truncate
  simp only
  rw [if_neg (by omega)]
  by_cases h : 0 < spd
  · rw [if_pos h]
    refine ⟨iota w.size, ?_, iota_isOrder _⟩
    obtain ⟨rk, e, r1, r2, r3⟩ := dropBack_runs w (fun x => decide (x ≤ 0 ∨ |x| ≤ eps * w.get (maxAbs w (w.size - 1) 1 0))) (iota w.size) w.size (le_refl _) (fun t ht => ht)
    rw [e]
    have : rk = w.size := by
      by_contra hne
      have := r2 (w.size - 1) (by omega) (by omega)
      have h' := hacc (w.size - 1) (by omega)
      have this := of_decide_eq_true this
      simp only [iota] at this
      rcases this with h1 | h1
      · exact absurd (h'.2.1 h) (not_lt.mpr h1)
      · exact absurd h'.1 (not_lt.mpr (h1.trans hle))
    rw [this]; rfl
  · have h0 : spd < 0 := by omega
    rw [if_neg h, if_pos h0]
    refine ⟨reverse (iota w.size), ?_, reverse_isOrder _⟩
    obtain ⟨rk, e, r1, r2, r3⟩ := dropFront_runs w (fun x => decide (0 ≤ x ∨ |x| ≤ eps * w.get (maxAbs w (w.size - 1) 1 0))) w.size 0 (by omega)
    rw [e]
    have : rk = w.size := by
      by_contra hne
      have := r2 0 (le_refl _) (by omega)
      have h' := hacc 0 (by omega)
      simp only [decide_eq_true_eq] at this
      rcases this with h1 | h1
      · exact absurd (h'.2.2 h0) (not_lt.mpr h1)
      · exact absurd h'.1 (not_lt.mpr (h1.trans hle))
    rw [this]; rfl

/-- **C50, definite matrices: truncation never separates eigenvalues.**  For ascending eigenvalues (as LAPACK returns them) and a declared definiteness the code
keeps all of them as soon as one is acceptable: it starts at the wrong end. -/
theorem C50_definite_witness {spd : Int} (hs : spd ≠ 0) {eps : R} (he : 0 ≤ eps) {srt : (Nat → R) → Buf Nat → Buf Nat} (w : Buf R)
    (hasc : ∀ i j, i ≤ j → j < w.size → w.get i ≤ w.get j) {M : R} (hM : MaxMag w.size w.get M) (hacc : ∃ i, i < w.size ∧ Accepted spd (eps * M) (w.get i)) :
    ∃ o, truncate spd eps srt w = .ok (o, w.size) := by
  obtain ⟨i, hi, hacc⟩ := hacc
  have hn : 0 < w.size := by omega
  obtain ⟨m1, m2⟩ := maxAbs_max w hn
  have hle : eps * w.get (maxAbs w (w.size - 1) 1 0) ≤ eps * M :=
    mul_le_mul_of_nonneg_left ((le_abs_self _).trans (hM.2 _ m1)) he
  unfold truncate
  simp only
  rw [if_neg (by omega)]
  by_cases h : 0 < spd
  · rw [if_pos h]
    refine ⟨iota w.size, ?_⟩
    obtain ⟨rk, e, r1, r2, r3⟩ := dropBack_runs w (fun x => decide (x ≤ 0 ∨ |x| ≤ eps * w.get (maxAbs w (w.size - 1) 1 0))) (iota w.size) w.size (le_refl _) (fun t ht => ht)
    rw [e]
    have : rk = w.size := by
      by_contra hne
      have := r2 (w.size - 1) (by omega) (by omega)
      have this := of_decide_eq_true this
      simp only [iota] at this
      have hxy := hasc i (w.size - 1) (by omega) (by omega)
      have hx := hacc.2.1 h
      rcases this with h1 | h1
      · exact absurd (hx.trans_le hxy) (not_lt.mpr h1)
      · rw [abs_of_pos (hx.trans_le hxy)] at h1
        have h2 := hacc.1
        rw [abs_of_pos hx] at h2
        exact absurd (h2.trans_le hxy) (not_lt.mpr (h1.trans hle))
    rw [this]; rfl
  · have h0 : spd < 0 := by omega
    rw [if_neg h, if_pos h0]
    refine ⟨reverse (iota w.size), ?_⟩
    obtain ⟨rk, e, r1, r2, r3⟩ := dropFront_runs w (fun x => decide (0 ≤ x ∨ |x| ≤ eps * w.get (maxAbs w (w.size - 1) 1 0))) w.size 0 (by omega)
    rw [e]
    have : rk = w.size := by
      by_contra hne
      have := r2 0 (le_refl _) (by omega)
      simp only [decide_eq_true_eq] at this
      have hxy := hasc 0 i (by omega) hi
      have hx := hacc.2.2 h0
      rcases this with h1 | h1
      · exact absurd (hxy.trans_lt hx) (not_lt.mpr h1)
      · rw [abs_of_neg (hxy.trans_lt hx)] at h1
        have h2 := hacc.1
        rw [abs_of_neg hx] at h2
        exact absurd (h2.trans_le (neg_le_neg hxy)) (not_lt.mpr (h1.trans hle))
    rw [this]; rfl

section solve
set_option linter.unusedSectionVars false
variable {V : Type _} [Field V] [StarRing V] {c : R → V}

namespace C50

theorem qh_apply {n : Nat} {a q : Buf V} {w : Buf R} (h : EigDecomp c n a q w) (f : Nat → V) {l : Nat} (hl : l < n) :
    ∑ j ∈ range n, star (q.get (l * n + j)) * ∑ k ∈ range n, q.get (k * n + j) * f k = f l := by
  simp only [Finset.mul_sum]
  rw [Finset.sum_comm]
  have : ∀ k ∈ range n, ∑ j ∈ range n, star (q.get (l * n + j)) * (q.get (k * n + j) * f k) = if k = l then f l else 0 := by
    intro k hk
    rw [mem_range] at hk
    have e : ∀ j, star (q.get (l * n + j)) * (q.get (k * n + j) * f k) = star (q.get (l * n + j)) * q.get (k * n + j) * f k := fun j => by ring
    simp only [e]
    rw [← Finset.sum_mul, h.orth l hl k hk]
    by_cases e' : l = k
    · rw [if_pos e', if_pos e'.symm, one_mul, e']
    · rw [if_neg e', if_neg (Ne.symm e'), zero_mul]
  rw [Finset.sum_congr rfl this, Finset.sum_ite_eq' (range n) l, if_pos (by simpa using hl)]

theorem a_apply {n : Nat} {a q : Buf V} {w : Buf R} (h : EigDecomp c n a q w) (x : Nat → V) {i : Nat} (hi : i < n) :
    ∑ j ∈ range n, a.get (j * n + i) * x j = ∑ l ∈ range n, q.get (l * n + i) * (c (w.get l) * ∑ j ∈ range n, star (q.get (l * n + j)) * x j) := by
  have : ∀ j ∈ range n, a.get (j * n + i) * x j = ∑ l ∈ range n, q.get (l * n + i) * c (w.get l) * star (q.get (l * n + j)) * x j := fun j hj => by
    rw [h.eq i hi j (by simpa using hj), Finset.sum_mul]
  rw [Finset.sum_congr rfl this, Finset.sum_comm]
  refine Finset.sum_congr rfl fun l _ => ?_
  rw [Finset.mul_sum, Finset.mul_sum]
  exact Finset.sum_congr rfl fun j _ => by ring

end C50

open Classical in
/-- **C50, `solve`**: in terms of eigenvector coordinates, `solve` divides the coordinates of the kept eigenvalues by the eigenvalue and clears the others; it divides
only by kept eigenvalues. -/
theorem C50_solve {n : Nat} {s : St R V} (h : Ready n s) {a : Buf V} (ha : EigDecomp c n a s.mat s.w) (b : Buf V) (hb : b.size = n) (rank : Nat)
    (hz : ∀ t, t < effRank s n rank → s.w.get (s.order.get t) ≠ 0) :
    ∃ x, solve c s b rank = .ok x ∧ x.size = n ∧
      ∀ l, l < n → ∑ j ∈ range n, star (s.mat.get (l * n + j)) * x.get j =
        if Kept s.order (effRank s n rank) l then (∑ j ∈ range n, star (s.mat.get (l * n + j)) * b.get j) / c (s.w.get l) else 0 := by
  have hp := h.pos
  obtain ⟨r, e, r1, r2, r3, r4⟩ := apply_runs (c := c) (at' := divAt) (op := fun v l => v / c l) (ok := fun l => l ≠ 0) h
    (fun i y a1 a2 a3 a4 => divAt_runs i y a1 a2 a3 a4) (off := 0) (h.eff_le rank) hz b s.work (by omega) h.work
  refine ⟨r.1, ?_, r1.trans hb, fun l hl => ?_⟩
  · unfold solve
    rw [if_neg (by rw [h.rows, h.w]; omega), if_neg (by rw [hb, h.rows]; simp), hb, e]
    rfl
  · have : ∀ j ∈ range n, star (s.mat.get (l * n + j)) * r.1.get j = star (s.mat.get (l * n + j)) * ∑ k ∈ range n, s.mat.get (k * n + j) *
        (if Kept s.order (effRank s n rank) k then (∑ i ∈ range n, star (s.mat.get (k * n + i)) * b.get i) / c (s.w.get k) else 0) := fun j hj => by
      have := r3 j (by simpa using hj)
      simp only [Nat.zero_add] at this
      rw [this]
    rw [Finset.sum_congr rfl this]
    exact C50.qh_apply ha (fun k => if Kept s.order (effRank s n rank) k then (∑ i ∈ range n, star (s.mat.get (k * n + i)) * b.get i) / c (s.w.get k) else 0) hl

/-- **C50, full rank**: with all eigenvalues kept `solve` solves the linear system. -/
theorem C50_solve_full {n : Nat} {s : St R V} (h : Ready n s) {a : Buf V} (ha : EigDecomp c n a s.mat s.w) (hc : ∀ x : R, x ≠ 0 → c x ≠ 0) (b : Buf V) (hb : b.size = n)
    (hr : s.rank = n) (hz : ∀ i, i < n → s.w.get i ≠ 0) :
    ∃ x, solve c s b 0 = .ok x ∧ x.size = n ∧ ∀ i, i < n → ∑ j ∈ range n, a.get (j * n + i) * x.get j = b.get i := by
  classical
  have he : effRank s n 0 = n := by unfold effRank; rw [if_pos rfl, hr]
  obtain ⟨x, e, hs, hx⟩ := C50_solve h ha b hb 0 (fun t ht => hz _ (h.order.2.1 t (by omega)))
  refine ⟨x, e, hs, fun i hi => ?_⟩
  rw [C50.a_apply ha x.get hi]
  have : ∀ l ∈ range n, s.mat.get (l * n + i) * (c (s.w.get l) * ∑ j ∈ range n, star (s.mat.get (l * n + j)) * x.get j) =
      ∑ j ∈ range n, s.mat.get (l * n + i) * star (s.mat.get (l * n + j)) * b.get j := fun l hl => by
    rw [mem_range] at hl
    rw [hx l hl, if_pos (by rw [he]; exact h.order.surj hl), mul_div_cancel₀ _ (hc _ (hz l hl)), Finset.mul_sum]
    exact Finset.sum_congr rfl fun j _ => by ring
  rw [Finset.sum_congr rfl this, Finset.sum_comm]
  have : ∀ j ∈ range n, ∑ l ∈ range n, s.mat.get (l * n + i) * star (s.mat.get (l * n + j)) * b.get j = if j = i then b.get i else 0 := fun j hj => by
    rw [mem_range] at hj
    rw [← Finset.sum_mul, ha.orth' i hi j hj]
    by_cases e : i = j
    · rw [if_pos e, if_pos e.symm, one_mul, e]
    · rw [if_neg e, if_neg (Ne.symm e), zero_mul]
  rw [Finset.sum_congr rfl this, Finset.sum_ite_eq' (range n) i, if_pos (by simpa using hi)]

open Classical in
/-- **C50, `multiply`**: the coordinates of the kept eigenvalues are multiplied by the eigenvalue. -/
theorem C50_multiply {n : Nat} {s : St R V} (h : Ready n s) {a : Buf V} (ha : EigDecomp c n a s.mat s.w) (b : Buf V) (hb : b.size = n) (rank : Nat) :
    ∃ x, multiply c s b rank = .ok x ∧ x.size = n ∧
      ∀ l, l < n → ∑ j ∈ range n, star (s.mat.get (l * n + j)) * x.get j =
        if Kept s.order (effRank s n rank) l then (∑ j ∈ range n, star (s.mat.get (l * n + j)) * b.get j) * c (s.w.get l) else 0 := by
  have hp := h.pos
  obtain ⟨r, e, r1, r2, r3, r4⟩ := apply_runs (c := c) (at' := mulAt) (op := fun v l => v * c l) (ok := fun _ => True) h
    (fun i y a1 a2 a3 a4 => mulAt_runs i y a1 a2 a3) (off := 0) (h.eff_le rank) (fun _ _ => trivial) b s.work (by omega) h.work
  refine ⟨r.1, ?_, r1.trans hb, fun l hl => ?_⟩
  · unfold multiply
    rw [if_neg (by rw [h.rows, h.w]; omega), if_neg (by rw [hb, h.rows]; simp), hb, e]
    rfl
  · have : ∀ j ∈ range n, star (s.mat.get (l * n + j)) * r.1.get j = star (s.mat.get (l * n + j)) * ∑ k ∈ range n, s.mat.get (k * n + j) *
        (if Kept s.order (effRank s n rank) k then (∑ i ∈ range n, star (s.mat.get (k * n + i)) * b.get i) * c (s.w.get k) else 0) := fun j hj => by
      have := r3 j (by simpa using hj)
      simp only [Nat.zero_add] at this
      rw [this]
    rw [Finset.sum_congr rfl this]
    exact C50.qh_apply ha (fun k => if Kept s.order (effRank s n rank) k then (∑ i ∈ range n, star (s.mat.get (k * n + i)) * b.get i) * c (s.w.get k) else 0) hl

/-- **C50, the whole of it for indefinite matrices, partial** (dominant eigenvalues non-negative): `factorize` and `solve` succeed, no division by zero; the solution
has, in every direction of an accepted eigenvalue, the coordinate of the right-hand side divided by that eigenvalue, and no component in the others. -/
theorem C50_factorize_solve_partial [Inhabited V] {eps : R} (he : 0 ≤ eps) {srt : (Nat → R) → Buf Nat → Buf Nat} (hsrt : SortDesc srt)
    (syev : Nat → Buf V → Buf R × Buf V × Int) (lwork : Nat) (s : St R V) {n : Nat} (hn : 0 < n) (h1 : s.nrows = n) (h2 : s.ncols = n)
    (hinfo : (syev n s.mat).2.2 = 0) (hq : (syev n s.mat).2.1.size = n * n)
    (ha : EigDecomp c n s.mat (syev n s.mat).2.1 { (syev n s.mat).1 with size := n }) (hd : PosDominant n (syev n s.mat).1.get)
    {M : R} (hM : MaxMag n (syev n s.mat).1.get M) (b : Buf V) (hb : b.size = n) :
    ∃ s' x, factorize 0 eps srt syev lwork s = .ok s' ∧ solve c s' b 0 = .ok x ∧ x.size = n ∧ ∀ l, l < n →
      (Accepted 0 (eps * M) (s'.w.get l) → ∑ j ∈ range n, star (s'.mat.get (l * n + j)) * x.get j = (∑ j ∈ range n, star (s'.mat.get (l * n + j)) * b.get j) / c (s'.w.get l)) ∧
      (¬ Accepted 0 (eps * M) (s'.w.get l) → ∑ j ∈ range n, star (s'.mat.get (l * n + j)) * x.get j = 0) := by
  classical
  set w : Buf R := { (syev n s.mat).1 with size := n } with hw
  obtain ⟨o, rk, et, hrk, hsur, hkeep⟩ := C50_indefinite_partial (eps := eps) hsrt w hn hd hM
  obtain ⟨⟨o', rk'⟩, et', ho, hle, -⟩ := C50.indefinite (spd := 0) (eps := eps) rfl hsrt w hn
  have eo : (o', rk') = (o, rk) := Except.ok.inj (et'.symm.trans et)
  have eo1 : o' = o := congrArg Prod.fst eo
  have eo2 : rk' = rk := congrArg Prod.snd eo
  simp only [eo1, eo2] at ho hle
  have hM0 : 0 ≤ M := by obtain ⟨⟨i, _, e⟩, _⟩ := hM; rw [← e]; exact abs_nonneg _
  let s' : St R V := { s with nrows := n, mat := (syev n s.mat).2.1, w := w, work := Buf.mk' (max lwork n) default, order := o, rank := rk }
  have hf : factorize 0 eps srt syev lwork s = .ok s' := by
    unfold factorize
    rw [if_neg (by omega), if_neg (by omega)]
    simp only [h1]
    rw [if_neg (by omega), if_neg (by omega)]
    have : truncate 0 eps srt { (syev n s.mat).1 with size := n } = .ok (o, rk) := et
    rw [this]
    rfl
  have hready : Ready n s' := ⟨hn, rfl, hq, rfl, by show n ≤ max lwork n; omega, ho, hle⟩
  have her : effRank s' n 0 = rk := rfl
  obtain ⟨x, e, hs, hx⟩ := C50_solve (c := c) hready (a := s.mat) ha b hb 0 (fun t ht => by
    have := (hkeep t (by rw [her] at ht; show t < n; exact lt_of_lt_of_le ht hle)).mp (by rw [her] at ht; exact ht)
    intro e0
    have h1 := this.1
    have e0 : w.get (o.get t) = 0 := e0
    rw [e0, abs_zero] at h1
    exact absurd (mul_nonneg he hM0) (not_le.mpr h1))
  refine ⟨s', x, hf, e, hs, fun l hl => ?_⟩
  have kept : Kept s'.order (effRank s' n 0) l ↔ Accepted 0 (eps * M) (s'.w.get l) := by
    rw [her]
    constructor
    · rintro ⟨t, ht, rfl⟩; exact (hkeep t (lt_of_lt_of_le ht hle)).mp ht
    · intro hacc
      obtain ⟨t, ht, e⟩ := hsur l hl
      refine ⟨t, (hkeep t ht).mpr ?_, e⟩
      rw [e]; exact hacc
  have := hx l hl
  refine ⟨fun hacc => by rw [this, if_pos (kept.mpr hacc)], fun hacc => by rw [this, if_neg (fun h => hacc (kept.mp h))]⟩

end solve

/-! ### Non-vacuity and witnesses for C50 -/

namespace ExEig

/-- Insertion of a position by descending key. -/
def ins (key : Nat → ℚ) (i : Nat) : List Nat → List Nat
  | [] => [i]
  | j :: l => if key j < key i then i :: j :: l else j :: ins key i l
/-- A sort for the examples. -/
def srt (key : Nat → ℚ) (b : Buf Nat) : Buf Nat := Buf.ofList (b.toList.foldr (ins key) [])

/-- 3×3 identity. -/
def q3 : Buf ℚ := Buf.ofList [1, 0, 0, 0, 1, 0, 0, 0, 1]
/-- The diagonal matrix `diag(d)`. -/
def d3 (a b c : ℚ) : Buf ℚ := Buf.ofList [a, 0, 0, 0, b, 0, 0, 0, c]
def st (m : Buf ℚ) : St ℚ ℚ := { nrows := 3, ncols := 3, mat := m, w := Buf.mk' 0 0, work := Buf.mk' 0 0, order := Buf.mk' 0 0, rank := 0 }
/-- The eigendecomposition of `diag(a,b,c)`, `a ≤ b ≤ c`. -/
def syev (_ : Nat) (m : Buf ℚ) : Buf ℚ × Buf ℚ × Int := (Buf.ofList [m.get 0, m.get 4, m.get 8], q3, 0)

theorem ins_perm (key : Nat → ℚ) (i : Nat) : ∀ l, (ins key i l).Perm (i :: l)
  | [] => List.Perm.refl _
  | j :: l => by
    rw [ins]
    split
    · exact List.Perm.refl _
    · exact ((ins_perm key i l).cons j).trans (List.Perm.swap i j l)

theorem ins_sorted (key : Nat → ℚ) (i : Nat) : ∀ l, l.Pairwise (fun a b => key b ≤ key a) → (ins key i l).Pairwise fun a b => key b ≤ key a
  | [], _ => List.pairwise_singleton _ _
  | j :: l, h => by
    rw [List.pairwise_cons] at h
    rw [ins]
    split
    · rename_i hk
      rw [List.pairwise_cons]
      refine ⟨fun b hb => ?_, List.pairwise_cons.mpr h⟩
      rcases List.mem_cons.mp hb with rfl | hb
      · exact hk.le
      · exact (h.1 b hb).trans hk.le
    · rename_i hk
      rw [List.pairwise_cons]
      refine ⟨fun b hb => ?_, ins_sorted key i l h.2⟩
      rcases List.mem_cons.mp ((ins_perm key i l).mem_iff.mp hb) with rfl | hb
      · exact not_lt.mp hk
      · exact h.1 b hb

theorem fold_spec (key : Nat → ℚ) : ∀ l : List Nat, (l.foldr (ins key) []).Perm l ∧ (l.foldr (ins key) []).Pairwise fun a b => key b ≤ key a
  | [] => ⟨List.Perm.refl _, List.Pairwise.nil⟩
  | i :: l => by
    obtain ⟨h1, h2⟩ := fold_spec key l
    exact ⟨(ins_perm key i _).trans (h1.cons i), ins_sorted key i _ h2⟩

/-- The sort of the examples satisfies the contract. -/
theorem srt_ok : SortDesc srt := by
  intro key n
  obtain ⟨h1, h2⟩ := fold_spec key (iota n).toList
  have hl : (iota n).toList = List.range n := by simp [Buf.toList, iota]
  unfold srt
  generalize hm : (iota n).toList.foldr (ins key) [] = m at h1 h2 ⊢
  rw [hl] at h1
  have hlen : m.length = n := by rw [h1.length_eq]; simp
  have hget : ∀ t (ht : t < m.length), (Buf.ofList m).get t = m[t] := fun t ht => by
    show m.getD t default = m[t]
    simp [List.getD, List.getElem?_eq_getElem ht]
  have hnd : m.Nodup := h1.nodup_iff.mpr List.nodup_range
  refine ⟨⟨hlen, fun t ht => ?_, fun s hs t ht e => ?_⟩, fun s t hst ht => ?_⟩
  · rw [hget t (by omega)]
    have := h1.mem_iff.mp (List.getElem_mem (by omega : t < m.length))
    simpa using this
  · rw [hget t (by omega), hget s (by omega)] at e
    exact (List.Nodup.getElem_inj_iff hnd).mp e
  · rw [hget t (by omega), hget s (by omega)]
    exact (List.pairwise_iff_getElem.mp h2) s t (by omega) (by omega) hst

end ExEig

/-- Non-vacuity of the indefinite case: eigenvalues `-2, 0, 5` with `eps = 1/100`: rank 2, order 2, 0, 1, the solution of `diag x = (4,4,10)` without the null direction. -/
example : SortDesc ExEig.srt ∧ PosDominant 3 (Buf.ofList [-2, 0, (5 : ℚ)]).get ∧ MaxMag 3 (Buf.ofList [-2, 0, (5 : ℚ)]).get 5 ∧
    (truncate 0 (1 / 100) ExEig.srt (Buf.ofList [-2, 0, (5 : ℚ)])).map (fun r => (r.1.toList, r.2)) = .ok ([2, 0, 1], 2) ∧
    (do let s ← factorize 0 (1 / 100 : ℚ) ExEig.srt ExEig.syev 9 (ExEig.st (ExEig.d3 (-2) 0 5)); let x ← solve id s (Buf.ofList [4, 4, 10]) 0; pure x.toList : M (List ℚ)) =
      .ok [-2, 0, 2] := by
  refine ⟨ExEig.srt_ok, ?_, ?_, by decide +kernel, by decide +kernel⟩
  · unfold PosDominant; decide +kernel
  · unfold MaxMag; decide +kernel

/-- The eigendecomposition contract is met in the example. -/
example : EigDecomp (id : ℚ → ℚ) 3 (ExEig.d3 (-2) 0 5) ExEig.q3 (Buf.ofList [-2, 0, 5]) := by
  constructor
  · rfl
  all_goals (simp only [star_trivial, id]; decide +kernel)

/-- Non-vacuity of the definite case. -/
example : MaxMag 3 (Buf.ofList [1, 2, (5 : ℚ)]).get 5 ∧ (∀ i, i < 3 → Accepted 1 ((1 / 100 : ℚ) * 5) ((Buf.ofList [1, 2, (5 : ℚ)]).get i)) ∧
    (truncate 1 (1 / 100) ExEig.srt (Buf.ofList [1, 2, (5 : ℚ)])).map (fun r => (r.1.toList, r.2)) = .ok ([0, 1, 2], 3) := by
  refine ⟨?_, ?_, by decide +kernel⟩
  · unfold MaxMag; decide +kernel
  · unfold Accepted; decide +kernel

/-- Witness (negative dominant eigenvalue): `diag(-5, 0, 2)`, indefinite: rank 3 is reported and `solve` divides by zero. -/
theorem C50_singular_indefinite_witness : NegDominant 3 (Buf.ofList [-5, 0, (2 : ℚ)]).get ∧
    (factorize 0 (1 / 100 : ℚ) ExEig.srt ExEig.syev 9 (ExEig.st (ExEig.d3 (-5) 0 2))).map (fun s => s.rank) = .ok 3 ∧
    (do let s ← factorize 0 (1 / 100 : ℚ) ExEig.srt ExEig.syev 9 (ExEig.st (ExEig.d3 (-5) 0 2)); let x ← solve id s (Buf.ofList [4, 4, 10]) 0; pure x.toList : M (List ℚ)) =
      .error (.ub "division by zero") := by
  refine ⟨?_, by decide +kernel, by decide +kernel⟩
  unfold NegDominant; decide +kernel

/-- Witness (positive semidefinite): `diag(0, 1, 2)` declared positive definite: rank 3 is reported and `solve` divides by zero. -/
theorem C50_singular_definite_witness :
    (factorize 1 (1 / 100 : ℚ) ExEig.srt ExEig.syev 9 (ExEig.st (ExEig.d3 0 1 2))).map (fun s => s.rank) = .ok 3 ∧
    (do let s ← factorize 1 (1 / 100 : ℚ) ExEig.srt ExEig.syev 9 (ExEig.st (ExEig.d3 0 1 2)); let x ← solve id s (Buf.ofList [4, 4, 10]) 0; pure x.toList : M (List ℚ)) =
      .error (.ub "division by zero") := by
  refine ⟨by decide +kernel, by decide +kernel⟩

/-! ### C51 -/

section mrhs
set_option linter.unusedSectionVars false
variable {V : Type _} [Field V] [StarRing V] {c : R → V}

namespace C51

theorem copyIn_one (n : Nat) (x m : Buf V) (hx : x.size = n) (hm : m.size = n) : Runs (copyIn n 1 x m) fun r => r.size = n ∧ ∀ i, i < n → r.get i = x.get i := by
  unfold copyIn
  refine forUp_runs' (I := fun k r => r.size = n ∧ (k = 1 → ∀ i, i < n → r.get i = x.get i)) (by omega) ⟨hm, fun h => by omega⟩ ?_ ?_
  · rintro j r _ hj ⟨r1, -⟩
    obtain rfl : j = 0 := by omega
    refine forUp_runs' (I := fun k r' => r'.size = n ∧ ∀ i, i < k → r'.get i = x.get i) (by omega) ⟨r1, fun i hi => by omega⟩ ?_ ?_
    · rintro k r' _ hk ⟨s1, s2⟩
      simp only [runs_bind, runs_rd, runs_wr, Nat.mul_one, Nat.add_zero, Nat.zero_mul, Nat.zero_add, Buf.set_size, Buf.set_get]
      refine ⟨by omega, by omega, s1, fun i hi => ?_⟩
      by_cases e : i = k
      · rw [if_pos e, e]
      · rw [if_neg e]; exact s2 i (by omega)
    · rintro r' ⟨s1, s2⟩
      exact ⟨s1, fun _ => s2⟩
  · rintro r ⟨r1, r2⟩
    exact ⟨r1, r2 rfl⟩

theorem copyOut_one (n : Nat) (x m : Buf V) (hx : x.size = n) (hm : m.size = n) : Runs (copyOut n 1 m x) fun r => r.size = n ∧ ∀ i, i < n → r.get i = m.get i := by
  unfold copyOut
  refine forUp_runs' (I := fun k r => r.size = n ∧ (k = 1 → ∀ i, i < n → r.get i = m.get i)) (by omega) ⟨hx, fun h => by omega⟩ ?_ ?_
  · rintro j r _ hj ⟨r1, -⟩
    obtain rfl : j = 0 := by omega
    refine forUp_runs' (I := fun k r' => r'.size = n ∧ ∀ i, i < k → r'.get i = m.get i) (by omega) ⟨r1, fun i hi => by omega⟩ ?_ ?_
    · rintro k r' _ hk ⟨s1, s2⟩
      simp only [runs_bind, runs_rd, runs_wr, Nat.mul_one, Nat.add_zero, Nat.zero_mul, Nat.zero_add, Buf.set_size, Buf.set_get]
      refine ⟨by omega, by omega, s1, fun i hi => ?_⟩
      by_cases e : i = k
      · rw [if_pos e, e]
      · rw [if_neg e]; exact s2 i (by omega)
    · rintro r' ⟨s1, s2⟩
      exact ⟨s1, fun _ => s2⟩
  · rintro r ⟨r1, r2⟩
    exact ⟨r1, r2 rfl⟩

theorem copyIn_size (n k : Nat) (x m : Buf V) (hx : x.size = n * k) (hm : m.size = n * k) : Runs (copyIn n k x m) fun r => r.size = n * k := by
  unfold copyIn
  refine forUp_runs' (I := fun _ r => r.size = n * k) (by omega) hm ?_ (fun r h => h)
  rintro j r _ hj r1
  refine forUp_runs' (I := fun _ r' => r'.size = n * k) (by omega) r1 ?_ (fun r h => h)
  rintro i r' _ hi s1
  have b1 : (i + 1) * k ≤ n * k := Nat.mul_le_mul_right k hi
  have b2 : (j + 1) * n ≤ k * n := Nat.mul_le_mul_right n hj
  rw [Nat.mul_comm k n] at b2
  rw [Nat.add_mul, Nat.one_mul] at b1 b2
  simp only [runs_bind, runs_rd, runs_wr, Buf.set_size]
  exact ⟨by omega, by omega, s1⟩

/-- The code of one right-hand side is the same in both functions. -/
theorem mrhs_one {at' : (R → V) → Buf R → Buf Nat → Nat → Buf V → M (Buf V)} {op : V → R → V} {ok : R → Prop} {n : Nat} {s : St R V} (h : Ready n s)
    (hat : ∀ i (y : Buf V), i < s.order.size → s.order.get i < y.size → s.order.get i < s.w.size → ok (s.w.get (s.order.get i)) →
      Runs (at' c s.w s.order i y) fun r => r.size = y.size ∧ ∀ t, r.get t = if t = s.order.get i then op (y.get t) (s.w.get t) else y.get t)
    (b : Buf V) (hb : b.size = n) (rank : Nat) (hok : ∀ t, t < effRank s n rank → ok (s.w.get (s.order.get t))) :
    ∃ x x', (apply at' c s n (effRank s n rank) 0 b s.work).map Prod.fst = .ok x ∧ mrhs at' c s n 1 b rank = .ok x' ∧ x.size = n ∧ x'.size = n ∧ ∀ i, i < n → x'.get i = x.get i := by
  classical
  have hp := h.pos
  obtain ⟨r, e, r1, r2, r3, r4⟩ := apply_runs (c := c) (at' := at') (op := op) (ok := ok) h hat (off := 0) (h.eff_le rank) hok b s.work (by omega) h.work
  obtain ⟨m, em, m1, m2⟩ := copyIn_one n b (Buf.mk' (n * 1) 0) hb (by simp)
  obtain ⟨q, eq, q1, q2, q3, q4⟩ := apply_runs (c := c) (at' := at') (op := op) (ok := ok) h hat (off := 0) (h.eff_le rank) hok m s.work (by omega) h.work
  obtain ⟨y, ey, y1, y2⟩ := copyOut_one n b q.1 hb (by rw [q1, m1])
  refine ⟨r.1, y, by rw [e]; rfl, ?_, by rw [r1, hb], y1, fun i hi => ?_⟩
  · unfold mrhs
    rw [if_neg (by rw [h.rows, h.w]; omega), if_neg (by rw [h.rows]; simp), em]
    have eq' : (forUp 0 1 (m, s.work) fun i p => apply at' c s n (effRank s n rank) ((i * 1) * n) p.1 p.2) = .ok q := by
      unfold forUp
      show (apply at' c s n (effRank s n rank) ((0 * 1) * n) m s.work >>= fun s' => loop _ 0 1 s') = _
      rw [Nat.zero_mul, eq]
      rfl
    show (forUp 0 1 (m, s.work) (fun i p => apply at' c s n (effRank s n rank) ((i * 1) * n) p.1 p.2) >>= fun r => copyOut n 1 r.1 b) = _
    rw [eq']
    exact ey
  · rw [y2 i hi]
    have e1 := q3 i hi
    have e2 := r3 i hi
    simp only [Nat.zero_add] at e1 e2
    rw [e1, e2]
    refine Finset.sum_congr rfl fun l _ => ?_
    have : ∑ j ∈ range n, star (s.mat.get (l * n + j)) * m.get j = ∑ j ∈ range n, star (s.mat.get (l * n + j)) * b.get j :=
      Finset.sum_congr rfl fun j hj => by rw [m2 j (by simpa using hj)]
    rw [this]

/-- Several right-hand sides. -/
theorem mrhs_oob {at' : (R → V) → Buf R → Buf Nat → Nat → Buf V → M (Buf V)} {op : V → R → V} {ok : R → Prop} {n : Nat} {s : St R V} (h : Ready n s)
    (hat : ∀ i (y : Buf V), i < s.order.size → s.order.get i < y.size → s.order.get i < s.w.size → ok (s.w.get (s.order.get i)) →
      Runs (at' c s.w s.order i y) fun r => r.size = y.size ∧ ∀ t, r.get t = if t = s.order.get i then op (y.get t) (s.w.get t) else y.get t)
    {k : Nat} (hk : 2 ≤ k) (b : Buf V) (hb : b.size = n * k) (rank : Nat) (hok : ∀ t, t < effRank s n rank → ok (s.w.get (s.order.get t))) :
    mrhs at' c s n k b rank = .error .oob := by
  classical
  have hp := h.pos
  have hnk : n * 1 ≤ n * k := Nat.mul_le_mul_left n (by omega)
  obtain ⟨m, em, m1⟩ := copyIn_size n k b (Buf.mk' (n * k) 0) hb (by simp)
  obtain ⟨q, eq, q1, q2, -, -⟩ := apply_runs (c := c) (at' := at') (op := op) (ok := ok) h hat (off := 0) (h.eff_le rank) hok m s.work (by omega) h.work
  unfold mrhs
  rw [if_neg (by rw [h.rows, h.w]; omega), if_neg (by rw [h.rows]; simp), em]
  have e1 : apply at' c s n (effRank s n rank) ((1 * k) * n) q.1 q.2 = .error .oob := by
    unfold apply gemvC
    rw [if_neg (by
      rintro ⟨h1, -⟩
      rw [q1, m1, Nat.one_mul, Nat.mul_comm k n] at h1
      omega)]
    rfl
  have eq' : (forUp 0 k (m, s.work) fun i p => apply at' c s n (effRank s n rank) ((i * k) * n) p.1 p.2) = .error .oob := by
    unfold forUp
    obtain ⟨k', rfl⟩ : ∃ k', k = k' + 2 := ⟨k - 2, by omega⟩
    show (apply at' c s n (effRank s n rank) ((0 * (k' + 2)) * n) m s.work >>= fun s' => loop _ (k' + 1) 1 s') = _
    rw [Nat.zero_mul, Nat.zero_mul, eq]
    show (apply at' c s n (effRank s n rank) ((1 * (k' + 2)) * n) q.1 q.2 >>= fun s' => loop _ k' 2 s') = _
    rw [e1]
    rfl
  show (forUp 0 k (m, s.work) (fun i p => apply at' c s n (effRank s n rank) ((i * k) * n) p.1 p.2) >>= fun r => copyOut n k r.1 b) = _
  rw [eq']
  rfl

end C51

/-- **C51, partial**: `solve_mrhs` with one right-hand side agrees with `solve`. -/
theorem C51_solve_single_partial {n : Nat} {s : St R V} (h : Ready n s) (b : Buf V) (hb : b.size = n) (rank : Nat) (hz : ∀ t, t < effRank s n rank → s.w.get (s.order.get t) ≠ 0) :
    ∃ x x', solve c s b rank = .ok x ∧ mrhs divAt c s n 1 b rank = .ok x' ∧ x.size = n ∧ x'.size = n ∧ ∀ i, i < n → x'.get i = x.get i := by
  have hp := h.pos
  obtain ⟨x, x', e, r⟩ := C51.mrhs_one (c := c) (at' := divAt) (op := fun v l => v / c l) (ok := fun l => l ≠ 0) h
    (fun i y a1 a2 a3 a4 => divAt_runs i y a1 a2 a3 a4) b hb rank hz
  refine ⟨x, x', ?_, r⟩
  unfold solve
  rw [if_neg (by rw [h.rows, h.w]; omega), if_neg (by rw [hb, h.rows]; simp), hb]
  cases ha : apply divAt c s n (effRank s n rank) 0 b s.work with
  | error e' => rw [ha] at e; exact absurd e (by simp [Except.map])
  | ok v => rw [ha] at e; exact e

/-- **C51, partial**: the same for `multiply_mrhs`. -/
theorem C51_multiply_single_partial {n : Nat} {s : St R V} (h : Ready n s) (b : Buf V) (hb : b.size = n) (rank : Nat) :
    ∃ x x', multiply c s b rank = .ok x ∧ mrhs mulAt c s n 1 b rank = .ok x' ∧ x.size = n ∧ x'.size = n ∧ ∀ i, i < n → x'.get i = x.get i := by
  have hp := h.pos
  obtain ⟨x, x', e, r⟩ := C51.mrhs_one (c := c) (at' := mulAt) (op := fun v l => v * c l) (ok := fun _ => True) h
    (fun i y a1 a2 a3 a4 => mulAt_runs i y a1 a2 a3) b hb rank (fun _ _ => trivial)
  refine ⟨x, x', ?_, r⟩
  unfold multiply
  rw [if_neg (by rw [h.rows, h.w]; omega), if_neg (by rw [hb, h.rows]; simp), hb]
  cases ha : apply mulAt c s n (effRank s n rank) 0 b s.work with
  | error e' => rw [ha] at e; exact absurd e (by simp [Except.map])
  | ok v => rw [ha] at e; exact e

/-- **C51, the rest is false**: with two or more right-hand sides `solve_mrhs` always leaves the bounds of its buffer (the offset of right-hand side `i` is computed as
column `i · Nrhs` instead of `i`). -/
theorem C51_solve_out_of_bounds_witness {n : Nat} {s : St R V} (h : Ready n s) {k : Nat} (hk : 2 ≤ k) (b : Buf V) (hb : b.size = n * k) (rank : Nat)
    (hz : ∀ t, t < effRank s n rank → s.w.get (s.order.get t) ≠ 0) : mrhs divAt c s n k b rank = .error .oob :=
  C51.mrhs_oob (c := c) (at' := divAt) (op := fun v l => v / c l) (ok := fun l => l ≠ 0) h (fun i y a1 a2 a3 a4 => divAt_runs i y a1 a2 a3 a4) hk b hb rank hz

/-- **C51, the rest is false**: the same for `multiply_mrhs`. -/
theorem C51_multiply_out_of_bounds_witness {n : Nat} {s : St R V} (h : Ready n s) {k : Nat} (hk : 2 ≤ k) (b : Buf V) (hb : b.size = n * k) (rank : Nat) :
    mrhs mulAt c s n k b rank = .error .oob :=
  C51.mrhs_oob (c := c) (at' := mulAt) (op := fun v l => v * c l) (ok := fun _ => True) h (fun i y a1 a2 a3 a4 => mulAt_runs i y a1 a2 a3) hk b hb rank (fun _ _ => trivial)

end mrhs

/-- Non-vacuity of C51: a factorized state, one right-hand side; and two right-hand sides. -/
example : Ready 3 ({ ExEig.st ExEig.q3 with w := Buf.ofList [-2, 4, 5], work := Buf.mk' 9 0, order := Buf.ofList [2, 1, 0], rank := 3 } : St ℚ ℚ) ∧
    (mrhs divAt (id : ℚ → ℚ) { ExEig.st ExEig.q3 with w := Buf.ofList [-2, 4, 5], work := Buf.mk' 9 0, order := Buf.ofList [2, 1, 0], rank := 3 } 3 1 (Buf.ofList [4, 4, 10]) 0).map Buf.toList = .ok [-2, 1, 2] ∧
    (mrhs divAt (id : ℚ → ℚ) { ExEig.st ExEig.q3 with w := Buf.ofList [-2, 4, 5], work := Buf.mk' 9 0, order := Buf.ofList [2, 1, 0], rank := 3 } 3 2 (Buf.ofList [4, 4, 10, 1, 1, 1]) 0).map Buf.toList = .error .oob := by
  refine ⟨⟨by decide, rfl, rfl, rfl, by decide, ⟨rfl, by decide, by decide⟩, by decide⟩, by decide +kernel, by decide +kernel⟩

end Props
end Hif
