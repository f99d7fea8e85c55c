import Verif.CS
import Mathlib.Tactic.Ring
import Mathlib.Tactic.LinearCombination

/-! # Helper lemmas about compressed storage (no property statements here) -/

namespace Hif
open Finset
namespace CS
variable {K : Type _}

theorem WF.start_mono {A : CS K} (h : A.WF) {i j : Nat} (hij : i ≤ j) (hj : j ≤ A.psize) :
    A.start.get i ≤ A.start.get j := by
  induction j with
  | zero => simp_all
  | succ j ih =>
    rcases Nat.lt_or_ge i (j + 1) with h1 | h1
    · exact le_trans (ih (by omega) (by omega)) (h.mono j (by omega))
    · have : i = j + 1 := by omega
      simp [this]

theorem WF.lt_nnz {A : CS K} (h : A.WF) {i k : Nat} (hi : i < A.psize)
    (hk : k < A.start.get (i + 1)) : k < A.start.get A.psize :=
  lt_of_lt_of_le hk (h.start_mono (by omega) (le_refl _))

theorem WF.line_inds {A : CS K} (h : A.WF) {i k : Nat} (hi : i < A.psize)
    (hk : k < A.start.get (i + 1)) : k < A.inds.size :=
  lt_of_lt_of_le (h.lt_nnz hi hk) h.nnz_inds

theorem WF.line_vals {A : CS K} (h : A.WF) {i k : Nat} (hi : i < A.psize)
    (hk : k < A.start.get (i + 1)) : k < A.vals.size :=
  lt_of_lt_of_le (h.lt_nnz hi hk) h.nnz_vals

theorem WF.line_lt {A : CS K} (h : A.WF) {i k : Nat} (hi : i < A.psize)
    (hk : k < A.start.get (i + 1)) : A.inds.get k < A.ssize :=
  h.inds_lt k (h.lt_nnz hi hk)

/-- Invariant rule for a sweep over one line. -/
theorem forLine_runs {σ : Type _} {A : CS K} (h : A.WF) {i : Nat} (hi : i < A.psize) {s : σ}
    {f : Nat → K → σ → M σ} {Q : σ → Prop} (I : Nat → σ → Prop) (h0 : I (A.start.get i) s)
    (hstep : ∀ k s, A.start.get i ≤ k → k < A.start.get (i + 1) → I k s →
      Runs (f (A.inds.get k) (A.vals.get k) s) (I (k + 1)))
    (hQ : ∀ s, I (A.start.get (i + 1)) s → Q s) :
    Runs (A.forLine i s f) Q := by
  unfold forLine
  have hs := h.start_size
  simp only [runs_bind, runs_rd]
  refine ⟨by omega, by omega, ?_⟩
  refine forUp_runs' I (h.mono i hi) h0 (fun k s h1 h2 h3 => ?_) hQ
  simp only [runs_bind, runs_rd]
  exact ⟨h.line_inds hi h2, h.line_vals hi h2, hstep k s h1 h2 h3⟩

/-- Invariant rule for a reverse sweep over one line. -/
theorem forLineRev_runs {σ : Type _} {A : CS K} (h : A.WF) {i : Nat} (hi : i < A.psize) {s : σ}
    {f : Nat → K → σ → M σ} {Q : σ → Prop} (I : Nat → σ → Prop) (h0 : I (A.start.get (i + 1)) s)
    (hstep : ∀ k s, A.start.get i ≤ k → k < A.start.get (i + 1) → I (k + 1) s →
      Runs (f (A.inds.get k) (A.vals.get k) s) (I k))
    (hQ : ∀ s, I (A.start.get i) s → Q s) :
    Runs (A.forLineRev i s f) Q := by
  unfold forLineRev
  have hs := h.start_size
  have hm := h.mono i hi
  simp only [runs_bind, runs_rd]
  refine ⟨by omega, by omega, ?_⟩
  refine forDown_runs' (fun k s => I (A.start.get i + k) s) ?_ (fun k s h2 h3 => ?_) ?_
  · rwa [show A.start.get i + (A.start.get (i + 1) - A.start.get i) = A.start.get (i + 1) by omega]
  · simp only [runs_bind, runs_rd]
    have h4 : A.start.get i + k < A.start.get (i + 1) := by omega
    exact ⟨h.line_inds hi h4, h.line_vals hi h4, hstep _ s (by omega) h4 h3⟩
  · simpa using hQ

theorem fillZero_runs [Zero K] (y : Buf K) (n : Nat) (hn : n ≤ y.size) :
    Runs (fillZero y n) fun y' => y'.size = y.size ∧ ∀ i, y'.get i = if i < n then 0 else y.get i := by
  unfold fillZero
  refine forUp_runs' (fun i (y' : Buf K) => y'.size = y.size ∧
    ∀ j, y'.get j = if j < i then 0 else y.get j) (Nat.zero_le _) (by simp) ?_ (by simp)
  rintro k y' - hk ⟨h1, h2⟩
  simp only [runs_wr, Buf.set_size, Buf.set_get]
  refine ⟨by omega, h1, fun j => ?_⟩
  rw [h2]
  by_cases h : j = k
  · simp [h]
  · have : (j < k + 1) ↔ (j < k) := by omega
    simp [h, this]

section sums

theorem sum_part_entry [AddCommMonoid K] {β : Type _} [AddCommMonoid β] (A : CS K) (lo hi n : Nat)
    (hb : ∀ k, lo ≤ k → k < hi → A.inds.get k < n) (g : Nat → Nat → β) :
    ∑ k ∈ Ico lo hi, g k (A.inds.get k) =
      ∑ j ∈ range n, ∑ k ∈ Ico lo hi, if A.inds.get k = j then g k j else 0 := by
  rw [sum_comm]
  refine sum_congr rfl fun k hk => ?_
  have hk := mem_Ico.1 hk
  rw [sum_eq_single (A.inds.get k)]
  · simp
  · intro b _ hb'; simp [Ne.symm hb']
  · intro h'; exact absurd (mem_range.2 (hb k hk.1 hk.2)) h'

/-- A sum over the stored entries of a line is a sum over the entries of the represented row. -/
theorem line_sum [CommRing K] {A : CS K} (h : A.WF) {i : Nat} (hi : i < A.psize) (x : Nat → K) :
    ∑ k ∈ Ico (A.start.get i) (A.start.get (i + 1)), A.vals.get k * x (A.inds.get k) =
      ∑ j ∈ range A.ssize, A.entry i j * x j := by
  rw [A.sum_part_entry _ _ A.ssize (fun k _ h2 => h.line_lt hi h2) (fun k j => A.vals.get k * x j)]
  refine sum_congr rfl fun j _ => ?_
  unfold entry
  rw [sum_mul]
  refine sum_congr rfl fun k _ => ?_
  split <;> simp

theorem line_sum_star [CommRing K] [StarRing K] {A : CS K} (h : A.WF) {i : Nat} (hi : i < A.psize)
    (x : Nat → K) :
    ∑ k ∈ Ico (A.start.get i) (A.start.get (i + 1)), star (A.vals.get k) * x (A.inds.get k) =
      ∑ j ∈ range A.ssize, star (A.entry i j) * x j := by
  rw [A.sum_part_entry _ _ A.ssize (fun k _ h2 => h.line_lt hi h2)
    (fun k j => star (A.vals.get k) * x j)]
  refine sum_congr rfl fun j _ => ?_
  unfold entry
  rw [star_sum, sum_mul]
  refine sum_congr rfl fun k _ => ?_
  split <;> simp

theorem entry_mul [CommRing K] (A : CS K) (i j : Nat) (t : K) :
    (∑ k ∈ Ico (A.start.get i) (A.start.get (i + 1)),
      if A.inds.get k = j then A.vals.get k * t else 0) = A.entry i j * t := by
  unfold entry
  rw [sum_mul]
  refine sum_congr rfl fun k _ => ?_
  split <;> simp

theorem entry_star_mul [CommRing K] [StarRing K] (A : CS K) (i j : Nat) (t : K) :
    (∑ k ∈ Ico (A.start.get i) (A.start.get (i + 1)),
      if A.inds.get k = j then star (A.vals.get k) * t else 0) = star (A.entry i j) * t := by
  unfold entry
  rw [star_sum, sum_mul]
  refine sum_congr rfl fun k _ => ?_
  split <;> simp

end sums

section dot
variable [CommRing K]

/-- Generic dot-product sweep over a line. -/
theorem dotLine_runs {A : CS K} (h : A.WF) {i : Nat} (hi : i < A.psize) (y : Buf K)
    (hy : A.ssize ≤ y.size) (g : K → K → K) :
    Runs (A.forLine i (0 : K) fun c v tmp => do
      let yc ← y.rd c
      pure (tmp + g v yc)) fun tmp =>
        tmp = ∑ k ∈ Ico (A.start.get i) (A.start.get (i + 1)), g (A.vals.get k) (y.get (A.inds.get k)) := by
  refine forLine_runs h hi (fun k tmp => tmp = ∑ k ∈ Ico (A.start.get i) k,
    g (A.vals.get k) (y.get (A.inds.get k))) (by simp) ?_ (fun s hs => hs)
  rintro k tmp h1 h2 rfl
  simp only [runs_bind, runs_rd, runs_pure]
  refine ⟨lt_of_lt_of_le (h.line_lt hi h2) hy, ?_⟩
  rw [sum_Ico_succ_top h1]

/-- Generic axpy sweep over a line: `y[c] = op y[c] v` with `op a v = a + g v`. -/
theorem axpyLine_runs {A : CS K} (h : A.WF) {i : Nat} (hi : i < A.psize) (y : Buf K)
    (hy : A.ssize ≤ y.size) (g : K → K) (op : K → K → K) (hop : ∀ a v, op a v = a + g v) :
    Runs (A.forLine i y fun c v y => do
      let yc ← y.rd c
      y.wr c (op yc v)) fun y' => y'.size = y.size ∧ ∀ j, y'.get j =
        y.get j + ∑ k ∈ Ico (A.start.get i) (A.start.get (i + 1)),
          if A.inds.get k = j then g (A.vals.get k) else 0 := by
  refine forLine_runs h hi (fun k (y' : Buf K) => y'.size = y.size ∧ ∀ j, y'.get j =
        y.get j + ∑ k ∈ Ico (A.start.get i) k,
          if A.inds.get k = j then g (A.vals.get k) else 0) (by simp) ?_ (fun s hs => hs)
  rintro k y' h1 h2 ⟨h3, h4⟩
  simp only [runs_bind, runs_rd, runs_wr, Buf.set_size, Buf.set_get]
  have h5 : A.inds.get k < y'.size := by
    rw [h3]; exact lt_of_lt_of_le (h.line_lt hi h2) hy
  refine ⟨h5, h5, h3, fun j => ?_⟩
  rw [sum_Ico_succ_top h1, hop]
  by_cases hj : j = A.inds.get k
  · subst hj
    simp [h4, add_assoc]
  · simp [h4, hj, Ne.symm hj]

/-- The same with reverse iterators. -/
theorem axpyLineRev_runs {A : CS K} (h : A.WF) {i : Nat} (hi : i < A.psize) (y : Buf K)
    (hy : A.ssize ≤ y.size) (g : K → K) (op : K → K → K) (hop : ∀ a v, op a v = a + g v) :
    Runs (A.forLineRev i y fun c v y => do
      let yc ← y.rd c
      y.wr c (op yc v)) fun y' => y'.size = y.size ∧ ∀ j, y'.get j =
        y.get j + ∑ k ∈ Ico (A.start.get i) (A.start.get (i + 1)),
          if A.inds.get k = j then g (A.vals.get k) else 0 := by
  refine forLineRev_runs h hi (fun k (y' : Buf K) => y'.size = y.size ∧ ∀ j, y'.get j =
        y.get j + ∑ k ∈ Ico k (A.start.get (i + 1)),
          if A.inds.get k = j then g (A.vals.get k) else 0) (by simp) ?_ (fun s hs => hs)
  rintro k y' h1 h2 ⟨h3, h4⟩
  simp only [runs_bind, runs_rd, runs_wr, Buf.set_size, Buf.set_get]
  have h5 : A.inds.get k < y'.size := by
    rw [h3]; exact lt_of_lt_of_le (h.line_lt hi h2) hy
  refine ⟨h5, h5, h3, fun j => ?_⟩
  rw [sum_eq_sum_Ico_succ_bot h2, hop]
  by_cases hj : j = A.inds.get k
  · subst hj
    simp [h4]; ring
  · simp [h4, hj, Ne.symm hj]

end dot

end CS
end Hif
