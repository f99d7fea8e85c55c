import Verif.CSLemmas
import Verif.Spec

set_option linter.unusedSectionVars false
set_option linter.unusedVariables false

/-! # Proofs about the product kernels (helpers for `Props/MatVec.lean`) -/

namespace Hif
open Finset Spec
namespace CS
variable {K : Type _} [CommRing K]

theorem crsMulRange_runs {A : CS K} (h : A.WF) (x y : Buf K) (istart len : Nat)
    (hl : istart + len ≤ A.psize) (hx : A.ssize ≤ x.size) (hy : istart + len ≤ y.size) :
    Runs (A.crsMulRange x istart len y) fun y' => y'.size = y.size ∧ ∀ i, y'.get i =
      if istart ≤ i ∧ i < istart + len then mulVec A.ssize A.crs x.get i else y.get i := by
  unfold crsMulRange
  refine forUp_runs' (fun i' (y' : Buf K) => y'.size = y.size ∧ ∀ i, y'.get i =
      if istart ≤ i ∧ i < i' then mulVec A.ssize A.crs x.get i else y.get i) (by omega)
      ⟨rfl, fun i => ?_⟩ ?_ (fun s hs => hs)
  · rw [if_neg (by omega)]
  rintro i y' h1 h2 ⟨h3, h4⟩
  simp only [runs_bind]
  refine (dotLine_runs h (by omega) x hx (fun v xj => v * xj)).mono ?_
  rintro tmp rfl
  simp only [runs_wr, Buf.set_size, Buf.set_get]
  refine ⟨by omega, h3, fun j => ?_⟩
  rw [line_sum h (by omega)]
  by_cases hj : j = i
  · subst hj; rw [if_pos rfl, if_pos (by omega)]; rfl
  · rw [if_neg hj, h4]
    have : (istart ≤ j ∧ j < i) ↔ (istart ≤ j ∧ j < i + 1) := by omega
    simp [this]

theorem entry_sum_succ (A : CS K) (i j : Nat) (x : Nat → K) :
    ∑ c ∈ range (i + 1), A.ccs j c * x c = ∑ c ∈ range i, A.ccs j c * x c + A.entry i j * x i := by
  rw [sum_range_succ]; rfl

theorem line_sum_out {A : CS K} (h : A.WF) {c i : Nat} (hc : c < A.psize) (hi : A.ssize ≤ i) (g : K → K) :
    (∑ k ∈ Ico (A.start.get c) (A.start.get (c + 1)), if A.inds.get k = i then g (A.vals.get k) else 0) = 0 := by
  refine sum_eq_zero fun k hk => ?_
  rw [mem_Ico] at hk
  have := h.line_lt hc hk.2
  rw [if_neg (by omega)]

theorem ccsMul_runs {A : CS K} (h : A.WF) (x y : Buf K)
    (hx : A.psize ≤ x.size) (hy : A.ssize ≤ y.size) :
    Runs (A.ccsMul x y) fun y' => y'.size = y.size ∧
      (∀ i, i < A.ssize → y'.get i = mulVec A.psize A.ccs x.get i) ∧
      ∀ i, A.ssize ≤ i → y'.get i = y.get i := by
  unfold ccsMul
  simp only [runs_bind]
  refine (fillZero_runs y A.ssize hy).mono ?_
  rintro y0 ⟨hs0, h0⟩
  simp only [runs_ite, runs_pure]
  split
  · rename_i hz
    refine ⟨hs0, fun i hi => ?_, fun i hi => by rw [h0, if_neg (by omega)]⟩
    rw [h0, if_pos hi]; simp [mulVec, hz]
  refine forUp_runs' (fun c (y' : Buf K) => y'.size = y.size ∧ (∀ i, i < A.ssize →
    y'.get i = ∑ c ∈ range c, A.ccs i c * x.get c) ∧ ∀ i, A.ssize ≤ i → y'.get i = y.get i) (Nat.zero_le _)
    ⟨hs0, fun i hi => by simp [h0, hi], fun i hi => by rw [h0, if_neg (by omega)]⟩ ?_ (fun s hs => hs)
  rintro c y' - h2 ⟨h3, h4, h4'⟩
  simp only [runs_bind, runs_rd]
  refine ⟨by omega, ?_⟩
  refine (axpyLine_runs h h2 y' (by omega) (fun v => x.get c * v) _ (fun a v => rfl)).mono ?_
  rintro y'' ⟨h5, h6⟩
  refine ⟨by omega, fun i hi => ?_, fun i hi => by rw [h6, h4' i hi, line_sum_out h h2 hi, add_zero]⟩
  rw [h6, h4 i hi, entry_sum_succ]
  simp only [mul_comm (x.get c)]
  rw [entry_mul]

theorem crsMulT_runs [StarRing K] {A : CS K} (h : A.WF) (x y : Buf K) (hp : A.psize ≠ 0)
    (hx : A.psize ≤ x.size) (hy : A.ssize ≤ y.size) :
    Runs (A.crsMulT x y) fun y' => y'.size = y.size ∧
      (∀ j, j < A.ssize → y'.get j = mulVec A.psize (herm A.crs) x.get j) ∧
      ∀ i, A.ssize ≤ i → y'.get i = y.get i := by
  unfold crsMulT
  rw [if_neg hp]
  simp only [runs_bind]
  refine (fillZero_runs y A.ssize hy).mono ?_
  rintro y0 ⟨hs0, h0⟩
  refine forUp_runs' (fun c (y' : Buf K) => y'.size = y.size ∧ (∀ i, i < A.ssize →
    y'.get i = ∑ c ∈ range c, herm A.crs i c * x.get c) ∧ ∀ i, A.ssize ≤ i → y'.get i = y.get i) (Nat.zero_le _)
    ⟨hs0, fun i hi => by simp [h0, hi], fun i hi => by rw [h0, if_neg (by omega)]⟩ ?_ (fun s hs => hs)
  rintro c y' - h2 ⟨h3, h4, h4'⟩
  simp only [runs_bind, runs_rd]
  refine ⟨by omega, ?_⟩
  refine (axpyLine_runs h h2 y' (by omega) (fun v => x.get c * star v) _ (fun a v => rfl)).mono ?_
  rintro y'' ⟨h5, h6⟩
  refine ⟨by omega, fun i hi => ?_, fun i hi => by rw [h6, h4' i hi, line_sum_out h h2 hi (fun v => x.get c * star v), add_zero]⟩
  rw [h6, h4 i hi, sum_range_succ]
  simp only [mul_comm (x.get c)]
  rw [entry_star_mul]; rfl

theorem ccsMulT_runs [StarRing K] {A : CS K} (h : A.WF) (x y : Buf K)
    (hx : A.ssize ≤ x.size) (hy : A.psize ≤ y.size) :
    Runs (A.ccsMulT x y) fun y' => y'.size = y.size ∧
      (∀ j, j < A.psize → y'.get j = mulVec A.ssize (herm A.ccs) x.get j) ∧
      ∀ i, A.psize ≤ i → y'.get i = y.get i := by
  unfold ccsMulT
  refine forUp_runs' (fun i' (y' : Buf K) => y'.size = y.size ∧ (∀ i, i < i' → y'.get i =
      mulVec A.ssize (herm A.ccs) x.get i) ∧ ∀ i, i' ≤ i → y'.get i = y.get i) (by omega) (by simp) ?_ (fun s hs => hs)
  rintro i y' h1 h2 ⟨h3, h4, h4'⟩
  simp only [runs_bind]
  refine (dotLine_runs h h2 x hx (fun v xj => xj * star v)).mono ?_
  rintro tmp rfl
  simp only [runs_wr, Buf.set_size, Buf.set_get]
  refine ⟨by omega, h3, fun j hj => ?_, fun j hj => by rw [if_neg (by omega)]; exact h4' j (by omega)⟩
  simp only [mul_comm (x.get _)]
  rw [line_sum_star h h2]
  by_cases hji : j = i
  · subst hji; rw [if_pos rfl]; rfl
  · rw [if_neg hji, h4 _ (by omega)]

/-! ### rows of `N` right-hand sides -/

theorem flat_lt {n N j k : Nat} (hj : j < n) (hk : k < N) : j * N + k < n * N := by
  calc j * N + k < j * N + N := by omega
    _ = (j + 1) * N := by ring
    _ ≤ n * N := Nat.mul_le_mul_right _ hj

theorem flat_inj {N i j k l : Nat} (hk : k < N) (hl : l < N) (h : i * N + k = j * N + l) :
    i = j ∧ k = l := by
  have h1 : (i * N + k) / N = (j * N + l) / N := by rw [h]
  have hN : 0 < N := by omega
  rw [Nat.mul_comm i, Nat.mul_comm j, Nat.mul_add_div hN, Nat.mul_add_div hN, Nat.div_eq_of_lt hk,
    Nat.div_eq_of_lt hl] at h1
  have : i = j := by omega
  subst this
  exact ⟨rfl, by omega⟩

/-- Update of one row of a flat `n × N` array, column by column. -/
theorem updRow_runs (N n : Nat) (y : Buf K) (j : Nat) (hj : j < n) (hy : n * N ≤ y.size)
    (f : Nat → Buf K → M (Buf K)) (new : Nat → K → K)
    (hf : ∀ k (y' : Buf K), k < N → n * N ≤ y'.size →
      Runs (f k y') fun y'' => y'' = y'.set (j * N + k) (new k (y'.get (j * N + k)))) :
    Runs (forUp 0 N y f) fun y' => y'.size = y.size ∧
      ∀ i k, k < N → y'.get (i * N + k) = if i = j then new k (y.get (i * N + k)) else y.get (i * N + k) := by
  refine forUp_runs' (fun k' (y' : Buf K) => y'.size = y.size ∧
      ∀ i k, k < N → y'.get (i * N + k) =
        if i = j ∧ k < k' then new k (y.get (i * N + k)) else y.get (i * N + k)) (Nat.zero_le _)
      (by simp) ?_ ?_
  · rintro k y' - h2 ⟨h3, h4⟩
    refine (hf k y' h2 (by omega)).mono ?_
    rintro _ rfl
    refine ⟨by simpa using h3, fun i l hl => ?_⟩
    simp only [Buf.set_get]
    by_cases hc : i * N + l = j * N + k
    · obtain ⟨rfl, rfl⟩ := flat_inj hl h2 hc
      simp [h4 _ _ hl]
    · rw [if_neg hc, h4 _ _ hl]
      have : (i = j ∧ l < k) ↔ (i = j ∧ l < k + 1) := by
        constructor
        · rintro ⟨rfl, h⟩; exact ⟨rfl, by omega⟩
        · rintro ⟨rfl, h⟩
          refine ⟨rfl, ?_⟩
          have : l ≠ k := fun e => hc (by rw [e])
          omega
      simp [this]
  · rintro y' ⟨h1, h2⟩
    refine ⟨h1, fun i k hk => ?_⟩
    simp [h2 i k hk, hk]

/-- Fill / update of a small array `tmp[0..N)`. -/
theorem updTmp_runs (N : Nat) (tmp : Buf K) (ht : N ≤ tmp.size)
    (f : Nat → Buf K → M (Buf K)) (new : Nat → K → K)
    (hf : ∀ k (t : Buf K), k < N → N ≤ t.size → Runs (f k t) fun t' => t' = t.set k (new k (t.get k))) :
    Runs (forUp 0 N tmp f) fun t' => t'.size = tmp.size ∧
      ∀ k, k < N → t'.get k = new k (tmp.get k) := by
  refine forUp_runs' (fun k' (t' : Buf K) => t'.size = tmp.size ∧
      ∀ k, t'.get k = if k < k' then new k (tmp.get k) else tmp.get k) (Nat.zero_le _)
      (by simp) ?_ ?_
  · rintro k t' - h2 ⟨h3, h4⟩
    refine (hf k t' h2 (by omega)).mono ?_
    rintro _ rfl
    refine ⟨by simpa using h3, fun l => ?_⟩
    simp only [Buf.set_get]
    by_cases hc : l = k
    · subst hc; simp [h4]
    · rw [if_neg hc, h4]
      have : (l < k) ↔ (l < k + 1) := by omega
      simp [this]
  · rintro t' ⟨h1, h2⟩
    exact ⟨h1, fun k hk => by simp [h2, hk]⟩

/-- Sweep of one line accumulating into `tmp[0..N)`. -/
theorem dotRow_runs {A : CS K} (h : A.WF) {i : Nat} (hi : i < A.psize) (N : Nat) (y : Buf K)
    (hy : A.ssize * N ≤ y.size) (g : K → K → K) (f : Nat → K → Buf K → M (Buf K))
    (hf : ∀ c v (t : Buf K), c < A.ssize → N ≤ t.size →
      Runs (f c v t) fun t' => t'.size = t.size ∧ ∀ k, k < N → t'.get k = t.get k + g v (y.get (c * N + k))) :
    Runs (A.forLine i (Buf.mk' N (0 : K)) f) fun tmp => tmp.size = N ∧ ∀ k, k < N →
        tmp.get k = ∑ l ∈ Ico (A.start.get i) (A.start.get (i + 1)),
          g (A.vals.get l) (col N y.get k (A.inds.get l)) := by
  refine forLine_runs h hi (fun l (tmp : Buf K) => tmp.size = N ∧ ∀ k, k < N →
        tmp.get k = ∑ l ∈ Ico (A.start.get i) l,
          g (A.vals.get l) (col N y.get k (A.inds.get l))) (by simp) ?_ (fun s hs => hs)
  rintro l tmp h1 h2 ⟨h3, h4⟩
  refine (hf _ _ tmp (h.line_lt hi h2) (by omega)).mono ?_
  rintro t' ⟨h5, h6⟩
  refine ⟨by omega, fun k hk => ?_⟩
  rw [h6 k hk, h4 k hk, sum_Ico_succ_top h1]; rfl

/-- Sweep of one line updating rows of `y`. -/
theorem axpyRows_step {A : CS K} (N : Nat) (y : Buf K) (g : Nat → K → K)
    (f : Nat → K → Buf K → M (Buf K)) (l lo : Nat) (hlo : lo ≤ l)
    (hf : ∀ c v (y : Buf K), c < A.ssize → A.ssize * N ≤ y.size →
      Runs (f c v y) fun y' => y'.size = y.size ∧ ∀ j k, k < N →
        y'.get (j * N + k) = if j = c then y.get (j * N + k) + g k v else y.get (j * N + k))
    (hl : A.inds.get l < A.ssize) (hy : A.ssize * N ≤ y.size) (y' : Buf K) (h3 : y'.size = y.size)
    (h4 : ∀ j k, k < N → y'.get (j * N + k) = y.get (j * N + k) + ∑ l ∈ Ico lo l,
          if A.inds.get l = j then g k (A.vals.get l) else 0) :
    Runs (f (A.inds.get l) (A.vals.get l) y') fun y'' => y''.size = y.size ∧ ∀ j k, k < N →
      y''.get (j * N + k) = y.get (j * N + k) + ∑ l ∈ Ico lo (l + 1),
          if A.inds.get l = j then g k (A.vals.get l) else 0 := by
  refine (hf _ _ y' hl (by omega)).mono ?_
  rintro y'' ⟨h5, h6⟩
  refine ⟨by omega, fun j k hk => ?_⟩
  rw [h6 j k hk, h4 j k hk, sum_Ico_succ_top hlo]
  by_cases hj : j = A.inds.get l
  · subst hj; simp [add_assoc]
  · simp [hj, Ne.symm hj]

theorem axpyRows_runs {A : CS K} (h : A.WF) {i : Nat} (hi : i < A.psize) (N : Nat) (y : Buf K)
    (hy : A.ssize * N ≤ y.size) (g : Nat → K → K) (f : Nat → K → Buf K → M (Buf K))
    (hf : ∀ c v (y : Buf K), c < A.ssize → A.ssize * N ≤ y.size →
      Runs (f c v y) fun y' => y'.size = y.size ∧ ∀ j k, k < N →
        y'.get (j * N + k) = if j = c then y.get (j * N + k) + g k v else y.get (j * N + k)) :
    Runs (A.forLine i y f) fun y' => y'.size = y.size ∧ ∀ j k, k < N →
      y'.get (j * N + k) = y.get (j * N + k) + ∑ l ∈ Ico (A.start.get i) (A.start.get (i + 1)),
          if A.inds.get l = j then g k (A.vals.get l) else 0 := by
  refine forLine_runs h hi (fun l (y' : Buf K) => y'.size = y.size ∧ ∀ j k, k < N →
      y'.get (j * N + k) = y.get (j * N + k) + ∑ l ∈ Ico (A.start.get i) l,
          if A.inds.get l = j then g k (A.vals.get l) else 0) (by simp) ?_ (fun s hs => hs)
  rintro l y' h1 h2 ⟨h3, h4⟩
  exact axpyRows_step N y g f l _ h1 hf (h.line_lt hi h2) hy y' h3 h4

theorem axpyRowsRev_runs {A : CS K} (h : A.WF) {i : Nat} (hi : i < A.psize) (N : Nat) (y : Buf K)
    (hy : A.ssize * N ≤ y.size) (g : Nat → K → K) (f : Nat → K → Buf K → M (Buf K))
    (hf : ∀ c v (y : Buf K), c < A.ssize → A.ssize * N ≤ y.size →
      Runs (f c v y) fun y' => y'.size = y.size ∧ ∀ j k, k < N →
        y'.get (j * N + k) = if j = c then y.get (j * N + k) + g k v else y.get (j * N + k)) :
    Runs (A.forLineRev i y f) fun y' => y'.size = y.size ∧ ∀ j k, k < N →
      y'.get (j * N + k) = y.get (j * N + k) + ∑ l ∈ Ico (A.start.get i) (A.start.get (i + 1)),
          if A.inds.get l = j then g k (A.vals.get l) else 0 := by
  refine forLineRev_runs h hi (fun l (y' : Buf K) => y'.size = y.size ∧ ∀ j k, k < N →
      y'.get (j * N + k) = y.get (j * N + k) + ∑ l ∈ Ico l (A.start.get (i + 1)),
          if A.inds.get l = j then g k (A.vals.get l) else 0) (by simp) ?_ (fun s hs => hs)
  rintro l y' h1 h2 ⟨h3, h4⟩
  refine (hf _ _ y' (h.line_lt hi h2) (by omega)).mono ?_
  rintro y'' ⟨h5, h6⟩
  refine ⟨by omega, fun j k hk => ?_⟩
  rw [h6 j k hk, h4 j k hk, sum_eq_sum_Ico_succ_bot h2]
  by_cases hj : j = A.inds.get l
  · subst hj; simp; ring
  · simp [hj, Ne.symm hj]

theorem crsMulMrhs_runs {A : CS K} (h : A.WF) (N : Nat) (x y : Buf K)
    (hx : A.ssize * N ≤ x.size) (hy : A.psize * N ≤ y.size) :
    Runs (A.crsMulMrhs N x y) fun y' => y'.size = y.size ∧ ∀ i c, i < A.psize → c < N →
      y'.get (i * N + c) = mulVec A.ssize A.crs (col N x.get c) i := by
  unfold crsMulMrhs
  refine forUp_runs' (fun i' (y' : Buf K) => y'.size = y.size ∧ ∀ i c, i < i' → c < N →
      y'.get (i * N + c) = mulVec A.ssize A.crs (col N x.get c) i) (Nat.zero_le _) (by simp) ?_
      (fun s hs => hs)
  rintro i y' - h2 ⟨h3, h4⟩
  simp only [runs_bind]
  refine (dotRow_runs h h2 N x hx (fun v xj => v * xj) _ ?_).mono ?_
  · intro c v t hc ht
    refine updTmp_runs N t ht _ (fun k old => old + v * x.get (c * N + k)) ?_
    intro k t hk ht
    simp only [runs_bind, runs_rd, runs_wr]
    exact ⟨by omega, lt_of_lt_of_le (flat_lt hc hk) hx, by omega, trivial⟩
  rintro tmp ⟨h5, h6⟩
  refine (updRow_runs N A.psize y' i h2 (by omega) _ (fun k _ => tmp.get k) ?_).mono ?_
  · intro k y'' hk hy''
    simp only [runs_bind, runs_rd, runs_wr]
    exact ⟨by omega, lt_of_lt_of_le (flat_lt h2 hk) hy'', trivial⟩
  rintro y'' ⟨h7, h8⟩
  refine ⟨by omega, fun j c hj hc => ?_⟩
  rw [h8 j c hc]
  by_cases hji : j = i
  · subst hji
    rw [if_pos rfl, h6 c hc, line_sum h h2]; rfl
  · rw [if_neg hji]; exact h4 j c (by omega) hc

theorem ccsMulMrhsT_runs {A : CS K} (h : A.WF) (N : Nat) (x y : Buf K)
    (hx : A.ssize * N ≤ x.size) (hy : A.psize * N ≤ y.size) :
    Runs (A.ccsMulMrhsT N x y) fun y' => y'.size = y.size ∧ ∀ i c, i < A.psize → c < N →
      y'.get (i * N + c) = mulVec A.ssize A.entry (col N x.get c) i := by
  unfold ccsMulMrhsT
  refine forUp_runs' (fun i' (y' : Buf K) => y'.size = y.size ∧ ∀ i c, i < i' → c < N →
      y'.get (i * N + c) = mulVec A.ssize A.entry (col N x.get c) i) (Nat.zero_le _) (by simp) ?_
      (fun s hs => hs)
  rintro i y' - h2 ⟨h3, h4⟩
  simp only [runs_bind]
  refine (dotRow_runs h h2 N x hx (fun v xj => v * xj) _ ?_).mono ?_
  · intro c v t hc ht
    refine updTmp_runs N t ht _ (fun k old => old + v * x.get (c * N + k)) ?_
    intro k t hk ht
    simp only [runs_bind, runs_rd, runs_wr]
    exact ⟨by omega, lt_of_lt_of_le (flat_lt hc hk) hx, by omega, by rw [mul_comm v]⟩
  rintro tmp ⟨h5, h6⟩
  refine (updRow_runs N A.psize y' i h2 (by omega) _ (fun k _ => tmp.get k) ?_).mono ?_
  · intro k y'' hk hy''
    simp only [runs_bind, runs_rd, runs_wr]
    exact ⟨by omega, lt_of_lt_of_le (flat_lt h2 hk) hy'', trivial⟩
  rintro y'' ⟨h7, h8⟩
  refine ⟨by omega, fun j c hj hc => ?_⟩
  rw [h8 j c hc]
  by_cases hji : j = i
  · subst hji
    rw [if_pos rfl, h6 c hc, line_sum h h2]; rfl
  · rw [if_neg hji]; exact h4 j c (by omega) hc

/-- The common column-oriented multi-RHS sweep (CCS product, CRS transposed product). -/
theorem axpyMrhs_runs {A : CS K} (h : A.WF) (N : Nat) (x y0 : Buf K)
    (hx : A.psize * N ≤ x.size) (hy : A.ssize * N ≤ y0.size)
    (h0 : ∀ i c, i < A.ssize → c < N → y0.get (i * N + c) = 0) :
    Runs (forUp 0 A.psize y0 fun i y => do
      let temp ← forUp 0 N (Buf.mk' N (0 : K)) fun k temp => do
        let xi ← x.rd (i * N + k)
        temp.wr k xi
      A.forLine i y fun j v y =>
        forUp 0 N y fun k y => do
          let yj ← y.rd (j * N + k)
          let t ← temp.rd k
          y.wr (j * N + k) (yj + t * v)) fun y' => y'.size = y0.size ∧
      ∀ i c, i < A.ssize → c < N → y'.get (i * N + c) = mulVec A.psize A.ccs (col N x.get c) i := by
  refine forUp_runs' (fun i' (y' : Buf K) => y'.size = y0.size ∧ ∀ i c, i < A.ssize → c < N →
      y'.get (i * N + c) = ∑ l ∈ range i', A.ccs i l * x.get (l * N + c)) (Nat.zero_le _)
      ⟨rfl, fun i c hi hc => by simp [h0 i c hi hc]⟩ ?_ (fun s hs => hs)
  rintro i y' - h2 ⟨h3, h4⟩
  simp only [runs_bind]
  refine (updTmp_runs N _ (by simp) _ (fun k _ => x.get (i * N + k)) ?_).mono ?_
  · intro k t hk ht
    simp only [runs_bind, runs_rd, runs_wr]
    exact ⟨lt_of_lt_of_le (flat_lt h2 hk) hx, by omega, trivial⟩
  rintro temp ⟨h5, h6⟩
  refine (axpyRows_runs h h2 N y' (by omega) (fun k v => temp.get k * v) _ ?_).mono ?_
  · intro c v y'' hc hy''
    refine updRow_runs N A.ssize y'' c hc hy'' _ (fun k old => old + temp.get k * v) ?_
    intro k z hk hz
    simp only [runs_bind, runs_rd, runs_wr]
    have := flat_lt hc hk
    simp at h5
    exact ⟨by omega, by omega, by omega, trivial⟩
  rintro y'' ⟨h7, h8⟩
  refine ⟨by omega, fun j c hj hc => ?_⟩
  rw [h8 j c hc, h4 j c hj hc, sum_range_succ]
  simp only [mul_comm (temp.get c)]
  rw [entry_mul, h6 c hc]; rfl

theorem crsMulMrhsT_runs {A : CS K} (h : A.WF) (N : Nat) (x y : Buf K) (hp : A.psize ≠ 0)
    (hx : A.psize * N ≤ x.size) (hy : A.ssize * N ≤ y.size) :
    Runs (A.crsMulMrhsT N x y) fun y' => y'.size = y.size ∧
      ∀ i c, i < A.ssize → c < N → y'.get (i * N + c) = mulVec A.psize A.ccs (col N x.get c) i := by
  unfold crsMulMrhsT
  rw [if_neg hp]
  simp only [runs_bind]
  refine (fillZero_runs y (N * A.ssize) (by rw [Nat.mul_comm]; omega)).mono ?_
  rintro y0 ⟨hs0, h0⟩
  have := axpyMrhs_runs h N x y0 hx (by omega) (fun i c hi hc => by
    rw [h0, if_pos]; rw [Nat.mul_comm N]; exact flat_lt hi hc)
  rw [← hs0]; exact this

theorem ccsMulMrhs_runs {A : CS K} (h : A.WF) (N : Nat) (x y : Buf K)
    (hx : A.psize * N ≤ x.size) (hy : A.ssize * N ≤ y.size) :
    Runs (A.ccsMulMrhs N x y) fun y' => y'.size = y.size ∧
      ∀ i c, i < A.ssize → c < N → y'.get (i * N + c) = mulVec A.psize A.ccs (col N x.get c) i := by
  unfold ccsMulMrhs
  simp only [runs_bind]
  refine (fillZero_runs y (N * A.ssize) (by rw [Nat.mul_comm]; omega)).mono ?_
  rintro y0 ⟨hs0, h0⟩
  have hz : ∀ i c, i < A.ssize → c < N → y0.get (i * N + c) = 0 := fun i c hi hc => by
    rw [h0, if_pos]; rw [Nat.mul_comm N]; exact flat_lt hi hc
  simp only [runs_ite, runs_pure]
  split
  · rename_i hp
    refine ⟨hs0, fun i c hi hc => ?_⟩
    rw [hz i c hi hc]; simp [mulVec, hp]
  · have := axpyMrhs_runs h N x y0 hx (by omega) hz
    rw [← hs0]; exact this

end CS
end Hif
