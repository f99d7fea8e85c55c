import Verif.Nsp
import Mathlib.Data.Rat.Defs
import Mathlib.Algebra.Field.Rat

set_option linter.unusedSectionVars false
set_option linter.unusedVariables false

/-! # C33: the constant null-space filter -/

namespace Hif.Props
open Finset
variable {K : Type _} [Field K]

/-- The documented range of the filter on a vector of length `n`: `[start, end)`, where `end` defaults to `n` when it is
`size_t(-1)` (or, in this code, when it lies before `start`). -/
inductive NspRange (start stop n : Nat) : Nat → Prop where
  | default (h : stop = sizeMax ∨ stop < start) : NspRange start stop n n
  | given (h1 : stop ≠ sizeMax) (h2 : start ≤ stop) : NspRange start stop n stop

theorem NspRange.effEnd {start stop n e : Nat} (h : NspRange start stop n e) : (Nsp.const (K := K) start stop).effEnd n = e := by
  unfold Nsp.effEnd Nsp.const
  cases h with
  | default h => exact if_pos h
  | given h1 h2 => exact if_neg (by rintro (c | c); exacts [h1 c, Nat.not_lt.2 h2 c])

/-- C33 (values): on a valid range the filter subtracts the mean over `[start, end)` from exactly the components of that range
and leaves all other components alone. -/
theorem C33_filter_subtracts_mean (start stop e : Nat) (x : Buf K) (he : NspRange start stop x.size e)
    (h1 : start ≤ e) (h2 : e ≤ x.size) :
    ∃ y, (Nsp.const start stop).filter x x.size = .ok y ∧ y.size = x.size ∧
      (∀ i, start ≤ i → i < e → y.get i = x.get i - (∑ j ∈ Ico start e, x.get j) / ((e - start : Nat) : K)) ∧
      ∀ i, ¬ (start ≤ i ∧ i < e) → y.get i = x.get i := by
  have hE := he.effEnd (K := K)
  rcases Nat.lt_or_ge start e with h | h
  · obtain ⟨y, e1, e2, e3⟩ := (Nsp.const start stop).constFilter_runs x x.size (le_refl _) (by rw [hE]; exact h) (by rw [hE]; exact h2)
    refine ⟨y, e1, e2, fun i a b => ?_, fun i a => ?_⟩
    · rw [e3, hE, if_pos ⟨a, b⟩]; rfl
    · rw [e3, hE]; exact if_neg a
  · have : start = e := by omega
    subst this
    refine ⟨x, ?_, rfl, fun i a b => by omega, fun _ _ => rfl⟩
    show (Nsp.const start stop).constFilter x x.size = _
    unfold Nsp.constFilter
    simp only
    rw [hE]
    show (if start < start ∨ x.size < start then _ else if start = start then pure x else _) = _
    rw [if_neg (by omega), if_pos rfl]
    rfl

/-- C33 (projection): the filtered components sum to zero. -/
theorem C33_filter_sum_zero [CharZero K] (start stop e : Nat) (x y : Buf K) (he : NspRange start stop x.size e)
    (h1 : start ≤ e) (h2 : e ≤ x.size) (h : (Nsp.const start stop).filter x x.size = .ok y) :
    ∑ j ∈ Ico start e, y.get j = 0 := by
  obtain ⟨y', e1, -, e3, -⟩ := C33_filter_subtracts_mean start stop e x he h1 h2
  rw [e1] at h
  cases h
  rcases Nat.lt_or_ge start e with h | h
  · rw [sum_congr rfl fun i hi => e3 i (mem_Ico.1 hi).1 (mem_Ico.1 hi).2, sum_sub_distrib, sum_const, Nat.card_Ico, nsmul_eq_mul]
    have : ((e - start : Nat) : K) ≠ 0 := Nat.cast_ne_zero.2 (by omega)
    rw [mul_div_cancel₀ _ this, sub_self]
  · simp [Ico_eq_empty_of_le h]

/-- C33 (idempotent): filtering twice is filtering once. -/
theorem C33_filter_idempotent [CharZero K] (start stop e : Nat) (x y : Buf K) (he : NspRange start stop x.size e)
    (h1 : start ≤ e) (h2 : e ≤ x.size) (h : (Nsp.const start stop).filter x x.size = .ok y) :
    ∃ z, (Nsp.const start stop).filter y y.size = .ok z ∧ z.size = y.size ∧ ∀ i, z.get i = y.get i := by
  have hz := C33_filter_sum_zero start stop e x y he h1 h2 h
  obtain ⟨y', e1, e2, -⟩ := C33_filter_subtracts_mean start stop e x he h1 h2
  rw [e1] at h
  cases h
  obtain ⟨z, f1, f2, f3, f4⟩ := C33_filter_subtracts_mean start stop e y (by rw [e2]; exact he) h1 (by omega)
  refine ⟨z, f1, f2, fun i => ?_⟩
  by_cases c : start ≤ i ∧ i < e
  · rw [f3 i c.1 c.2, hz, zero_div, sub_zero]
  · exact f4 i c

/-- C33 (errors): if the range does not fit the vector, an exception is raised and no result is produced (the vector is
untouched: nothing was stored before the check). -/
theorem C33_filter_bad_range (start stop e : Nat) (x : Buf K) (he : NspRange start stop x.size e)
    (hbad : e < start ∨ x.size < e) : ∃ m, (Nsp.const start stop).filter x x.size = .error (.hif m) := by
  have hE := he.effEnd (K := K)
  refine ⟨"wrong range (start,end,n)", ?_⟩
  show (Nsp.const start stop).constFilter x x.size = _
  unfold Nsp.constFilter
  simp only
  rw [hE, if_pos (show e < (Nsp.const (K := K) start stop).start ∨ x.size < e from hbad)]
  rfl

/-- The range end given before the start is silently replaced by the vector length instead of being rejected. -/
theorem C33_reversed_range_accepted : ∃ y, (Nsp.const 1 0).filter (Buf.ofList [5, 1, 3] : Buf ℚ) 3 = .ok y ∧
    y.toList = [5, -1, 1] := by
  refine ⟨_, rfl, ?_⟩
  decide +kernel

/-- Non-vacuity: a valid sub-range of a vector of length 3, and the default range. -/
example : NspRange 0 2 3 2 ∧ NspRange 1 sizeMax 3 3 := ⟨.given (by decide) (by decide), .default (Or.inl rfl)⟩

end Hif.Props
