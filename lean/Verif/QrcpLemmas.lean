import Verif.Qrcp
import Verif.PrecLemmas

set_option linter.unusedSectionVars false
set_option linter.unusedVariables false

namespace Hif
namespace Qrcp
open Finset Spec

variable {K : Type} [Field K] [StarRing K]

/-! ### reflectors -/

theorem ip_sub {n : Nat} (x y z : Nat → K) : ip n x (fun i => y i - z i) = ip n x y - ip n x z := by
  unfold ip; rw [← sum_sub_distrib]; exact sum_congr rfl fun i _ => by ring

theorem ip_smul {n : Nat} (x y : Nat → K) (c : K) : ip n x (fun i => c * y i) = c * ip n x y := by
  unfold ip; rw [mul_sum]; exact sum_congr rfl fun i _ => by ring

theorem star_ip {n : Nat} (x y : Nat → K) : star (ip n x y) = ip n y x := by
  unfold ip; rw [star_sum]; exact sum_congr rfl fun i _ => by rw [star_mul', star_star]; ring

theorem ip_sum {n k : Nat} (x : Nat → K) (Y : Nat → Nat → K) (c : Nat → K) : ip n x (fun i => ∑ j ∈ range k, c j * Y j i) = ∑ j ∈ range k, c j * ip n x (Y j) := by
  unfold ip
  simp only [mul_sum]
  rw [sum_comm]
  exact sum_congr rfl fun j _ => sum_congr rfl fun i _ => by ring

theorem refl_eq (n : Nat) (v : Nat → K) (t : K) (x : Nat → K) (i : Nat) : refl n v t x i = x i - t * v i * ip n v x := rfl

/-- A reflector with its conjugate scalar is the adjoint. -/
theorem refl_adj (n : Nat) (v : Nat → K) (t : K) (x y : Nat → K) : ip n x (refl n v t y) = ip n (refl n v (star t) x) y := by
  have h1 : ip n x (refl n v t y) = ip n x y - t * ip n v y * ip n x v := by
    have : refl n v t y = fun i => y i - (t * ip n v y) * v i := by funext i; rw [refl_eq]; ring
    rw [this, ip_sub, ip_smul]
  have h2 : ip n (refl n v (star t) x) y = ip n x y - t * ip n v y * ip n x v := by
    rw [← star_ip y]
    have : refl n v (star t) x = fun i => x i - (star t * ip n v x) * v i := by funext i; rw [refl_eq]; ring
    rw [this, ip_sub, ip_smul, star_sub, star_mul', star_mul', star_star, star_ip, star_ip, star_ip]
    ring
  rw [h1, h2]

/-- The reflector is unitary. -/
def Unitary (n : Nat) (v : Nat → K) (t : K) : Prop := t + star t = t * star t * ip n v v

theorem refl_refl {n : Nat} {v : Nat → K} {t u : K} (h : t + u = t * u * ip n v v) (x : Nat → K) : refl n v u (refl n v t x) = x := by
  funext i
  rw [refl_eq, refl_eq]
  have : ip n v (refl n v t x) = ip n v x - t * ip n v x * ip n v v := by
    have : refl n v t x = fun i => x i - (t * ip n v x) * v i := by funext i; rw [refl_eq]; ring
    rw [this, ip_sub, ip_smul]
  rw [this]
  linear_combination (-(v i) * ip n v x) * h

theorem Unitary.left {n : Nat} {v : Nat → K} {t : K} (h : Unitary n v t) (x : Nat → K) : refl n v (star t) (refl n v t x) = x := refl_refl h x
theorem Unitary.right {n : Nat} {v : Nat → K} {t : K} (h : Unitary n v t) (x : Nat → K) : refl n v t (refl n v (star t) x) = x :=
  refl_refl (by unfold Unitary at h; rw [add_comm, h]; ring) x

section Q
variable (n : Nat) (mat tau : Nat → K)

theorem applyQH_applyQ {k : Nat} (h : ∀ i, i < k → Unitary n (hvec n mat i) (tau i)) (x : Nat → K) : applyQH n mat tau k (applyQ n mat tau k x) = x := by
  induction k generalizing x with
  | zero => rfl
  | succ k ih =>
    rw [applyQ, applyQH, ih (fun i hi => h i (by omega))]
    exact (h k (by omega)).left x

theorem applyQ_applyQH {k : Nat} (h : ∀ i, i < k → Unitary n (hvec n mat i) (tau i)) (x : Nat → K) : applyQ n mat tau k (applyQH n mat tau k x) = x := by
  induction k with
  | zero => rfl
  | succ k ih =>
    rw [applyQ, applyQH, (h k (by omega)).right, ih (fun i hi => h i (by omega))]

theorem applyQ_adj (k : Nat) (x y : Nat → K) : ip n x (applyQ n mat tau k y) = ip n (applyQH n mat tau k x) y := by
  induction k generalizing y with
  | zero => rfl
  | succ k ih => rw [applyQ, applyQH, ih, refl_adj]

/-- `Q` is an isometry. -/
theorem applyQ_ip {k : Nat} (h : ∀ i, i < k → Unitary n (hvec n mat i) (tau i)) (x y : Nat → K) :
    ip n (applyQ n mat tau k x) (applyQ n mat tau k y) = ip n x y := by
  rw [applyQ_adj, applyQH_applyQ n mat tau h]

theorem refl_head {i k : Nat} (hik : i < k) (t : K) (x : Nat → K) : refl n (hvec n mat k) t x i = x i := by
  rw [refl_eq]
  unfold hvec
  rw [if_pos (Or.inl hik)]
  ring

/-- Later reflectors do not change the leading components. -/
theorem applyQH_head {k l : Nat} (hkl : k ≤ l) (x : Nat → K) {i : Nat} (hi : i < k) : applyQH n mat tau l x i = applyQH n mat tau k x i := by
  induction l with
  | zero => obtain rfl : k = 0 := by omega
            rfl
  | succ l ih =>
    rcases Nat.lt_or_ge l k with h | h
    · obtain rfl : k = l + 1 := by omega
      rfl
    · rw [applyQH, refl_head _ _ (by omega), ih h]

/-- A vector without components from `k` on is not changed by reflector `k`. -/
theorem refl_zero_tail {k : Nat} (t : K) {x : Nat → K} (hx : ∀ i, k ≤ i → i < n → x i = 0) : refl n (hvec n mat k) t x = x := by
  funext i
  rw [refl_eq]
  have : ip n (hvec n mat k) x = 0 := by
    unfold ip
    refine sum_eq_zero fun j hj => ?_
    by_cases h : j < k
    · unfold hvec; rw [if_pos (Or.inl h), star_zero, zero_mul]
    · rw [hx j (by omega) (mem_range.1 hj), mul_zero]
  rw [this]; ring

theorem applyQ_head {k l : Nat} (hkl : k ≤ l) {x : Nat → K} (hx : ∀ i, k ≤ i → i < n → x i = 0) : applyQ n mat tau l x = applyQ n mat tau k x := by
  induction l with
  | zero => obtain rfl : k = 0 := by omega
            rfl
  | succ l ih =>
    rcases Nat.lt_or_ge l k with h | h
    · obtain rfl : k = l + 1 := by omega
      rfl
    · rw [applyQ, refl_zero_tail n mat (tau l) (fun i hi => hx i (by omega)), ih h]

theorem refl_sum {k : Nat} (v : Nat → K) (t : K) (Y : Nat → Nat → K) (c : Nat → K) (i : Nat) :
    refl n v t (fun i => ∑ j ∈ range k, c j * Y j i) i = ∑ j ∈ range k, c j * refl n v t (Y j) i := by
  rw [refl_eq, ip_sum]
  simp only [refl_eq, mul_sub, sum_sub_distrib, mul_sum]
  congr 1
  exact sum_congr rfl fun j _ => by ring

theorem applyQ_sum {k : Nat} (l : Nat) (Y : Nat → Nat → K) (c : Nat → K) (i : Nat) :
    applyQ n mat tau l (fun i => ∑ j ∈ range k, c j * Y j i) i = ∑ j ∈ range k, c j * applyQ n mat tau l (Y j) i := by
  induction l generalizing Y with
  | zero => rfl
  | succ l ih =>
    rw [applyQ]
    have : refl n (hvec n mat l) (tau l) (fun i => ∑ j ∈ range k, c j * Y j i) = fun i => ∑ j ∈ range k, c j * refl n (hvec n mat l) (tau l) (Y j) i := by
      funext i; exact refl_sum n _ _ _ _ i
    rw [this, ih]
    rfl

theorem refl_congr {v : Nat → K} {t : K} {x y : Nat → K} (h : ∀ i, i < n → x i = y i) {i : Nat} (hi : i < n) : refl n v t x i = refl n v t y i := by
  rw [refl_eq, refl_eq, ip_congr (fun _ _ => rfl) h, h i hi]

theorem applyQ_congr (k : Nat) {x y : Nat → K} (h : ∀ i, i < n → x i = y i) : ∀ i, i < n → applyQ n mat tau k x i = applyQ n mat tau k y i := by
  induction k generalizing x y with
  | zero => exact h
  | succ k ih => exact ih fun i hi => refl_congr n h hi

theorem applyQH_congr (k : Nat) {x y : Nat → K} (h : ∀ i, i < n → x i = y i) : ∀ i, i < n → applyQH n mat tau k x i = applyQH n mat tau k y i := by
  induction k with
  | zero => exact h
  | succ k ih => exact fun i hi => refl_congr n ih hi

end Q

/-! ### triangular systems -/

theorem backSub_spec (k : Nat) (T : Nat → Nat → K) (y : Nat → K) (hT : ∀ i, i < k → T i i ≠ 0) : ∀ t, t ≤ k →
    (∀ i, k - t ≤ i → i < k → T i i * backSub k T y t i + ∑ j ∈ Ico (i + 1) k, T i j * backSub k T y t j = y i)
  | 0, _ => fun i h1 h2 => by omega
  | t + 1, ht => by
    intro i h1 h2
    have ih := backSub_spec k T y hT t (by omega)
    have hne : ∀ j, j ≠ k - 1 - t → backSub k T y (t + 1) j = backSub k T y t j := fun j hj => by rw [backSub]; exact if_neg hj
    by_cases hi : i = k - 1 - t
    · have h3 : backSub k T y (t + 1) i = (y i - ∑ j ∈ Ico (k - t) k, T i j * backSub k T y t j) / T i i := by rw [backSub]; exact if_pos hi
      have h4 : ∑ j ∈ Ico (i + 1) k, T i j * backSub k T y (t + 1) j = ∑ j ∈ Ico (k - t) k, T i j * backSub k T y t j := by
        have e : i + 1 = k - t := by omega
        rw [e]
        exact sum_congr rfl fun j hj => by rw [hne j (by have := mem_Ico.1 hj; omega)]
      rw [h3, h4]
      have := hT i h2
      field_simp
      ring
    · rw [hne i hi, ← ih i (by omega) h2]
      congr 1
      exact sum_congr rfl fun j hj => by rw [hne j (by have := mem_Ico.1 hj; omega)]

/-- Back substitution solves the leading upper triangular system. -/
theorem backSub_solves (n k : Nat) (mat y : Nat → K) (hT : ∀ i, i < k → upper n mat i i ≠ 0) {i : Nat} (hi : i < k) :
    ∑ j ∈ range k, upper n mat i j * backSub k (upper n mat) y k j = y i := by
  have h := backSub_spec k (upper n mat) y hT k (le_refl _) i (by omega) hi
  rw [← h, ← sum_range_add_sum_Ico (fun j => upper n mat i j * backSub k (upper n mat) y k j) (show i + 1 ≤ k by omega), sum_range_succ]
  rw [sum_eq_zero fun j hj => by
    have := mem_range.1 hj
    unfold upper
    rw [if_neg (by omega), zero_mul], zero_add]

theorem fwdSub_spec (T : Nat → Nat → K) (y : Nat → K) (k : Nat) (hT : ∀ i, i < k → T i i ≠ 0) : ∀ t, t ≤ k →
    ∀ i, i < t → star (T i i) * fwdSub T y t i + ∑ j ∈ range i, star (T j i) * fwdSub T y t j = y i
  | 0, _ => fun i h2 => by omega
  | t + 1, ht => by
    intro i h1
    have ih := fwdSub_spec T y k hT t (by omega)
    have hne : ∀ j, j ≠ t → fwdSub T y (t + 1) j = fwdSub T y t j := fun j hj => by rw [fwdSub]; exact if_neg hj
    have h4 : ∑ j ∈ range i, star (T j i) * fwdSub T y (t + 1) j = ∑ j ∈ range i, star (T j i) * fwdSub T y t j :=
      sum_congr rfl fun j hj => by rw [hne j (by have := mem_range.1 hj; omega)]
    rw [h4]
    by_cases hi : i = t
    · have h3 : fwdSub T y (t + 1) i = (y i - ∑ j ∈ range t, star (T j i) * fwdSub T y t j) / star (T i i) := by rw [fwdSub]; exact if_pos hi
      rw [h3, hi]
      have : star (T t t) ≠ 0 := star_ne_zero.2 (hT t (by omega))
      field_simp
      ring
    · rw [hne i hi]
      exact ih i (by omega)

/-- Forward substitution solves the adjoint system. -/
theorem fwdSub_solves (n k : Nat) (mat y : Nat → K) (hT : ∀ i, i < k → upper n mat i i ≠ 0) {i : Nat} (hi : i < k) :
    ∑ j ∈ range k, star (upper n mat j i) * fwdSub (upper n mat) y k j = y i := by
  have h := fwdSub_spec (upper n mat) y k hT k (le_refl _) i hi
  rw [← h, ← sum_range_add_sum_Ico (fun j => star (upper n mat j i) * fwdSub (upper n mat) y k j) (show i + 1 ≤ k by omega), sum_range_succ]
  rw [sum_eq_zero (s := Ico (i + 1) k) fun j hj => by
    have := mem_Ico.1 hj
    unfold upper
    rw [if_neg (by omega), star_zero, zero_mul], add_zero, add_comm]

end Qrcp
end Hif
