import Verif.Gmres
import Mathlib.Algebra.Order.BigOperators.Ring.Finset
import Mathlib.Algebra.BigOperators.Ring.Finset
import Mathlib.Tactic.Ring
import Mathlib.Tactic.LinearCombination
import Mathlib.Tactic.FieldSimp
import Mathlib.Tactic.Positivity

set_option linter.unusedSectionVars false
set_option linter.unusedVariables false

/-!
# Algebra of the Arnoldi/Givens recurrences
-/

namespace Hif
namespace Gmres
open Finset

universe u

variable {K : Type u} [Field K] [LinearOrder K] [IsStrictOrderedRing K]

/-- Inner product of the first `n` entries. -/
def ip (n : Nat) (a b : Nat → K) : K := ∑ i ∈ range n, a i * b i

theorem ip_comm (n : Nat) (a b : Nat → K) : ip n a b = ip n b a := by
  unfold ip; exact Finset.sum_congr rfl fun i _ => mul_comm _ _

theorem ip_congr {n : Nat} {a a' b b' : Nat → K} (h : ∀ i, i < n → a i = a' i) (h' : ∀ i, i < n → b i = b' i) : ip n a b = ip n a' b' := by
  unfold ip
  exact Finset.sum_congr rfl fun i hi => by rw [h i (Finset.mem_range.1 hi), h' i (Finset.mem_range.1 hi)]

theorem ip_lin2 (n : Nat) (α β : K) (a b d : Nat → K) : ip n (fun i => α * a i + β * b i) d = α * ip n a d + β * ip n b d := by
  unfold ip
  rw [Finset.mul_sum, Finset.mul_sum, ← Finset.sum_add_distrib]
  exact Finset.sum_congr rfl fun i _ => by ring

theorem ip_sub (n : Nat) (a b d : Nat → K) : ip n (fun i => a i - b i) d = ip n a d - ip n b d := by
  unfold ip
  rw [← Finset.sum_sub_distrib]
  exact Finset.sum_congr rfl fun i _ => by ring

theorem ip_add (n : Nat) (a b d : Nat → K) : ip n (fun i => a i + b i) d = ip n a d + ip n b d := by
  unfold ip
  rw [← Finset.sum_add_distrib]
  exact Finset.sum_congr rfl fun i _ => by ring

theorem ip_smul (n : Nat) (α : K) (a d : Nat → K) : ip n (fun i => α * a i) d = α * ip n a d := by
  unfold ip
  rw [Finset.mul_sum]
  exact Finset.sum_congr rfl fun i _ => by ring

theorem ip_sum (n : Nat) (s : Finset Nat) (α : Nat → K) (a : Nat → Nat → K) (d : Nat → K) :
    ip n (fun i => ∑ k ∈ s, α k * a k i) d = ∑ k ∈ s, α k * ip n (a k) d := by
  unfold ip
  simp_rw [Finset.sum_mul, Finset.mul_sum]
  rw [Finset.sum_comm]
  exact Finset.sum_congr rfl fun k _ => Finset.sum_congr rfl fun i _ => by ring

theorem ip_self_nonneg (n : Nat) (a : Nat → K) : 0 ≤ ip n a a := Finset.sum_nonneg fun i _ => mul_self_nonneg _

theorem ip_self_zero {n : Nat} {a : Nat → K} (h : ip n a a = 0) : ∀ i, i < n → a i = 0 := by
  intro i hi
  have := (Finset.sum_eq_zero_iff_of_nonneg (fun i (_ : i ∈ range n) => mul_self_nonneg (a i))).1 h i (Finset.mem_range.2 hi)
  exact mul_self_eq_zero.1 this

/-! ### the rotated basis -/

/-- The direction of the residual after `k` rotations. -/
def tv (q : Nat → Nat → K) (c s : Nat → K) : Nat → Nat → K
  | 0 => q 0
  | k + 1 => fun i => -s k * tv q c s k i + c k * q (k + 1) i

/-- The rotated basis of the range. -/
def pv (q : Nat → Nat → K) (c s : Nat → K) (k : Nat) : Nat → K := fun i => c k * tv q c s k i + s k * q (k + 1) i

theorem tv_congr {q q' : Nat → Nat → K} {c c' s s' : Nat → K} (k : Nat) (hq : ∀ l, l ≤ k → q l = q' l) (hc : ∀ l, l < k → c l = c' l) (hs : ∀ l, l < k → s l = s' l) :
    tv q c s k = tv q' c' s' k := by
  induction k with
  | zero => exact hq 0 (le_refl _)
  | succ k ih =>
    funext i
    simp only [tv]
    rw [ih (fun l hl => hq l (by omega)) (fun l hl => hc l (by omega)) (fun l hl => hs l (by omega)), hq (k + 1) (le_refl _), hc k (by omega), hs k (by omega)]

theorem pv_congr {q q' : Nat → Nat → K} {c c' s s' : Nat → K} (k : Nat) (hq : ∀ l, l ≤ k + 1 → q l = q' l) (hc : ∀ l, l ≤ k → c l = c' l) (hs : ∀ l, l ≤ k → s l = s' l) :
    pv q c s k = pv q' c' s' k := by
  unfold pv
  rw [tv_congr k (fun l hl => hq l (by omega)) (fun l hl => hc l (by omega)) (fun l hl => hs l (by omega)), hq (k + 1) (le_refl _), hc k (le_refl _), hs k (le_refl _)]

/-- `q 0, …, q m` are orthonormal. -/
def Orth (n : Nat) (q : Nat → Nat → K) (m : Nat) : Prop := ∀ k l, k ≤ m → l ≤ m → ip n (q k) (q l) = if k = l then 1 else 0

/-- What the rotated basis satisfies after `a` rotations. -/
structure Chain (n : Nat) (q : Nat → Nat → K) (c s : Nat → K) (m a : Nat) : Prop where
  tt : ip n (tv q c s a) (tv q c s a) = 1
  tq : ∀ k, a < k → k ≤ m → ip n (tv q c s a) (q k) = 0
  pt : ∀ i, i < a → ip n (pv q c s i) (tv q c s a) = 0
  pq : ∀ i k, i < a → a < k → k ≤ m → ip n (pv q c s i) (q k) = 0
  pp : ∀ i l, i < a → l < a → ip n (pv q c s i) (pv q c s l) = if i = l then 1 else 0

theorem chain {n : Nat} {q : Nat → Nat → K} {c s : Nat → K} {m : Nat} (hq : Orth n q m) (a : Nat) (ham : a ≤ m)
    (hcs : ∀ k, k < a → c k * c k + s k * s k = 1) : Chain n q c s m a := by
  induction a with
  | zero =>
    refine ⟨?_, ?_, fun i h => by omega, fun i k h => by omega, fun i l h => by omega⟩
    · show ip n (q 0) (q 0) = 1
      rw [hq 0 0 (by omega) (by omega)]; simp
    · intro k h0 hk
      show ip n (q 0) (q k) = 0
      rw [hq 0 k (by omega) hk, if_neg (by omega)]
  | succ a ih =>
    have h := ih (by omega) (fun k hk => hcs k (by omega))
    have h1 := hcs a (by omega)
    have hqq : ip n (q (a + 1)) (q (a + 1)) = 1 := by rw [hq _ _ ham ham]; simp
    have htq := h.tq (a + 1) (by omega) ham
    have hqt : ip n (q (a + 1)) (tv q c s a) = 0 := by rw [ip_comm]; exact htq
    have pt1 : ∀ d, ip n (tv q c s (a + 1)) d = -s a * ip n (tv q c s a) d + c a * ip n (q (a + 1)) d := fun d => ip_lin2 n _ _ _ _ d
    have pt1' : ∀ d, ip n d (tv q c s (a + 1)) = -s a * ip n d (tv q c s a) + c a * ip n d (q (a + 1)) := fun d => by
      rw [ip_comm, pt1, ip_comm n d, ip_comm n d]
    have pp1 : ∀ d, ip n (pv q c s a) d = c a * ip n (tv q c s a) d + s a * ip n (q (a + 1)) d := fun d => ip_lin2 n _ _ _ _ d
    have pp1' : ∀ d, ip n d (pv q c s a) = c a * ip n d (tv q c s a) + s a * ip n d (q (a + 1)) := fun d => by
      rw [ip_comm, pp1, ip_comm n d, ip_comm n d]
    have hpold : ∀ i, i < a → ip n (pv q c s i) (pv q c s a) = 0 := by
      intro i hi
      rw [ip_comm, pp1, ip_comm n (tv q c s a), h.pt i hi, ip_comm n (q (a + 1)), h.pq i (a + 1) hi (by omega) ham]; ring
    refine ⟨?_, ?_, ?_, ?_, ?_⟩
    · rw [pt1, pt1', pt1', h.tt, hqq, htq, hqt]
      linear_combination h1
    · intro k hk hkm
      rw [pt1, h.tq k (by omega) hkm, hq (a + 1) k ham hkm, if_neg (by omega)]; ring
    · intro i hi
      rcases Nat.lt_or_ge i a with hi' | hi'
      · rw [ip_comm, pt1, ip_comm n (tv q c s a), h.pt i hi', ip_comm n (q (a + 1)), h.pq i (a + 1) hi' (by omega) ham]; ring
      · obtain rfl : i = a := by omega
        rw [pp1, pt1', pt1', h.tt, hqq, htq, hqt]; ring
    · intro i k hi hk hkm
      rcases Nat.lt_or_ge i a with hi' | hi'
      · exact h.pq i k hi' (by omega) hkm
      · obtain rfl : i = a := by omega
        rw [pp1, h.tq k (by omega) hkm, hq (i + 1) k ham hkm, if_neg (by omega)]; ring
    · intro i l hi hl
      rcases Nat.lt_or_ge i a with hi' | hi' <;> rcases Nat.lt_or_ge l a with hl' | hl'
      · exact h.pp i l hi' hl'
      · obtain rfl : l = a := by omega
        rw [if_neg (by omega)]; exact hpold i hi'
      · obtain rfl : i = a := by omega
        rw [if_neg (by omega), ip_comm]; exact hpold l hl'
      · obtain rfl : i = a := by omega
        obtain rfl : l = i := by omega
        rw [if_pos rfl, pp1, pp1', pp1', h.tt, hqq, htq, hqt]
        linear_combination h1

/-- The last rotation; the new basis vector is a unit vector unless it is not used (`s = 0`). -/
theorem lastStep {n : Nat} {q : Nat → Nat → K} {c s : Nat → K} {j : Nat} (h : Chain n q c s j j) (hcs : c j * c j + s j * s j = 1)
    (htq : ip n (tv q c s j) (q (j + 1)) = 0) (hpq : ∀ i, i < j → ip n (pv q c s i) (q (j + 1)) = 0)
    (hN : s j * (ip n (q (j + 1)) (q (j + 1)) - 1) = 0) (y : K) :
    (∀ i l, i ≤ j → l ≤ j → ip n (pv q c s i) (pv q c s l) = if i = l then 1 else 0) ∧
    (∀ i, i ≤ j → ip n (pv q c s i) (fun r => (-s j * y) * tv q c s (j + 1) r) = 0) ∧
    ip n (fun r => (-s j * y) * tv q c s (j + 1) r) (fun r => (-s j * y) * tv q c s (j + 1) r) = (-s j * y) * (-s j * y) := by
  have hqt : ip n (q (j + 1)) (tv q c s j) = 0 := by rw [ip_comm]; exact htq
  have pt1 : ∀ d, ip n (tv q c s (j + 1)) d = -s j * ip n (tv q c s j) d + c j * ip n (q (j + 1)) d := fun d => ip_lin2 n _ _ _ _ d
  have pt1' : ∀ d, ip n d (tv q c s (j + 1)) = -s j * ip n d (tv q c s j) + c j * ip n d (q (j + 1)) := fun d => by
      rw [ip_comm, pt1, ip_comm n d, ip_comm n d]
  have pp1 : ∀ d, ip n (pv q c s j) d = c j * ip n (tv q c s j) d + s j * ip n (q (j + 1)) d := fun d => ip_lin2 n _ _ _ _ d
  have pp1' : ∀ d, ip n d (pv q c s j) = c j * ip n d (tv q c s j) + s j * ip n d (q (j + 1)) := fun d => by
      rw [ip_comm, pp1, ip_comm n d, ip_comm n d]
  have hpold : ∀ i, i < j → ip n (pv q c s i) (pv q c s j) = 0 := by
    intro i hi
    rw [ip_comm, pp1, ip_comm n (tv q c s j), h.pt i hi, ip_comm n (q (j + 1)), hpq i hi]; ring
  refine ⟨?_, ?_, ?_⟩
  · intro i l hi hl
    rcases Nat.lt_or_ge i j with hi' | hi' <;> rcases Nat.lt_or_ge l j with hl' | hl'
    · exact h.pp i l hi' hl'
    · obtain rfl : l = j := by omega
      rw [if_neg (by omega)]; exact hpold i hi'
    · obtain rfl : i = j := by omega
      rw [if_neg (by omega), ip_comm]; exact hpold l hl'
    · obtain rfl : i = j := by omega
      obtain rfl : l = i := by omega
      rw [if_pos rfl, pp1, pp1', pp1', h.tt, htq, hqt]
      linear_combination hcs + s l * hN
  · intro i hi
    rw [ip_comm, ip_smul, pt1]
    rcases Nat.lt_or_ge i j with hi' | hi'
    · rw [ip_comm n (tv q c s j), h.pt i hi', ip_comm n (q (j + 1)), hpq i hi']; ring
    · obtain rfl : i = j := by omega
      rw [pp1', pp1', h.tt, htq, hqt]
      linear_combination (-s i * y * c i) * hN
  · rw [ip_smul, ip_comm, ip_smul, pt1, pt1', pt1', h.tt, htq, hqt]
    linear_combination (s j * y * s j * y) * hcs + (s j * y * y * c j * c j) * hN

/-- Pythagoras: a vector orthogonal to `p` is the shortest of its translates by combinations of the `p`. -/
theorem pyth {n m : Nat} {p : Nat → Nat → K} {e : Nat → K} (he : ∀ i, i < m → ip n (p i) e = 0) (d : Nat → K) :
    ip n e e ≤ ip n (fun i => e i + ∑ k ∈ range m, d k * p k i) (fun i => e i + ∑ k ∈ range m, d k * p k i) := by
  set u : Nat → K := fun i => ∑ k ∈ range m, d k * p k i with hu
  have hue : ip n u e = 0 := by
    rw [hu, ip_sum]
    exact Finset.sum_eq_zero fun k hk => by rw [he k (Finset.mem_range.1 hk), mul_zero]
  have h1 : ip n (fun i => e i + u i) (fun i => e i + u i) = ip n e e + ip n u u := by
    rw [ip_add, ip_comm n e, ip_add, ip_comm n u (fun i => e i + u i), ip_add, hue, ip_comm n e u, hue]; ring
  show ip n e e ≤ ip n (fun i => e i + u i) (fun i => e i + u i)
  rw [h1]
  exact le_add_of_nonneg_right (ip_self_nonneg n u)

end Gmres
end Hif
