import Verif.LupLemmas

set_option linter.unusedSectionVars false
set_option linter.unusedVariables false

/-!
# The textbook factorization provides what `LUP` needs of `?getrf`
-/

namespace Hif
namespace Lup
open Finset Spec Qrcp

variable {K R : Type} [Field K] [StarRing K] [DecidableEq K] [LinearOrder R]

theorem amax_range (nrm : K → R) (a : Nat → Nat → K) (j k : Nat) : ∀ c, k ≤ amax nrm a j k c ∧ amax nrm a j k c ≤ k + c
  | 0 => by unfold amax; omega
  | c + 1 => by
    have := amax_range nrm a j k c
    unfold amax
    split <;> omega

theorem amax_max (nrm : K → R) (a : Nat → Nat → K) (j k : Nat) : ∀ c i, k ≤ i → i ≤ k + c → nrm (a i j) ≤ nrm (a (amax nrm a j k c) j)
  | 0, i, h1, h2 => by
    obtain rfl : i = k := by omega
    exact le_refl _
  | c + 1, i, h1, h2 => by
    have ih := amax_max nrm a j k c
    rw [amax]
    split
    · rcases Nat.lt_or_ge i (k + c + 1) with h | h
      · exact (ih i h1 (by omega)).trans (le_of_lt ‹_›)
      · obtain rfl : i = k + c + 1 := by omega
        exact le_refl _
    · rcases Nat.lt_or_ge i (k + c + 1) with h | h
      · exact ih i h1 (by omega)
      · obtain rfl : i = k + c + 1 := by omega
        exact not_lt.1 ‹_›

theorem amax_zero (nrm : K → R) (a : Nat → Nat → K) (j k : Nat) : ∀ c, (∀ i, k ≤ i → i ≤ k + c → a i j = 0) → amax nrm a j k c = k
  | 0, _ => rfl
  | c + 1, h => by
    have ih := amax_zero nrm a j k c fun i h1 h2 => h i h1 (by omega)
    rw [amax, ih, h k (le_refl _) (by omega), h (k + c + 1) (by omega) (by omega), if_neg (lt_irrefl _)]

/-- Unit lower and upper triangles of a square array. -/
def lo (a : Nat → Nat → K) (i t : Nat) : K := if t < i then a i t else if t = i then 1 else 0
def up (a : Nat → Nat → K) (t j : Nat) : K := if t ≤ j then a t j else 0

/-- After `k` steps: `P A` is the product of the finished columns and rows, plus what is left. -/
def Part (n : Nat) (A : Nat → Nat → K) (k : Nat) (ipiv : Nat → Nat) (a : Nat → Nat → K) : Prop :=
  ∀ i j, i < n → j < n → A (pvt ipiv k i) j = ∑ t ∈ range k, lo a i t * up a t j + if k ≤ i ∧ k ≤ j then a i j else 0

theorem pvt_congr {f g : Nat → Nat} : ∀ k, (∀ i, i < k → f i = g i) → pvt f k = pvt g k
  | 0, _ => rfl
  | k + 1, h => by rw [pvt, pvt, pvt_congr k (fun i hi => h i (by omega)), h k (by omega)]

theorem part_swap {n : Nat} {A : Nat → Nat → K} {k p : Nat} {ipiv : Nat → Nat} {a : Nat → Nat → K} (hk : k < n) (hp : k ≤ p) (hpn : p < n) (h : Part n A k ipiv a) :
    ∀ i j, i < n → j < n → A (pvt ipiv k (Equiv.swap k p i)) j = ∑ t ∈ range k, lo (rowSwap a k p) i t * up (rowSwap a k p) t j +
      if k ≤ i ∧ k ≤ j then rowSwap a k p i j else 0 := by
  intro i j hi hj
  rw [h _ j (swap_lt hk hpn hi) hj]
  congr 1
  · refine sum_congr rfl fun t ht => ?_
    have ht := mem_range.1 ht
    have e2 : up (rowSwap a k p) t j = up a t j := by unfold up rowSwap; rw [swap_of_lt hp ht]
    rw [e2]
    congr 1
    unfold lo rowSwap
    by_cases hik : i < k
    · rw [swap_of_lt hp hik]
    · have : k ≤ Equiv.swap k p i := swap_ge (le_refl _) hp (by omega)
      rw [if_pos (show t < Equiv.swap k p i by omega), if_pos (show t < i by omega)]
  · by_cases hik : i < k
    · rw [swap_of_lt hp hik, if_neg (by omega), if_neg (by omega)]
    · have : k ≤ Equiv.swap k p i := swap_ge (le_refl _) hp (by omega)
      unfold rowSwap
      by_cases hjk : k ≤ j
      · rw [if_pos ⟨this, hjk⟩, if_pos ⟨by omega, hjk⟩]
      · rw [if_neg (by omega), if_neg (by omega)]

theorem part_elim {n : Nat} {k : Nat} {b : Nat → Nat → K} (hk : k < n) (hb : b k k ≠ 0) {i j : Nat} (hi : i < n) (hj : j < n) :
    ∑ t ∈ range k, lo b i t * up b t j + (if k ≤ i ∧ k ≤ j then b i j else 0) =
      ∑ t ∈ range (k + 1), lo (elim b k) i t * up (elim b k) t j + if k + 1 ≤ i ∧ k + 1 ≤ j then elim b k i j else 0 := by
  rw [sum_range_succ, add_assoc]
  congr 1
  · refine sum_congr rfl fun t ht => ?_
    have ht := mem_range.1 ht
    have e2 : up (elim b k) t j = up b t j := by unfold up elim; rw [if_neg (show ¬ k < t by omega)]
    rw [e2]
    congr 1
    unfold lo elim
    by_cases hik : k < i
    · rw [if_pos hik, if_neg (show ¬ t = k by omega), if_neg (show ¬ k < t by omega)]
    · rw [if_neg hik]
  · have eu : up (elim b k) k j = if k ≤ j then b k j else 0 := by unfold up elim; rw [if_neg (show ¬ k < k by omega)]
    rw [eu]
    rcases Nat.lt_trichotomy i k with h | h | h
    · have : lo (elim b k) i k = 0 := by unfold lo; rw [if_neg (by omega), if_neg (by omega)]
      rw [this, zero_mul, if_neg (by omega), if_neg (by omega), add_zero]
    · have : lo (elim b k) i k = 1 := by unfold lo; rw [if_neg (by omega), if_pos (by omega)]
      rw [this, one_mul, if_neg (show ¬ (k + 1 ≤ i ∧ k + 1 ≤ j) by omega), add_zero, h]
      by_cases hjk : k ≤ j
      · rw [if_pos ⟨le_refl _, hjk⟩, if_pos hjk]
      · rw [if_neg (by omega), if_neg hjk]
    · have : lo (elim b k) i k = b i k / b k k := by unfold lo elim; rw [if_pos h, if_pos h, if_pos rfl]
      rw [this]
      rcases Nat.lt_trichotomy j k with h' | h' | h'
      · rw [if_neg (show ¬ (k ≤ i ∧ k ≤ j) by omega), if_neg (show ¬ k ≤ j by omega), if_neg (show ¬ (k + 1 ≤ i ∧ k + 1 ≤ j) by omega), mul_zero, add_zero]
      · subst h'
        rw [if_pos ⟨by omega, le_refl _⟩, if_pos (le_refl _), if_neg (by omega), add_zero, div_mul_cancel₀ _ hb]
      · rw [if_pos ⟨by omega, by omega⟩, if_pos (by omega), if_pos ⟨by omega, by omega⟩]
        unfold elim
        rw [if_pos h, if_neg (by omega), if_pos h']
        ring

theorem part_skip {n : Nat} {k : Nat} {a : Nat → Nat → K} (hk : k < n) (h0 : ∀ i, k ≤ i → i < n → a i k = 0) {i j : Nat} (hi : i < n) (hj : j < n) :
    ∑ t ∈ range k, lo a i t * up a t j + (if k ≤ i ∧ k ≤ j then a i j else 0) =
      ∑ t ∈ range (k + 1), lo a i t * up a t j + if k + 1 ≤ i ∧ k + 1 ≤ j then a i j else 0 := by
  rw [sum_range_succ, add_assoc]
  congr 1
  rcases Nat.lt_trichotomy i k with h | h | h
  · have : lo a i k = 0 := by unfold lo; rw [if_neg (by omega), if_neg (by omega)]
    rw [this, zero_mul, if_neg (by omega), if_neg (by omega), add_zero]
  · have : lo a i k = 1 := by unfold lo; rw [if_neg (by omega), if_pos (by omega)]
    rw [this, one_mul, if_neg (show ¬ (k + 1 ≤ i ∧ k + 1 ≤ j) by omega), add_zero, h]
    unfold up
    by_cases hjk : k ≤ j
    · rw [if_pos ⟨le_refl _, hjk⟩, if_pos hjk]
    · rw [if_neg (by omega), if_neg hjk]
  · have : lo a i k = 0 := by unfold lo; rw [if_pos h]; exact h0 i (by omega) hi
    rw [this, zero_mul, zero_add]
    rcases Nat.lt_trichotomy j k with h' | h' | h'
    · rw [if_neg (by omega), if_neg (by omega)]
    · subst h'
      rw [if_pos ⟨by omega, le_refl _⟩, if_neg (by omega), h0 i (by omega) hi]
    · rw [if_pos ⟨by omega, by omega⟩, if_pos ⟨by omega, by omega⟩]

/-- Invariant of `luIter`. -/
structure IterOK (n : Nat) (A : Nat → Nat → K) (k : Nat) (s : LuSt K) : Prop where
  piv : ∀ i, i < k → i + 1 ≤ s.ipiv i ∧ s.ipiv i ≤ n
  part : Part n A k s.ipiv s.a
  info : 0 ≤ s.info ∧ s.info ≤ k
  full : s.info = 0 → ∀ i, i < k → s.a i i ≠ 0
  first : 0 < s.info → s.a (s.info.toNat - 1) (s.info.toNat - 1) = 0 ∧ ∀ i, i < s.info.toNat - 1 → s.a i i ≠ 0

theorem luStep_ok {nrm : K → R} (hn : ∀ x, nrm x ≤ nrm 0 → x = 0) {n : Nat} {A : Nat → Nat → K} {k : Nat} (hk : k < n) {s : LuSt K} (h : IterOK n A k s) :
    IterOK n A (k + 1) (luStep nrm n k s) := by
  have hr := amax_range nrm s.a k k (n - 1 - k)
  have hm := amax_max nrm s.a k k (n - 1 - k)
  have hz0 := amax_zero nrm s.a k k (n - 1 - k)
  unfold luStep
  generalize amax nrm s.a k k (n - 1 - k) = p at hr hm hz0
  have hpn : p < n := by omega
  have hpv : ∀ i, pvt (fun i => if i = k then p + 1 else s.ipiv i) (k + 1) i = pvt s.ipiv k (Equiv.swap k p i) := by
    intro i
    rw [pvt, Equiv.Perm.mul_apply, pvt_congr (g := s.ipiv) k (fun i hi => if_neg (by omega)), if_pos rfl, Nat.add_sub_cancel]
  have hpiv : ∀ i, i < k + 1 → i + 1 ≤ (if i = k then p + 1 else s.ipiv i) ∧ (if i = k then p + 1 else s.ipiv i) ≤ n := by
    intro i hi
    by_cases h1 : i = k
    · rw [if_pos h1]; omega
    · rw [if_neg h1]; exact h.piv i (by omega)
  have hsw := part_swap hk hr.1 hpn h.part
  have hi := h.info
  by_cases h0 : s.a p k = 0
  · simp only [ne_eq]
    have hz : ∀ i, k ≤ i → i < n → s.a i k = 0 := fun i h1 h2 => hn _ (by rw [← h0]; exact hm i h1 (by omega))
    rw [if_neg (not_not.2 h0)]
    have hdiag : s.a k k = 0 := hz k (le_refl _) hk
    refine ⟨hpiv, fun i j hi hj => ?_, ?_, ?_, ?_⟩
    · rw [hpv, hz0 fun i h1 h2 => hz i h1 (by omega), Equiv.swap_self, Equiv.refl_apply, h.part i j hi hj, part_skip hk hz hi hj]
    · simp only [h0, true_and]; split <;> omega
    · simp only [h0, true_and]; split
      · omega
      · intro h1; omega
    · simp only [h0, true_and]; split
      · intro _
        have : ((k : Int) + 1).toNat - 1 = k := by omega
        rw [this]
        exact ⟨hdiag, h.full ‹_›⟩
      · exact h.first
  · simp only [ne_eq]
    rw [if_pos h0]
    have hbk : rowSwap s.a k p k k ≠ 0 := by unfold rowSwap; rw [Equiv.swap_apply_left]; exact h0
    have hdg : ∀ i, i < k → elim (rowSwap s.a k p) k i i = s.a i i := fun i hi => by
      unfold elim rowSwap
      rw [if_neg (by omega), swap_of_lt hr.1 hi]
    have hdk : elim (rowSwap s.a k p) k k k ≠ 0 := by unfold elim; rw [if_neg (by omega)]; exact hbk
    refine ⟨hpiv, fun i j hi hj => ?_, ?_, ?_, ?_⟩
    · rw [hpv, hsw i j hi hj, part_elim hk hbk hi hj]
    · simp only [h0, false_and, if_false]; omega
    · simp only [h0, false_and, if_false]
      intro h1 i hi
      rcases Nat.lt_succ_iff_lt_or_eq.1 hi with h2 | rfl
      · rw [hdg i h2]; exact h.full h1 i h2
      · exact hdk
    · simp only [h0, false_and, if_false]
      intro h1
      have h2 := h.first h1
      rw [hdg _ (by omega)]
      exact ⟨h2.1, fun i hi => by rw [hdg i (by omega)]; exact h2.2 i hi⟩

theorem luIter_ok {nrm : K → R} (hn : ∀ x, nrm x ≤ nrm 0 → x = 0) (n : Nat) (A : Nat → Nat → K) : ∀ k, k ≤ n → IterOK n A k (luIter nrm n A k)
  | 0, _ => ⟨fun i hi => by omega, fun i j _ _ => by simp [luIter, pvt], by simp [luIter], fun _ i hi => by omega, fun h => by simp [luIter] at h⟩
  | k + 1, hk => luStep_ok hn (by omega) (luIter_ok hn n A k (by omega))

theorem idx_mod {n i j : Nat} (hi : i < n) : (i + j * n) % n = i := by rw [Nat.add_mul_mod_self_right, Nat.mod_eq_of_lt hi]
theorem idx_div {n i j : Nat} (hi : i < n) : (i + j * n) / n = j := by
  rw [Nat.add_mul_div_right _ _ (by omega), Nat.div_eq_of_lt hi, Nat.zero_add]

/-- The textbook factorization meets the contract. -/
theorem getf2_ok {nrm : K → R} (hn : ∀ x, nrm x ≤ nrm 0 → x = 0) {n : Nat} {mat : Buf K} (hm : mat.size = n * n) :
    LuOK n (fun i j => mat.get (i + j * n)) (getf2 nrm n mat) := by
  have h := luIter_ok hn n (fun i j => mat.get (i + j * n)) n (le_refl _)
  unfold getf2
  generalize luIter nrm n (fun i j => mat.get (i + j * n)) n = s at h
  have hl : ∀ i t, i < n → t < n → lower n (fun l => s.a (l % n) (l / n)) i t = lo s.a i t := by
    intro i t hi ht
    unfold lower lo
    beta_reduce
    rw [idx_mod hi, idx_div hi]
  have hu : ∀ t j, t < n → upper n (fun l => s.a (l % n) (l / n)) t j = up s.a t j := by
    intro t j ht
    unfold upper up
    beta_reduce
    rw [idx_mod ht, idx_div ht]
  have hd : ∀ i, i < n → upper n (fun l => s.a (l % n) (l / n)) i i = s.a i i := fun i hi => by rw [hu i i hi]; unfold up; rw [if_pos (le_refl _)]
  have hi := h.info
  refine ⟨hm, rfl, fun i hi => ?_, fun i j hi hj => ?_, hi, fun h0 i hi => ?_, fun h0 => ⟨?_, fun i hi => ?_⟩⟩
  · have := h.piv i hi
    exact ⟨by show 1 ≤ s.ipiv i; omega, this.2⟩
  · have := h.part i j hi hj
    beta_reduce at this
    rw [this, if_neg (by omega), add_zero]
    exact sum_congr rfl fun t ht => by rw [hl i t hi (mem_range.1 ht), hu t j (mem_range.1 ht)]
  · rw [hd i hi]; exact h.full h0 i hi
  · have h0 : 0 < s.info := h0
    rw [hd _ (by show s.info.toNat - 1 < n; omega)]; exact (h.first h0).1
  · have h0 : 0 < s.info := h0
    have hi : i < s.info.toNat - 1 := hi
    rw [hd _ (by omega)]; exact (h.first h0).2 i hi

end Lup
end Hif
