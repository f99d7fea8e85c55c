import Verif.GmresMath
import Verif.Spec

set_option linter.unusedSectionVars false
set_option linter.unusedVariables false

/-!
# Runs of the GMRES drivers: one inner iteration
-/

namespace Hif
namespace Gmres
open Finset

/-! ### outcomes with a possible breakdown -/

/-- The outcome of a division by `rho = 0`. -/
def brk : Err := .ub "breakdown: 0/0"

/-- Normal termination with `Q`, or a breakdown, which needs `P`. -/
def RunsB {α : Type _} (P : Prop) (m : M α) (Q : α → Prop) : Prop := Runs m Q ∨ (P ∧ m = .error brk)

theorem RunsB.bind {α β : Type _} {P : Prop} {m : M α} {f : α → M β} {Q : β → Prop} (h : RunsB P m (fun a => RunsB P (f a) Q)) : RunsB P (m >>= f) Q := by
  rcases h with ⟨a, rfl, h⟩ | ⟨hp, rfl⟩
  · exact h
  · exact .inr ⟨hp, rfl⟩

theorem Runs.bindB {α β : Type _} {P : Prop} {m : M α} {f : α → M β} {Q : β → Prop} (h : Runs m (fun a => RunsB P (f a) Q)) : RunsB P (m >>= f) Q :=
  RunsB.bind (.inl h)

theorem RunsB.mono {α : Type _} {P : Prop} {m : M α} {Q Q' : α → Prop} (h : RunsB P m Q) (hq : ∀ a, Q a → Q' a) : RunsB P m Q' :=
  h.imp (fun h => h.mono hq) id

universe u

variable {K : Type u} [Field K] [LinearOrder K] [IsStrictOrderedRing K]

/-- The scalar functions for real numbers. -/
def realScal (sqrt : K → K) : Scal K K := ⟨id, id, id, fun x => |x|, sqrt, sqrt⟩

/-- `sqrt` is the square root of nonnegative numbers. -/
def SqrtOK (sqrt : K → K) : Prop := ∀ x, 0 ≤ x → 0 ≤ sqrt x ∧ sqrt x * sqrt x = x

/-! ### norms and inner products -/

theorem maxMag_ge (sqrt : K → K) (v : Nat → K) (n : Nat) : ∀ i, i < n → |v i| ≤ maxMag (realScal sqrt) v n := by
  induction n with
  | zero => intro i h; omega
  | succ n ih =>
    intro i h
    simp only [maxMag]
    rcases Nat.lt_or_ge i n with h' | h'
    · exact le_max_of_le_left (ih i h')
    · obtain rfl : i = n := by omega
      exact le_max_right _ _

theorem maxMag_nonneg (sqrt : K → K) (v : Nat → K) (n : Nat) : 0 ≤ maxMag (realScal sqrt) v n := by
  induction n with
  | zero => exact le_refl _
  | succ n ih => exact le_max_of_le_left ih

theorem norm2_spec {sqrt : K → K} (hs : SqrtOK sqrt) (v : Buf K) :
    0 ≤ norm2 (realScal sqrt) v ∧ norm2 (realScal sqrt) v * norm2 (realScal sqrt) v = ip v.size v.get v.get := by
  unfold norm2
  simp only
  split
  · rename_i h
    have h0 : ∀ i, i < v.size → v.get i = 0 := fun i hi => abs_nonpos_iff.1 (h ▸ maxMag_ge sqrt v.get v.size i hi)
    have e1 : ∑ i ∈ range v.size, (realScal sqrt).abs (v.get i) = 0 :=
      Finset.sum_eq_zero fun i hi => by show |v.get i| = 0; rw [h0 i (Finset.mem_range.1 hi), abs_zero]
    have e2 : ip v.size v.get v.get = 0 := Finset.sum_eq_zero fun i hi => by rw [h0 i (Finset.mem_range.1 hi), mul_zero]
    rw [e1, e2]; simp
  · rename_i h
    set m := maxMag (realScal sqrt) v.get v.size with hm
    have hS : 0 ≤ ∑ i ∈ range v.size, (v.get i * (1 / m)) * (v.get i * (1 / m)) := Finset.sum_nonneg fun i _ => mul_self_nonneg _
    obtain ⟨h1, h2⟩ := hs _ hS
    refine ⟨mul_nonneg (maxMag_nonneg _ _ _) h1, ?_⟩
    show m * sqrt (∑ i ∈ range v.size, (v.get i * (1 / m)) * (v.get i * (1 / m))) * (m * sqrt (∑ i ∈ range v.size, (v.get i * (1 / m)) * (v.get i * (1 / m)))) = _
    have e1 : ∀ t : K, m * t * (m * t) = m * m * (t * t) := fun t => by ring
    rw [e1, h2, Finset.mul_sum]
    unfold ip
    refine Finset.sum_congr rfl fun i _ => ?_
    field_simp

theorem norm2Sq_eq (sqrt : K → K) (v : Buf K) : norm2Sq (realScal sqrt) v = ip v.size v.get v.get := rfl

theorem inner_runs (sqrt : K → K) (v Q : Buf K) (off : Nat) (h : off + v.size ≤ Q.size) :
    Runs (inner (realScal sqrt) v Q off) (fun t => t = ip v.size v.get (fun i => Q.get (off + i))) := by
  unfold inner
  refine forUp_runs' (I := fun k t => t = ip k v.get (fun i => Q.get (off + i))) (Nat.zero_le _) (by simp [ip]) ?_ (fun s h => h)
  intro k t _ hk ht
  simp only [runs_bind, runs_rd, runs_pure]
  refine ⟨hk, by omega, ?_⟩
  rw [ht]
  unfold ip
  rw [Finset.sum_range_succ]
  rfl

/-! ### vector loops -/

theorem copyTo_runs (n : Nat) (src : Buf K) (so : Nat) (dst : Buf K) (d : Nat) (h1 : so + n ≤ src.size) (h2 : d + n ≤ dst.size) :
    Runs (copyTo n src so dst d) (fun r => r.size = dst.size ∧ ∀ i, r.get i = if d ≤ i ∧ i < d + n then src.get (so + (i - d)) else dst.get i) := by
  unfold copyTo
  refine forUp_runs' (I := fun k r => r.size = dst.size ∧ ∀ i, r.get i = if d ≤ i ∧ i < d + k then src.get (so + (i - d)) else dst.get i) (Nat.zero_le _) ?_ ?_ (fun s h => h)
  · exact ⟨rfl, fun i => by rw [if_neg (by omega)]⟩
  · intro k r _ hk ⟨hr, hg⟩
    simp only [runs_bind, runs_rd, runs_wr]
    refine ⟨by omega, by omega, hr, fun i => ?_⟩
    simp only [Buf.set_get, hg]
    by_cases hi : i = d + k
    · subst hi
      rw [if_pos rfl, if_pos (by omega)]; congr 2; omega
    · rw [if_neg hi]
      by_cases h3 : d ≤ i ∧ i < d + k
      · rw [if_pos h3, if_pos (by omega)]
      · rw [if_neg h3, if_neg (by omega)]

theorem subCol_runs (n k : Nat) (Q w2 v : Buf K) (hv : v.size = n) (hk : k < w2.size) (hQ : n + k * n ≤ Q.size) :
    Runs (subCol n k Q w2 v) (fun r => r.size = n ∧ ∀ i, i < n → r.get i = v.get i - w2.get k * Q.get (i + k * n)) := by
  unfold subCol
  refine forUp_runs' (I := fun m r => r.size = n ∧ ∀ i, i < n → r.get i = if i < m then v.get i - w2.get k * Q.get (i + k * n) else v.get i) (Nat.zero_le _) ?_ ?_ ?_
  · exact ⟨hv, fun i _ => by simp⟩
  · intro m r _ hm ⟨hr, hg⟩
    simp only [runs_bind, runs_rd, runs_wr]
    refine ⟨by omega, hk, by omega, by omega, hr, fun i hi => ?_⟩
    simp only [Buf.set_get]
    by_cases him : i = m
    · subst him
      rw [if_pos rfl, if_pos (by omega), hg i hi, if_neg (by omega)]
    · rw [if_neg him, hg i hi]
      by_cases h3 : i < m
      · rw [if_pos h3, if_pos (by omega)]
      · rw [if_neg h3, if_neg (by omega)]
  · intro r ⟨hr, hg⟩
    exact ⟨hr, fun i hi => by rw [hg i hi, if_pos hi]⟩

theorem setCol_runs (nan : K) (n k : Nat) (v : Buf K) (d : K) (Q : Buf K) (hv : v.size = n) (hQ : n + k * n ≤ Q.size) :
    Runs (setCol nan n k v d Q) (fun r => r.size = Q.size ∧ (∀ i, i < n → r.get (i + k * n) = if d = 0 then nan else v.get i / d) ∧
      ∀ l i, i < n → l ≠ k → r.get (i + l * n) = Q.get (i + l * n)) := by
  unfold setCol
  refine forUp_runs' (I := fun m r => r.size = Q.size ∧ (∀ i, i < m → r.get (i + k * n) = if d = 0 then nan else v.get i / d) ∧
    ∀ l i, i < n → l ≠ k → r.get (i + l * n) = Q.get (i + l * n)) (Nat.zero_le _) ?_ ?_ (fun s h => h)
  · exact ⟨rfl, fun i h => by omega, fun _ _ _ _ => rfl⟩
  · intro m r _ hm ⟨hr, h1, h2⟩
    simp only [runs_bind, runs_rd, runs_wr]
    refine ⟨by omega, by omega, hr, ?_, ?_⟩
    · intro i hi
      simp only [Buf.set_get]
      by_cases him : i = m
      · subst him; rw [if_pos rfl]
      · rw [if_neg (by omega)]; exact h1 i (by omega)
    · intro l i hi hl
      simp only [Buf.set_get]
      rw [if_neg, h2 l i hi hl]
      intro he
      rcases Nat.lt_or_ge l k with h | h
      · have := Nat.mul_le_mul_right n (show l + 1 ≤ k by omega)
        rw [Nat.add_mul, one_mul] at this
        omega
      · have := Nat.mul_le_mul_right n (show k + 1 ≤ l by omega)
        rw [Nat.add_mul, one_mul] at this
        omega

/-! ### Gram–Schmidt -/

theorem mgs_runs {sqrt : K → K} {n j : Nat} {Q v w2 : Buf K} {q : Nat → Nat → K} (hv : v.size = n) (hw : j < w2.size) (hQ : n + j * n ≤ Q.size)
    (hq : Orth n q j) (hQq : ∀ k, k ≤ j → ∀ i, i < n → Q.get (i + k * n) = q k i) :
    Runs (mgs (realScal sqrt) n j Q (v, w2)) (fun p => p.1.size = n ∧ p.2.size = w2.size ∧
      (∀ i, i < n → p.1.get i = v.get i - ∑ k ∈ range (j + 1), p.2.get k * q k i) ∧ ∀ k, k ≤ j → ip n (q k) p.1.get = 0) := by
  unfold mgs
  refine forUp_runs' (I := fun m p => p.1.size = n ∧ p.2.size = w2.size ∧
      (∀ i, i < n → p.1.get i = v.get i - ∑ k ∈ range m, p.2.get k * q k i) ∧ ∀ k, k < m → ip n (q k) p.1.get = 0) (Nat.zero_le _) ?_ ?_ ?_
  · exact ⟨hv, rfl, fun i _ => by simp, fun k h => by omega⟩
  · intro m p _ hm ⟨h1, h2, h3, h4⟩
    have hmQ : n + m * n ≤ Q.size := by
      have := Nat.mul_le_mul_right n (show m ≤ j by omega)
      omega
    simp only [runs_bind, runs_wr, runs_pure]
    refine (inner_runs sqrt p.1 Q (m * n) (by omega)).mono fun h hh => ⟨by omega, ?_⟩
    refine (subCol_runs n m Q (p.2.set m h) p.1 h1 (by rw [Buf.set_size]; omega) hmQ).mono fun r hr => ?_
    have hh' : h = ip n (q m) p.1.get := by
      rw [hh, h1, ip_comm]
      exact ip_congr (fun i hi => by rw [Nat.add_comm]; exact hQq m (by omega) i hi) (fun _ _ => rfl)
    have hr' : ∀ i, i < n → r.get i = p.1.get i - h * q m i := fun i hi => by
      rw [hr.2 i hi, Buf.set_get_self, hQq m (by omega) i hi]
    refine ⟨hr.1, by rw [Buf.set_size]; exact h2, ?_, ?_⟩
    · intro i hi
      rw [hr' i hi, h3 i hi, Finset.sum_range_succ, Buf.set_get_self]
      have : ∑ k ∈ range m, (p.2.set m h).get k * q k i = ∑ k ∈ range m, p.2.get k * q k i :=
        Finset.sum_congr rfl fun k hk => by rw [Buf.set_get_ne _ _ (by have := Finset.mem_range.1 hk; omega)]
      rw [this]; ring
    · intro k hk
      have e1 : ip n (q k) r.get = ip n (q k) p.1.get - h * ip n (q k) (q m) := by
        rw [ip_congr (fun _ _ => rfl) hr', ip_comm, ip_sub, ip_comm n p.1.get, ip_smul, ip_comm n (q m)]
      rw [e1, hq k m (by omega) (by omega)]
      rcases Nat.lt_or_ge k m with hk' | hk'
      · rw [h4 k hk', if_neg (by omega)]; ring
      · obtain rfl : k = m := by omega
        rw [if_pos rfl, ← hh']; ring
  · intro p ⟨h1, h2, h3, h4⟩
    exact ⟨h1, h2, h3, fun k hk => h4 k (by omega)⟩

/-! ### earlier rotations -/

theorem rotations_runs {sqrt : K → K} {restart j : Nat} {J w2 : Buf K} {q : Nat → Nat → K} {c s : Nat → K} (hw : j < w2.size) (hJ : J.size = restart * 2)
    (hj : j < restart) (hc : ∀ k, k < j → J.get k = c k) (hs : ∀ k, k < j → J.get (k + restart) = s k)
    (hcs : ∀ k, k < j → c k * c k + s k * s k = 1) :
    Runs (rotations (realScal sqrt) restart j J w2) (fun r => r.size = w2.size ∧
      ∀ i, ∑ k ∈ range (j + 1), w2.get k * q k i = ∑ k ∈ range j, r.get k * pv q c s k i + r.get j * tv q c s j i) := by
  unfold rotations
  refine forUp_runs' (I := fun m r => r.size = w2.size ∧ (∀ k, m < k → r.get k = w2.get k) ∧
      ∀ i, ∑ k ∈ range (m + 1), w2.get k * q k i = ∑ k ∈ range m, r.get k * pv q c s k i + r.get m * tv q c s m i) (Nat.zero_le _) ?_ ?_ ?_
  · exact ⟨rfl, fun _ _ => rfl, fun i => by simp [tv]⟩
  · intro m r _ hm ⟨h1, h2, h3⟩
    simp only [runs_bind, runs_rd, runs_wr, Buf.set_size]
    refine ⟨by omega, by omega, by omega, by omega, by omega, by omega, h1, ?_, ?_⟩
    · intro k hk
      simp only [Buf.set_get]
      rw [if_neg (by omega), if_neg (by omega)]
      exact h2 k (by omega)
    · intro i
      rw [Finset.sum_range_succ, h3 i]
      have e1 : ∀ a b : K, ∑ k ∈ range (m + 1), ((r.set m a).set (m + 1) b).get k * pv q c s k i = ∑ k ∈ range m, r.get k * pv q c s k i + a * pv q c s m i := by
        intro a b
        rw [Finset.sum_range_succ]
        congr 1
        · exact Finset.sum_congr rfl fun k hk => by
            have := Finset.mem_range.1 hk
            simp only [Buf.set_get]
            rw [if_neg (by omega), if_neg (by omega)]
        · simp only [Buf.set_get]
          rw [if_neg (by omega), if_pos trivial]
      rw [e1]
      simp only [Buf.set_get, if_true]
      rw [h2 (m + 1) (by omega), hc m hm, hs m hm]
      simp only [realScal, id, pv, tv]
      linear_combination (-(r.get m * tv q c s m i) - w2.get (m + 1) * q (m + 1) i) * hcs m hm
  · intro r ⟨h1, _, h3⟩
    exact ⟨h1, h3⟩

end Gmres
end Hif
