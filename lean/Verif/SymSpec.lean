import Verif.PrecSpec
import Mathlib.Algebra.Order.BigOperators.Ring.Finset
import Mathlib.Algebra.Order.Field.Basic
import Mathlib.Tactic.Linarith
import Mathlib.Tactic.Positivity

set_option linter.unusedSectionVars false
set_option linter.unusedVariables false

/-!
# The multilevel operator with symmetric levels

A level is symmetric if `U = Lᵀ`, `F = Eᵀ` and the two scalings and the two permutations agree.  The operator made of symmetric levels and a symmetric
last block is symmetric; it is definite if all pivots have one sign and the last block is definite.
-/

namespace Hif.Spec
open Finset

/-- A symmetric level. -/
structure SymLevel {K : Type _} (v : Level K) : Prop where
  L : ∀ i j, i < v.m → j < v.m → v.U i j = v.L j i
  E : ∀ i j, i < v.m → j < v.n - v.m → v.F i j = v.E j i
  st : ∀ i, i < v.n → v.t i = v.s i
  pq : ∀ i, i < v.n → v.q i = v.p i

/-- `Σ u_i v_i`. -/
def dot {K : Type _} [Field K] (k : Nat) (u v : Nat → K) : K := ∑ i ∈ range k, u i * v i

/-- Symmetry of a `k × k` matrix. -/
def SymMat {K : Type _} (k : Nat) (S : Nat → Nat → K) : Prop := ∀ i j, i < k → j < k → S i j = S j i

/-- `xᵀ S x > 0` for every `x ≠ 0`. -/
def PosDef {R : Type _} [Field R] [LinearOrder R] (k : Nat) (S : Nat → Nat → R) : Prop :=
  ∀ x : Nat → R, (∃ i, i < k ∧ x i ≠ 0) → 0 < dot k x (mulVec k S x)

section sym
variable {K : Type _} [Field K]

theorem mulVec_mat {n : Nat} {T T' : Nat → Nat → K} {x : Nat → K} {i : Nat} (h : ∀ c, c < n → T i c = T' i c) : mulVec n T x i = mulVec n T' x i := by
  unfold mulVec
  exact sum_congr rfl fun c hc => by rw [h c (mem_range.1 hc)]

theorem ldu_mat {m : Nat} {L L' U U' : Nat → Nat → K} {d v : Nat → K} (hL : ∀ i j, i < m → j < m → L i j = L' i j)
    (hU : ∀ i j, i < m → j < m → U i j = U' i j) {i : Nat} (hi : i < m) : ldu m L d U v i = ldu m L' d U' v i := by
  unfold ldu
  rw [mulVec_mat (T := U) (T' := U') fun c hc => hU i c hi hc, mulVec_mat (T := L) (T' := L') fun c hc => hL i c hi hc]
  congr 1
  exact mulVec_congr' (fun c hc => by rw [mulVec_mat (T := U) (T' := U') fun c' hc' => hU c c' hc hc']) i

attribute [local instance] starRingOfComm

theorem dot_eq (k : Nat) (u v : Nat → K) : dot k u v = ip k u v := rfl

/-- With symmetric levels, the transposed operator is the operator. -/
theorem Applies.self_adj {S : Nat → Nat → K} {kf : Nat} (hS : SymMat kf S) : ∀ {lvs : List (Level K)} {k : Nat}, Chain lvs k kf →
    (∀ v ∈ lvs, SymLevel v) → ∀ {x b : Nat → K}, Applies S lvs k x b → Applies (herm S) (lvs.map Level.adj) k x b
  | [], k, hk, _, x, b, h => fun i hi => by
    have hk : k = kf := hk
    rw [← h i hi]
    exact mulVec_mat fun c hc => hS c i (by omega) (by omega)
  | v :: rest, k, ⟨hn, ok, hc⟩, hsym, x, b, ⟨h1, z, g, h2, h3, h4⟩ => by
    have hv := hsym v (by simp)
    have hle := ok.le
    have hp := ok.p_perm
    have hx : ∀ j, j < v.n → x (v.p j) / v.s (v.p j) = x (v.q j) / v.t (v.q j) := fun j hj => by rw [hv.pq j hj, hv.st _ (hp.1 j hj)]
    have hb : ∀ j, j < v.n → v.t (v.q j) * b (v.q j) = v.s (v.p j) * b (v.p j) := fun j hj => by rw [hv.pq j hj, hv.st _ (hp.1 j hj)]
    have hL : ∀ i j, i < v.m → j < v.m → herm v.U i j = v.L i j := fun i j hi hj => hv.L j i hj hi
    have hU : ∀ i j, i < v.m → j < v.m → herm v.L i j = v.U i j := fun i j hi hj => (hv.L i j hi hj).symm
    refine ⟨fun i hi => ?_, z, g, fun i hi => ?_, ?_, fun i hi => ?_⟩
    · have hi : i < v.m := hi
      show ldu v.m (herm v.U) (fun i => v.d i) (herm v.L) (fun j => x (v.p j) / v.s (v.p j)) i +
        mulVec (v.n - v.m) (herm v.E) (fun j => x (v.p (v.m + j)) / v.s (v.p (v.m + j))) i = v.t (v.q i) * b (v.q i)
      rw [hb i (by omega), ← h1 i hi, ldu_mat hL hU hi, ldu_congr (fun c hc => hx c (by omega)) hi,
        mulVec_mat (T := herm v.E) (T' := v.F) (fun c hc => (hv.E i c hi hc).symm)]
      congr 1
      exact mulVec_congr' (fun c hc => hx _ (by omega)) i
    · have hi : i < v.m := hi
      show ldu v.m (herm v.U) (fun i => v.d i) (herm v.L) z i = v.t (v.q i) * b (v.q i)
      rw [hb i (by omega), ← h2 i hi, ldu_mat hL hU hi]
    · show Applies (herm S) (rest.map Level.adj) (v.n - v.m) (fun j => x (v.p (v.m + j)) / v.s (v.p (v.m + j))) g
      have : (Chain rest (v.n - v.m) kf) := hc
      have h3' := Applies.congr hc h3 (x' := fun j => x (v.p (v.m + j)) / v.s (v.p (v.m + j))) (fun j hj => (hx _ (by omega)).symm) (fun _ _ => rfl)
      exact Applies.self_adj hS hc (fun w hw => hsym w (by simp [hw])) h3'
    · show mulVec v.m (herm v.F) z i + g i = v.t (v.q (v.m + i)) * b (v.q (v.m + i))
      have hi : i < v.n - v.m := hi
      rw [hb _ (by omega), ← h4 i hi, mulVec_mat (T := herm v.F) (T' := v.E) (fun c hc => hv.E c i hc hi)]

/-- The operator of symmetric levels with a symmetric last block is symmetric. -/
theorem Applies.symmetric {S : Nat → Nat → K} {kf : Nat} (hS : SymMat kf S) {lvs : List (Level K)} {k : Nat} (hc : Chain lvs k kf)
    (hsym : ∀ v ∈ lvs, SymLevel v) {x b z c : Nat → K} (h : Applies S lvs k x b) (h' : Applies S lvs k z c) : dot k z b = dot k c x :=
  Applies.adjoint hc (fun v _ => ⟨fun _ => rfl, fun _ => rfl⟩) h (Applies.self_adj hS hc hsym h')

theorem dot_comm (k : Nat) (u v : Nat → K) : dot k u v = dot k v u := by
  unfold dot; exact sum_congr rfl fun i _ => mul_comm _ _

/-- `uᵀ (I+L) D (I+Lᵀ) u = Σ d_b w_b²` with `w = (I+Lᵀ) u`. -/
theorem dot_ldu {m : Nat} {L U : Nat → Nat → K} {d : Nat → K} (h : ∀ i j, i < m → j < m → U i j = L j i) (u : Nat → K) :
    dot m u (ldu m L d U u) = ∑ b ∈ range m, d b * (u b + mulVec m U u b) ^ 2 := by
  rw [dot_eq]
  unfold ldu
  rw [ip_add_right, ip_mulVec]
  unfold ip
  rw [← sum_add_distrib]
  refine sum_congr rfl fun b hb => ?_
  have hb := mem_range.1 hb
  rw [mulVec_mat (T := herm L) (T' := U) fun c hc => (h b c hb hc).symm]
  show u b * _ + mulVec m U u b * _ = _
  ring

/-- The quadratic form of a symmetric level: `xᵀ M x = uᵀ B u + x̂₂ᵀ g`. -/
theorem dot_step {v : Level K} (ok : LevelOK v) (hv : SymLevel v) {x b u g : Nat → K}
    (h1 : ∀ i, i < v.m → ldu v.m v.L v.d v.U (fun j => x (v.q j) / v.t (v.q j)) i +
      mulVec (v.n - v.m) v.F (fun j => x (v.q (v.m + j)) / v.t (v.q (v.m + j))) i = v.s (v.p i) * b (v.p i))
    (h2 : ∀ i, i < v.m → ldu v.m v.L v.d v.U u i = v.s (v.p i) * b (v.p i))
    (h4 : ∀ i, i < v.n - v.m → mulVec v.m v.E u i + g i = v.s (v.p (v.m + i)) * b (v.p (v.m + i))) :
    dot v.n x b = dot v.m u (ldu v.m v.L v.d v.U u) + dot (v.n - v.m) (fun j => x (v.q (v.m + j)) / v.t (v.q (v.m + j))) g := by
  have hle := ok.le
  have hx : ∀ j, j < v.n → x (v.p j) / v.s (v.p j) = x (v.q j) / v.t (v.q j) := fun j hj => by rw [hv.pq j hj, hv.st _ (ok.p_perm.1 j hj)]
  simp only [dot_eq]
  rw [ip_perm ok.p_perm ok.s_ne (fun _ => rfl) x b,
    ip_congr (v := fun i => v.s (v.p i) * b (v.p i)) (fun i hi => hx i hi) (fun _ _ => rfl)]
  set xh := fun j => x (v.q j) / v.t (v.q j) with hxh
  set bh := fun j => v.s (v.p j) * b (v.p j) with hbh
  set x2 := fun j => xh (v.m + j) with hx2
  rw [ip_split v.m v.n hle xh bh]
  have A2 : ip (v.n - v.m) x2 (fun i => bh (v.m + i)) = ip (v.n - v.m) x2 (mulVec v.m v.E u) + ip (v.n - v.m) x2 g := by
    rw [← ip_add_right]
    exact ip_congr (fun _ _ => rfl) fun i hi => (h4 i hi).symm
  have B : ∀ y, ip v.m y (ldu v.m v.L v.d v.U u) = ip v.m y (ldu v.m v.L v.d v.U xh) + ip v.m y (mulVec (v.n - v.m) v.F x2) := fun y => by
    rw [← ip_add_right]
    exact ip_congr (fun _ _ => rfl) fun i hi => (h2 i hi).trans (h1 i hi).symm
  have C : ip v.m xh bh = ip v.m xh (ldu v.m v.L v.d v.U u) := ip_congr (fun _ _ => rfl) fun i hi => (h2 i hi).symm
  have D : ip (v.n - v.m) x2 (mulVec v.m v.E u) = ip v.m u (mulVec (v.n - v.m) v.F x2) := by
    rw [ip_mulVec, ip_congr (u' := mulVec (v.n - v.m) v.F x2) (fun i hi => mulVec_mat fun c hc => (hv.E i c hi hc).symm) (fun _ _ => rfl)]
    exact dot_comm _ _ _
  have E : ip v.m u (ldu v.m v.L v.d v.U xh) = ip v.m xh (ldu v.m v.L v.d v.U u) := by
    rw [ip_ldu, ip_congr (u' := ldu v.m v.L v.d v.U u) (fun i hi => by
      exact ldu_mat (L := herm v.U) (U := herm v.L) (fun i j hi hj => hv.L j i hj hi) (fun i j hi hj => (hv.L i j hi hj).symm) hi) (fun _ _ => rfl)]
    exact dot_comm _ _ _
  have B' := B u
  rw [A2, C, D]
  linear_combination -E - B'

/-- The operator maps zero to zero. -/
theorem Applies.zero {S : Nat → Nat → K} {kf : Nat} : ∀ {lvs : List (Level K)} {k : Nat}, Chain lvs k kf → Applies S lvs k (fun _ => 0) (fun _ => 0)
  | [], k, _ => fun i hi => by simp [mulVec]
  | v :: rest, k, ⟨hn, ok, hc⟩ => by
    have h0 : ∀ i, ldu v.m v.L v.d v.U (fun _ => (0 : K)) i = 0 := fun i => by simp [ldu, mulVec]
    refine ⟨fun i hi => ?_, fun _ => 0, fun _ => 0, fun i hi => ?_, ?_, fun i hi => ?_⟩
    · simp only [zero_div, mul_zero, h0]; simp [mulVec]
    · rw [h0, mul_zero]
    · simp only [zero_div]; exact Applies.zero hc
    · simp [mulVec]

end sym

section pos
variable {R : Type _} [Field R] [LinearOrder R] [IsStrictOrderedRing R]

theorem ldu_nonneg {m : Nat} {L U : Nat → Nat → R} {d : Nat → R} (h : ∀ i j, i < m → j < m → U i j = L j i) (hd : ∀ i, i < m → 0 < d i) (u : Nat → R) :
    0 ≤ dot m u (ldu m L d U u) := by
  rw [dot_ldu h]
  exact sum_nonneg fun b hb => mul_nonneg (le_of_lt (hd b (mem_range.1 hb))) (sq_nonneg _)

theorem ldu_pos {m : Nat} {L U : Nat → Nat → R} {d : Nat → R} (hU : StrictUpper m U) (h : ∀ i j, i < m → j < m → U i j = L j i) (hd : ∀ i, i < m → 0 < d i)
    {u : Nat → R} (hu : ∃ i, i < m ∧ u i ≠ 0) : 0 < dot m u (ldu m L d U u) := by
  rw [dot_ldu h]
  by_contra hc
  have h0 : ∀ b, b < m → 0 ≤ d b * (u b + mulVec m U u b) ^ 2 := fun b hb => mul_nonneg (le_of_lt (hd b hb)) (sq_nonneg _)
  have hz : ∀ b, b < m → u b + mulVec m U u b = 0 := by
    intro b hb
    by_contra hne
    apply hc
    refine sum_pos' (fun c hc => h0 c (mem_range.1 hc)) ⟨b, mem_range.2 hb, mul_pos (hd b hb) (by positivity)⟩
  obtain ⟨i, hi, hne⟩ := hu
  exact hne (Props.solvesUnit_upper_unique (K := R) (n := m) (T := U) (b := fun _ => 0) (x := u) (y := fun _ => 0) hU hz (fun b _ => by simp [mulVec]) i hi)

/-- The operator of symmetric levels with positive pivots and a positive definite last block is positive definite. -/
theorem Applies.pos {S : Nat → Nat → R} {kf : Nat} (hS : PosDef kf S) : ∀ {lvs : List (Level R)} {k : Nat}, Chain lvs k kf →
    (∀ v ∈ lvs, SymLevel v ∧ ∀ i, i < v.m → 0 < v.d i) → ∀ {x b : Nat → R}, Applies S lvs k x b → (∃ i, i < k ∧ x i ≠ 0) → 0 < dot k x b
  | [], k, hk, _, x, b, h, hx => by
    have hk : k = kf := hk
    subst hk
    have := hS x hx
    unfold dot at *
    rw [sum_congr rfl fun i hi => by rw [h i (mem_range.1 hi)]] at this
    exact this
  | v :: rest, k, ⟨hn, ok, hc⟩, hsym, x, b, ⟨h1, z, g, h2, h3, h4⟩, hx => by
    subst hn
    obtain ⟨hv, hd⟩ := hsym v (by simp)
    have hle := ok.le
    rw [dot_step ok hv h1 h2 h4]
    by_cases h0 : ∃ j, j < v.n - v.m ∧ x (v.q (v.m + j)) / v.t (v.q (v.m + j)) ≠ 0
    · have := Applies.pos hS hc (fun w hw => hsym w (by simp [hw])) h3 h0
      have := ldu_nonneg hv.L hd z
      linarith
    · push Not at h0
      have hg : dot (v.n - v.m) (fun j => x (v.q (v.m + j)) / v.t (v.q (v.m + j))) g = 0 := by
        unfold dot
        exact sum_eq_zero fun i hi => mul_eq_zero_of_left (h0 i (mem_range.1 hi)) _
      rw [hg, add_zero]
      have hz : ∀ i, i < v.m → z i = x (v.q i) / v.t (v.q i) :=
        ldu_inj (y := fun i => x (v.q i) / v.t (v.q i)) ok.lower ok.upper ok.d_ne fun i hi => by
          rw [h2 i hi, ← h1 i hi]
          have : mulVec (v.n - v.m) v.F (fun j => x (v.q (v.m + j)) / v.t (v.q (v.m + j))) i = 0 := by
            unfold mulVec
            exact sum_eq_zero fun c hc => mul_eq_zero_of_right _ (h0 c (mem_range.1 hc))
          rw [this, add_zero]
      refine ldu_pos ok.upper hv.L hd ?_
      obtain ⟨i, hi, hne⟩ := hx
      obtain ⟨j, hj, rfl⟩ := isPerm_surj ok.q_perm hi
      have hq : x (v.q j) / v.t (v.q j) ≠ 0 := div_ne_zero hne (ok.t_ne _ hi)
      rcases Nat.lt_or_ge j v.m with c | c
      · exact ⟨j, c, by rw [hz j c]; exact hq⟩
      · exfalso
        have := h0 (j - v.m) (by omega)
        rw [show v.m + (j - v.m) = j by omega] at this
        exact hq this

/-- Negating the pivots and the last block negates the operator. -/
theorem Applies.neg {S : Nat → Nat → R} {kf : Nat} (hS : PosDef kf fun i j => -S i j) : ∀ {lvs : List (Level R)} {k : Nat}, Chain lvs k kf →
    (∀ v ∈ lvs, SymLevel v ∧ ∀ i, i < v.m → v.d i < 0) → ∀ {x b : Nat → R}, Applies S lvs k x b → (∃ i, i < k ∧ x i ≠ 0) → dot k x b < 0
  | [], k, hk, _, x, b, h, hx => by
    have hk : k = kf := hk
    subst hk
    have := hS x hx
    unfold dot mulVec at *
    rw [sum_congr rfl fun i hi => by rw [← h i (mem_range.1 hi)]]
    unfold mulVec
    simp only [neg_mul, sum_neg_distrib, mul_neg] at this
    linarith
  | v :: rest, k, ⟨hn, ok, hc⟩, hsym, x, b, ⟨h1, z, g, h2, h3, h4⟩, hx => by
    subst hn
    obtain ⟨hv, hd⟩ := hsym v (by simp)
    have hle := ok.le
    rw [dot_step ok hv h1 h2 h4]
    have hneg : dot v.m z (ldu v.m v.L v.d v.U z) = -dot v.m z (ldu v.m v.L (fun i => -v.d i) v.U z) := by
      rw [dot_ldu hv.L, dot_ldu hv.L, ← sum_neg_distrib]
      exact sum_congr rfl fun _ _ => by ring
    rw [hneg]
    have hd' : ∀ i, i < v.m → 0 < -v.d i := fun i hi => neg_pos.2 (hd i hi)
    by_cases h0 : ∃ j, j < v.n - v.m ∧ x (v.q (v.m + j)) / v.t (v.q (v.m + j)) ≠ 0
    · have := Applies.neg hS hc (fun w hw => hsym w (by simp [hw])) h3 h0
      have := ldu_nonneg hv.L hd' z
      linarith
    · push Not at h0
      have hg : dot (v.n - v.m) (fun j => x (v.q (v.m + j)) / v.t (v.q (v.m + j))) g = 0 := by
        unfold dot
        exact sum_eq_zero fun i hi => mul_eq_zero_of_left (h0 i (mem_range.1 hi)) _
      rw [hg, add_zero, neg_lt_zero]
      have hz : ∀ i, i < v.m → z i = x (v.q i) / v.t (v.q i) :=
        ldu_inj (y := fun i => x (v.q i) / v.t (v.q i)) ok.lower ok.upper ok.d_ne fun i hi => by
          rw [h2 i hi, ← h1 i hi]
          have : mulVec (v.n - v.m) v.F (fun j => x (v.q (v.m + j)) / v.t (v.q (v.m + j))) i = 0 := by
            unfold mulVec
            exact sum_eq_zero fun c hc => mul_eq_zero_of_right _ (h0 c (mem_range.1 hc))
          rw [this, add_zero]
      refine ldu_pos ok.upper hv.L hd' ?_
      obtain ⟨i, hi, hne⟩ := hx
      obtain ⟨j, hj, rfl⟩ := isPerm_surj ok.q_perm hi
      have hq : x (v.q j) / v.t (v.q j) ≠ 0 := div_ne_zero hne (ok.t_ne _ hi)
      rcases Nat.lt_or_ge j v.m with c | c
      · exact ⟨j, c, by rw [hz j c]; exact hq⟩
      · exfalso
        have := h0 (j - v.m) (by omega)
        rw [show v.m + (j - v.m) = j by omega] at this
        exact hq this

end pos
end Hif.Spec
