import Verif.Props.Refine
import Mathlib.Algebra.Order.Archimedean.Basic

set_option linter.unusedSectionVars false
set_option linter.unusedVariables false

/-!
# C87: iterative refinement converges when the preconditioner is good enough
-/

namespace Hif.Spec
open Finset
variable {K R : Type _} [Field K] [StarRing K] [Mul R] [LE R]

/-- A measure of vectors of length `k` (for instance a norm): it depends on the first `k` entries only. -/
def OnFirst (k : Nat) (ν : (Nat → K) → R) : Prop := ∀ u v : Nat → K, (∀ i, i < k → u i = v i) → ν u = ν v

/-- `‖I - M^{-1} T‖ ≤ ρ` in the measure `ν`: whenever `M z = T e`, `ν(e - z) ≤ ρ ν(e)`. -/
def ContractsError (inv : (Nat → K) → (Nat → K) → Prop) (T : Nat → Nat → K) (k : Nat) (ν : (Nat → K) → R) (ρ : R) : Prop :=
  ∀ e z : Nat → K, inv z (mulVec k T e) → ν (fun i => e i - z i) ≤ ρ * ν e

/-- `‖I - T M^{-1}‖ ≤ ρ` in the measure `ν`: whenever `M z = c`, `ν(c - T z) ≤ ρ ν(c)`. -/
def ContractsResidual (inv : (Nat → K) → (Nat → K) → Prop) (T : Nat → Nat → K) (k : Nat) (ν : (Nat → K) → R) (ρ : R) : Prop :=
  ∀ c z : Nat → K, inv z c → ν (fun i => c i - mulVec k T z i) ≤ ρ * ν c

end Hif.Spec

namespace Hif.Props
open Finset Spec HIF HM
variable {K R : Type _} [Field K] [StarRing K] [Field R] [LinearOrder R] [IsStrictOrderedRing R]

theorem mulVec_sub_fun (k : Nat) (T : Nat → Nat → K) (u v : Nat → K) (i : Nat) :
    mulVec k T (fun j => u j - v j) i = mulVec k T u i - mulVec k T v i := by
  unfold mulVec
  rw [← sum_sub_distrib]
  exact sum_congr rfl fun _ _ => by ring

theorem iterate_error {S : Nat → Nat → K} {precs : List (Prec K)} {r kf k : Nat} (hg : Prec.Good r S kf precs k) {trans : Bool} {T : Nat → Nat → K}
    {ν : (Nat → K) → R} (hν : OnFirst k ν) {ρ : R} (h0 : 0 ≤ ρ) (hc : ContractsError (Inv S precs k trans) T k ν ρ) {b xs : Nat → K}
    (hxs : ∀ i, i < k → mulVec k T xs i = b i) : ∀ {N : Nat} {x : Nat → K}, Iterate (Inv S precs k trans) T k b N x → ν (fun i => xs i - x i) ≤ ρ ^ N * ν xs := by
  intro N x h
  induction h with
  | @first x h =>
    rw [pow_one]
    exact hc xs x (inv_congr hg h (fun _ _ => rfl) fun i hi => (hxs i hi).symm)
  | @next j x d y h1 h2 h3 ih =>
    have k1 := hc (fun i => xs i - x i) d (inv_congr hg h2 (fun _ _ => rfl) fun i hi => by rw [mulVec_sub_fun, hxs i hi])
    rw [hν (fun i => xs i - y i) (fun i => xs i - x i - d i) fun i hi => by rw [h3 i hi]; ring, pow_succ, mul_comm (ρ ^ j), mul_assoc]
    exact le_trans k1 (mul_le_mul_of_nonneg_left ih h0)

theorem iterate_residual {S : Nat → Nat → K} {precs : List (Prec K)} {k : Nat} {trans : Bool} {T : Nat → Nat → K}
    {ν : (Nat → K) → R} (hν : OnFirst k ν) {ρ : R} (h0 : 0 ≤ ρ) (hc : ContractsResidual (Inv S precs k trans) T k ν ρ) {b : Nat → K} :
    ∀ {N : Nat} {x : Nat → K}, Iterate (Inv S precs k trans) T k b N x → ν (fun i => b i - mulVec k T x i) ≤ ρ ^ N * ν b := by
  intro N x h
  induction h with
  | @first x h =>
    rw [pow_one]
    exact hc b x h
  | @next j x d y h1 h2 h3 ih =>
    have k1 := hc _ d h2
    rw [hν (fun i => b i - mulVec k T y i) (fun i => b i - mulVec k T x i - mulVec k T d i) fun i hi => by
      rw [mulVec_congr' h3 i, Prec.mulVec_add_fun]; ring, pow_succ, mul_comm (ρ ^ j), mul_assoc]
    exact le_trans k1 (mul_le_mul_of_nonneg_left ih h0)

section
variable (junk : Nat → K) (h : HIF K) (r : Nat) (S : Nat → Nat → K) (kf k : Nat) (hg : Prec.Good r S kf h.precs k)
  (hr : Ready h) (trans : Bool) (hn : (if trans then h.nspTran else h.nsp) = none) (hcols : h.ncols = k) (hk : 0 < k)
  (A : Operator K) (T : Nat → Nat → K) (hA : OpOK A k T)
include hg hr hn hcols hk hA

/-- **C87 (error).** If `‖I - M^{-1} A‖ ≤ ρ` in some measure of vectors, `N ≥ 1` iterations of refinement reduce the error by `ρ^N` (starting from 0), whatever the object's work
array holds. -/
theorem C87_error (ν : (Nat → K) → R) (hν : OnFirst k ν) (ρ : R) (h0 : 0 ≤ ρ)
    (hc : ContractsError (Inv S h.precs k trans) (if trans then herm T else T) k ν ρ) (xs : Nat → K) (b x : Buf K) (hb : b.size = k) (hx : x.size = k)
    (hxs : ∀ i, i < k → mulVec k (if trans then herm T else T) xs i = b.get i) (N : Nat) :
    ∃ h' y, hifir junk A b N x trans r h = (h', .ok y) ∧ y.size = k ∧ ν (fun i => xs i - y.get i) ≤ ρ ^ max N 1 * ν xs := by
  obtain ⟨h', y, e, s, it⟩ := C31_iterate junk h r S kf k hg hr trans hn hcols hk A T hA b x hb hx N
  exact ⟨h', y, e, s, iterate_error hg hν h0 hc hxs it⟩

/-- **C87 (residual).** If `‖I - A M^{-1}‖ ≤ ρ`, the residual is reduced by `ρ^N`, whether or not `A` is singular. -/
theorem C87_residual (ν : (Nat → K) → R) (hν : OnFirst k ν) (ρ : R) (h0 : 0 ≤ ρ)
    (hc : ContractsResidual (Inv S h.precs k trans) (if trans then herm T else T) k ν ρ) (b x : Buf K) (hb : b.size = k) (hx : x.size = k) (N : Nat) :
    ∃ h' y, hifir junk A b N x trans r h = (h', .ok y) ∧ y.size = k ∧
      ν (fun i => b.get i - mulVec k (if trans then herm T else T) y.get i) ≤ ρ ^ max N 1 * ν b.get := by
  obtain ⟨h', y, e, s, it⟩ := C31_iterate junk h r S kf k hg hr trans hn hcols hk A T hA b x hb hx N
  exact ⟨h', y, e, s, iterate_residual hν h0 hc it⟩

variable (norm : Buf K → R) (hnm : ∀ v w : Buf K, v.size = k → w.size = k → (∀ i, i < k → v.get i = w.get i) → norm v = norm w)
include hnm

/-- **C87 (refinement with bounds).** If `‖I - A M^{-1}‖ ≤ ρ ≤ 1` in the norm the refinement uses, with `N ≥ 2` and `norm b > 0`: the relative residual after the reported
number of iterations is at most `ρ^iterations`; divergence (flag 1) is never reported if `ρ ≤ β₁`; and if moreover `ρ^j ≤ β₀` for some `1 ≤ j < N`, it stops with success (flag 0) after
at most `j` iterations, its residual being at most `β₀`. -/
theorem C87_bounded (ρ : R) (h0 : 0 ≤ ρ) (h1 : ρ ≤ 1)
    (hc : ContractsResidual (Inv S h.precs k trans) (if trans then herm T else T) k (fun v => norm ⟨k, v⟩) ρ) (b x : Buf K) (hb : b.size = k) (hx : x.size = k)
    (N : Nat) (hN : 2 ≤ N) (β₀ β₁ : R) (hpos : 0 < norm b) :
    ∃ h' y iters flag, hifirBounded junk A norm b N β₀ β₁ x trans r h = (h', .ok (y, iters, flag)) ∧ y.size = k ∧
      norm ⟨k, fun i => b.get i - mulVec k (if trans then herm T else T) y.get i⟩ ≤ ρ ^ iters * norm b ∧
      (ρ ≤ β₁ → flag ≠ 1 ∧ ∀ j, 1 ≤ j → j < N → ρ ^ j ≤ β₀ → flag = 0 ∧ iters ≤ j ∧
        norm ⟨k, fun i => b.get i - mulVec k (if trans then herm T else T) y.get i⟩ ≤ β₀ * norm b) := by
  obtain ⟨h', y, iters, flag, e, s, t⟩ := C32_truthful junk h r S kf k hg hr trans hn hcols hk A T hA norm b x hb hx N hN β₀ β₁ (ne_of_gt hpos)
  have hν : OnFirst k (fun v : Nat → K => norm ⟨k, v⟩) := fun u v huv => hnm _ _ rfl rfl huv
  have hbn : norm ⟨k, b.get⟩ = norm b := hnm _ _ rfl hb fun _ _ => rfl
  -- the relative residual of an iterate
  have hrel : ∀ {j : Nat} {z : Nat → K} {q : R}, Iterate (Inv S h.precs k trans) (if trans then herm T else T) k b.get j z →
      RelRes norm (if trans then herm T else T) k b.get (norm b) z q → q ≤ ρ ^ j := by
    rintro j z q it ⟨v, v1, v2, rfl⟩
    have := iterate_residual hν h0 hc it
    rw [hbn, ← hnm v ⟨k, fun i => b.get i - mulVec k (if trans then herm T else T) z i⟩ v1 rfl v2] at this
    exact (div_le_iff₀ hpos).2 this
  refine ⟨h', y, iters, flag, e, s, ?_, fun hb1 => ⟨fun hf => ?_, fun j hj1 hjN hj => ?_⟩⟩
  · have := iterate_residual hν h0 hc t.iterate
    rw [hbn] at this
    exact this
  · obtain ⟨q, q1, -, q3⟩ := t.one hf
    have := hrel t.iterate q1
    have h2 : ρ ^ iters ≤ ρ := pow_le_of_le_one h0 h1 (by have := t.pos; omega)
    exact absurd (lt_of_lt_of_le q3 (le_trans this (le_trans h2 hb1))) (lt_irrefl _)
  · have hle : iters ≤ j := by
      by_contra hcon
      obtain ⟨z, q, z1, z2, z3, -⟩ := t.early j hj1 (by omega)
      exact absurd (lt_of_lt_of_le z3 (le_trans (hrel z1 z2) hj)) (lt_irrefl _)
    have hflag : flag = 0 := by
      rcases t.flag_range with hf | hf | hf
      · exact hf
      · obtain ⟨q, q1, -, q3⟩ := t.one hf
        have := hrel t.iterate q1
        have h2 : ρ ^ iters ≤ ρ := pow_le_of_le_one h0 h1 (by have := t.pos; omega)
        exact absurd (lt_of_lt_of_le q3 (le_trans this (le_trans h2 hb1))) (lt_irrefl _)
      · have := t.minus hf
        omega
    refine ⟨hflag, hle, ?_⟩
    obtain ⟨q, ⟨v, v1, v2, rfl⟩, q2⟩ := t.zero hflag
    rw [hnm ⟨k, fun i => b.get i - mulVec k (if trans then herm T else T) y.get i⟩ v rfl v1 fun i hi => (v2 i hi).symm]
    exact (div_le_iff₀ hpos).1 q2

/-- **C87 (success is reached).** If `‖I - A M^{-1}‖ ≤ ρ < 1`, `ρ ≤ β₁` and `β₀ > 0`, there is a number of iterations, independent of the right-hand side, from which on every
call with `norm b > 0` reports success. -/
theorem C87_reaches [Archimedean R] (ρ : R) (h0 : 0 ≤ ρ) (h1 : ρ < 1)
    (hc : ContractsResidual (Inv S h.precs k trans) (if trans then herm T else T) k (fun v => norm ⟨k, v⟩) ρ) (β₀ β₁ : R) (hβ0 : 0 < β₀) (hβ1 : ρ ≤ β₁) :
    ∃ N₀, ∀ N, N₀ ≤ N → ∀ b x : Buf K, b.size = k → x.size = k → 0 < norm b →
      ∃ h' y iters, hifirBounded junk A norm b N β₀ β₁ x trans r h = (h', .ok (y, iters, 0)) ∧ iters < N₀ ∧
        norm ⟨k, fun i => b.get i - mulVec k (if trans then herm T else T) y.get i⟩ ≤ β₀ * norm b := by
  obtain ⟨j, hj⟩ := exists_pow_lt_of_lt_one hβ0 h1
  have hj' : ρ ^ (j + 1) ≤ β₀ := le_trans (pow_le_pow_of_le_one h0 h1.le (Nat.le_succ j)) hj.le
  refine ⟨j + 2, fun N hN b x hb hx hpos => ?_⟩
  obtain ⟨h', y, iters, flag, e, -, -, k2⟩ := C87_bounded junk h r S kf k hg hr trans hn hcols hk A T hA norm hnm ρ h0 h1.le hc b x hb hx N (by omega) β₀ β₁ hpos
  obtain ⟨rfl, k3, k4⟩ := (k2 hβ1).2 (j + 1) (by omega) (by omega) hj'
  exact ⟨h', y, iters, e, by omega, k4⟩

end

/-! ## A sufficient condition -/

/-- **C87 (relative perturbation).** If the preconditioner inverts a matrix `B` and `ν((B - T) z) ≤ ρ ν(B z)` for all `z`, refinement with `T` contracts the residual by `ρ`. -/
theorem C87_perturbation {S : Nat → Nat → K} {precs : List (Prec K)} {k : Nat} {trans : Bool} {T B : Nat → Nat → K}
    {ν : (Nat → K) → R} (hν : OnFirst k ν) {ρ : R} (hM : ∀ z c, Inv S precs k trans z c → ∀ i, i < k → mulVec k B z i = c i)
    (hB : ∀ z : Nat → K, ν (fun i => mulVec k B z i - mulVec k T z i) ≤ ρ * ν (mulVec k B z)) :
    ContractsResidual (Inv S precs k trans) T k ν ρ := by
  intro c z hz
  have := hB z
  rw [hν (fun i => mulVec k B z i - mulVec k T z i) (fun i => c i - mulVec k T z i) fun i hi => by rw [hM z c hz i hi],
    hν (mulVec k B z) c (hM z c hz)] at this
  exact this

/-! ## Non-vacuity -/

namespace Ex

theorem scaled (z : Nat → ℚ) (i : Nat) : mulVec 2 (fun i j => 11 / 10 * T3 i j) z i = 11 / 10 * mulVec 2 T3 z i := by
  unfold mulVec
  rw [mul_sum]
  exact sum_congr rfl fun _ _ => by ring

/-- The preconditioner `P3` inverts `T3`; for the matrix `11/10 T3` it contracts errors … -/
example : ContractsError (Inv (fun _ _ => (0 : ℚ)) [P3] 2 false) (fun i j => 11 / 10 * T3 i j) 2 (fun v => |v 0| + |v 1|) (1 / 10) := by
  intro e z hz
  have h1 := P3_inverts.1 _ _ hz
  have h2 : ∀ i, i < 2 → z i = 11 / 10 * e i := P3_inverts.2 z (fun i => 11 / 10 * e i) fun i hi => by
    rw [h1 i hi, scaled]
    unfold mulVec
    rw [mul_sum]
    exact sum_congr rfl fun _ _ => by ring
  show |e 0 - z 0| + |e 1 - z 1| ≤ 1 / 10 * (|e 0| + |e 1|)
  rw [h2 0 (by decide), h2 1 (by decide), show ∀ a : ℚ, a - 11 / 10 * a = -(1 / 10 * a) from fun a => by ring,
    show ∀ a : ℚ, a - 11 / 10 * a = -(1 / 10 * a) from fun a => by ring, abs_neg, abs_neg, abs_mul, abs_mul]
  norm_num
  linarith

/-- … and residuals by `1/10`. -/
example : ContractsResidual (Inv (fun _ _ => (0 : ℚ)) [P3] 2 false) (fun i j => 11 / 10 * T3 i j) 2 (fun v => |v 0| + |v 1|) (1 / 10) := by
  refine C87_perturbation (B := T3) (fun u v huv => by show |u 0| + |u 1| = |v 0| + |v 1|; rw [huv 0 (by decide), huv 1 (by decide)]) P3_inverts.1 fun z => ?_
  show |_ - _| + |_ - _| ≤ 1 / 10 * (|mulVec 2 T3 z 0| + |mulVec 2 T3 z 1|)
  rw [scaled, scaled, show ∀ a : ℚ, a - 11 / 10 * a = -(1 / 10 * a) from fun a => by ring,
    show ∀ a : ℚ, a - 11 / 10 * a = -(1 / 10 * a) from fun a => by ring, abs_neg, abs_neg, abs_mul, abs_mul]
  norm_num
  linarith

end Ex
end Hif.Props
