import Verif.GmresRun

set_option linter.unusedSectionVars false
set_option linter.unusedVariables false

/-!
# Runs of the GMRES drivers: invariant of the inner loop
-/

namespace Hif
namespace Gmres
open Finset Spec

universe u

variable {K : Type u} [Field K] [LinearOrder K] [IsStrictOrderedRing K]

/-- `f` is linear on vectors of length `n`. -/
def LinOn (n : Nat) (f : (Nat → K) → Nat → K) : Prop :=
  ∀ (α β : K) (a b : Nat → K) (i : Nat), i < n → f (fun r => α * a r + β * b r) i = α * f a i + β * f b i

/-- `f` depends on the first `n` entries only. -/
def Ext (n : Nat) (f : (Nat → K) → Nat → K) : Prop := ∀ a b : Nat → K, (∀ i, i < n → a i = b i) → ∀ i, i < n → f a i = f b i

/-- What is assumed about the operators: `mul` is the product with `A`, `prec k` is the function `Mf k`. -/
structure EnvOK (e : Env K K) (sqrt : K → K) (n : Nat) (A : Nat → Nat → K) (Mf : Nat → (Nat → K) → Nat → K) : Prop where
  sc : e.sc = realScal sqrt
  sq : SqrtOK sqrt
  mul : ∀ x y : Buf K, x.size = n → y.size = n → Runs (e.mul x y) (fun r => r.size = n ∧ ∀ i, i < n → r.get i = mulVec n A x.get i)
  prec : ∀ (k : Nat) (v w : Buf K), 0 < k → v.size = n → w.size = n → Runs (e.prec k v w) (fun r => r.size = n ∧ ∀ i, i < n → r.get i = Mf k v.get i)
  ext : ∀ k, Ext n (Mf k)

/-- The preconditioner `f` is linear and `A f` is injective. -/
def Reg (n : Nat) (A : Nat → Nat → K) (f : (Nat → K) → Nat → K) : Prop :=
  LinOn n f ∧ ∀ v : Nat → K, (∀ i, i < n → mulVec n A (f v) i = 0) → ∀ i, i < n → v i = 0

/-- Sizes of the arrays. -/
structure Sz (n r : Nat) (s : St K K) : Prop where
  x : s.x.size = n
  v : s.v.size = n
  w : s.w.size = n
  y : s.y.size = r + 1
  w2 : s.w2.size = r
  Q : s.Q.size = n * r
  Z : s.Z.size = n * r
  Rm : s.Rm.size = r * r
  J : s.J.size = r * 2

/-- Facts about the processed columns `k < m`: `q` the basis, `z` the preconditioned vectors, `R` the triangle. -/
structure Cols (n r : Nat) (A : Nat → Nat → K) (f : (Nat → K) → Nat → K) (flex : Bool) (m : Nat) (s : St K K) (q z : Nat → Nat → K) (c sn : Nat → K) : Prop where
  hz : ∀ k, k < m → ∀ i, i < n → z k i = f (q k) i
  Z : flex = true → ∀ k, k < m → ∀ i, i < n → s.Z.get (i + k * n) = z k i
  col : ∀ k, k < m → ∀ i, i < n → mulVec n A (z k) i = ∑ l ∈ range (k + 1), s.Rm.get (l + k * r) * pv q c sn l i
  diag : ∀ k, k < m → s.Rm.get (k + k * r) ≠ 0

/-- Invariant at the start of inner iteration `j`. -/
structure Inv (n r : Nat) (A : Nat → Nat → K) (f : (Nat → K) → Nat → K) (flex : Bool) (β : K) (r0 : Nat → K) (j : Nat) (s : St K K) (q z : Nat → Nat → K) (c sn : Nat → K) :
    Prop where
  cols : Cols n r A f flex j s q z c sn
  base : ∀ i, i < n → r0 i = β * q 0 i
  orth : Orth n q j
  Q : ∀ k, k ≤ j → ∀ i, i < n → s.Q.get (i + k * n) = q k i
  J0 : ∀ k, k < j → s.J.get k = c k
  J1 : ∀ k, k < j → s.J.get (k + r) = sn k
  cs : ∀ k, k < j → c k * c k + sn k * sn k = 1
  res : ∀ i, i < n → r0 i = ∑ l ∈ range j, s.y.get l * pv q c sn l i + s.y.get j * tv q c sn j i

/-- What holds after inner iteration `j`. -/
structure Done (n r : Nat) (A : Nat → Nat → K) (f : (Nat → K) → Nat → K) (flex : Bool) (β : K) (r0 : Nat → K) (j : Nat) (s : St K K) (q z : Nat → Nat → K) (c sn : Nat → K) :
    Prop where
  cols : Cols n r A f flex (j + 1) s q z c sn
  base : ∀ i, i < n → r0 i = β * q 0 i
  Q : ∀ k, k ≤ j → ∀ i, i < n → s.Q.get (i + k * n) = q k i
  pe : ∀ l, l ≤ j → ip n (pv q c sn l) (fun i => s.y.get (j + 1) * tv q c sn (j + 1) i) = 0
  ee : ip n (fun i => s.y.get (j + 1) * tv q c sn (j + 1) i) (fun i => s.y.get (j + 1) * tv q c sn (j + 1) i) = s.y.get (j + 1) * s.y.get (j + 1)
  res : ∀ i, i < n → r0 i = ∑ l ∈ range (j + 1), s.y.get l * pv q c sn l i + s.y.get (j + 1) * tv q c sn (j + 1) i

/-! ### triangular systems -/

theorem tri_swap (m : Nat) (Rf : Nat → Nat → K) (d p : Nat → K) :
    ∑ k ∈ range m, d k * ∑ l ∈ range (k + 1), Rf l k * p l = ∑ l ∈ range m, (∑ k ∈ Ico l m, Rf l k * d k) * p l := by
  induction m with
  | zero => simp
  | succ m ih =>
    rw [Finset.sum_range_succ, ih, Finset.mul_sum, Finset.sum_range_succ, Finset.sum_range_succ (fun l => (∑ k ∈ Ico l (m + 1), Rf l k * d k) * p l)]
    have e1 : ∑ l ∈ range m, (∑ k ∈ Ico l (m + 1), Rf l k * d k) * p l
        = ∑ l ∈ range m, (∑ k ∈ Ico l m, Rf l k * d k) * p l + ∑ l ∈ range m, d m * (Rf l m * p l) := by
      rw [← Finset.sum_add_distrib]
      refine Finset.sum_congr rfl fun l hl => ?_
      rw [Finset.sum_Ico_succ_top (by have := Finset.mem_range.1 hl; omega)]; ring
    rw [e1, Finset.sum_Ico_succ_top (le_refl m), Finset.Ico_self]
    simp only [Finset.sum_empty]
    ring

theorem tri_exists (m : Nat) (Rf : Nat → Nat → K) (hd : ∀ k, k < m → Rf k k ≠ 0) (g : Nat → K) :
    ∃ d : Nat → K, ∀ l, l < m → ∑ k ∈ Ico l m, Rf l k * d k = g l := by
  induction m generalizing g with
  | zero => exact ⟨fun _ => 0, fun l h => by omega⟩
  | succ m ih =>
    obtain ⟨d, h⟩ := ih (fun k hk => hd k (by omega)) (fun l => g l - Rf l m * (g m / Rf m m))
    refine ⟨fun k => if k = m then g m / Rf m m else d k, fun l hl => ?_⟩
    rw [Finset.sum_Ico_succ_top (by omega)]
    beta_reduce
    rw [if_pos rfl]
    have e1 : ∑ k ∈ Ico l m, Rf l k * (if k = m then g m / Rf m m else d k) = ∑ k ∈ Ico l m, Rf l k * d k :=
      Finset.sum_congr rfl fun k hk => by rw [if_neg (by have := (Finset.mem_Ico.1 hk).2; omega)]
    rw [e1]
    rcases Nat.lt_or_ge l m with hl' | hl'
    · rw [h l hl']; ring
    · obtain rfl : l = m := by omega
      rw [Finset.Ico_self, Finset.sum_empty, zero_add, mul_div_cancel₀]
      exact hd l (by omega)

theorem linOn_sum {n : Nat} {f : (Nat → K) → Nat → K} (hf : LinOn n f) (he : Ext n f) (m : Nat) (d : Nat → K) (q : Nat → Nat → K) :
    ∀ i, i < n → f (fun r => ∑ k ∈ range m, d k * q k r) i = ∑ k ∈ range m, d k * f (q k) i := by
  induction m with
  | zero =>
    intro i hi
    have := hf 0 0 (fun _ => 0) (fun _ => 0) i hi
    simp only [zero_mul, add_zero] at this
    simpa using this
  | succ m ih =>
    intro i hi
    rw [Finset.sum_range_succ, ← ih i hi]
    have := hf 1 (d m) (fun r => ∑ k ∈ range m, d k * q k r) (q m) i hi
    rw [one_mul] at this
    rw [← this]
    exact he _ _ (fun r _ => by rw [Finset.sum_range_succ, one_mul]) i hi

theorem mulVec_congr {n : Nat} {A : Nat → Nat → K} {x y : Nat → K} (h : ∀ i, i < n → x i = y i) (i : Nat) : mulVec n A x i = mulVec n A y i := by
  unfold mulVec
  exact Finset.sum_congr rfl fun k hk => by rw [h k (Finset.mem_range.1 hk)]

theorem mulVec_lin {n : Nat} {A : Nat → Nat → K} (m : Nat) (x : Nat → K) (d : Nat → K) (z : Nat → Nat → K) (i : Nat) :
    mulVec n A (fun r => x r + ∑ k ∈ range m, d k * z k r) i = mulVec n A x i + ∑ k ∈ range m, d k * mulVec n A (z k) i := by
  unfold mulVec
  simp_rw [mul_add, Finset.sum_add_distrib, Finset.mul_sum]
  congr 1
  rw [Finset.sum_comm]
  exact Finset.sum_congr rfl fun k _ => Finset.sum_congr rfl fun i _ => by ring

/-- The images `A z_k` span the rotated basis: any combination of the `pv` is one of the images. -/
theorem Cols.span {n r : Nat} {A : Nat → Nat → K} {f : (Nat → K) → Nat → K} {flex : Bool} {m : Nat} {s : St K K} {q z : Nat → Nat → K} {c sn : Nat → K}
    (h : Cols n r A f flex m s q z c sn) (g : Nat → K) :
    ∃ d : Nat → K, ∀ i, i < n → ∑ k ∈ range m, d k * mulVec n A (z k) i = ∑ l ∈ range m, g l * pv q c sn l i := by
  obtain ⟨d, hd⟩ := tri_exists m (fun l k => s.Rm.get (l + k * r)) h.diag g
  refine ⟨d, fun i hi => ?_⟩
  have e1 : ∑ k ∈ range m, d k * mulVec n A (z k) i = ∑ k ∈ range m, d k * ∑ l ∈ range (k + 1), s.Rm.get (l + k * r) * pv q c sn l i :=
    Finset.sum_congr rfl fun k hk => by rw [h.col k (Finset.mem_range.1 hk) i hi]
  rw [e1, tri_swap m (fun l k => s.Rm.get (l + k * r)) d (fun l => pv q c sn l i)]
  exact Finset.sum_congr rfl fun l hl => by rw [hd l (Finset.mem_range.1 hl)]

/-- With a linear preconditioner and injective `A f` the new image is not a combination of the old ones. -/
theorem noBreak {n r : Nat} {A : Nat → Nat → K} {f : (Nat → K) → Nat → K} {flex : Bool} {m : Nat} {s : St K K} {q z : Nat → Nat → K} {c sn : Nat → K}
    (h : Cols n r A f flex m s q z c sn) (hq : Orth n q m) (hf : Ext n f) (g : Nat → K)
    (hg : ∀ i, i < n → mulVec n A (f (q m)) i = ∑ l ∈ range m, g l * pv q c sn l i) : ¬ Reg n A f := by
  rintro ⟨hl, hi⟩
  obtain ⟨d, hd⟩ := h.span g
  have h0 := hi (fun r => q m r + ∑ k ∈ range m, (-d k) * q k r) (fun i hi => by
    have e1 : ∀ r, r < n → f (fun r => q m r + ∑ k ∈ range m, (-d k) * q k r) r = f (q m) r + ∑ k ∈ range m, (-d k) * z k r := by
      intro r hr
      have := hl 1 1 (q m) (fun r => ∑ k ∈ range m, (-d k) * q k r) r hr
      simp only [one_mul] at this
      rw [this, linOn_sum hl hf m _ q r hr]
      congr 1
      exact Finset.sum_congr rfl fun k hk => by rw [h.hz k (Finset.mem_range.1 hk) r hr]
    rw [mulVec_congr e1, mulVec_lin, hg i hi, ← hd i hi, ← Finset.sum_add_distrib]
    exact Finset.sum_eq_zero fun k _ => by ring)
  have h1 : ip n (fun r => q m r + ∑ k ∈ range m, (-d k) * q k r) (q m) = 0 :=
    Finset.sum_eq_zero fun i hi => by beta_reduce; rw [h0 i (Finset.mem_range.1 hi), zero_mul]
  rw [ip_add, ip_sum, hq m m (le_refl _) (le_refl _), if_pos rfl] at h1
  have h2 : ∑ k ∈ range m, (-d k) * ip n (q k) (q m) = 0 := Finset.sum_eq_zero fun k hk => by
    have := Finset.mem_range.1 hk
    rw [hq k m (by omega) (le_refl _), if_neg (by omega), mul_zero]
  rw [h2, add_zero] at h1
  exact one_ne_zero h1

end Gmres
end Hif
