import Verif.BuilderLemmas
import Verif.Props.MatVec
import Verif.Props.Mrhs

set_option linter.unusedSectionVars false
set_option linter.unusedVariables false

/-!
# C31, C32: iterative refinement
-/

namespace Hif.Spec
open Finset
variable {K : Type _} [Field K] [StarRing K]

/-- What the preconditioner does: `x = M^{-1} b` (or `M^{-H} b`), where `M` is the multilevel operator of `precs` with final
dense block `S`. -/
def Inv (S : Nat → Nat → K) (precs : List (Prec K)) (k : Nat) (trans : Bool) (x b : Nat → K) : Prop :=
  if trans then Applies (herm S) ((precs.map Prec.toLevel).map Level.adj) k x b
  else Applies S (precs.map Prec.toLevel) k x b

/-- The iterates of refinement with inverse `inv` and matrix `T`:
`x_1 = M^{-1} b`, `x_{j+1} = x_j + M^{-1} (b - T x_j)`. -/
inductive Iterate (inv : (Nat → K) → (Nat → K) → Prop) (T : Nat → Nat → K) (k : Nat) (b : Nat → K) : Nat → (Nat → K) → Prop
  | first {x : Nat → K} : inv x b → Iterate inv T k b 1 x
  | next {j : Nat} {x d y : Nat → K} : Iterate inv T k b j x → inv d (fun i => b i - mulVec k T x i) →
      (∀ i, i < k → y i = x i + d i) → Iterate inv T k b (j + 1) y

/-- A matrix operator multiplies by the `k × k` matrix `T` (by `T^H` when transposed). -/
def OpOK (A : HIF.Operator K) (k : Nat) (T : Nat → Nat → K) : Prop :=
  ∀ (trans : Bool) (x y : Buf K), x.size = k → y.size = k → Runs (A trans x y) fun z => z.size = k ∧
    ∀ i, i < k → z.get i = mulVec k (if trans then herm T else T) x.get i

end Hif.Spec

namespace Hif.Props
open Finset Spec HIF HM
variable {K : Type _} [Field K] [StarRing K]

/-- The sparse matrices of the library are such operators (CRS; C01, C02). -/
theorem opOK_crs (A : CS K) (hA : A.WF) (k : Nat) (hk : 0 < k) (hp : A.psize = k) (hs : A.ssize = k) :
    OpOK (fun t x y => if t then A.crsMultiplyT x y else A.crsMultiplyNt x y) k A.crs := by
  intro t x y hx hy
  cases t with
  | false =>
    obtain ⟨z, e, s, l⟩ := C01_crs_multiply A hA x y (by omega) (by omega)
    exact ⟨z, e, by omega, fun i hi => by rw [l i (by omega), hs]; rfl⟩
  | true =>
    obtain ⟨z, e, s, l⟩ := C02_crs_multiply_t_partial A hA x y (by omega) (by omega) (by omega)
    exact ⟨z, e, by omega, fun i hi => by rw [l i (by omega), hp]; rfl⟩

/-- The sparse matrices of the library are such operators (CCS; C01, C02). -/
theorem opOK_ccs (A : CS K) (hA : A.WF) (k : Nat) (hp : A.psize = k) (hs : A.ssize = k) :
    OpOK (fun t x y => if t then A.ccsMultiplyT x y else A.ccsMultiplyNt x y) k A.ccs := by
  intro t x y hx hy
  cases t with
  | false =>
    obtain ⟨z, e, s, l⟩ := C01_ccs_multiply A hA x y (by omega) (by omega)
    exact ⟨z, e, by omega, fun i hi => by rw [l i (by omega), hp]; rfl⟩
  | true =>
    obtain ⟨z, e, s, l⟩ := C02_ccs_multiply_t A hA x y (by omega) (by omega)
    exact ⟨z, e, by omega, fun i hi => by rw [l i (by omega), hs]; rfl⟩

theorem Iterate.congr {S : Nat → Nat → K} {precs : List (Prec K)} {r kf k : Nat} (hg : Prec.Good r S kf precs k) {trans : Bool}
    {T : Nat → Nat → K} {b : Nat → K} {N : Nat} {x y : Nat → K} (h : Iterate (Inv S precs k trans) T k b N x)
    (e : ∀ i, i < k → x i = y i) : Iterate (Inv S precs k trans) T k b N y := by
  cases h with
  | first h =>
    refine .first ?_
    cases trans with
    | false => exact Applies.congr hg.chain h e (fun _ _ => rfl)
    | true => exact Applies.congr (Prec.adj_chain hg.chain) h e (fun _ _ => rfl)
  | next h1 h2 h3 => exact .next h1 h2 fun i hi => by rw [← e i hi, h3 i hi]

theorem inv_congr {S : Nat → Nat → K} {precs : List (Prec K)} {r kf k : Nat} (hg : Prec.Good r S kf precs k) {trans : Bool}
    {x x' b b' : Nat → K} (h : Inv S precs k trans x b) (e : ∀ i, i < k → x i = x' i) (e' : ∀ i, i < k → b i = b' i) :
    Inv S precs k trans x' b' := by
  cases trans with
  | false => exact Applies.congr hg.chain h e e'
  | true => exact Applies.congr (Prec.adj_chain hg.chain) h e e'

theorem inv_unique {S : Nat → Nat → K} {precs : List (Prec K)} {r kf k : Nat} (hg : Prec.Good r S kf precs k) {trans : Bool}
    {x x' b b' : Nat → K} (h : Inv S precs k trans x b) (h' : Inv S precs k trans x' b') (e : ∀ i, i < k → b i = b' i) :
    ∀ i, i < k → x i = x' i := by
  cases trans with
  | false => exact Applies.unique_x hg.injective.1 hg.chain h h' e
  | true => exact Applies.unique_x hg.injective.2 (Prec.adj_chain hg.chain) h h' e

theorem iterate_pos {inv : (Nat → K) → (Nat → K) → Prop} {T : Nat → Nat → K} {k : Nat} {b : Nat → K} {N : Nat} {x : Nat → K}
    (h : Iterate inv T k b N x) : 1 ≤ N := by cases h <;> omega

/-- The iterates are determined: there is at most one `x_N`. -/
theorem iterate_unique {S : Nat → Nat → K} {precs : List (Prec K)} {r kf k : Nat} (hg : Prec.Good r S kf precs k) {trans : Bool}
    {T : Nat → Nat → K} {b : Nat → K} : ∀ {N : Nat} {x y : Nat → K}, Iterate (Inv S precs k trans) T k b N x →
    Iterate (Inv S precs k trans) T k b N y → ∀ i, i < k → x i = y i := by
  intro N x y h
  induction h generalizing y with
  | first h =>
    intro h'
    cases h' with
    | first h' => exact inv_unique hg h h' (fun _ _ => rfl)
    | next h1 _ _ => exact absurd (iterate_pos h1) (by omega)
  | @next j x d z h1 h2 h3 ih =>
    intro h'
    cases h' with
    | first h' => exact absurd (iterate_pos h1) (by omega)
    | @next _ x' d' _ h1' h2' h3' =>
      have e := ih h1'
      have ed := inv_unique hg h2 h2' fun i hi => by
        rw [mulVec_congr' e i]
      exact fun i hi => by rw [h3 i hi, h3' i hi, e i hi, ed i hi]

section
variable (junk : Nat → K) (h : HIF K) (r : Nat) (S : Nat → Nat → K) (kf k : Nat) (hg : Prec.Good r S kf h.precs k)
  (hr : Ready h) (trans : Bool) (hn : (if trans then h.nspTran else h.nsp) = none) (hcols : h.ncols = k) (hk : 0 < k)
  (A : Operator K) (T : Nat → Nat → K) (hA : OpOK A k T)
include hg hr hn hcols hk hA

/-- C31: after `N` iterations (`N = 0` counts as one), fixed-count refinement returns the `N`-th iterate
`x_1 = M^{-1} b`, `x_{j+1} = x_j + M^{-1} (b - A x_j)`; no call goes out of range. -/
theorem C31_iterate (b x : Buf K) (hb : b.size = k) (hx : x.size = k) (N : Nat) :
    ∃ h' y, hifir junk A b N x trans r h = (h', .ok y) ∧ y.size = k ∧
      Iterate (Inv S h.precs k trans) (if trans then herm T else T) k b.get (max N 1) y.get := by
  change Does (hifir junk A b N x trans r) h fun _ y => y.size = k ∧
    Iterate (Inv S h.precs k trans) (if trans then herm T else T) k b.get (max N 1) y.get
  unfold hifir
  split
  · rename_i hN
    refine (solve_does (junk := junk) hg hr trans hn b x hb hx).mono ?_
    rintro h' y ⟨-, s, a⟩
    rw [show max N 1 = 1 by omega]
    exact ⟨s, .first a⟩
  rename_i hN
  rw [does_bind, does_read, if_neg (by omega), does_bind, does_lift]
  refine (fillRange_runs (Nat.zero_le _) (le_refl _) (fun _ => 0) fun i _ _ => by rw [runs_pure]).mono ?_
  rintro x0 ⟨s0, l0⟩
  rw [does_bind]
  have hs0 : x0.size = k := by omega
  let I : Nat → HIF K → Buf K × Buf K × Buf K → Prop := fun i h' s =>
    (∃ w, h' = { h with work := w } ∧ Ready h') ∧ s.1.size = k ∧ s.2.1.size = k ∧ s.2.2.size = k ∧
      (i = 0 → ∀ j, j < k → s.1.get j = 0) ∧
      (0 < i → Iterate (Inv S h.precs k trans) (if trans then herm T else T) k b.get i s.1.get)
  have loop := HM.loop_does (irStep junk A b trans r) I N 0 h (x0, ⟨h.ncols, junk⟩, ⟨h.ncols, junk⟩) ?_ ?_
  · refine loop.mono ?_
    rintro h' s ⟨-, s1, -, -, -, hI⟩
    rw [does_pure, show max N 1 = 0 + N by omega]
    exact ⟨s1, hI (by omega)⟩
  · refine ⟨⟨h.work, rfl, hr⟩, hs0, hcols, hcols, fun _ j hj => ?_, fun hh => absurd hh (by omega)⟩
    rw [l0 j, if_pos (by omega)]
  · rintro i h' ⟨x, xk, rr⟩ - - ⟨⟨w, rfl, hr'⟩, s1, s2, s3, hz, hI⟩
    simp only at s1 s2 s3 hz hI
    unfold irStep
    rw [does_bind, does_lift]
    simp only
    refine (fillRange_runs (Nat.zero_le _) (by omega) x.get fun j _ hj => by
      rw [runs_rd]; exact ⟨hj, rfl⟩).mono ?_
    rintro xk' ⟨s2', l2⟩
    have l2' : ∀ j, j < k → xk'.get j = x.get j := fun j hj => by rw [l2, if_pos (by omega)]
    rw [does_bind, does_lift]
    have res : Runs (irResidual A b trans (i == 0) xk' x) fun x' => x'.size = k ∧ ∀ j, j < k →
        x'.get j = if i = 0 then b.get j else b.get j - mulVec k (if trans then herm T else T) x.get j := by
      unfold irResidual
      by_cases hi : i = 0
      · simp only [hi, beq_self_eq_true, Bool.not_true, Bool.false_eq_true, if_false, if_true]
        refine (fillRange_runs (Nat.zero_le _) (by omega) b.get fun j _ hj => by rw [runs_rd]; exact ⟨hj, rfl⟩).mono ?_
        rintro x' ⟨s, l⟩
        exact ⟨by omega, fun j hj => by rw [l, if_pos (by omega)]⟩
      · have hb' : (i == 0) = false := by simp [hi]
        simp only [hb', Bool.not_false, if_true, if_neg hi]
        rw [runs_bind]
        refine (hA trans xk' x (by omega) s1).mono ?_
        rintro z ⟨sz, lz⟩
        refine (updRange_runs (Nat.zero_le _) (by omega) (fun j => b.get j - z.get j) fun j _ hj => ?_).mono ?_
        · rw [runs_bind, runs_rd]; exact ⟨hj, by rw [runs_pure]⟩
        · rintro x' ⟨s, l⟩
          exact ⟨by omega, fun j hj => by rw [l, if_pos (by omega), lz j hj, mulVec_congr' l2' j]⟩
    refine res.mono ?_
    rintro x' ⟨sx', lx'⟩
    rw [does_bind]
    refine (solve_does (junk := junk) (h := { h with work := w }) hg hr' trans hn x' rr sx' s3).mono ?_
    rintro h'' rr' ⟨⟨w', hw', rfl⟩, sr, ar⟩
    rw [does_bind, does_lift]
    refine (fillRange_runs (Nat.zero_le _) (by omega) (fun j => rr'.get j + xk'.get j) fun j _ hj => ?_).mono ?_
    · rw [runs_bind, runs_rd]
      refine ⟨by omega, ?_⟩
      rw [runs_bind, runs_rd]
      exact ⟨by omega, by rw [runs_pure]⟩
    rintro x'' ⟨sx'', lx''⟩
    rw [does_pure]
    refine ⟨⟨w', rfl, Or.inr hw'⟩, by show x''.size = k; omega, by show xk'.size = k; omega, sr, fun hh => by omega, fun _ => ?_⟩
    show Iterate _ _ k b.get (i + 1) x''.get
    have lx : ∀ j, j < k → x''.get j = rr'.get j + x.get j := fun j hj => by rw [lx'', if_pos (by omega), l2' j hj]
    by_cases hi : i = 0
    · subst hi
      refine .first ?_
      refine inv_congr hg (trans := trans) ar (fun j hj => ?_) fun j hj => ?_
      · rw [lx j hj, hz rfl j hj, add_zero]
      · rw [lx' j hj, if_pos rfl]
    · refine .next (hI (by omega)) (d := rr'.get) ?_ fun j hj => by rw [lx j hj, add_comm]
      refine inv_congr hg (trans := trans) ar (fun _ _ => rfl) fun j hj => ?_
      rw [lx' j hj, if_neg hi]

/-- C31 (exactness): if the preconditioner inverts `A` exactly and `A x⋆ = b`, refinement returns `x⋆`, for every `N`. -/
theorem C31_exact (ht : trans = false) (hM : ∀ x c, Inv S h.precs k false x c → ∀ i, i < k → mulVec k T x i = c i)
    (hinj : Injective k T) (xs : Nat → K) (b x : Buf K) (hb : b.size = k) (hx : x.size = k)
    (hxs : ∀ i, i < k → mulVec k T xs i = b.get i) (N : Nat) :
    ∃ h' y, hifir junk A b N x trans r h = (h', .ok y) ∧ ∀ i, i < k → y.get i = xs i := by
  obtain ⟨h', y, e, s, a⟩ := C31_iterate junk h r S kf k hg hr trans hn hcols hk A T hA b x hb hx N
  refine ⟨h', y, e, hinj _ _ fun i hi => ?_⟩
  rw [hxs i hi]
  subst ht
  simp only [Bool.false_eq_true, if_false] at a
  have key : ∀ {N : Nat} {y : Nat → K}, Iterate (Inv S h.precs k false) T k b.get N y → ∀ i, i < k → mulVec k T y i = b.get i := by
    intro N y a
    induction a with
    | first h => exact hM _ _ h
    | next h1 h2 h3 ih =>
      intro i hi
      rw [mulVec_congr' h3 i, Prec.mulVec_add_fun, hM _ _ h2 i hi]
      ring
  exact key a i hi

/-- C31 (error recursion): with `A x⋆ = b` and `e_N = x⋆ - x_N` for the returned vectors `x_N`, consecutive errors satisfy
`M (e_N - e_{N+1}) = A e_N`, that is `e_{N+1} = (I - M^{-1} A) e_N`. -/
theorem C31_error_recursion (xs : Nat → K) (b x : Buf K) (hb : b.size = k) (hx : x.size = k)
    (hxs : ∀ i, i < k → mulVec k (if trans then herm T else T) xs i = b.get i) (N : Nat) (hN : 1 ≤ N) :
    ∃ h₁ y₁ h₂ y₂, hifir junk A b N x trans r h = (h₁, .ok y₁) ∧ hifir junk A b (N + 1) x trans r h = (h₂, .ok y₂) ∧
      Inv S h.precs k trans (fun i => (xs i - y₁.get i) - (xs i - y₂.get i))
        (mulVec k (if trans then herm T else T) fun i => xs i - y₁.get i) := by
  obtain ⟨h₁, y₁, e₁, s₁, a₁⟩ := C31_iterate junk h r S kf k hg hr trans hn hcols hk A T hA b x hb hx N
  obtain ⟨h₂, y₂, e₂, s₂, a₂⟩ := C31_iterate junk h r S kf k hg hr trans hn hcols hk A T hA b x hb hx (N + 1)
  refine ⟨h₁, y₁, h₂, y₂, e₁, e₂, ?_⟩
  rw [show max N 1 = N by omega] at a₁
  rw [show max (N + 1) 1 = N + 1 by omega] at a₂
  generalize hn2 : N + 1 = n2 at a₂
  cases a₂ with
  | first h => omega
  | @next j x' d _ h1 h2 h3 =>
    obtain rfl : j = N := by omega
    have e := iterate_unique hg a₁ h1
    refine inv_congr hg h2 (fun i hi => ?_) fun i hi => ?_
    · rw [h3 i hi, e i hi]; ring
    · rw [mulVec_congr' (fun i hi => (e i hi).symm) i, ← hxs i hi]
      have : (fun i => xs i - y₁.get i) = fun i => xs i + (-1) * y₁.get i := by funext j; ring
      rw [this, Prec.mulVec_add_fun]
      have e2 : ∀ u : Nat → K, mulVec k (if trans then herm T else T) (fun j => (-1) * u j) i =
          - mulVec k (if trans then herm T else T) u i := by
        intro u
        unfold mulVec
        rw [← sum_neg_distrib]
        exact sum_congr rfl fun _ _ => by ring
      rw [e2]
      ring

section bounded
variable {R : Type _} [LinearOrder R] [Zero R] [Div R] (norm : Buf K → R)

/-- The residual norm of `x`, relative to `bnorm`, is `ρ`: `ρ = norm(b - A x) / bnorm`. -/
def RelRes (norm : Buf K → R) (T : Nat → Nat → K) (k : Nat) (b : Nat → K) (bnorm : R) (x : Nat → K) (ρ : R) : Prop :=
  ∃ v : Buf K, v.size = k ∧ (∀ i, i < k → v.get i = b i - mulVec k T x i) ∧ ρ = norm v / bnorm

/-- What the bounded refinement promises about its answer `(y, iterations, flag)` when allowed `N` iterations. -/
structure Truthful (S : Nat → Nat → K) (precs : List (Prec K)) (k : Nat) (trans : Bool) (T : Nat → Nat → K) (b : Nat → K)
    (norm : Buf K → R) (bnorm β₀ β₁ : R) (N : Nat) (y : Nat → K) (iters : Nat) (flag : Int) : Prop where
  /-- at least one and at most `N` iterations -/
  pos : 1 ≤ iters
  le : iters ≤ N
  /-- the answer is the fixed-count iterate -/
  iterate : Iterate (Inv S precs k trans) T k b iters y
  flag_range : flag = 0 ∨ flag = 1 ∨ flag = -1
  /-- flag 0: the residual of the answer meets the lower bound -/
  zero : flag = 0 → ∃ ρ, RelRes norm T k b bnorm y ρ ∧ ρ ≤ β₀
  /-- flag 1: the residual of the answer exceeds both bounds -/
  one : flag = 1 → ∃ ρ, RelRes norm T k b bnorm y ρ ∧ β₀ < ρ ∧ β₁ < ρ
  /-- flag -1: all iterations were used -/
  minus : flag = -1 → iters = N
  /-- it did not stop late: every earlier iterate had its residual strictly between the bounds -/
  early : ∀ j, 1 ≤ j → j < iters → ∃ x ρ, Iterate (Inv S precs k trans) T k b j x ∧ RelRes norm T k b bnorm x ρ ∧ β₀ < ρ ∧ ρ ≤ β₁

theorem irbUpdate_does (b : Buf K) (hb : b.size = k) (x xk rr : Buf K) (hx : x.size = k) (hxk : xk.size = k) (hrr : rr.size = k) :
    Does (irbUpdate junk b trans r (x, xk, rr)) h fun h' u => (∃ w, Prec.workSpace h.precs ≤ w.size ∧ h' = { h with work := w }) ∧
      u.1.size = k ∧ u.2.size = k ∧ Inv S h.precs k trans u.2.get rr.get ∧ ∀ j, j < k → u.1.get j = x.get j + u.2.get j := by
  unfold irbUpdate
  rw [does_bind]
  refine (solve_does (junk := junk) hg hr trans hn rr xk hrr hxk).mono ?_
  rintro h' xk' ⟨hw, s, a⟩
  rw [does_bind, does_lift]
  refine (updRange_runs (Nat.zero_le _) (by show b.size ≤ x.size; omega) (fun j => x.get j + xk'.get j) fun j _ hj => ?_).mono ?_
  · rw [runs_bind, runs_rd]
    exact ⟨by omega, by rw [runs_pure]⟩
  rintro x' ⟨s', l'⟩
  rw [does_pure]
  exact ⟨hw, by show x'.size = k; rw [s']; exact hx, s, a, fun j hj => by show x'.get j = _; rw [l', if_pos (by omega)]⟩

omit hg hr hn hcols hk in
theorem irbResidual_runs (b : Buf K) (hb : b.size = k) (x xk rr : Buf K) (hx : x.size = k) (hxk : xk.size = k) (hrr : rr.size = k) :
    Runs (irbResidual A b trans x xk rr) fun v => v.1.size = k ∧ v.2.size = k ∧
      ∀ j, j < k → v.2.get j = b.get j - mulVec k (if trans then herm T else T) x.get j := by
  unfold irbResidual
  rw [runs_bind]
  refine (hA trans x xk hx hxk).mono ?_
  rintro z ⟨sz, lz⟩
  rw [runs_bind]
  refine (fillRange_runs (Nat.zero_le _) (by omega) (fun j => b.get j - z.get j) fun j _ hj => ?_).mono ?_
  · rw [runs_bind, runs_rd]
    refine ⟨hj, ?_⟩
    rw [runs_bind, runs_rd]
    exact ⟨by omega, by rw [runs_pure]⟩
  rintro rr' ⟨s', l'⟩
  rw [runs_pure]
  exact ⟨sz, by show rr'.size = k; omega, fun j hj => by show rr'.get j = _; rw [l', if_pos (by omega), lz j hj]⟩

theorem irbLoop_does (b : Buf K) (hb : b.size = k) (bnorm β₀ β₁ : R) (N : Nat) : ∀ (fuel iters : Nat), iters + fuel + 1 = N →
    ∀ (h' : HIF K), (∃ w, h' = { h with work := w } ∧ Ready h') → ∀ (x xk rr : Buf K), x.size = k → xk.size = k → rr.size = k →
    (iters = 0 → (∀ j, j < k → x.get j = 0) ∧ ∀ j, j < k → rr.get j = b.get j) →
    (0 < iters → Iterate (Inv S h.precs k trans) (if trans then herm T else T) k b.get iters x.get ∧
      ∀ j, j < k → rr.get j = b.get j - mulVec k (if trans then herm T else T) x.get j) →
    (∀ j, 1 ≤ j → j < iters + 1 → ∃ x ρ, Iterate (Inv S h.precs k trans) (if trans then herm T else T) k b.get j x ∧
      RelRes norm (if trans then herm T else T) k b.get bnorm x ρ ∧ β₀ < ρ ∧ ρ ≤ β₁) →
    Does (irbLoop junk A b norm bnorm β₀ β₁ trans r fuel iters (x, xk, rr)) h' fun _ o => o.1.size = k ∧
      Truthful S h.precs k trans (if trans then herm T else T) b.get norm bnorm β₀ β₁ N o.1.get o.2.1 o.2.2 := by
  have upd : ∀ (h' : HIF K), (∃ w, h' = { h with work := w } ∧ Ready h') → ∀ (iters : Nat) (x xk rr : Buf K), x.size = k →
      xk.size = k → rr.size = k →
      (iters = 0 → (∀ j, j < k → x.get j = 0) ∧ ∀ j, j < k → rr.get j = b.get j) →
      (0 < iters → Iterate (Inv S h.precs k trans) (if trans then herm T else T) k b.get iters x.get ∧
        ∀ j, j < k → rr.get j = b.get j - mulVec k (if trans then herm T else T) x.get j) →
      Does (irbUpdate junk b trans r (x, xk, rr)) h' fun h'' u => (∃ w, h'' = { h with work := w } ∧ Ready h'') ∧
        u.1.size = k ∧ u.2.size = k ∧
        Iterate (Inv S h.precs k trans) (if trans then herm T else T) k b.get (iters + 1) u.1.get := by
    rintro _ ⟨w, rfl, hr'⟩ iters x xk rr hx hxk hrr h0 h1
    refine (irbUpdate_does junk { h with work := w } r S kf k hg hr' trans hn hcols hk A T hA b hb x xk rr hx hxk hrr).mono ?_
    rintro _ ⟨x', xk'⟩ ⟨⟨w', hw', rfl⟩, s1, s2, a, l⟩
    refine ⟨⟨w', rfl, Or.inr hw'⟩, s1, s2, ?_⟩
    rcases Nat.eq_zero_or_pos iters with c | c
    · subst c
      refine .first (inv_congr hg a (fun j hj => ?_) (h0 rfl).2)
      rw [l j hj, (h0 rfl).1 j hj, zero_add]
    · exact .next (h1 c).1 (inv_congr hg a (fun _ _ => rfl) (h1 c).2) l
  intro fuel
  induction fuel with
  | zero =>
    intro iters hN h' hh x xk rr hx hxk hrr h0 h1 he
    unfold irbLoop
    rw [does_bind]
    refine (upd h' hh iters x xk rr hx hxk hrr h0 h1).mono ?_
    rintro h'' ⟨x', xk'⟩ ⟨-, s1, s2, it⟩
    rw [does_pure]
    refine ⟨s1, ?_⟩
    constructor
    · show 1 ≤ iters + 1; omega
    · show iters + 1 ≤ N; omega
    · exact it
    · exact Or.inr (Or.inr rfl)
    · intro hh; exact absurd (show (-1 : Int) = 0 from hh) (by decide)
    · intro hh; exact absurd (show (-1 : Int) = 1 from hh) (by decide)
    · intro _; show iters + 1 = N; omega
    · exact he
  | succ fuel ih =>
    intro iters hN h' hh x xk rr hx hxk hrr h0 h1 he
    unfold irbLoop
    rw [does_bind]
    refine (upd h' hh iters x xk rr hx hxk hrr h0 h1).mono ?_
    rintro h'' ⟨x', xk'⟩ ⟨hh2, s1, s2, it⟩
    rw [does_bind, does_lift]
    simp only at s1 s2 it
    refine (irbResidual_runs k trans A T hA b hb x' xk' rr s1 s2 hrr).mono ?_
    rintro ⟨xk2, rr2⟩ ⟨t1, t2, t3⟩
    simp only at t1 t2 t3 ⊢
    have rel : RelRes norm (if trans then herm T else T) k b.get bnorm x'.get (norm rr2 / bnorm) := ⟨rr2, t2, t3, rfl⟩
    split
    · rename_i c
      rw [does_pure]
      refine ⟨s1, ⟨by show 1 ≤ iters + 1; omega, by show iters + 1 ≤ N; omega, it, Or.inl rfl, fun _ => ⟨_, rel, c⟩, ?_, ?_, he⟩⟩
      · intro hh; exact absurd (show (0 : Int) = 1 from hh) (by decide)
      · intro hh; exact absurd (show (0 : Int) = -1 from hh) (by decide)
    rename_i c
    split
    · rename_i c2
      rw [does_pure]
      refine ⟨s1, ⟨by show 1 ≤ iters + 1; omega, by show iters + 1 ≤ N; omega, it, Or.inr (Or.inl rfl), ?_,
        fun _ => ⟨_, rel, not_le.1 c, c2⟩, ?_, he⟩⟩
      · intro hh; exact absurd (show (1 : Int) = 0 from hh) (by decide)
      · intro hh; exact absurd (show (1 : Int) = -1 from hh) (by decide)
    rename_i c2
    refine ih (iters + 1) (by omega) h'' hh2 x' xk2 rr2 s1 t1 t2 (fun hh => by omega) (fun _ => ⟨it, t3⟩) ?_
    intro j hj1 hj2
    rcases Nat.lt_or_ge j (iters + 1) with c3 | c3
    · exact he j hj1 c3
    · obtain rfl : j = iters + 1 := by omega
      exact ⟨_, _, it, rel, not_le.1 c, not_lt.1 c2⟩

/-- C32: the bounded refinement with `N ≥ 2` and a right-hand side of nonzero norm reports truthfully: see `Truthful`.
Quantified over every norm routine, every bounds, every matrix. -/
theorem C32_truthful (b x : Buf K) (hb : b.size = k) (hx : x.size = k) (N : Nat) (hN : 2 ≤ N) (β₀ β₁ : R) (hnz : norm b ≠ 0) :
    ∃ h' y iters flag, hifirBounded junk A norm b N β₀ β₁ x trans r h = (h', .ok (y, iters, flag)) ∧ y.size = k ∧
      Truthful S h.precs k trans (if trans then herm T else T) b.get norm (norm b) β₀ β₁ N y.get iters flag := by
  have run : Does (hifirBounded junk A norm b N β₀ β₁ x trans r) h fun _ o => o.1.size = k ∧
      Truthful S h.precs k trans (if trans then herm T else T) b.get norm (norm b) β₀ β₁ N o.1.get o.2.1 o.2.2 := by
    unfold hifirBounded
    rw [if_neg (by omega), if_neg hnz, does_bind, does_read, if_neg (by omega), does_bind, does_lift]
    refine (fillRange_runs (Nat.zero_le _) (le_refl _) (fun _ => 0) fun i _ _ => by rw [runs_pure]).mono ?_
    rintro x0 ⟨s0, l0⟩
    rw [does_bind, does_lift]
    refine (fillRange_runs (Nat.zero_le _) (by show b.size ≤ h.ncols; omega) b.get fun j _ hj => by
      rw [runs_rd]; exact ⟨hj, rfl⟩).mono ?_
    rintro rr ⟨s1, l1⟩
    refine irbLoop_does junk h r S kf k hg hr trans hn hcols hk A T hA norm b hb (norm b) β₀ β₁ N (N - 1) 0 (by omega) h
      ⟨h.work, rfl, hr⟩ x0 ⟨h.ncols, junk⟩ rr (by omega) hcols (by rw [s1]; exact hcols) (fun _ => ⟨fun j hj => ?_, fun j hj => ?_⟩)
      (fun hh => absurd hh (by omega)) (fun j h1 h2 => by omega)
    · rw [l0, if_pos (by omega)]
    · rw [l1, if_pos (by omega)]
  obtain ⟨h', ⟨y, it, fl⟩, e, s, t⟩ := run
  exact ⟨h', y, it, fl, e, s, t⟩

/-- C32 (one iteration): with `N ≤ 1` the answer is the plain solve, reported as one iteration with flag -1. -/
theorem C32_single (b x : Buf K) (hb : b.size = k) (hx : x.size = k) (N : Nat) (hN : N ≤ 1) (β₀ β₁ : R) :
    ∃ h' y, hifirBounded junk A norm b N β₀ β₁ x trans r h = (h', .ok (y, 1, -1)) ∧ y.size = k ∧
      Inv S h.precs k trans y.get b.get := by
  have run : Does (hifirBounded junk A norm b N β₀ β₁ x trans r) h fun _ o => o.2 = (1, -1) ∧ o.1.size = k ∧
      Inv S h.precs k trans o.1.get b.get := by
    unfold hifirBounded
    rw [if_pos hN, does_bind]
    refine (solve_does (junk := junk) hg hr trans hn b x hb hx).mono ?_
    rintro h' y ⟨-, s, a⟩
    rw [does_pure]
    exact ⟨rfl, s, a⟩
  obtain ⟨h', ⟨y, _⟩, e, rfl, s, t⟩ := run
  exact ⟨h', y, e, s, t⟩

omit hg hr hn hcols hk hA in
/-- C32 (zero right-hand side): with `N ≥ 2` and a right-hand side of norm zero the answer is zero, after 0 iterations with
flag 0, whatever the state of the object, and the object is not changed. -/
theorem C32_zero_rhs (b x : Buf K) (N : Nat) (hN : 2 ≤ N) (β₀ β₁ : R) (hz : norm b = 0) :
    ∃ y, hifirBounded junk A norm b N β₀ β₁ x trans r h = (h, .ok (y, 0, 0)) ∧ y.size = x.size ∧
      ∀ i, i < y.size → y.get i = 0 := by
  obtain ⟨y, e, s, l⟩ := fillRange_runs (K := K) (Nat.zero_le _) (le_refl x.size) (fun _ => 0) fun i _ _ => by
    rw [runs_pure]
  refine ⟨y, ?_, s, fun i hi => by rw [l, if_pos (by omega)]⟩
  unfold hifirBounded
  rw [if_neg (by omega), if_pos hz, HM.bind_ok (h' := h) (a := y)]
  · rfl
  · show (h, _) = _
    rw [e]

end bounded
end

/-! ## Non-vacuity -/

namespace Ex
open Hif.Ex

/-- A 3×3 matrix. -/
def A3 : CS ℚ := mk 3 3 [0, 2, 4, 5] [0, 1, 1, 2, 0] [2, 1, 3, 1, 5]

/-- The object of C27's example and the operator of this matrix meet the hypotheses of C31 and C32. -/
example : Prec.Good 0 (fun _ _ => (7 : ℚ)) 1 (HIF.mk [P1, P2] ⟨0, fun _ => (0 : ℚ)⟩ none none (fun _ => 0) 3 3).precs 3 ∧
    Ready (HIF.mk [P1, P2] ⟨0, fun _ => (0 : ℚ)⟩ none none (fun _ => 0) 3 3) ∧
    OpOK (fun t x y => if t then A3.crsMultiplyT x y else A3.crsMultiplyNt x y) 3 A3.crs :=
  ⟨good, Or.inl rfl, opOK_crs A3 (by constructor <;> decide) 3 (by decide) rfl rfl⟩

/-- The matrix that the one-level preconditioner `P3` inverts. -/
def T3 (i j : Nat) : ℚ := if i = 0 then (if j = 0 then 8 else 30) else (if j = 0 then 1 else 4)

/-- The hypotheses of `C31_exact` can be met: `P3` inverts `T3`, which is injective. -/
theorem P3_inverts : (∀ x c, Inv (fun _ _ => (0 : ℚ)) [P3] 2 false x c → ∀ i, i < 2 → mulVec 2 T3 x i = c i) ∧ Injective 2 T3 := by
  constructor
  · intro x c h i hi
    have l00 : P3.L.ccs 0 0 = 0 := by decide +kernel
    have l01 : P3.L.ccs 0 1 = 0 := by decide +kernel
    have l10 : P3.L.ccs 1 0 = 4 := by decide +kernel
    have l11 : P3.L.ccs 1 1 = 0 := by decide +kernel
    have u00 : P3.U.ccs 0 0 = 0 := by decide +kernel
    have u01 : P3.U.ccs 0 1 = 2 := by decide +kernel
    have u10 : P3.U.ccs 1 0 = 0 := by decide +kernel
    have u11 : P3.U.ccs 1 1 = 0 := by decide +kernel
    have d0 : P3.d.get 0 = 2 := by decide +kernel
    have d1 : P3.d.get 1 = -1 := by decide +kernel
    have t0 : P3.t.get 0 = 1 := by decide +kernel
    have t1 : P3.t.get 1 = 1 / 2 := by decide +kernel
    have s0 : P3.s.get 0 = 1 := by decide +kernel
    have s1 : P3.s.get 1 = 2 := by decide +kernel
    have q0 : P3.q.get 0 = 0 := by decide +kernel
    have q1 : P3.q.get 1 = 1 := by decide +kernel
    have p0 : P3.p.get 0 = 1 := by decide +kernel
    have p1 : P3.p.get 1 = 0 := by decide +kernel
    have h1 := h.1 0 (by decide)
    have h2 := h.1 1 (by decide)
    simp only [Prec.toLevel, show P3.m = 2 from rfl, show P3.n = 2 from rfl, mulVec, ldu, sum_range_succ, sum_range_zero, l00, l01, l10,
      l11, u00, u01, u10, u11, d0, d1, t0, t1, s0, s1, q0, q1, p0, p1] at h1 h2
    norm_num at h1 h2
    obtain rfl | rfl : i = 0 ∨ i = 1 := by omega
    · simp [mulVec, sum_range_succ, T3]; linarith
    · simp [mulVec, sum_range_succ, T3]; linarith
  · intro x y h i hi
    have h0 := h 0 (by decide)
    have h1 := h 1 (by decide)
    simp [mulVec, sum_range_succ, T3] at h0 h1
    obtain rfl | rfl : i = 0 ∨ i = 1 := by omega
    · linarith
    · linarith

end Ex
end Hif.Props
