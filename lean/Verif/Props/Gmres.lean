import Verif.GmresOuter
import Mathlib.Algebra.QuadraticAlgebra.Basic
import Mathlib.Algebra.Order.Field.Rat
import Mathlib.Tactic.NormNum

set_option linter.unusedSectionVars false
set_option linter.unusedVariables false

/-!
# C78: the Krylov drivers are truthful

`ip n a b` is the inner product of the first `n` entries, `res n A b x` the residual `b - A x`.  `EnvOK e sqrt n A Mf` says: the scalars are real, `sqrt` is the square root, `A.multiply`
computes the product with `A`, and the preconditioner computes *some* function `Mf k` of its argument (`k` is the number of refinement rounds; it need not be linear).
-/

namespace Hif
namespace Props
open Hif Gmres Finset Spec

universe u

variable {K : Type u} [Field K] [LinearOrder K] [IsStrictOrderedRing K]

/-- What the caller learns from `x`, the flag and the number of iterations. -/
structure KrylovOK (n : Nat) (A : Nat → Nat → K) (b : Nat → K) (rtol stag : K) (maxit : Nat) (x : Buf K) (flag iter : Nat) : Prop where
  size : x.size = n
  bound : iter ≤ maxit
  flags : flag = 0 ∨ flag = 1 ∨ flag = 2
  /-- the result is never worse than the starting point `x = 0` -/
  mono : ip n (res n A b x.get) (res n A b x.get) ≤ ip n b b
  /-- `SUCCESS`: the tolerance is met, or all iterations are used -/
  success : flag = 0 → ip n (res n A b x.get) (res n A b x.get) ≤ rtol * rtol * ip n b b ∨ iter = maxit
  /-- `STAGNATED`: the tolerance is missed (up to the factor `stag`) -/
  stagnated : flag = 1 → 0 < stag → rtol < 1 → rtol * stag * (rtol * stag) * ip n b b < ip n (res n A b x.get) (res n A b x.get)
  /-- `DIVERGED`: all iterations are used -/
  limit : flag = 2 → iter = maxit

variable {e : Env K K} {sqrt : K → K} {A : Nat → Nat → K} {Mf : Nat → (Nat → K) → Nat → K} {b : Buf K}

theorem init_mid (hrestart : 0 < e.restart) (junk : Nat → K) (hs : SqrtOK sqrt) (h0 : norm2 (realScal sqrt) b ≠ 0) :
    Mid e b.size A b.get (norm2 (realScal sqrt) b) 0 (St.init junk b.size e.restart) := by
  obtain ⟨h1, h2⟩ := norm2_spec hs b
  have hr : ∀ i, i < b.size → res b.size A b.get (fun _ => 0) i = b.get i := by
    intro i hi
    unfold res mulVec
    rw [Finset.sum_eq_zero (fun k _ => mul_zero _), sub_zero]
  refine ⟨⟨rfl, rfl, rfl, rfl, rfl, rfl, rfl, rfl, rfl⟩, ?_, zero_le_one, le_refl _, fun _ _ i _ => rfl, Nat.zero_le _, fun _ => Nat.zero_le _⟩
  show (1 * _) * (1 * _) = ip b.size (res b.size A b.get fun _ => 0) (res b.size A b.get fun _ => 0)
  rw [one_mul, h2, ip_congr hr hr]

theorem krylov_of {N : Nat} {s : St K K} {beta0 : K} (hb : 0 < beta0) (hb2 : beta0 * beta0 = ip b.size b.get b.get) (hrt : 0 ≤ e.rtol)
    (hm : Mid e b.size A b.get beta0 N s) (hE : Ending e s) : KrylovOK b.size A b.get e.rtol e.stag e.maxit s.x s.flag s.iter := by
  have ht := hm.truth
  have e1 : ip b.size (res b.size A b.get s.x.get) (res b.size A b.get s.x.get) = s.resid * s.resid * ip b.size b.get b.get := by rw [← ht, ← hb2]; ring
  have hbb : 0 < ip b.size b.get b.get := by rw [← hb2]; exact mul_pos hb hb
  have key : s.flag = 0 ∨ s.flag = 1 ∨ s.flag = 2 := by
    rcases hE with h | h | h
    · exact .inl h.1
    · exact .inr (.inl h.1)
    · exact .inr (.inr h.1)
  refine ⟨hm.sz.x, hm.max, key, ?_, ?_, ?_, ?_⟩
  · rw [e1]
    calc s.resid * s.resid * ip b.size b.get b.get ≤ 1 * 1 * ip b.size b.get b.get :=
          mul_le_mul_of_nonneg_right (mul_le_mul hm.le1 hm.le1 hm.nonneg zero_le_one) hbb.le
      _ = _ := by ring
  · intro hf
    rcases hE with ⟨_, h⟩ | ⟨h, _⟩ | ⟨h, _⟩
    · refine h.imp (fun h => ?_) id
      rw [e1]
      exact mul_le_mul_of_nonneg_right (mul_le_mul h h hm.nonneg hrt) hbb.le
    · omega
    · omega
  · intro hf hs hr
    rcases hE with ⟨h, _⟩ | ⟨_, h⟩ | ⟨h, _⟩
    · omega
    · rw [e1]
      have h3 := h hs hr
      have h4 : 0 ≤ e.rtol * e.stag := mul_nonneg hrt hs.le
      exact mul_lt_mul_of_pos_right (mul_self_lt_mul_self h4 h3) hbb
    · omega
  · intro hf
    rcases hE with ⟨h, _⟩ | ⟨h, _⟩ | ⟨_, h⟩
    · omega
    · omega
    · exact h

/-- The whole driver, with what its first outer iteration achieved. -/
theorem run_runs (he : EnvOK e sqrt b.size A Mf) (hlin : e.flex = false → LinOn b.size (Mf 1)) (hrt : 0 ≤ e.rtol) (hres : 0 < e.restart)
    (h31 : e.flex = true → e.maxit ≤ 31 * e.restart) (junk : Nat → K) :
    RunsB (¬ ∀ k, 0 < k → Reg b.size A (Mf k)) (run e junk b) (fun s => KrylovOK b.size A b.get e.rtol e.stag e.maxit s.x s.flag s.iter ∧
      (e.flex = true → s.numMv ≤ (2 ^ ((e.maxit + e.restart - 1) / e.restart) - 1) * e.restart) ∧
      (0 < e.maxit → (∃ x1 : Nat → K, Optimal b.size e.restart A (Mf 1) b.get (fun _ => 0) x1 ∧
          ip b.size (res b.size A b.get s.x.get) (res b.size A b.get s.x.get) ≤ ip b.size (res b.size A b.get x1) (res b.size A b.get x1)) ∨ ∀ i, i < b.size → b.get i = 0) ∧
      ((∀ v : Nat → K, ∀ i, i < b.size → mulVec b.size A (Mf 1 v) i = v i) → 0 < e.maxit → 0 < e.stag → e.rtol < 1 → (∃ i, i < b.size ∧ b.get i ≠ 0) →
        s.flag = 0 ∧ s.iter = 1 ∧ (e.flex = true → s.numMv = 1) ∧ ∀ i, i < b.size → mulVec b.size A s.x.get i = b.get i)) := by
  obtain ⟨h1, h2⟩ := norm2_spec he.sq b
  unfold run
  rw [he.sc]
  by_cases h0 : norm2 (realScal sqrt) b = 0
  · rw [if_pos h0]
    rw [h0, mul_zero] at h2
    have hz := ip_self_zero h2.symm
    have hr : ∀ i, i < b.size → res b.size A b.get (fun _ => 0) i = 0 := by
      intro i hi
      unfold res mulVec
      rw [Finset.sum_eq_zero (fun k _ => mul_zero _), sub_zero]; exact hz i hi
    have hr0 : ip b.size (res b.size A b.get fun _ => 0) (res b.size A b.get fun _ => 0) = 0 :=
      Finset.sum_eq_zero fun i hi => by rw [hr i (Finset.mem_range.1 hi), mul_zero]
    refine .inl ((runs_pure _ _).2 ⟨⟨rfl, Nat.zero_le _, .inl rfl, ?_, fun _ => .inl ?_, fun h => absurd (show (0 : Nat) = 1 from h) (by decide), fun h => absurd (show (0 : Nat) = 2 from h) (by decide)⟩, fun _ => Nat.zero_le _,
      fun _ => .inr hz, fun _ _ _ _ ⟨i, hi, hne⟩ => absurd (hz i hi) hne⟩)
    · show ip b.size (res b.size A b.get fun _ => 0) (res b.size A b.get fun _ => 0) ≤ _
      rw [hr0, ← h2]
    · show ip b.size (res b.size A b.get fun _ => 0) (res b.size A b.get fun _ => 0) ≤ _
      rw [hr0, ← h2, mul_zero]
  · rw [if_neg h0, if_neg (by omega)]
    have hb0 : 0 < norm2 (realScal sqrt) b := lt_of_le_of_ne h1 (Ne.symm h0)
    have hmid := init_mid (e := e) (A := A) hres junk he.sq h0
    rcases Nat.eq_zero_or_pos e.maxit with hmx | hmx
    · have hN : (e.maxit + e.restart - 1) / e.restart = 0 := by rw [hmx]; exact Nat.div_eq_of_lt (by omega)
      rw [hN]
      refine .inl ((runs_pure _ _).2 ⟨krylov_of hb0 h2 hrt hmid (.inl ⟨rfl, .inr hmx.symm⟩), fun _ => Nat.zero_le _, fun h => by omega, fun _ h => by omega⟩)
    · have hdm := Nat.div_add_mod (e.maxit + e.restart - 1) e.restart
      have hml := Nat.mod_lt (e.maxit + e.restart - 1) hres
      set N := (e.maxit + e.restart - 1) / e.restart with hNdef
      have hNr : e.maxit ≤ N * e.restart := by rw [Nat.mul_comm]; omega
      obtain ⟨rem, hrem⟩ : ∃ rem, N = rem + 1 := ⟨N - 1, by
        have : 0 < N := Nat.pos_of_ne_zero (fun h => by rw [h, zero_mul] at hNr; omega)
        omega⟩
      rw [hrem] at hNr ⊢
      have h31' : e.flex = true → rem + 1 ≤ 31 := by
        intro hfx
        rw [← hrem, hNdef, Nat.div_le_iff_le_mul_add_pred hres]
        have := h31 hfx
        rw [Nat.mul_comm e.restart]
        omega
      refine (outer_first he hlin rfl hb0 hrt hres h31' hNr hmid (show (0 : K) < 1 from zero_lt_one) (fun h => h) rfl rfl).mono fun s hs => ?_
      obtain ⟨⟨it', hit, hm⟩, hE, s1, hb1, hle, heq⟩ := hs
      have hopt := hb1.opt
      have hM1 : Mf (if e.flex then 2 ^ 0 else 1) = Mf 1 := by cases e.flex <;> rfl
      rw [hM1] at hopt
      refine ⟨krylov_of hb0 h2 hrt hm hE, fun hfx => ?_, fun _ => .inl (⟨s1.x.get, hopt, ?_⟩), ?_⟩
      · refine le_trans (hm.mv hfx) (Nat.mul_le_mul_right _ ?_)
        have := Nat.pow_le_pow_right (show 0 < 2 by omega) hit
        omega
      · rw [← hm.truth, ← hb1.mid.truth]
        have := mul_le_mul_of_nonneg_right hle hb0.le
        exact mul_self_le_mul_self (mul_nonneg hm.nonneg hb0.le) this
      · intro hx hmx hst hrt1 _
        obtain ⟨g1, g2⟩ := hb1.one (by rw [hM1]; exact hx)
        obtain ⟨g3, g4, g5⟩ := g2 hst hrt1 hmx
        have hss := heq g1
        subst hss
        have ht := hm.truth
        rw [g1, zero_mul, zero_mul] at ht
        refine ⟨g3, g4, fun hfx => g5 hfx, fun i hi => ?_⟩
        have := ip_self_zero ht.symm i hi
        unfold res at this
        exact (sub_eq_zero.1 this).symm

/-- C78 (FGMRES): for every real matrix, right-hand side and preconditioner, every restart length and iteration limit, whatever the memory of the workspace contains: the driver reads and
writes inside its arrays and either returns a result that satisfies `KrylovOK`, with at most `(2^r - 1) restart` products in the refinements (`r` outer iterations), or it breaks down
(`0/0`), which cannot happen if the preconditioner is linear and `A` times it injective. -/
theorem C78_fgmres (he : EnvOK { e with flex := true } sqrt b.size A Mf) (hrt : 0 ≤ e.rtol) (hres : 0 < e.restart) (h31 : e.maxit ≤ 31 * e.restart) (junk : Nat → K) :
    RunsB (¬ ∀ k, 0 < k → Reg b.size A (Mf k)) (fgmres e junk b) (fun r => KrylovOK b.size A b.get e.rtol e.stag e.maxit r.1 r.2.1 r.2.2.1 ∧
      r.2.2.2 ≤ (2 ^ ((e.maxit + e.restart - 1) / e.restart) - 1) * e.restart) := by
  unfold fgmres
  exact RunsB.bind ((run_runs he (fun h => by cases h) hrt hres (fun _ => h31) junk).mono fun s hs => .inl ((runs_pure _ _).2 ⟨hs.1, hs.2.1 rfl⟩))

/-- C78 (GMRES): the same for a linear preconditioner. -/
theorem C78_gmres (he : EnvOK { e with flex := false } sqrt b.size A Mf) (hlin : LinOn b.size (Mf 1)) (hrt : 0 ≤ e.rtol) (hres : 0 < e.restart) (junk : Nat → K) :
    RunsB (¬ ∀ k, 0 < k → Reg b.size A (Mf k)) (gmres e junk b) (fun r => KrylovOK b.size A b.get e.rtol e.stag e.maxit r.1 r.2.1 r.2.2) := by
  unfold gmres
  exact RunsB.bind ((run_runs he (fun _ => hlin) hrt hres (fun h => by cases h) junk).mono fun s hs => .inl ((runs_pure _ _).2 hs.1))

/-- C78 (no breakdown): with a linear preconditioner for which `A` times it is injective both drivers return. -/
theorem C78_total (hreg : ∀ k, 0 < k → Reg b.size A (Mf k)) (hrt : 0 ≤ e.rtol) (hres : 0 < e.restart) (junk : Nat → K) :
    (EnvOK { e with flex := true } sqrt b.size A Mf → e.maxit ≤ 31 * e.restart → Runs (fgmres e junk b) (fun r => KrylovOK b.size A b.get e.rtol e.stag e.maxit r.1 r.2.1 r.2.2.1)) ∧
    (EnvOK { e with flex := false } sqrt b.size A Mf → Runs (gmres e junk b) (fun r => KrylovOK b.size A b.get e.rtol e.stag e.maxit r.1 r.2.1 r.2.2)) := by
  refine ⟨fun he h31 => ?_, fun he => ?_⟩
  · exact ((C78_fgmres he hrt hres h31 junk).resolve_right (fun h => h.1 hreg)).mono fun r h => h.1
  · exact (C78_gmres he (hreg 1 (by omega)).1 hrt hres junk).resolve_right (fun h => h.1 hreg)

/-- One outer iteration is at least as good as the best step along the preconditioned right-hand side. -/
theorem optimal_step {n restart : Nat} {f : (Nat → K) → Nat → K} (hf : LinOn n f) (hx : Ext n f) {b x : Nat → K} (h : Optimal n restart A f b (fun _ => 0) x) (α : K) :
    ip n (res n A b x) (res n A b x) ≤ ip n (fun i => b i - α * mulVec n A (f b) i) (fun i => b i - α * mulVec n A (f b) i) := by
  obtain ⟨m, z, hm, -, ⟨β, hβ, hz⟩, hd⟩ := h
  have hb : ∀ i, i < n → res n A b (fun _ => 0) i / β = β⁻¹ * b i + 0 * b i := by
    intro i _
    unfold res mulVec
    rw [Finset.sum_eq_zero (fun k _ => mul_zero _), sub_zero, div_eq_inv_mul]; ring
  have hz' : ∀ i, i < n → β * z 0 i = f b i := by
    intro i hi
    rw [hz i hi, hx _ _ hb i hi, hf β⁻¹ 0 b b i hi, zero_mul, add_zero, mul_inv_cancel_left₀ hβ]
  refine le_trans (hd (fun k => if k = 0 then α * β else 0)) (le_of_eq ?_)
  have e1 : ∀ i, i < n → res n A b (fun r => (0 : K) + ∑ k ∈ range m, (if k = 0 then α * β else 0) * z k r) i = b i - α * mulVec n A (f b) i := by
    intro i hi
    unfold res
    have e2 : ∀ r, r < n → (0 : K) + ∑ k ∈ range m, (if k = 0 then α * β else 0) * z k r = (0 : K) + ∑ k ∈ range 1, α * f b r := by
      intro r hr
      congr 1
      rw [Finset.sum_range_one, Finset.sum_eq_single 0 (fun k _ hk => by rw [if_neg hk, zero_mul]) (fun h => absurd (Finset.mem_range.2 hm) h), if_pos rfl, mul_assoc, hz' r hr]
    rw [mulVec_congr e2, mulVec_lin 1 (fun _ => 0) (fun _ => α) (fun _ => f b)]
    have e3 : mulVec n A (fun _ => (0 : K)) i = 0 := by unfold mulVec; exact Finset.sum_eq_zero fun k _ => mul_zero _
    rw [e3, zero_add, Finset.sum_range_one]
  exact ip_congr e1 e1

/-- C78 (progress): with a linear preconditioner `M` and at least one iteration, FGMRES and GMRES are at least as good as the best step along the preconditioned right-hand side,
`‖b - A x‖ ≤ min_α ‖b - α A M b‖`. -/
theorem C78_progress (hlin : LinOn b.size (Mf 1)) (hrt : 0 ≤ e.rtol) (hres : 0 < e.restart) (hmx : 0 < e.maxit) (junk : Nat → K) :
    (EnvOK { e with flex := true } sqrt b.size A Mf → e.maxit ≤ 31 * e.restart → RunsB (¬ ∀ k, 0 < k → Reg b.size A (Mf k)) (fgmres e junk b) (fun r => ∀ α,
      ip b.size (res b.size A b.get r.1.get) (res b.size A b.get r.1.get) ≤
        ip b.size (fun i => b.get i - α * mulVec b.size A (Mf 1 b.get) i) (fun i => b.get i - α * mulVec b.size A (Mf 1 b.get) i))) ∧
    (EnvOK { e with flex := false } sqrt b.size A Mf → RunsB (¬ ∀ k, 0 < k → Reg b.size A (Mf k)) (gmres e junk b) (fun r => ∀ α,
      ip b.size (res b.size A b.get r.1.get) (res b.size A b.get r.1.get) ≤
        ip b.size (fun i => b.get i - α * mulVec b.size A (Mf 1 b.get) i) (fun i => b.get i - α * mulVec b.size A (Mf 1 b.get) i))) := by
  have key : ∀ {e' : Env K K} {s : St K K}, EnvOK e' sqrt b.size A Mf → KrylovOK b.size A b.get e'.rtol e'.stag e'.maxit s.x s.flag s.iter →
      ((∃ x1 : Nat → K, Optimal b.size e'.restart A (Mf 1) b.get (fun _ => 0) x1 ∧
          ip b.size (res b.size A b.get s.x.get) (res b.size A b.get s.x.get) ≤ ip b.size (res b.size A b.get x1) (res b.size A b.get x1)) ∨ ∀ i, i < b.size → b.get i = 0) →
      ∀ α, ip b.size (res b.size A b.get s.x.get) (res b.size A b.get s.x.get) ≤
        ip b.size (fun i => b.get i - α * mulVec b.size A (Mf 1 b.get) i) (fun i => b.get i - α * mulVec b.size A (Mf 1 b.get) i) := by
    intro e' s he hK h α
    rcases h with ⟨x1, h, hle⟩ | h
    · exact le_trans hle (optimal_step hlin (he.ext 1) h α)
    · refine le_trans hK.mono ?_
      have : ip b.size b.get b.get = 0 := Finset.sum_eq_zero fun i hi => by rw [h i (Finset.mem_range.1 hi), mul_zero]
      rw [this]
      exact ip_self_nonneg _ _
  refine ⟨fun he h31 => ?_, fun he => ?_⟩
  · unfold fgmres
    exact RunsB.bind ((run_runs he (fun h => by cases h) hrt hres (fun _ => h31) junk).mono fun s hs => .inl ((runs_pure _ _).2 (key he hs.1 (hs.2.2.1 hmx))))
  · unfold gmres
    exact RunsB.bind ((run_runs he (fun _ => hlin) hrt hres (fun h => by cases h) junk).mono fun s hs => .inl ((runs_pure _ _).2 (key he hs.1 (hs.2.2.1 hmx))))

/-- C78 (exact preconditioner): if the preconditioner inverts `A`, both drivers return the exact solution with `SUCCESS` after one iteration. -/
theorem C78_exact (hx : ∀ v : Nat → K, ∀ i, i < b.size → mulVec b.size A (Mf 1 v) i = v i) (hreg : ∀ k, 0 < k → Reg b.size A (Mf k)) (hrt : 0 ≤ e.rtol) (hrt1 : e.rtol < 1)
    (hst : 0 < e.stag) (hres : 0 < e.restart) (hmx : 0 < e.maxit) (hb : ∃ i, i < b.size ∧ b.get i ≠ 0) (junk : Nat → K) :
    (EnvOK { e with flex := true } sqrt b.size A Mf → e.maxit ≤ 31 * e.restart →
      Runs (fgmres e junk b) (fun r => r.2 = (0, 1, 1) ∧ r.1.size = b.size ∧ ∀ i, i < b.size → mulVec b.size A r.1.get i = b.get i)) ∧
    (EnvOK { e with flex := false } sqrt b.size A Mf →
      Runs (gmres e junk b) (fun r => r.2 = (0, 1) ∧ r.1.size = b.size ∧ ∀ i, i < b.size → mulVec b.size A r.1.get i = b.get i)) := by
  refine ⟨fun he h31 => ?_, fun he => ?_⟩
  · refine Or.resolve_right (?_ : RunsB (¬ ∀ k, 0 < k → Reg b.size A (Mf k)) _ _) (fun h => h.1 hreg)
    unfold fgmres
    refine RunsB.bind ((run_runs he (fun h => by cases h) hrt hres (fun _ => h31) junk).mono fun s hs => .inl ((runs_pure _ _).2 ?_))
    obtain ⟨g1, g2, g3, g4⟩ := hs.2.2.2 hx hmx hst hrt1 hb
    exact ⟨by rw [g1, g2, g3 rfl], hs.1.size, g4⟩
  · refine Or.resolve_right (?_ : RunsB (¬ ∀ k, 0 < k → Reg b.size A (Mf k)) _ _) (fun h => h.1 hreg)
    unfold gmres
    refine RunsB.bind ((run_runs he (fun _ => (hreg 1 (by omega)).1) hrt hres (fun h => by cases h) junk).mono fun s hs => .inl ((runs_pure _ _).2 ?_))
    obtain ⟨g1, g2, g3, g4⟩ := hs.2.2.2 hx hmx hst hrt1 hb
    exact ⟨by rw [g1, g2], hs.1.size, g4⟩

/-! ### witnesses -/

/-- Square roots of the numbers that occur below. -/
def wsqrt (x : ℚ) : ℚ := if x = 16 then 4 else if x = 25 then 5 else if x = 4 then 2 else if x = 9 then 3 else x

/-- The matrix `(3 0; 4 5)`. -/
def wmat (i j : Nat) : ℚ := if i = 0 then (if j = 0 then 3 else 0) else (if j = 0 then 4 else 5)

/-- A call with the identity as preconditioner, one iteration allowed, restart after one iteration, tolerance `1/10`. -/
def wenv (flex : Bool) (restart maxit : Nat) : Env ℚ ℚ :=
  { sc := realScal wsqrt, flex := flex, restart := restart, rtol := 1 / 10, maxit := maxit, stag := 1 - 1 / 100000000, nan := 7
    mul := fun x y => pure ⟨2, fun i => mulVec 2 wmat x.get i⟩, prec := fun _ v w => pure v }

/-- C78 (witness, discrepancy): if `maxit` is a multiple of `restart`, `SUCCESS` (0) is returned although the residual (`4/5` of `‖b‖`) is above the tolerance (`1/10`); with `maxit = 0`
it is returned with `x = 0`.  With `restart = 2` the limit of one iteration is reported as `DIVERGED` (2) although the result, computed with a second step, is exact. -/
theorem C78_false_success :
    (fgmres (wenv true 1 1) (fun _ => 9) ⟨2, fun i => if i = 0 then 1 else 0⟩).toOption.map (fun r => (r.1.toList, r.2)) = some ([3 / 25, 0], 0, 1, 1) ∧
    res 2 wmat (fun i => if i = 0 then 1 else 0) (fun i => if i = 0 then 3 / 25 else 0) 0 = 16 / 25 ∧
    res 2 wmat (fun i => if i = 0 then 1 else 0) (fun i => if i = 0 then 3 / 25 else 0) 1 = - 12 / 25 ∧
    (fgmres (wenv true 1 0) (fun _ => 9) ⟨2, fun i => if i = 0 then 1 else 0⟩).toOption.map (fun r => (r.1.toList, r.2)) = some ([0, 0], 0, 0, 0) ∧
    (fgmres (wenv true 2 1) (fun _ => 9) ⟨2, fun i => if i = 0 then 1 else 0⟩).toOption.map (fun r => (r.1.toList, r.2)) = some ([1 / 3, - 4 / 15], 2, 1, 2) := by
  refine ⟨?_, ?_, ?_, ?_, ?_⟩ <;> decide +kernel

/-- The hypotheses of `C78_fgmres` on the operators are met in this example (with any true square root), and those of `C78_exact` by a diagonal matrix and its inverse. -/
example (sqrt : ℚ → ℚ) (hs : SqrtOK sqrt) : EnvOK { wenv true 2 2 with sc := realScal sqrt, flex := true } sqrt 2 wmat (fun _ v => v) :=
  ⟨rfl, hs, fun x y _ _ => (runs_pure _ _).2 ⟨rfl, fun _ _ => rfl⟩, fun k v w _ hv _ => (runs_pure _ _).2 ⟨hv, fun _ _ => rfl⟩, fun _ a b h => h⟩

example (k : Nat) (hk : 0 < k) : Reg 2 wmat ((fun _ v => v : Nat → (Nat → ℚ) → Nat → ℚ) k) := by
  refine ⟨fun α β a b i _ => rfl, fun v h i hi => ?_⟩
  have h0 := h 0 (by omega)
  have h1 := h 1 (by omega)
  simp only [mulVec, wmat, Finset.sum_range_succ, Finset.sum_range_zero] at h0 h1
  norm_num at h0 h1
  rcases (show i = 0 ∨ i = 1 by omega) with rfl | rfl
  · exact h0
  · rw [h0] at h1; simpa using h1

/-! Complex numbers with rational parts -/

instance : Fact (∀ r : ℚ, r ^ 2 ≠ (-1) + 0 * r) := ⟨fun r h => by
  have := sq_nonneg r
  rw [h] at this
  norm_num at this⟩

/-- The complex numbers with rational parts. -/
abbrev QI := QuadraticAlgebra ℚ (-1) 0

/-- The scalar functions of complex numbers, with the square roots that occur below. -/
def cscal : Scal QI ℚ :=
  { conj := fun z => ⟨z.re, -z.im⟩, re := fun z => z.re, of := fun x => ⟨x, 0⟩, abs := fun z => if z.im = 0 then |z.re| else wsqrt (z.re * z.re + z.im * z.im), sqrt := wsqrt
    csqrt := fun z => ⟨wsqrt z.re, 0⟩ }

/-- The `1 × 1` system `(2 + i) x = 1` with the identity as preconditioner and one iteration. -/
def cenv : Env QI ℚ :=
  { sc := cscal, flex := false, restart := 1, rtol := 1 / 10, maxit := 1, stag := 1 - 1 / 100000000, nan := 7
    mul := fun x y => pure ⟨1, fun i => (⟨2, 1⟩ : QI) * x.get i⟩, prec := fun _ v w => pure v }

/-- C78 (witness, discrepancy): for complex numbers the drivers are wrong, because the inner product conjugates its first argument while the Gram–Schmidt step subtracts the coefficient
times the second: on the `1 × 1` system `(2 + i) x = 1` one step of GMRES gives `x = (2 + i)/9` instead of the solution `(2 - i)/5`, and claims the residual `2/3`, while it is
`|6 - 4 i| / 9 = √52 / 9 > 2/3`. -/
theorem C78_complex :
    (run cenv (fun _ => 9) ⟨1, fun _ => 1⟩).toOption.map (fun s => (s.x.get 0, s.resid, s.flag, s.iter)) = some (⟨2 / 9, 1 / 9⟩, 2 / 3, 0, 1) ∧
    (1 : QI) - ⟨2, 1⟩ * ⟨2 / 9, 1 / 9⟩ = ⟨6 / 9, -4 / 9⟩ ∧ (2 / 3 : ℚ) * (2 / 3) < (6 / 9) * (6 / 9) + (4 / 9) * (4 / 9) ∧ (⟨2, 1⟩ : QI) * ⟨2 / 5, -1 / 5⟩ = 1 := by
  refine ⟨?_, ?_, ?_, ?_⟩ <;> decide +kernel

/-! ### norms and inner products for complex values -/

section norms
variable {C R : Type u} [Field C] [Field R] [LinearOrder R] [IsStrictOrderedRing R]

/-- The scalar functions of complex numbers over `R`. -/
structure ScalOK (sc : Gmres.Scal C R) : Prop where
  abs_nonneg : ∀ x, 0 ≤ sc.abs x
  abs_zero : ∀ x, sc.abs x = 0 → x = 0
  re_conj : ∀ x, sc.re (sc.conj x * x) = sc.abs x * sc.abs x
  abs_of : ∀ x c, sc.abs (x * sc.of c) = sc.abs x * |c|
  sqrt : ∀ r, 0 ≤ r → 0 ≤ sc.sqrt r ∧ sc.sqrt r * sc.sqrt r = r

/-- C78 (norms): for real and complex vectors `norm2` is the Euclidean norm, `norm2_sq` its square, and `inner(v, q)` is the sum of `conj(v_i) q_i`. -/
theorem C78_norms {sc : Gmres.Scal C R} (h : ScalOK sc) (v : Buf C) :
    (0 ≤ Gmres.norm2 sc v ∧ Gmres.norm2 sc v * Gmres.norm2 sc v = ∑ i ∈ Finset.range v.size, sc.abs (v.get i) * sc.abs (v.get i)) ∧
    Gmres.norm2Sq sc v = ∑ i ∈ Finset.range v.size, sc.abs (v.get i) * sc.abs (v.get i) ∧
    ∀ (Q : Buf C) (off : Nat), off + v.size ≤ Q.size → Runs (Gmres.inner sc v Q off) fun t => t = ∑ i ∈ Finset.range v.size, sc.conj (v.get i) * Q.get (off + i) := by
  refine ⟨?_, Finset.sum_congr rfl fun i _ => h.re_conj _, fun Q off hQ => ?_⟩
  · have ge : ∀ n i, i < n → sc.abs (v.get i) ≤ Gmres.maxMag sc v.get n := by
      intro n
      induction n with
      | zero => intro i h; omega
      | succ n ih =>
        intro i hi
        simp only [Gmres.maxMag]
        rcases Nat.lt_or_ge i n with h' | h'
        · exact le_max_of_le_left (ih i h')
        · obtain rfl : i = n := by omega
          exact le_max_right _ _
    have nn : ∀ n, 0 ≤ Gmres.maxMag sc v.get n := by
      intro n
      induction n with
      | zero => exact le_refl _
      | succ n ih => exact le_max_of_le_left ih
    unfold Gmres.norm2
    simp only
    split
    · rename_i h0
      have z : ∀ i, i ∈ Finset.range v.size → sc.abs (v.get i) = 0 := fun i hi =>
        le_antisymm (h0 ▸ ge v.size i (Finset.mem_range.1 hi)) (h.abs_nonneg _)
      rw [Finset.sum_eq_zero z, Finset.sum_eq_zero fun i hi => by rw [z i hi, mul_zero]]
      simp
    · rename_i h0
      set m := Gmres.maxMag sc v.get v.size with hm
      have hpos : 0 < m := lt_of_le_of_ne (nn _) (Ne.symm h0)
      have e : ∀ i, sc.re (sc.conj (v.get i * sc.of (1 / m)) * (v.get i * sc.of (1 / m))) = sc.abs (v.get i) * sc.abs (v.get i) * (1 / m * (1 / m)) := fun i => by
        rw [h.re_conj, h.abs_of, abs_of_pos (one_div_pos.2 hpos)]; ring
      rw [Finset.sum_congr rfl fun i _ => e i]
      have hS : 0 ≤ ∑ i ∈ Finset.range v.size, sc.abs (v.get i) * sc.abs (v.get i) * (1 / m * (1 / m)) :=
        Finset.sum_nonneg fun i _ => mul_nonneg (mul_self_nonneg _) (mul_self_nonneg _)
      obtain ⟨h1, h2⟩ := h.sqrt _ hS
      refine ⟨mul_nonneg (nn _) h1, ?_⟩
      have e1 : ∀ t : R, m * t * (m * t) = m * m * (t * t) := fun t => by ring
      rw [e1, h2, Finset.mul_sum]
      refine Finset.sum_congr rfl fun i _ => ?_
      field_simp
  · unfold Gmres.inner
    refine forUp_runs' (I := fun k t => t = ∑ i ∈ Finset.range k, sc.conj (v.get i) * Q.get (off + i)) (Nat.zero_le _) (by simp) ?_ (fun s h => h)
    intro k t _ hk ht
    simp only [runs_bind, runs_rd, runs_pure]
    exact ⟨hk, by omega, by rw [ht, Finset.sum_range_succ]⟩

/-- Non-vacuity: the real numbers meet the contract. -/
example (sqrt : R → R) (hs : Gmres.SqrtOK sqrt) : ScalOK (Gmres.realScal sqrt) :=
  ⟨fun x => _root_.abs_nonneg x, fun x h => abs_eq_zero.1 h, fun x => (abs_mul_abs_self x).symm, fun x c => abs_mul x c, hs⟩

end norms

end Props
end Hif
