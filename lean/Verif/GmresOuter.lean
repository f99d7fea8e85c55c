import Verif.GmresLoop

set_option linter.unusedSectionVars false
set_option linter.unusedVariables false

/-!
# Runs of the GMRES drivers: the outer loop
-/

namespace Hif
namespace Gmres
open Finset Spec

universe u

variable {K : Type u} [Field K] [LinearOrder K] [IsStrictOrderedRing K]

/-- The residual `b - A x`. -/
def res (n : Nat) (A : Nat → Nat → K) (b x : Nat → K) (i : Nat) : K := b i - mulVec n A x i

/-- With an exact preconditioner nothing is left after the first inner iteration. -/
theorem done_exact {n r : Nat} {A : Nat → Nat → K} {f : (Nat → K) → Nat → K} {flex : Bool} {β : K} {r0 : Nat → K} {j : Nat} {s : St K K} {q z : Nat → Nat → K} {c sn : Nat → K}
    (hd : Done n r A f flex β r0 j s q z c sn) (hx : ∀ v : Nat → K, ∀ i, i < n → mulVec n A (f v) i = v i) : s.y.get (j + 1) = 0 := by
  set ev : Nat → K := fun i => s.y.get (j + 1) * tv q c sn (j + 1) i with hev
  have hz0 : ∀ i, i < n → r0 i = β * (s.Rm.get (0 + 0 * r) * pv q c sn 0 i) := by
    intro i hi
    have h1 := hd.cols.col 0 (by omega) i hi
    rw [Finset.sum_range_one] at h1
    rw [hd.base i hi, ← h1, mulVec_congr (hd.cols.hz 0 (by omega)) i, hx (q 0) i hi]
  have h2 : ∀ i, i < n → ev i = β * s.Rm.get (0 + 0 * r) * pv q c sn 0 i - ∑ l ∈ range (j + 1), s.y.get l * pv q c sn l i := by
    intro i hi
    have h3 := hd.res i hi
    rw [hz0 i hi] at h3
    rw [hev]
    linear_combination -h3
  have h4 : ip n ev ev = 0 := by
    have e1 : ip n ev ev = ip n (fun i => β * s.Rm.get (0 + 0 * r) * pv q c sn 0 i - ∑ l ∈ range (j + 1), s.y.get l * pv q c sn l i) ev := ip_congr h2 (fun _ _ => rfl)
    rw [e1, ip_sub, ip_smul, ip_sum, hd.pe 0 (by omega), mul_zero, zero_sub, neg_eq_zero]
    exact Finset.sum_eq_zero fun l hl => by rw [hd.pe l (by have := Finset.mem_range.1 hl; omega), mul_zero]
  rw [hd.ee] at h4
  exact mul_self_eq_zero.1 h4

/-- State between outer iterations. -/
structure Mid (e : Env K K) (n : Nat) (A : Nat → Nat → K) (b : Nat → K) (beta0 : K) (it : Nat) (s : St K K) : Prop where
  sz : Sz n e.restart s
  truth : (s.resid * beta0) * (s.resid * beta0) = ip n (res n A b s.x.get) (res n A b s.x.get)
  nonneg : 0 ≤ s.resid
  le1 : s.resid ≤ 1
  iter0 : s.flag = 0 → s.iter = 0 → ∀ i, i < n → s.x.get i = 0
  max : s.iter ≤ e.maxit
  mv : e.flex = true → s.numMv ≤ (2 ^ it - 1) * e.restart

/-- The step of one outer iteration from `x0` to `x`: the residual is minimal over `x0` plus the span of at least one and at most `restart` directions, the first of which is the
preconditioned (normalized) residual. -/
def Optimal (n restart : Nat) (A : Nat → Nat → K) (f : (Nat → K) → Nat → K) (b x0 x : Nat → K) : Prop :=
  ∃ (m : Nat) (z : Nat → Nat → K), 0 < m ∧ m ≤ restart ∧ (∃ β : K, β ≠ 0 ∧ ∀ i, i < n → z 0 i = f (fun r => res n A b x0 r / β) i) ∧
    ∀ d : Nat → K, ip n (res n A b x) (res n A b x) ≤ ip n (res n A b fun r => x0 r + ∑ k ∈ range m, d k * z k r) (res n A b fun r => x0 r + ∑ k ∈ range m, d k * z k r)

/-- Result of an outer iteration started in state `s`. -/
structure BodyPost (e : Env K K) (n : Nat) (A : Nat → Nat → K) (Mf : Nat → (Nat → K) → Nat → K) (b : Nat → K) (beta0 : K) (it : Nat) (s s' : St K K) : Prop where
  mid : Mid e n A b beta0 (it + 1) s'
  opt : Optimal n e.restart A (Mf (if e.flex then 2 ^ it else 1)) b s.x.get s'.x.get
  le : s'.resid ≤ s.resid
  one : (∀ v : Nat → K, ∀ i, i < n → mulVec n A (Mf (if e.flex then 2 ^ it else 1) v) i = v i) → s'.resid = 0 ∧
    (0 < e.stag → e.rtol < 1 → s.iter < e.maxit → s'.flag = 0 ∧ s'.iter = s.iter + 1 ∧ (e.flex = true → s'.numMv = s.numMv + 2 ^ it))
  flags : (s'.flag = 0 ∧ s.iter < s'.iter ∧ (s'.resid ≤ e.rtol ∨ s'.iter = s.iter + e.restart)) ∨ (s'.flag = 1 ∧ (0 < e.stag → e.rtol < 1 → e.rtol * e.stag < s'.resid)) ∨
    (s'.flag = 2 ∧ s'.iter = e.maxit)

theorem startResid_runs {e : Env K K} {sqrt : K → K} {n : Nat} {A : Nat → Nat → K} {Mf : Nat → (Nat → K) → Nat → K} (he : EnvOK e sqrt n A Mf)
    {b : Buf K} (hb : b.size = n) {s : St K K} (hsz : Sz n e.restart s) (h0 : s.iter = 0 → ∀ i, i < n → s.x.get i = 0) :
    Runs (startResid e n b s) (fun v => v.size = n ∧ ∀ i, i < n → v.get i = res n A b.get s.x.get i) := by
  unfold startResid
  by_cases h : s.iter ≠ 0
  · rw [if_pos h, runs_bind]
    refine (he.mul s.x s.v hsz.x hsz.v).mono fun v hv => ?_
    refine forUp_runs' (I := fun m u => u.size = n ∧ ∀ i, i < n → u.get i = if i < m then b.get i - v.get i else v.get i) (Nat.zero_le _) ⟨hv.1, fun i h => by simp⟩ ?_ ?_
    · intro m u _ hm ⟨g1, g2⟩
      simp only [runs_bind, runs_rd, runs_wr]
      refine ⟨by omega, by omega, by omega, g1, fun i hi => ?_⟩
      simp only [Buf.set_get]
      by_cases him : i = m
      · subst him
        rw [if_pos rfl, if_pos (by omega), g2 i hi, if_neg (by omega)]
      · rw [if_neg him, g2 i hi]
        by_cases h3 : i < m
        · rw [if_pos h3, if_pos (by omega)]
        · rw [if_neg h3, if_neg (by omega)]
    · intro u ⟨g1, g2⟩
      exact ⟨g1, fun i hi => by rw [g2 i hi, if_pos hi, hv.2 i hi]; rfl⟩
  · rw [if_neg h]
    push Not at h
    refine (copyTo_runs n b 0 s.v 0 (by omega) (by rw [hsz.v]; omega)).mono fun v hv => ⟨by rw [hv.1]; exact hsz.v, fun i hi => ?_⟩
    rw [hv.2, if_pos (by omega)]
    unfold res
    have e1 : mulVec n A s.x.get i = 0 := by
      unfold mulVec
      exact Finset.sum_eq_zero fun k hk => by rw [h0 h k (Finset.mem_range.1 hk), mul_zero]
    rw [e1, sub_zero]
    congr 1; omega

theorem body_runs {e : Env K K} {sqrt : K → K} {n : Nat} {A : Nat → Nat → K} {Mf : Nat → (Nat → K) → Nat → K} (he : EnvOK e sqrt n A Mf)
    (hlin : e.flex = false → LinOn n (Mf 1)) {b : Buf K} (hb : b.size = n) {beta0 : K} (hb0 : 0 < beta0) (hrt : 0 ≤ e.rtol) (hres : 0 < e.restart)
    {it : Nat} (h31 : e.flex = true → it < 31) {s : St K K} (hm : Mid e n A b.get beta0 it s) (hpos : 0 < s.resid) (hrs : e.rtol < 1 → e.rtol < s.resid) (hfl : s.flag = 0) :
    RunsB (¬ Reg n A (Mf (if e.flex then 2 ^ it else 1))) (outerBody e n b beta0 it s) (BodyPost e n A Mf b.get beta0 it s) := by
  set nirs := (if e.flex then 2 ^ it else 1) with hnirs
  have hn0 : 0 < nirs := by
    rw [hnirs]; split
    · exact Nat.two_pow_pos it
    · omega
  unfold outerBody
  refine Runs.bindB ((startResid_runs he hb hm.sz (hm.iter0 hfl)).mono fun v hv => ?_)
  rw [he.sc]
  obtain ⟨hβ0, hβ2⟩ := norm2_spec he.sq v
  set β := norm2 (realScal sqrt) v with hβ
  set r0 := res n A b.get s.x.get with hr0
  have hr0r : ip n v.get v.get = ip n r0 r0 := ip_congr hv.2 hv.2
  rw [hv.1, hr0r, ← hm.truth] at hβ2
  have hβe : β = s.resid * beta0 := by
    have h1 : 0 ≤ s.resid * beta0 := mul_nonneg hm.nonneg hb0.le
    exact (mul_self_inj hβ0 h1).1 hβ2
  have hβp : 0 < β := by rw [hβe]; exact mul_pos hpos hb0
  refine Runs.bindB ((runs_wr _ _ _ _).2 ⟨by rw [hm.sz.y]; omega, ?_⟩)
  rw [if_neg hβp.ne']
  have hrn : n ≤ n * e.restart := Nat.le_mul_of_pos_right n hres
  refine Runs.bindB ((setCol_runs e.nan n 0 v ((realScal sqrt).of β) s.Q hv.1 (by rw [hm.sz.Q]; omega)).mono fun Q hQ => ?_)
  have h31' : ¬ (e.flex = true ∧ 31 ≤ it) := fun h => by have := h31 h.1; omega
  rw [if_neg h31']
  set q : Nat → Nat → K := fun _ i => r0 i / β with hq
  have hQq : ∀ i, i < n → Q.get (i + 0 * n) = q 0 i := by
    intro i hi
    rw [hQ.2.1 i hi, if_neg (show (realScal sqrt).of β ≠ 0 from hβp.ne'), hv.2 i hi]; rfl
  set s0 : St K K := { s with v := v, y := s.y.set 0 ((realScal sqrt).of β), Q := Q } with hs0
  have hsz0 : Sz n e.restart s0 := ⟨hm.sz.x, hv.1, hm.sz.w, hm.sz.y, hm.sz.w2, by show Q.size = _; rw [hQ.1]; exact hm.sz.Q, hm.sz.Z, hm.sz.Rm, hm.sz.J⟩
  have hy0 : s0.y.get 0 = β := Buf.set_get_self _ _ _
  have hinv : Inv n e.restart A (Mf nirs) e.flex β r0 0 s0 q q (fun _ => 0) (fun _ => 0) := by
    refine ⟨⟨fun k h => by omega, fun _ k h => by omega, fun k h => by omega, fun k h => by omega⟩, ?_, ?_, ?_, fun k h => by omega, fun k h => by omega, fun k h => by omega, ?_⟩
    · intro i hi
      rw [hq, mul_div_cancel₀ _ hβp.ne']
    · intro k l hk hl
      obtain rfl : k = 0 := by omega
      obtain rfl : l = 0 := by omega
      rw [if_pos rfl]
      have e1 : q 0 = fun i => β⁻¹ * r0 i := by funext i; rw [hq]; exact div_eq_inv_mul _ _
      rw [e1, ip_smul, ip_comm, ip_smul, ← hm.truth, ← hβ2]
      field_simp
    · intro k hk i hi
      obtain rfl : k = 0 := by omega
      exact hQq i hi
    · intro i hi
      rw [Finset.range_zero, Finset.sum_empty, zero_add, hy0]
      show r0 i = β * (r0 i / β)
      rw [mul_div_cancel₀ _ hβp.ne']
  refine RunsB.bind ((innerLoop_runs he hn0 hb0 hrt e.restart 0 s0 q q (fun _ => 0) (fun _ => 0) (by omega) hres hsz0 hinv hfl hm.max hrs).mono fun p hp => ?_)
  obtain ⟨q', z', c', sn', hd⟩ := hp.done
  refine Runs.bindB ((backsolve_runs hp.hi hp.sz.Rm hp.sz.y (fun k hk => hd.cols.diag k (by omega))).mono fun y hy => ?_)
  refine .inl ((update_runs (z := z') (q := q') (nirs := nirs) (s := { p.1 with y := y }) he hp.hi
    ⟨hp.sz.x, hp.sz.v, hp.sz.w, hy.1, hp.sz.w2, hp.sz.Q, hp.sz.Z, hp.sz.Rm, hp.sz.J⟩ (fun h => ⟨hlin h, by rw [hnirs, h]; rfl⟩) hd.cols.hz hd.cols.Z hd.Q).mono fun s' hs' => ?_)
  obtain ⟨hsz', hx', hr', hi', hf', hn'⟩ := hs'
  have hx0 : p.1.x = s.x := hp.x
  set ev : Nat → K := fun i => p.1.y.get (p.2 + 1) * tv q' c' sn' (p.2 + 1) i with hev
  -- the images of the step
  have hstep : ∀ i, i < n → ∑ k ∈ range (p.2 + 1), y.get k * mulVec n A (z' k) i = ∑ l ∈ range (p.2 + 1), p.1.y.get l * pv q' c' sn' l i := by
    intro i hi
    have e1 : ∑ k ∈ range (p.2 + 1), y.get k * mulVec n A (z' k) i
        = ∑ k ∈ range (p.2 + 1), y.get k * ∑ l ∈ range (k + 1), p.1.Rm.get (l + k * e.restart) * pv q' c' sn' l i :=
      Finset.sum_congr rfl fun k hk => by rw [hd.cols.col k (Finset.mem_range.1 hk) i hi]
    rw [e1, tri_swap (p.2 + 1) (fun l k => p.1.Rm.get (l + k * e.restart)) y.get (fun l => pv q' c' sn' l i)]
    exact Finset.sum_congr rfl fun l hl => by rw [hy.2 l (by have := Finset.mem_range.1 hl; omega)]
  have hnew : ∀ i, i < n → res n A b.get s'.x.get i = ev i := by
    intro i hi
    have e1 : mulVec n A s'.x.get i = mulVec n A s.x.get i + ∑ k ∈ range (p.2 + 1), y.get k * mulVec n A (z' k) i := by
      rw [← mulVec_lin]
      refine mulVec_congr (fun r hr => ?_) i
      rw [hx' r hr]
      show p.1.x.get r + _ = _
      rw [hx0]
    unfold res
    rw [e1, hstep i hi]
    have := hd.res i hi
    rw [hr0] at this
    unfold res at this
    rw [hev]
    linear_combination this
  have hnorm : ip n (res n A b.get s'.x.get) (res n A b.get s'.x.get) = p.1.y.get (p.2 + 1) * p.1.y.get (p.2 + 1) := by
    rw [ip_congr hnew hnew]; exact hd.ee
  have hresid : s'.resid = |p.1.y.get (p.2 + 1)| / beta0 := by rw [hr']; exact hp.resid
  have hlt : s'.resid ≤ s.resid := by
    rw [hresid, div_le_iff₀ hb0, ← hβe, ← abs_of_pos hβp, ← hy0]
    exact hp.le
  have hiter : s'.iter = p.1.iter := hi'
  have hflag : s'.flag = p.1.flag := hf'
  refine ⟨⟨hsz', ?_, ?_, le_trans hlt hm.le1, ?_, ?_, ?_⟩, ?_, hlt, ?_, ?_⟩
  · rw [hnorm, hresid, div_mul_cancel₀ _ hb0.ne', abs_mul_abs_self]
  · rw [hresid]; exact div_nonneg (abs_nonneg _) hb0.le
  · intro h1 h0
    have hiter' : p.1.iter = s.iter + (p.2 - 0) + if p.1.flag = 0 then 1 else 0 := hp.iter
    rw [← hflag, if_pos h1, ← hiter] at hiter'
    omega
  · rw [hiter]; exact hp.max
  · intro hfx
    rw [hn']
    show p.1.numMv ≤ _
    rw [hp.numMv, if_pos hfx, hnirs, if_pos hfx]
    show s.numMv + (p.2 + 1 - 0) * 2 ^ it ≤ _
    have h1 := hm.mv hfx
    have h2 : (p.2 + 1 - 0) * 2 ^ it ≤ e.restart * 2 ^ it := Nat.mul_le_mul_right _ (by have := hp.hi; omega)
    have h3 : 0 < 2 ^ it := Nat.two_pow_pos it
    calc s.numMv + (p.2 + 1 - 0) * 2 ^ it ≤ (2 ^ it - 1) * e.restart + e.restart * 2 ^ it := Nat.add_le_add h1 h2
      _ = ((2 ^ it - 1) + 2 ^ it) * e.restart := by rw [Nat.add_mul, Nat.mul_comm e.restart]
      _ ≤ (2 ^ (it + 1) - 1) * e.restart := Nat.mul_le_mul_right _ (by rw [pow_succ]; omega)
  · refine ⟨p.2 + 1, z', by omega, by have := hp.hi; omega, ⟨β, hβp.ne', fun i hi => ?_⟩, fun d => ?_⟩
    · rw [hd.cols.hz 0 (by omega) i hi]
      refine he.ext nirs _ _ (fun r hr => ?_) i hi
      rw [← hr0, hd.base r hr, mul_div_cancel_left₀ _ hβp.ne']
    · have e1 : ∀ i, i < n → res n A b.get (fun r => s.x.get r + ∑ k ∈ range (p.2 + 1), d k * z' k r) i
          = ev i + ∑ l ∈ range (p.2 + 1), (p.1.y.get l - ∑ k ∈ Ico l (p.2 + 1), p.1.Rm.get (l + k * e.restart) * d k) * pv q' c' sn' l i := by
        intro i hi
        unfold res
        rw [mulVec_lin]
        have e2 : ∑ k ∈ range (p.2 + 1), d k * mulVec n A (z' k) i
            = ∑ k ∈ range (p.2 + 1), d k * ∑ l ∈ range (k + 1), p.1.Rm.get (l + k * e.restart) * pv q' c' sn' l i :=
          Finset.sum_congr rfl fun k hk => by rw [hd.cols.col k (Finset.mem_range.1 hk) i hi]
        rw [e2, tri_swap (p.2 + 1) (fun l k => p.1.Rm.get (l + k * e.restart)) d (fun l => pv q' c' sn' l i)]
        simp_rw [sub_mul, Finset.sum_sub_distrib]
        have := hd.res i hi
        rw [hr0] at this
        unfold res at this
        rw [hev]
        linear_combination this
      rw [ip_congr hnew hnew, ip_congr e1 e1]
      exact pyth (fun l hl => hd.pe l (by omega)) _
  · intro hx
    have hy1 := done_exact hd hx
    have hr0 : s'.resid = 0 := by rw [hresid, hy1, abs_zero, zero_div]
    refine ⟨hr0, fun hs1 hr1 hmx => ?_⟩
    have hp0 : p.2 = 0 := by
      by_contra h
      obtain ⟨s1, q1, z1, c1, sn1, hd1, hne⟩ := hp.cont (by omega)
      exact hne (done_exact hd1 hx)
    have hiter' : p.1.iter = s.iter + (p.2 - 0) + if p.1.flag = 0 then 1 else 0 := hp.iter
    have hf0 : p.1.flag = 0 := by
      rcases hp.flags with h | ⟨h1, h2⟩ | ⟨h1, h2⟩
      · exact h.1
      · have h3 := h2 hs1 hr1
        rw [← show s'.resid = p.1.resid from hr', hr0] at h3
        exact absurd h3 (not_lt.2 (mul_nonneg hrt hs1.le))
      · rw [h1, if_neg (by omega)] at hiter'
        omega
    rw [if_pos hf0] at hiter'
    refine ⟨by rw [hflag]; exact hf0, by rw [hiter]; omega, fun hfx => ?_⟩
    rw [hn']
    show p.1.numMv = _
    rw [hp.numMv, if_pos hfx, hnirs, if_pos hfx, hp0]
    show s.numMv + (0 + 1 - 0) * 2 ^ it = _
    omega
  · rw [hflag, hiter, hr']
    have hiter' : p.1.iter = s.iter + (p.2 - 0) + if p.1.flag = 0 then 1 else 0 := hp.iter
    rcases hp.flags with ⟨h1, h2⟩ | h | h
    · rw [if_pos h1] at hiter'
      refine .inl ⟨h1, by omega, h2.imp id (fun h => by omega)⟩
    · exact .inr (.inl h)
    · exact .inr (.inr h)

/-- How the driver ends. -/
def Ending (e : Env K K) (s : St K K) : Prop :=
  (s.flag = 0 ∧ (s.resid ≤ e.rtol ∨ s.iter = e.maxit)) ∨ (s.flag = 1 ∧ (0 < e.stag → e.rtol < 1 → e.rtol * e.stag < s.resid)) ∨ (s.flag = 2 ∧ s.iter = e.maxit)

theorem outer_runs {e : Env K K} {sqrt : K → K} {n : Nat} {A : Nat → Nat → K} {Mf : Nat → (Nat → K) → Nat → K} (he : EnvOK e sqrt n A Mf)
    (hlin : e.flex = false → LinOn n (Mf 1)) {b : Buf K} (hb : b.size = n) {beta0 : K} (hb0 : 0 < beta0) (hrt : 0 ≤ e.rtol) (hres : 0 < e.restart) (rem : Nat) :
    ∀ (it : Nat) (s : St K K), (e.flex = true → rem + it ≤ 31) → e.maxit ≤ (rem + it) * e.restart → Mid e n A b.get beta0 it s → 0 < s.resid →
    (e.rtol < 1 → e.rtol < s.resid) → s.flag = 0 → s.iter = it * e.restart →
    RunsB (¬ ∀ k, 0 < k → Reg n A (Mf k)) (outer e n b beta0 rem it s) (fun s' => (∃ it', it' ≤ rem + it ∧ Mid e n A b.get beta0 it' s') ∧ s'.resid ≤ s.resid ∧ Ending e s') := by
  induction rem with
  | zero =>
    intro it s _ hN hm _ _ hfl hit
    refine .inl ((runs_pure _ _).2 ⟨⟨it, by omega, hm⟩, le_refl _, .inl ⟨hfl, .inr ?_⟩⟩)
    have := hm.max
    rw [zero_add] at hN
    omega
  | succ rem ih =>
    intro it s h31 hN hm hpos hrs hfl hit
    unfold outer
    have hb1 := body_runs he hlin hb hb0 hrt hres (it := it) (fun h => by have := h31 h; omega) hm hpos hrs hfl
    have hk : 0 < (if e.flex then 2 ^ it else 1) := by
      split
      · exact Nat.two_pow_pos it
      · omega
    have hb2 : RunsB (¬ ∀ k, 0 < k → Reg n A (Mf k)) (outerBody e n b beta0 it s) (BodyPost e n A Mf b.get beta0 it s) :=
      hb1.imp id (fun h => ⟨fun hall => h.1 (hall _ hk), h.2⟩)
    refine RunsB.bind (hb2.mono fun s1 h1 => ?_)
    by_cases hstop : s1.resid ≤ e.rtol ∨ s1.flag ≠ 0
    · rw [if_pos hstop]
      refine .inl ((runs_pure _ _).2 ⟨⟨it + 1, by omega, h1.mid⟩, h1.le, ?_⟩)
      rcases h1.flags with ⟨f0, _, _⟩ | h | h
      · exact .inl ⟨f0, .inl (hstop.resolve_right (fun h => h f0))⟩
      · exact .inr (.inl h)
      · exact .inr (.inr h)
    · rw [if_neg hstop]
      push Not at hstop
      have hi1 : s1.iter = s.iter + e.restart := by
        rcases h1.flags with ⟨_, _, h | h⟩ | ⟨h, _⟩ | ⟨h, _⟩
        · exact absurd h (not_le.2 hstop.1)
        · exact h
        · omega
        · omega
      refine (ih (it + 1) s1 (fun h => by have := h31 h; omega) (by rw [show rem + (it + 1) = rem + 1 + it by omega]; exact hN) h1.mid (lt_of_le_of_lt hrt hstop.1)
        (fun _ => hstop.1) hstop.2 (by rw [hi1, hit, Nat.add_mul, one_mul])).mono fun s2 h2 => ?_
      obtain ⟨⟨it', h3, h4⟩, h5, h6⟩ := h2
      exact ⟨⟨it', by omega, h4⟩, le_trans h5 h1.le, h6⟩

/-- The outer loop with its first iteration exposed. -/
theorem outer_first {e : Env K K} {sqrt : K → K} {n : Nat} {A : Nat → Nat → K} {Mf : Nat → (Nat → K) → Nat → K} (he : EnvOK e sqrt n A Mf)
    (hlin : e.flex = false → LinOn n (Mf 1)) {b : Buf K} (hb : b.size = n) {beta0 : K} (hb0 : 0 < beta0) (hrt : 0 ≤ e.rtol) (hres : 0 < e.restart) {rem : Nat}
    {s : St K K} (h31 : e.flex = true → rem + 1 ≤ 31) (hN : e.maxit ≤ (rem + 1) * e.restart) (hm : Mid e n A b.get beta0 0 s) (hpos : 0 < s.resid)
    (hrs : e.rtol < 1 → e.rtol < s.resid) (hfl : s.flag = 0) (hit : s.iter = 0) :
    RunsB (¬ ∀ k, 0 < k → Reg n A (Mf k)) (outer e n b beta0 (rem + 1) 0 s) (fun s' => (∃ it', it' ≤ rem + 1 ∧ Mid e n A b.get beta0 it' s') ∧ Ending e s' ∧
      ∃ s1, BodyPost e n A Mf b.get beta0 0 s s1 ∧ s'.resid ≤ s1.resid ∧ (s1.resid = 0 → s' = s1)) := by
  unfold outer
  have hb1 := body_runs he hlin hb hb0 hrt hres (it := 0) (fun h => by have := h31 h; omega) hm hpos hrs hfl
  have hk : 0 < (if e.flex then 2 ^ 0 else 1) := by
    split
    · exact Nat.two_pow_pos 0
    · omega
  have hb2 : RunsB (¬ ∀ k, 0 < k → Reg n A (Mf k)) (outerBody e n b beta0 0 s) (BodyPost e n A Mf b.get beta0 0 s) :=
    hb1.imp id (fun h => ⟨fun hall => h.1 (hall _ hk), h.2⟩)
  refine RunsB.bind (hb2.mono fun s1 h1 => ?_)
  by_cases hstop : s1.resid ≤ e.rtol ∨ s1.flag ≠ 0
  · rw [if_pos hstop]
    refine .inl ((runs_pure _ _).2 ⟨⟨1, by omega, h1.mid⟩, ?_, s1, h1, le_refl _, fun _ => rfl⟩)
    rcases h1.flags with ⟨f0, _, _⟩ | h | h
    · exact .inl ⟨f0, .inl (hstop.resolve_right (fun h => h f0))⟩
    · exact .inr (.inl h)
    · exact .inr (.inr h)
  · rw [if_neg hstop]
    push Not at hstop
    have hi1 : s1.iter = s.iter + e.restart := by
      rcases h1.flags with ⟨_, _, h | h⟩ | ⟨h, _⟩ | ⟨h, _⟩
      · exact absurd h (not_le.2 hstop.1)
      · exact h
      · omega
      · omega
    refine (outer_runs he hlin hb hb0 hrt hres rem (0 + 1) s1 (fun h => by have := h31 h; omega) hN h1.mid (lt_of_le_of_lt hrt hstop.1)
      (fun _ => hstop.1) hstop.2 (by rw [hi1, hit]; omega)).mono fun s2 h2 => ?_
    obtain ⟨⟨it', h3, h4⟩, h5, h6⟩ := h2
    exact ⟨⟨it', by omega, h4⟩, h6, s1, h1, h5, fun h0 => absurd (lt_of_le_of_lt hrt hstop.1) (by rw [h0]; exact lt_irrefl _)⟩

end Gmres
end Hif
