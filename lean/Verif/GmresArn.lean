import Verif.GmresStep

set_option linter.unusedSectionVars false
set_option linter.unusedVariables false

/-!
# Runs of the GMRES drivers: one inner iteration keeps the invariant
-/

namespace Hif
namespace Gmres
open Finset Spec

universe u

variable {K : Type u} [Field K] [LinearOrder K] [IsStrictOrderedRing K]

/-- Effect of the new rotation. -/
structure NewRot (r j : Nat) (rho h vn : K) (s s' : St K K) : Prop where
  x : s'.x = s.x
  v : s'.v = s.v
  w : s'.w = s.w
  Q : s'.Q = s.Q
  Z : s'.Z = s.Z
  resid : s'.resid = s.resid
  iter : s'.iter = s.iter
  flag : s'.flag = s.flag
  numMv : s'.numMv = s.numMv
  Jsz : s'.J.size = s.J.size
  ysz : s'.y.size = s.y.size
  Rsz : s'.Rm.size = s.Rm.size
  wsz : s'.w2.size = s.w2.size
  Jj : s'.J.get j = h / rho
  Jr : s'.J.get (j + r) = vn / rho
  Jk : ∀ k, k < j → s'.J.get k = s.J.get k ∧ s'.J.get (k + r) = s.J.get (k + r)
  y1 : s'.y.get (j + 1) = -(vn / rho) * s.y.get j
  y0 : s'.y.get j = h / rho * s.y.get j
  yk : ∀ k, k < j → s'.y.get k = s.y.get k
  Rj : s'.Rm.get (j + j * r) = rho
  Rl : ∀ l, l < j → s'.Rm.get (l + j * r) = s.w2.get l
  Rk : ∀ l k, k < j → l < r → s'.Rm.get (l + k * r) = s.Rm.get (l + k * r)

theorem newRot_runs {sqrt : K → K} {r j : Nat} {vn2 vn : K} {s : St K K} (hj : j < r) (hy : s.y.size = r + 1) (hw : s.w2.size = r) (hR : s.Rm.size = r * r)
    (hJ : s.J.size = r * 2) (hrho : sqrt (s.w2.get j * s.w2.get j + vn2) ≠ 0) :
    Runs (newRot (realScal sqrt) r j vn2 vn s) (NewRot r j (sqrt (s.w2.get j * s.w2.get j + vn2)) (s.w2.get j) vn s) := by
  have hjr : j * r + r ≤ r * r := by
    have := Nat.mul_le_mul_right r (show j + 1 ≤ r by omega)
    rwa [Nat.add_mul, one_mul] at this
  unfold newRot
  simp only [runs_bind, runs_rd]
  refine ⟨by omega, ?_⟩
  show Runs (if sqrt (s.w2.get j * s.w2.get j + vn2) = 0 then _ else _) _
  rw [if_neg hrho]
  simp only [runs_bind, runs_rd, runs_wr, runs_pure, Buf.set_size]
  refine ⟨by omega, by omega, by omega, by omega, by omega, by omega, by omega, by omega, ?_⟩
  refine (copyTo_runs (j + 1) _ 0 s.Rm (j * r) (by rw [Buf.set_size]; omega) (by omega)).mono fun Rm hRm => ?_
  have hsq : (realScal sqrt).csqrt ((realScal sqrt).conj (s.w2.get j) * s.w2.get j + (realScal sqrt).of vn2) = sqrt (s.w2.get j * s.w2.get j + vn2) := rfl
  refine ⟨rfl, rfl, rfl, rfl, rfl, rfl, rfl, rfl, rfl, rfl, rfl, hRm.1, rfl, ?_, ?_, ?_, ?_, ?_, ?_, ?_, ?_, ?_⟩
  · simp only [Buf.set_get]
    rw [if_neg (by omega), if_pos trivial]; rfl
  · simp only [Buf.set_get, if_true]; rfl
  · intro k hk
    simp only [Buf.set_get]
    rw [if_neg (by omega), if_neg (by omega), if_neg (by omega), if_neg (by omega)]
    exact ⟨rfl, rfl⟩
  · simp only [Buf.set_get]
    rw [if_neg (by omega), if_pos trivial, if_pos trivial]; rfl
  · simp only [Buf.set_get]
    rw [if_pos trivial, if_neg (by omega), if_pos trivial]; rfl
  · intro k hk
    simp only [Buf.set_get]
    rw [if_neg (by omega), if_neg (by omega)]
  · show Rm.get (j + j * r) = _
    rw [hRm.2, if_pos (by omega), Buf.set_get, if_pos (by omega)]; rfl
  · intro l hl
    show Rm.get (l + j * r) = _
    rw [hRm.2, if_pos (by omega), Buf.set_get, if_neg (by omega)]
    congr 1; omega
  · intro l k hk hl
    have := Nat.mul_le_mul_right r (show k + 1 ≤ j by omega)
    rw [Nat.add_mul, one_mul] at this
    show Rm.get (l + k * r) = _
    rw [hRm.2, if_neg (by omega)]

theorem newRot_brk {sqrt : K → K} {r j : Nat} {vn2 vn : K} {s : St K K} (hj : j < r) (hw : s.w2.size = r)
    (hrho : sqrt (s.w2.get j * s.w2.get j + vn2) = 0) : newRot (realScal sqrt) r j vn2 vn s = .error brk := by
  unfold newRot
  have e1 : s.w2.rd j = pure (s.w2.get j) := by unfold Buf.rd; rw [if_pos (by omega)]
  rw [e1]
  show (if sqrt (s.w2.get j * s.w2.get j + vn2) = 0 then _ else _) = _
  rw [if_pos hrho]
  rfl

/-- Algebra of the new rotation. -/
theorem rot_alg {sqrt : K → K} (hs : SqrtOK sqrt) {h vn2 vn : K} (h0 : 0 ≤ vn2) (hvn : vn = sqrt vn2) :
    (sqrt (h * h + vn2) = 0 → h = 0 ∧ vn2 = 0) ∧
    (sqrt (h * h + vn2) ≠ 0 → (h / sqrt (h * h + vn2)) * (h / sqrt (h * h + vn2)) + (vn / sqrt (h * h + vn2)) * (vn / sqrt (h * h + vn2)) = 1) := by
  obtain ⟨h1, h2⟩ := hs (h * h + vn2) (add_nonneg (mul_self_nonneg h) h0)
  obtain ⟨h3, h4⟩ := hs vn2 h0
  constructor
  · intro hz
    rw [hz, mul_zero] at h2
    have hh := mul_self_nonneg h
    have e1 : h * h = 0 := le_antisymm (by rw [h2]; exact le_add_of_nonneg_right h0) hh
    exact ⟨mul_self_eq_zero.1 e1, by rw [e1, zero_add] at h2; exact h2.symm⟩
  · intro hz
    rw [hvn]
    set ρ := sqrt (h * h + vn2) with hρ
    rw [div_mul_div_comm, div_mul_div_comm, h4, ← add_div, h2, div_self]
    rw [← h2]; exact mul_ne_zero hz hz

/-- What an inner iteration leaves alone, and the bound on the new residual. -/
structure Kept (nirs : Nat) (flex : Bool) (j : Nat) (s s' : St K K) : Prop where
  x : s'.x = s.x
  resid : s'.resid = s.resid
  iter : s'.iter = s.iter
  flag : s'.flag = s.flag
  numMv : s'.numMv = if flex then s.numMv + nirs else s.numMv
  le : |s'.y.get (j + 1)| ≤ |s.y.get j|

theorem arnoldi_runs {e : Env K K} {sqrt : K → K} {n : Nat} {A : Nat → Nat → K} {Mf : Nat → (Nat → K) → Nat → K} (he : EnvOK e sqrt n A Mf)
    {nirs j : Nat} {s : St K K} {β : K} {r0 : Nat → K} {q z : Nat → Nat → K} {c sn : Nat → K} (hnirs : 0 < nirs) (hj : j < e.restart) (hsz : Sz n e.restart s)
    (hI : Inv n e.restart A (Mf nirs) e.flex β r0 j s q z c sn) :
    RunsB (¬ Reg n A (Mf nirs)) (arnoldi e n nirs j s) (fun s' => Sz n e.restart s' ∧ Kept nirs e.flex j s s' ∧
      ∃ q' z' : Nat → Nat → K, ∃ c' sn' : Nat → K, Done n e.restart A (Mf nirs) e.flex β r0 j s' q' z' c' sn' ∧
        (j + 1 < e.restart → s'.y.get (j + 1) ≠ 0 → Inv n e.restart A (Mf nirs) e.flex β r0 (j + 1) s' q' z' c' sn')) := by
  set r := e.restart with hr
  set f := Mf nirs with hf
  have hjr : j * n + n ≤ n * r := by
    have := Nat.mul_le_mul_right n (show j + 1 ≤ r by omega)
    rw [Nat.add_mul, one_mul, Nat.mul_comm r] at this
    exact this
  unfold arnoldi
  rw [he.sc]
  -- v := Q(:, j)
  refine Runs.bindB ((copyTo_runs n s.Q (j * n) s.v 0 (by rw [hsz.Q]; exact hjr) (by rw [hsz.v]; omega)).mono fun v hv => ?_)
  have hvq : ∀ i, i < n → v.get i = q j i := by
    intro i hi
    rw [hv.2, if_pos (by omega), ← hI.Q j (le_refl _) i hi]
    congr 1; omega
  -- w := M v
  refine Runs.bindB ((he.prec nirs v s.w hnirs (by rw [hv.1]; exact hsz.v) hsz.w).mono fun w hw => ?_)
  have hwf : ∀ i, i < n → w.get i = f (q j) i := fun i hi => by rw [hw.2 i hi]; exact he.ext nirs _ _ hvq i hi
  -- Z
  have hZ : Runs (if e.flex then copyTo w.size w 0 s.Z (j * n) else pure s.Z) (fun Z => Z.size = n * r ∧
      (e.flex = true → ∀ k, k ≤ j → ∀ i, i < n → Z.get (i + k * n) = if k = j then w.get i else s.Z.get (i + k * n))) := by
    cases e.flex
    · simp only [Bool.false_eq_true, if_false, runs_pure]
      exact ⟨hsz.Z, fun h => absurd h (by simp)⟩
    · simp only [if_true]
      refine (copyTo_runs w.size w 0 s.Z (j * n) (by omega) (by rw [hw.1, hsz.Z]; exact hjr)).mono fun Z hZ => ⟨by rw [hZ.1]; exact hsz.Z, fun _ k hk i hi => ?_⟩
      rw [hZ.2, hw.1]
      rcases Nat.lt_or_ge k j with h | h
      · have := Nat.mul_le_mul_right n (show k + 1 ≤ j by omega)
        rw [Nat.add_mul, one_mul] at this
        rw [if_neg (by omega), if_neg (by omega)]
      · obtain rfl : k = j := by omega
        rw [if_pos (by omega), if_pos rfl]
        congr 1; omega
  refine Runs.bindB (hZ.mono fun Z hZ => ?_)
  -- v := A w
  refine Runs.bindB ((he.mul w v hw.1 (by rw [hv.1]; exact hsz.v)).mono fun v0 hv0 => ?_)
  have hv0' : ∀ i, i < n → v0.get i = mulVec n A (f (q j)) i := fun i hi => by rw [hv0.2 i hi]; exact mulVec_congr hwf i
  -- Gram–Schmidt
  refine Runs.bindB ((mgs_runs (sqrt := sqrt) (w2 := s.w2) hv0.1 (by rw [hsz.w2]; exact hj) (by rw [hsz.Q]; omega) hI.orth hI.Q).mono fun p hp => ?_)
  obtain ⟨hp1, hp2, hp3, hp4⟩ := hp
  simp only [norm2Sq_eq, hp1]
  have hvn0 : 0 ≤ ip n p.1.get p.1.get := ip_self_nonneg _ _
  set vn2 := ip n p.1.get p.1.get with hvn2
  set vn := (realScal sqrt).sqrt vn2 with hvn
  have hvn' : vn = sqrt vn2 := rfl
  have hvv : vn * vn = vn2 := (he.sq vn2 hvn0).2
  -- Q(:, j+1)
  have hQ : Runs (if j + 1 < r then setCol e.nan n (j + 1) p.1 ((realScal sqrt).of vn) s.Q else pure s.Q) (fun Q => Q.size = n * r ∧
      (∀ k, k ≤ j → ∀ i, i < n → Q.get (i + k * n) = q k i) ∧
      (j + 1 < r → vn ≠ 0 → ∀ i, i < n → Q.get (i + (j + 1) * n) = p.1.get i / vn)) := by
    by_cases h1 : j + 1 < r
    · rw [if_pos h1]
      have := Nat.mul_le_mul_right n (show j + 1 + 1 ≤ r by omega)
      rw [Nat.add_mul (j + 1), one_mul, Nat.mul_comm r] at this
      refine (setCol_runs e.nan n (j + 1) p.1 _ s.Q hp1 (by rw [hsz.Q]; omega)).mono fun Q hQ => ⟨by rw [hQ.1]; exact hsz.Q, ?_, ?_⟩
      · intro k hk i hi
        rw [hQ.2.2 k i hi (by omega)]; exact hI.Q k hk i hi
      · intro _ hne i hi
        rw [hQ.2.1 i hi, if_neg (show (realScal sqrt).of vn ≠ 0 from hne)]; rfl
    · rw [if_neg h1, runs_pure]
      exact ⟨hsz.Q, hI.Q, fun h => absurd h h1⟩
  refine Runs.bindB (hQ.mono fun Q hQ => ?_)
  obtain ⟨hQs, hQk, hQn⟩ := hQ
  -- rotations
  refine Runs.bindB ((rotations_runs (sqrt := sqrt) (restart := r) (w2 := p.2) (q := q) (by rw [hp2, hsz.w2]; exact hj) hsz.J hj hI.J0 hI.J1 hI.cs).mono fun w2 hw2 => ?_)
  obtain ⟨hw2s, hw2e⟩ := hw2
  have hAw : ∀ i, i < n → mulVec n A (f (q j)) i = ∑ k ∈ range j, w2.get k * pv q c sn k i + w2.get j * tv q c sn j i + p.1.get i := by
    intro i hi
    rw [← hw2e i, ← hv0' i hi, hp3 i hi]; ring
  have halg := rot_alg he.sq (h := w2.get j) hvn0 hvn'
  set s1 : St K K := { s with v := p.1, w := w, Z := Z, Q := Q, w2 := w2, numMv := if e.flex then s.numMv + nirs else s.numMv } with hs1
  by_cases hrho : sqrt (w2.get j * w2.get j + vn2) = 0
  · -- breakdown
    refine .inr ⟨?_, newRot_brk hj (by show w2.size = r; rw [hw2s, hp2]; exact hsz.w2) hrho⟩
    obtain ⟨g1, g2⟩ := halg.1 hrho
    refine noBreak hI.cols hI.orth (he.ext nirs) w2.get fun i hi => ?_
    rw [hAw i hi, g1, ip_self_zero g2 i hi]; ring
  · refine .inl ((newRot_runs (r := r) (vn2 := vn2) (vn := vn) (s := s1) hj hsz.y (by show w2.size = r; rw [hw2s, hp2]; exact hsz.w2) hsz.Rm hsz.J hrho).mono
      fun s' h' => ?_)
    have hcs1 := halg.2 hrho
    have hw2j : s1.w2.get j = w2.get j := rfl
    rw [hw2j] at h'
    set ρ := sqrt (w2.get j * w2.get j + vn2) with hρ
    -- ghosts
    set q' : Nat → Nat → K := fun k => if k = j + 1 then fun i => p.1.get i / vn else q k with hq'
    set z' : Nat → Nat → K := fun k => if k = j then f (q j) else z k with hz'
    set c' : Nat → K := fun k => if k = j then w2.get j / ρ else c k with hc'
    set sn' : Nat → K := fun k => if k = j then vn / ρ else sn k with hsn'
    have eq1 : ∀ l, l ≤ j → q' l = q l := fun l hl => by simp only [hq']; rw [if_neg (by omega)]
    have eq2 : q' (j + 1) = fun i => p.1.get i / vn := by simp only [hq']; rw [if_pos trivial]
    have ec : ∀ l, l < j → c' l = c l := fun l hl => by simp only [hc']; rw [if_neg (by omega)]
    have es : ∀ l, l < j → sn' l = sn l := fun l hl => by simp only [hsn']; rw [if_neg (by omega)]
    have ecj : c' j = w2.get j / ρ := by simp only [hc']; rw [if_pos trivial]
    have esj : sn' j = vn / ρ := by simp only [hsn']; rw [if_pos trivial]
    have ez : ∀ l, l < j → z' l = z l := fun l hl => by simp only [hz']; rw [if_neg (by omega)]
    have ezj : z' j = f (q j) := by simp only [hz']; rw [if_pos trivial]
    have etv : ∀ l, l ≤ j → tv q' c' sn' l = tv q c sn l := fun l hl => tv_congr l (fun k hk => eq1 k (by omega)) (fun k hk => ec k (by omega)) (fun k hk => es k (by omega))
    have epv : ∀ l, l < j → pv q' c' sn' l = pv q c sn l := fun l hl => pv_congr l (fun k hk => eq1 k (by omega)) (fun k hk => ec k (by omega)) (fun k hk => es k (by omega))
    have hcs' : ∀ k, k ≤ j → c' k * c' k + sn' k * sn' k = 1 := by
      intro k hk
      rcases Nat.lt_or_ge k j with h | h
      · rw [ec k h, es k h]; exact hI.cs k h
      · obtain rfl : k = j := by omega
        rw [ecj, esj]; exact hcs1
    have horth' : Orth n q' j := fun k l hk hl => by rw [eq1 k hk, eq1 l hl]; exact hI.orth k l hk hl
    have hqn : ∀ k, k ≤ j → ip n (q' k) (q' (j + 1)) = 0 := by
      intro k hk
      rw [eq1 k hk, eq2, ip_comm]
      have e1 : (fun i => p.1.get i / vn) = fun i => vn⁻¹ * p.1.get i := by funext i; rw [div_eq_inv_mul]
      rw [e1, ip_smul, ip_comm, hp4 k hk, mul_zero]
    have hqq : vn ≠ 0 → ip n (q' (j + 1)) (q' (j + 1)) = 1 := by
      intro hne
      rw [eq2]
      have e1 : (fun i => p.1.get i / vn) = fun i => vn⁻¹ * p.1.get i := by funext i; rw [div_eq_inv_mul]
      rw [e1, ip_smul, ip_comm, ip_smul, ← hvn2, ← hvv]
      field_simp
    have hch : Chain n q' c' sn' j j := chain horth' j (le_refl _) (fun k hk => hcs' k (by omega))
    -- combinations of the basis are orthogonal to the new vector
    have htq : ∀ l, l ≤ j → ip n (tv q' c' sn' l) (q' (j + 1)) = 0 := by
      intro l
      induction l with
      | zero => intro _; exact hqn 0 (by omega)
      | succ l ih =>
        intro hl
        show ip n (fun i => -sn' l * tv q' c' sn' l i + c' l * q' (l + 1) i) _ = 0
        rw [ip_lin2, ih (by omega), hqn (l + 1) hl]; ring
    have hpq : ∀ l, l < j → ip n (pv q' c' sn' l) (q' (j + 1)) = 0 := by
      intro l hl
      show ip n (fun i => c' l * tv q' c' sn' l i + sn' l * q' (l + 1) i) _ = 0
      rw [ip_lin2, htq l (by omega), hqn (l + 1) (by omega)]; ring
    have hN : sn' j * (ip n (q' (j + 1)) (q' (j + 1)) - 1) = 0 := by
      by_cases hne : vn = 0
      · rw [esj, hne, zero_div, zero_mul]
      · rw [hqq hne, sub_self, mul_zero]
    have hlast := lastStep hch (hcs' j (le_refl _)) (htq j (le_refl _)) hpq hN (s.y.get j)
    have hy1 : s'.y.get (j + 1) = -sn' j * s.y.get j := by rw [h'.y1, esj]
    have hy0 : s'.y.get j = c' j * s.y.get j := by rw [h'.y0, ecj]
    -- rho p_j = w_j t_j + v
    have hpj : ∀ i, i < n → ρ * pv q' c' sn' j i = w2.get j * tv q c sn j i + p.1.get i := by
      intro i hi
      show ρ * (c' j * tv q' c' sn' j i + sn' j * q' (j + 1) i) = _
      rw [etv j (le_refl _), ecj, esj, eq2]
      by_cases hne : vn = 0
      · have h0 : p.1.get i = 0 := ip_self_zero (by rw [← hvn2, ← hvv, hne, mul_zero]) i hi
        rw [h0, hne]; field_simp; ring
      · field_simp
    have hcols : Cols n r A f e.flex (j + 1) s' q' z' c' sn' := by
      refine ⟨?_, ?_, ?_, ?_⟩
      · intro k hk i hi
        rw [eq1 k (by omega)]
        rcases Nat.lt_or_ge k j with h | h
        · rw [ez k h]; exact hI.cols.hz k h i hi
        · obtain rfl : k = j := by omega
          rw [ezj]
      · intro hfl k hk i hi
        have hZk := hZ.2 hfl k (by omega) i hi
        rw [h'.Z]
        show Z.get (i + k * n) = _
        rw [hZk]
        rcases Nat.lt_or_ge k j with h | h
        · rw [if_neg (by omega), ez k h]; exact hI.cols.Z hfl k h i hi
        · obtain rfl : k = j := by omega
          rw [if_pos rfl, ezj]; exact hwf i hi
      · intro k hk i hi
        rcases Nat.lt_or_ge k j with h | h
        · rw [ez k h, hI.cols.col k h i hi]
          refine Finset.sum_congr rfl fun l hl => ?_
          have := Finset.mem_range.1 hl
          rw [h'.Rk l k h (by omega), epv l (by omega)]
        · obtain rfl : k = j := by omega
          rw [ezj, hAw i hi, Finset.sum_range_succ, h'.Rj, hpj i hi, ← add_assoc]
          congr 2
          refine Finset.sum_congr rfl fun l hl => ?_
          have := Finset.mem_range.1 hl
          rw [h'.Rl l this, epv l this]
      · intro k hk
        rcases Nat.lt_or_ge k j with h | h
        · rw [h'.Rk k k h (by omega)]; exact hI.cols.diag k h
        · obtain rfl : k = j := by omega
          rw [h'.Rj]; exact hrho
    have hres : ∀ i, i < n → r0 i = ∑ l ∈ range (j + 1), s'.y.get l * pv q' c' sn' l i + s'.y.get (j + 1) * tv q' c' sn' (j + 1) i := by
      intro i hi
      rw [hI.res i hi, Finset.sum_range_succ]
      have e1 : ∑ l ∈ range j, s'.y.get l * pv q' c' sn' l i = ∑ l ∈ range j, s.y.get l * pv q c sn l i :=
        Finset.sum_congr rfl fun l hl => by
          have := Finset.mem_range.1 hl
          rw [h'.yk l this, epv l this]
      rw [e1, hy0, hy1, ← etv j (le_refl _)]
      simp only [tv, pv]
      linear_combination (-(s.y.get j * tv q' c' sn' j i)) * hcs' j (le_refl _)
    refine ⟨⟨by rw [h'.x]; exact hsz.x, by rw [h'.v]; exact hp1, by rw [h'.w]; exact hw.1, by rw [h'.ysz]; exact hsz.y,
      by rw [h'.wsz]; show w2.size = r; rw [hw2s, hp2]; exact hsz.w2, by rw [h'.Q]; exact hQs, by rw [h'.Z]; exact hZ.1, by rw [h'.Rsz]; exact hsz.Rm,
      by rw [h'.Jsz]; exact hsz.J⟩, ⟨h'.x, h'.resid, h'.iter, h'.flag, h'.numMv, ?_⟩, q', z', c', sn',
      ⟨hcols, fun i hi => by rw [eq1 0 (by omega)]; exact hI.base i hi, ?_, ?_, ?_, hres⟩, ?_⟩
    · rw [hy1, abs_mul, abs_neg]
      have h1 : |sn' j| ≤ 1 := by
        rw [← abs_one]
        refine sq_le_sq.1 ?_
        have := hcs' j (le_refl _)
        have h2 := mul_self_nonneg (c' j)
        rw [one_pow, sq]
        rw [← this]
        exact le_add_of_nonneg_left h2
      calc |sn' j| * |s.y.get j| ≤ 1 * |s.y.get j| := mul_le_mul_of_nonneg_right h1 (abs_nonneg _)
        _ = _ := one_mul _
    · intro k hk i hi
      rw [h'.Q, eq1 k hk]; exact hQk k hk i hi
    · intro l hl
      rw [hy1]; exact hlast.2.1 l hl
    · rw [hy1]; exact hlast.2.2
    · intro hjr hyne
      have hvne : vn ≠ 0 := by
        intro h0
        exact hyne (by rw [h'.y1, h0, zero_div, neg_zero, zero_mul])
      refine ⟨hcols, fun i hi => by rw [eq1 0 (by omega)]; exact hI.base i hi, ?_, ?_, ?_, ?_, fun k hk => hcs' k (by omega), hres⟩
      · intro k l hk hl
        rcases Nat.lt_or_ge k (j + 1) with h1 | h1 <;> rcases Nat.lt_or_ge l (j + 1) with h2 | h2
        · exact horth' k l (by omega) (by omega)
        · obtain rfl : l = j + 1 := by omega
          rw [if_neg (by omega)]; exact hqn k (by omega)
        · obtain rfl : k = j + 1 := by omega
          rw [if_neg (by omega), ip_comm]; exact hqn l (by omega)
        · obtain rfl : k = j + 1 := by omega
          obtain rfl : l = j + 1 := by omega
          rw [if_pos rfl]; exact hqq hvne
      · intro k hk i hi
        rw [h'.Q]
        show Q.get (i + k * n) = _
        rcases Nat.lt_or_ge k (j + 1) with h1 | h1
        · rw [eq1 k (by omega)]; exact hQk k (by omega) i hi
        · obtain rfl : k = j + 1 := by omega
          rw [eq2]; exact hQn hjr hvne i hi
      · intro k hk
        rcases Nat.lt_or_ge k j with h | h
        · rw [(h'.Jk k h).1, ec k h]; exact hI.J0 k h
        · obtain rfl : k = j := by omega
          rw [h'.Jj, ecj]
      · intro k hk
        rcases Nat.lt_or_ge k j with h | h
        · rw [(h'.Jk k h).2, es k h]; exact hI.J1 k h
        · obtain rfl : k = j := by omega
          rw [h'.Jr, esj]

end Gmres
end Hif
