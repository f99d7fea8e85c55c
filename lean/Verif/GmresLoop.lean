import Verif.GmresArn

set_option linter.unusedSectionVars false
set_option linter.unusedVariables false

/-!
# Runs of the GMRES drivers: the loops
-/

namespace Hif
namespace Gmres
open Finset Spec

universe u

variable {K : Type u} [Field K] [LinearOrder K] [IsStrictOrderedRing K]

/-- Result of the inner loop started at `j` in state `s`. -/
structure InnerPost (e : Env K K) (n nirs : Nat) (A : Nat → Nat → K) (f : (Nat → K) → Nat → K) (β beta0 : K) (r0 : Nat → K) (j : Nat) (s : St K K) (p : St K K × Nat) : Prop where
  sz : Sz n e.restart p.1
  lo : j ≤ p.2
  hi : p.2 < e.restart
  done : ∃ q z : Nat → Nat → K, ∃ c sn : Nat → K, Done n e.restart A f e.flex β r0 p.2 p.1 q z c sn
  x : p.1.x = s.x
  resid : p.1.resid = |p.1.y.get (p.2 + 1)| / beta0
  le : |p.1.y.get (p.2 + 1)| ≤ |s.y.get j|
  iter : p.1.iter = s.iter + (p.2 - j) + if p.1.flag = 0 then 1 else 0
  max : p.1.iter ≤ e.maxit
  numMv : p.1.numMv = if e.flex then s.numMv + (p.2 + 1 - j) * nirs else s.numMv
  cont : j < p.2 → ∃ (s1 : St K K) (q z : Nat → Nat → K) (c sn : Nat → K), Done n e.restart A f e.flex β r0 j s1 q z c sn ∧ s1.y.get (j + 1) ≠ 0
  flags : (p.1.flag = 0 ∧ (p.1.resid ≤ e.rtol ∨ p.2 + 1 = e.restart)) ∨ (p.1.flag = 1 ∧ (0 < e.stag → e.rtol < 1 → e.rtol * e.stag < p.1.resid)) ∨
    (p.1.flag = 2 ∧ p.1.iter = e.maxit)

theorem innerLoop_runs {e : Env K K} {sqrt : K → K} {n : Nat} {A : Nat → Nat → K} {Mf : Nat → (Nat → K) → Nat → K} (he : EnvOK e sqrt n A Mf)
    {nirs : Nat} (hnirs : 0 < nirs) {β beta0 : K} (hb0 : 0 < beta0) (hrt : 0 ≤ e.rtol) {r0 : Nat → K} (fuel : Nat) :
    ∀ (j : Nat) (s : St K K) (q z : Nat → Nat → K) (c sn : Nat → K), fuel + j = e.restart → 0 < fuel → Sz n e.restart s →
    Inv n e.restart A (Mf nirs) e.flex β r0 j s q z c sn → s.flag = 0 → s.iter ≤ e.maxit → (e.rtol < 1 → e.rtol < s.resid) →
    RunsB (¬ Reg n A (Mf nirs)) (innerLoop e n nirs beta0 fuel j s) (InnerPost e n nirs A (Mf nirs) β beta0 r0 j s) := by
  induction fuel with
  | zero => intro j s q z c sn _ h; omega
  | succ fuel ih =>
    intro j s q z c sn hfj _ hsz hI hfl hit hrs
    have hj : j < e.restart := by omega
    unfold innerLoop
    refine RunsB.bind ((arnoldi_runs he hnirs hj hsz hI).mono fun s1 hs1 => ?_)
    obtain ⟨hsz1, hk, q', z', c', sn', hd, hI1⟩ := hs1
    refine Runs.bindB ?_
    rw [runs_rd]
    refine ⟨by rw [hsz1.y]; omega, ?_⟩
    have habs : e.sc.abs (s1.y.get (j + 1)) = |s1.y.get (j + 1)| := by rw [he.sc]; rfl
    simp only [habs]
    set resid := |s1.y.get (j + 1)| / beta0 with hres
    have hnm : s1.numMv = if e.flex then s.numMv + (j + 1 - j) * nirs else s.numMv := by
      rw [hk.numMv, show j + 1 - j = 1 by omega, one_mul]
    by_cases h1 : s.resid * e.stag ≤ resid
    · rw [if_pos h1]
      refine .inl ((runs_pure _ _).2 ⟨⟨hsz1.x, hsz1.v, hsz1.w, hsz1.y, hsz1.w2, hsz1.Q, hsz1.Z, hsz1.Rm, hsz1.J⟩, le_refl _, hj, ⟨q', z', c', sn', ⟨⟨hd.cols.hz, hd.cols.Z,
        hd.cols.col, hd.cols.diag⟩, hd.base, hd.Q, hd.pe, hd.ee, hd.res⟩⟩, hk.x, rfl, hk.le, ?_, ?_, hnm, fun h => absurd h (lt_irrefl _), .inr (.inl ⟨rfl, ?_⟩)⟩)
      · show s1.iter = s.iter + (j - j) + if 1 = 0 then 1 else 0
        rw [hk.iter]; simp
      · show s1.iter ≤ e.maxit
        rw [hk.iter]; exact hit
      · intro hs hr1
        exact lt_of_lt_of_le (mul_lt_mul_of_pos_right (hrs hr1) hs) h1
    · rw [if_neg h1]
      by_cases h2 : e.maxit ≤ s1.iter
      · rw [if_pos h2]
        refine .inl ((runs_pure _ _).2 ⟨⟨hsz1.x, hsz1.v, hsz1.w, hsz1.y, hsz1.w2, hsz1.Q, hsz1.Z, hsz1.Rm, hsz1.J⟩, le_refl _, hj, ⟨q', z', c', sn', ⟨⟨hd.cols.hz, hd.cols.Z,
          hd.cols.col, hd.cols.diag⟩, hd.base, hd.Q, hd.pe, hd.ee, hd.res⟩⟩, hk.x, rfl, hk.le, ?_, ?_, hnm, fun h => absurd h (lt_irrefl _), .inr (.inr ⟨rfl, ?_⟩)⟩)
        · show s1.iter = s.iter + (j - j) + if 2 = 0 then 1 else 0
          rw [hk.iter]; simp
        · show s1.iter ≤ e.maxit
          rw [hk.iter]; exact hit
        · show s1.iter = e.maxit
          rw [hk.iter] at h2 ⊢; omega
      · rw [if_neg h2]
        have hf1 : s1.flag = 0 := by rw [hk.flag]; exact hfl
        by_cases h3 : resid ≤ e.rtol ∨ e.restart ≤ j + 1
        · rw [if_pos h3]
          refine .inl ((runs_pure _ _).2 ⟨⟨hsz1.x, hsz1.v, hsz1.w, hsz1.y, hsz1.w2, hsz1.Q, hsz1.Z, hsz1.Rm, hsz1.J⟩, le_refl _, hj, ⟨q', z', c', sn', ⟨⟨hd.cols.hz, hd.cols.Z,
            hd.cols.col, hd.cols.diag⟩, hd.base, hd.Q, hd.pe, hd.ee, hd.res⟩⟩, hk.x, rfl, hk.le, ?_, ?_, hnm, fun h => absurd h (lt_irrefl _), .inl ⟨hf1, h3.imp id (fun h => ?_)⟩⟩)
          · show s1.iter + 1 = s.iter + (j - j) + if s1.flag = 0 then 1 else 0
            rw [hk.iter, if_pos hf1]; omega
          · show s1.iter + 1 ≤ e.maxit
            omega
          · show j + 1 = e.restart
            omega
        · rw [if_neg h3]
          push Not at h3
          have hyne : s1.y.get (j + 1) ≠ 0 := by
            intro h0
            have : resid = 0 := by rw [hres, h0, abs_zero, zero_div]
            rw [this] at h3
            exact absurd h3.1 (not_lt.2 hrt)
          have hI2 := hI1 h3.2 hyne
          refine (ih (j + 1) { s1 with resid := resid, iter := s1.iter + 1 } q' z' c' sn' (by omega) (by omega)
            ⟨hsz1.x, hsz1.v, hsz1.w, hsz1.y, hsz1.w2, hsz1.Q, hsz1.Z, hsz1.Rm, hsz1.J⟩
            ⟨⟨hI2.cols.hz, hI2.cols.Z, hI2.cols.col, hI2.cols.diag⟩, hI2.base, hI2.orth, hI2.Q, hI2.J0, hI2.J1, hI2.cs, hI2.res⟩ hf1
            (by show s1.iter + 1 ≤ e.maxit; omega) (fun _ => h3.1)).mono fun p hp => ?_
          refine ⟨hp.sz, by have := hp.lo; omega, hp.hi, hp.done, by rw [hp.x]; exact hk.x, hp.resid, le_trans hp.le hk.le, ?_, hp.max, ?_, fun _ => ⟨s1, q', z', c', sn', hd, hyne⟩, hp.flags⟩
          · rw [hp.iter]
            show s1.iter + 1 + _ + _ = _
            rw [hk.iter]
            have := hp.lo
            omega
          · rw [hp.numMv]
            show (if e.flex then s1.numMv + _ else s1.numMv) = _
            rw [hk.numMv]
            cases e.flex
            · rfl
            · simp only [if_true]
              have := hp.lo
              rw [show p.2 + 1 - j = (p.2 + 1 - (j + 1)) + 1 by omega, Nat.add_mul]; omega

/-! ### back substitution and the new iterate -/

theorem backsolve_runs {r j : Nat} {Rm y : Buf K} (hj : j < r) (hR : Rm.size = r * r) (hy : y.size = r + 1) (hd : ∀ k, k ≤ j → Rm.get (k + k * r) ≠ 0) :
    Runs (backsolve r j Rm y) (fun y' => y'.size = r + 1 ∧ ∀ l, l ≤ j → ∑ k ∈ Ico l (j + 1), Rm.get (l + k * r) * y'.get k = y.get l) := by
  have hidx : ∀ l k, l < r → k ≤ j → l + k * r < Rm.size := by
    intro l k hl hk
    have := Nat.mul_le_mul_right r (show k + 1 ≤ r by omega)
    rw [Nat.add_mul, one_mul] at this
    omega
  unfold backsolve
  refine forDown_runs' (fun m w => w.size = r + 1 ∧ (∀ l, l < m → w.get l = y.get l - ∑ k ∈ Ico m (j + 1), Rm.get (l + k * r) * w.get k) ∧
    ∀ l, m ≤ l → l ≤ j → ∑ k ∈ Ico l (j + 1), Rm.get (l + k * r) * w.get k = y.get l) ?_ ?_ ?_
  · exact ⟨hy, fun l _ => by simp, fun l h1 h2 => by omega⟩
  · intro m w hm ⟨h1, h2, h3⟩
    simp only [runs_bind, runs_rd]
    refine ⟨by omega, hidx m m (by omega) (by omega), ?_⟩
    rw [if_neg (hd m (by omega))]
    simp only [runs_bind, runs_rd, runs_wr, Buf.set_size]
    refine ⟨by omega, by omega, ?_⟩
    set t := w.get m / Rm.get (m + m * r) with ht
    have hgm : (w.set m t).get m = t := Buf.set_get_self _ _ _
    rw [hgm]
    refine forDown_runs' (fun i u => u.size = r + 1 ∧ (∀ l, l < i → u.get l = w.get l) ∧ (∀ l, i ≤ l → l < m → u.get l = w.get l - t * Rm.get (l + m * r)) ∧
      u.get m = t ∧ ∀ l, m < l → u.get l = w.get l) ?_ ?_ ?_
    · exact ⟨h1, fun l hl => Buf.set_get_ne _ _ (by omega), fun l h h' => by omega, hgm, fun l hl => Buf.set_get_ne _ _ (by omega)⟩
    · intro i u hi ⟨g1, g2, g3, g4, g5⟩
      simp only [runs_bind, runs_rd, runs_wr]
      refine ⟨by omega, hidx i m (by omega) (by omega), by omega, g1, ?_, ?_, ?_, ?_⟩
      · intro l hl
        rw [Buf.set_get_ne _ _ (by omega)]; exact g2 l (by omega)
      · intro l hl hlm
        by_cases hli : l = i
        · subst hli
          rw [Buf.set_get_self, g2 l (by omega)]
        · rw [Buf.set_get_ne _ _ hli]; exact g3 l (by omega) hlm
      · rw [Buf.set_get_ne _ _ (by omega)]; exact g4
      · intro l hl
        rw [Buf.set_get_ne _ _ (by omega)]; exact g5 l hl
    · intro u ⟨g1, _, g3, g4, g5⟩
      have etail : ∀ (a : Nat → K), ∑ k ∈ Ico (m + 1) (j + 1), a k * u.get k = ∑ k ∈ Ico (m + 1) (j + 1), a k * w.get k := fun a =>
        Finset.sum_congr rfl fun k hk => by rw [g5 k (by have := (Finset.mem_Ico.1 hk).1; omega)]
      refine ⟨g1, ?_, ?_⟩
      · intro l hl
        rw [g3 l (by omega) hl, h2 l (by omega), Finset.sum_eq_sum_Ico_succ_bot (by omega : m < j + 1), g4, etail]; ring
      · intro l hml hlj
        rcases Nat.lt_or_ge m l with h | h
        · rw [← h3 l (by omega) hlj]
          exact Finset.sum_congr rfl fun k hk => by rw [g5 k (by have := (Finset.mem_Ico.1 hk).1; omega)]
        · obtain rfl : l = m := by omega
          rw [Finset.sum_eq_sum_Ico_succ_bot (by omega : l < j + 1), g4, etail, ht, mul_div_cancel₀ _ (hd l hlj), h2 l (by omega)]; ring
  · intro w ⟨h1, _, h3⟩
    exact ⟨h1, fun l hl => h3 l (Nat.zero_le _) hl⟩

theorem comb_runs {n j : Nat} {B y dst : Buf K} (hd : dst.size = n) (hy : j < y.size) (hB : n + j * n ≤ B.size) :
    Runs (comb n j B y dst) (fun r => r.size = n ∧ ∀ i, i < n → r.get i = dst.get i + ∑ k ∈ range (j + 1), y.get k * B.get (i + k * n)) := by
  unfold comb
  refine forUp_runs' (I := fun m r => r.size = n ∧ ∀ i, i < n → r.get i = dst.get i + ∑ k ∈ range m, y.get k * B.get (i + k * n)) (Nat.zero_le _) ?_ ?_ (fun s h => h)
  · exact ⟨hd, fun i _ => by simp⟩
  · intro m r _ hm ⟨h1, h2⟩
    have hmB : n + m * n ≤ B.size := by
      have := Nat.mul_le_mul_right n (show m ≤ j by omega)
      omega
    simp only [runs_bind, runs_rd]
    refine ⟨by omega, ?_⟩
    refine forUp_runs' (I := fun t u => u.size = n ∧ ∀ i, i < n → u.get i = if i < t then r.get i + y.get m * B.get (i + m * n) else r.get i) (Nat.zero_le _) ?_ ?_ ?_
    · exact ⟨h1, fun i _ => by simp⟩
    · intro t u _ ht ⟨g1, g2⟩
      simp only [runs_bind, runs_rd, runs_wr]
      refine ⟨by omega, by omega, by omega, g1, fun i hi => ?_⟩
      simp only [Buf.set_get]
      by_cases him : i = t
      · subst him
        rw [if_pos rfl, if_pos (by omega), g2 i hi, if_neg (by omega)]
      · rw [if_neg him, g2 i hi]
        by_cases h3 : i < t
        · rw [if_pos h3, if_pos (by omega)]
        · rw [if_neg h3, if_neg (by omega)]
    · intro u ⟨g1, g2⟩
      refine ⟨g1, fun i hi => ?_⟩
      rw [g2 i hi, if_pos hi, h2 i hi, Finset.sum_range_succ]; ring

/-- The new iterate is the old one plus the combination of the preconditioned vectors (without stored vectors the preconditioner must be linear). -/
theorem update_runs {e : Env K K} {sqrt : K → K} {n : Nat} {A : Nat → Nat → K} {Mf : Nat → (Nat → K) → Nat → K} (he : EnvOK e sqrt n A Mf)
    {nirs j : Nat} {s : St K K} {q z : Nat → Nat → K} (hj : j < e.restart) (hsz : Sz n e.restart s)
    (hlin : e.flex = false → LinOn n (Mf 1) ∧ nirs = 1)
    (hz : ∀ k, k < j + 1 → ∀ i, i < n → z k i = Mf nirs (q k) i) (hZ : e.flex = true → ∀ k, k < j + 1 → ∀ i, i < n → s.Z.get (i + k * n) = z k i)
    (hQ : ∀ k, k ≤ j → ∀ i, i < n → s.Q.get (i + k * n) = q k i) :
    Runs (update e n j s) (fun s' => Sz n e.restart s' ∧ (∀ i, i < n → s'.x.get i = s.x.get i + ∑ k ∈ range (j + 1), s.y.get k * z k i) ∧
      s'.resid = s.resid ∧ s'.iter = s.iter ∧ s'.flag = s.flag ∧ s'.numMv = s.numMv) := by
  have hjr : j * n + n ≤ n * e.restart := by
    have := Nat.mul_le_mul_right n (show j + 1 ≤ e.restart by omega)
    rw [Nat.add_mul, one_mul, Nat.mul_comm e.restart] at this
    exact this
  unfold update
  cases hfl : e.flex
  · simp only [Bool.false_eq_true, if_false, runs_bind, runs_pure]
    obtain ⟨hl, rfl⟩ := hlin hfl
    refine forUp_runs' (I := fun m u => u.size = n ∧ ∀ i, i < m → u.get i = 0) (Nat.zero_le _) ⟨hsz.v, fun i h => by omega⟩ ?_ ?_
    · intro m u _ hm ⟨h1, h2⟩
      rw [runs_wr]
      refine ⟨by omega, h1, fun i hi => ?_⟩
      rw [Buf.set_get]
      by_cases him : i = m
      · rw [if_pos him]
      · rw [if_neg him]; exact h2 i (by omega)
    · intro u ⟨h1, h2⟩
      refine (comb_runs h1 (by rw [hsz.y]; omega) (by rw [hsz.Q]; omega)).mono fun v hv => ?_
      have hv' : ∀ i, i < n → v.get i = ∑ k ∈ range (j + 1), s.y.get k * q k i := by
        intro i hi
        rw [hv.2 i hi, h2 i hi, zero_add]
        exact Finset.sum_congr rfl fun k hk => by rw [hQ k (by have := Finset.mem_range.1 hk; omega) i hi]
      refine (he.prec 1 v s.w (by omega) hv.1 hsz.w).mono fun w hw => ?_
      have hw' : ∀ i, i < n → w.get i = ∑ k ∈ range (j + 1), s.y.get k * z k i := by
        intro i hi
        rw [hw.2 i hi, he.ext 1 _ _ hv' i hi, linOn_sum hl (he.ext 1) (j + 1) _ q i hi]
        exact Finset.sum_congr rfl fun k hk => by rw [hz k (Finset.mem_range.1 hk) i hi]
      refine forUp_runs' (I := fun m u => u.size = n ∧ ∀ i, i < n → u.get i = if i < m then s.x.get i + w.get i else s.x.get i) (Nat.zero_le _)
        ⟨hsz.x, fun i h => by simp⟩ ?_ ?_
      · intro m u _ hm ⟨g1, g2⟩
        simp only [runs_bind, runs_rd, runs_wr]
        refine ⟨by omega, by omega, by omega, g1, fun i hi => ?_⟩
        simp only [Buf.set_get]
        by_cases him : i = m
        · subst him
          rw [if_pos rfl, if_pos (by omega), g2 i hi, if_neg (by omega)]
        · rw [if_neg him, g2 i hi]
          by_cases h3 : i < m
          · rw [if_pos h3, if_pos (by omega)]
          · rw [if_neg h3, if_neg (by omega)]
      · intro x ⟨g1, g2⟩
        exact ⟨⟨g1, hv.1, hw.1, hsz.y, hsz.w2, hsz.Q, hsz.Z, hsz.Rm, hsz.J⟩, fun i hi => by
          show x.get i = _
          rw [g2 i hi, if_pos hi, hw' i hi], by tt, by tt, by tt, by tt⟩
  · simp only [if_true, runs_bind, runs_pure]
    refine (comb_runs hsz.x (by rw [hsz.y]; omega) (by rw [hsz.Z]; omega)).mono fun x hx => ?_
    refine ⟨⟨hx.1, hsz.v, hsz.w, hsz.y, hsz.w2, hsz.Q, hsz.Z, hsz.Rm, hsz.J⟩, fun i hi => ?_, by tt, by tt, by tt, by tt⟩
    show x.get i = _
    rw [hx.2 i hi]
    congr 1
    exact Finset.sum_congr rfl fun k hk => by rw [hZ hfl k (Finset.mem_range.1 hk) i hi]

end Gmres
end Hif
