import Verif.QrcpMrhs

set_option linter.unusedSectionVars false
set_option linter.unusedVariables false

/-!
# QRCP: factorize and rank estimate
-/

namespace Hif
namespace Qrcp
open Finset Spec

variable {K R : Type} [Field K] [StarRing K] [DecidableEq K] [Field R] [LinearOrder R] [IsStrictOrderedRing R]

/-- Contract of the magnitude. -/
structure NrmOK (nrm : K → R) : Prop where
  nonneg : ∀ x, 0 ≤ nrm x
  zero : ∀ x, nrm x = 0 ↔ x = 0

/-- Contract of `?geqp3` for the `n × n` matrix `mat` (exact arithmetic): it succeeds, what it returns is a QR factorization with column pivoting, and the first
diagonal entry, the norm of the largest column, is no smaller than any entry or any other diagonal entry. -/
structure Geqp3OK (env : Env K R) (n : Nat) (mat : Buf K) : Prop where
  info : 0 ≤ (env.geqp3 n n mat).info
  fac : ∀ r, Fac n (fun i j => mat.get (i + j * n)) ⟨n, n, (env.geqp3 n n mat).mat, (env.geqp3 n n mat).jpvt, (env.geqp3 n n mat).tau, r⟩
  lead : ∀ i, i < n → env.nrm ((env.geqp3 n n mat).mat.get (i + i * n)) ≤ env.nrm ((env.geqp3 n n mat).mat.get 0)
  entry : ∀ i j, i < n → j < n → env.nrm (mat.get (i + j * n)) ≤ env.nrm ((env.geqp3 n n mat).mat.get 0)

/-- Contract of `?laic1` (exact arithmetic): with `gamma = 0` the smallest singular value becomes zero, the estimate of the largest one does not decrease; and, if the
new column is orthogonal to the current vector (`alpha = 0`) and not larger, the estimates are those of a diagonal matrix. -/
structure Laic1OK (env : Env K R) : Prop where
  min_zero : ∀ j x e w, (env.laic1 false j x e w 0).1 = 0
  max_ge : ∀ j x e w g, 0 ≤ e → e ≤ (env.laic1 true j x e w g).1
  min_flat : ∀ j x e w g, 0 < e → ∑ i ∈ range j, star (x i) * w i = 0 → env.nrm g ≤ e → env.laic1 false j x e w g = (env.nrm g, 0, 1)
  max_flat : ∀ j x e w g, 0 < e → ∑ i ∈ range j, star (x i) * w i = 0 → env.nrm g ≤ e → env.laic1 true j x e w g = (e, 1, 0)

theorem smallDiag_runs (nrm : K → R) (s : St K) (eps : R) (n : Nat) (hn : s.nrows = n) (hm : s.mat.size = n * n) : ∀ i, i ≤ n →
    Runs (smallDiag nrm s eps i) fun b => (b = false → ∀ j, j < i → eps ≤ nrm (s.mat.get (j + j * n))) ∧ ((∀ x, eps ≤ nrm x) → b = false) := by
  intro i
  induction i with
  | zero => intro _; rw [smallDiag, runs_pure]; exact ⟨fun _ j hj => by omega, fun _ => rfl⟩
  | succ i ih =>
    intro hi
    rw [smallDiag, runs_bind]
    unfold St.at
    rw [runs_rd]
    have : (i + 1) * n ≤ n * n := Nat.mul_le_mul_right _ hi
    rw [Nat.add_mul, Nat.one_mul] at this
    refine ⟨by rw [hm, hn]; omega, ?_⟩
    split
    · rename_i hlt
      rw [runs_pure]
      exact ⟨fun hf => absurd hf (by simp), fun hall => absurd (lt_of_lt_of_le hlt (hall _)) (lt_irrefl _)⟩
    · rename_i hnl
      refine (ih (by omega)).mono fun b hb => ⟨fun hbf j hj => ?_, hb.2⟩
      rcases Nat.lt_succ_iff_lt_or_eq.1 hj with h | rfl
      · exact hb.1 hbf j h
      · rw [hn] at hnl
        exact not_lt.1 hnl

/-- The loop never leaves its buffers, and the diagonal entries it accepts are nonzero. -/
theorem estRank_runs {env : Env K R} (hl : Laic1OK env) (s : St K) (n : Nat) (hn : s.nrows = n) (hm : s.mat.size = n * n) :
    ∀ k rk (e : Est K R), rk + k = n → e.x.size = n → e.y.size = n → 0 < e.smax → (∀ i, i < rk → s.mat.get (i + i * n) ≠ 0) →
      Runs (estRank env s k rk e) fun r => r ≤ n ∧ rk ≤ r ∧ ∀ i, i < r → s.mat.get (i + i * n) ≠ 0 := by
  intro k
  induction k with
  | zero =>
    intro rk e h1 _ _ _ h
    rw [estRank, runs_pure]
    exact ⟨by omega, le_refl _, h⟩
  | succ k ih =>
    intro rk e h1 h2 h3 h4 h
    have b : (rk + 1) * n ≤ n * n := Nat.mul_le_mul_right _ (by omega)
    rw [Nat.add_mul, Nat.one_mul] at b
    rw [estRank, runs_bind]
    unfold St.at
    rw [runs_rd, hn]
    refine ⟨by omega, ?_⟩
    rw [if_pos (by omega)]
    dsimp only
    split
    · rename_i hacc
      rw [runs_bind]
      unfold accept
      rw [runs_bind]
      refine forUp_runs' (fun _ (x : Buf K) => x.size = n) (Nat.zero_le _) h2 ?_ ?_
      · intro i x _ hi hx
        simp only [runs_bind, runs_rd, runs_wr, Buf.set_size]
        exact ⟨by omega, by omega, hx⟩
      intro x hx
      rw [runs_bind]
      refine forUp_runs' (fun _ (x : Buf K) => x.size = n) (Nat.zero_le _) h3 ?_ ?_
      · intro i x _ hi hx
        simp only [runs_bind, runs_rd, runs_wr, Buf.set_size]
        exact ⟨by omega, by omega, hx⟩
      intro y hy
      simp only [runs_bind, runs_wr, runs_pure]
      refine ⟨by omega, by omega, ?_⟩
      have hge := hl.max_ge rk e.y.get e.smax (fun i => s.mat.get (i + rk * n)) (s.mat.get (rk + rk * n)) h4.le
      refine (ih (rk + 1) _ (by omega) hx hy (lt_of_lt_of_le h4 hge) ?_).mono fun r hr => ⟨hr.1, by omega, hr.2.2⟩
      intro i hi
      rcases Nat.lt_succ_iff_lt_or_eq.1 hi with h' | rfl
      · exact h i h'
      · intro h0
        rw [h0, hl.min_zero, zero_mul] at hacc
        rw [h0] at hge
        exact absurd (lt_of_lt_of_le h4 (le_trans hge hacc)) (lt_irrefl _)
    · rw [runs_pure]
      exact ⟨by omega, le_refl _, h⟩

theorem estRank_runs_ge {env : Env K R} (hl : Laic1OK env) (s : St K) (n : Nat) (hn : s.nrows = n) (hm : s.mat.size = n * n) :
    ∀ k rk (e : Est K R), rk + k = n → e.x.size = n → e.y.size = n → 0 < e.smax → Runs (estRank env s k rk e) fun r => rk ≤ r := by
  intro k
  induction k with
  | zero =>
    intro rk e h1 _ _ _
    rw [estRank, runs_pure]
  | succ k ih =>
    intro rk e h1 h2 h3 h4
    have b : (rk + 1) * n ≤ n * n := Nat.mul_le_mul_right _ (by omega)
    rw [Nat.add_mul, Nat.one_mul] at b
    rw [estRank, runs_bind]
    unfold St.at
    rw [runs_rd, hn]
    refine ⟨by omega, ?_⟩
    rw [if_pos (by omega)]
    dsimp only
    split
    · rw [runs_bind]
      unfold accept
      rw [runs_bind]
      refine forUp_runs' (fun _ (x : Buf K) => x.size = n) (Nat.zero_le _) h2 ?_ ?_
      · intro i x _ hi hx
        simp only [runs_bind, runs_rd, runs_wr, Buf.set_size]
        exact ⟨by omega, by omega, hx⟩
      intro x hx
      rw [runs_bind]
      refine forUp_runs' (fun _ (x : Buf K) => x.size = n) (Nat.zero_le _) h3 ?_ ?_
      · intro i x _ hi hx
        simp only [runs_bind, runs_rd, runs_wr, Buf.set_size]
        exact ⟨by omega, by omega, hx⟩
      intro y hy
      simp only [runs_bind, runs_wr, runs_pure]
      refine ⟨by omega, by omega, ?_⟩
      have hge := hl.max_ge rk e.y.get e.smax (fun i => s.mat.get (i + rk * n)) (s.mat.get (rk + rk * n)) h4.le
      exact (ih (rk + 1) _ (by omega) hx hy (lt_of_lt_of_le h4 hge)).mono fun r hr => by omega
    · rw [runs_pure]

theorem estRank2_runs {env : Env K R} (hl : Laic1OK env) (hnrm : NrmOK env.nrm) (s : St K) (n : Nat) (hpos : 0 < n) (hn : s.nrows = n) (hc : s.ncols = n) (hm : s.mat.size = n * n)
    (h0 : s.mat.get 0 ≠ 0) : Runs (estRank2 env s) fun r => r ≤ n ∧ ∀ i, i < r → s.mat.get (i + i * n) ≠ 0 := by
  unfold estRank2 St.at
  have : 0 < n * n := Nat.mul_pos hpos hpos
  simp only [runs_bind, runs_rd, runs_wr]
  refine ⟨by rw [hm]; omega, by show 0 < s.ncols; omega, by show 0 < s.ncols; omega, ?_⟩
  rw [hc]
  refine (estRank_runs hl s n hn hm n 0 ⟨_, _, _, _⟩ (by omega) rfl rfl ?_ (fun i hi => by omega)).mono fun r hr => ⟨hr.1, hr.2.2⟩
  refine lt_of_le_of_ne (hnrm.nonneg _) fun e => h0 ?_
  have := (hnrm.zero _).1 e.symm
  simpa using this

/-- The value of an entry accepted in the first step. -/
theorem estRank2_pos {env : Env K R} (hl : Laic1OK env) (hnrm : NrmOK env.nrm) (s : St K) (n : Nat) (hpos : 0 < n) (hn : s.nrows = n) (hc : s.ncols = n) (hm : s.mat.size = n * n)
    (h0 : s.mat.get 0 ≠ 0) (hct : 1 ≤ env.condThres) : Runs (estRank2 env s) fun r => 0 < r := by
  have hp : 0 < env.nrm (s.mat.get 0) := lt_of_le_of_ne (hnrm.nonneg _) fun e => h0 ((hnrm.zero _).1 e.symm)
  unfold estRank2 St.at
  have hnn : 0 < n * n := Nat.mul_pos hpos hpos
  simp only [runs_bind, runs_rd, runs_wr]
  refine ⟨by rw [hm]; omega, by show 0 < s.ncols; omega, by show 0 < s.ncols; omega, ?_⟩
  rw [hc]
  obtain ⟨k, rfl⟩ : ∃ k, n = k + 1 := ⟨n - 1, by omega⟩
  rw [estRank, runs_bind]
  unfold St.at
  rw [runs_rd]
  simp only [Nat.zero_mul, Nat.zero_add]
  refine ⟨by omega, ?_⟩
  rw [if_pos ⟨by omega, Nat.zero_le _, Nat.zero_le _⟩, hl.min_flat 0 _ _ _ _ hp (by simp) (le_refl _), hl.max_flat 0 _ _ _ _ hp (by simp) (le_refl _)]
  dsimp only
  rw [if_pos (by calc env.nrm (s.mat.get 0) = env.nrm (s.mat.get 0) * 1 := (mul_one _).symm
                   _ ≤ env.nrm (s.mat.get 0) * env.condThres := mul_le_mul_of_nonneg_left hct hp.le)]
  unfold accept
  simp only [forUp_empty _ _ (Nat.le_refl 0), runs_bind, runs_wr, runs_pure]
  refine ⟨by show 0 < k + 1; omega, by show 0 < k + 1; omega, ?_⟩
  refine (estRank_runs_ge hl s (k + 1) hn hm k 1 ⟨_, _, _, _⟩ (by omega) rfl rfl hp).mono fun r hr => by omega

/-- With the zero vector for the largest singular value the estimate does not change. -/
theorem estRank_withoutMax {env env' : Env K R} (hl : Laic1OK env) (s : St K) (n : Nat) (hn : s.nrows = n) (hm : s.mat.size = n * n) {top : R} (htop : 0 < top)
    (hlead : ∀ i, i < n → env.nrm (s.mat.get (i + i * n)) ≤ top)
    (h2 : env'.condThres = env.condThres) (h3 : ∀ j x e w g, env'.laic1 false j x e w g = env.laic1 false j x e w g)
    (h4 : ∀ j x e w g, env'.laic1 true j x e w g = (e, 1, 0)) :
    ∀ k rk (e : Est K R), rk + k = n → e.x.size = n → e.y.size = n → e.smax = top → (∀ i, i < rk → e.y.get i = 0) → estRank env s k rk e = estRank env' s k rk e := by
  intro k
  induction k with
  | zero => intros; rw [estRank, estRank]
  | succ k ih =>
    intro rk e r1 r2 r3 r4 r5
    have b : (rk + 1) * n ≤ n * n := Nat.mul_le_mul_right _ (by omega)
    rw [Nat.add_mul, Nat.one_mul] at b
    rw [estRank, estRank]
    unfold St.at
    have hrd : s.mat.rd (rk + rk * s.nrows) = .ok (s.mat.get (rk + rk * s.nrows)) := by
      unfold Buf.rd; rw [if_pos (by rw [hn]; omega)]; rfl
    rw [hrd]
    show (if _ then _ else _) = (if _ then _ else _)
    have hb : rk + rk * s.nrows ≤ s.mat.size ∧ rk ≤ e.x.size ∧ rk ≤ e.y.size := by rw [hn]; omega
    rw [if_pos hb, if_pos hb]
    rw [h3, h4, h2, hl.max_flat rk e.y.get e.smax (fun i => s.mat.get (i + rk * s.nrows)) (s.mat.get (rk + rk * s.nrows)) (by rw [r4]; exact htop)
      (sum_eq_zero fun i hi => by rw [r5 i (mem_range.1 hi), star_zero, zero_mul]) (by rw [r4, hn]; exact hlead rk (by omega))]
    dsimp only
    split
    · have hacc : Runs (accept rk e (env.laic1 false rk e.x.get e.smin (fun i => s.mat.get (i + rk * s.nrows)) (s.mat.get (rk + rk * s.nrows))) (e.smax, 1, 0)) fun e' =>
          e'.x.size = n ∧ e'.y.size = n ∧ e'.smax = top ∧ ∀ i, i < rk + 1 → e'.y.get i = 0 := by
        unfold accept
        rw [runs_bind]
        refine forUp_runs' (fun _ (x : Buf K) => x.size = n) (Nat.zero_le _) r2 ?_ ?_
        · intro i x _ hi hx
          simp only [runs_bind, runs_rd, runs_wr, Buf.set_size]
          exact ⟨by omega, by omega, hx⟩
        intro x hx
        rw [runs_bind]
        refine forUp_runs' (fun _ (x : Buf K) => x.size = n ∧ ∀ i, i < rk → x.get i = 0) (Nat.zero_le _) ⟨r3, r5⟩ ?_ ?_
        · rintro i x _ hi ⟨hx, hx0⟩
          simp only [runs_bind, runs_rd, runs_wr, Buf.set_size]
          refine ⟨by omega, by omega, hx, fun l hl => ?_⟩
          rw [Buf.set_get]
          split
          · rename_i e'; subst e'; rw [hx0 l hl, zero_mul]
          · exact hx0 l hl
        rintro y ⟨hy, hy0⟩
        simp only [runs_bind, runs_wr, runs_pure, Buf.set_size]
        refine ⟨by omega, by omega, hx, hy, r4, fun i hi => ?_⟩
        rw [Buf.set_get]
        split
        · rfl
        · exact hy0 i (by omega)
      obtain ⟨e', he, q1, q2, q3, q4⟩ := hacc
      rw [he]
      exact ih (rk + 1) e' (by omega) q1 q2 q3 q4
    · rfl

theorem estRank2_withoutMax {env env' : Env K R} (hl : Laic1OK env) (s : St K) (n : Nat) (hn : s.nrows = n) (hc : s.ncols = n) (hm : s.mat.size = n * n) (hpos : 0 < n)
    (htop : 0 < env.nrm (s.mat.get 0)) (hlead : ∀ i, i < n → env.nrm (s.mat.get (i + i * n)) ≤ env.nrm (s.mat.get 0)) (h1 : env'.nrm = env.nrm)
    (h2 : env'.condThres = env.condThres) (h3 : ∀ j x e w g, env'.laic1 false j x e w g = env.laic1 false j x e w g)
    (h4 : ∀ j x e w g, env'.laic1 true j x e w g = (e, 1, 0)) : estRank2 env s = estRank2 env' s := by
  unfold estRank2 St.at
  have hnn : 0 < n * n := Nat.mul_pos hpos hpos
  have hrd : s.mat.rd (0 + 0 * s.nrows) = .ok (s.mat.get 0) := by
    unfold Buf.rd; rw [if_pos (by rw [Nat.zero_mul, hm]; omega)]; simp; rfl
  have hw : (Buf.mk' s.ncols (0 : K)).wr 0 1 = .ok ((Buf.mk' s.ncols (0 : K)).set 0 1) := by
    unfold Buf.wr; rw [if_pos (by show 0 < s.ncols; omega)]; rfl
  rw [hrd]
  show ((Buf.mk' s.ncols (0 : K)).wr 0 1 >>= _) = ((Buf.mk' s.ncols (0 : K)).wr 0 1 >>= _)
  rw [hw]
  show estRank env s s.ncols 0 ⟨_, _, _, _⟩ = estRank env' s s.ncols 0 ⟨_, _, _, _⟩
  rw [h1, hc]
  exact estRank_withoutMax hl s n hn hm htop hlead h2 h3 h4 n 0 _ (by omega) rfl rfl rfl (fun i hi => by omega)

/-- If the matrix is zero, so is `R`. -/
theorem Fac.pivot_of_zero {n : Nat} {A : Nat → Nat → K} {s : St K} (h : Fac n A s) (hz : ∀ i j, i < n → j < n → A i j = 0) : s.mat.get 0 = 0 := by
  have h1 : qhb n s (applyQ n s.mat.get s.tau.get n fun l => upper n s.mat.get l 0) 0 = upper n s.mat.get 0 0 := by rw [h.qhb_applyQ]
  have h2 : qhb n s (applyQ n s.mat.get s.tau.get n fun l => upper n s.mat.get l 0) 0 = qhb n s (fun _ => 0) 0 := by
    refine qhb_congr (fun i hi => ?_) h.pos
    have := h.qr i 0 hi h.pos
    rw [hz i _ hi (h.jperm.1 0 h.pos)] at this
    exact this.symm
  have h3 : qhb n s (fun _ => 0) 0 = 0 := by
    have := applyQH_sub n s.mat.get s.tau.get n (fun _ => 0) (fun _ => 0) 0
    simp only [sub_self] at this
    exact this
  rw [h2, h3] at h1
  have : upper n s.mat.get 0 0 = s.mat.get 0 := by unfold upper; rw [if_pos (le_refl _)]; simp
  rw [← this, ← h1]

/-- The diagonal. -/
theorem upper_diag (n : Nat) (mat : Nat → K) (i : Nat) : upper n mat i i = mat (i + i * n) := by unfold upper; rw [if_pos (le_refl _)]

/-- `factorize` succeeds with a factorization of the matrix; unless the matrix is zero, the pivots within the rank are nonzero. -/
theorem factorize_runs {env : Env K R} (hl : Laic1OK env) (hnrm : NrmOK env.nrm) (ht : 0 < env.diagTol) {n : Nat} (hpos : 0 < n) {mat : Buf K}
    (hg : Geqp3OK env n mat) :
    Runs (factorize env n n mat) fun s => Fac n (fun i j => mat.get (i + j * n)) s ∧ s.rank ≤ n ∧
      ((∃ i j, i < n ∧ j < n ∧ mat.get (i + j * n) ≠ 0) → PivotsOK n s s.rank) := by
  unfold factorize
  rw [if_neg (by omega), if_neg (lt_irrefl _)]
  dsimp only
  rw [if_neg (not_lt.2 hg.info), runs_bind, runs_rd]
  have hF := hg.fac n
  have hms : (env.geqp3 n n mat).mat.size = n * n := hF.msz
  have hnn : 0 < n * n := Nat.mul_pos hpos hpos
  refine ⟨by omega, ?_⟩
  have hR0 : (∃ i j, i < n ∧ j < n ∧ mat.get (i + j * n) ≠ 0) → 0 < env.nrm ((env.geqp3 n n mat).mat.get 0) := by
    rintro ⟨i, j, hi, hj, h0⟩
    refine lt_of_lt_of_le (lt_of_le_of_ne (hnrm.nonneg _) fun e => h0 ((hnrm.zero _).1 e.symm)) (hg.entry i j hi hj)
  rw [runs_bind, Nat.min_self]
  refine (smallDiag_runs env.nrm ⟨n, n, (env.geqp3 n n mat).mat, (env.geqp3 n n mat).jpvt, (env.geqp3 n n mat).tau, n⟩ _ n rfl hms n (le_refl _)).mono ?_
  intro small hsm
  split
  · by_cases h0 : (env.geqp3 n n mat).mat.get 0 = 0
    · -- cannot happen: nothing is smaller than zero
      rename_i hs
      exfalso
      rw [hsm.2 fun x => by rw [h0, (hnrm.zero 0).2 rfl, mul_zero]; exact hnrm.nonneg x] at hs
      exact absurd hs (by simp)
    · rw [runs_bind]
      refine (estRank2_runs hl hnrm _ n hpos rfl rfl hms h0).mono ?_
      rintro r ⟨r1, r2⟩
      rw [runs_pure]
      refine ⟨hg.fac r, r1, fun _ i hi => ?_⟩
      show upper n (env.geqp3 n n mat).mat.get i i ≠ 0
      rw [upper_diag]
      exact r2 i hi
  · rename_i hs
    rw [runs_pure]
    refine ⟨hF, le_refl _, fun hne i hi => ?_⟩
    show upper n (env.geqp3 n n mat).mat.get i i ≠ 0
    rw [upper_diag]
    have := hsm.1 (by simpa using hs) i hi
    intro h0
    rw [show (⟨n, n, (env.geqp3 n n mat).mat, (env.geqp3 n n mat).jpvt, (env.geqp3 n n mat).tau, n⟩ : St K).mat.get (i + i * n) = 0 from h0, (hnrm.zero 0).2 rfl] at this
    exact absurd (lt_of_lt_of_le (mul_pos ht (hR0 hne)) this) (lt_irrefl _)

end Qrcp
end Hif
