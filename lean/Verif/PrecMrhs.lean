import Verif.BuilderLemmas

set_option linter.unusedSectionVars false
set_option linter.unusedVariables false
set_option linter.unusedSimpArgs false

/-! # Proofs about `prec_solve_mrhs` (helpers for `Props/Mrhs.lean`) -/

namespace Hif
open Finset Spec
variable {K : Type _} [Field K] [StarRing K]

namespace Prec

theorem updRows_runs {N lo hi : Nat} {w : Buf K} {g : Nat → Nat → K → M K} (h : lo ≤ hi) (hw : hi * N ≤ w.size)
    (v : Nat → Nat → K) (hg : ∀ i k, lo ≤ i → i < hi → k < N → Runs (g i k (w.get (i * N + k))) fun a => a = v i k) :
    Runs (updRows N lo hi w g) fun w' => w'.size = w.size ∧
      ∀ i k, k < N → w'.get (i * N + k) = if lo ≤ i ∧ i < hi then v i k else w.get (i * N + k) := by
  unfold updRows
  refine forUp_runs' (fun j (w' : Buf K) => w'.size = w.size ∧
    ∀ i k, k < N → w'.get (i * N + k) = if lo ≤ i ∧ i < j then v i k else w.get (i * N + k)) h
    ⟨rfl, fun i k _ => by rw [if_neg (by omega)]⟩ ?_ (fun _ q => q)
  rintro j w' h1 h2 ⟨h3, h4⟩
  refine forUp_runs' (fun l (w'' : Buf K) => w''.size = w.size ∧
    ∀ i k, k < N → w''.get (i * N + k) = if lo ≤ i ∧ (i < j ∨ i = j ∧ k < l) then v i k else w.get (i * N + k))
    (Nat.zero_le _) ⟨h3, fun i k hk => ?_⟩ ?_ ?_
  · rw [h4 i k hk]
    by_cases c : lo ≤ i ∧ i < j
    · rw [if_pos c, if_pos (by omega)]
    · rw [if_neg c, if_neg (by omega)]
  · rintro l w'' - hl ⟨h5, h6⟩
    have hb := CS.flat_lt h2 hl
    simp only [runs_bind, runs_rd]
    refine ⟨by omega, ?_⟩
    rw [h6 j l hl, if_neg (by omega)]
    refine (hg j l h1 h2 hl).mono ?_
    rintro a rfl
    simp only [runs_wr, Buf.set_size, Buf.set_get]
    refine ⟨by omega, h5, fun i k hk => ?_⟩
    by_cases e : i * N + k = j * N + l
    · obtain ⟨rfl, rfl⟩ := CS.flat_inj hk hl e
      rw [if_pos rfl, if_pos (by omega)]
    · rw [if_neg e, h6 i k hk]
      by_cases c : lo ≤ i ∧ (i < j ∨ i = j ∧ k < l)
      · rw [if_pos c, if_pos (by omega)]
      · have : ¬ (lo ≤ i ∧ (i < j ∨ i = j ∧ k < l + 1)) := by
          rintro ⟨c1, c2 | ⟨rfl, c2⟩⟩
          · exact c ⟨c1, Or.inl c2⟩
          · have : k ≠ l := fun h => e (by rw [h])
            exact c ⟨c1, Or.inr ⟨rfl, by omega⟩⟩
        rw [if_neg c, if_neg this]
  · rintro w'' ⟨h5, h6⟩
    refine ⟨h5, fun i k hk => ?_⟩
    rw [h6 i k hk]
    by_cases c : lo ≤ i ∧ i < j + 1
    · rw [if_pos c, if_pos (by omega)]
    · rw [if_neg c, if_neg (by omega)]

/-- `prec_solve_ldu_mrhs` solves each column with `(I+L) D (I+U)`. -/
theorem solveLduMrhs_runs {P : Prec K} (ok : P.OK) (N : Nat) (y : Buf K) (hy : P.m * N ≤ y.size) :
    Runs (P.solveLduMrhs N y) fun x => x.size = y.size ∧
      ∀ c, c < N → ∀ i, i < P.m → ldu P.m P.L.ccs P.d.get P.U.ccs (col N x.get c) i = col N y.get c i := by
  unfold solveLduMrhs
  rw [ok.U_s]
  split
  · rename_i h0
    rw [runs_pure]
    exact ⟨rfl, fun c hc i hi => by omega⟩
  rename_i h0
  obtain ⟨x1, e1, s1, l1⟩ := Props.C07_ccs_lower_mrhs P.L ok.L_wf P.m ok.L_p ok.L_s N y hy ok.lower
  rw [e1]
  simp only [runs_bind, runs_ok]
  have hd := ok.d_size
  refine (updRows_runs (Nat.zero_le _) (by omega) (fun i k => x1.get (i * N + k) / P.d.get i) ?_).mono ?_
  · intro i k _ hi hk
    simp only [runs_bind, runs_rd, runs_pure]
    exact ⟨by omega, by tt⟩
  rintro x2 ⟨s2, l2⟩
  obtain ⟨x3, e3, s3, l3⟩ := Props.C07_ccs_upper_mrhs P.U ok.U_wf P.m ok.U_p ok.U_s N x2 (by omega) (by omega) ok.upper
  rw [e3, runs_ok]
  refine ⟨by omega, fun c hc i hi => ?_⟩
  have key : ∀ j, j < P.m → P.d.get j * (col N x3.get c j + mulVec P.m P.U.ccs (col N x3.get c) j) = col N x1.get c j := by
    intro j hj
    have := l3 c hc j hj
    rw [this]
    show P.d.get j * x2.get (j * N + c) = _
    rw [l2 j c hc, if_pos (by omega), mul_div_cancel₀ _ (ok.d_ne j hj)]
    rfl
  unfold ldu
  rw [key i hi, mulVec_congr' key i]
  exact l1 c hc i hi

theorem mulAtRow_runs {s b : Buf K} {p : Buf Nat} {N i k : Nat} (h1 : i < p.size) (h2 : p.get i < s.size)
    (h3 : p.get i * N + k < b.size) : Runs (mulAtRow s b p N i k) fun a => a = s.get (p.get i) * b.get (p.get i * N + k) := by
  unfold mulAtRow; simp [h1, h2, h3]

/-- `prec_solve_mrhs` on a single level whose leading block is everything. -/
theorem solveMrhs_runs {P : Prec K} (ok : P.OK) (hmn : P.m = P.n) (N r : Nat) (S : Nat → Nat → K) (b y work : Buf K)
    (hb : b.size = P.n * N) (hy : y.size = P.n * N) (hw : P.n * N ≤ work.size) :
    Runs (solveMrhs N r [P] b y work) fun o => o.1.size = P.n * N ∧ o.2.size = work.size ∧
      ∀ c, c < N → Applies S [P.toLevel] P.n (col N o.1.get c) (col N b.get c) := by
  rw [solveMrhs]
  simp only [runs_bind]
  refine (updRows_runs (Nat.zero_le _) (by rw [hmn]; omega) (fun i k => P.s.get (P.p.get i) * b.get (P.p.get i * N + k)) ?_).mono ?_
  · intro i k _ hi hk
    have hp := (ok.p_inv.1 i (by omega)).1
    exact mulAtRow_runs (lt_of_lt_of_le (by omega) ok.p_size) (lt_of_lt_of_le hp ok.s_size)
      (by rw [hb]; exact CS.flat_lt hp hk)
  rintro w1 ⟨s1, l1⟩
  unfold solveEMrhs
  rw [if_neg (by omega), runs_pure]
  simp only
  unfold schurStageMrhs
  have hl : P.isLast = true := by unfold isLast; simp [hmn]
  rw [if_pos hl, if_neg (by omega), runs_pure]
  simp only
  unfold solveFMrhs
  simp only [runs_bind]
  refine (updRows_runs ok.le (by omega) (fun _ _ => 0) (fun i k h1 h2 => by omega)).mono ?_
  rintro y1 ⟨s2, l2⟩
  have hF := ok.F_p
  rw [if_neg (by omega), if_neg (by omega)]
  simp only [runs_bind, runs_pure]
  refine (solveLduMrhs_runs ok N w1 (by rw [hmn]; omega)).mono ?_
  rintro w2 ⟨s3, l3⟩
  refine (updRows_runs (Nat.zero_le _) (by show P.n * N ≤ y1.size; omega)
    (fun i k => P.t.get i * w2.get (P.qinv.get i * N + k)) ?_).mono ?_
  · intro i k _ hi hk
    have hq := (ok.q_inv.2 i hi).1
    have := ok.qinv_size
    have := ok.t_size
    have := CS.flat_lt (n := P.n) hq hk
    simp only [runs_bind, runs_rd, runs_pure]
    exact ⟨by omega, by omega, by omega, by tt⟩
  rintro y2 ⟨s4, l4⟩
  refine ⟨by show y2.size = _; omega, by show w2.size = _; omega, fun c hc => ?_⟩
  show Applies S [P.toLevel] P.n (col N y2.get c) (col N b.get c)
  have hx : ∀ j, j < P.n → col N y2.get c (P.q.get j) / P.t.get (P.q.get j) = col N w2.get c j := fun j hj => by
    have hq := ok.q_inv.1 j hj
    show y2.get (P.q.get j * N + c) / _ = w2.get (j * N + c)
    rw [l4 _ c hc, if_pos ⟨Nat.zero_le _, hq.1⟩, hq.2, mul_div_cancel_left₀ _ (ok.t_ne _ hq.1)]
  have key : ∀ i, i < P.m → ldu P.m P.L.ccs P.d.get P.U.ccs (fun j => col N y2.get c (P.q.get j) / P.t.get (P.q.get j)) i =
      P.s.get (P.p.get i) * col N b.get c (P.p.get i) := by
    intro i hi
    rw [ldu_congr (fun j hj => hx j (by omega)) hi, l3 c hc i hi]
    show w1.get (i * N + c) = _
    rw [l1 i c hc, if_pos (by omega)]
    rfl
  have z : P.n - P.m = 0 := by omega
  refine ⟨fun i hi => ?_, fun j => col N y2.get c (P.q.get j) / P.t.get (P.q.get j), fun _ => 0, key, ?_, fun i hi => ?_⟩
  · show _ + mulVec (P.n - P.m) _ _ i = _
    rw [z]
    simp only [mulVec, range_zero, sum_empty, add_zero]
    exact key i hi
  · intro i hi
    have : i < P.n - P.m := hi
    omega
  · have : i < P.n - P.m := hi
    omega

end Prec
end Hif
