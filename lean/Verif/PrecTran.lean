import Verif.PrecLemmas

set_option linter.unusedSectionVars false
set_option linter.unusedVariables false
set_option linter.unusedSimpArgs false

/-! # Proofs about `prec_solve_tran`, `prec_prod` and `prec_prod_tran` (helpers for `Props/Prec.lean`) -/

namespace Hif
open Finset Spec

variable {K : Type _} [Field K] [StarRing K]

namespace Prec

theorem adj_chain {lvs : List (Level K)} {k kf : Nat} (h : Chain lvs k kf) : Chain (lvs.map Level.adj) k kf := by
  induction lvs generalizing k with
  | nil => exact h
  | cons v rest ih =>
    obtain ⟨h1, h2, h3⟩ := h
    refine ⟨h1, ?_, ih h3⟩
    refine ⟨h2.le, ?_, ?_, fun i hi => star_ne_zero.2 (h2.d_ne i hi), h2.t_ne, h2.s_ne, h2.q_perm, h2.p_perm⟩
    · intro i hi j hj hij
      show star (v.U j i) = 0
      rw [h2.upper j hj i hi hij, star_zero]
    · intro i hi j hj hij
      show star (v.L j i) = 0
      rw [h2.lower j hj i hi hij, star_zero]

theorem solveTF_runs {P : Prec K} (ok : P.OK) (b y work : Buf K) (hb : P.n ≤ b.size) (hy : P.n ≤ y.size)
    (hw : P.n ≤ work.size) (h : ∀ i, i < P.m → work.get i = P.t.get (P.q.get i) * b.get (P.q.get i)) :
    Runs (P.solveTF b y work) fun o => o.1.size = work.size ∧ o.2.size = y.size ∧
      (P.m < P.n → (∀ i, i < P.m → ldu P.m (herm P.U.ccs) (fun i => star (P.d.get i)) (herm P.L.ccs) o.1.get i =
          P.t.get (P.q.get i) * b.get (P.q.get i)) ∧
        ∀ i, i < P.n - P.m → mulVec P.m (herm P.F.ccs) o.1.get i + o.2.get (P.m + i) =
          P.t.get (P.q.get (P.m + i)) * b.get (P.q.get (P.m + i))) := by
  unfold solveTF
  have hle := ok.le
  have hF := ok.F_p
  simp only [runs_ite, runs_pure]
  split
  · rename_i hnm
    simp only [runs_bind]
    obtain ⟨ew, es⟩ := ok.F_wf (by omega)
    refine (solveUtdlt_runs ok work (by omega)).mono ?_
    rintro w1 ⟨s1, l1, f1⟩
    rw [Buf.runs_winTail]
    refine ⟨by omega, ?_⟩
    refine (CS.ccsMulT_runs ew w1 _ (by omega) (by show P.F.psize ≤ y.size - P.m; omega)).mono ?_
    rintro v ⟨s2, l2, f2⟩
    have s2 : v.size = y.size - P.m := s2
    refine (updRange_runs hle (by rw [Buf.put_size]; omega)
      (fun i => P.t.get (P.q.get i) * b.get (P.q.get i) - (y.put P.m v).get i) ?_).mono ?_
    · intro i hi1 hi2
      have hp := (ok.q_inv.1 i hi2).1
      simp only [runs_bind, runs_pure]
      refine (mulAt_runs (lt_of_lt_of_le hi2 ok.q_size) (lt_of_lt_of_le hp ok.t_size) (by omega)).mono ?_
      rintro a rfl; tt
    rintro y1 ⟨s3, l3⟩
    rw [runs_pure]
    refine ⟨s1, s3, fun _ => ⟨fun i hi => ?_, fun i hi => ?_⟩⟩
    · rw [l1 i hi, h i hi]
    · rw [l3, if_pos (by omega), Buf.put_get, if_pos (by omega), show P.m + i - P.m = i by omega, l2 i (by omega), es]
      ring
  · rename_i hnm
    rw [if_neg (by omega)]
    exact ⟨by tt, by tt, fun c => by omega⟩

theorem solveTE_runs {P : Prec K} (ok : P.OK) (b y work : Buf K) (hb : P.n ≤ b.size) (hy : y.size = P.n)
    (hw : P.n ≤ work.size) :
    Runs (P.solveTE b y work) fun w => w.size = work.size ∧
      (∀ i, i < P.m → ldu P.m (herm P.U.ccs) (fun i => star (P.d.get i)) (herm P.L.ccs) w.get i +
        mulVec (P.n - P.m) (herm P.E.ccs) (fun j => y.get (P.m + j)) i = P.t.get (P.q.get i) * b.get (P.q.get i)) ∧
      ∀ i, i < P.n - P.m → w.get (P.m + i) = y.get (P.m + i) := by
  unfold solveTE
  have hle := ok.le
  simp only [runs_bind]
  refine (fillRange_runs (by omega) (by omega) y.get (fun i h1 h2 => by simp [h2])).mono ?_
  rintro w1 ⟨s1, l1⟩
  have hp : ∀ i, i < P.m → Runs (mulAt P.t b P.q i) fun a => a = P.t.get (P.q.get i) * b.get (P.q.get i) := by
    intro i hi
    have hp := (ok.q_inv.1 i (by omega)).1
    exact mulAt_runs (lt_of_lt_of_le (by omega) ok.q_size) (lt_of_lt_of_le hp ok.t_size) (by omega)
  simp only [runs_ite]
  split
  · rename_i hnm
    obtain ⟨ew, ep, es⟩ := ok.E_wf (by omega)
    simp only [runs_bind]
    rw [Buf.runs_winTail]
    refine ⟨by omega, ?_⟩
    refine (CS.ccsMulT_runs ew _ w1 (by show P.E.ssize ≤ y.size - P.m; omega) (by omega)).mono ?_
    rintro w2 ⟨s2, l2, f2⟩
    refine (updRange_runs (Nat.zero_le _) (by omega)
      (fun i => P.t.get (P.q.get i) * b.get (P.q.get i) - w2.get i) ?_).mono ?_
    · intro i _ hi
      simp only [runs_bind, runs_pure]
      refine (hp i hi).mono ?_
      rintro a rfl; tt
    rintro w3 ⟨s3, l3⟩
    refine (solveUtdlt_runs ok w3 (by omega)).mono ?_
    rintro w4 ⟨s4, l4, f4⟩
    refine ⟨by omega, fun i hi => ?_, fun i hi => ?_⟩
    · rw [l4 i hi, l3, if_pos (by omega), l2 i (by omega), es]; ring
    · rw [f4 _ (by omega), l3, if_neg (by omega), f2 _ (by omega), l1, if_pos (by omega)]
  · rename_i hnm
    rw [runs_bind]
    refine (fillRange_runs (Nat.zero_le _) (by omega) _ (fun i _ hi => hp i hi)).mono ?_
    rintro w3 ⟨s3, l3⟩
    refine (solveUtdlt_runs ok w3 (by omega)).mono ?_
    rintro w4 ⟨s4, l4, f4⟩
    refine ⟨by omega, fun i hi => ?_, fun i hi => by omega⟩
    rw [l4 i hi, l3, if_pos (by omega), show P.n - P.m = 0 by omega]
    simp [mulVec]

/-- Main lemma for `prec_solve_tran`. -/
theorem solveT_runs {r : Nat} {S : Nat → Nat → K} {kf : Nat} : ∀ {precs : List (Prec K)} {k : Nat}, Good r S kf precs k →
    ∀ (b y work : Buf K), k ≤ b.size → y.size = k → workSpace precs ≤ work.size →
    Runs (solveT r precs b y work) fun o => o.1.size = k ∧ o.2.size = work.size ∧
      Applies (herm S) ((precs.map toLevel).map Level.adj) k o.1.get b.get
  | [], _, h => h.elim
  | P :: rest, k, ⟨hk, ok, h3⟩ => by
    intro b y work hb hy hw
    subst hk
    have hle := ok.le
    have hwn : P.n + workSpace rest ≤ work.size := hw
    rw [solveT]
    simp only [runs_bind]
    refine (fillRange_runs (Nat.zero_le _) (by omega) (fun i => P.t.get (P.q.get i) * b.get (P.q.get i)) ?_).mono ?_
    · intro i _ hi
      have hp := (ok.q_inv.1 i (by omega)).1
      exact mulAt_runs (lt_of_lt_of_le (by omega) ok.q_size) (lt_of_lt_of_le hp ok.t_size) (by omega)
    rintro w1 ⟨s1, l1⟩
    have hw1 : ∀ i, i < P.m → w1.get i = P.t.get (P.q.get i) * b.get (P.q.get i) := fun i hi => by
      rw [l1, if_pos (by omega)]
    refine (solveTF_runs ok b y w1 hb (by omega) (by omega) hw1).mono ?_
    rintro ⟨w2, y2⟩ ⟨a1, a2, a5⟩
    simp only at a1 a2 a5
    -- the middle stage: solve with the Schur complement
    have mid : Runs (P.schurStage (P.lastSolve r true) (solveT r rest) y2 w2) fun o => o.1.size = work.size ∧ o.2.size = P.n ∧
        Applies (herm S) ((rest.map toLevel).map Level.adj) (P.n - P.m) (fun j => o.2.get (P.m + j))
          (fun j => y2.get (P.m + j)) := by
      unfold schurStage
      simp only [runs_ite]
      split
      · rename_i hlast
        rw [if_pos hlast] at h3
        obtain ⟨rfl, hkf, hL⟩ := h3
        simp only [runs_bind, runs_pure]
        refine (lastSolve_runs ok hkf hL true y2 (by omega)).mono ?_
        rintro y3 ⟨q1, q2⟩
        refine ⟨by omega, q1, fun i hi => ?_⟩
        have := q2 i (by omega)
        rw [hkf]; exact this
      · rename_i hlast
        rw [if_neg hlast] at h3
        simp only [runs_bind, Buf.runs_win, Buf.runs_winTail]
        refine ⟨by omega, ?_⟩
        refine (fillRange_runs hle (by omega) y2.get ?_).mono ?_
        · intro i hi1 hi2
          simp only [runs_rd]
          exact ⟨by omega, by congr 1; omega⟩
        rintro w3 ⟨q1, q2⟩
        refine ⟨by omega, by omega, ?_⟩
        refine (solveT_runs h3 _ _ _ (le_refl _) rfl (by show workSpace rest ≤ w3.size - P.n; omega)).mono ?_
        rintro ⟨x, w4⟩ ⟨r1, r2, r3⟩
        simp only [runs_pure, Buf.put_size]
        refine ⟨by omega, by omega, ?_⟩
        · refine Applies.congr (adj_chain (Good.chain h3)) r3 (fun i hi => ?_) fun i hi => ?_
          · have r1 : x.size = P.n - P.m := r1
            simp only
            rw [Buf.put_get, if_pos (by omega)]; congr 1; omega
          · simp only
            rw [q2, if_pos (by omega)]
    refine mid.mono ?_
    rintro ⟨w3, y3⟩ ⟨c1, c2, c4⟩
    simp only at c1 c2 c4
    refine (solveTE_runs ok b y3 w3 hb c2 (by omega)).mono ?_
    rintro w4 ⟨d1, d2, d3⟩
    refine (fillRange_runs (Nat.zero_le _) (by show P.n ≤ y3.size; omega) (fun i => P.s.get i * w4.get (P.pinv.get i)) ?_).mono ?_
    · intro i _ hi
      have hq := (ok.p_inv.2 i hi).1
      have := ok.pinv_size
      have := ok.s_size
      simp only [runs_bind, runs_rd, runs_pure]
      exact ⟨by omega, by omega, by omega, by tt⟩
    rintro y4 ⟨e1, e2⟩
    simp only [runs_pure]
    refine ⟨e1.trans c2, by omega, ?_⟩
    -- the permuted and scaled solution is the final work vector
    have hx : ∀ j, j < P.n → y4.get (P.p.get j) / P.s.get (P.p.get j) = w4.get j := fun j hj => by
      have hq := ok.p_inv.1 j hj
      rw [e2, if_pos ⟨Nat.zero_le _, hq.1⟩, hq.2, mul_div_cancel_left₀ _ (ok.s_ne _ hq.1)]
    have hx2 : ∀ j, j < P.n - P.m → y4.get (P.p.get (P.m + j)) / P.s.get (P.p.get (P.m + j)) = y3.get (P.m + j) := fun j hj => by
      rw [hx _ (by omega), d3 j hj]
    have key1 : ∀ i, i < P.m → ldu P.m (herm P.U.ccs) (fun i => star (P.d.get i)) (herm P.L.ccs)
          (fun j => y4.get (P.p.get j) / P.s.get (P.p.get j)) i +
        mulVec (P.n - P.m) (herm P.E.ccs) (fun j => y4.get (P.p.get (P.m + j)) / P.s.get (P.p.get (P.m + j))) i =
        P.t.get (P.q.get i) * b.get (P.q.get i) := by
      intro i hi
      rw [ldu_congr (fun c hc => hx c (by omega)) hi, mulVec_congr' hx2 i]
      exact d2 i hi
    have chain : Chain (rest.map toLevel) (P.n - P.m) kf := by
      split at h3
      · obtain ⟨rfl, h4, -⟩ := h3
        exact h4
      · exact Good.chain h3
    have key3 : Applies (herm S) ((rest.map toLevel).map Level.adj) (P.n - P.m)
        (fun j => y4.get (P.p.get (P.m + j)) / P.s.get (P.p.get (P.m + j))) (fun j => y2.get (P.m + j)) :=
      Applies.congr (adj_chain chain) c4 (fun i hi => (hx2 i hi).symm) (fun _ _ => rfl)
    rcases Nat.lt_or_ge P.m P.n with hmn | hmn
    · exact ⟨key1, w2.get, _, (a5 hmn).1, key3, (a5 hmn).2⟩
    · refine ⟨key1, w4.get, _, fun i hi => ?_, key3, fun i hi => ?_⟩
      · have := d2 i hi
        rw [show P.n - P.m = 0 by omega] at this
        simp only [mulVec, range_zero, sum_empty, add_zero] at this
        exact this
      · have : i < P.n - P.m := hi
        omega

/-! ### products -/

theorem prodLdu_runs {P : Prec K} (ok : P.OK) (b y work : Buf K) (hb : P.n ≤ b.size) (hy : P.n ≤ y.size)
    (hw : P.n ≤ work.size) :
    Runs (P.prodLdu b y work) fun o => o.1.size = work.size ∧ o.2.size = y.size ∧
      (∀ i, i < P.m → o.1.get i =
        ldu P.m P.L.ccs P.d.get P.U.ccs (fun j => b.get (P.q.get j) / P.t.get (P.q.get j)) i) ∧
      (∀ i, P.m ≤ i → o.1.get i = work.get i) ∧ ∀ i, P.m ≤ i → o.2.get i = y.get i := by
  unfold prodLdu
  have hle := ok.le
  have hd := ok.d_size
  have hL := ok.L_p
  have hL' := ok.L_s
  have hU := ok.U_p
  have hU' := ok.U_s
  simp only [runs_bind]
  refine (fillRange_runs (Nat.zero_le _) (by omega) (fun i => b.get (P.q.get i) / P.t.get (P.q.get i)) ?_).mono ?_
  · intro i _ hi
    have hp := (ok.q_inv.1 i (by omega)).1
    exact divAt_runs (lt_of_lt_of_le (by omega) ok.q_size) (lt_of_lt_of_le hp ok.t_size) (by omega)
  rintro w1 ⟨s1, l1⟩
  have hw1 : ∀ i, i < P.m → w1.get i = b.get (P.q.get i) / P.t.get (P.q.get i) := fun i hi => by
    rw [l1, if_pos (by omega)]
  refine (CS.ccsMul_runs ok.U_wf w1 y (by omega) (by omega)).mono ?_
  rintro y1 ⟨s2, l2, f2⟩
  refine (updRange_runs (Nat.zero_le _) (by omega) (fun i => (y1.get i + w1.get i) * P.d.get i) ?_).mono ?_
  · intro i _ hi
    simp only [runs_bind, runs_rd, runs_pure]
    exact ⟨by omega, by omega, by tt⟩
  rintro y2 ⟨s3, l3⟩
  refine (CS.ccsMul_runs ok.L_wf y2 w1 (by omega) (by omega)).mono ?_
  rintro w2 ⟨s4, l4, f4⟩
  refine (updRange_runs (Nat.zero_le _) (by omega) (fun i => w2.get i + y2.get i) ?_).mono ?_
  · intro i _ hi
    simp only [runs_bind, runs_rd, runs_pure]
    exact ⟨by omega, by tt⟩
  rintro w3 ⟨s5, l5⟩
  rw [runs_pure]
  have key : ∀ j, j < P.m → y2.get j = P.d.get j * (b.get (P.q.get j) / P.t.get (P.q.get j) +
      mulVec P.m P.U.ccs (fun j => b.get (P.q.get j) / P.t.get (P.q.get j)) j) := by
    intro j hj
    rw [l3, if_pos (by omega), l2 j (by omega), hw1 j hj, hU, mulVec_congr' hw1]
    ring
  refine ⟨by show w3.size = _; omega, by show y2.size = _; omega, fun i hi => ?_, fun i hi => ?_, fun i hi => ?_⟩
  · show w3.get i = _
    rw [l5, if_pos (by omega), l4 i (by omega), hL, key i hi, mulVec_congr' key]
    unfold ldu
    ring
  · show w3.get i = _
    rw [l5, if_neg (by omega), f4 i (by omega), l1, if_neg (by omega)]
  · show y2.get i = _
    rw [l3, if_neg (by omega), f2 i (by omega)]

theorem prodF_runs {P : Prec K} (ok : P.OK) (y work : Buf K) (hy : P.n ≤ y.size) (hw : P.n ≤ work.size) :
    Runs (P.prodF y work) fun o => o.1.size = work.size ∧ o.2.size = y.size ∧
      (∀ i, i < P.m → o.1.get i = work.get i + mulVec (P.n - P.m) P.F.ccs (fun j => work.get (P.m + j)) i) ∧
      (P.m < P.n → ∀ i, i < P.m → o.2.get i = mulVec (P.n - P.m) P.F.ccs (fun j => work.get (P.m + j)) i) ∧
      (∀ i, P.m ≤ i → o.1.get i = work.get i) ∧ ∀ i, P.m ≤ i → o.2.get i = y.get i := by
  unfold prodF
  have hle := ok.le
  have hF := ok.F_p
  simp only [runs_ite, runs_pure]
  split
  · rename_i hnm
    obtain ⟨fw, fs⟩ := ok.F_wf (by omega)
    simp only [runs_bind]
    rw [Buf.runs_winTail]
    refine ⟨by omega, ?_⟩
    refine (CS.ccsMul_runs fw _ y (by show P.F.psize ≤ work.size - P.m; omega) (by omega)).mono ?_
    rintro y1 ⟨s2, l2, f2⟩
    refine (updRange_runs (Nat.zero_le _) (by omega) (fun i => work.get i + y1.get i) ?_).mono ?_
    · intro i _ hi
      simp only [runs_bind, runs_rd, runs_pure]
      exact ⟨by omega, by tt⟩
    rintro w1 ⟨s3, l3⟩
    rw [runs_pure]
    refine ⟨by show w1.size = _; omega, by show y1.size = _; omega, fun i hi => ?_, fun _ i hi => ?_, fun i hi => ?_, fun i hi => ?_⟩
    · show w1.get i = _
      rw [l3, if_pos (by omega), l2 i (by omega), hF]
    · show y1.get i = _
      rw [l2 i (by omega), hF]
    · show w1.get i = _
      rw [l3, if_neg (by omega)]
    · show y1.get i = _
      rw [f2 i (by omega)]
  · rename_i hnm
    refine ⟨by tt, by tt, fun i hi => ?_, fun c => by omega, fun _ _ => by tt, fun _ _ => by tt⟩
    rw [show P.n - P.m = 0 by omega]
    simp [mulVec]

theorem mulVec_add_fun (n : Nat) (A : Nat → Nat → K) (u v : Nat → K) (i : Nat) :
    mulVec n A (fun j => u j + v j) i = mulVec n A u i + mulVec n A v i := by
  unfold mulVec
  rw [← sum_add_distrib]
  exact sum_congr rfl fun _ _ => by ring

theorem ldu_add (m : Nat) (L U : Nat → Nat → K) (d u v : Nat → K) (i : Nat) :
    ldu m L d U (fun j => u j + v j) i = ldu m L d U u i + ldu m L d U v i := by
  unfold ldu
  have e : (fun j => d j * (u j + v j + mulVec m U (fun j => u j + v j) j)) =
      fun j => d j * (u j + mulVec m U u j) + d j * (v j + mulVec m U v j) := by
    funext j; rw [mulVec_add_fun]; ring
  rw [e, mulVec_add_fun m L, mulVec_add_fun]
  ring

theorem prodE_runs {P : Prec K} (ok : P.OK) (b y work : Buf K) (hb : P.n ≤ b.size) (hy : P.n ≤ y.size)
    (hw : P.n ≤ work.size) :
    Runs (P.prodE b y work) fun w => w.size = work.size ∧ (∀ i, i < P.m → w.get i = work.get i) ∧
      (P.m < P.n → ∃ z : Nat → K, (∀ i, i < P.m → ldu P.m P.L.ccs P.d.get P.U.ccs z i =
          y.get i + ldu P.m P.L.ccs P.d.get P.U.ccs (fun j => b.get (P.q.get j) / P.t.get (P.q.get j)) i) ∧
        ∀ i, i < P.n - P.m → w.get (P.m + i) = mulVec P.m P.E.ccs z i + y.get (P.m + i)) := by
  unfold prodE
  have hle := ok.le
  simp only [runs_ite, runs_pure]
  split
  · rename_i hnm
    obtain ⟨ew, ep, es⟩ := ok.E_wf (by omega)
    simp only [runs_bind]
    refine (solveLdu_runs ok y (by omega)).mono ?_
    rintro y1 ⟨s1, l1, f1⟩
    refine (updRange_runs (Nat.zero_le _) (by omega)
      (fun i => y1.get i + b.get (P.q.get i) / P.t.get (P.q.get i)) ?_).mono ?_
    · intro i _ hi
      have hp := (ok.q_inv.1 i (by omega)).1
      simp only [runs_bind, runs_pure]
      refine (divAt_runs (lt_of_lt_of_le (by omega) ok.q_size) (lt_of_lt_of_le hp ok.t_size) (by omega)).mono ?_
      rintro a rfl; tt
    rintro y2 ⟨s2, l2⟩
    rw [Buf.runs_winTail]
    refine ⟨by omega, ?_⟩
    refine (CS.ccsMul_runs ew y2 _ (by omega) (by show P.E.ssize ≤ work.size - P.m; omega)).mono ?_
    rintro v ⟨s3, l3, f3⟩
    have s3 : v.size = work.size - P.m := s3
    refine (updRange_runs hle (by rw [Buf.put_size]; omega) (fun i => (work.put P.m v).get i + y2.get i) ?_).mono ?_
    · intro i hi1 hi2
      simp only [runs_bind, runs_rd, runs_pure]
      exact ⟨by omega, by tt⟩
    rintro w1 ⟨s4, l4⟩
    refine ⟨by rw [s4, Buf.put_size], fun i hi => ?_, fun _ => ⟨y2.get, fun i hi => ?_, fun i hi => ?_⟩⟩
    · rw [l4, if_neg (by omega), Buf.put_get, if_neg (by omega)]
    · rw [← l1 i hi, ← ldu_add]
      exact ldu_congr (fun c hc => by rw [l2, if_pos (by omega)]) hi
    · rw [l4, if_pos (by omega), Buf.put_get, if_pos (by omega), show P.m + i - P.m = i by omega, l3 i (by omega), ep,
        l2 (P.m + i), if_neg (by omega), f1 _ (by omega)]
  · rename_i hnm
    exact ⟨by tt, fun _ _ => by tt, fun c => by omega⟩

theorem prodLast_runs {P : Prec K} (ok : P.OK) {r kf : Nat} {S : Nat → Nat → K} (hk : P.n - P.m = kf)
    (h : LastOK r kf S P.last) (tran : Bool) (y work : Buf K) (hy : y.size = P.n) (hw : P.n ≤ work.size) :
    Runs (P.prodLast r tran y work) fun x => x.size = P.n ∧
      ∀ i, i < kf → mulVec kf (if tran then herm S else S) (fun j => work.get (P.m + j)) i = x.get (P.m + i) := by
  unfold prodLast
  have hle := ok.le
  simp only [runs_ite, runs_pure]
  split
  swap
  · rename_i h0
    exact ⟨hy, fun i hi => by omega⟩
  simp only [runs_bind, Buf.runs_win]
  refine ⟨by omega, by omega, ?_⟩
  refine (last_multiply h tran (Buf.mk (P.n - P.m) fun i => work.get (P.m + i)) hk (by omega)).mono ?_
  rintro v ⟨h1, h2⟩
  simp only [runs_pure]
  refine ⟨hy, fun i hi => ?_⟩
  rw [h2 i hi, Buf.put_get, if_pos (by omega)]
  congr 1; omega

/-- Main lemma for `prec_prod`. -/
theorem prod_runs {r : Nat} {S : Nat → Nat → K} {kf : Nat} : ∀ {precs : List (Prec K)} {k : Nat}, Good r S kf precs k →
    ∀ (b y work : Buf K), k ≤ b.size → y.size = k → workSpace precs ≤ work.size →
    Runs (prod r precs b y work) fun o => o.1.size = k ∧ o.2.size = work.size ∧
      Applies S (precs.map toLevel) k b.get o.1.get
  | [], _, h => h.elim
  | P :: rest, k, ⟨hk, ok, h3⟩ => by
    intro b y work hb hy hw
    subst hk
    have hle := ok.le
    have hwn : P.n + workSpace rest ≤ work.size := hw
    rw [prod]
    simp only [runs_bind]
    refine (fillRange_runs hle (by omega) (fun i => b.get (P.q.get i) / P.t.get (P.q.get i)) ?_).mono ?_
    · intro i _ hi
      have hp := (ok.q_inv.1 i (by omega)).1
      exact divAt_runs (lt_of_lt_of_le (by omega) ok.q_size) (lt_of_lt_of_le hp ok.t_size) (by omega)
    rintro w1 ⟨s1, l1⟩
    have hw1 : ∀ i, i < P.n - P.m → w1.get (P.m + i) = b.get (P.q.get (P.m + i)) / P.t.get (P.q.get (P.m + i)) := fun i hi => by
      rw [l1, if_pos (by omega)]
    have chain : Chain (rest.map toLevel) (P.n - P.m) kf := by
      split at h3
      · obtain ⟨rfl, h4, -⟩ := h3
        exact h4
      · exact Good.chain h3
    have mid : Runs (P.prodStage (P.prodLast r false) (prod r rest) y w1) fun o => o.1.size = work.size ∧ o.2.size = P.n ∧
        (∀ i, i < P.n → o.1.get i = w1.get i) ∧
        Applies S (rest.map toLevel) (P.n - P.m) (fun j => w1.get (P.m + j)) (fun j => o.2.get (P.m + j)) := by
      unfold prodStage
      simp only [runs_ite]
      split
      · rename_i hlast
        rw [if_pos hlast] at h3
        obtain ⟨rfl, hkf, hL⟩ := h3
        simp only [runs_bind, runs_pure]
        refine (prodLast_runs ok hkf hL false y w1 (by omega) (by omega)).mono ?_
        rintro y3 ⟨q1, q2⟩
        refine ⟨by omega, q1, fun _ _ => by tt, fun i hi => ?_⟩
        have := q2 i (by omega)
        rw [hkf]; exact this
      · rename_i hlast
        rw [if_neg hlast] at h3
        simp only [runs_bind, Buf.runs_win, Buf.runs_winTail]
        refine ⟨by omega, by omega, by omega, ?_⟩
        refine (prod_runs h3 _ _ _ (le_refl _) rfl (by show workSpace rest ≤ w1.size - P.n; omega)).mono ?_
        rintro ⟨x, w4⟩ ⟨r1, r2, r3⟩
        simp only [runs_pure, Buf.put_size]
        refine ⟨by omega, by omega, fun i hi => ?_, ?_⟩
        · rw [Buf.put_get, if_neg (by omega)]
        · refine Applies.congr (Good.chain h3) r3 (fun i hi => rfl) fun i hi => ?_
          have r1 : x.size = P.n - P.m := r1
          simp only
          rw [Buf.put_get, if_pos (by omega)]; congr 1; omega
    refine mid.mono ?_
    rintro ⟨w2, y2⟩ ⟨c1, c2, c3, c4⟩
    simp only at c1 c2 c3 c4
    refine (prodLdu_runs ok b y2 w2 hb (by omega) (by omega)).mono ?_
    rintro ⟨w3, y3⟩ ⟨d1, d2, d3, d4, d5⟩
    simp only at d1 d2 d3 d4 d5
    refine (prodF_runs ok y3 w3 (by omega) (by omega)).mono ?_
    rintro ⟨w4, y4⟩ ⟨e1, e2, e3, e4, e5, e6⟩
    simp only at e1 e2 e3 e4 e5 e6
    refine (prodE_runs ok b y4 w4 hb (by omega) (by omega)).mono ?_
    rintro w5 ⟨f1, f2, f3⟩
    refine (fillRange_runs (Nat.zero_le _) (by show P.n ≤ y4.size; omega) (fun i => w5.get (P.pinv.get i) / P.s.get i) ?_).mono ?_
    · intro i _ hi
      have hq := (ok.p_inv.2 i hi).1
      have := ok.pinv_size
      have := ok.s_size
      simp only [runs_bind, runs_rd, runs_pure]
      exact ⟨by omega, by omega, by omega, by tt⟩
    rintro y5 ⟨g1, g2⟩
    simp only [runs_pure]
    have g1 : y5.size = y4.size := g1
    refine ⟨by omega, by omega, ?_⟩
    have hout : ∀ j, j < P.n → P.s.get (P.p.get j) * y5.get (P.p.get j) = w5.get j := fun j hj => by
      have hp := ok.p_inv.1 j hj
      rw [g2, if_pos ⟨Nat.zero_le _, hp.1⟩, hp.2, mul_div_cancel₀ _ (ok.s_ne _ hp.1)]
    have hx2 : ∀ j, j < P.n - P.m → w3.get (P.m + j) = b.get (P.q.get (P.m + j)) / P.t.get (P.q.get (P.m + j)) := fun j hj => by
      rw [d4 _ (by omega), c3 _ (by omega), hw1 j hj]
    have key1 : ∀ i, i < P.m → ldu P.m P.L.ccs P.d.get P.U.ccs (fun j => b.get (P.q.get j) / P.t.get (P.q.get j)) i +
        mulVec (P.n - P.m) P.F.ccs (fun j => b.get (P.q.get (P.m + j)) / P.t.get (P.q.get (P.m + j))) i =
        P.s.get (P.p.get i) * y5.get (P.p.get i) := by
      intro i hi
      rw [hout i (by omega), f2 i hi, e3 i hi, d3 i hi, mulVec_congr' hx2 i]
    have key3 : Applies S (rest.map toLevel) (P.n - P.m)
        (fun j => b.get (P.q.get (P.m + j)) / P.t.get (P.q.get (P.m + j))) (fun j => y2.get (P.m + j)) :=
      Applies.congr chain c4 hw1 (fun _ _ => rfl)
    rcases Nat.lt_or_ge P.m P.n with hmn | hmn
    · obtain ⟨z, hz1, hz2⟩ := f3 hmn
      refine ⟨key1, z, _, fun i hi => ?_, key3, fun i hi => ?_⟩
      · refine Eq.trans ?_ (key1 i hi)
        show ldu P.m P.L.ccs P.d.get P.U.ccs z i = _
        rw [hz1 i hi, e4 hmn i hi, mulVec_congr' hx2 i]
        ring
      · have hi : i < P.n - P.m := hi
        show mulVec P.m P.E.ccs z i + y2.get (P.m + i) = P.s.get (P.p.get (P.m + i)) * y5.get (P.p.get (P.m + i))
        rw [hout _ (by omega), hz2 i hi, e6 _ (by omega), d5 _ (by omega)]
    · refine ⟨key1, fun j => b.get (P.q.get j) / P.t.get (P.q.get j), _, fun i hi => ?_, key3, fun i hi => ?_⟩
      · have := key1 i hi
        rw [show P.n - P.m = 0 by omega] at this
        simp only [mulVec, range_zero, sum_empty, add_zero] at this
        exact this
      · have : i < P.n - P.m := hi
        omega

theorem prodLduT_runs {P : Prec K} (ok : P.OK) (b y work : Buf K) (hb : P.n ≤ b.size) (hy : P.n ≤ y.size)
    (hw : P.n ≤ work.size) :
    Runs (P.prodLduT b y work) fun o => o.1.size = work.size ∧ o.2.size = y.size ∧
      (∀ i, i < P.m → o.1.get i =
        ldu P.m (herm P.U.ccs) (fun i => star (P.d.get i)) (herm P.L.ccs) (fun j => b.get (P.p.get j) / P.s.get (P.p.get j)) i) ∧
      (∀ i, P.m ≤ i → o.1.get i = work.get i) ∧ ∀ i, P.m ≤ i → o.2.get i = y.get i := by
  unfold prodLduT
  have hle := ok.le
  have hd := ok.d_size
  have hL := ok.L_p
  have hL' := ok.L_s
  have hU := ok.U_p
  have hU' := ok.U_s
  simp only [runs_bind]
  refine (fillRange_runs (Nat.zero_le _) (by omega) (fun i => b.get (P.p.get i) / P.s.get (P.p.get i)) ?_).mono ?_
  · intro i _ hi
    have hp := (ok.p_inv.1 i (by omega)).1
    exact divAt_runs (lt_of_lt_of_le (by omega) ok.p_size) (lt_of_lt_of_le hp ok.s_size) (by omega)
  rintro w1 ⟨s1, l1⟩
  have hw1 : ∀ i, i < P.m → w1.get i = b.get (P.p.get i) / P.s.get (P.p.get i) := fun i hi => by
    rw [l1, if_pos (by omega)]
  refine (CS.ccsMulT_runs ok.L_wf w1 y (by omega) (by omega)).mono ?_
  rintro y1 ⟨s2, l2, f2⟩
  refine (updRange_runs (Nat.zero_le _) (by omega) (fun i => (y1.get i + w1.get i) * star (P.d.get i)) ?_).mono ?_
  · intro i _ hi
    simp only [runs_bind, runs_rd, runs_pure]
    exact ⟨by omega, by omega, by tt⟩
  rintro y2 ⟨s3, l3⟩
  refine (CS.ccsMulT_runs ok.U_wf y2 w1 (by omega) (by omega)).mono ?_
  rintro w2 ⟨s4, l4, f4⟩
  refine (updRange_runs (Nat.zero_le _) (by omega) (fun i => w2.get i + y2.get i) ?_).mono ?_
  · intro i _ hi
    simp only [runs_bind, runs_rd, runs_pure]
    exact ⟨by omega, by tt⟩
  rintro w3 ⟨s5, l5⟩
  rw [runs_pure]
  have key : ∀ j, j < P.m → y2.get j = star (P.d.get j) * (b.get (P.p.get j) / P.s.get (P.p.get j) +
      mulVec P.m (herm P.L.ccs) (fun j => b.get (P.p.get j) / P.s.get (P.p.get j)) j) := by
    intro j hj
    rw [l3, if_pos (by omega), l2 j (by omega), hw1 j hj, hL', mulVec_congr' hw1]
    ring
  refine ⟨by show w3.size = _; omega, by show y2.size = _; omega, fun i hi => ?_, fun i hi => ?_, fun i hi => ?_⟩
  · show w3.get i = _
    rw [l5, if_pos (by omega), l4 i (by omega), hU', key i hi, mulVec_congr' key]
    unfold ldu
    ring
  · show w3.get i = _
    rw [l5, if_neg (by omega), f4 i (by omega), l1, if_neg (by omega)]
  · show y2.get i = _
    rw [l3, if_neg (by omega), f2 i (by omega)]

theorem prodTE_runs {P : Prec K} (ok : P.OK) (y work : Buf K) (hy : P.n ≤ y.size) (hw : P.n ≤ work.size) :
    Runs (P.prodTE y work) fun o => o.1.size = work.size ∧ o.2.size = y.size ∧
      (∀ i, i < P.m → o.1.get i = work.get i + mulVec (P.n - P.m) (herm P.E.ccs) (fun j => work.get (P.m + j)) i) ∧
      (P.m < P.n → ∀ i, i < P.m → o.2.get i = mulVec (P.n - P.m) (herm P.E.ccs) (fun j => work.get (P.m + j)) i) ∧
      (∀ i, P.m ≤ i → o.1.get i = work.get i) ∧ ∀ i, P.m ≤ i → o.2.get i = y.get i := by
  unfold prodTE
  have hle := ok.le
  have hF := ok.F_p
  simp only [runs_ite, runs_pure]
  split
  · rename_i hnm
    obtain ⟨fw, fp, fs⟩ := ok.E_wf (by omega)
    simp only [runs_bind]
    rw [Buf.runs_winTail]
    refine ⟨by omega, ?_⟩
    refine (CS.ccsMulT_runs fw _ y (by show P.E.ssize ≤ work.size - P.m; omega) (by omega)).mono ?_
    rintro y1 ⟨s2, l2, f2⟩
    refine (updRange_runs (Nat.zero_le _) (by omega) (fun i => work.get i + y1.get i) ?_).mono ?_
    · intro i _ hi
      simp only [runs_bind, runs_rd, runs_pure]
      exact ⟨by omega, by tt⟩
    rintro w1 ⟨s3, l3⟩
    rw [runs_pure]
    refine ⟨by show w1.size = _; omega, by show y1.size = _; omega, fun i hi => ?_, fun _ i hi => ?_, fun i hi => ?_, fun i hi => ?_⟩
    · show w1.get i = _
      rw [l3, if_pos (by omega), l2 i (by omega), fs]
    · show y1.get i = _
      rw [l2 i (by omega), fs]
    · show w1.get i = _
      rw [l3, if_neg (by omega)]
    · show y1.get i = _
      rw [f2 i (by omega)]
  · rename_i hnm
    refine ⟨by tt, by tt, fun i hi => ?_, fun c => by omega, fun _ _ => by tt, fun _ _ => by tt⟩
    rw [show P.n - P.m = 0 by omega]
    simp [mulVec]

theorem prodTF_runs {P : Prec K} (ok : P.OK) (b y work : Buf K) (hb : P.n ≤ b.size) (hy : P.n ≤ y.size)
    (hw : P.n ≤ work.size) :
    Runs (P.prodTF b y work) fun w => w.size = work.size ∧ (∀ i, i < P.m → w.get i = work.get i) ∧
      (P.m < P.n → ∃ z : Nat → K, (∀ i, i < P.m → ldu P.m (herm P.U.ccs) (fun i => star (P.d.get i)) (herm P.L.ccs) z i =
          y.get i + ldu P.m (herm P.U.ccs) (fun i => star (P.d.get i)) (herm P.L.ccs) (fun j => b.get (P.p.get j) / P.s.get (P.p.get j)) i) ∧
        ∀ i, i < P.n - P.m → w.get (P.m + i) = mulVec P.m (herm P.F.ccs) z i + y.get (P.m + i)) := by
  unfold prodTF
  have hle := ok.le
  simp only [runs_ite, runs_pure]
  split
  · rename_i hnm
    obtain ⟨ew, ep⟩ := ok.F_wf (by omega)
    have es := ok.F_p
    simp only [runs_bind]
    refine (solveUtdlt_runs ok y (by omega)).mono ?_
    rintro y1 ⟨s1, l1, f1⟩
    refine (updRange_runs (Nat.zero_le _) (by omega)
      (fun i => y1.get i + b.get (P.p.get i) / P.s.get (P.p.get i)) ?_).mono ?_
    · intro i _ hi
      have hp := (ok.p_inv.1 i (by omega)).1
      simp only [runs_bind, runs_pure]
      refine (divAt_runs (lt_of_lt_of_le (by omega) ok.p_size) (lt_of_lt_of_le hp ok.s_size) (by omega)).mono ?_
      rintro a rfl; tt
    rintro y2 ⟨s2, l2⟩
    rw [Buf.runs_winTail]
    refine ⟨by omega, ?_⟩
    refine (CS.ccsMulT_runs ew y2 _ (by omega) (by show P.F.psize ≤ work.size - P.m; omega)).mono ?_
    rintro v ⟨s3, l3, f3⟩
    have s3 : v.size = work.size - P.m := s3
    refine (updRange_runs hle (by rw [Buf.put_size]; omega) (fun i => (work.put P.m v).get i + y2.get i) ?_).mono ?_
    · intro i hi1 hi2
      simp only [runs_bind, runs_rd, runs_pure]
      exact ⟨by omega, by tt⟩
    rintro w1 ⟨s4, l4⟩
    refine ⟨by rw [s4, Buf.put_size], fun i hi => ?_, fun _ => ⟨y2.get, fun i hi => ?_, fun i hi => ?_⟩⟩
    · rw [l4, if_neg (by omega), Buf.put_get, if_neg (by omega)]
    · rw [← l1 i hi, ← ldu_add]
      exact ldu_congr (fun c hc => by rw [l2, if_pos (by omega)]) hi
    · rw [l4, if_pos (by omega), Buf.put_get, if_pos (by omega), show P.m + i - P.m = i by omega, l3 i (by omega), ep,
        l2 (P.m + i), if_neg (by omega), f1 _ (by omega)]
  · rename_i hnm
    exact ⟨by tt, fun _ _ => by tt, fun c => by omega⟩

/-- Main lemma for `prec_prod_tran`. -/
theorem prodT_runs {r : Nat} {S : Nat → Nat → K} {kf : Nat} : ∀ {precs : List (Prec K)} {k : Nat}, Good r S kf precs k →
    ∀ (b y work : Buf K), k ≤ b.size → y.size = k → workSpace precs ≤ work.size →
    Runs (prodT r precs b y work) fun o => o.1.size = k ∧ o.2.size = work.size ∧
      Applies (herm S) ((precs.map toLevel).map Level.adj) k b.get o.1.get
  | [], _, h => h.elim
  | P :: rest, k, ⟨hk, ok, h3⟩ => by
    intro b y work hb hy hw
    subst hk
    have hle := ok.le
    have hwn : P.n + workSpace rest ≤ work.size := hw
    rw [prodT]
    simp only [runs_bind]
    refine (fillRange_runs hle (by omega) (fun i => b.get (P.p.get i) / P.s.get (P.p.get i)) ?_).mono ?_
    · intro i _ hi
      have hp := (ok.p_inv.1 i (by omega)).1
      exact divAt_runs (lt_of_lt_of_le (by omega) ok.p_size) (lt_of_lt_of_le hp ok.s_size) (by omega)
    rintro w1 ⟨s1, l1⟩
    have hw1 : ∀ i, i < P.n - P.m → w1.get (P.m + i) = b.get (P.p.get (P.m + i)) / P.s.get (P.p.get (P.m + i)) := fun i hi => by
      rw [l1, if_pos (by omega)]
    have chain : Chain (rest.map toLevel) (P.n - P.m) kf := by
      split at h3
      · obtain ⟨rfl, h4, -⟩ := h3
        exact h4
      · exact Good.chain h3
    have mid : Runs (P.prodStage (P.prodLast r true) (prodT r rest) y w1) fun o => o.1.size = work.size ∧ o.2.size = P.n ∧
        (∀ i, i < P.n → o.1.get i = w1.get i) ∧
        Applies (herm S) ((rest.map toLevel).map Level.adj) (P.n - P.m) (fun j => w1.get (P.m + j)) (fun j => o.2.get (P.m + j)) := by
      unfold prodStage
      simp only [runs_ite]
      split
      · rename_i hlast
        rw [if_pos hlast] at h3
        obtain ⟨rfl, hkf, hL⟩ := h3
        simp only [runs_bind, runs_pure]
        refine (prodLast_runs ok hkf hL true y w1 (by omega) (by omega)).mono ?_
        rintro y3 ⟨q1, q2⟩
        refine ⟨by omega, q1, fun _ _ => by tt, fun i hi => ?_⟩
        have := q2 i (by omega)
        rw [hkf]; exact this
      · rename_i hlast
        rw [if_neg hlast] at h3
        simp only [runs_bind, Buf.runs_win, Buf.runs_winTail]
        refine ⟨by omega, by omega, by omega, ?_⟩
        refine (prodT_runs h3 _ _ _ (le_refl _) rfl (by show workSpace rest ≤ w1.size - P.n; omega)).mono ?_
        rintro ⟨x, w4⟩ ⟨r1, r2, r3⟩
        simp only [runs_pure, Buf.put_size]
        refine ⟨by omega, by omega, fun i hi => ?_, ?_⟩
        · rw [Buf.put_get, if_neg (by omega)]
        · refine Applies.congr (adj_chain (Good.chain h3)) r3 (fun i hi => rfl) fun i hi => ?_
          have r1 : x.size = P.n - P.m := r1
          simp only
          rw [Buf.put_get, if_pos (by omega)]; congr 1; omega
    refine mid.mono ?_
    rintro ⟨w2, y2⟩ ⟨c1, c2, c3, c4⟩
    simp only at c1 c2 c3 c4
    refine (prodLduT_runs ok b y2 w2 hb (by omega) (by omega)).mono ?_
    rintro ⟨w3, y3⟩ ⟨d1, d2, d3, d4, d5⟩
    simp only at d1 d2 d3 d4 d5
    refine (prodTE_runs ok y3 w3 (by omega) (by omega)).mono ?_
    rintro ⟨w4, y4⟩ ⟨e1, e2, e3, e4, e5, e6⟩
    simp only at e1 e2 e3 e4 e5 e6
    refine (prodTF_runs ok b y4 w4 hb (by omega) (by omega)).mono ?_
    rintro w5 ⟨f1, f2, f3⟩
    refine (fillRange_runs (Nat.zero_le _) (by show P.n ≤ y4.size; omega) (fun i => w5.get (P.qinv.get i) / P.t.get i) ?_).mono ?_
    · intro i _ hi
      have hq := (ok.q_inv.2 i hi).1
      have := ok.qinv_size
      have := ok.t_size
      simp only [runs_bind, runs_rd, runs_pure]
      exact ⟨by omega, by omega, by omega, by tt⟩
    rintro y5 ⟨g1, g2⟩
    simp only [runs_pure]
    have g1 : y5.size = y4.size := g1
    refine ⟨by omega, by omega, ?_⟩
    have hout : ∀ j, j < P.n → P.t.get (P.q.get j) * y5.get (P.q.get j) = w5.get j := fun j hj => by
      have hp := ok.q_inv.1 j hj
      rw [g2, if_pos ⟨Nat.zero_le _, hp.1⟩, hp.2, mul_div_cancel₀ _ (ok.t_ne _ hp.1)]
    have hx2 : ∀ j, j < P.n - P.m → w3.get (P.m + j) = b.get (P.p.get (P.m + j)) / P.s.get (P.p.get (P.m + j)) := fun j hj => by
      rw [d4 _ (by omega), c3 _ (by omega), hw1 j hj]
    have key1 : ∀ i, i < P.m → ldu P.m (herm P.U.ccs) (fun i => star (P.d.get i)) (herm P.L.ccs) (fun j => b.get (P.p.get j) / P.s.get (P.p.get j)) i +
        mulVec (P.n - P.m) (herm P.E.ccs) (fun j => b.get (P.p.get (P.m + j)) / P.s.get (P.p.get (P.m + j))) i =
        P.t.get (P.q.get i) * y5.get (P.q.get i) := by
      intro i hi
      rw [hout i (by omega), f2 i hi, e3 i hi, d3 i hi, mulVec_congr' hx2 i]
    have key3 : Applies (herm S) ((rest.map toLevel).map Level.adj) (P.n - P.m)
        (fun j => b.get (P.p.get (P.m + j)) / P.s.get (P.p.get (P.m + j))) (fun j => y2.get (P.m + j)) :=
      Applies.congr (adj_chain chain) c4 hw1 (fun _ _ => rfl)
    rcases Nat.lt_or_ge P.m P.n with hmn | hmn
    · obtain ⟨z, hz1, hz2⟩ := f3 hmn
      refine ⟨key1, z, _, fun i hi => ?_, key3, fun i hi => ?_⟩
      · refine Eq.trans ?_ (key1 i hi)
        show ldu P.m (herm P.U.ccs) (fun i => star (P.d.get i)) (herm P.L.ccs) z i = _
        rw [hz1 i hi, e4 hmn i hi, mulVec_congr' hx2 i]
        ring
      · have hi : i < P.n - P.m := hi
        show mulVec P.m (herm P.F.ccs) z i + y2.get (P.m + i) = P.t.get (P.q.get (P.m + i)) * y5.get (P.q.get (P.m + i))
        rw [hout _ (by omega), hz2 i hi, e6 _ (by omega), d5 _ (by omega)]
    · refine ⟨key1, fun j => b.get (P.p.get j) / P.s.get (P.p.get j), _, fun i hi => ?_, key3, fun i hi => ?_⟩
      · have := key1 i hi
        rw [show P.n - P.m = 0 by omega] at this
        simp only [mulVec, range_zero, sum_empty, add_zero] at this
        exact this
      · have : i < P.n - P.m := hi
        omega

end Prec
end Hif
