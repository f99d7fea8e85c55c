import Verif.Prec

set_option linter.unusedSectionVars false
set_option linter.unusedVariables false
set_option linter.unusedSimpArgs false

/-! # Proofs about applying the preconditioner (helpers for `Props/Prec.lean`) -/

namespace Hif
open Finset Spec

variable {K : Type _} [Field K] [StarRing K]

namespace Prec

/-- The level's data as mathematical objects. -/
def toLevel (P : Prec K) : Level K :=
  { m := P.m, n := P.n, L := P.L.ccs, U := P.U.ccs, E := P.E.ccs, F := P.F.ccs, d := P.d.get, s := P.s.get, t := P.t.get,
    p := P.p.get, q := P.q.get }

/-- Storage of a level is consistent and the level is invertible. -/
structure OK (P : Prec K) : Prop where
  le : P.m ≤ P.n
  L_wf : P.L.WF
  L_p : P.L.psize = P.m
  L_s : P.L.ssize = P.m
  U_wf : P.U.WF
  U_p : P.U.psize = P.m
  U_s : P.U.ssize = P.m
  E_wf : P.m < P.n → P.E.WF ∧ P.E.psize = P.m ∧ P.E.ssize = P.n - P.m
  F_wf : P.m < P.n → P.F.WF ∧ P.F.ssize = P.m
  F_p : P.F.psize = P.n - P.m
  d_size : P.m ≤ P.d.size
  s_size : P.n ≤ P.s.size
  t_size : P.n ≤ P.t.size
  p_size : P.n ≤ P.p.size
  pinv_size : P.n ≤ P.pinv.size
  q_size : P.n ≤ P.q.size
  qinv_size : P.n ≤ P.qinv.size
  p_inv : Inverse P.n P.p.get P.pinv.get
  q_inv : Inverse P.n P.q.get P.qinv.get
  lower : StrictLower P.m P.L.ccs
  upper : StrictUpper P.m P.U.ccs
  d_ne : ∀ i, i < P.m → P.d.get i ≠ 0
  s_ne : ∀ i, i < P.n → P.s.get i ≠ 0
  t_ne : ∀ i, i < P.n → P.t.get i ≠ 0

theorem inverse_isPerm {n : Nat} {f g : Nat → Nat} (h : Inverse n f g) : IsPerm n f :=
  ⟨fun i hi => (h.1 i hi).1, fun i j hi hj e => by rw [← (h.1 i hi).2, ← (h.1 j hj).2, e]⟩

theorem OK.level {P : Prec K} (h : P.OK) : LevelOK P.toLevel :=
  ⟨h.le, h.lower, h.upper, h.d_ne, h.s_ne, h.t_ne, inverse_isPerm h.p_inv, inverse_isPerm h.q_inv⟩

theorem mulAt_runs {s b : Buf K} {p : Buf Nat} {i : Nat} (h1 : i < p.size) (h2 : p.get i < s.size) (h3 : p.get i < b.size) :
    Runs (mulAt s b p i) fun a => a = s.get (p.get i) * b.get (p.get i) := by
  unfold mulAt; simp [h1, h2, h3]

theorem divAt_runs {s b : Buf K} {p : Buf Nat} {i : Nat} (h1 : i < p.size) (h2 : p.get i < s.size) (h3 : p.get i < b.size) :
    Runs (divAt s b p i) fun a => a = b.get (p.get i) / s.get (p.get i) := by
  unfold divAt; simp [h1, h2, h3]

/-- `prec_solve_ldu` solves with `(I+L) D (I+U)` and leaves the rest of the vector alone. -/
theorem solveLdu_runs {P : Prec K} (ok : P.OK) (y : Buf K) (hy : P.m ≤ y.size) :
    Runs (P.solveLdu y) fun x => x.size = y.size ∧
      (∀ i, i < P.m → ldu P.m P.L.ccs P.d.get P.U.ccs x.get i = y.get i) ∧ ∀ i, P.m ≤ i → x.get i = y.get i := by
  unfold solveLdu
  rw [ok.U_s]
  split
  · rename_i h0
    rw [runs_pure]
    exact ⟨rfl, fun i hi => by omega, fun _ _ => rfl⟩
  rename_i h0
  obtain ⟨x1, e1, s1, l1, f1⟩ := Props.C05_ccs_lower P.L ok.L_wf P.m ok.L_p ok.L_s y hy ok.lower
  rw [e1]
  simp only [runs_bind, runs_ok]
  have hd := ok.d_size
  refine (updRange_runs (Nat.zero_le _) (by omega) (fun i => x1.get i / P.d.get i) ?_).mono ?_
  · intro i _ hi
    simp only [runs_bind, runs_rd, runs_pure]
    exact ⟨by omega, by tt⟩
  rintro x2 ⟨s2, l2⟩
  obtain ⟨x3, e3, s3, l3, f3⟩ := Props.C05_ccs_upper P.U ok.U_wf P.m ok.U_p ok.U_s x2 (by omega) (by omega) ok.upper
  rw [e3, runs_ok]
  refine ⟨by omega, fun i hi => ?_, fun i hi => by rw [f3 i hi, l2, if_neg (by omega), f1 i hi]⟩
  have key : ∀ j, j < P.m → P.d.get j * (x3.get j + mulVec P.m P.U.ccs x3.get j) = x1.get j := by
    intro j hj
    have := l3 j hj
    rw [this, l2, if_pos (by omega), mul_div_cancel₀ _ (ok.d_ne j hj)]
  unfold ldu
  rw [key i hi, mulVec_congr' key i]
  exact l1 i hi

/-- `prec_solve_utdlt` solves with the conjugate transpose. -/
theorem solveUtdlt_runs {P : Prec K} (ok : P.OK) (y : Buf K) (hy : P.m ≤ y.size) :
    Runs (P.solveUtdlt y) fun x => x.size = y.size ∧
      (∀ i, i < P.m → ldu P.m (herm P.U.ccs) (fun i => star (P.d.get i)) (herm P.L.ccs) x.get i = y.get i) ∧
      ∀ i, P.m ≤ i → x.get i = y.get i := by
  unfold solveUtdlt
  rw [ok.U_s]
  split
  · rename_i h0
    rw [runs_pure]
    exact ⟨rfl, fun i hi => by omega, fun _ _ => rfl⟩
  rename_i h0
  obtain ⟨x1, e1, s1, l1, f1⟩ := Props.C06_ccs_upper_tran P.U ok.U_wf P.m ok.U_p ok.U_s y hy ok.upper
  rw [e1]
  simp only [runs_bind, runs_ok]
  have hd := ok.d_size
  refine (updRange_runs (Nat.zero_le _) (by omega) (fun i => x1.get i / star (P.d.get i)) ?_).mono ?_
  · intro i _ hi
    simp only [runs_bind, runs_rd, runs_pure]
    exact ⟨by omega, by tt⟩
  rintro x2 ⟨s2, l2⟩
  obtain ⟨x3, e3, s3, l3, f3⟩ := Props.C06_ccs_lower_tran P.L ok.L_wf P.m ok.L_p ok.L_s x2 (by omega) (by omega) ok.lower
  rw [e3, runs_ok]
  refine ⟨by omega, fun i hi => ?_, fun i hi => by rw [f3 i hi, l2, if_neg (by omega), f1 i hi]⟩
  have key : ∀ j, j < P.m → star (P.d.get j) * (x3.get j + mulVec P.m (herm P.L.ccs) x3.get j) = x1.get j := by
    intro j hj
    have := l3 j hj
    rw [this, l2, if_pos (by omega), mul_div_cancel₀ _ (star_ne_zero.2 (ok.d_ne j hj))]
  unfold ldu
  rw [key i hi, mulVec_congr' key i]
  exact l1 i hi

theorem solveE_runs {P : Prec K} (ok : P.OK) (b y work : Buf K) (hb : P.n ≤ b.size) (hy : P.n ≤ y.size)
    (hw : P.n ≤ work.size) (h : ∀ i, i < P.m → work.get i = P.s.get (P.p.get i) * b.get (P.p.get i)) :
    Runs (P.solveE b y work) fun o => o.1.size = work.size ∧ o.2.size = y.size ∧
      (∀ i, P.n ≤ i → o.1.get i = work.get i) ∧
      (P.m = P.n → o.1 = work) ∧
      (P.m < P.n → (∀ i, i < P.m → ldu P.m P.L.ccs P.d.get P.U.ccs o.1.get i = P.s.get (P.p.get i) * b.get (P.p.get i)) ∧
        ∀ i, i < P.n - P.m → mulVec P.m P.E.ccs o.1.get i + o.2.get (P.m + i) =
          P.s.get (P.p.get (P.m + i)) * b.get (P.p.get (P.m + i))) := by
  unfold solveE
  have hle := ok.le
  simp only [runs_ite, runs_pure]
  split
  · rename_i hnm
    simp only [runs_bind]
    obtain ⟨ew, ep, es⟩ := ok.E_wf (by omega)
    refine (solveLdu_runs ok work (by omega)).mono ?_
    rintro w1 ⟨s1, l1, f1⟩
    rw [Buf.runs_winTail]
    refine ⟨by omega, ?_⟩
    refine (CS.ccsMul_runs ew w1 _ (by omega) (by show P.E.ssize ≤ y.size - P.m; omega)).mono ?_
    rintro v ⟨s2, l2, f2⟩
    have s2 : v.size = y.size - P.m := s2
    refine (updRange_runs hle (by rw [Buf.put_size]; omega)
      (fun i => P.s.get (P.p.get i) * b.get (P.p.get i) - (y.put P.m v).get i) ?_).mono ?_
    · intro i hi1 hi2
      have hp := (ok.p_inv.1 i hi2).1
      simp only [runs_bind, runs_pure]
      refine (mulAt_runs (lt_of_lt_of_le hi2 ok.p_size) (lt_of_lt_of_le hp ok.s_size) (by omega)).mono ?_
      rintro a rfl; tt
    rintro y1 ⟨s3, l3⟩
    rw [runs_pure]
    refine ⟨s1, s3, fun i hi => f1 i (by omega), fun c => by omega, fun _ => ⟨fun i hi => ?_, fun i hi => ?_⟩⟩
    · rw [l1 i hi, h i hi]
    · rw [l3, if_pos (by omega), Buf.put_get, if_pos (by omega), show P.m + i - P.m = i by omega, l2 i (by omega), ep]
      ring
  · rename_i hnm
    exact ⟨by tt, by tt, fun _ _ => by tt, fun _ => by tt, fun c => by omega⟩

theorem solveF_runs {P : Prec K} (ok : P.OK) (b y work : Buf K) (hb : P.n ≤ b.size) (hy : y.size = P.n)
    (hw : P.n ≤ work.size) (h : P.m = P.n → ∀ i, i < P.m → work.get i = P.s.get (P.p.get i) * b.get (P.p.get i)) :
    Runs (P.solveF b y work) fun w => w.size = work.size ∧
      (∀ i, i < P.m → ldu P.m P.L.ccs P.d.get P.U.ccs w.get i +
        mulVec (P.n - P.m) P.F.ccs (fun j => y.get (P.m + j)) i = P.s.get (P.p.get i) * b.get (P.p.get i)) ∧
      ∀ i, i < P.n - P.m → w.get (P.m + i) = y.get (P.m + i) := by
  unfold solveF
  have hle := ok.le
  have hF := ok.F_p
  simp only [runs_bind]
  refine (fillRange_runs (by omega) (by omega) y.get (fun i h1 h2 => by simp [h2])).mono ?_
  rintro w1 ⟨s1, l1⟩
  have hp : ∀ i, i < P.m → Runs (mulAt P.s b P.p i) fun a => a = P.s.get (P.p.get i) * b.get (P.p.get i) := by
    intro i hi
    have hp := (ok.p_inv.1 i (by omega)).1
    exact mulAt_runs (lt_of_lt_of_le (by omega) ok.p_size) (lt_of_lt_of_le hp ok.s_size) (by omega)
  simp only [runs_ite]
  split
  · rename_i hnm
    obtain ⟨fw, fs⟩ := ok.F_wf (by omega)
    simp only [runs_bind]
    rw [Buf.runs_winTail]
    refine ⟨by omega, ?_⟩
    refine (CS.ccsMul_runs fw _ w1 (by show P.F.psize ≤ y.size - P.m; omega) (by omega)).mono ?_
    rintro w2 ⟨s2, l2, f2⟩
    refine (updRange_runs (Nat.zero_le _) (by omega)
      (fun i => P.s.get (P.p.get i) * b.get (P.p.get i) - w2.get i) ?_).mono ?_
    · intro i _ hi
      simp only [runs_bind, runs_pure]
      refine (hp i hi).mono ?_
      rintro a rfl; tt
    rintro w3 ⟨s3, l3⟩
    refine (solveLdu_runs ok w3 (by omega)).mono ?_
    rintro w4 ⟨s4, l4, f4⟩
    refine ⟨by omega, fun i hi => ?_, fun i hi => ?_⟩
    · rw [l4 i hi, l3, if_pos (by omega), l2 i (by omega), hF]; ring
    · rw [f4 _ (by omega), l3, if_neg (by omega), f2 _ (by omega), l1, if_pos (by omega)]
  · rename_i hnm
    rw [if_neg (by omega), runs_bind, runs_pure]
    refine (solveLdu_runs ok w1 (by omega)).mono ?_
    rintro w4 ⟨s4, l4, f4⟩
    refine ⟨by omega, fun i hi => ?_, fun i hi => by omega⟩
    rw [l4 i hi, l1, if_neg (by omega), h (by omega) i hi, show P.n - P.m = 0 by omega]
    simp [mulVec]

/-- Contract of the dense solver for the final `k × k` block with matrix `S` and requested rank `r`: solving and multiplying
are exact, also for the conjugate transpose. -/
structure DenseExact (r k : Nat) (S : Nat → Nat → K) (D : DenseOps K) : Prop where
  solve : ∀ y : Buf K, y.size = k → Runs (D.solve y r false) fun x => x.size = k ∧ ∀ i, i < k → mulVec k S x.get i = y.get i
  solveT : ∀ y : Buf K, y.size = k → Runs (D.solve y r true) fun x => x.size = k ∧
    ∀ i, i < k → mulVec k (herm S) x.get i = y.get i
  multiply : ∀ y : Buf K, y.size = k → Runs (D.multiply y r false) fun x => x.size = k ∧
    ∀ i, i < k → x.get i = mulVec k S y.get i
  multiplyT : ∀ y : Buf K, y.size = k → Runs (D.multiply y r true) fun x => x.size = k ∧
    ∀ i, i < k → x.get i = mulVec k (herm S) y.get i

/-- Contract of whichever dense solver is set; the symmetric one is only ever called without the transpose flag and needs a
Hermitian matrix. -/
def LastOK (r k : Nat) (S : Nat → Nat → K) : Last K → Prop
  | .none => k = 0
  | .dense D => DenseExact r k S D
  | .symm D => (∀ i j, i < k → j < k → herm S i j = S i j) ∧
      (∀ y : Buf K, y.size = k → Runs (D.solve y r false) fun x => x.size = k ∧ ∀ i, i < k → mulVec k S x.get i = y.get i) ∧
      (∀ y : Buf K, y.size = k → Runs (D.multiply y r false) fun x => x.size = k ∧
        ∀ i, i < k → x.get i = mulVec k S y.get i)

/-- A complete preconditioner of dimension `k` whose final dense block has size `kf` and matrix `S`. -/
def Good (r : Nat) (S : Nat → Nat → K) (kf : Nat) : List (Prec K) → Nat → Prop
  | [], _ => False
  | P :: rest, k => P.n = k ∧ P.OK ∧
      if P.isLast then rest = [] ∧ P.n - P.m = kf ∧ LastOK r kf S P.last else Good r S kf rest (P.n - P.m)

theorem Good.chain {r : Nat} {S : Nat → Nat → K} {kf : Nat} : ∀ {precs : List (Prec K)} {k : Nat},
    Good r S kf precs k → Chain (precs.map toLevel) k kf
  | [], _, h => h.elim
  | P :: rest, k, ⟨h1, h2, h3⟩ => by
    refine ⟨h1, h2.level, ?_⟩
    split at h3
    · obtain ⟨rfl, h4, -⟩ := h3
      exact h4
    · exact Good.chain h3

theorem last_solve {r kf : Nat} {S : Nat → Nat → K} {l : Last K} (h : LastOK r kf S l) (tran : Bool) (y : Buf K)
    (hy : y.size = kf) (hk : kf ≠ 0) :
    Runs (l.solve y r tran) fun x => x.size = kf ∧
      ∀ i, i < kf → mulVec kf (if tran then herm S else S) x.get i = y.get i := by
  cases l with
  | none => exact absurd h hk
  | dense D =>
    cases tran with
    | false => exact h.solve y hy
    | true => exact h.solveT y hy
  | symm D =>
    refine (h.2.1 y hy).mono ?_
    rintro v ⟨h1, h2⟩
    refine ⟨h1, fun i hi => ?_⟩
    rw [← h2 i hi]
    cases tran with
    | false => rfl
    | true =>
      unfold mulVec
      exact sum_congr rfl fun j hj => by
        have := h.1 i j hi (mem_range.1 hj)
        simp only [if_true, this]

theorem last_multiply {r kf : Nat} {S : Nat → Nat → K} {l : Last K} (h : LastOK r kf S l) (tran : Bool) (y : Buf K)
    (hy : y.size = kf) (hk : kf ≠ 0) :
    Runs (l.multiply y r tran) fun x => x.size = kf ∧
      ∀ i, i < kf → mulVec kf (if tran then herm S else S) y.get i = x.get i := by
  cases l with
  | none => exact absurd h hk
  | dense D =>
    cases tran with
    | false => exact (h.multiply y hy).mono fun x q => ⟨q.1, fun i hi => (q.2 i hi).symm⟩
    | true => exact (h.multiplyT y hy).mono fun x q => ⟨q.1, fun i hi => (q.2 i hi).symm⟩
  | symm D =>
    refine (h.2.2 y hy).mono ?_
    rintro v ⟨h1, h2⟩
    refine ⟨h1, fun i hi => ?_⟩
    rw [h2 i hi]
    cases tran with
    | false => rfl
    | true =>
      unfold mulVec
      exact sum_congr rfl fun j hj => by
        have := h.1 i j hi (mem_range.1 hj)
        simp only [if_true, this]

theorem lastSolve_runs {P : Prec K} (ok : P.OK) {r kf : Nat} {S : Nat → Nat → K} (hk : P.n - P.m = kf)
    (h : LastOK r kf S P.last) (tran : Bool) (y : Buf K) (hy : y.size = P.n) :
    Runs (P.lastSolve r tran y) fun x => x.size = P.n ∧
      ∀ i, i < kf → mulVec kf (if tran then herm S else S) (fun j => x.get (P.m + j)) i = y.get (P.m + i) := by
  unfold lastSolve
  have hle := ok.le
  simp only [runs_ite, runs_pure]
  split
  swap
  · rename_i h0
    exact ⟨hy, fun i hi => by omega⟩
  simp only [runs_bind, Buf.runs_win]
  refine ⟨by omega, ?_⟩
  have fin : ∀ v : Buf K, v.size = kf → ∀ i, i < kf → (y.put P.m v).get (P.m + i) = v.get i := fun v hv i hi => by
    rw [Buf.put_get, if_pos (by omega)]; congr 1; omega
  have fin2 : ∀ (v : Buf K) (T : Nat → Nat → K), v.size = kf → ∀ i, i < kf →
      mulVec kf T (fun j => (y.put P.m v).get (P.m + j)) i = mulVec kf T v.get i := fun v T hv i hi =>
    mulVec_congr' (fun c hc => fin v hv c hc) i
  refine (last_solve h tran (Buf.mk (P.n - P.m) fun i => y.get (P.m + i)) hk (by omega)).mono ?_
  rintro v ⟨h1, h2⟩
  simp only [runs_pure]
  exact ⟨hy, fun i hi => by rw [fin2 v _ h1 i hi]; exact h2 i hi⟩

/-- Main lemma for `prec_solve`. -/
theorem solve_runs {r : Nat} {S : Nat → Nat → K} {kf : Nat} : ∀ {precs : List (Prec K)} {k : Nat}, Good r S kf precs k →
    ∀ (b y work : Buf K), k ≤ b.size → y.size = k → workSpace precs ≤ work.size →
    Runs (solve r precs b y work) fun o => o.1.size = k ∧ o.2.size = work.size ∧
      Applies S (precs.map toLevel) k o.1.get b.get
  | [], _, h => h.elim
  | P :: rest, k, ⟨hk, ok, h3⟩ => by
    intro b y work hb hy hw
    subst hk
    have hle := ok.le
    have hwn : P.n + workSpace rest ≤ work.size := hw
    rw [solve]
    simp only [runs_bind]
    refine (fillRange_runs (Nat.zero_le _) (by omega) (fun i => P.s.get (P.p.get i) * b.get (P.p.get i)) ?_).mono ?_
    · intro i _ hi
      have hp := (ok.p_inv.1 i (by omega)).1
      exact mulAt_runs (lt_of_lt_of_le (by omega) ok.p_size) (lt_of_lt_of_le hp ok.s_size) (by omega)
    rintro w1 ⟨s1, l1⟩
    have hw1 : ∀ i, i < P.m → w1.get i = P.s.get (P.p.get i) * b.get (P.p.get i) := fun i hi => by
      rw [l1, if_pos (by omega)]
    refine (solveE_runs ok b y w1 hb (by omega) (by omega) hw1).mono ?_
    rintro ⟨w2, y2⟩ ⟨a1, a2, a3, a4, a5⟩
    simp only at a1 a2 a3 a4 a5
    -- the middle stage: solve with the Schur complement
    have mid : Runs (P.schurStage (P.lastSolve r false) (solve r rest) y2 w2) fun o => o.1.size = work.size ∧ o.2.size = P.n ∧
        (P.m = P.n → ∀ i, i < P.m → o.1.get i = w2.get i) ∧
        Applies S (rest.map toLevel) (P.n - P.m) (fun j => o.2.get (P.m + j)) (fun j => y2.get (P.m + j)) := by
      unfold schurStage
      simp only [runs_ite]
      split
      · rename_i hlast
        rw [if_pos hlast] at h3
        obtain ⟨rfl, hkf, hL⟩ := h3
        simp only [runs_bind, runs_pure]
        refine (lastSolve_runs ok hkf hL false y2 (by omega)).mono ?_
        rintro y3 ⟨q1, q2⟩
        refine ⟨by omega, q1, fun _ _ _ => by tt, fun i hi => ?_⟩
        have := q2 i (by omega)
        rw [hkf]; exact this
      · rename_i hlast
        rw [if_neg hlast] at h3
        simp only [runs_bind, Buf.runs_win, Buf.runs_winTail]
        refine ⟨by omega, ?_⟩
        refine (fillRange_runs hle (by omega) y2.get ?_).mono ?_
        · intro i hi1 hi2
          simp only [runs_rd]
          exact ⟨by omega, by congr 1; omega⟩
        rintro w3 ⟨q1, q2⟩
        refine ⟨by omega, by omega, ?_⟩
        refine (solve_runs h3 _ _ _ (le_refl _) rfl (by show workSpace rest ≤ w3.size - P.n; omega)).mono ?_
        rintro ⟨x, w4⟩ ⟨r1, r2, r3⟩
        simp only [runs_pure, Buf.put_size]
        refine ⟨by omega, by omega, fun c i hi => ?_, ?_⟩
        · rw [Buf.put_get, if_neg (by omega), q2, if_neg (by omega)]
        · refine Applies.congr (Good.chain h3) r3 (fun i hi => ?_) fun i hi => ?_
          · have r1 : x.size = P.n - P.m := r1
            simp only
            rw [Buf.put_get, if_pos (by omega)]; congr 1; omega
          · simp only
            rw [q2, if_pos (by omega)]
    refine mid.mono ?_
    rintro ⟨w3, y3⟩ ⟨c1, c2, c3, c4⟩
    simp only at c1 c2 c3 c4
    refine (solveF_runs ok b y3 w3 hb c2 (by omega) (fun e i hi => by rw [c3 e i hi, a4 e, hw1 i hi])).mono ?_
    rintro w4 ⟨d1, d2, d3⟩
    refine (fillRange_runs (Nat.zero_le _) (by show P.n ≤ y3.size; omega) (fun i => P.t.get i * w4.get (P.qinv.get i)) ?_).mono ?_
    · intro i _ hi
      have hq := (ok.q_inv.2 i hi).1
      have := ok.qinv_size
      have := ok.t_size
      simp only [runs_bind, runs_rd, runs_pure]
      exact ⟨by omega, by omega, by omega, by tt⟩
    rintro y4 ⟨e1, e2⟩
    simp only [runs_pure]
    refine ⟨e1.trans c2, by omega, ?_⟩
    -- the permuted and scaled solution is the final work vector
    have hx : ∀ j, j < P.n → y4.get (P.q.get j) / P.t.get (P.q.get j) = w4.get j := fun j hj => by
      have hq := ok.q_inv.1 j hj
      rw [e2, if_pos ⟨Nat.zero_le _, hq.1⟩, hq.2, mul_div_cancel_left₀ _ (ok.t_ne _ hq.1)]
    have hx2 : ∀ j, j < P.n - P.m → y4.get (P.q.get (P.m + j)) / P.t.get (P.q.get (P.m + j)) = y3.get (P.m + j) := fun j hj => by
      rw [hx _ (by omega), d3 j hj]
    have key1 : ∀ i, i < P.m → ldu P.m P.L.ccs P.d.get P.U.ccs (fun j => y4.get (P.q.get j) / P.t.get (P.q.get j)) i +
        mulVec (P.n - P.m) P.F.ccs (fun j => y4.get (P.q.get (P.m + j)) / P.t.get (P.q.get (P.m + j))) i =
        P.s.get (P.p.get i) * b.get (P.p.get i) := by
      intro i hi
      rw [ldu_congr (fun c hc => hx c (by omega)) hi, mulVec_congr' hx2 i]
      exact d2 i hi
    have chain : Chain (rest.map toLevel) (P.n - P.m) kf := by
      split at h3
      · obtain ⟨rfl, h4, -⟩ := h3
        exact h4
      · exact Good.chain h3
    have key3 : Applies S (rest.map toLevel) (P.n - P.m)
        (fun j => y4.get (P.q.get (P.m + j)) / P.t.get (P.q.get (P.m + j))) (fun j => y2.get (P.m + j)) :=
      Applies.congr chain c4 (fun i hi => (hx2 i hi).symm) (fun _ _ => rfl)
    rcases Nat.lt_or_ge P.m P.n with hmn | hmn
    · exact ⟨key1, w2.get, _, (a5 hmn).1, key3, (a5 hmn).2⟩
    · refine ⟨key1, w4.get, _, fun i hi => ?_, key3, fun i hi => ?_⟩
      · have := d2 i hi
        rw [show P.n - P.m = 0 by omega] at this
        simp only [mulVec, range_zero, sum_empty, add_zero] at this
        exact this
      · have : i < P.n - P.m := hi
        omega

end Prec
end Hif
