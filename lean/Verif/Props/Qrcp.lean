import Verif.QrcpFac
import Verif.Props.LevelEx

set_option linter.unusedSectionVars false
set_option linter.unusedVariables false

/-!
# C64: the dense solver of the last block (QR with column pivoting)

Contracts of LAPACK: `Qrcp.Geqp3OK`, `Qrcp.Laic1OK` (QrcpFac.lean).  `ip n x y = Σ conj(x i) y i`, `Spec.mulVec n A x` is `A x`.
-/

namespace Hif
namespace Props
open Hif Qrcp Spec Finset

variable {K R : Type} [Field K] [StarRing K] [DecidableEq K] [Field R] [LinearOrder R] [IsStrictOrderedRing R]

/-- Column `j` of the column-major `n × n` matrix in `mat`. -/
def colMajor (n : Nat) (mat : Buf K) : Nat → Nat → K := fun i j => mat.get (i + j * n)

/-- `x` is the basic least-squares solution of `A x = b` in the columns `p 0, …, p (k-1)`: zero elsewhere, and the residual is orthogonal to these columns. -/
def BasicLS (n : Nat) (A : Nat → Nat → K) (p : Nat → Nat) (k : Nat) (b x : Nat → K) : Prop :=
  (∀ i, k ≤ i → i < n → x (p i) = 0) ∧ ∀ i, i < k → ip n (fun l => A l (p i)) (fun l => b l - mulVec n A x l) = 0

/-- `x` with the components outside `p 0, …, p (k-1)` replaced by zero. -/
def IsTrunc (n : Nat) (p : Nat → Nat) (k : Nat) (x y : Nat → K) : Prop :=
  (∀ i, i < k → y (p i) = x (p i)) ∧ ∀ i, k ≤ i → i < n → y (p i) = 0

/-- The rank a call uses: its argument, at most the size; without one (`0`) the estimated rank. -/
def usedRank (est n r : Nat) : Nat := if r = 0 then est else min r n

theorem effRank_eq {n : Nat} {A : Nat → Nat → K} {s : St K} (h : Fac n A s) (r : Nat) : effRank s r = usedRank s.rank n r := by
  unfold effRank usedRank
  rw [h.nr]
  split
  · rfl
  · split <;> omega

theorem usedRank_le {est n r : Nat} (h : est ≤ n) : usedRank est n r ≤ n := by
  unfold usedRank
  split <;> omega

/-- Upper triangular systems with nonzero diagonal have one solution. -/
theorem upper_inj {n k : Nat} {mat : Nat → K} (hR : ∀ i, i < k → upper n mat i i ≠ 0) {x y : Nat → K}
    (h : ∀ i, i < k → ∑ j ∈ range k, upper n mat i j * x j = ∑ j ∈ range k, upper n mat i j * y j) : ∀ i, i < k → x i = y i := by
  have key : ∀ t, ∀ i, i < k → k - 1 - i = t → x i = y i := by
    intro t
    induction t using Nat.strong_induction_on with
    | _ t ih =>
      intro i hi ht
      have h1 := h i hi
      have hd : ∀ z : Nat → K, ∑ j ∈ range k, upper n mat i j * z j = upper n mat i i * z i + ∑ j ∈ Ico (i + 1) k, upper n mat i j * z j := by
        intro z
        rw [← sum_range_add_sum_Ico _ (show i + 1 ≤ k by omega), sum_range_succ]
        rw [sum_eq_zero fun j hj => by
          have := mem_range.1 hj
          unfold upper
          rw [if_neg (by omega), zero_mul], zero_add]
      rw [hd, hd, sum_congr rfl fun j hj => by
        have := mem_Ico.1 hj
        rw [ih (k - 1 - j) (by omega) j (by omega) rfl]] at h1
      exact mul_left_cancel₀ (hR i hi) (add_right_cancel h1)
  exact fun i hi => key _ i hi rfl

section calls
variable {n : Nat} {A : Nat → Nat → K} {s : St K}

theorem solve_eq (h : Fac n A s) {b : Buf K} (hb : b.size = n) (r : Nat) (tran : Bool) :
    solve s b r tran = if tran then solveT s (usedRank s.rank n r) 0 b else solveNt s (usedRank s.rank n r) 0 b := by
  unfold solve; rw [hb, guarded_ok h, effRank_eq h]

theorem multiply_eq (h : Fac n A s) {b : Buf K} (hb : b.size = n) (r : Nat) (tran : Bool) :
    multiply s b r tran = if tran then multT s (usedRank s.rank n r) 0 b else multNt s (usedRank s.rank n r) 0 b := by
  unfold multiply; rw [hb, guarded_ok h, effRank_eq h]

theorem solve_basic (h : Fac n A s) {k : Nat} (hk : k ≤ n) (hR : PivotsOK n s k) (b : Buf K) (hb : b.size = n) :
    Runs (solveNt s k 0 b) fun x => x.size = n ∧ BasicLS n A (fun i => s.jpvt.get i - 1) k b.get x.get := by
  refine (solveNt_runs h hk hR 0 b (by omega)).mono ?_
  rintro x ⟨x1, -, x3, x4⟩
  simp only [Nat.zero_add] at x3 x4
  refine ⟨by omega, x3, fun i hi => ?_⟩
  rw [h.ip_col (by omega)]
  refine sum_eq_zero fun j hj => ?_
  have hj := mem_range.1 hj
  by_cases hjk : j < k
  · have : qhb n s (fun l => b.get l - mulVec n A x.get l) j = 0 := by
      have h1 : ∀ l, l < n → mulVec n A x.get l = applyQ n s.mat.get s.tau.get n (fun l => if l < k then qhb n s (fun i => b.get i) l else 0) l :=
        fun l hl => h.mul_trunc hk x3 x4 hl
      unfold qhb
      rw [applyQH_sub]
      have h2 := qhb_congr (s := s) h1 hj
      rw [h.qhb_applyQ, if_pos hjk] at h2
      unfold qhb at h2
      exact sub_eq_zero.2 h2.symm
    rw [this, mul_zero]
  · have : upper n s.mat.get j i = 0 := by unfold upper; rw [if_neg (by omega)]
    rw [this, star_zero, zero_mul]

theorem mult_trunc (h : Fac n A s) {k : Nat} (hk : k ≤ n) (x : Buf K) (hx : x.size = n) (y : Nat → K) (hy : IsTrunc n (fun i => s.jpvt.get i - 1) k x.get y) :
    Runs (multNt s k 0 x) fun z => z.size = n ∧ ∀ i, i < n → z.get i = mulVec n A y i := by
  refine (multNt_runs h hk 0 x (by omega)).mono ?_
  rintro z ⟨z1, -, z3⟩
  simp only [Nat.zero_add] at z3
  refine ⟨by omega, fun i hi => ?_⟩
  rw [z3 i hi, h.mul_trunc hk hy.2 (fun i hi => sum_congr rfl fun j hj => by rw [hy.1 j (mem_range.1 hj)]) hi]

/-- Sums over all components, in the order of the pivots. -/
theorem ip_pivots (h : Fac n A s) (x y : Nat → K) : ip n x y = ∑ j ∈ range n, star (x (s.jpvt.get j - 1)) * y (s.jpvt.get j - 1) := by
  unfold ip
  exact (sum_isPerm h.jperm fun c => star (x c) * y c).symm

theorem sum_head {k n : Nat} (hk : k ≤ n) {f : Nat → K} (h : ∀ i, k ≤ i → i < n → f i = 0) : ∑ i ∈ range n, f i = ∑ i ∈ range k, f i := by
  rw [← sum_range_add_sum_Ico _ hk, sum_eq_zero (s := Ico k n) fun j hj => h j (mem_Ico.1 hj).1 (mem_Ico.1 hj).2, add_zero]

theorem adjoint_sum {k : Nat} (R' : Nat → Nat → K) (w z : Nat → K) :
    ∑ j ∈ range k, star (∑ l ∈ range k, star (R' l j) * w l) * z j = ∑ l ∈ range k, star (w l) * ∑ j ∈ range k, R' l j * z j := by
  simp only [star_sum, star_mul, star_star, sum_mul, mul_sum]
  rw [sum_comm]
  exact sum_congr rfl fun l _ => sum_congr rfl fun j _ => by ring

theorem solve_adj (h : Fac n A s) {k : Nat} (hk : k ≤ n) (hR : PivotsOK n s k) (b c : Buf K) (hb : b.size = n) (hc : c.size = n) :
    Runs (solveNt s k 0 b) fun x => Runs (solveT s k 0 c) fun y => ip n c.get x.get = ip n y.get b.get := by
  refine (solveNt_runs h hk hR 0 b (by omega)).mono ?_
  rintro x ⟨x1, -, x3, x4⟩
  refine (solveT_runs h hk hR 0 c (by omega)).mono ?_
  rintro y ⟨y1, -, w, w1, w2, w3⟩
  simp only [Nat.zero_add] at x3 x4 w2 w3
  rw [ip_pivots h, sum_head hk fun i hi hi' => by rw [x3 i hi hi', mul_zero], sum_congr rfl fun j hj => by rw [← w2 j (mem_range.1 hj)],
    adjoint_sum, sum_congr rfl fun l hl => by rw [x4 l (mem_range.1 hl)]]
  rw [ip_congr (u := y.get) (v := b.get) w3 (fun _ _ => rfl), ← star_ip, applyQ_adj, star_ip]
  unfold ip
  rw [sum_head hk fun i hi hi' => by rw [w1 i hi hi', star_zero, zero_mul]]
  rfl

theorem mult_adj (h : Fac n A s) {k : Nat} (hk : k ≤ n) (b c : Buf K) (hb : b.size = n) (hc : c.size = n) :
    Runs (multNt s k 0 b) fun x => Runs (multT s k 0 c) fun y => ip n c.get x.get = ip n y.get b.get := by
  refine (multNt_runs h hk 0 b (by omega)).mono ?_
  rintro x ⟨x1, -, x3⟩
  refine (multT_runs h hk 0 c (by omega)).mono ?_
  rintro y ⟨y1, -, y3, y4⟩
  simp only [Nat.zero_add] at x3 y3 y4
  rw [ip_pivots h (x := y.get), sum_head hk fun i hi hi' => by rw [y3 i hi hi', star_zero, zero_mul], sum_congr rfl fun j hj => by rw [y4 j (mem_range.1 hj)],
    adjoint_sum]
  rw [ip_congr (u := c.get) (v := x.get) (fun _ _ => rfl) x3, applyQ_adj]
  unfold ip
  rw [sum_head hk fun i hi hi' => by beta_reduce; rw [if_neg (by omega), mul_zero]]
  exact sum_congr rfl fun l hl => by beta_reduce; rw [if_pos (mem_range.1 hl)]; rfl

theorem solve_mult (h : Fac n A s) {k : Nat} (hk : k ≤ n) (hR : PivotsOK n s k) (b : Buf K) (hb : b.size = n) :
    Runs (multNt s k 0 b) fun x => x.size = n ∧ Runs (solveNt s k 0 x) fun y => IsTrunc n (fun i => s.jpvt.get i - 1) k b.get y.get := by
  refine (multNt_runs h hk 0 b (by omega)).mono ?_
  rintro x ⟨x1, -, x3⟩
  refine ⟨by omega, (solveNt_runs h hk hR 0 x (by omega)).mono ?_⟩
  rintro y ⟨y1, -, y3, y4⟩
  simp only [Nat.zero_add] at x3 y3 y4
  refine ⟨?_, y3⟩
  refine upper_inj hR (x := fun j => y.get (s.jpvt.get j - 1)) (y := fun j => b.get (s.jpvt.get j - 1)) fun i hi => ?_
  rw [y4 i hi, qhb_congr x3 (by omega)]
  have := congrFun (h.qhb_applyQ (fun l => if l < k then ∑ j ∈ range k, upper n s.mat.get l j * b.get (s.jpvt.get j - 1) else 0)) i
  rw [if_pos hi] at this
  exact this

end calls

variable {env : Env K R} (hl : Laic1OK env) (hnrm : NrmOK env.nrm) (ht : 0 < env.diagTol) {n : Nat} (hpos : 0 < n) {mat : Buf K} (hg : Geqp3OK env n mat)
include hl hnrm ht hpos hg

/-- C64 (solve): for every nonzero square block the factorization succeeds with a rank between `0` and `n` and an order of the columns such that every call of `solve`
with a rank up to the estimated one (or without a rank) is free of division by zero and returns the basic least-squares solution in the leading columns of that
order. -/
theorem C64_solve_partial (hne : ∃ i j, i < n ∧ j < n ∧ colMajor n mat i j ≠ 0) : Runs (factorize env n n mat) fun s => s.rank ≤ n ∧ ∃ p, IsPerm n p ∧
    ∀ (r : Nat) (b : Buf K), b.size = n → usedRank s.rank n r ≤ s.rank →
      Runs (solve s b r false) fun x => x.size = n ∧ BasicLS n (colMajor n mat) p (usedRank s.rank n r) b.get x.get := by
  refine (factorize_runs hl hnrm ht hpos hg).mono ?_
  rintro s ⟨h, hr, hp⟩
  refine ⟨hr, _, h.jperm, fun r b hb hle => ?_⟩
  rw [solve_eq h hb]
  exact solve_basic h (usedRank_le hr) (fun i hi => hp hne i (by omega)) b hb

/-- C64 (multiply): `multiply` with rank `k` is the product with the `k` leading columns, for every rank; and `solve` undoes it on these components. -/
theorem C64_multiply : Runs (factorize env n n mat) fun s => s.rank ≤ n ∧ ∃ p, IsPerm n p ∧ ∀ (r : Nat) (x : Buf K), x.size = n →
    (∀ y, IsTrunc n p (usedRank s.rank n r) x.get y → Runs (multiply s x r false) fun z => z.size = n ∧ ∀ i, i < n → z.get i = mulVec n (colMajor n mat) y i) ∧
    ((∃ i j, i < n ∧ j < n ∧ colMajor n mat i j ≠ 0) → usedRank s.rank n r ≤ s.rank → Runs (multiply s x r false) fun z => z.size = n ∧
      Runs (solve s z r false) fun w => IsTrunc n p (usedRank s.rank n r) x.get w.get) := by
  refine (factorize_runs hl hnrm ht hpos hg).mono ?_
  rintro s ⟨h, hr, hp⟩
  refine ⟨hr, _, h.jperm, fun r x hx => ⟨fun y hy => ?_, fun hne hle => ?_⟩⟩
  · rw [multiply_eq h hx]
    exact mult_trunc h (usedRank_le hr) x hx y hy
  · rw [multiply_eq h hx]
    refine (solve_mult h (usedRank_le hr) (fun i hi => hp hne i (by omega)) x hx).mono ?_
    rintro z ⟨z1, z2⟩
    exact ⟨z1, by rw [solve_eq h z1]; exact z2⟩

/-- C64 (transposed calls): with the transpose flag `solve` and `multiply` are the adjoints of the calls without it, for every rank they may be called with. -/
theorem C64_adjoint : Runs (factorize env n n mat) fun s => s.rank ≤ n ∧ ∀ (r : Nat) (b c : Buf K), b.size = n → c.size = n →
    (Runs (multiply s b r false) fun x => Runs (multiply s c r true) fun y => ip n c.get x.get = ip n y.get b.get) ∧
    ((∃ i j, i < n ∧ j < n ∧ colMajor n mat i j ≠ 0) → usedRank s.rank n r ≤ s.rank →
      Runs (solve s b r false) fun x => Runs (solve s c r true) fun y => ip n c.get x.get = ip n y.get b.get) := by
  refine (factorize_runs hl hnrm ht hpos hg).mono ?_
  rintro s ⟨h, hr, hp⟩
  refine ⟨hr, fun r b c hb hc => ⟨?_, fun hne hle => ?_⟩⟩
  · simp only [multiply_eq h hb, multiply_eq h hc]
    exact mult_adj h (usedRank_le hr) b c hb hc
  · simp only [solve_eq h hb, solve_eq h hc]
    exact solve_adj h (usedRank_le hr) (fun i hi => hp hne i (by omega)) b c hb hc

/-- C64 (several right-hand sides): every column of `solve_mrhs` and `multiply_mrhs` is what the single call gives for that column. -/
theorem C64_mrhs : Runs (factorize env n n mat) fun s => ∀ (r N : Nat) (x : Buf K) (tran : Bool), 0 < N → x.size = n * N →
    (Runs (multMrhs s N x r tran) fun z => z.size = n * N ∧ ∀ j, j < N → Runs (multiply s ⟨n, fun i => x.get (i * N + j)⟩ r tran) fun y => ∀ i, i < n → z.get (i * N + j) = y.get i) ∧
    ((∃ i j, i < n ∧ j < n ∧ colMajor n mat i j ≠ 0) → usedRank s.rank n r ≤ s.rank →
      Runs (solveMrhs s N x r tran) fun z => z.size = n * N ∧ ∀ j, j < N → Runs (solve s ⟨n, fun i => x.get (i * N + j)⟩ r tran) fun y => ∀ i, i < n → z.get (i * N + j) = y.get i) := by
  refine (factorize_runs hl hnrm ht hpos hg).mono ?_
  rintro s ⟨h, hr, hp⟩
  intro r N x tran hN hx
  have hk : usedRank s.rank n r ≤ n := usedRank_le hr
  have hdiv : x.size / N = n := by rw [hx, Nat.mul_div_cancel _ hN]
  refine ⟨?_, fun hne hle => ?_⟩
  · unfold multMrhs
    rw [hdiv, guarded_ok h, effRank_eq h, h.nr]
    cases tran
    · simpa only [multiply_eq h (b := ⟨n, fun i => x.get (i * N + _)⟩) rfl, Bool.false_eq_true, if_false] using mrhs_runs (multNt_local h hk) N x hx
    · simpa only [multiply_eq h (b := ⟨n, fun i => x.get (i * N + _)⟩) rfl, if_true] using mrhs_runs (multT_local h hk) N x hx
  · have hR : PivotsOK n s (usedRank s.rank n r) := fun i hi => hp hne i (by omega)
    unfold solveMrhs
    rw [hdiv, guarded_ok h, effRank_eq h, h.nr]
    cases tran
    · simpa only [solve_eq h (b := ⟨n, fun i => x.get (i * N + _)⟩) rfl, Bool.false_eq_true, if_false] using mrhs_runs (solveNt_local h hk hR) N x hx
    · simpa only [solve_eq h (b := ⟨n, fun i => x.get (i * N + _)⟩) rfl, if_true] using mrhs_runs (solveT_local h hk hR) N x hx

/-- C64 (full rank): for a nonsingular block the calls with a rank `≥ n`, and those without a rank if the estimated rank is full, solve and multiply exactly, also
with the transpose flag. -/
theorem C64_exact (hA : Injective n (colMajor n mat)) : Runs (factorize env n n mat) fun s => ∀ r, n ≤ r ∨ (r = 0 ∧ s.rank = n) →
    Prec.DenseExact r n (colMajor n mat) (ops s) := by
  refine (factorize_runs hl hnrm ht hpos hg).mono ?_
  rintro s ⟨h, hr, hp⟩
  intro r hrn
  refine exact_ops h hA ?_
  rw [effRank_eq h]
  unfold usedRank
  rcases hrn with h1 | ⟨rfl, h2⟩
  · rw [if_neg (by omega)]; omega
  · rw [if_pos rfl]; exact h2


/-- C64 (rank): without an explicit rank at least one column is used, unless the threshold for the condition number is below one. -/
theorem C64_rank_pos (hne : ∃ i j, i < n ∧ j < n ∧ colMajor n mat i j ≠ 0) (hc : 1 ≤ env.condThres) : Runs (factorize env n n mat) fun s => 0 < s.rank := by
  obtain ⟨i0, j0, hi0, hj0, h0⟩ := hne
  have hR0 : 0 < env.nrm ((env.geqp3 n n mat).mat.get 0) :=
    lt_of_lt_of_le (lt_of_le_of_ne (hnrm.nonneg _) fun e => h0 ((hnrm.zero _).1 e.symm)) (hg.entry i0 j0 hi0 hj0)
  have hms : (env.geqp3 n n mat).mat.size = n * n := (hg.fac n).msz
  have hnn : 0 < n * n := Nat.mul_pos hpos hpos
  unfold factorize
  rw [if_neg (by omega), if_neg (lt_irrefl _)]
  dsimp only
  rw [if_neg (not_lt.2 hg.info), runs_bind, runs_rd]
  refine ⟨by omega, ?_⟩
  rw [runs_bind, Nat.min_self]
  refine (smallDiag_runs env.nrm ⟨n, n, (env.geqp3 n n mat).mat, (env.geqp3 n n mat).jpvt, (env.geqp3 n n mat).tau, n⟩ _ n rfl hms n (le_refl _)).mono ?_
  intro small _
  split
  · rw [runs_bind]
    refine (estRank2_pos hl hnrm _ n hpos rfl rfl hms (fun e => by rw [e, (hnrm.zero 0).2 rfl] at hR0; exact lt_irrefl _ hR0) hc).mono ?_
    intro r hr
    rw [runs_pure]
    exact hr
  · rw [runs_pure]; exact hpos

/-- C64 (zero block): for the zero block the statement of C64 (solve) is false: it is given full rank, and `solve` divides by zero. -/
theorem C64_zero_block (hz : ∀ i j, i < n → j < n → colMajor n mat i j = 0) : Runs (factorize env n n mat) fun s => s.rank = n ∧
    ∀ b : Buf K, b.size = n → solve s b 0 false = .error (.ub "division by zero") := by
  have hms : (env.geqp3 n n mat).mat.size = n * n := (hg.fac n).msz
  have hnn : 0 < n * n := Nat.mul_pos hpos hpos
  have h0 : (env.geqp3 n n mat).mat.get 0 = 0 := by
    have := (hg.fac n).pivot_of_zero hz
    exact this
  unfold factorize
  rw [if_neg (by omega), if_neg (lt_irrefl _)]
  dsimp only
  rw [if_neg (not_lt.2 hg.info), runs_bind, runs_rd]
  refine ⟨by omega, ?_⟩
  rw [runs_bind, Nat.min_self]
  refine (smallDiag_runs env.nrm ⟨n, n, (env.geqp3 n n mat).mat, (env.geqp3 n n mat).jpvt, (env.geqp3 n n mat).tau, n⟩ _ n rfl hms n (le_refl _)).mono ?_
  intro small hsm
  rw [hsm.2 fun x => by rw [h0, (hnrm.zero 0).2 rfl, mul_zero]; exact hnrm.nonneg x]
  rw [if_neg (by simp), runs_pure]
  refine ⟨rfl, fun b hb => ?_⟩
  have hF := hg.fac n
  rw [solve_eq hF hb]
  have hu : usedRank n n 0 = n := rfl
  simp only [Bool.false_eq_true, if_false]
  show solveNt _ (usedRank n n 0) 0 b = _
  rw [hu]
  unfold solveNt
  obtain ⟨x, e, x1, -⟩ := ormqr_runs true (le_refl n) hF.msz hF.tsz 0 b (by omega)
  show (ormqr true n n (env.geqp3 n n mat).mat (env.geqp3 n n mat).tau 0 b >>= _) = _
  have e : ormqr true n n (env.geqp3 n n mat).mat (env.geqp3 n n mat).tau 0 b = .ok x := e
  rw [e]
  show (trsv false n n (env.geqp3 n n mat).mat 0 x >>= _) = _
  unfold trsv
  rw [if_pos ⟨fun hh => by rw [hms]; exact tri_bound (le_refl n) hh, by omega⟩, if_neg fun hh => ?_]
  · rfl
  · have := hh 0 hpos
    rw [upper_diag] at this
    simp only [Nat.zero_mul, Nat.zero_add] at this
    exact this h0

/-- The environment with the estimator of the largest singular value replaced by one that returns its input. -/
def withoutMax (env : Env K R) : Env K R :=
  { env with laic1 := fun mx j x e w g => if mx then (e, 1, 0) else env.laic1 false j x e w g }

/-- C64 (condition estimate): the estimator of the largest singular value has no effect: the factorization is the same with `withoutMax`, so the rank is decided by
comparing the smallest singular value with the first diagonal entry, not with the largest singular value.  (The loop starts with an empty leading block but with the
estimates of the block of size one, whence the vector for the largest singular value becomes zero in the first step and stays so.) -/
theorem C64_max_unused (hne : ∃ i j, i < n ∧ j < n ∧ colMajor n mat i j ≠ 0) : factorize env n n mat = factorize (withoutMax env) n n mat := by
  obtain ⟨i0, j0, hi0, hj0, h0⟩ := hne
  have hR0 : 0 < env.nrm ((env.geqp3 n n mat).mat.get 0) :=
    lt_of_lt_of_le (lt_of_le_of_ne (hnrm.nonneg _) fun e => h0 ((hnrm.zero _).1 e.symm)) (hg.entry i0 j0 hi0 hj0)
  have key := estRank2_withoutMax hl ⟨n, n, (env.geqp3 n n mat).mat, (env.geqp3 n n mat).jpvt, (env.geqp3 n n mat).tau, n⟩ (env' := withoutMax env) n rfl rfl
    (hg.fac n).msz hpos hR0 (fun i hi => hg.lead i hi) rfl rfl (fun _ _ _ _ _ => rfl) (fun _ _ _ _ _ => rfl)
  unfold factorize
  rw [show (withoutMax env).geqp3 = env.geqp3 from rfl, show (withoutMax env).nrm = env.nrm from rfl, show (withoutMax env).diagTol = env.diagTol from rfl]
  dsimp only
  rw [key]

end Props
end Hif
