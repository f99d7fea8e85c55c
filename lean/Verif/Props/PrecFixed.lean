import Verif.PrecFixed
import Verif.Props.Prec
import Verif.QrcpRun
import Verif.SyEigLemmas
import Verif.SyEigDense
import Mathlib.Algebra.BigOperators.Field

set_option linter.unusedSectionVars false
set_option linter.unusedVariables false
set_option linter.unusedSimpArgs false

/-!
# C91: applying the preconditioner is one fixed linear operator, whatever the rank of the last block
-/

namespace Hif.Props
open Finset Spec HIF HM
variable {K : Type} [Field K] [StarRing K]

theorem history_run {h : HIF K} (hw : Fits 1 h) (junk : Nat → K) (cs : List (Call K)) (hc : ∀ c ∈ cs, c.applies) :
    (run junk h cs).precs = h.precs ∧ (run junk h cs).nsp = h.nsp ∧ (run junk h cs).nspTran = h.nspTran ∧ Ready (run junk h cs) := by
  have h1 := same_run (I := fun g => g.precs = h.precs ∧ g.nsp = h.nsp ∧ g.nspTran = h.nspTran) (fun g w hg => hg) junk cs hc h ⟨rfl, rfl, rfl⟩
  have h2 : Fits 1 (run junk h cs) := by
    refine fits_run junk cs (fun c hcs w hcw => ?_) h hw
    have := hc c hcs
    cases c <;> simp only [Call.width, Call.applies, Option.some.injEq, reduceCtorEq] at hcw this <;> omega
  refine ⟨h1.1, h1.2.1, h1.2.2, ?_⟩
  have := h2.1
  unfold ReadyFor at this
  rw [Nat.mul_one] at this
  exact this

section main
variable {h : HIF K} {r : Nat} {T : Nat → Nat → K} {kf k : Nat} (hg : Prec.Usable r T kf h.precs k) (hw : Fits 1 h)
include hg hw

theorem fixed_run (junk : Nat → K) (cs : List (Call K)) (hc : ∀ c ∈ cs, c.applies) :
    (run junk h cs).precs = h.precs ∧ (run junk h cs).nsp = h.nsp ∧ (run junk h cs).nspTran = h.nspTran ∧ Ready (run junk h cs) :=
  history_run hw junk cs hc

theorem fixed_total (trans : Bool) (b : Nat → K) :
    ∃ x, if trans then Gives (herm T) ((h.precs.map Prec.toLevel).map Level.adj) k x b else Gives T (h.precs.map Prec.toLevel) k x b := by
  have hr : Ready h := by
    have := hw.1
    unfold ReadyFor at this
    rw [Nat.mul_one] at this
    exact this
  obtain ⟨_, y, _, _, hy⟩ := solveFix_does (K := K) (junk := fun _ => (0 : K)) (h := ({ h with nsp := none, nspTran := none } : HIF K)) (r := r) (T := T) (kf := kf) (k := k) hg hr trans
    (by cases trans <;> rfl) (Buf.mk k b) (Buf.mk k b) rfl rfl
  exact ⟨y.get, hy.2⟩

/-- **C91**: after every sequence of calls that apply the preconditioner, `solve` multiplies the right-hand side by one and the same matrix, `solve` with the transpose flag by
another: the result does not depend on what `x`, the work space or earlier calls contained. -/
theorem C91_fixed_matrix : ∃ W Wt : Nat → Nat → K, ∀ (junk : Nat → K) (cs : List (Call K)), (∀ c ∈ cs, c.applies) → ∀ (trans : Bool),
    (if trans then h.nspTran else h.nsp) = none → ∀ b x : Buf K, b.size = k → x.size = k →
    Does (solve junk b x trans r) (run junk h cs) fun _ y => y.size = k ∧ ∀ i, i < k → y.get i = mulVec k (if trans then Wt else W) b.get i := by
  obtain ⟨W, hW⟩ := Gives.matrix hg.chain (fun b => fixed_total hg hw false b)
  obtain ⟨Wt, hWt⟩ := Gives.matrix (Prec.adj_chain hg.chain) (fun b => fixed_total hg hw true b)
  refine ⟨W, Wt, fun junk cs hc trans hn b x hb hx => ?_⟩
  obtain ⟨e1, e2, e3, e4⟩ := fixed_run hg hw junk cs hc
  obtain ⟨g, y, e, h1, h2, h3⟩ := solveFix_does (junk := junk) (h := run junk h cs) (by rw [e1]; exact hg) e4 trans (by rw [e2, e3]; exact hn) b x hb hx
  refine ⟨g, y, e, h2, fun i hi => ?_⟩
  rw [e1] at h3
  cases trans with
  | false => exact hW _ _ h3 i hi
  | true => exact hWt _ _ h3 i hi

/-- **C91**: if the scaling factors are real, the two matrices are conjugate transposes of each other, also if the rank of the last block is truncated. -/
theorem C91_adjoint (hr : RealScalings h.precs) : ∃ W : Nat → Nat → K, ∀ (junk : Nat → K) (cs : List (Call K)), (∀ c ∈ cs, c.applies) → ∀ (trans : Bool),
    (if trans then h.nspTran else h.nsp) = none → ∀ b x : Buf K, b.size = k → x.size = k →
    Does (solve junk b x trans r) (run junk h cs) fun _ y => y.size = k ∧ ∀ i, i < k → y.get i = mulVec k (if trans then herm W else W) b.get i := by
  obtain ⟨W, hW, hWt⟩ := adjoint_pair (k := k) (R := Gives T (h.precs.map Prec.toLevel) k)
    (R' := Gives (herm T) ((h.precs.map Prec.toLevel).map Level.adj) k) (fun b => fixed_total hg hw false b) (fun b => fixed_total hg hw true b)
    (fun x b z c h1 h2 => Gives.adjoint hg.chain (fun v hv => by
      obtain ⟨P, hP, rfl⟩ := List.mem_map.1 hv
      exact hr P hP) h1 h2)
  refine ⟨W, fun junk cs hc trans hn b x hb hx => ?_⟩
  obtain ⟨e1, e2, e3, e4⟩ := fixed_run hg hw junk cs hc
  obtain ⟨g, y, e, h1, h2, h3⟩ := solveFix_does (junk := junk) (h := run junk h cs) (by rw [e1]; exact hg) e4 trans (by rw [e2, e3]; exact hn) b x hb hx
  refine ⟨g, y, e, h2, fun i hi => ?_⟩
  rw [e1] at h3
  cases trans with
  | false => exact hW _ _ h3 i hi
  | true => exact hWt _ _ h3 i hi

/-- **C91**: linearity, at three points of one history. -/
theorem C91_linear (trans : Bool) (hn : (if trans then h.nspTran else h.nsp) = none) (junk : Nat → K) (cs cs' cs'' : List (Call K))
    (hc : ∀ c ∈ cs, c.applies) (hc' : ∀ c ∈ cs', c.applies) (hc'' : ∀ c ∈ cs'', c.applies) (a c : K) (b b' b'' x x' x'' : Buf K)
    (hb : b.size = k) (hb' : b'.size = k) (hb'' : b''.size = k) (hx : x.size = k) (hx' : x'.size = k) (hx'' : x''.size = k)
    (e : ∀ i, i < k → b''.get i = a * b.get i + c * b'.get i) :
    ∃ y y' y'', Does (solve junk b x trans r) (run junk h cs) (fun _ z => z = y) ∧ Does (solve junk b' x' trans r) (run junk h cs') (fun _ z => z = y') ∧
      Does (solve junk b'' x'' trans r) (run junk h cs'') (fun _ z => z = y'') ∧
      y.size = k ∧ y'.size = k ∧ y''.size = k ∧ ∀ i, i < k → y''.get i = a * y.get i + c * y'.get i := by
  obtain ⟨W, Wt, hW⟩ := C91_fixed_matrix hg hw
  obtain ⟨g, y, e1, s1, l1⟩ := hW junk cs hc trans hn b x hb hx
  obtain ⟨g', y', e2, s2, l2⟩ := hW junk cs' hc' trans hn b' x' hb' hx'
  obtain ⟨g'', y'', e3, s3, l3⟩ := hW junk cs'' hc'' trans hn b'' x'' hb'' hx''
  refine ⟨y, y', y'', ⟨g, y, e1, rfl⟩, ⟨g', y', e2, rfl⟩, ⟨g'', y'', e3, rfl⟩, s1, s2, s3, fun i hi => ?_⟩
  rw [l1 i hi, l2 i hi, l3 i hi, ← mulVec_lin]
  exact mulVec_congr' e i
end main

/-! ### the dense solvers are such operations -/

/-- **C91**: an exact dense solver is one (the matrix is the inverse). -/
theorem C91_dense_exact {r k : Nat} {S : Nat → Nat → K} {D : DenseOps K} (h : Prec.DenseExact r k S D) : ∃ T, Prec.DenseFixed r k T D := by
  have tot : ∀ b : Nat → K, ∃ x, ∀ i, i < k → mulVec k S x i = b i := fun b => by
    obtain ⟨x, _, _, hx⟩ := h.solve ⟨k, b⟩ rfl
    exact ⟨x.get, hx⟩
  have tot' : ∀ b : Nat → K, ∃ x, ∀ i, i < k → mulVec k (herm S) x i = b i := fun b => by
    obtain ⟨x, _, _, hx⟩ := h.solveT ⟨k, b⟩ rfl
    exact ⟨x.get, hx⟩
  obtain ⟨T, h1, h2⟩ := adjoint_pair (k := k) tot tot' fun x b z c hx hz => by
    rw [ip_congr (u := z) (fun _ _ => rfl) fun i hi => (hx i hi).symm, ip_mulVec]
    exact ip_congr hz fun _ _ => rfl
  exact ⟨T, fun y hy => (h.solve y hy).mono fun x q => ⟨q.1, h1 _ _ q.2⟩, fun y hy => (h.solveT y hy).mono fun x q => ⟨q.1, h2 _ _ q.2⟩⟩

/-- **C91**: an exact preconditioner (the one of C27, C28) satisfies the hypotheses. -/
theorem C91_exact_usable {K : Type} [Field K] [StarRing K] {r : Nat} {S : Nat → Nat → K} {kf : Nat} : ∀ {precs : List (Prec K)} {k : Nat},
    Prec.Good r S kf precs k → ∃ T, Prec.Usable r T kf precs k
  | [], _, h => h.elim
  | P :: rest, k, ⟨h1, h2, h3⟩ => by
    by_cases hl : P.isLast = true
    · rw [if_pos hl] at h3
      obtain ⟨h4, h5, h6⟩ := h3
      obtain ⟨T, hT⟩ : ∃ T, Prec.LastFix r kf T P.last := by
        cases e : P.last with
        | none => rw [e] at h6; exact ⟨fun _ _ => 0, h6⟩
        | dense D => rw [e] at h6; exact C91_dense_exact h6
        | symm D =>
          rw [e] at h6
          obtain ⟨s1, s2, -⟩ := h6
          have tot : ∀ b : Nat → K, ∃ x, ∀ i, i < kf → mulVec kf S x i = b i := fun b => by
            obtain ⟨x, _, _, hx⟩ := s2 ⟨kf, b⟩ rfl
            exact ⟨x.get, hx⟩
          obtain ⟨T, t1, t2⟩ := adjoint_pair (k := kf) tot tot fun x b z c hx hz => by
            rw [ip_congr (u := z) (fun _ _ => rfl) fun i hi => (hx i hi).symm, ip_mulVec]
            refine ip_congr (fun i hi => ?_) fun _ _ => rfl
            rw [← hz i hi]
            exact sum_congr rfl fun j hj => by rw [s1 i j hi (mem_range.1 hj)]
          refine ⟨T, fun i j hi hj => ?_, fun y hy => (s2 y hy).mono fun x q => ⟨q.1, t1 _ _ q.2⟩⟩
          obtain ⟨x, hx⟩ := tot fun l => if l = j then 1 else 0
          have a := t1 _ _ hx i hi
          have b := t2 _ _ hx i hi
          rw [a] at b
          have ev : ∀ M : Nat → Nat → K, mulVec kf M (fun l => if l = j then 1 else 0) i = M i j := fun M => by
            unfold mulVec
            rw [sum_eq_single_of_mem j (mem_range.2 hj)]
            · simp
            · intro l _ hl
              beta_reduce
              rw [if_neg hl, mul_zero]
          rw [ev, ev] at b
          exact b.symm
      exact ⟨T, h1, h2, by rw [if_pos hl]; exact ⟨h4, h5, hT⟩⟩
    · rw [if_neg hl] at h3
      obtain ⟨T, hT⟩ := C91_exact_usable h3
      exact ⟨T, h1, h2, by rw [if_neg hl]; exact hT⟩

end Hif.Props

namespace Hif.Qrcp
open Finset Spec
variable {K : Type _} [Field K] [StarRing K] [DecidableEq K] {n : Nat} {A : Nat → Nat → K} {s : St K}

/-- QRCP with a truncated rank, as relations between right-hand side and result. -/
def Sol (n k : Nat) (s : St K) (x b : Nat → K) : Prop :=
  (∀ i, k ≤ i → i < n → x (s.jpvt.get i - 1) = 0) ∧
    ∀ i, i < k → ∑ j ∈ range k, upper n s.mat.get i j * x (s.jpvt.get j - 1) = qhb n s b i

def SolT (n k : Nat) (s : St K) (z c : Nat → K) : Prop :=
  ∃ w : Nat → K, (∀ i, k ≤ i → i < n → w i = 0) ∧ (∀ i, i < k → ∑ j ∈ range k, star (upper n s.mat.get j i) * w j = c (s.jpvt.get i - 1)) ∧
    ∀ i, i < n → z i = applyQ n s.mat.get s.tau.get n w i

theorem sum_head {n k : Nat} (hk : k ≤ n) (f : Nat → K) (h : ∀ i, k ≤ i → i < n → f i = 0) : ∑ i ∈ range n, f i = ∑ i ∈ range k, f i := by
  rw [← sum_range_add_sum_Ico f hk, sum_eq_zero (s := Ico k n) fun i hi => h i (mem_Ico.1 hi).1 (mem_Ico.1 hi).2, add_zero]

theorem sol_adjoint (h : Fac n A s) {k : Nat} (hk : k ≤ n) {x b z c : Nat → K} (hx : Sol n k s x b) (hz : SolT n k s z c) :
    ip n z b = ip n c x := by
  obtain ⟨w, w1, w2, w3⟩ := hz
  rw [ip_congr w3 fun _ _ => rfl]
  have e1 : ip n (applyQ n s.mat.get s.tau.get n w) b = ip n w (qhb n s b) := by
    rw [← star_ip, applyQ_adj, star_ip]; rfl
  rw [e1]
  have e2 : ip n c x = ∑ j ∈ range k, star (c (s.jpvt.get j - 1)) * x (s.jpvt.get j - 1) := by
    unfold ip
    rw [← sum_isPerm h.jperm (fun i => star (c i) * x i)]
    exact sum_head hk _ fun i h1 h2 => by rw [hx.1 i h1 h2, mul_zero]
  rw [e2]
  unfold ip
  rw [sum_head hk _ fun i h1 h2 => by rw [w1 i h1 h2, star_zero, zero_mul],
    sum_congr rfl fun i hi => by rw [← hx.2 i (mem_range.1 hi), mul_sum], sum_comm]
  refine sum_congr rfl fun j hj => ?_
  rw [← w2 j (mem_range.1 hj), star_sum, sum_mul]
  refine sum_congr rfl fun i hi => ?_
  rw [star_mul', star_star]
  ring

end Hif.Qrcp

namespace Hif.Props
open Finset Spec HIF HM

/-- **C91**: the dense QR solver is one for every rank whose pivots are nonzero, also for a singular block. -/
theorem C91_dense_qrcp {K : Type _} [Field K] [StarRing K] [DecidableEq K] {n : Nat} {A : Nat → Nat → K} {s : Qrcp.St K} (h : Qrcp.Fac n A s) (rank : Nat)
    (hr : Qrcp.effRank s rank ≤ n) (hp : Qrcp.PivotsOK n s (Qrcp.effRank s rank)) : ∃ T, Prec.DenseFixed rank n T (Qrcp.ops s) := by
  set k := Qrcp.effRank s rank with hk
  have run : ∀ y : Buf K, y.size = n → Runs (Qrcp.solve s y rank false) fun x => x.size = n ∧ Qrcp.Sol n k s x.get y.get := fun y hy => by
    unfold Qrcp.solve
    rw [hy, Qrcp.guarded_ok h, ← hk]
    simp only [Bool.false_eq_true, if_false]
    refine (Qrcp.solveNt_runs h hr hp 0 y (by omega)).mono ?_
    rintro x ⟨x1, -, x3, x4⟩
    simp only [Nat.zero_add] at x3 x4
    exact ⟨by omega, x3, x4⟩
  have runT : ∀ y : Buf K, y.size = n → Runs (Qrcp.solve s y rank true) fun x => x.size = n ∧ Qrcp.SolT n k s x.get y.get := fun y hy => by
    unfold Qrcp.solve
    rw [hy, Qrcp.guarded_ok h, ← hk]
    simp only [if_true]
    refine (Qrcp.solveT_runs h hr hp 0 y (by omega)).mono ?_
    rintro x ⟨x1, -, x3⟩
    simp only [Nat.zero_add] at x3
    exact ⟨by omega, x3⟩
  obtain ⟨T, h1, h2⟩ := adjoint_pair (k := n) (R := Qrcp.Sol n k s) (R' := Qrcp.SolT n k s)
    (fun b => by obtain ⟨x, _, _, hx⟩ := run ⟨n, b⟩ rfl; exact ⟨_, hx⟩) (fun b => by obtain ⟨x, _, _, hx⟩ := runT ⟨n, b⟩ rfl; exact ⟨_, hx⟩)
    fun x b z c hx hz => Qrcp.sol_adjoint h hr hx hz
  exact ⟨T, fun y hy => (run y hy).mono fun x q => ⟨q.1, h1 _ _ q.2⟩, fun y hy => (runT y hy).mono fun x q => ⟨q.1, h2 _ _ q.2⟩⟩

/-- **C91**: the symmetric eigenvalue solver is one for every rank whose kept eigenvalues are nonzero. -/
theorem C91_dense_syeig {R V : Type} [Field R] [LinearOrder R] [Field V] [StarRing V] {c : R → V} (hc : ∀ a, star (c a) = c a) {n : Nat} {s : SyEig.St R V}
    (h : SyEig.Ready n s) (rank : Nat) (hp : ∀ t, t < SyEig.effRank s n rank → s.w.get (s.order.get t) ≠ 0) :
    ∃ T, Prec.LastFix rank n T (.symm (SyEig.ops c s)) := by
  classical
  refine ⟨fun i j => ∑ l ∈ range n, s.mat.get (l * n + i) *
    (if SyEig.Kept s.order (SyEig.effRank s n rank) l then star (s.mat.get (l * n + j)) / c (s.w.get l) else 0), fun i j _ _ => ?_, fun y hy => ?_⟩
  · unfold herm
    rw [star_sum]
    refine sum_congr rfl fun l _ => ?_
    split
    · rw [star_mul', star_div₀, star_star, hc]; ring
    · rw [mul_zero, star_zero, mul_zero]
  · show Runs (SyEig.solve c s y rank) _
    unfold SyEig.solve
    rw [if_neg (by have := h.pos; rw [h.rows, h.w]; omega), if_neg (by rw [h.rows]; omega), runs_bind, hy]
    refine (SyEig.apply_runs (c := c) h (op := fun a b => a / c b) (ok := fun a => a ≠ 0) (fun i y h1 h2 h3 h4 => SyEig.divAt_runs i y h1 h2 h3 h4)
      (h.eff_le rank) hp y s.work (by omega) h.work).mono ?_
    rintro r ⟨r1, -, r3, -⟩
    rw [runs_pure]
    refine ⟨by omega, fun i hi => ?_⟩
    have := r3 i hi
    simp only [Nat.zero_add] at this
    rw [this]
    unfold mulVec
    simp only [sum_mul]
    rw [sum_comm]
    refine sum_congr rfl fun l _ => ?_
    split
    · rw [sum_div, mul_sum]
      exact sum_congr rfl fun j _ => by ring
    · simp

/-! ### a preconditioner whose last block is used with a truncated rank -/

namespace ExFixed
open Hif.Ex

/-- Dense solver of a 2×2 block `diag(4, 0)` with rank 1. -/
def D : DenseOps ℚ :=
  { solve := fun y _ _ => pure ⟨2, fun i => if i = 0 then y.get 0 / 4 else 0⟩, multiply := fun y _ _ => pure ⟨2, fun i => if i = 0 then y.get 0 * 4 else 0⟩,
    solveMrhs := fun N y _ => pure ⟨2 * N, fun i => if i < N then y.get i / 4 else 0⟩, rank := 1 }

/-- One level of a 3×3 system. -/
def P : Prec ℚ :=
  { m := 1, n := 3, L := mk 1 1 [0, 0] [] [], d := Buf.ofList [2], U := mk 1 1 [0, 0] [] [], E := mk 1 2 [0, 1] [0] [3], F := mk 2 1 [0, 1, 1] [0] [5],
    s := Buf.ofList [1, 2, 3], t := Buf.ofList [1, 1/2, 1], p := Buf.ofList [2, 0, 1], pinv := Buf.ofList [1, 2, 0], q := Buf.ofList [1, 0, 2],
    qinv := Buf.ofList [1, 0, 2], last := .dense D }

theorem P_ok : P.OK := by
  constructor
  case L_wf => constructor <;> decide
  case U_wf => constructor <;> decide
  case E_wf => exact fun _ => ⟨by constructor <;> decide, rfl, rfl⟩
  case F_wf => exact fun _ => ⟨by constructor <;> decide, rfl⟩
  case p_inv => exact ⟨by decide, by decide⟩
  case q_inv => exact ⟨by decide, by decide⟩
  case lower => unfold StrictLower; decide +kernel
  case upper => unfold StrictUpper; decide +kernel
  case d_ne => decide +kernel
  case s_ne => decide +kernel
  case t_ne => decide +kernel
  all_goals decide

def T (i j : Nat) : ℚ := if i = 0 ∧ j = 0 then 1 / 4 else 0

theorem D_fixed : Prec.DenseFixed 0 2 T D := by
  constructor
  all_goals
    intro y hy
    refine ⟨_, rfl, rfl, fun i hi => ?_⟩
    have : i = 0 ∨ i = 1 := by omega
    rcases this with rfl | rfl <;> simp [mulVec, herm, T, sum_range_succ]
  all_goals ring

/-- No matrix is solved with exactly by it. -/
example : ¬ ∃ S, Prec.DenseExact 0 2 S D := by
  rintro ⟨S, h⟩
  obtain ⟨x, e, -, hx⟩ := h.solve ⟨2, fun i => if i = 1 then 1 else 0⟩ rfl
  cases e
  have := hx 1 (by omega)
  simp [mulVec, sum_range_succ] at this

/-- The hypotheses of C91 hold for an object whose last block is singular. -/
example : Prec.Usable 0 T 2 (HIF.mk [P] ⟨0, fun _ => (0 : ℚ)⟩ none none (fun _ => 0) 3 3).precs 3 ∧
    Fits 1 (HIF.mk [P] ⟨0, fun _ => (0 : ℚ)⟩ none none (fun _ => 0) 3 3) ∧ RealScalings [P] :=
  ⟨⟨rfl, P_ok, rfl, rfl, D_fixed⟩, ⟨Or.inl rfl, fun _ => rfl⟩, fun P _ => ⟨fun _ => rfl, fun _ => rfl⟩⟩

end ExFixed
end Hif.Props
