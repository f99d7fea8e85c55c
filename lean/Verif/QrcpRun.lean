import Verif.QrcpLemmas

set_option linter.unusedSectionVars false
set_option linter.unusedVariables false

namespace Hif
namespace Qrcp
open Finset Spec

variable {K : Type} [Field K] [StarRing K] [DecidableEq K]

/-- The state holds a QR factorization with column pivoting of the `n × n` matrix `A`: `A P = Q R` with `Q` a product of unitary reflectors. -/
structure Fac (n : Nat) (A : Nat → Nat → K) (s : St K) : Prop where
  pos : 0 < n
  nr : s.nrows = n
  nc : s.ncols = n
  msz : s.mat.size = n * n
  tsz : s.tau.size = n
  jsz : s.jpvt.size = n
  jge : ∀ i, i < n → 1 ≤ s.jpvt.get i
  jperm : IsPerm n fun i => s.jpvt.get i - 1
  un : ∀ i, i < n → Unitary n (hvec n s.mat.get i) (s.tau.get i)
  qr : ∀ i j, i < n → j < n → A i (s.jpvt.get j - 1) = applyQ n s.mat.get s.tau.get n (fun l => upper n s.mat.get l j) i

/-- The `n` values at offset `off` change to `f`, nothing else. -/
def Upd (off n : Nat) (x r : Buf K) (f : Nat → K) : Prop :=
  r.size = x.size ∧ (∀ i, i < n → r.get (off + i) = f i) ∧ ∀ i, i < off ∨ off + n ≤ i → r.get i = x.get i

theorem upd_mk (off n : Nat) (x : Buf K) (f : Nat → K) : Upd off n x { x with get := fun i => if off ≤ i ∧ i < off + n then f (i - off) else x.get i } f := by
  refine ⟨rfl, fun i hi => ?_, fun i hi => ?_⟩
  · simp only
    rw [if_pos (by omega)]; congr 1; omega
  · simp only
    rw [if_neg (by omega)]

theorem ormqr_runs (tran : Bool) {n k : Nat} (hk : k ≤ n) {mat tau : Buf K} (hm : mat.size = n * n) (ht : tau.size = n) (off : Nat) (x : Buf K) (hx : off + n ≤ x.size) :
    Runs (ormqr tran n k mat tau off x) fun r => Upd off n x r ((if tran then applyQH else applyQ) n mat.get tau.get k fun i => x.get (off + i)) := by
  unfold ormqr
  rw [if_pos ⟨by rw [hm]; exact Nat.mul_le_mul_left _ hk, by omega, hx⟩, runs_pure]
  exact upd_mk _ _ _ _

omit [Field K] [StarRing K] [DecidableEq K] in
theorem tri_bound {n k : Nat} (hk : k ≤ n) (h0 : k ≠ 0) : k + (k - 1) * n ≤ n * n := by
  have : (k - 1) * n + n ≤ n * n := by
    rw [← Nat.succ_mul]; exact Nat.mul_le_mul_right _ (by omega)
  omega

theorem trsv_runs (tran : Bool) {n k : Nat} (hk : k ≤ n) {mat : Buf K} (hm : mat.size = n * n) (off : Nat) (x : Buf K) (hx : off + n ≤ x.size)
    (hR : ∀ i, i < k → upper n mat.get i i ≠ 0) :
    Runs (trsv tran n k mat off x) fun r => Upd off k x r
      (if tran then fwdSub (upper n mat.get) (fun i => x.get (off + i)) k else backSub k (upper n mat.get) (fun i => x.get (off + i)) k) := by
  unfold trsv
  rw [if_pos ⟨fun h0 => by rw [hm]; exact tri_bound hk h0, by omega⟩, if_pos hR, runs_pure]
  exact upd_mk _ _ _ _

theorem trmv_runs (tran : Bool) {n k : Nat} (hk : k ≤ n) {mat : Buf K} (hm : mat.size = n * n) (off : Nat) (x : Buf K) (hx : off + n ≤ x.size) :
    Runs (trmv tran n k mat off x) fun r => Upd off k x r
      fun i => ∑ j ∈ range k, (if tran then star (upper n mat.get j i) else upper n mat.get i j) * x.get (off + j) := by
  unfold trmv
  rw [if_pos ⟨fun h0 => by rw [hm]; exact tri_bound hk h0, by omega⟩]
  dsimp only
  rw [runs_pure]
  exact upd_mk off k x fun i => ∑ j ∈ range k, (if tran then star (upper n mat.get j i) else upper n mat.get i j) * x.get (off + j)

/-- Copying back. -/
theorem copyBack_runs (n off : Nat) (w x : Buf K) (hw : n ≤ w.size) (hx : off + n ≤ x.size) :
    Runs (forUp 0 n x fun i x => do let v ← w.rd i; x.wr (off + i) v) fun r => Upd off n x r w.get := by
  refine forUp_runs' (fun i r => Upd off i x r w.get) (Nat.zero_le _) ⟨rfl, fun i hi => by omega, fun _ _ => rfl⟩ ?_ fun r h => h
  rintro i r _ hi ⟨r1, r2, r3⟩
  simp only [runs_bind, runs_rd, runs_wr]
  refine ⟨by omega, by omega, r1, fun j hj => ?_, fun j hj => ?_⟩
  · rw [Buf.set_get]
    by_cases hji : j = i
    · subst hji; rw [if_pos rfl]
    · rw [if_neg (by omega)]; exact r2 j (by omega)
  · rw [Buf.set_get, if_neg (by omega)]
    exact r3 j (by omega)

variable {n : Nat} {A : Nat → Nat → K} {s : St K}

theorem scatter_runs (h : Fac n A s) {k : Nat} (hk : k ≤ n) (off : Nat) (x : Buf K) (hx : off + n ≤ x.size) :
    Runs (scatter s k off x) fun r => r.size = x.size ∧ (∀ i, i < k → r.get (off + (s.jpvt.get i - 1)) = x.get (off + i)) ∧
      (∀ i, k ≤ i → i < n → r.get (off + (s.jpvt.get i - 1)) = 0) ∧ ∀ i, i < off ∨ off + n ≤ i → r.get i = x.get i := by
  unfold scatter
  rw [h.nr, h.jsz, runs_bind]
  refine forUp_runs' (fun i (w : Buf K) => w.size = n ∧ ∀ j, j < i → w.get (s.jpvt.get j - 1) = x.get (off + j)) (Nat.zero_le _)
    ⟨rfl, fun j hj => by omega⟩ ?_ ?_
  · rintro i w _ hi ⟨w1, w2⟩
    have hp := h.jperm.1 i (by omega)
    have hp : s.jpvt.get i - 1 < n := hp
    simp only [runs_bind, runs_rd, runs_wr]
    refine ⟨by rw [h.jsz]; omega, by omega, by omega, w1, fun j hj => ?_⟩
    rw [Buf.set_get]
    by_cases hji : j = i
    · subst hji; rw [if_pos rfl]
    · rw [if_neg (fun e => hji (h.jperm.2 j i (by omega) (by omega) e))]
      exact w2 j (by omega)
  rintro w ⟨w1, w2⟩
  rw [runs_bind]
  refine forUp_runs' (fun i (w : Buf K) => w.size = n ∧ (∀ j, j < k → w.get (s.jpvt.get j - 1) = x.get (off + j)) ∧
    ∀ j, k ≤ j → j < i → w.get (s.jpvt.get j - 1) = 0) hk ⟨w1, w2, fun j _ _ => by omega⟩ ?_ ?_
  · rintro i w hki hi ⟨w1, w2, w3⟩
    have hp : s.jpvt.get i - 1 < n := h.jperm.1 i hi
    simp only [runs_bind, runs_rd, runs_wr]
    refine ⟨by rw [h.jsz]; omega, by omega, w1, fun j hj => ?_, fun j hj hj' => ?_⟩
    · rw [Buf.set_get, if_neg (fun e => by have := h.jperm.2 j i (by omega) hi e; omega)]
      exact w2 j hj
    · rw [Buf.set_get]
      by_cases hji : j = i
      · subst hji; rw [if_pos rfl]
      · rw [if_neg (fun e => hji (h.jperm.2 j i (by omega) hi e))]
        exact w3 j hj (by omega)
  rintro w ⟨w1, w2, w3⟩
  refine (copyBack_runs n off w x (by omega) hx).mono ?_
  rintro r ⟨r1, r2, r3⟩
  refine ⟨r1, fun i hi => ?_, fun i hi hi' => ?_, r3⟩
  · rw [r2 _ (h.jperm.1 i (by omega)), w2 i hi]
  · rw [r2 _ (h.jperm.1 i hi'), w3 i hi hi']

theorem gather_runs (h : Fac n A s) {k : Nat} (hk : k ≤ n) (off : Nat) (x : Buf K) (hx : off + n ≤ x.size) :
    Runs (gather s k off x) fun r => Upd off n x r fun i => if i < k then x.get (off + (s.jpvt.get i - 1)) else 0 := by
  unfold gather
  rw [h.nr, h.jsz, runs_bind]
  refine forUp_runs' (fun i (w : Buf K) => w.size = n ∧ ∀ j, j < i → w.get j = x.get (off + (s.jpvt.get j - 1))) (Nat.zero_le _)
    ⟨rfl, fun j hj => by omega⟩ ?_ ?_
  · rintro i w _ hi ⟨w1, w2⟩
    have hp : s.jpvt.get i - 1 < n := h.jperm.1 i (by omega)
    simp only [runs_bind, runs_rd, runs_wr]
    refine ⟨by rw [h.jsz]; omega, by omega, by omega, w1, fun j hj => ?_⟩
    rw [Buf.set_get]
    by_cases hji : j = i
    · subst hji; rw [if_pos rfl]
    · rw [if_neg hji]; exact w2 j (by omega)
  rintro w ⟨w1, w2⟩
  rw [runs_bind]
  refine forUp_runs' (fun i (w : Buf K) => w.size = n ∧ (∀ j, j < k → w.get j = x.get (off + (s.jpvt.get j - 1))) ∧
    ∀ j, k ≤ j → j < i → w.get j = 0) hk ⟨w1, w2, fun j _ _ => by omega⟩ ?_ ?_
  · rintro i w hki hi ⟨w1, w2, w3⟩
    simp only [runs_wr]
    refine ⟨by omega, w1, fun j hj => ?_, fun j hj hj' => ?_⟩
    · rw [Buf.set_get, if_neg (by omega)]; exact w2 j hj
    · rw [Buf.set_get]
      by_cases hji : j = i
      · subst hji; rw [if_pos rfl]
      · rw [if_neg hji]; exact w3 j hj (by omega)
  rintro w ⟨w1, w2, w3⟩
  refine (copyBack_runs n off w x (by omega) hx).mono ?_
  rintro r ⟨r1, r2, r3⟩
  refine ⟨r1, fun i hi => ?_, r3⟩
  rw [r2 i hi]
  beta_reduce
  split
  · exact w2 i ‹_›
  · exact w3 i (by omega) hi

/-! ### what the calls compute -/

/-- The pivots used by a call with rank `k` are nonzero. -/
def PivotsOK (n : Nat) (s : St K) (k : Nat) : Prop := ∀ i, i < k → upper n s.mat.get i i ≠ 0

/-- Components of `Qᴴ b`. -/
def qhb (n : Nat) (s : St K) (b : Nat → K) : Nat → K := applyQH n s.mat.get s.tau.get n b

theorem solveNt_runs (h : Fac n A s) {k : Nat} (hk : k ≤ n) (hR : PivotsOK n s k) (off : Nat) (b : Buf K) (hb : off + n ≤ b.size) :
    Runs (solveNt s k off b) fun x => x.size = b.size ∧ (∀ i, i < off ∨ off + n ≤ i → x.get i = b.get i) ∧
      (∀ i, k ≤ i → i < n → x.get (off + (s.jpvt.get i - 1)) = 0) ∧
      ∀ i, i < k → ∑ j ∈ range k, upper n s.mat.get i j * x.get (off + (s.jpvt.get j - 1)) = qhb n s (fun i => b.get (off + i)) i := by
  unfold solveNt
  rw [runs_bind, h.nr]
  refine (ormqr_runs true hk h.msz h.tsz off b hb).mono ?_
  rintro x ⟨x1, x2, x3⟩
  rw [runs_bind]
  refine (trsv_runs false hk h.msz off x (by omega) hR).mono ?_
  rintro y ⟨y1, y2, y3⟩
  refine (scatter_runs h hk off y (by omega)).mono ?_
  rintro z ⟨z1, z2, z3, z4⟩
  refine ⟨by omega, fun i hi => ?_, z3, fun i hi => ?_⟩
  · rw [z4 i hi, y3 i (by omega), x3 i hi]
  · rw [sum_congr rfl fun j hj => by rw [z2 j (mem_range.1 hj), y2 j (mem_range.1 hj)]]
    simp only [Bool.false_eq_true, if_false]
    rw [backSub_solves n k s.mat.get _ hR hi, x2 i (by omega)]
    simp only [if_true]
    exact (applyQH_head n s.mat.get s.tau.get hk _ hi).symm

theorem solveT_runs (h : Fac n A s) {k : Nat} (hk : k ≤ n) (hR : PivotsOK n s k) (off : Nat) (c : Buf K) (hc : off + n ≤ c.size) :
    Runs (solveT s k off c) fun x => x.size = c.size ∧ (∀ i, i < off ∨ off + n ≤ i → x.get i = c.get i) ∧
      ∃ w : Nat → K, (∀ i, k ≤ i → i < n → w i = 0) ∧ (∀ i, i < k → ∑ j ∈ range k, star (upper n s.mat.get j i) * w j = c.get (off + (s.jpvt.get i - 1))) ∧
        ∀ i, i < n → x.get (off + i) = applyQ n s.mat.get s.tau.get n w i := by
  unfold solveT
  rw [runs_bind]
  refine (gather_runs h hk off c hc).mono ?_
  rintro x ⟨x1, x2, x3⟩
  beta_reduce at x2
  rw [runs_bind, h.nr]
  refine (trsv_runs true hk h.msz off x (by omega) hR).mono ?_
  rintro y ⟨y1, y2, y3⟩
  refine (ormqr_runs false hk h.msz h.tsz off y (by omega)).mono ?_
  rintro z ⟨z1, z2, z3⟩
  refine ⟨by omega, fun i hi => by rw [z3 i hi, y3 i (by omega), x3 i hi], fun i => y.get (off + i), fun i hi hi' => ?_, fun i hi => ?_, fun i hi => ?_⟩
  · beta_reduce
    rw [y3 _ (by omega), x2 i hi', if_neg (by omega)]
  · beta_reduce
    rw [sum_congr rfl fun j hj => by rw [y2 j (mem_range.1 hj)]]
    simp only [if_true]
    rw [fwdSub_solves n k s.mat.get _ hR hi, x2 i (by omega), if_pos hi]
  · rw [z2 i hi]
    simp only [Bool.false_eq_true, if_false]
    rw [applyQ_head n s.mat.get s.tau.get hk]
    intro j hj hj'
    rw [y3 _ (by omega), x2 j hj', if_neg (by omega)]

theorem multNt_runs (h : Fac n A s) {k : Nat} (hk : k ≤ n) (off : Nat) (b : Buf K) (hb : off + n ≤ b.size) :
    Runs (multNt s k off b) fun x => x.size = b.size ∧ (∀ i, i < off ∨ off + n ≤ i → x.get i = b.get i) ∧
      ∀ i, i < n → x.get (off + i) = applyQ n s.mat.get s.tau.get n
        (fun l => if l < k then ∑ j ∈ range k, upper n s.mat.get l j * b.get (off + (s.jpvt.get j - 1)) else 0) i := by
  unfold multNt
  rw [runs_bind]
  refine (gather_runs h hk off b hb).mono ?_
  rintro x ⟨x1, x2, x3⟩
  beta_reduce at x2
  rw [runs_bind, h.nr]
  refine (trmv_runs false hk h.msz off x (by omega)).mono ?_
  rintro y ⟨y1, y2, y3⟩
  refine (ormqr_runs false hk h.msz h.tsz off y (by omega)).mono ?_
  rintro z ⟨z1, z2, z3⟩
  refine ⟨by omega, fun i hi => by rw [z3 i hi, y3 i (by omega), x3 i hi], fun i hi => ?_⟩
  rw [z2 i hi]
  simp only [Bool.false_eq_true, if_false]
  rw [applyQ_head n s.mat.get s.tau.get hk (fun j hj hj' => if_neg (by omega))]
  refine applyQ_congr n s.mat.get s.tau.get k (fun l hl => ?_) i hi
  split
  · rename_i hlk
    rw [y2 l hlk]
    simp only [Bool.false_eq_true, if_false]
    exact sum_congr rfl fun j hj => by rw [x2 j (by have := mem_range.1 hj; omega), if_pos (mem_range.1 hj)]
  · rw [y3 _ (by omega), x2 l hl, if_neg ‹_›]

theorem multT_runs (h : Fac n A s) {k : Nat} (hk : k ≤ n) (off : Nat) (b : Buf K) (hb : off + n ≤ b.size) :
    Runs (multT s k off b) fun x => x.size = b.size ∧ (∀ i, i < off ∨ off + n ≤ i → x.get i = b.get i) ∧
      (∀ i, k ≤ i → i < n → x.get (off + (s.jpvt.get i - 1)) = 0) ∧
      ∀ i, i < k → x.get (off + (s.jpvt.get i - 1)) = ∑ j ∈ range k, star (upper n s.mat.get j i) * qhb n s (fun i => b.get (off + i)) j := by
  unfold multT
  rw [runs_bind, h.nr]
  refine (ormqr_runs true hk h.msz h.tsz off b hb).mono ?_
  rintro x ⟨x1, x2, x3⟩
  rw [runs_bind]
  refine (trmv_runs true hk h.msz off x (by omega)).mono ?_
  rintro y ⟨y1, y2, y3⟩
  refine (scatter_runs h hk off y (by omega)).mono ?_
  rintro z ⟨z1, z2, z3, z4⟩
  refine ⟨by omega, fun i hi => by rw [z4 i hi, y3 i (by omega), x3 i hi], z3, fun i hi => ?_⟩
  rw [z2 i hi, y2 i hi]
  simp only [if_true]
  refine sum_congr rfl fun j hj => ?_
  rw [x2 j (by have := mem_range.1 hj; omega)]
  simp only [if_true]
  rw [← applyQH_head n s.mat.get s.tau.get hk _ (mem_range.1 hj)]
  rfl

/-! ### in terms of the matrix -/

/-- `A x = Q (R (Pᵀ x))`. -/
theorem Fac.mul (h : Fac n A s) (x : Nat → K) {i : Nat} (hi : i < n) :
    mulVec n A x i = applyQ n s.mat.get s.tau.get n (fun l => ∑ j ∈ range n, upper n s.mat.get l j * x (s.jpvt.get j - 1)) i := by
  have h1 : (fun l => ∑ j ∈ range n, upper n s.mat.get l j * x (s.jpvt.get j - 1)) = fun l => ∑ j ∈ range n, x (s.jpvt.get j - 1) * upper n s.mat.get l j := by
    funext l; exact sum_congr rfl fun j _ => mul_comm _ _
  rw [h1, applyQ_sum n s.mat.get s.tau.get n (fun j l => upper n s.mat.get l j) (fun j => x (s.jpvt.get j - 1))]
  unfold mulVec
  rw [← sum_isPerm h.jperm (fun c => A i c * x c)]
  exact sum_congr rfl fun j hj => by rw [h.qr i j hi (mem_range.1 hj), mul_comm]

/-- A vector with `Pᵀ x` supported on the first `k` places and `R (Pᵀ x) = g` there has `A x = Q (g, 0)`. -/
theorem Fac.mul_trunc (h : Fac n A s) {k : Nat} (hk : k ≤ n) {x g : Nat → K} (h0 : ∀ i, k ≤ i → i < n → x (s.jpvt.get i - 1) = 0)
    (hg : ∀ i, i < k → ∑ j ∈ range k, upper n s.mat.get i j * x (s.jpvt.get j - 1) = g i) {i : Nat} (hi : i < n) :
    mulVec n A x i = applyQ n s.mat.get s.tau.get n (fun l => if l < k then g l else 0) i := by
  rw [h.mul x hi]
  refine applyQ_congr n _ _ n (fun l hl => ?_) i hi
  rw [← sum_range_add_sum_Ico _ hk, sum_eq_zero (s := Ico k n) fun j hj => by rw [h0 j (mem_Ico.1 hj).1 (mem_Ico.1 hj).2, mul_zero], add_zero]
  split
  · exact hg l ‹_›
  · refine sum_eq_zero fun j hj => ?_
    have := mem_range.1 hj
    unfold upper
    rw [if_neg (by omega), zero_mul]

/-- Inner product with a pivot column. -/
theorem Fac.ip_col (h : Fac n A s) {i : Nat} (hi : i < n) (u : Nat → K) :
    ip n (fun j => A j (s.jpvt.get i - 1)) u = ∑ j ∈ range n, star (upper n s.mat.get j i) * qhb n s u j := by
  rw [ip_congr (v' := u) (fun j hj => h.qr j i hj hi) (fun _ _ => rfl), ← star_ip, applyQ_adj, star_ip]
  rfl

theorem Fac.qhb_applyQ (h : Fac n A s) (w : Nat → K) : qhb n s (applyQ n s.mat.get s.tau.get n w) = w := applyQH_applyQ n _ _ h.un w
theorem Fac.applyQ_qhb (h : Fac n A s) (w : Nat → K) : applyQ n s.mat.get s.tau.get n (qhb n s w) = w := applyQ_applyQH n _ _ h.un w

theorem qhb_congr {b c : Nat → K} (h : ∀ i, i < n → b i = c i) {i : Nat} (hi : i < n) : qhb n s b i = qhb n s c i := applyQH_congr n _ _ n h i hi

theorem applyQ_sub (n : Nat) (mat tau : Nat → K) (k : Nat) (x y : Nat → K) (i : Nat) :
    applyQ n mat tau k (fun l => x l - y l) i = applyQ n mat tau k x i - applyQ n mat tau k y i := by
  have := applyQ_sum n mat tau (k := 2) k (fun j => if j = 0 then x else y) (fun j => if j = 0 then 1 else -1) i
  simp only [sum_range_succ, range_zero, sum_empty, zero_add, if_true, one_mul, one_ne_zero, if_false, neg_one_mul] at this
  rw [← sub_eq_add_neg] at this
  rw [← this]
  congr 1
  funext l
  rw [sub_eq_add_neg]

theorem applyQH_sub (n : Nat) (mat tau : Nat → K) (k : Nat) (x y : Nat → K) (i : Nat) :
    applyQH n mat tau k (fun l => x l - y l) i = applyQH n mat tau k x i - applyQH n mat tau k y i := by
  induction k generalizing i with
  | zero => rfl
  | succ k ih =>
    rw [applyQH]
    have : applyQH n mat tau k (fun l => x l - y l) = fun i => applyQH n mat tau k x i - applyQH n mat tau k y i := funext ih
    rw [this, refl_eq, ip_sub, applyQH, applyQH, refl_eq, refl_eq]
    ring

/-- If `A` is nonsingular, so is `R`. -/
theorem Fac.pivots (h : Fac n A s) (hA : Injective n A) : PivotsOK n s n := by
  intro i
  induction i using Nat.strong_induction_on with
  | _ i ih =>
  intro hi h0
  have hR : ∀ j, j < i → upper n s.mat.get j j ≠ 0 := fun j hj => ih j hj (by omega)
  -- a vector in the null space of `R`
  let z : Nat → K := fun l => if l < i then backSub i (upper n s.mat.get) (fun l => upper n s.mat.get l i) i l else if l = i then -1 else 0
  obtain ⟨pinv, hp⟩ : ∃ pinv : Nat → Nat, ∀ j, j < n → pinv (s.jpvt.get j - 1) = j := by
    classical
    refine ⟨fun y => if e : ∃ j, j < n ∧ s.jpvt.get j - 1 = y then e.choose else 0, fun j hj => ?_⟩
    have e : ∃ j', j' < n ∧ s.jpvt.get j' - 1 = s.jpvt.get j - 1 := ⟨j, hj, rfl⟩
    simp only [dif_pos e]
    exact h.jperm.2 _ _ e.choose_spec.1 hj e.choose_spec.2
  have hz : ∀ l, l < n → ∑ j ∈ range n, upper n s.mat.get l j * z (pinv (s.jpvt.get j - 1)) = 0 := by
    intro l hl
    rw [sum_congr rfl fun j hj => by rw [hp j (mem_range.1 hj)], ← sum_range_add_sum_Ico _ (show i + 1 ≤ n by omega), sum_range_succ]
    rw [sum_eq_zero (s := Ico (i + 1) n) fun j hj => by
      have := mem_Ico.1 hj
      simp only [z]
      rw [if_neg (by omega), if_neg (by omega), mul_zero], add_zero]
    have hs : ∑ j ∈ range i, upper n s.mat.get l j * z j = ∑ j ∈ range i, upper n s.mat.get l j * backSub i (upper n s.mat.get) (fun l => upper n s.mat.get l i) i j :=
      sum_congr rfl fun j hj => by simp only [z]; rw [if_pos (mem_range.1 hj)]
    have hzi : z i = -1 := by simp [z]
    rw [hs, hzi]
    by_cases hli : l < i
    · rw [backSub_solves n i s.mat.get _ hR hli]; ring
    · rw [sum_eq_zero fun j hj => by
        have := mem_range.1 hj
        unfold upper
        rw [if_neg (by omega), zero_mul], zero_add]
      by_cases e : l = i
      · subst e; rw [h0]; ring
      · have : upper n s.mat.get l i = 0 := by unfold upper; rw [if_neg (by omega)]
        rw [this]; ring
  have hm : ∀ l, l < n → mulVec n A (fun c => z (pinv c)) l = mulVec n A (fun _ => 0) l := by
    intro l hl
    rw [h.mul _ hl, h.mul _ hl]
    refine applyQ_congr n _ _ n (fun l hl => ?_) l hl
    rw [hz l hl]
    simp
  have hfin := hA _ _ hm (s.jpvt.get i - 1) (h.jperm.1 i hi)
  simp only [hp i hi] at hfin
  have hzi : z i = -1 := by simp [z]
  rw [hzi] at hfin
  exact absurd hfin (by simp)

/-! ### the public calls -/

theorem effRank_le (h : Fac n A s) (hr : s.rank ≤ n) (rank : Nat) : effRank s rank ≤ n := by
  unfold effRank
  rw [h.nr]
  split
  · exact hr
  · split <;> omega

theorem effRank_full (h : Fac n A s) {rank : Nat} (hn : n ≤ rank) : effRank s rank = n := by
  have := h.pos
  unfold effRank
  rw [h.nr, if_neg (by omega)]
  split <;> omega

theorem guarded_ok (h : Fac n A s) (m : M (Buf K)) : guarded s n m = m := by
  have := h.pos
  unfold guarded
  rw [if_neg (by rw [h.nr]; simp), if_neg (by rw [h.nr, h.nc, h.jsz]; omega)]

/-- With full rank the operations are those of `A`. -/
theorem exact_ops (h : Fac n A s) (hA : Injective n A) {rank : Nat} (he : effRank s rank = n) : Prec.DenseExact rank n A (ops s) := by
  have hR := h.pivots hA
  refine ⟨fun y hy => ?_, fun y hy => ?_, fun y hy => ?_, fun y hy => ?_⟩
  · show Runs (solve s y rank false) _
    unfold solve
    rw [hy, guarded_ok h, he]
    simp only [Bool.false_eq_true, if_false]
    refine (solveNt_runs h (le_refl n) hR 0 y (by omega)).mono ?_
    rintro x ⟨x1, -, x3, x4⟩
    refine ⟨by omega, fun i hi => ?_⟩
    simp only [Nat.zero_add] at x3 x4
    rw [h.mul_trunc (le_refl n) x3 x4 hi, applyQ_congr n _ _ n (fun l hl => if_pos hl) i hi]
    exact congrFun (h.applyQ_qhb y.get) i
  · show Runs (solve s y rank true) _
    unfold solve
    rw [hy, guarded_ok h, he]
    simp only [if_true]
    refine (solveT_runs h (le_refl n) hR 0 y (by omega)).mono ?_
    rintro x ⟨x1, -, w, -, w2, w3⟩
    simp only [Nat.zero_add] at w2 w3
    refine ⟨by omega, fun i hi => ?_⟩
    obtain ⟨j, hj, rfl⟩ := isPerm_surj h.jperm hi
    have h1 : mulVec n (herm A) x.get (s.jpvt.get j - 1) = ip n (fun l => A l (s.jpvt.get j - 1)) x.get := rfl
    show mulVec n (herm A) x.get (s.jpvt.get j - 1) = _
    rw [h1, h.ip_col hj, ← w2 j hj]
    exact sum_congr rfl fun l hl => by rw [qhb_congr w3 (mem_range.1 hl), h.qhb_applyQ]
  · show Runs (multiply s y rank false) _
    unfold multiply
    rw [hy, guarded_ok h, he]
    simp only [Bool.false_eq_true, if_false]
    refine (multNt_runs h (le_refl n) 0 y (by omega)).mono ?_
    rintro x ⟨x1, -, x3⟩
    simp only [Nat.zero_add] at x3
    refine ⟨by omega, fun i hi => ?_⟩
    rw [x3 i hi, h.mul y.get hi]
    exact applyQ_congr n _ _ n (fun l hl => if_pos hl) i hi
  · show Runs (multiply s y rank true) _
    unfold multiply
    rw [hy, guarded_ok h, he]
    simp only [if_true]
    refine (multT_runs h (le_refl n) 0 y (by omega)).mono ?_
    rintro x ⟨x1, -, -, x3⟩
    simp only [Nat.zero_add] at x3
    refine ⟨by omega, fun i hi => ?_⟩
    obtain ⟨j, hj, rfl⟩ := isPerm_surj h.jperm hi
    have h1 : mulVec n (herm A) y.get (s.jpvt.get j - 1) = ip n (fun l => A l (s.jpvt.get j - 1)) y.get := rfl
    show x.get (s.jpvt.get j - 1) = mulVec n (herm A) y.get (s.jpvt.get j - 1)
    rw [h1, h.ip_col hj, x3 j hj]

end Qrcp
end Hif
