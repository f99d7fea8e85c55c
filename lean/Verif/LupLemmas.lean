import Verif.Lup
import Verif.QrcpMrhs

set_option linter.unusedSectionVars false
set_option linter.unusedVariables false

/-!
# LU with partial pivoting: lemmas
-/

namespace Hif
namespace Lup
open Finset Spec Qrcp

variable {K : Type} [Field K] [StarRing K] [DecidableEq K]

/-! ### the exchanges as a permutation -/

/-- The permutation of the first `k` exchanges. -/
def pvt (ipiv : Nat → Nat) : Nat → Equiv.Perm ℕ
  | 0 => 1
  | k + 1 => pvt ipiv k * Equiv.swap k (ipiv k - 1)

/-- The exchanges stay within the matrix. -/
def PivOK (n : Nat) (ipiv : Nat → Nat) : Prop := ∀ k, k < n → 1 ≤ ipiv k ∧ ipiv k ≤ n

theorem swap_lt {n k p i : Nat} (hk : k < n) (hp : p < n) (hi : i < n) : Equiv.swap k p i < n := by
  rw [Equiv.swap_apply_def]; split <;> [omega; split <;> omega]

theorem swap_ge {m k p i : Nat} (hk : m ≤ k) (hp : m ≤ p) (hi : m ≤ i) : m ≤ Equiv.swap k p i := by
  rw [Equiv.swap_apply_def]; split <;> [omega; split <;> omega]

theorem swap_of_lt {k p i : Nat} (hp : k ≤ p) (hi : i < k) : Equiv.swap k p i = i := Equiv.swap_apply_of_ne_of_ne (by omega) (by omega)

theorem pvt_lt {n : Nat} {ipiv : Nat → Nat} (h : PivOK n ipiv) : ∀ {k}, k ≤ n → ∀ {i}, i < n → pvt ipiv k i < n
  | 0, _, i, hi => hi
  | k + 1, hk, i, hi => by
    have := h k (by omega)
    rw [pvt, Equiv.Perm.mul_apply]
    exact pvt_lt h (by omega) (swap_lt (by omega) (by omega) hi)

theorem pvt_isPerm {n : Nat} {ipiv : Nat → Nat} (h : PivOK n ipiv) : IsPerm n (pvt ipiv n) :=
  ⟨fun _ hi => pvt_lt h (le_refl _) hi, fun _ _ _ _ e => (pvt ipiv n).injective e⟩

theorem pvt_symm_lt {n : Nat} {ipiv : Nat → Nat} (h : PivOK n ipiv) {i : Nat} (hi : i < n) : (pvt ipiv n).symm i < n := by
  obtain ⟨j, hj, e⟩ := isPerm_surj (pvt_isPerm h) hi
  rw [← e, Equiv.symm_apply_apply]; exact hj

theorem swapRow_runs {n : Nat} {ipiv : Buf Nat} (hs : n ≤ ipiv.size) (h : PivOK n ipiv.get) {k : Nat} (hk : k < n) (off : Nat) (x : Buf K) (hx : off + n ≤ x.size) :
    Runs (swapRow ipiv off k x) fun r => Upd off n x r fun i => x.get (off + Equiv.swap k (ipiv.get k - 1) i) := by
  have hp := h k hk
  unfold swapRow
  simp only [runs_bind, runs_rd, runs_wr, Buf.set_size]
  refine ⟨by omega, ?_⟩
  rw [if_neg (show ¬ ipiv.get k = 0 by omega)]
  simp only [runs_bind, runs_rd, runs_wr, Buf.set_size]
  refine ⟨by omega, by omega, by omega, by omega, rfl, fun i hi => ?_, fun i hi => ?_⟩
  · simp only [Buf.set_get, Equiv.swap_apply_def]
    by_cases h1 : i = ipiv.get k - 1
    · rw [if_pos (by omega)]
      by_cases h2 : i = k
      · rw [if_pos h2, ← h1, h2]
      · rw [if_neg h2, if_pos h1]
    · rw [if_neg (by omega)]
      by_cases h2 : i = k
      · rw [if_pos (by omega), if_pos h2]
      · rw [if_neg (by omega), if_neg h2, if_neg h1]
  · simp only [Buf.set_get]
    rw [if_neg (by omega), if_neg (by omega)]

theorem laswp_runs {n : Nat} {ipiv : Buf Nat} (hs : n ≤ ipiv.size) (h : PivOK n ipiv.get) (off : Nat) (x : Buf K) (hx : off + n ≤ x.size) :
    Runs (laswp n ipiv off x) fun r => Upd off n x r fun i => x.get (off + pvt ipiv.get n i) := by
  unfold laswp
  refine forUp_runs' (fun k (r : Buf K) => Upd off n x r fun i => x.get (off + pvt ipiv.get k i)) (Nat.zero_le _) ⟨rfl, fun i _ => rfl, fun i _ => rfl⟩ ?_ fun r h => h
  rintro k r _ hk ⟨r1, r2, r3⟩
  have hp := h k hk
  refine (swapRow_runs hs h hk off r (by omega)).mono ?_
  rintro z ⟨z1, z2, z3⟩
  refine ⟨by omega, fun i hi => ?_, fun i hi => by rw [z3 i hi, r3 i hi]⟩
  rw [z2 i hi]
  exact r2 _ (swap_lt hk (by omega) hi)

theorem laswpBack_runs {n : Nat} {ipiv : Buf Nat} (hs : n ≤ ipiv.size) (h : PivOK n ipiv.get) (off : Nat) (x : Buf K) (hx : off + n ≤ x.size) :
    Runs (laswpBack n ipiv off x) fun r => Upd off n x r fun i => x.get (off + (pvt ipiv.get n).symm i) := by
  unfold laswpBack
  refine forDown_runs' (fun k (r : Buf K) => Upd off n x r fun i => x.get (off + (pvt ipiv.get n).symm (pvt ipiv.get k i)))
    ⟨rfl, fun i _ => by beta_reduce; rw [Equiv.symm_apply_apply], fun i _ => rfl⟩ ?_ ?_
  · rintro k r hk ⟨r1, r2, r3⟩
    have hp := h k hk
    refine (swapRow_runs hs h hk off r (by omega)).mono ?_
    rintro z ⟨z1, z2, z3⟩
    refine ⟨by omega, fun i hi => ?_, fun i hi => by rw [z3 i hi, r3 i hi]⟩
    rw [z2 i hi]
    have := r2 _ (swap_lt hk (show ipiv.get k - 1 < n by omega) hi)
    beta_reduce at this ⊢
    rw [this, pvt, Equiv.Perm.mul_apply, Equiv.swap_apply_self]
  · rintro r ⟨r1, r2, r3⟩
    exact ⟨r1, r2, r3⟩

/-! ### triangular systems -/

theorem lowSub_spec (T : Nat → Nat → K) (y : Nat → K) (k : Nat) (hT : ∀ i, i < k → T i i ≠ 0) : ∀ t, t ≤ k →
    ∀ i, i < t → T i i * lowSub T y t i + ∑ j ∈ range i, T i j * lowSub T y t j = y i
  | 0, _ => fun i h2 => by omega
  | t + 1, ht => by
    intro i h1
    have ih := lowSub_spec T y k hT t (by omega)
    have hne : ∀ j, j ≠ t → lowSub T y (t + 1) j = lowSub T y t j := fun j hj => by rw [lowSub]; exact if_neg hj
    have h4 : ∑ j ∈ range i, T i j * lowSub T y (t + 1) j = ∑ j ∈ range i, T i j * lowSub T y t j :=
      sum_congr rfl fun j hj => by rw [hne j (by have := mem_range.1 hj; omega)]
    rw [h4]
    by_cases hi : i = t
    · have h3 : lowSub T y (t + 1) i = (y i - ∑ j ∈ range t, T i j * lowSub T y t j) / T i i := by rw [lowSub]; exact if_pos hi
      rw [h3, hi]
      have : T t t ≠ 0 := hT t (by omega)
      field_simp
      ring
    · rw [hne i hi]
      exact ih i (by omega)

/-- Forward substitution solves lower triangular systems. -/
theorem lowSub_solves {n : Nat} {T : Nat → Nat → K} (hT : ∀ i, i < n → T i i ≠ 0) (h0 : ∀ i j, i < j → T i j = 0) (y : Nat → K) {i : Nat} (hi : i < n) :
    ∑ j ∈ range n, T i j * lowSub T y n j = y i := by
  rw [← lowSub_spec T y n hT n (le_refl _) i hi, ← sum_range_add_sum_Ico _ (show i + 1 ≤ n by omega), sum_range_succ]
  rw [sum_eq_zero (s := Ico (i + 1) n) fun j hj => by
    have := mem_Ico.1 hj
    rw [h0 i j (by omega), zero_mul], add_zero, add_comm]

/-- Back substitution solves upper triangular systems. -/
theorem backSub_tri {n : Nat} {T : Nat → Nat → K} (hT : ∀ i, i < n → T i i ≠ 0) (h0 : ∀ i j, j < i → T i j = 0) (y : Nat → K) {i : Nat} (hi : i < n) :
    ∑ j ∈ range n, T i j * backSub n T y n j = y i := by
  rw [← backSub_spec n T y hT n (le_refl _) i (by omega) hi, ← sum_range_add_sum_Ico _ (show i + 1 ≤ n by omega), sum_range_succ]
  rw [sum_eq_zero fun j hj => by
    have := mem_range.1 hj
    rw [h0 i j (by omega), zero_mul], zero_add]

theorem lowSub_congr (k : Nat) (T : Nat → Nat → K) {y y' : Nat → K} (h : ∀ i, i < k → y i = y' i) : ∀ t, t ≤ k → ∀ i, i < k → lowSub T y t i = lowSub T y' t i := by
  intro t
  induction t with
  | zero => exact fun _ => h
  | succ t ih =>
    intro ht i hi
    rw [lowSub, lowSub]
    beta_reduce
    rw [ih (by omega) i hi, h i hi]
    rw [sum_congr rfl fun j hj => by rw [ih (by omega) j (by have := mem_range.1 hj; omega)]]

theorem lower_diag (n : Nat) (mat : Nat → K) (i : Nat) : lower n mat i i = 1 := by unfold lower; rw [if_neg (by omega), if_pos rfl]
theorem lower_up {n : Nat} {mat : Nat → K} {i j : Nat} (h : i < j) : lower n mat i j = 0 := by unfold lower; rw [if_neg (by omega), if_neg (by omega)]
theorem upper_low {n : Nat} {mat : Nat → K} {i j : Nat} (h : j < i) : upper n mat i j = 0 := by unfold upper; rw [if_neg (by omega)]

/-! ### what `?getrf` provides -/

/-- The values of `?getrf`: `P A = L U`, row exchanges within the matrix, `info` the first zero on the diagonal of `U` (1-based) or zero. -/
structure LuOK (n : Nat) (A : Nat → Nat → K) (r : LuOut K) : Prop where
  msz : r.mat.size = n * n
  psz : r.ipiv.size = n
  piv : PivOK n r.ipiv.get
  fac : ∀ i j, i < n → j < n → A (pvt r.ipiv.get n i) j = ∑ t ∈ range n, lower n r.mat.get i t * upper n r.mat.get t j
  info0 : 0 ≤ r.info ∧ r.info ≤ n
  full : r.info = 0 → ∀ i, i < n → upper n r.mat.get i i ≠ 0
  first : 0 < r.info → upper n r.mat.get (r.info.toNat - 1) (r.info.toNat - 1) = 0 ∧ ∀ i, i < r.info.toNat - 1 → upper n r.mat.get i i ≠ 0

/-- A factorized state. -/
structure Fac (n : Nat) (A : Nat → Nat → K) (s : St K) : Prop where
  pos : 0 < n
  nr : s.nrows = n
  nc : s.ncols = n
  bsz : s.backup.size = n * n
  bk : ∀ i j, i < n → j < n → s.backup.get (i + j * n) = A i j
  lu : LuOK n A ⟨s.mat, s.ipiv, if s.rank = n then 0 else (s.rank : Int) + 1⟩
  rk : s.rank ≤ n

section solve
variable {n : Nat} {A : Nat → Nat → K} {s : St K}

theorem guarded_ok (h : Fac n A s) (m : M (Buf K)) : guarded s n m = m := by
  have := h.pos
  have h2 : s.ipiv.size = n := h.lu.psz
  unfold guarded
  rw [if_neg (by rw [h.nr, h.nc, h2]; omega), if_neg (by rw [h.nr]; omega)]

/-- The solution computed by the substitutions. -/
def lusol (tran : Bool) (n : Nat) (mat : Nat → K) (y : Nat → K) : Nat → K :=
  if tran then backSub n (fun i j => lower n mat j i) (lowSub (fun i j => upper n mat j i) y n) n else backSub n (upper n mat) (lowSub (lower n mat) y n) n

theorem luSub_runs (tran : Bool) {mat : Buf K} (hm : mat.size = n * n) (hU : ∀ i, i < n → upper n mat.get i i ≠ 0) (off : Nat) (x : Buf K) (hx : off + n ≤ x.size) :
    Runs (luSub tran n mat off x) fun r => Upd off n x r (lusol tran n mat.get fun i => x.get (off + i)) := by
  unfold luSub
  rw [if_pos ⟨by omega, hx⟩, if_pos hU]
  simp only [runs_pure]
  exact upd_mk off n x _

theorem lusol_congr (tran : Bool) (mat : Nat → K) {y y' : Nat → K} (h : ∀ i, i < n → y i = y' i) {i : Nat} (hi : i < n) : lusol tran n mat y i = lusol tran n mat y' i := by
  unfold lusol
  cases tran
  · exact backSub_congr n _ (lowSub_congr n _ h n (le_refl _)) n (le_refl _) i hi
  · exact backSub_congr n _ (lowSub_congr n _ h n (le_refl _)) n (le_refl _) i hi

/-- What `?getrs` computes from a right-hand side. -/
def sol (tran : Bool) (n : Nat) (mat : Nat → K) (ipiv : Nat → Nat) (y : Nat → K) : Nat → K :=
  if tran then fun i => lusol true n mat y ((pvt ipiv n).symm i) else lusol false n mat fun i => y (pvt ipiv n i)

theorem sol_congr (tran : Bool) (mat : Nat → K) {ipiv : Nat → Nat} (hp : PivOK n ipiv) {y y' : Nat → K} (h : ∀ i, i < n → y i = y' i) {i : Nat} (hi : i < n) :
    sol tran n mat ipiv y i = sol tran n mat ipiv y' i := by
  unfold sol
  cases tran
  · exact lusol_congr false mat (fun j hj => h _ (pvt_lt hp (le_refl _) hj)) hi
  · exact lusol_congr true mat h (pvt_symm_lt hp hi)

theorem getrs_runs (tran : Bool) {mat : Buf K} {ipiv : Buf Nat} (hm : mat.size = n * n) (hs : n ≤ ipiv.size) (hp : PivOK n ipiv.get)
    (hU : ∀ i, i < n → upper n mat.get i i ≠ 0) (off : Nat) (x : Buf K) (hx : off + n ≤ x.size) :
    Runs (getrs tran n mat ipiv off x) fun r => Upd off n x r (sol tran n mat.get ipiv.get fun i => x.get (off + i)) := by
  unfold getrs
  cases tran
  · simp only [Bool.false_eq_true, if_false, runs_bind]
    refine (laswp_runs hs hp off x hx).mono ?_
    rintro z ⟨z1, z2, z3⟩
    refine (luSub_runs false hm hU off z (by omega)).mono ?_
    rintro w ⟨w1, w2, w3⟩
    refine ⟨by omega, fun i hi => ?_, fun i hi => by rw [w3 i hi, z3 i hi]⟩
    rw [w2 i hi]
    exact lusol_congr false _ z2 hi
  · simp only [if_true, runs_bind]
    refine (luSub_runs true hm hU off x hx).mono ?_
    rintro z ⟨z1, z2, z3⟩
    refine (laswpBack_runs hs hp off z (by omega)).mono ?_
    rintro w ⟨w1, w2, w3⟩
    refine ⟨by omega, fun i hi => ?_, fun i hi => by rw [w3 i hi, z3 i hi]⟩
    rw [w2 i hi]
    exact z2 _ (pvt_symm_lt hp hi)

theorem getrs_local (tran : Bool) {mat : Buf K} {ipiv : Buf Nat} (hm : mat.size = n * n) (hs : n ≤ ipiv.size) (hp : PivOK n ipiv.get)
    (hU : ∀ i, i < n → upper n mat.get i i ≠ 0) : Local n (getrs tran n mat ipiv) :=
  ⟨sol tran n mat.get ipiv.get, fun c c' hc i hi => sol_congr tran _ hp hc hi, fun off b hb => getrs_runs tran hm hs hp hU off b hb⟩

/-- The transpose. -/
def transp (A : Nat → Nat → K) : Nat → Nat → K := fun i j => A j i

variable {r : LuOut K}

/-- `A x` from the factors. -/
theorem LuOK.mul (h : LuOK n A r) (x : Nat → K) {i : Nat} (hi : i < n) :
    mulVec n A x (pvt r.ipiv.get n i) = ∑ t ∈ range n, lower n r.mat.get i t * ∑ j ∈ range n, upper n r.mat.get t j * x j := by
  unfold mulVec
  rw [sum_congr rfl fun j hj => by rw [h.fac i j hi (mem_range.1 hj), sum_mul], sum_comm]
  exact sum_congr rfl fun t _ => by rw [mul_sum]; exact sum_congr rfl fun j _ => by ring

theorem LuOK.sol_ok (h : LuOK n A r) (hU : ∀ i, i < n → upper n r.mat.get i i ≠ 0) (y : Nat → K) {i : Nat} (hi : i < n) :
    mulVec n A (sol false n r.mat.get r.ipiv.get y) i = y i := by
  obtain ⟨k, hk, rfl⟩ := isPerm_surj (pvt_isPerm h.piv) hi
  rw [h.mul _ hk]
  unfold sol lusol
  simp only [Bool.false_eq_true, if_false]
  rw [sum_congr rfl fun t ht => by rw [backSub_tri hU (fun i j hij => upper_low hij) _ (mem_range.1 ht)]]
  exact lowSub_solves (fun i _ => by rw [lower_diag]; exact one_ne_zero) (fun i j hij => lower_up hij) _ hk

theorem LuOK.sol_tran (h : LuOK n A r) (hU : ∀ i, i < n → upper n r.mat.get i i ≠ 0) (y : Nat → K) {i : Nat} (hi : i < n) :
    mulVec n (transp A) (sol true n r.mat.get r.ipiv.get y) i = y i := by
  unfold mulVec transp
  rw [← sum_isPerm (pvt_isPerm h.piv) fun j => A j i * sol true n r.mat.get r.ipiv.get y j]
  unfold sol lusol
  simp only [if_true, Equiv.symm_apply_apply]
  rw [sum_congr rfl fun j hj => by rw [h.fac j i (mem_range.1 hj) hi, sum_mul], sum_comm]
  rw [← lowSub_solves (T := fun i j => upper n r.mat.get j i) hU (fun i j hij => upper_low hij) y hi]
  refine sum_congr rfl fun t ht => ?_
  rw [← backSub_tri (T := fun i j => lower n r.mat.get j i) (fun i _ => by rw [lower_diag]; exact one_ne_zero) (fun i j hij => lower_up hij)
    (lowSub (fun i j => upper n r.mat.get j i) y n) (mem_range.1 ht), mul_sum]
  exact sum_congr rfl fun j _ => by ring

/-- A unit lower triangle is injective. -/
theorem lower_inj {mat : Nat → K} {z : Nat → K} (h : ∀ i, i < n → ∑ t ∈ range n, lower n mat i t * z t = 0) : ∀ i, i < n → z i = 0 := by
  intro i
  induction i using Nat.strong_induction_on with
  | _ i ih =>
    intro hi
    have h1 := h i hi
    rw [← sum_range_add_sum_Ico _ (show i + 1 ≤ n by omega), sum_range_succ, lower_diag, one_mul,
      sum_eq_zero fun j hj => by have := mem_range.1 hj; rw [ih j this (by omega), mul_zero],
      sum_eq_zero (s := Ico (i + 1) n) fun j hj => by have := mem_Ico.1 hj; rw [lower_up (by omega), zero_mul], add_zero, zero_add] at h1
    exact h1

/-- `A x = 0` exactly if `U x = 0`. -/
theorem LuOK.ker (h : LuOK n A r) (x : Nat → K) : (∀ i, i < n → mulVec n A x i = 0) ↔ ∀ i, i < n → ∑ j ∈ range n, upper n r.mat.get i j * x j = 0 := by
  constructor
  · intro hx
    refine lower_inj (mat := r.mat.get) fun i hi => ?_
    rw [← h.mul x hi]
    exact hx _ (pvt_lt h.piv (le_refl _) hi)
  · intro hx i hi
    obtain ⟨k, hk, rfl⟩ := isPerm_surj (pvt_isPerm h.piv) hi
    rw [h.mul x hk]
    exact sum_eq_zero fun t ht => by rw [hx t (mem_range.1 ht), mul_zero]

/-- Vectors with components only in the first `m` columns, all with nonzero pivots: only zero is mapped to zero. -/
theorem LuOK.indep (h : LuOK n A r) {m : Nat} (hm : m ≤ n) (hU : ∀ i, i < m → upper n r.mat.get i i ≠ 0) (x : Nat → K) (h0 : ∀ i, m ≤ i → i < n → x i = 0)
    (hx : ∀ i, i < n → mulVec n A x i = 0) : ∀ i, i < n → x i = 0 := by
  have hz := (h.ker x).1 hx
  have key : ∀ t, ∀ i, i < n → n - 1 - i = t → x i = 0 := by
    intro t
    induction t using Nat.strong_induction_on with
    | _ t ih =>
      intro i hi ht
      by_cases him : m ≤ i
      · exact h0 i him hi
      · have h1 := hz i hi
        rw [← sum_range_add_sum_Ico _ (show i + 1 ≤ n by omega), sum_range_succ,
          sum_eq_zero fun j hj => by have := mem_range.1 hj; rw [upper_low this, zero_mul],
          sum_eq_zero (s := Ico (i + 1) n) fun j hj => by have := mem_Ico.1 hj; rw [ih (n - 1 - j) (by omega) j (by omega) rfl, mul_zero], add_zero, zero_add] at h1
        exact (mul_eq_zero.1 h1).resolve_left (hU i (by omega))
  exact fun i hi => key _ i hi rfl

/-- The column of the first zero pivot is a combination of the columns before it. -/
theorem LuOK.dep (h : LuOK n A r) {m : Nat} (hm : m < n) (hU : ∀ i, i < m → upper n r.mat.get i i ≠ 0) (h0 : upper n r.mat.get m m = 0) :
    ∃ x : Nat → K, x m = 1 ∧ (∀ i, m < i → i < n → x i = 0) ∧ ∀ i, i < n → mulVec n A x i = 0 := by
  let c := backSub m (upper n r.mat.get) (fun i => - upper n r.mat.get i m) m
  refine ⟨fun i => if i < m then c i else if i = m then 1 else 0, by simp, fun i hi _ => by beta_reduce; rw [if_neg (by omega), if_neg (by omega)], (h.ker _).2 fun i hi => ?_⟩
  rw [← sum_range_add_sum_Ico _ (show m + 1 ≤ n by omega), sum_range_succ, sum_eq_zero (s := Ico (m + 1) n) fun j hj => by
    have := mem_Ico.1 hj
    rw [if_neg (by omega), if_neg (by omega), mul_zero], add_zero, if_neg (by omega), if_pos rfl, mul_one]
  rw [sum_congr rfl fun j hj => by rw [if_pos (mem_range.1 hj)]]
  by_cases him : i < m
  · rw [backSub_tri hU (fun i j hij => upper_low hij) _ him, neg_add_cancel]
  · rw [sum_eq_zero fun j hj => by have := mem_range.1 hj; rw [upper_low (by omega), zero_mul], zero_add]
    by_cases h2 : i = m
    · rw [h2, h0]
    · exact upper_low (by omega)

end solve
end Lup
end Hif
