import Verif.Props.QrcpEnd
import Mathlib.Analysis.Real.Sqrt
import Mathlib.Data.Real.Star
import Mathlib.Tactic.IntervalCases
import Mathlib.Algebra.BigOperators.Field

set_option linter.unusedSectionVars false
set_option linter.unusedVariables false

/-!
# Examples for C64: the contracts of LAPACK can be met

A QR factorization by Householder reflections exists for every real matrix, with the first pivot a column of largest norm.
-/

namespace Hif.Props.ExQrcp
open Hif Qrcp Spec Finset

/-- Reflections by the vectors `V`, in order. -/
noncomputable def QHv (n : Nat) (V : Nat → Nat → ℝ) (tau : Nat → ℝ) : Nat → (Nat → ℝ) → Nat → ℝ
  | 0, x => x
  | k + 1, x => Qrcp.refl n (V k) (star (tau k)) (QHv n V tau k x)

theorem QHv_eq {n : Nat} {V : Nat → Nat → ℝ} {mat tau : Nat → ℝ} {k : Nat} (h : ∀ i, i < k → hvec n mat i = V i) (x : Nat → ℝ) : applyQH n mat tau k x = QHv n V tau k x := by
  induction k with
  | zero => rfl
  | succ k ih => rw [applyQH, QHv, ih fun i hi => h i (by omega), h k (by omega)]

theorem QHv_congr {n : Nat} {V V' : Nat → Nat → ℝ} {tau tau' : Nat → ℝ} {k : Nat} (h : ∀ i, i < k → V i = V' i) (h' : ∀ i, i < k → tau i = tau' i) (x : Nat → ℝ) :
    QHv n V tau k x = QHv n V' tau' k x := by
  induction k with
  | zero => rfl
  | succ k ih => rw [QHv, QHv, ih (fun i hi => h i (by omega)) (fun i hi => h' i (by omega)), h k (by omega), h' k (by omega)]

/-- Shape of the vector of reflector `i`. -/
def Shape (n : Nat) (i : Nat) (v : Nat → ℝ) : Prop := (∀ l, l < i ∨ n ≤ l → v l = 0) ∧ v i = 1

/-- One Householder reflection. -/
theorem householder {n k : Nat} (hk : k < n) (x : Nat → ℝ) : ∃ v t, Shape n k v ∧ Qrcp.Unitary n v t ∧ ∀ l, k < l → l < n → Qrcp.refl n v (star t) x l = 0 := by
  have split : ∀ v y : Nat → ℝ, (∀ l, l < k → v l = 0) → ip n v y = v k * y k + ∑ l ∈ Ico (k + 1) n, v l * y l := by
    intro v y hv
    unfold ip
    rw [← sum_range_add_sum_Ico _ (show k + 1 ≤ n by omega), sum_range_succ, sum_eq_zero fun l hl => by rw [hv l (mem_range.1 hl), star_zero, zero_mul], zero_add]
    simp only [star_trivial]
  by_cases h0 : ∑ l ∈ Ico (k + 1) n, x l * x l = 0
  · refine ⟨fun l => if l = k then 1 else 0, 0, ⟨fun l hl => if_neg (by omega), if_pos rfl⟩, by simp [Qrcp.Unitary], fun l hl hl' => ?_⟩
    have := (sum_eq_zero_iff_of_nonneg fun l _ => mul_self_nonneg (x l)).1 h0 l (mem_Ico.2 ⟨by omega, hl'⟩)
    simp only [Qrcp.refl, star_zero, zero_mul, sub_zero]
    exact mul_self_eq_zero.1 this
  · have htail : 0 < ∑ l ∈ Ico (k + 1) n, x l * x l := lt_of_le_of_ne (sum_nonneg fun l _ => mul_self_nonneg (x l)) (Ne.symm h0)
    set τ := ∑ l ∈ Ico (k + 1) n, x l * x l with hτ
    set α := x k with hα
    set σ := α * α + τ with hσ
    have hσp : 0 < σ := by have := mul_self_nonneg α; rw [hσ]; linarith
    set β := Real.sqrt σ with hβ
    have hβ2 : β * β = σ := Real.mul_self_sqrt hσp.le
    have hβp : 0 < β := Real.sqrt_pos.2 hσp
    have hab : α - β ≠ 0 := by
      intro h
      have : α = β := by linarith
      rw [this, hβ2] at hσ
      linarith
    set v : Nat → ℝ := fun l => if l < k ∨ n ≤ l then 0 else if l = k then 1 else x l / (α - β) with hv
    have v0 : ∀ l, l < k ∨ n ≤ l → v l = 0 := fun l hl => if_pos hl
    have vk : v k = 1 := by rw [hv]; beta_reduce; rw [if_neg (by omega), if_pos rfl]
    have vl : ∀ l, k < l → l < n → v l = x l / (α - β) := fun l h1 h2 => by rw [hv]; beta_reduce; rw [if_neg (by omega), if_neg (by omega)]
    have ivx : ip n v x = -β := by
      rw [split v x fun l hl => v0 l (Or.inl hl), vk, one_mul, sum_congr rfl fun l hl => by
        have := mem_Ico.1 hl
        rw [vl l (by omega) this.2, div_mul_eq_mul_div], ← sum_div, ← hτ]
      field_simp
      nlinarith
    have ivv : ip n v v = -2 * β / (α - β) := by
      rw [split v v fun l hl => v0 l (Or.inl hl), vk, one_mul, sum_congr rfl fun l hl => by
        have := mem_Ico.1 hl
        rw [vl l (by omega) this.2, div_mul_div_comm], ← sum_div, ← hτ]
      field_simp
      nlinarith
    refine ⟨v, (β - α) / β, ⟨v0, vk⟩, ?_, fun l hl hl' => ?_⟩
    · unfold Qrcp.Unitary
      rw [ivv]
      simp only [star_trivial]
      field_simp
      ring
    · rw [refl_eq, ivx, vl l hl hl']
      simp only [star_trivial]
      field_simp
      ring

/-- Householder triangularization of the columns `B j`. -/
theorem triangularize (n : Nat) (B : Nat → Nat → ℝ) : ∀ k, k ≤ n → ∃ V tau, (∀ i, i < k → Shape n i (V i) ∧ Qrcp.Unitary n (V i) (tau i)) ∧
    ∀ j, j < k → ∀ l, j < l → l < n → QHv n V tau k (B j) l = 0 := by
  intro k
  induction k with
  | zero => exact fun _ => ⟨fun _ _ => 0, fun _ => 0, fun i hi => by omega, fun j hj => by omega⟩
  | succ k ih =>
    intro hk
    obtain ⟨V, tau, h1, h2⟩ := ih (by omega)
    obtain ⟨v, t, s1, s2, s3⟩ := householder (show k < n by omega) (QHv n V tau k (B k))
    refine ⟨fun i => if i = k then v else V i, fun i => if i = k then t else tau i, fun i hi => ?_, fun j hj l hl hl' => ?_⟩
    · by_cases hik : i = k
      · subst hik; simp only [if_pos]; exact ⟨s1, s2⟩
      · simp only [if_neg hik]; exact h1 i (by omega)
    · rw [QHv, QHv_congr (V' := V) (tau' := tau) (fun i hi => if_neg (by omega)) (fun i hi => if_neg (by omega))]
      simp only [if_true]
      rcases Nat.lt_succ_iff_lt_or_eq.1 hj with h | rfl
      · rw [refl_eq, h2 j h l hl hl']
        have : ip n v (QHv n V tau k (B j)) = 0 := by
          unfold ip
          refine sum_eq_zero fun i hi => ?_
          by_cases hik : i < k
          · rw [s1.1 i (Or.inl hik), star_zero, zero_mul]
          · rw [h2 j h i (by omega) (mem_range.1 hi), mul_zero]
        rw [this, mul_zero, sub_zero]
      · exact s3 l hl hl'

/-- The position of a largest value. -/
theorem exists_max {n : Nat} (hn : 0 < n) (f : Nat → ℝ) : ∃ c, c < n ∧ ∀ j, j < n → f j ≤ f c := by
  obtain ⟨c, hc, h⟩ := Finset.exists_max_image (range n) f ⟨0, mem_range.2 hn⟩
  exact ⟨c, mem_range.1 hc, fun j hj => h j (mem_range.2 hj)⟩

/-- What `?geqp3` promises, about one result. -/
def IsQr (n : Nat) (m : Buf ℝ) (o : QrOut ℝ) : Prop :=
  0 ≤ o.info ∧ (∀ r, Fac n (fun i j => m.get (i + j * n)) ⟨n, n, o.mat, o.jpvt, o.tau, r⟩) ∧
    (∀ i, i < n → |o.mat.get (i + i * n)| ≤ |o.mat.get 0|) ∧ ∀ i j, i < n → j < n → |m.get (i + j * n)| ≤ |o.mat.get 0|

theorem exists_qr {n : Nat} (hn : 0 < n) (m : Buf ℝ) : ∃ o, IsQr n m o := by
  set A : Nat → Nat → ℝ := fun i j => m.get (i + j * n) with hA
  obtain ⟨c, hc, hmax⟩ := exists_max hn fun j => ip n (fun i => A i j) fun i => A i j
  -- swap columns `0` and `c`
  let p : Nat → Nat := fun j => if j = 0 then c else if j = c then 0 else j
  have hp : IsPerm n p := by
    refine ⟨fun i hi => ?_, fun i j hi hj hij => ?_⟩
    · show (if i = 0 then c else if i = c then 0 else i) < n
      split
      · exact hc
      · split <;> omega
    · have hij : (if i = 0 then c else if i = c then 0 else i) = if j = 0 then c else if j = c then 0 else j := hij
      split at hij <;> split at hij <;> (try split at hij) <;> (try split at hij) <;> omega
  obtain ⟨V, tau, h1, h2⟩ := triangularize n (fun j i => A i (p j)) n (le_refl n)
  let Rm : Nat → Nat → ℝ := fun l j => QHv n V tau n (fun i => A i (p j)) l
  let mat : Nat → ℝ := fun q => if q % n ≤ q / n then Rm (q % n) (q / n) else V (q / n) (q % n)
  have hmat : ∀ l j, l < n → mat (l + j * n) = if l ≤ j then Rm l j else V j l := by
    intro l j hl
    have e1 : (l + j * n) % n = l := by rw [Nat.add_mul_mod_self_right, Nat.mod_eq_of_lt hl]
    have e2 : (l + j * n) / n = j := by rw [Nat.add_mul_div_right _ _ hn, Nat.div_eq_of_lt hl, Nat.zero_add]
    show (if (l + j * n) % n ≤ (l + j * n) / n then _ else _) = _
    rw [e1, e2]
  have hhv : ∀ i, i < n → hvec n mat i = V i := by
    intro i hi
    obtain ⟨⟨s1, s2⟩, -⟩ := h1 i hi
    funext j
    unfold hvec
    split
    · rename_i h; exact (s1 j h).symm
    · split
      · rename_i h; rw [h, s2]
      · rw [hmat j i (by omega), if_neg (by omega)]
  have hun : ∀ i, i < n → Qrcp.Unitary n (hvec n mat i) (tau i) := fun i hi => by rw [hhv i hi]; exact (h1 i hi).2
  have hup : ∀ j, j < n → ∀ l, l < n → upper n mat l j = applyQH n mat tau n (fun i => A i (p j)) l := by
    intro j hj l hl
    rw [QHv_eq hhv]
    unfold upper
    split
    · rename_i h; rw [hmat l j hl, if_pos h]
    · exact (h2 j hj l (by omega) hl).symm
  have hnorm : ∀ j, j < n → ip n (fun l => upper n mat l j) (fun l => upper n mat l j) = ip n (fun i => A i (p j)) fun i => A i (p j) := by
    intro j hj
    rw [ip_congr (hup j hj) (hup j hj)]
    have h3 := applyQ_ip n mat tau hun (applyQH n mat tau n fun i => A i (p j)) (applyQH n mat tau n fun i => A i (p j))
    rw [applyQ_applyQH n mat tau hun] at h3
    exact h3.symm
  have hsq : ∀ (x : Nat → ℝ) i, i < n → x i ^ 2 ≤ ip n x x := by
    intro x i hi
    unfold ip
    have := single_le_sum (f := fun i => star (x i) * x i) (s := range n) (fun i _ => by simp only [star_trivial]; exact mul_self_nonneg _) (mem_range.2 hi)
    simp only [star_trivial] at this ⊢
    rw [pow_two]
    exact this
  have h00 : mat 0 ^ 2 = ip n (fun i => A i c) fun i => A i c := by
    have h3 := hnorm 0 hn
    have hp0 : p 0 = c := if_pos rfl
    rw [hp0] at h3
    rw [← h3]
    unfold ip
    rw [sum_eq_single_of_mem 0 (mem_range.2 hn) fun l hl h0 => by beta_reduce; unfold upper; rw [if_neg (by omega), mul_zero]]
    beta_reduce
    unfold upper
    rw [if_pos (le_refl _)]
    simp only [star_trivial, Nat.zero_mul, Nat.zero_add]
    rw [pow_two]
  have hent : ∀ i j, i < n → j < n → |A i j| ≤ |mat 0| := by
    intro i j hi hj
    rw [← sq_le_sq, h00]
    exact le_trans (hsq (fun i => A i j) i hi) (hmax j hj)
  refine ⟨⟨⟨n * n, mat⟩, ⟨n, fun j => p j + 1⟩, ⟨n, tau⟩, 0⟩, le_refl _, fun r => ⟨hn, rfl, rfl, rfl, rfl, rfl, fun i hi => by show 1 ≤ p i + 1; omega,
    ⟨fun i hi => hp.1 i hi, fun i j hi hj e => hp.2 i j hi hj e⟩, hun, fun i j hi hj => ?_⟩, fun i hi => ?_, hent⟩
  · show A i (p j) = applyQ n mat tau n (fun l => upper n mat l j) i
    rw [applyQ_congr n mat tau n (hup j hj) i hi]
    rw [applyQ_applyQH n mat tau hun]
  · show |mat (i + i * n)| ≤ |mat 0|
    rw [← sq_le_sq, h00, ← upper_diag n mat i]
    refine le_trans (hsq (fun l => upper n mat l i) i hi) ?_
    rw [hnorm i hi]
    exact hmax _ (hp.1 i hi)

open Classical in
/-- An environment in which the routines keep their contracts. -/
noncomputable def env : Qrcp.Env ℝ ℝ :=
  { nrm := fun x => |x|, geqp3 := fun n _ m => if h : ∃ o, IsQr n m o then h.choose else ⟨m, ⟨0, fun _ => 0⟩, m, -1⟩,
    laic1 := fun mx _ _ e _ g => if mx then (e, 1, 0) else (|g|, 0, 1), diagTol := 1 / 1000, condThres := 1000 }

theorem env_geqp3 {n : Nat} (hn : 0 < n) (m : Buf ℝ) : Geqp3OK env n m := by
  have : IsQr n m (env.geqp3 n n m) := by
    unfold env
    simp only [dif_pos (exists_qr hn m)]
    exact (exists_qr hn m).choose_spec
  exact ⟨this.1, this.2.1, this.2.2.1, this.2.2.2⟩

theorem env_laic1 : Laic1OK env := ⟨fun _ _ _ _ => by simp [env], fun _ _ _ _ _ _ => by simp [env], fun _ _ _ _ _ _ _ _ => by simp [env], fun _ _ _ _ _ _ _ _ => by simp [env]⟩
theorem env_nrm : NrmOK env.nrm := ⟨fun x => abs_nonneg x, fun x => abs_eq_zero⟩

/-- Non-vacuity of C64: the hypotheses are met by every real matrix; for a singular `2 × 2` matrix, a nonzero one, the statements apply. -/
example : Laic1OK env ∧ NrmOK env.nrm ∧ 0 < env.diagTol ∧ 1 ≤ env.condThres ∧ (∀ n, 0 < n → ∀ m : Buf ℝ, Geqp3OK env n m) ∧
    ∃ i j, i < 2 ∧ j < 2 ∧ colMajor 2 (Buf.ofList [3, 4, 6, (8 : ℝ)]) i j ≠ 0 :=
  ⟨env_laic1, env_nrm, by simp [env], by simp [env], fun n hn m => env_geqp3 hn m, 0, 0, by decide, by decide, by simp [colMajor, Buf.ofList]⟩

end Hif.Props.ExQrcp

namespace Hif.Props.ExQrcp
open Hif Level Spec HIF HM Finset

/-! ### an instance of the end-to-end statement -/

noncomputable def lenv : Level.Env ℝ ℝ :=
  { a := ⟨fun x => |x|, id, id, 0, 0⟩, pre := ⟨fun _ => ⟨0, Buf.ofList [], Buf.ofList [], Buf.ofList []⟩, fun m _ => pure (eyeBuf m), fun m _ => pure (eyeBuf m)⟩,
    nth := fun w _ l => l.insertionSort fun a b => w b ≤ w a, safeMin := 0, cbrt := id, patSymm := fun _ _ => false, rows := fun _ => Buf.mk' 100 1, cols := fun _ => Buf.mk' 100 1,
    junkK := fun _ => 99, junkN := fun _ => 77,
    srt := fun w l => l.insertionSort fun a b => w b ≤ w a }

noncomputable def lopts : Level.Opts ℝ :=
  { par := ⟨false, 1, 100, 0, 0, 200, 200⟩, pre := ⟨0, 0, 0⟩, noPre := true, symmPreLvls := 0, fatSchur1st := false, denseThres := 0, cD := 1, rho := 1, gamma := 1 }

theorem nth_spec : SV.NthSpec fun (w : Nat → ℝ) (_ : Nat) (l : List Nat) => l.insertionSort fun a b => w b ≤ w a := by
  refine fun w k l _ => ⟨List.perm_insertionSort _ _, ?_⟩
  have : Std.Total fun a b : Nat => w b ≤ w a := ⟨fun a b => le_total _ _⟩
  have : IsTrans Nat fun a b => w b ≤ w a := ⟨fun a b c h1 h2 => le_trans h2 h1⟩
  have hs := List.pairwise_insertionSort (fun a b : Nat => w b ≤ w a) l
  intro a ha b hb
  rw [← List.take_append_drop (k + 1) (l.insertionSort fun a b => w b ≤ w a), List.pairwise_append] at hs
  exact hs.2.2 a ha b hb

theorem contract : LevelContract lenv lopts := ⟨rfl, fun _ _ => rfl, fun x => abs_nonneg x, nth_spec, fun _ _ => List.perm_insertionSort _ _, Or.inl rfl⟩
theorem sizes (n : Nat) (hn : n ≤ 100) : SizesOK lenv n := fun _ => ⟨⟨hn, fun _ _ => Nat.one_pos⟩, ⟨hn, fun _ _ => Nat.one_pos⟩⟩
theorem noDrop (n : Nat) (hn : n ≤ 100) : NoDrop lopts n := by
  have h : ((2 * n : Nat) : ℝ) ≤ 200 := by exact_mod_cast (show 2 * n ≤ 200 by omega)
  exact ⟨le_refl _, le_refl _, by show (0 : ℝ) ≤ 1; norm_num, h, h⟩

/-- `[[2,0,1],[0,4,1],[1,1,0]]` by rows, 1-based. -/
noncomputable def in3 : Input ℝ :=
  { raw := RawCS.mk false 3 (Buf.ofList [1, 3, 5, 7]) (Buf.ofList [1, 3, 2, 3, 1, 2]) 6, other := 3, vals := Buf.ofList [2, 1, 4, 1, 1, 1], rowMajor := true }
def raw3 : RawCS := ⟨false, 3, ⟨4, fun i => (Buf.ofList [1, 3, 5, 7]).get i - 1⟩, ⟨6, fun i => (Buf.ofList [1, 3, 2, 3, 1, 2]).get i - 1⟩, 6⟩

theorem valid3 : ValidSquare in3 (fun _ => 0) raw3 3 := by
  refine ⟨rfl, C09_accepted_valid_partial _ _ rfl rfl (by decide), rfl, rfl, rfl, rfl, by decide, rfl, by decide⟩

theorem inj3 : Injective 3 (mat true (raw3.toCS 3 in3.vals)) := by
  have hT : ∀ i, i < 3 → ∀ j, j < 3 → mat true (raw3.toCS 3 in3.vals) i j = ([[2, 0, 1], [0, 4, 1], [1, 1, 0]].getD i []).getD j (0 : ℝ) := by
    intro i hi j hj
    interval_cases i <;> interval_cases j <;> simp [mat, CS.crs, CS.entry, RawCS.toCS, raw3, in3, Buf.ofList, sum_Ico_eq_sum_range, sum_range_succ]
  have hm : ∀ i, i < 3 → ∀ x : Nat → ℝ, Spec.mulVec 3 (mat true (raw3.toCS 3 in3.vals)) x i =
      ([[2, 0, 1], [0, 4, 1], [1, 1, 0]].getD i []).getD 0 0 * x 0 + ([[2, 0, 1], [0, 4, 1], [1, 1, 0]].getD i []).getD 1 0 * x 1 +
      ([[2, 0, 1], [0, 4, 1], [1, 1, 0]].getD i []).getD 2 0 * x 2 := by
    intro i hi x
    unfold Spec.mulVec
    simp only [sum_range_succ, range_zero, sum_empty, zero_add]
    rw [hT i hi 0 (by decide), hT i hi 1 (by decide), hT i hi 2 (by decide)]
  intro x y h
  have h0 := h 0 (by decide)
  have h1 := h 1 (by decide)
  have h2 := h 2 (by decide)
  rw [hm 0 (by decide), hm 0 (by decide)] at h0
  rw [hm 1 (by decide), hm 1 (by decide)] at h1
  rw [hm 2 (by decide), hm 2 (by decide)] at h2
  simp at h0 h1 h2
  have e2 : x 2 = y 2 := by linarith
  have e1 : x 1 = y 1 := by linarith
  have e0 : x 0 = y 0 := by linarith
  intro i hi
  match i, hi with
  | 0, _ => exact e0
  | 1, _ => exact e1
  | 2, _ => exact e2

/-- Kernels of the driver with QRCP. -/
noncomputable def other : Kernels ℝ := { level := fun _ _ _ _ _ => throw (.ub "not used"), dense := Qrcp.dense env true }

/-- Non-vacuity of C64 (end to end), and an instance of it. -/
example (junk : Nat → ℝ) (pv : Pivoting) : ∃ h₁, factorize junk (fun _ => 0) (kernels lenv lopts (pv == .auto) true other) ⟨pv, false, -1, true⟩ in3 0
      { precs := [], work := ⟨0, junk⟩, nsp := none, nspTran := none, stats := fun _ => 0, nrows := 0, ncols := 0 } = (h₁, .ok ()) ∧
    ∃ h₂ x, solve junk (Buf.ofList [3, 5, 2]) (Buf.mk' 3 0) false 3 h₁ = (h₂, .ok x) ∧ x.size = 3 ∧
      ∀ i, i < 3 → Spec.mulVec 3 (mat true (raw3.toCS 3 in3.vals)) x.get i = (Buf.ofList [3, 5, 2]).get i := by
  obtain ⟨h₁, e1, e2⟩ := C64_end_to_end lenv lopts contract other junk (fun _ => 0) ⟨pv, false, -1, true⟩ rfl in3 raw3 3 valid3 (sizes 3 (by decide))
    (noDrop 3 (by decide)) inj3 env env_laic1 env_nrm (by simp [env]) (fun k hk _ m _ => env_geqp3 hk m) rfl 3 (le_refl _)
    { precs := [], work := ⟨0, junk⟩, nsp := none, nspTran := none, stats := fun _ => 0, nrows := 0, ncols := 0 } (fun _ => rfl) rfl
  obtain ⟨h₂, x, s1, s2, s3⟩ := e2 (Buf.ofList [3, 5, 2]) (Buf.mk' 3 0) rfl rfl
  exact ⟨h₁, e1, h₂, x, s1, s2, s3⟩

end Hif.Props.ExQrcp
