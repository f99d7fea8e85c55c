import Verif.Props.Lup
import Mathlib.Algebra.Order.Star.Real

set_option linter.unusedSectionVars false
set_option linter.unusedVariables false

/-!
# C77: the whole factorization with LUP as the dense solver, and witnesses
-/

namespace Hif
namespace Props
open Hif Level Spec HIF HM Finset

section wholeRun
variable {K R : Type} [Field K] [StarRing K] [TrivialStar K] [DecidableEq K] [Inhabited K] [Field R] [LinearOrder R] [IsStrictOrderedRing R] [FloorSemiring R]

/-- LUP on a nonsingular sparse block: the factorization succeeds, solving and multiplying are exact. -/
theorem lup_dense_exact (junk : Nat → K) {getrf : Nat → Buf K → Lup.LuOut K} (rowMajor : Bool) {S : CS K} (hw : S.WF) (hs : S.Sorted) (hsq : S.ssize = S.psize)
    (hpos : 0 < S.psize) (hA : Injective S.psize (mat rowMajor S)) (hg : ∀ m : Buf K, m.size = S.psize * S.psize → Lup.LuOK S.psize (colMajor S.psize m) (getrf S.psize m)) (rk : Nat) :
    (Lup.dense junk getrf rowMajor false S).2 = none ∧ Prec.DenseExact rk S.psize (mat rowMajor S) (Lup.dense junk getrf rowMajor false S).1 := by
  have hdist : ∀ i, i < S.psize → ∀ k l, S.start.get i ≤ k → k < l → l < S.start.get (i + 1) → S.inds.get k ≠ S.inds.get l := by
    intro i hi k l h1 h2 h3
    have := hs i hi k l ⟨h1, by omega⟩ ⟨by omega, h3⟩ h2
    omega
  have hd : Runs (if rowMajor then S.denseFromCRS else S.denseFromCCS) fun d => d.size = S.psize * S.psize ∧
      ∀ i j, i < S.psize → j < S.psize → colMajor S.psize d i j = mat rowMajor S i j := by
    cases rowMajor
    · simp only [Bool.false_eq_true, if_false]
      refine (CS.denseFromCCS_runs hw hdist).mono ?_
      rintro d ⟨d1, d2⟩
      rw [hsq] at d1 d2
      exact ⟨d1, fun i j hi hj => d2 j hj i hi⟩
    · simp only [if_true]
      refine (CS.denseFromCRS_runs hw hdist).mono ?_
      rintro d ⟨d1, d2⟩
      rw [hsq] at d1 d2
      exact ⟨d1, fun i j hi hj => d2 i hi j hj⟩
  obtain ⟨d, ed, d1, d2⟩ := hd
  have hA' : Injective S.psize (colMajor S.psize d) := by
    intro x y hxy
    refine hA x y fun i hi => ?_
    have := hxy i hi
    unfold mulVec at *
    rw [sum_congr rfl fun j hj => by rw [← d2 i j hi (mem_range.1 hj)], this]
    exact sum_congr rfl fun j hj => by rw [d2 i j hi (mem_range.1 hj)]
  obtain ⟨s, es, hs⟩ := C77_adjoint_partial hpos d1 (hg d d1) hA' (Lup.St.init junk)
  have hdn : Lup.dense junk getrf rowMajor false S = (Lup.ops s, none) := by
    unfold Lup.dense
    rw [ed, hsq]
    simp only [ite_self]
    show (match Lup.factorize getrf (Lup.setMatrix (Lup.St.init junk) S.psize S.psize d) with | .ok s => (Lup.ops s, none) | .error e => (Qrcp.failed, some e)) = _
    rw [es]
  rw [hdn]
  refine ⟨rfl, ?_⟩
  have hx := hs rk
  have hm : ∀ x i, i < S.psize → mulVec S.psize (colMajor S.psize d) x i = mulVec S.psize (mat rowMajor S) x i := fun x i hi =>
    sum_congr rfl fun j hj => by rw [d2 i j hi (mem_range.1 hj)]
  have hmh : ∀ x i, i < S.psize → mulVec S.psize (herm (colMajor S.psize d)) x i = mulVec S.psize (herm (mat rowMajor S)) x i := fun x i hi =>
    sum_congr rfl fun j hj => by unfold herm; rw [d2 j i (mem_range.1 hj) hi]
  refine ⟨fun y hy => (hx.solve y hy).mono fun x h => ⟨h.1, fun i hi => ?_⟩, fun y hy => (hx.solveT y hy).mono fun x h => ⟨h.1, fun i hi => ?_⟩,
    fun y hy => (hx.multiply y hy).mono fun x h => ⟨h.1, fun i hi => ?_⟩, fun y hy => (hx.multiplyT y hy).mono fun x h => ⟨h.1, fun i hi => ?_⟩⟩
  · rw [← hm _ i hi]; exact h.2 i hi
  · rw [← hmh _ i hi]; exact h.2 i hi
  · rw [← hm _ i hi]; exact h.2 i hi
  · rw [← hmh _ i hi]; exact h.2 i hi

/-- C77 (end to end): with LUP as the dense solver, for every valid nonsingular square real matrix, every pivoting mode, nothing dropped and whatever the object held before, `factorize`
completes, and `solve` returns, for every right-hand side, the solution of `A x = b`.  Here LUP runs the textbook factorization, so nothing is assumed of LAPACK. -/
theorem C77_end_to_end (e : Level.Env K R) (o : Level.Opts R) (hc : LevelContract e o) (other : Kernels K) (junk : Nat → K) (ijunk : Nat → Int)
    (opts : FacOpts) (hsy : opts.isSymm = false) (A : Input K) (raw : RawCS) (n : Nat) (hA : ValidSquare A ijunk raw n) (hsz : SizesOK e n)
    (hnd : NoDrop o n) (hinj : Injective n (mat A.rowMajor (raw.toCS n A.vals)))
    (nrm : K → R) (hn : ∀ x, nrm x ≤ nrm 0 → x = 0) (hdense : other.dense = Lup.dense junk (Lup.getf2 nrm) A.rowMajor)
    (rk : Nat) (hrk : n ≤ rk) (h : HIF K) (hw : h.empty = true → h.work.size = 0) (hns : h.nsp = none) :
    ∃ h₁, factorize junk ijunk (kernels e o (opts.pivot == .auto) A.rowMajor other) opts A 0 h = (h₁, .ok ()) ∧
      ∀ b y₀ : Buf K, b.size = n → y₀.size = n → ∃ h₂ x, solve junk b y₀ false rk h₁ = (h₂, .ok x) ∧ x.size = n ∧
        ∀ i, i < n → mulVec n (mat A.rowMajor (raw.toCS n A.vals)) x.get i = b.get i := by
  refine C63_exact e o hc other junk ijunk opts hsy A raw n hA hsz hnd hinj rk (fun S s1 s2 s3 s4 s5 s6 => ?_) h hw hns
  rw [hdense]
  exact lup_dense_exact junk A.rowMajor s1 s2 s3 s4 s6 (fun m hm => Lup.getf2_ok hn hm) rk

end wholeRun

/-! ### witnesses -/

/-- C77 (witness): for the `1 × 1` matrix `i`, the transposed `solve` does not undo the transposed `multiply`: it returns `-x`. -/
theorem C77_tran_complex (getrf : Nat → Buf ℂ → Lup.LuOut ℂ) (hg : Lup.LuOK 1 (colMajor 1 ⟨1, fun _ => Complex.I⟩) (getrf 1 ⟨1, fun _ => Complex.I⟩)) (s₀ : Lup.St ℂ) :
    Runs (Lup.factorize getrf (Lup.setMatrix s₀ 1 1 ⟨1, fun _ => Complex.I⟩)) fun s => Lup.fullRank s = true ∧ ∀ x y : Buf ℂ, x.size = 1 → y.size = 1 →
      Runs (Lup.multiply s x y 0 true >>= fun z => Lup.solve s z 0 true) fun w => w.get 0 = - x.get 0 := by
  have hA : Injective 1 (colMajor 1 (⟨1, fun _ => Complex.I⟩ : Buf ℂ)) := by
    intro x y h i hi
    obtain rfl : i = 0 := by omega
    have := h 0 (by omega)
    simp only [mulVec, colMajor, range_one, sum_singleton] at this
    exact mul_left_cancel₀ Complex.I_ne_zero this
  refine (lup_factorize (by omega) rfl hg s₀).mono ?_
  rintro s ⟨h, hb⟩
  have hr := lup_full h hA
  refine ⟨(lup_fullRank h).2 hr, fun x y hx hy => ?_⟩
  simp only [runs_bind]
  refine (lup_multiply h.nr h.nc hb rfl x y hx hy 0 true).mono ?_
  rintro z ⟨z1, z2⟩
  refine (lup_solve h hr z z1 0 true).mono ?_
  rintro w ⟨w1, w2⟩
  have h1 := w2 0 (by omega)
  rw [z2 0 (by omega)] at h1
  simp only [if_true, mulVec, Lup.transp, herm, colMajor, range_one, sum_singleton] at h1
  have : star Complex.I = -Complex.I := Complex.conj_I
  rw [this, neg_mul, ← mul_neg] at h1
  exact mul_left_cancel₀ Complex.I_ne_zero h1

/-- The magnitude used in the examples. -/
def lupNrm (x : ℚ) : ℚ := |x|

theorem lupNrm_ok : ∀ x, lupNrm x ≤ lupNrm 0 → x = 0 := fun x h => by
  unfold lupNrm at h
  rw [abs_zero] at h
  exact abs_nonpos_iff.1 h

/-- The identity of size `n`. -/
def lupEye (n : Nat) : Buf ℚ := ⟨n * n, fun l => if l % n = l / n then 1 else 0⟩

/-- `[[1,1],[1,2]]` -/
def lupNew : Buf ℚ := ⟨4, fun l => if l = 3 then 2 else 1⟩

/-- The identity of size `n` is factorized, then `[[1,1],[1,2]]` is set. -/
def lupStale (n : Nat) : M (Lup.St ℚ) := do
  let s ← Lup.factorize (Lup.getf2 lupNrm) (Lup.setMatrix (Lup.St.init fun _ => 0) n n (lupEye n))
  pure (Lup.setMatrix s 2 2 lupNew)

/-- C77 (witness): after `set_matrix` with a new matrix the old factorization is not forgotten: `full_rank` still holds, and `solve`, without `factorize`, is accepted and returns a
vector that does not solve the new system (the solution of `[[1,1],[1,2]] x = (1,0)` is `(2,-1)`). -/
theorem C77_stale : (lupStale 2).toOption.map Lup.fullRank = some true ∧
    (lupStale 2 >>= fun s => Lup.solve s ⟨2, fun i => if i = 0 then 1 else 0⟩ 0 false).toOption.map Buf.toList = some [3/2, -1/2] := by
  constructor <;> decide +kernel

/-- The call accesses memory out of range. -/
def isOob {α : Type _} : M α → Bool
  | .error .oob => true
  | _ => false

/-- C77 (witness): with a larger matrix set but not factorized, `solve` reads beyond the end of the old pivots. -/
theorem C77_stale_oob : (lupStale 1).isOk = true ∧ isOob (lupStale 1 >>= fun s => Lup.solve s ⟨2, fun i => if i = 0 then 1 else 0⟩ 0 false) = true := by
  constructor <;> decide +kernel

/-- C77 (witness): the reported rank is not the rank of the matrix: `[[0,1],[0,1]]` has rank one and is reported with rank zero. -/
theorem C77_rank_low : (Lup.factorize (Lup.getf2 lupNrm) (Lup.setMatrix (Lup.St.init fun _ => 0) 2 2 ⟨4, fun l => if 2 ≤ l then 1 else 0⟩)).toOption.map (·.rank) = some 0 := by
  decide +kernel

/-! ### examples: the hypotheses are met -/

/-- `[[0,1],[2,3]]`, which needs an exchange. -/
def lupMat : Buf ℚ := ⟨4, fun l => if l = 0 then 0 else if l = 1 then 2 else if l = 2 then 1 else 3⟩

theorem lupMat_inj : Injective 2 (colMajor 2 lupMat) := by
  intro x y h i hi
  have h0 := h 0 (by omega)
  have h1 := h 1 (by omega)
  simp [mulVec, colMajor, lupMat, sum_range_succ] at h0 h1
  have e1 : x 1 = y 1 := by linarith
  have e0 : x 0 = y 0 := by linarith
  rcases (show i = 0 ∨ i = 1 by omega) with rfl | rfl
  · exact e0
  · exact e1

example : Runs (Lup.factorize (Lup.getf2 lupNrm) (Lup.setMatrix (Lup.St.init fun _ => 0) 2 2 lupMat)) fun s => s.rank = 2 ∧ ∀ (r : Nat) (b : Buf ℚ), b.size = 2 →
    Runs (Lup.solve s b r false) fun x => x.size = 2 ∧ ∀ i, i < 2 → mulVec 2 (colMajor 2 lupMat) x.get i = b.get i :=
  (C77_solve (by omega) rfl (C77_getrf lupNrm_ok rfl) lupMat_inj _).mono fun s h => ⟨h.1, fun r b hb => (h.2.2 r b hb).1⟩

example : ¬ Injective 2 (colMajor 2 (⟨4, fun l => if 2 ≤ l then 1 else 0⟩ : Buf ℚ)) := by
  intro h
  have := h (fun i => if i = 0 then 1 else 0) (fun _ => 0) (fun i hi => by rcases (show i = 0 ∨ i = 1 by omega) with rfl | rfl <;> simp [mulVec, colMajor, sum_range_succ]) 0 (by omega)
  simp at this

end Props
end Hif
