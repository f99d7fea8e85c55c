import Verif.Props.Level
import Verif.Props.SparseVec
import Mathlib.LinearAlgebra.Matrix.NonsingularInverse
import Mathlib.LinearAlgebra.Matrix.ToLin

set_option linter.unusedSectionVars false
set_option linter.unusedVariables false

/-!
# Examples for C62 and C63
-/

namespace Hif.Props.ExLevel
open Hif Level Spec HIF HM Finset

/-! ### a dense solver that keeps the contract of C63 exists -/

section
variable {K : Type} [Field K] [StarRing K]

/-- The leading `k × k` block as a matrix of Mathlib. -/
def toMat (k : Nat) (S : Nat → Nat → K) : Matrix (Fin k) (Fin k) K := fun i j => S i j

theorem mulVec_toMat {k : Nat} (S : Nat → Nat → K) (x : Nat → K) (i : Fin k) : (toMat k S).mulVec (fun j => x j) i = Spec.mulVec k S x i := by
  unfold Spec.mulVec Matrix.mulVec dotProduct toMat
  rw [Finset.sum_range]

theorem isUnit_of_injective {k : Nat} {S : Nat → Nat → K} (h : Injective k S) : IsUnit (toMat k S) := by
  rw [← Matrix.mulVec_injective_iff_isUnit]
  intro x y hxy
  funext i
  have := h (fun j => if hj : j < k then x ⟨j, hj⟩ else 0) (fun j => if hj : j < k then y ⟨j, hj⟩ else 0) (fun j hj => ?_) i i.2
  · simpa using this
  · have := congrFun hxy ⟨j, hj⟩
    rw [← mulVec_toMat S _ ⟨j, hj⟩, ← mulVec_toMat S _ ⟨j, hj⟩]
    simpa using this

theorem solvable {k : Nat} {S : Nat → Nat → K} (h : IsUnit (toMat k S)) (b : Nat → K) : ∃ x : Nat → K, ∀ i, i < k → Spec.mulVec k S x i = b i := by
  obtain ⟨x, hx⟩ := (Matrix.mulVec_surjective_iff_isUnit.2 h) fun i => b i
  refine ⟨fun j => if hj : j < k then x ⟨j, hj⟩ else 0, fun i hi => ?_⟩
  rw [← mulVec_toMat S _ ⟨i, hi⟩]
  have := congrFun hx ⟨i, hi⟩
  simpa using this

theorem herm_isUnit {k : Nat} {S : Nat → Nat → K} (h : IsUnit (toMat k S)) : IsUnit (toMat k (herm S)) := by
  have : toMat k (herm S) = (toMat k S).conjTranspose := by
    ext i j; rfl
  rw [this]
  exact (Matrix.isUnit_conjTranspose _).2 h

open Classical in
/-- Some solution of `T x = b`. -/
noncomputable def pick (k : Nat) (T : Nat → Nat → K) (b : Nat → K) : Nat → K :=
  if h : ∃ x : Nat → K, ∀ i, i < k → Spec.mulVec k T x i = b i then h.choose else fun _ => 0

theorem pick_spec {k : Nat} {T : Nat → Nat → K} (h : IsUnit (toMat k T)) (b : Nat → K) {i : Nat} (hi : i < k) : Spec.mulVec k T (pick k T b) i = b i := by
  unfold pick
  rw [dif_pos (solvable h b)]
  exact (solvable h b).choose_spec i hi

/-- An exact dense solver. -/
noncomputable def exactDense (rowMajor : Bool) (_s : Bool) (S : CS K) : DenseOps K × Option Err :=
  ({ solve := fun y _ tr => pure ⟨S.psize, pick S.psize (if tr then herm (mat rowMajor S) else mat rowMajor S) y.get⟩
     multiply := fun y _ tr => pure ⟨S.psize, fun i => Spec.mulVec S.psize (if tr then herm (mat rowMajor S) else mat rowMajor S) y.get i⟩
     solveMrhs := fun _ y _ => pure y
     rank := S.psize }, none)

theorem exactDense_exact (rowMajor : Bool) (rk : Nat) (S : CS K) (h : Injective S.psize (mat rowMajor S)) :
    (exactDense rowMajor false S).2 = none ∧ Prec.DenseExact rk S.psize (mat rowMajor S) (exactDense rowMajor false S).1 := by
  have hu := isUnit_of_injective h
  exact ⟨rfl, fun y hy => ⟨_, rfl, rfl, fun i hi => pick_spec hu y.get hi⟩, fun y hy => ⟨_, rfl, rfl, fun i hi => pick_spec (herm_isUnit hu) y.get hi⟩,
    fun y hy => ⟨_, rfl, rfl, fun i hi => rfl⟩, fun y hy => ⟨_, rfl, rfl, fun i hi => rfl⟩⟩

end

/-! ### an environment -/

def nth (w : Nat → ℚ) (_ : Nat) (l : List Nat) : List Nat := l.insertionSort fun a b => w b ≤ w a

theorem nth_spec : SV.NthSpec nth := by
  refine fun w k l _ => ⟨List.perm_insertionSort _ _, ?_⟩
  have : Std.Total fun a b : Nat => w b ≤ w a := ⟨fun a b => le_total _ _⟩
  have : IsTrans Nat fun a b => w b ≤ w a := ⟨fun a b c h1 h2 => le_trans h2 h1⟩
  have hs := List.pairwise_insertionSort (fun a b : Nat => w b ≤ w a) l
  intro a ha b hb
  rw [← List.take_append_drop (k + 1) (l.insertionSort fun a b => w b ≤ w a), List.pairwise_append] at hs
  exact hs.2.2 a ha b hb

/-- Rational arithmetic, all reference sizes 1. -/
def env : Env ℚ ℚ :=
  { a := ⟨fun x => |x|, id, id, 0, 0⟩, pre := ⟨fun _ => ⟨0, Buf.ofList [], Buf.ofList [], Buf.ofList []⟩, fun m _ => pure (eyeBuf m), fun m _ => pure (eyeBuf m)⟩,
    nth := nth, safeMin := 0, cbrt := id, patSymm := fun _ _ => false, rows := fun _ => Buf.mk' 100 1, cols := fun _ => Buf.mk' 100 1,
    junkK := fun _ => 99, junkN := fun _ => 77,
    srt := fun w l => l.insertionSort fun a b => w b ≤ w a }

/-- No preprocessing, nothing dropped, a diagonal is accepted if `|1/d| ≤ 1`. -/
def opts : Level.Opts ℚ :=
  { par := ⟨false, 1, 100, 0, 0, 200, 200⟩, pre := ⟨0, 0, 0⟩, noPre := true, symmPreLvls := 0, fatSchur1st := false, denseThres := 0, cD := 1, rho := 1, gamma := 1 }

theorem contract : LevelContract env opts := ⟨rfl, fun _ _ => rfl, fun x => abs_nonneg x, nth_spec, fun _ _ => List.perm_insertionSort _ _, Or.inl rfl⟩
theorem sizes (n : Nat) (hn : n ≤ 100) : SizesOK env n := fun _ => ⟨⟨hn, fun _ _ => Nat.one_pos⟩, ⟨hn, fun _ _ => Nat.one_pos⟩⟩
theorem noDrop (n : Nat) (hn : n ≤ 100) : NoDrop opts n := by
  have h : ((2 * n : Nat) : ℚ) ≤ 200 := by exact_mod_cast (show 2 * n ≤ 200 by omega)
  exact ⟨le_refl _, le_refl _, by show (0 : ℚ) ≤ 1; norm_num, h, h⟩

/-- `[[2,0,1],[0,4,1],[1,1,0]]` by rows. -/
def A3 : CS ℚ := Ex.mk 3 3 [0, 2, 4, 6] [0, 2, 1, 2, 0, 1] [2, 1, 4, 1, 1, 1]

theorem A3_wf : A3.WF := by constructor <;> decide
theorem A3_tight : A3.Tight := by constructor <;> decide
theorem A3_sorted : A3.Sorted := ExPre.sorted_of_bounded (by decide)

/-- Non-vacuity of C62 and C62 (exact): the matrix meets the hypotheses; the level eliminates two unknowns, defers the third and hands over the
exact Schur complement `[-3/4]`. -/
example : LevelContract env opts ∧ A3.WF ∧ A3.Tight ∧ A3.Sorted ∧ A3.ssize = A3.psize ∧ SizesOK env A3.psize ∧ NoDrop opts A3.psize ∧
    (plainLevel env opts false true 1 3 3 A3).map (fun o => (o.m2, o.m, o.d.toList.take 2, o.schur.vals.toList)) = .ok (3, 2, [2, 4], [-3/4]) :=
  ⟨contract, A3_wf, A3_tight, A3_sorted, rfl, sizes _ (by decide), noDrop _ (by decide), by decide +kernel⟩

/-- The same matrix as user input, 1-based. -/
def in3 : Input ℚ :=
  { raw := RawCS.mk false 3 (Buf.ofList [1, 3, 5, 7]) (Buf.ofList [1, 3, 2, 3, 1, 2]) 6, other := 3, vals := Buf.ofList [2, 1, 4, 1, 1, 1], rowMajor := true }
def raw3 : RawCS := { in3.raw with start := ⟨in3.raw.start.size, fun i => in3.raw.start.get i - 1⟩, inds := ⟨in3.raw.inds.size, fun i => in3.raw.inds.get i - 1⟩ }

theorem valid3 : ValidSquare in3 (fun _ => 0) raw3 3 := by
  refine ⟨rfl, C09_accepted_valid_partial _ _ rfl rfl (by decide), rfl, rfl, rfl, rfl, by decide, rfl, by decide⟩

theorem inj3 : Injective 3 (mat true (raw3.toCS 3 in3.vals)) := by
  have hT : ∀ i, i < 3 → ∀ j, j < 3 → mat true (raw3.toCS 3 in3.vals) i j = ([[2, 0, 1], [0, 4, 1], [1, 1, 0]].getD i []).getD j (0 : ℚ) := by decide +kernel
  have hm : ∀ i, i < 3 → ∀ x : Nat → ℚ, Spec.mulVec 3 (mat true (raw3.toCS 3 in3.vals)) x i =
      ([[2, 0, 1], [0, 4, 1], [1, 1, 0]].getD i []).getD 0 0 * x 0 + ([[2, 0, 1], [0, 4, 1], [1, 1, 0]].getD i []).getD 1 0 * x 1 +
      ([[2, 0, 1], [0, 4, 1], [1, 1, 0]].getD i []).getD 2 0 * x 2 := by
    intro i hi x
    unfold Spec.mulVec
    simp only [sum_range_succ, range_zero, sum_empty, zero_add]
    rw [hT i hi 0 (by decide), hT i hi 1 (by decide), hT i hi 2 (by decide)]
  intro x y h
  have h0 := h 0 (by decide)
  have h1 := h 1 (by decide)
  have h2 := h 2 (by decide)
  rw [hm 0 (by decide), hm 0 (by decide)] at h0
  rw [hm 1 (by decide), hm 1 (by decide)] at h1
  rw [hm 2 (by decide), hm 2 (by decide)] at h2
  simp at h0 h1 h2
  have e2 : x 2 = y 2 := by linarith
  have e1 : x 1 = y 1 := by linarith
  have e0 : x 0 = y 0 := by linarith
  intro i hi
  match i, hi with
  | 0, _ => exact e0
  | 1, _ => exact e1
  | 2, _ => exact e2

/-- Kernels of the driver with the exact dense solver. -/
noncomputable def other : Kernels ℚ := { level := fun _ _ _ _ _ => throw (.ub "not used"), dense := exactDense true }

/-- Non-vacuity of C63 (exactness), and an instance of it: all hypotheses hold for the 1-based input, a new object and an exact dense solver. -/
example (junk : Nat → ℚ) (pv : Pivoting) : ∃ h₁, factorize junk (fun _ => 0) (kernels env opts (pv == .auto) true other) ⟨pv, false, -1, true⟩ in3 0
      { precs := [], work := ⟨0, junk⟩, nsp := none, nspTran := none, stats := fun _ => 0, nrows := 0, ncols := 0 } = (h₁, .ok ()) ∧
    ∃ h₂ x, solve junk (Buf.ofList [3, 5, 2]) (Buf.mk' 3 0) false 0 h₁ = (h₂, .ok x) ∧ x.size = 3 ∧
      ∀ i, i < 3 → Spec.mulVec 3 (mat true (raw3.toCS 3 in3.vals)) x.get i = (Buf.ofList [3, 5, 2]).get i := by
  obtain ⟨h₁, e1, e2⟩ := C63_exact env opts contract other junk (fun _ => 0) ⟨pv, false, -1, true⟩ rfl in3 raw3 3 valid3 (sizes 3 (by decide))
    (noDrop 3 (by decide)) inj3 0 (fun S _ _ _ _ _ hi => exactDense_exact true 0 S hi)
    { precs := [], work := ⟨0, junk⟩, nsp := none, nspTran := none, stats := fun _ => 0, nrows := 0, ncols := 0 } (fun _ => rfl) rfl
  obtain ⟨h₂, x, s1, s2, s3⟩ := e2 (Buf.ofList [3, 5, 2]) (Buf.mk' 3 0) rfl rfl
  exact ⟨h₁, e1, h₂, x, s1, s2, s3⟩

/-- Non-vacuity of C62 (reference sizes): the first row of `A4r` is raised to the lower bound 2; two lines are deferred. -/
example : (initSizes ExPre.A4r 7 4).map Buf.toList = .ok [2, 2, 2, 2] ∧
    (nextSizes 4 2 (Buf.ofList [1, 2, 3, 4]) (Buf.ofList [2, 0, 3, 1])).map Buf.toList = .ok [4, 2, 3, 4] := by decide +kernel

end Hif.Props.ExLevel
