import Verif.MatVec
import Verif.MT
import Verif.Examples

/-!
# Properties C01–C04: sparse products

`A.crs i j` / `A.ccs i j` is the `(i,j)` entry of the matrix stored in row/column order,
`Spec.mulVec n A x i = Σ_{j<n} A i j * x j`, `Spec.herm` is the conjugate transpose and `Spec.col N x c` is
column `c` of a row-major array with `N` columns.
-/

namespace Hif.Props
open Hif Spec Finset
variable {K : Type _} [CommRing K]

/-! ## C01 -/

/-- C01 (CRS): `multiply_nt` succeeds without out-of-range access and returns exactly `A x`. -/
theorem C01_crs_multiply (A : CS K) (hA : A.WF) (x y : Buf K) (hx : x.size = A.ssize)
    (hy : y.size = A.psize) :
    ∃ y', A.crsMultiplyNt x y = .ok y' ∧ y'.size = y.size ∧
      ∀ i, i < A.psize → y'.get i = mulVec A.ssize A.crs x.get i := by
  unfold CS.crsMultiplyNt
  rw [if_neg (by omega)]
  obtain ⟨y', h1, h2, h3⟩ := CS.crsMulRange_runs hA x y 0 A.psize (by omega) (by omega) (by omega)
  exact ⟨y', h1, h2, fun i hi => by rw [h3, if_pos (by omega)]⟩

/-- C01 (CCS). -/
theorem C01_ccs_multiply (A : CS K) (hA : A.WF) (x y : Buf K) (hx : x.size = A.psize)
    (hy : y.size = A.ssize) :
    ∃ y', A.ccsMultiplyNt x y = .ok y' ∧ y'.size = y.size ∧
      ∀ i, i < A.ssize → y'.get i = mulVec A.psize A.ccs x.get i := by
  unfold CS.ccsMultiplyNt
  rw [if_neg (by omega)]
  exact (CS.ccsMul_runs hA x y (by omega) (by omega)).mono fun _ h => ⟨h.1, h.2.1⟩

/-- C01: with mismatching sizes both routines raise the documented error and touch nothing. -/
theorem C01_size_mismatch (A : CS K) (x y : Buf K) :
    (A.psize ≠ y.size ∨ A.ssize ≠ x.size → ∃ m, A.crsMultiplyNt x y = .error (.hif m)) ∧
    (A.ssize ≠ y.size ∨ A.psize ≠ x.size → ∃ m, A.ccsMultiplyNt x y = .error (.hif m)) := by
  constructor
  · intro h; exact ⟨_, by unfold CS.crsMultiplyNt; rw [if_pos h]; rfl⟩
  · intro h; exact ⟨_, by unfold CS.ccsMultiplyNt; rw [if_pos h]; rfl⟩

/-- C01 (CRS, row range used by threads): exactly the rows of the range are written. -/
theorem C01_crs_multiply_range (A : CS K) (hA : A.WF) (x y : Buf K) (istart len : Nat)
    (hl : istart + len ≤ A.psize) (hx : A.ssize ≤ x.size) (hy : A.psize ≤ y.size) :
    ∃ y', A.crsMulRange x istart len y = .ok y' ∧ y'.size = y.size ∧
      (∀ i, istart ≤ i → i < istart + len → y'.get i = mulVec A.ssize A.crs x.get i) ∧
      (∀ i, ¬(istart ≤ i ∧ i < istart + len) → y'.get i = y.get i) := by
  obtain ⟨y', h1, h2, h3⟩ := CS.crsMulRange_runs hA x y istart len hl hx (by omega)
  exact ⟨y', h1, h2, fun i hi hi' => by rw [h3, if_pos ⟨hi, hi'⟩], fun i hi => by rw [h3, if_neg hi]⟩

/-- Non-vacuity: `[[1,0,2],[0,3,0]] * (5,7,11) = (27,21)`, `CCS` reading gives the transpose. -/
example : Ex.A23.WF ∧
    (Ex.A23.crsMultiplyNt (Buf.ofList [5, 7, 11]) (Buf.ofList [9, 9])).map Buf.toList = .ok [27, 21] ∧
    (Ex.A23.ccsMultiplyNt (Buf.ofList [5, 7]) (Buf.ofList [9, 9, 9])).map Buf.toList = .ok [5, 21, 10] :=
  ⟨Ex.A23_wf, by decide, by decide⟩

/-! ## C02 -/

/-- C02 (CCS): `multiply_t` returns `A^H x`. -/
theorem C02_ccs_multiply_t [StarRing K] (A : CS K) (hA : A.WF) (x y : Buf K) (hx : x.size = A.ssize)
    (hy : y.size = A.psize) :
    ∃ y', A.ccsMultiplyT x y = .ok y' ∧ y'.size = y.size ∧
      ∀ j, j < A.psize → y'.get j = mulVec A.ssize (herm A.ccs) x.get j := by
  unfold CS.ccsMultiplyT
  rw [if_neg (by omega)]
  exact (CS.ccsMulT_runs hA x y (by omega) (by omega)).mono fun _ h => ⟨h.1, h.2.1⟩

/-- C02 (CRS), partial: `multiply_t` returns `A^H x` provided the matrix has at least one row.
Missing: matrices with no rows, for which the code leaves `y` untouched (`C02_crs_empty_witness`). -/
theorem C02_crs_multiply_t_partial [StarRing K] (A : CS K) (hA : A.WF) (x y : Buf K)
    (hrows : 0 < A.psize) (hx : x.size = A.psize) (hy : y.size = A.ssize) :
    ∃ y', A.crsMultiplyT x y = .ok y' ∧ y'.size = y.size ∧
      ∀ j, j < A.ssize → y'.get j = mulVec A.psize (herm A.crs) x.get j := by
  unfold CS.crsMultiplyT
  rw [if_neg (by omega)]
  exact (CS.crsMulT_runs hA x y (by omega) (by omega) (by omega)).mono fun _ h => ⟨h.1, h.2.1⟩

/-- The full C02 statement for CRS is false: for a 0×2 matrix the product should be zero but the old
contents of `y` remain. -/
theorem C02_crs_empty_witness : ∃ (A : CS ℤ) (x y y' : Buf ℤ), A.WF ∧ x.size = A.psize ∧
    y.size = A.ssize ∧ A.crsMultiplyT x y = .ok y' ∧
    ∃ j, j < A.ssize ∧ y'.get j ≠ mulVec A.psize (herm A.crs) x.get j :=
  ⟨Ex.E02, Buf.ofList [], Buf.ofList [8, 9], Buf.ofList [8, 9], Ex.E02_wf, rfl, rfl, rfl, 0,
    by decide, by decide⟩

example : (Ex.I1.crsMultiplyT (Buf.ofList [1]) (Buf.ofList [0])).map (fun y => y.get 0) =
    .ok (⟨0, -1⟩ : ℤ√(-1)) := by decide

/-! ## C03 -/

/-- C03 (CRS): each column of the multi-RHS product is the product with that column. -/
theorem C03_crs_mrhs (A : CS K) (hA : A.WF) (N : Nat) (x y : Buf K)
    (hx : x.size = A.ssize * N) (hy : y.size = A.psize * N) :
    ∃ y', A.crsMulMrhs N x y = .ok y' ∧ y'.size = y.size ∧ ∀ i c, i < A.psize → c < N →
      col N y'.get c i = mulVec A.ssize A.crs (col N x.get c) i :=
  CS.crsMulMrhs_runs hA N x y (by omega) (by omega)

/-- C03 (CCS). -/
theorem C03_ccs_mrhs (A : CS K) (hA : A.WF) (N : Nat) (x y : Buf K)
    (hx : x.size = A.psize * N) (hy : y.size = A.ssize * N) :
    ∃ y', A.ccsMulMrhs N x y = .ok y' ∧ y'.size = y.size ∧ ∀ i c, i < A.ssize → c < N →
      col N y'.get c i = mulVec A.psize A.ccs (col N x.get c) i :=
  CS.ccsMulMrhs_runs hA N x y (by omega) (by omega)

/-- C03 (CRS, transposed), partial: holds when conjugation is trivial (real scalars) and there is at
least one row.  Missing: complex scalars — the code omits the conjugation
(`C03_crs_mrhs_t_witness`). -/
theorem C03_crs_mrhs_t_partial [StarRing K] [TrivialStar K] (A : CS K) (hA : A.WF) (N : Nat)
    (hrows : 0 < A.psize) (x y : Buf K) (hx : x.size = A.psize * N) (hy : y.size = A.ssize * N) :
    ∃ y', A.crsMulMrhsT N x y = .ok y' ∧ y'.size = y.size ∧ ∀ j c, j < A.ssize → c < N →
      col N y'.get c j = mulVec A.psize (herm A.crs) (col N x.get c) j := by
  obtain ⟨y', h1, h2, h3⟩ := CS.crsMulMrhsT_runs hA N x y (by omega) (by omega) (by omega)
  refine ⟨y', h1, h2, fun j c hj hc => (h3 j c hj hc).trans ?_⟩
  simp [mulVec, herm, CS.crs, CS.ccs]

/-- C03 (CCS, transposed), partial: see `C03_crs_mrhs_t_partial`. -/
theorem C03_ccs_mrhs_t_partial [StarRing K] [TrivialStar K] (A : CS K) (hA : A.WF) (N : Nat)
    (x y : Buf K) (hx : x.size = A.ssize * N) (hy : y.size = A.psize * N) :
    ∃ y', A.ccsMulMrhsT N x y = .ok y' ∧ y'.size = y.size ∧ ∀ j c, j < A.psize → c < N →
      col N y'.get c j = mulVec A.ssize (herm A.ccs) (col N x.get c) j := by
  obtain ⟨y', h1, h2, h3⟩ := CS.ccsMulMrhsT_runs hA N x y (by omega) (by omega)
  refine ⟨y', h1, h2, fun j c hj hc => (h3 j c hj hc).trans ?_⟩
  simp [mulVec, herm, CS.ccs]

/-- What the transposed multi-RHS kernels do compute for every scalar type: the product with the plain
(unconjugated) transpose. -/
theorem C03_mrhs_t_plain_transpose (A : CS K) (hA : A.WF) (N : Nat) (x y : Buf K) :
    (0 < A.psize → x.size = A.psize * N → y.size = A.ssize * N →
      ∃ y', A.crsMulMrhsT N x y = .ok y' ∧ ∀ j c, j < A.ssize → c < N →
        col N y'.get c j = ∑ i ∈ range A.psize, A.crs i j * col N x.get c i) ∧
    (x.size = A.ssize * N → y.size = A.psize * N →
      ∃ y', A.ccsMulMrhsT N x y = .ok y' ∧ ∀ j c, j < A.psize → c < N →
        col N y'.get c j = ∑ i ∈ range A.ssize, A.ccs i j * col N x.get c i) := by
  constructor
  · intro hp hx hy
    obtain ⟨y', h1, h2, h3⟩ := CS.crsMulMrhsT_runs hA N x y (by omega) (by omega) (by omega)
    exact ⟨y', h1, h3⟩
  · intro hx hy
    obtain ⟨y', h1, h2, h3⟩ := CS.ccsMulMrhsT_runs hA N x y (by omega) (by omega)
    exact ⟨y', h1, h3⟩

/-- Witness against the full C03 for complex scalars: on the 1×1 matrix `[i]` the transposed product
of `1` is `-i` with one routine and `i` with the multi-RHS routine (both storage orders). -/
theorem C03_mrhs_t_witness : ∃ (A : CS (ℤ√(-1))) (x y : Buf (ℤ√(-1))), A.WF ∧
    (∃ y1 y2, A.crsMultiplyT x y = .ok y1 ∧ A.crsMulMrhsT 1 x y = .ok y2 ∧ y1.get 0 ≠ y2.get 0) ∧
    (∃ y1 y2, A.ccsMultiplyT x y = .ok y1 ∧ A.ccsMulMrhsT 1 x y = .ok y2 ∧ y1.get 0 ≠ y2.get 0) := by
  refine ⟨Ex.I1, Buf.ofList [1], Buf.ofList [0], Ex.I1_wf, ⟨_, _, rfl, rfl, by decide⟩,
    ⟨_, _, rfl, rfl, by decide⟩⟩

example : (Ex.A23.crsMulMrhs 2 (Buf.ofList [5, 1, 7, 1, 11, 1]) (Buf.ofList [9, 9, 9, 9])).map Buf.toList
    = .ok [27, 3, 21, 3] := by decide

/-! ## C04 -/

/-- C04: the thread ranges partition the rows (each row belongs to exactly one thread, no range leaves
`[0,n)`). -/
theorem C04_partition (n T : Nat) (hT : 0 < T) :
    (∀ i, i < n → ∃! t, t < T ∧ (MT.uniformPartition n T t).1 ≤ i ∧ i < (MT.uniformPartition n T t).2) ∧
    (∀ t, t < T → (MT.uniformPartition n T t).1 ≤ (MT.uniformPartition n T t).2 ∧
      (MT.uniformPartition n T t).2 ≤ n) := by
  refine ⟨fun i hi => ?_, fun t ht => ⟨MT.part_le _ _ _, MT.part_bound _ _ _ ht⟩⟩
  obtain ⟨t, h1, ⟨h2, h3⟩, h4⟩ := MT.part_unique n T i hT hi
  exact ⟨t, ⟨h1, h2, h3⟩, fun u ⟨hu, h5, h6⟩ => h4 u hu h5 h6⟩

/-- C04: work is balanced — two threads' ranges differ by at most one row. -/
theorem C04_balanced (n T t u : Nat) (hT : 0 < T) :
    (MT.uniformPartition n T t).2 - (MT.uniformPartition n T t).1 ≤
      (MT.uniformPartition n T u).2 - (MT.uniformPartition n T u).1 + 1 := by
  simp only [MT.part_eq]
  split <;> (try split) <;> (try split) <;> simp <;> omega

/-- C04, for **every** schedule of the team's threads: no step fails, and as soon as all threads have
left their loop the output is exactly the serial product `A x`.  Hypothesis: the OpenMP team has
as many threads as the partition was computed for (see `C04_small_team_witness`). -/
theorem C04_threaded_product (A : CS K) (hA : A.WF) (x y : Buf K) (hx : x.size = A.ssize)
    (hy : y.size = A.psize) (T : Nat) (hT : 0 < T) (sched : List Nat) :
    ∃ s, MT.run A x T T sched (MT.init A T y) = .ok s ∧
      (MT.Finished A T T s → s.y.size = y.size ∧
        ∀ i, i < A.psize → s.y.get i = mulVec A.ssize A.crs x.get i) := by
  have h0 : MT.Inv A x T T y.size (MT.init A T y) := by
    refine ⟨rfl, fun t ht => ⟨le_refl _, MT.part_le _ _ _, fun i h1 h2 => ?_⟩⟩
    simp only [MT.init] at h2; omega
  obtain ⟨s, h1, h2, h3⟩ := MT.run_inv hA x (by omega) (le_refl T) (by omega) sched _ h0
  refine ⟨s, h1, fun hf => ⟨h2, fun i hi => ?_⟩⟩
  obtain ⟨t, ht, ⟨h4, h5⟩, -⟩ := MT.part_unique A.psize T i hT hi
  exact (h3 t ht).2.2 i h4 (by rw [hf t ht]; exact h5)

/-- Consequently threaded and serial products agree for every schedule that finishes. -/
theorem C04_threaded_eq_serial (A : CS K) (hA : A.WF) (x y : Buf K) (hx : x.size = A.ssize)
    (hy : y.size = A.psize) (T : Nat) (hT : 0 < T) (sched : List Nat) (s : MT.St K)
    (hs : MT.run A x T T sched (MT.init A T y) = .ok s) (hf : MT.Finished A T T s) (y' : Buf K)
    (hser : A.crsMultiplyNt x y = .ok y') : ∀ i, i < A.psize → s.y.get i = y'.get i := by
  obtain ⟨s', h1, h2⟩ := C04_threaded_product A hA x y hx hy T hT sched
  rw [hs] at h1; cases h1
  obtain ⟨y'', h3, h4, h5⟩ := C01_crs_multiply A hA x y hx hy
  rw [hser] at h3; cases h3
  intro i hi
  rw [(h2 hf).2 i hi, h5 i hi]

/-- Non-vacuity: two schedules of two threads on a 2-row matrix both finish with the serial result. -/
example :
    (MT.run Ex.A23 (Buf.ofList [5, 7, 11]) 2 2 [1, 0, 1] (MT.init Ex.A23 2 (Buf.ofList [9, 9]))).map
      (fun s => (s.y.toList, s.pc 0, s.pc 1)) = .ok ([27, 21], 1, 2) ∧
    (MT.run Ex.A23 (Buf.ofList [5, 7, 11]) 2 2 [0, 0, 1] (MT.init Ex.A23 2 (Buf.ofList [9, 9]))).map
      (fun s => (s.y.toList, s.pc 0, s.pc 1)) = .ok ([27, 21], 1, 2) := by decide

/-- The hypothesis on the team size is needed: the partition uses the *requested* number of threads, so
if the OpenMP runtime delivers a smaller team (nested or limited parallelism) rows of the missing
threads are never computed. -/
theorem C04_small_team_witness : ∃ (A : CS ℤ) (x y : Buf ℤ) (sched : List Nat) (s : MT.St ℤ), A.WF ∧
    x.size = A.ssize ∧ y.size = A.psize ∧
    MT.run A x 2 1 sched (MT.init A 2 y) = .ok s ∧ MT.Finished A 2 1 s ∧
    ∃ i, i < A.psize ∧ s.y.get i ≠ mulVec A.ssize A.crs x.get i := by
  refine ⟨Ex.A23, Buf.ofList [5, 7, 11], Buf.ofList [9, 9], [0], _, Ex.A23_wf, rfl, rfl, rfl, ?_, 1,
    by decide, by decide⟩
  intro t ht
  have : t = 0 := by omega
  subst this; decide

end Hif.Props
