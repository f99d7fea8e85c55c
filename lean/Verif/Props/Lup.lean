import Verif.LupGetf2
import Verif.Props.QrcpEnd
import Mathlib.Analysis.Complex.Basic

set_option linter.unusedSectionVars false
set_option linter.unusedVariables false

/-!
# C77: the dense solver of the last block (LU with partial pivoting)

Contract of `?getrf`: `Lup.LuOK` (LupLemmas.lean); the textbook factorization meets it (`C77_getrf`).  `Spec.mulVec n A x` is `A x`, `Lup.transp A` the plain and
`Spec.herm A` the conjugate transpose, `colMajor n mat` the matrix stored in `mat`.
-/

namespace Hif
namespace Props
open Hif Spec Finset

variable {K R : Type} [Field K] [StarRing K] [DecidableEq K] [LinearOrder R]

/-- C77 (contract): the textbook factorization, with any magnitude that is smallest only at zero, provides what is assumed of `?getrf`. -/
theorem C77_getrf {nrm : K → R} (hn : ∀ x, nrm x ≤ nrm 0 → x = 0) {n : Nat} {mat : Buf K} (hm : mat.size = n * n) :
    Lup.LuOK n (colMajor n mat) (Lup.getf2 nrm n mat) := Lup.getf2_ok hn hm

variable {n : Nat} {mat : Buf K} {getrf : Nat → Buf K → Lup.LuOut K}

/-- The state after `factorize`. -/
theorem lup_factorize (hpos : 0 < n) (hm : mat.size = n * n) (hg : Lup.LuOK n (colMajor n mat) (getrf n mat)) (s₀ : Lup.St K) :
    Runs (Lup.factorize getrf (Lup.setMatrix s₀ n n mat)) fun s => Lup.Fac n (colMajor n mat) s ∧ s.backup = mat := by
  have h0 := hg.info0
  unfold Lup.factorize Lup.setMatrix
  simp only
  rw [if_neg (by omega), if_neg (by omega), if_neg (by omega)]
  split
  · rename_i h1
    simp only [runs_pure]
    refine ⟨⟨hpos, rfl, rfl, hm, fun i j _ _ => rfl, ?_, ?_⟩, trivial⟩
    · have e : (if (getrf n mat).info.toNat - 1 = n then (0 : Int) else (((getrf n mat).info.toNat - 1 : Nat) : Int) + 1) = (getrf n mat).info := by
        rw [if_neg (by omega)]; omega
      show Lup.LuOK n _ ⟨(getrf n mat).mat, (getrf n mat).ipiv, if (getrf n mat).info.toNat - 1 = n then (0 : Int) else (((getrf n mat).info.toNat - 1 : Nat) : Int) + 1⟩
      rw [e]; exact hg
    · show (getrf n mat).info.toNat - 1 ≤ n
      omega
  · rename_i h1
    simp only [runs_pure]
    refine ⟨⟨hpos, rfl, rfl, hm, fun i j _ _ => rfl, ?_, le_refl _⟩, trivial⟩
    show Lup.LuOK n _ ⟨(getrf n mat).mat, (getrf n mat).ipiv, if n = n then (0 : Int) else ((n : Nat) : Int) + 1⟩
    rw [if_pos rfl, show (0 : Int) = (getrf n mat).info by omega]
    exact hg

theorem lup_pivots {A : Nat → Nat → K} {s : Lup.St K} (h : Lup.Fac n A s) {i : Nat} (hi : i < s.rank) : Qrcp.upper n s.mat.get i i ≠ 0 := by
  have := h.rk
  by_cases hr : s.rank = n
  · exact h.lu.full (by show (if s.rank = n then (0 : Int) else (s.rank : Int) + 1) = 0; rw [if_pos hr]) i (by omega)
  · refine (h.lu.first (by show 0 < (if s.rank = n then (0 : Int) else (s.rank : Int) + 1); rw [if_neg hr]; omega)).2 i ?_
    show i < (if s.rank = n then (0 : Int) else (s.rank : Int) + 1).toNat - 1
    rw [if_neg hr]; omega

theorem lup_zero {A : Nat → Nat → K} {s : Lup.St K} (h : Lup.Fac n A s) (hr : s.rank < n) : Qrcp.upper n s.mat.get s.rank s.rank = 0 := by
  have := (h.lu.first (by show 0 < (if s.rank = n then (0 : Int) else (s.rank : Int) + 1); rw [if_neg (by omega)]; omega)).1
  have e : (if s.rank = n then (0 : Int) else (s.rank : Int) + 1).toNat - 1 = s.rank := by rw [if_neg (by omega)]; omega
  simp only [e] at this
  exact this

theorem lup_full {A : Nat → Nat → K} {s : Lup.St K} (h : Lup.Fac n A s) (hA : Injective n A) : s.rank = n := by
  by_contra hr
  have := h.rk
  obtain ⟨x, x1, x2, x3⟩ := h.lu.dep (m := s.rank) (by omega) (fun i hi => lup_pivots h hi) (lup_zero h (by omega))
  have h1 := hA x (fun _ => 0) (fun i hi => by rw [x3 i hi]; unfold mulVec; simp) s.rank (by omega)
  rw [x1] at h1
  exact one_ne_zero h1

theorem lup_inj {A : Nat → Nat → K} {s : Lup.St K} (h : Lup.Fac n A s) (hr : s.rank = n) : Injective n A := by
  intro x y hxy i hi
  have := h.lu.indep (m := n) (le_refl _) (fun i hi => lup_pivots h (by omega)) (fun i => x i - y i) (fun i h1 h2 => by omega) (fun i hi => by
    have h1 := hxy i hi
    unfold mulVec at *
    simp only [mul_sub, sum_sub_distrib]
    exact sub_eq_zero.2 h1) i hi
  exact sub_eq_zero.1 this

theorem lup_fullRank {A : Nat → Nat → K} {s : Lup.St K} (h : Lup.Fac n A s) : Lup.fullRank s = true ↔ s.rank = n := by
  have := h.pos
  unfold Lup.fullRank
  rw [h.nc]
  simp only [bne_iff_ne, ne_eq, Bool.and_eq_true, beq_iff_eq, Bool.not_eq_true', decide_eq_false_iff_not]
  constructor
  · exact fun h => h.2
  · exact fun h => ⟨by omega, h⟩

theorem lup_solve {A : Nat → Nat → K} {s : Lup.St K} (h : Lup.Fac n A s) (hr : s.rank = n) (b : Buf K) (hb : b.size = n) (r : Nat) (tran : Bool) :
    Runs (Lup.solve s b r tran) fun x => x.size = n ∧ ∀ i, i < n → mulVec n (if tran then Lup.transp A else A) x.get i = b.get i := by
  have hU : ∀ i, i < n → Qrcp.upper n s.mat.get i i ≠ 0 := fun i hi => lup_pivots h (by omega)
  unfold Lup.solve
  rw [hb, Lup.guarded_ok h, h.nr]
  have hpz : s.ipiv.size = n := h.lu.psz
  refine (Lup.getrs_runs tran h.lu.msz (by show n ≤ s.ipiv.size; omega) h.lu.piv hU 0 b (by omega)).mono ?_
  rintro x ⟨x1, x2, -⟩
  simp only [Nat.zero_add] at x2
  refine ⟨by omega, fun i hi => ?_⟩
  have e : mulVec n (if tran then Lup.transp A else A) x.get i = mulVec n (if tran then Lup.transp A else A) (Lup.sol tran n s.mat.get s.ipiv.get b.get) i := by
    unfold mulVec
    exact sum_congr rfl fun j hj => by rw [x2 j (mem_range.1 hj)]
  rw [e]
  cases tran
  · exact h.lu.sol_ok hU _ hi
  · exact h.lu.sol_tran hU _ hi

/-- C77 (solve): whatever the object held before, a nonsingular square matrix is factorized with full rank, and `solve` returns, for every right-hand side and every rank argument, the
solution of `A x = b`, with the transpose flag that of `Aᵀ x = b`. -/
theorem C77_solve (hpos : 0 < n) (hm : mat.size = n * n) (hg : Lup.LuOK n (colMajor n mat) (getrf n mat)) (hA : Injective n (colMajor n mat)) (s₀ : Lup.St K) :
    Runs (Lup.factorize getrf (Lup.setMatrix s₀ n n mat)) fun s => s.rank = n ∧ Lup.fullRank s = true ∧ ∀ (r : Nat) (b : Buf K), b.size = n →
      (Runs (Lup.solve s b r false) fun x => x.size = n ∧ ∀ i, i < n → mulVec n (colMajor n mat) x.get i = b.get i) ∧
      Runs (Lup.solve s b r true) fun x => x.size = n ∧ ∀ i, i < n → mulVec n (Lup.transp (colMajor n mat)) x.get i = b.get i := by
  refine (lup_factorize hpos hm hg s₀).mono ?_
  rintro s ⟨h, -⟩
  have hr := lup_full h hA
  exact ⟨hr, (lup_fullRank h).2 hr, fun r b hb => ⟨lup_solve h hr b hb r false, lup_solve h hr b hb r true⟩⟩

/-- C77 (rank): the reported rank is the number of leading columns before the first one that depends on its predecessors; `full_rank` says whether the matrix is nonsingular. -/
theorem C77_rank (hpos : 0 < n) (hm : mat.size = n * n) (hg : Lup.LuOK n (colMajor n mat) (getrf n mat)) (s₀ : Lup.St K) :
    Runs (Lup.factorize getrf (Lup.setMatrix s₀ n n mat)) fun s => s.rank ≤ n ∧
      (∀ x : Nat → K, (∀ i, s.rank ≤ i → i < n → x i = 0) → (∀ i, i < n → mulVec n (colMajor n mat) x i = 0) → ∀ i, i < n → x i = 0) ∧
      (s.rank < n → ∃ x : Nat → K, x s.rank = 1 ∧ (∀ i, s.rank < i → i < n → x i = 0) ∧ ∀ i, i < n → mulVec n (colMajor n mat) x i = 0) ∧
      (Lup.fullRank s = true ↔ Injective n (colMajor n mat)) := by
  refine (lup_factorize hpos hm hg s₀).mono ?_
  rintro s ⟨h, -⟩
  exact ⟨h.rk, fun x => h.lu.indep h.rk (fun i hi => lup_pivots h hi) x, fun hr => h.lu.dep hr (fun i hi => lup_pivots h hi) (lup_zero h hr),
    (lup_fullRank h).trans ⟨lup_inj h, lup_full h⟩⟩

/-- C77 (singular): a singular matrix is accepted (with rank below `n`), but every `solve` with it divides by zero, whatever rank is asked for. -/
theorem C77_singular (hpos : 0 < n) (hm : mat.size = n * n) (hg : Lup.LuOK n (colMajor n mat) (getrf n mat)) (hA : ¬ Injective n (colMajor n mat)) (s₀ : Lup.St K) :
    Runs (Lup.factorize getrf (Lup.setMatrix s₀ n n mat)) fun s => s.rank < n ∧ Lup.fullRank s = false ∧
      ∀ (r : Nat) (b : Buf K) (tran : Bool), b.size = n → Lup.solve s b r tran = .error (.ub "division by zero") := by
  refine (lup_factorize hpos hm hg s₀).mono ?_
  rintro s ⟨h, -⟩
  have hr : s.rank < n := lt_of_le_of_ne h.rk fun e => hA (lup_inj h e)
  have hU : ¬ ∀ i, i < n → Qrcp.upper n s.mat.get i i ≠ 0 := fun hU => hU _ hr (lup_zero h hr)
  have hpz : s.ipiv.size = n := h.lu.psz
  have hms : s.mat.size = n * n := h.lu.msz
  refine ⟨hr, ?_, fun r b tran hb => ?_⟩
  · cases hf : Lup.fullRank s
    · rfl
    · exact absurd ((lup_fullRank h).1 hf) (by omega)
  · have hsub : ∀ (t : Bool) (z : Buf K), z.size = n → Lup.luSub t n s.mat 0 z = .error (.ub "division by zero") := by
      intro t z hz
      unfold Lup.luSub
      rw [if_pos ⟨by omega, by omega⟩, if_neg hU]
      rfl
    unfold Lup.solve
    rw [hb, Lup.guarded_ok h, h.nr]
    unfold Lup.getrs
    cases tran
    · obtain ⟨z, ez, z1, -⟩ := Lup.laswp_runs (ipiv := s.ipiv) (by omega) h.lu.piv 0 b (by omega)
      simp only [Bool.false_eq_true, if_false]
      have ez : Lup.laswp n s.ipiv 0 b = .ok z := ez
      rw [ez]
      exact hsub false z (by omega)
    · simp only [if_true]
      rw [hsub true b hb]
      rfl

theorem lup_multiply {s : Lup.St K} (hnr : s.nrows = n) (hnc : s.ncols = n) (hb : s.backup = mat) (hm : mat.size = n * n) (x y : Buf K) (hx : x.size = n) (hy : y.size = n)
    (r : Nat) (tran : Bool) : Runs (Lup.multiply s x y r tran) fun z => z.size = n ∧
      ∀ i, i < n → z.get i = mulVec n (if tran then herm (colMajor n mat) else colMajor n mat) x.get i := by
  unfold Lup.multiply
  rw [if_neg (by omega), if_neg (by omega), hnr, hnc, hb]
  unfold Lup.gemv
  cases tran
  · simp only [Bool.false_eq_true, if_false]
    rw [if_pos ⟨by omega, by omega, by omega⟩]
    simp only [runs_pure]
    exact ⟨hy, fun i hi => if_pos hi⟩
  · simp only [if_true]
    rw [if_pos ⟨by omega, by omega, by omega⟩]
    simp only [runs_pure]
    exact ⟨hy, fun i hi => if_pos hi⟩

/-- C77 (multiply): once the matrix is set, before and after `factorize`, `multiply` returns `A x`, with the transpose flag `Aᴴ x`; the output vector's old contents do not matter. -/
theorem C77_multiply (hpos : 0 < n) (hm : mat.size = n * n) (hg : Lup.LuOK n (colMajor n mat) (getrf n mat)) (s₀ : Lup.St K) (r : Nat) (x y : Buf K) (hx : x.size = n)
    (hy : y.size = n) (tran : Bool) :
    (Runs (Lup.multiply (Lup.setMatrix s₀ n n mat) x y r tran) fun z => z.size = n ∧
      ∀ i, i < n → z.get i = mulVec n (if tran then herm (colMajor n mat) else colMajor n mat) x.get i) ∧
    Runs (Lup.factorize getrf (Lup.setMatrix s₀ n n mat)) fun s => Runs (Lup.multiply s x y r tran) fun z => z.size = n ∧
      ∀ i, i < n → z.get i = mulVec n (if tran then herm (colMajor n mat) else colMajor n mat) x.get i := by
  refine ⟨lup_multiply rfl rfl rfl hm x y hx hy r tran, (lup_factorize hpos hm hg s₀).mono ?_⟩
  rintro s ⟨h, hb⟩
  exact lup_multiply h.nr h.nc hb hm x y hx hy r tran

/-- C77 (round trip): solving what `multiply` returned gives back the vector; multiplying what `solve` returned gives back the right-hand side. -/
theorem C77_round_trip (hpos : 0 < n) (hm : mat.size = n * n) (hg : Lup.LuOK n (colMajor n mat) (getrf n mat)) (hA : Injective n (colMajor n mat)) (s₀ : Lup.St K) :
    Runs (Lup.factorize getrf (Lup.setMatrix s₀ n n mat)) fun s => ∀ (r r' : Nat) (x y : Buf K), x.size = n → y.size = n →
      (Runs (Lup.multiply s x y r false >>= fun z => Lup.solve s z r' false) fun w => w.size = n ∧ ∀ i, i < n → w.get i = x.get i) ∧
      Runs (Lup.solve s x r false >>= fun z => Lup.multiply s z y r' false) fun w => w.size = n ∧ ∀ i, i < n → w.get i = x.get i := by
  refine (lup_factorize hpos hm hg s₀).mono ?_
  rintro s ⟨h, hb⟩ r r' x y hx hy
  have hr := lup_full h hA
  simp only [runs_bind]
  constructor
  · refine (lup_multiply h.nr h.nc hb hm x y hx hy r false).mono ?_
    rintro z ⟨z1, z2⟩
    refine (lup_solve h hr z z1 r' false).mono ?_
    rintro w ⟨w1, w2⟩
    exact ⟨w1, hA _ _ fun i hi => (w2 i hi).trans (z2 i hi)⟩
  · refine (lup_solve h hr x hx r false).mono ?_
    rintro z ⟨z1, z2⟩
    refine (lup_multiply h.nr h.nc hb hm z y z1 hy r' false).mono ?_
    rintro w ⟨w1, w2⟩
    exact ⟨w1, fun i hi => (w2 i hi).trans (z2 i hi)⟩

/-- The expected behaviour with the transpose flag — that `solve` inverts `multiply` as it does without — holds for real matrices.  Partial: for complex ones it fails
(`C77_tran_complex`), because `solve` uses the plain and `multiply` the conjugate transpose. -/
theorem C77_adjoint_partial [TrivialStar K] (hpos : 0 < n) (hm : mat.size = n * n) (hg : Lup.LuOK n (colMajor n mat) (getrf n mat)) (hA : Injective n (colMajor n mat))
    (s₀ : Lup.St K) : Runs (Lup.factorize getrf (Lup.setMatrix s₀ n n mat)) fun s => ∀ r, Prec.DenseExact r n (colMajor n mat) (Lup.ops s) := by
  refine (lup_factorize hpos hm hg s₀).mono ?_
  rintro s ⟨h, hb⟩ r
  have hr := lup_full h hA
  have ht : Lup.transp (colMajor n mat) = herm (colMajor n mat) := by
    funext i j; unfold Lup.transp herm; exact (star_trivial _).symm
  refine ⟨fun y hy => lup_solve h hr y hy r false, fun y hy => ?_, fun y hy => lup_multiply h.nr h.nc hb hm y (Buf.mk' y.size 0) hy hy r false,
    fun y hy => lup_multiply h.nr h.nc hb hm y (Buf.mk' y.size 0) hy hy r true⟩
  have := lup_solve h hr y hy r true
  simp only [if_true] at this
  rw [← ht]
  exact this

/-- C77 (refactorize): it reproduces the state of the first factorization, from any factorized state. -/
theorem C77_refactorize (s₀ s : Lup.St K) (nr nc : Nat) (h : Lup.factorize getrf (Lup.setMatrix s₀ nr nc mat) = .ok s) : Lup.refactorize getrf s = .ok s := by
  unfold Lup.refactorize
  unfold Lup.factorize Lup.setMatrix at h
  simp only at h
  split at h
  · cases h
  split at h
  · cases h
  split at h
  · cases h
  unfold Lup.factorize
  split at h
  · cases h
    simp only
    rw [if_neg ‹_›, if_neg ‹_›, if_neg ‹_›, if_pos ‹_›]
    rfl
  · cases h
    simp only
    rw [if_neg ‹_›, if_neg ‹_›, if_neg ‹_›, if_neg ‹_›]
    rfl

/-- C77 (several right-hand sides): column `j` of the result is what `solve` returns for column `j` alone. -/
theorem C77_mrhs (hpos : 0 < n) (hm : mat.size = n * n) (hg : Lup.LuOK n (colMajor n mat) (getrf n mat)) (hA : Injective n (colMajor n mat)) (s₀ : Lup.St K) :
    Runs (Lup.factorize getrf (Lup.setMatrix s₀ n n mat)) fun s => ∀ (r N : Nat) (x : Buf K) (tran : Bool), 0 < N → x.size = n * N →
      Runs (Lup.solveMrhs s N x r tran) fun y => y.size = n * N ∧ ∀ j, j < N →
        Runs (Lup.solve s ⟨n, fun i => x.get (i * N + j)⟩ r tran) fun z => ∀ i, i < n → y.get (i * N + j) = z.get i := by
  refine (lup_factorize hpos hm hg s₀).mono ?_
  rintro s ⟨h, hb⟩ r N x tran hN hx
  have hr := lup_full h hA
  have hU : ∀ i, i < n → Qrcp.upper n s.mat.get i i ≠ 0 := fun i hi => lup_pivots h (by omega)
  have hpz : s.ipiv.size = n := h.lu.psz
  have := Qrcp.mrhs_runs (Lup.getrs_local tran h.lu.msz (by show n ≤ s.ipiv.size; omega) h.lu.piv hU) N x hx
  unfold Lup.solveMrhs Lup.solve
  rw [hx, Nat.mul_div_cancel _ hN, Lup.guarded_ok h, h.nr]
  refine this.mono ?_
  rintro y ⟨y1, y2⟩
  refine ⟨y1, fun j hj => ?_⟩
  rw [Lup.guarded_ok h]
  exact y2 j hj

/-- C77 (several right-hand sides, as the preconditioner calls it): every column of the result solves the system with the block. -/
theorem C77_ops_mrhs (hpos : 0 < n) (hm : mat.size = n * n) (hg : Lup.LuOK n (colMajor n mat) (getrf n mat)) (hA : Injective n (colMajor n mat)) (s₀ : Lup.St K) :
    Runs (Lup.factorize getrf (Lup.setMatrix s₀ n n mat)) fun s => ∀ (r N : Nat) (x : Buf K), 0 < N → x.size = n * N →
      Runs ((Lup.ops s).solveMrhs N x r) fun y => y.size = n * N ∧ ∀ j i, j < N → i < n → mulVec n (colMajor n mat) (fun c => y.get (c * N + j)) i = x.get (i * N + j) := by
  obtain ⟨s, e, h1⟩ := C77_mrhs hpos hm hg hA s₀
  obtain ⟨s', e', -, -, h2⟩ := C77_solve hpos hm hg hA s₀
  rw [e] at e'
  cases e'
  refine ⟨s, e, fun r N x hN hx => (h1 r N x false hN hx).mono ?_⟩
  rintro y ⟨y1, y2⟩
  refine ⟨y1, fun j i hj hi => ?_⟩
  obtain ⟨z, ez, hz⟩ := y2 j hj
  obtain ⟨z', ez', -, hz'⟩ := (h2 r ⟨n, fun i => x.get (i * N + j)⟩ rfl).1
  rw [ez] at ez'
  cases ez'
  rw [← hz' i hi]
  exact Finset.sum_congr rfl fun c hc => by beta_reduce; rw [hz c (Finset.mem_range.1 hc)]

/-- C77 (refused calls): without a matrix or with a non-square one `factorize` throws; `solve` throws if nothing was ever factorized or if the size does not match; `multiply` throws
if the sizes do not match. -/
theorem C77_refused (s : Lup.St K) :
    (s.nrows = 0 ∨ s.ncols = 0 → ∃ m, Lup.factorize getrf s = .error (.hif m)) ∧ (s.nrows ≠ s.ncols → ∃ m, Lup.factorize getrf s = .error (.hif m)) ∧
    (∀ b r tran, s.ipiv.size = 0 ∨ b.size ≠ s.nrows → ∃ m, Lup.solve s b r tran = .error (.hif m)) ∧
    ∀ x y r tran, x.size ≠ s.nrows ∨ x.size ≠ y.size → ∃ m, Lup.multiply s x y r tran = .error (.hif m) := by
  refine ⟨fun h => ?_, fun h => ?_, fun b r tran h => ?_, fun x y r tran h => ?_⟩
  · unfold Lup.factorize; rw [if_pos h]; exact ⟨_, rfl⟩
  · unfold Lup.factorize
    split
    · exact ⟨_, rfl⟩
    · exact ⟨_, rfl⟩
  · unfold Lup.solve Lup.guarded
    split
    · exact ⟨_, rfl⟩
    · rw [if_pos (by omega)]; exact ⟨_, rfl⟩
  · unfold Lup.multiply
    split
    · exact ⟨_, rfl⟩
    · rw [if_pos (by omega)]; exact ⟨_, rfl⟩

end Props
end Hif
