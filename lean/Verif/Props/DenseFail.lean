import Verif.Props.SyEigEnd
import Verif.Props.SymmEx

set_option linter.unusedSectionVars false
set_option linter.unusedVariables false

/-!
# C83: what happens if LAPACK fails in the last block

Nothing is assumed here about the numbers LAPACK computes; only that it does not change the size of the array it overwrites.  `BlockArray rowMajor S d`: the array `d`
passed to LAPACK is the dense form of the sparse block `S`, column by column.
-/

namespace Hif
namespace Props
open Hif Level Spec HIF HM Finset

/-- `d` is the dense form of `S`, column by column. -/
def BlockArray {K : Type} [Field K] (rowMajor : Bool) (S : CS K) (d : Buf K) : Prop :=
  d.size = S.psize * S.psize ∧ ∀ i j, i < S.psize → j < S.psize → d.get (i + j * S.psize) = mat rowMajor S i j

section
variable {K R : Type} [Field K] [StarRing K] [DecidableEq K] [Inhabited K] [Field R] [LinearOrder R] [IsStrictOrderedRing R] [FloorSemiring R]

theorem block_array (rowMajor : Bool) {S : CS K} (hw : S.WF) (hs : S.Sorted) (hsq : S.ssize = S.psize) :
    Runs (if rowMajor then S.denseFromCRS else S.denseFromCCS) (BlockArray rowMajor S) := by
  have hdist : ∀ i, i < S.psize → ∀ k l, S.start.get i ≤ k → k < l → l < S.start.get (i + 1) → S.inds.get k ≠ S.inds.get l := by
    intro i hi k l h1 h2 h3
    have := hs i hi k l ⟨h1, by omega⟩ ⟨by omega, h3⟩ h2
    omega
  cases rowMajor
  · simp only [Bool.false_eq_true, if_false]
    refine (CS.denseFromCCS_runs hw hdist).mono ?_
    rintro d ⟨d1, d2⟩
    rw [hsq] at d1 d2
    exact ⟨d1, fun i j hi hj => d2 j hj i hi⟩
  · simp only [if_true]
    refine (CS.denseFromCRS_runs hw hdist).mono ?_
    rintro d ⟨d1, d2⟩
    rw [hsq] at d1 d2
    exact ⟨d1, fun i j hi hj => d2 i hi j hj⟩

/-! ### QRCP -/

theorem estRank_safe {env : Qrcp.Env K R} (s : Qrcp.St K) (n : Nat) (hn : s.nrows = n) (hm : s.mat.size = n * n) :
    ∀ k rk (e : Qrcp.Est K R), rk + k = n → e.x.size = n → e.y.size = n → Runs (Qrcp.estRank env s k rk e) fun r => r ≤ n := by
  intro k
  induction k with
  | zero =>
    intro rk e h1 _ _
    rw [Qrcp.estRank, runs_pure]
    omega
  | succ k ih =>
    intro rk e h1 h2 h3
    have b : (rk + 1) * n ≤ n * n := Nat.mul_le_mul_right _ (by omega)
    rw [Nat.add_mul, Nat.one_mul] at b
    rw [Qrcp.estRank, runs_bind]
    unfold Qrcp.St.at
    rw [runs_rd, hn]
    refine ⟨by omega, ?_⟩
    rw [if_pos (by omega)]
    dsimp only
    split
    · rw [runs_bind]
      unfold Qrcp.accept
      rw [runs_bind]
      refine forUp_runs' (fun _ (x : Buf K) => x.size = n) (Nat.zero_le _) h2 ?_ ?_
      · intro i x _ hi hx
        simp only [runs_bind, runs_rd, runs_wr, Buf.set_size]
        exact ⟨by omega, by omega, hx⟩
      intro x hx
      rw [runs_bind]
      refine forUp_runs' (fun _ (x : Buf K) => x.size = n) (Nat.zero_le _) h3 ?_ ?_
      · intro i x _ hi hx
        simp only [runs_bind, runs_rd, runs_wr, Buf.set_size]
        exact ⟨by omega, by omega, hx⟩
      intro y hy
      simp only [runs_bind, runs_wr, runs_pure]
      exact ⟨by omega, by omega, ih (rk + 1) _ (by omega) hx hy⟩
    · rw [runs_pure]
      omega

theorem qrcp_safe {env : Qrcp.Env K R} {n : Nat} (hpos : 0 < n) (m : Buf K) (hsz : (env.geqp3 n n m).mat.size = n * n) (hi : 0 ≤ (env.geqp3 n n m).info) :
    Runs (Qrcp.factorize env n n m) fun s => s.nrows = n ∧ s.ncols = n ∧ s.rank ≤ n := by
  have hnn : 0 < n * n := Nat.mul_pos hpos hpos
  unfold Qrcp.factorize
  rw [if_neg (by omega), if_neg (by omega)]
  simp only
  rw [if_neg (by omega), runs_bind, runs_rd]
  refine ⟨by rw [hsz]; exact hnn, ?_⟩
  rw [runs_bind, Nat.min_self]
  refine (Qrcp.smallDiag_runs env.nrm _ _ n rfl hsz n (le_refl _)).mono ?_
  rintro small -
  split
  · rw [runs_bind]
    unfold Qrcp.estRank2 Qrcp.St.at
    simp only [runs_bind, runs_rd, runs_wr]
    refine ⟨by rw [hsz]; omega, by show 0 < n; omega, by show 0 < n; omega, ?_⟩
    refine (estRank_safe _ n rfl hsz n 0 ⟨_, _, _, _⟩ (by omega) rfl rfl).mono fun r hr => ?_
    rw [runs_pure]
    exact ⟨rfl, rfl, hr⟩
  · rw [runs_pure]
    exact ⟨rfl, rfl, le_refl _⟩

/-- **C83 (QRCP)**: for every square block: if `?geqp3` reports a failure the dense step raises the exception about it; otherwise — whatever numbers were returned — it
completes, with a rank of at most the size of the block. -/
theorem C83_qrcp (env : Qrcp.Env K R) (rowMajor symm : Bool) {S : CS K} (hw : S.WF) (hs : S.Sorted) (hsq : S.ssize = S.psize) (hpos : 0 < S.psize)
    (hsz : ∀ d : Buf K, d.size = S.psize * S.psize → (env.geqp3 S.psize S.psize d).mat.size = S.psize * S.psize) :
    ∃ d, BlockArray rowMajor S d ∧
      ((env.geqp3 S.psize S.psize d).info < 0 → (Qrcp.dense env rowMajor symm S).2 = some (.hif "GEQP3 returned negative info")) ∧
      (0 ≤ (env.geqp3 S.psize S.psize d).info → (Qrcp.dense env rowMajor symm S).2 = none ∧ (Qrcp.dense env rowMajor symm S).1.rank ≤ S.psize) := by
  obtain ⟨d, ed, hd⟩ := block_array rowMajor hw hs hsq
  refine ⟨d, hd, fun hi => ?_, fun hi => ?_⟩
  · unfold Qrcp.dense
    rw [ed, hsq]
    simp only [ite_self]
    dsimp only [bind, Except.bind]
    unfold Qrcp.factorize
    rw [if_neg (by omega), if_neg (by omega)]
    simp only
    rw [if_pos hi]
    rfl
  · obtain ⟨s, es, -, -, hr⟩ := qrcp_safe hpos d (hsz d hd.1) hi
    unfold Qrcp.dense
    rw [ed, hsq]
    simp only [ite_self]
    dsimp only [bind, Except.bind]
    rw [es]
    exact ⟨rfl, hr⟩

/-! ### LUP -/

/-- **C83 (LUP)**: `?getrf` with a negative `info` raises the exception; otherwise — also if a pivot is zero — the dense step completes. -/
theorem C83_lup (junk : Nat → K) (getrf : Nat → Buf K → Lup.LuOut K) (rowMajor symm : Bool) {S : CS K} (hw : S.WF) (hs : S.Sorted) (hsq : S.ssize = S.psize) (hpos : 0 < S.psize) :
    ∃ d, BlockArray rowMajor S d ∧
      ((getrf S.psize d).info < 0 → (Lup.dense junk getrf rowMajor symm S).2 = some (.hif "GETRF returned negative info!")) ∧
      (0 ≤ (getrf S.psize d).info → (Lup.dense junk getrf rowMajor symm S).2 = none ∧
        (Lup.dense junk getrf rowMajor symm S).1.rank = if 0 < (getrf S.psize d).info then (getrf S.psize d).info.toNat - 1 else S.psize) := by
  obtain ⟨d, ed, hd⟩ := block_array rowMajor hw hs hsq
  refine ⟨d, hd, fun hi => ?_, fun hi => ?_⟩
  all_goals
    unfold Lup.dense
    rw [ed, hsq]
    simp only [ite_self]
    dsimp only [bind, Except.bind]
    unfold Lup.factorize Lup.setMatrix
    simp only
    rw [if_neg (by omega), if_neg (by omega)]
  · rw [if_pos hi]
    rfl
  · rw [if_neg (by omega)]
    by_cases h0 : 0 < (getrf S.psize d).info
    · rw [if_pos h0, if_pos h0]
      exact ⟨rfl, rfl⟩
    · rw [if_neg h0, if_neg h0]
      exact ⟨rfl, rfl⟩

/-! ### SYEIG -/

/-- **C83 (SYEIG)**: every nonzero `info` of `?syev` raises an exception; with `info = 0` — whatever numbers were returned — the dense step completes, with a rank of at
most the size of the block. -/
theorem C83_syeig (c : R → K) (spd : Int) (eps : R) {srt : (Nat → R) → Buf Nat → Buf Nat} (hsrt : SortDesc srt) (syev : Nat → Buf K → Buf R × Buf K × Int) (lwork : Nat → Nat)
    (rowMajor symm : Bool) {S : CS K} (hw : S.WF) (hs : S.Sorted) (hsq : S.ssize = S.psize) (hpos : 0 < S.psize) :
    ∃ d, BlockArray rowMajor S d ∧
      (0 < (syev S.psize d).2.2 → (SyEig.dense c spd eps srt syev lwork rowMajor symm S).2 = some (.hif "?syev failed to converge")) ∧
      ((syev S.psize d).2.2 < 0 → (SyEig.dense c spd eps srt syev lwork rowMajor symm S).2 = some (.hif "?syev's arg is illegal")) ∧
      ((syev S.psize d).2.2 = 0 → (SyEig.dense c spd eps srt syev lwork rowMajor symm S).2 = none ∧
        (SyEig.dense c spd eps srt syev lwork rowMajor symm S).1.rank ≤ S.psize) := by
  obtain ⟨d, ed, hd⟩ := block_array rowMajor hw hs hsq
  refine ⟨d, hd, fun hi => ?_, fun hi => ?_, fun hi => ?_⟩
  all_goals
    unfold SyEig.dense
    rw [ed, hsq]
    simp only [ite_self]
    dsimp only [bind, Except.bind]
    unfold SyEig.factorize
    simp only
    rw [if_neg (by omega), if_neg (by omega)]
  · rw [if_pos hi]
    rfl
  · rw [if_neg (by omega), if_pos hi]
    rfl
  · rw [if_neg (by omega), if_neg (by omega)]
    obtain ⟨t, et, -, h2, -⟩ := truncate_order spd eps hsrt { (syev S.psize d).1 with size := S.psize } hpos
    rw [et]
    exact ⟨rfl, h2⟩

end

section whole
variable {K R : Type} [Field K] [StarRing K] [DecidableEq K] [Inhabited K] [Field R] [LinearOrder R] [IsStrictOrderedRing R] [FloorSemiring R]

/-- **C83 (whole factorization)**: for every valid square matrix — singular or not —, all parameters, every history of the object, and whatever LAPACK returns, `factorize`
completes, or it raises the exception about the failure of LAPACK and there is a block on which LAPACK reported a failure.  If it completes, LAPACK reported success on the block `S` left
to it, if there is one. -/
theorem C83_factorize_qrcp (e : Level.Env K R) (o : Level.Opts R) (hc : LevelContract e o) (other : Kernels K) (junk : Nat → K) (ijunk : Nat → Int)
    (opts : FacOpts) (hsy : opts.isSymm = false) (A : Input K) (raw : RawCS) (n : Nat) (hA : ValidSquare A ijunk raw n) (hsz : SizesOK e n)
    (env : Qrcp.Env K R) (hg : ∀ k, ∀ d : Buf K, d.size = k * k → (env.geqp3 k k d).mat.size = k * k)
    (hdense : other.dense = Qrcp.dense env A.rowMajor) (h : HIF K) :
    (∃ h' S, factorize junk ijunk (kernels e o (opts.pivot == .auto) A.rowMajor other) opts A 0 h = (h', .ok ()) ∧ S.psize ≤ n ∧
      (0 < S.psize → ∃ d, BlockArray A.rowMajor S d ∧ 0 ≤ (env.geqp3 S.psize S.psize d).info) ∧
      ∀ rk, (0 < S.psize → Prec.DenseExact rk S.psize (mat A.rowMajor S) (other.dense false S).1) → Prec.Good rk (mat A.rowMajor S) S.psize h'.precs n) ∨
    (∃ h' S d, factorize junk ijunk (kernels e o (opts.pivot == .auto) A.rowMajor other) opts A 0 h = (h', .error (.hif "GEQP3 returned negative info")) ∧
      0 < S.psize ∧ S.psize ≤ n ∧ BlockArray A.rowMajor S d ∧ (env.geqp3 S.psize S.psize d).info < 0) := by
  rcases C63_factorize e o hc other junk ijunk opts hsy A raw n hA hsz (fun S w1 w2 w3 w4 => by
      rw [hdense]
      obtain ⟨d, -, k1, k2⟩ := C83_qrcp env A.rowMajor false w1 w2 w3 w4 (hg _)
      by_cases hi : (env.geqp3 S.psize S.psize d).info < 0
      · exact Or.inl ⟨_, k1 hi⟩
      · exact Or.inr (k2 (by omega)).1) h with ⟨h', S, r1, r2, r3, r4⟩ | ⟨h', msg, S, r1, r2, r3, r4, r5, r6, r7⟩
  · refine Or.inl ⟨h', S, r1, r2, fun h0 => ?_, r4⟩
    obtain ⟨w1, w2, w3, w4⟩ := r3 h0
    obtain ⟨d, hd, k1, k2⟩ := C83_qrcp env A.rowMajor false w1 w2 w3 h0 (hg _)
    refine ⟨d, hd, ?_⟩
    by_contra hi
    rw [hdense, k1 (by omega)] at w4
    cases w4
  · obtain ⟨d, hd, k1, k2⟩ := C83_qrcp env A.rowMajor false r4 r5 r6 r2 (hg _)
    rw [hdense] at r7
    have hi : (env.geqp3 S.psize S.psize d).info < 0 := by
      by_contra hi
      rw [(k2 (by omega)).1] at r7
      cases r7
    rw [k1 hi] at r7
    cases r7
    exact Or.inr ⟨h', S, d, r1, r2, r3, hd, hi⟩

/-- C83: with a `?geqp3` that never reports a failure, every valid square matrix — singular or not — can be factorized. -/
theorem C83_completes_qrcp (e : Level.Env K R) (o : Level.Opts R) (hc : LevelContract e o) (other : Kernels K) (junk : Nat → K) (ijunk : Nat → Int)
    (opts : FacOpts) (hsy : opts.isSymm = false) (A : Input K) (raw : RawCS) (n : Nat) (hA : ValidSquare A ijunk raw n) (hsz : SizesOK e n)
    (env : Qrcp.Env K R) (hg : ∀ k, ∀ d : Buf K, d.size = k * k → (env.geqp3 k k d).mat.size = k * k ∧ 0 ≤ (env.geqp3 k k d).info)
    (hdense : other.dense = Qrcp.dense env A.rowMajor) (h : HIF K) :
    ∃ h', factorize junk ijunk (kernels e o (opts.pivot == .auto) A.rowMajor other) opts A 0 h = (h', .ok ()) := by
  rcases C83_factorize_qrcp e o hc other junk ijunk opts hsy A raw n hA hsz env (fun k d hd => (hg k d hd).1) hdense h with ⟨h', S, r, -⟩ | ⟨h', S, d, r1, r2, r3, r4, r5⟩
  · exact ⟨h', r⟩
  · have := (hg _ d r4.1).2
    omega

/-- **C83 (whole factorization, LUP)**: as `C83_factorize_qrcp`, with the other dense solver. -/
theorem C83_factorize_lup (e : Level.Env K R) (o : Level.Opts R) (hc : LevelContract e o) (other : Kernels K) (junk : Nat → K) (ijunk : Nat → Int)
    (opts : FacOpts) (hsy : opts.isSymm = false) (A : Input K) (raw : RawCS) (n : Nat) (hA : ValidSquare A ijunk raw n) (hsz : SizesOK e n)
    (getrf : Nat → Buf K → Lup.LuOut K) (hdense : other.dense = Lup.dense junk getrf A.rowMajor) (h : HIF K) :
    (∃ h' S, factorize junk ijunk (kernels e o (opts.pivot == .auto) A.rowMajor other) opts A 0 h = (h', .ok ()) ∧ S.psize ≤ n ∧
      (0 < S.psize → ∃ d, BlockArray A.rowMajor S d ∧ 0 ≤ (getrf S.psize d).info) ∧
      ∀ rk, (0 < S.psize → Prec.DenseExact rk S.psize (mat A.rowMajor S) (other.dense false S).1) → Prec.Good rk (mat A.rowMajor S) S.psize h'.precs n) ∨
    (∃ h' S d, factorize junk ijunk (kernels e o (opts.pivot == .auto) A.rowMajor other) opts A 0 h = (h', .error (.hif "GETRF returned negative info!")) ∧
      0 < S.psize ∧ S.psize ≤ n ∧ BlockArray A.rowMajor S d ∧ (getrf S.psize d).info < 0) := by
  rcases C63_factorize e o hc other junk ijunk opts hsy A raw n hA hsz (fun S w1 w2 w3 w4 => by
      rw [hdense]
      obtain ⟨d, -, k1, k2⟩ := C83_lup junk getrf A.rowMajor false w1 w2 w3 w4
      by_cases hi : (getrf S.psize d).info < 0
      · exact Or.inl ⟨_, k1 hi⟩
      · exact Or.inr (k2 (by omega)).1) h with ⟨h', S, r1, r2, r3, r4⟩ | ⟨h', msg, S, r1, r2, r3, r4, r5, r6, r7⟩
  · refine Or.inl ⟨h', S, r1, r2, fun h0 => ?_, r4⟩
    obtain ⟨w1, w2, w3, w4⟩ := r3 h0
    obtain ⟨d, hd, k1, k2⟩ := C83_lup junk getrf A.rowMajor false w1 w2 w3 h0
    refine ⟨d, hd, ?_⟩
    by_contra hi
    rw [hdense, k1 (by omega)] at w4
    cases w4
  · obtain ⟨d, hd, k1, k2⟩ := C83_lup junk getrf A.rowMajor false r4 r5 r6 r2
    rw [hdense] at r7
    have hi : (getrf S.psize d).info < 0 := by
      by_contra hi
      rw [(k2 (by omega)).1] at r7
      cases r7
    rw [k1 hi] at r7
    cases r7
    exact Or.inr ⟨h', S, d, r1, r2, r3, hd, hi⟩

/-- **C83 (whole factorization, symmetric)**: as `C83_factorize_qrcp`, for the symmetric driver with SYEIG. -/
theorem C83_factorize_syeig [TrivialStar K] (e : Env K R) (o : Level.Opts R) (hc : SymmContract e o) (x : SymmPar K R) (other : Kernels K) (junk : Nat → K) (ijunk : Nat → Int)
    (opts : FacOpts) (hsy : opts.isSymm = true) (A : Input K) (raw : RawCS) (n : Nat) (hA : ValidSquare A ijunk raw n)
    (hsym : SymMat n (mat A.rowMajor (raw.toCS n A.vals))) (hpat : (raw.toCS n A.vals).PatSym) (hsz : SizesOK e n)
    (c : R → K) (eps : R) (srt : (Nat → R) → Buf Nat → Buf Nat) (hsrt : SortDesc srt) (syev : Nat → Buf K → Buf R × Buf K × Int) (lwork : Nat → Nat)
    (hdense : other.dense = SyEig.dense c x.spd eps srt syev lwork A.rowMajor) (h : HIF K) :
    (∃ h' S, factorize junk ijunk (allKernels e o x (opts.pivot == .auto) A.rowMajor other) opts A 0 h = (h', .ok ()) ∧ S.psize ≤ n ∧
      (0 < S.psize → ∃ d, BlockArray A.rowMajor S d ∧ (syev S.psize d).2.2 = 0) ∧
      ∀ rk, (0 < S.psize → SymDenseExact rk S.psize (mat A.rowMajor S) (other.dense true S).1) → Prec.Good rk (mat A.rowMajor S) S.psize h'.precs n) ∨
    (∃ h' msg S d, factorize junk ijunk (allKernels e o x (opts.pivot == .auto) A.rowMajor other) opts A 0 h = (h', .error (.hif msg)) ∧
      msg = (if 0 < (syev S.psize d).2.2 then "?syev failed to converge" else "?syev's arg is illegal") ∧
      0 < S.psize ∧ S.psize ≤ n ∧ BlockArray A.rowMajor S d ∧ (syev S.psize d).2.2 ≠ 0) := by
  rcases C70_factorize e o hc x other junk ijunk opts hsy A raw n hA hsym hpat hsz (fun S w1 w4 => by
      rw [hdense]
      obtain ⟨d, -, k1, k2, k3⟩ := C83_syeig c x.spd eps hsrt syev lwork A.rowMajor true w1.wf w1.sorted w1.sq w4
      rcases lt_trichotomy (syev S.psize d).2.2 0 with hi | hi | hi
      · exact Or.inl ⟨_, k2 hi⟩
      · exact Or.inr (k3 hi).1
      · exact Or.inl ⟨_, k1 hi⟩) h with ⟨h', S, r1, r2, -, r3, r4⟩ | ⟨h', msg, S, r1, r2, r3, r4, r7⟩
  · refine Or.inl ⟨h', S, r1, r2, fun h0 => ?_, r4⟩
    obtain ⟨w1, w4⟩ := r3 h0
    obtain ⟨d, hd, k1, k2, k3⟩ := C83_syeig c x.spd eps hsrt syev lwork A.rowMajor true w1.wf w1.sorted w1.sq h0
    refine ⟨d, hd, ?_⟩
    rw [hdense] at w4
    rcases lt_trichotomy (syev S.psize d).2.2 0 with hi | hi | hi
    · rw [k2 hi] at w4
      cases w4
    · exact hi
    · rw [k1 hi] at w4
      cases w4
  · obtain ⟨d, hd, k1, k2, k3⟩ := C83_syeig c x.spd eps hsrt syev lwork A.rowMajor true r4.wf r4.sorted r4.sq r2
    rw [hdense] at r7
    rcases lt_trichotomy (syev S.psize d).2.2 0 with hi | hi | hi
    · rw [k2 hi] at r7
      cases r7
      exact Or.inr ⟨h', _, S, d, r1, by rw [if_neg (by omega)], r2, r3, hd, by omega⟩
    · rw [(k3 hi).1] at r7
      cases r7
    · rw [k1 hi] at r7
      cases r7
      exact Or.inr ⟨h', _, S, d, r1, by rw [if_pos hi], r2, r3, hd, by omega⟩

end whole

namespace ExFail

/-- A `?geqp3` that returns its input, useless tables and the given `info`. -/
def env (info : Int) : Qrcp.Env ℚ ℚ :=
  { nrm := fun x => |x|, geqp3 := fun n _ m => ⟨m, ⟨n, fun i => i + 1⟩, ⟨n, fun _ => 0⟩, info⟩, laic1 := fun _ _ _ e _ _ => (e, 1, 0), diagTol := 1 / 1000, condThres := 1000 }

/-- Non-vacuity: the block is `[[2,0,1],[0,4,1],[1,1,0]]`; a failure of any of the three LAPACK routines surfaces, a success does not raise. -/
example : (Qrcp.dense (env (-3)) true false ExLevel.A3).2 = some (.hif "GEQP3 returned negative info") ∧ (Qrcp.dense (env 0) true false ExLevel.A3).2 = none ∧
    (Lup.dense (fun _ => 0) (fun n m => ⟨m, ⟨n, fun i => i + 1⟩, -1⟩) true false ExLevel.A3).2 = some (.hif "GETRF returned negative info!") ∧
    (Lup.dense (fun _ => 0) (fun n m => ⟨m, ⟨n, fun i => i + 1⟩, 2⟩) true false ExLevel.A3).2 = none ∧
    (SyEig.dense (id : ℚ → ℚ) 0 0 ExEig.srt (fun n m => (⟨n, fun _ => 0⟩, m, 1)) (fun n => n) true true ExLevel.A3).2 = some (.hif "?syev failed to converge") ∧
    (SyEig.dense (id : ℚ → ℚ) 0 0 ExEig.srt (fun n m => (⟨n, fun _ => 0⟩, m, 0)) (fun n => n) true true ExLevel.A3).2 = none := by
  decide +kernel

/-- `[[1,1],[1,1]]`, singular. -/
def in2 : Input ℚ :=
  { raw := RawCS.mk false 2 (Buf.ofList [0, 2, 4]) (Buf.ofList [0, 1, 0, 1]) 4, other := 2, vals := Buf.ofList [1, 1, 1, 1], rowMajor := true }

/-- Non-vacuity of `C83_completes_qrcp`: a singular matrix. -/
example (junk : Nat → ℚ) (pv : Pivoting) (h : HIF ℚ) :
    ∃ h', factorize junk (fun _ => 0) (kernels ExLevel.env ExLevel.opts (pv == .auto) true ⟨fun _ _ _ _ _ => throw (.ub "not used"), Qrcp.dense (env 0) true⟩)
      ⟨pv, false, -1, true⟩ in2 0 h = (h', .ok ()) :=
  C83_completes_qrcp ExLevel.env ExLevel.opts ExLevel.contract ⟨fun _ _ _ _ _ => throw (.ub "not used"), Qrcp.dense (env 0) true⟩ junk (fun _ => 0) ⟨pv, false, -1, true⟩ rfl in2 in2.raw 2
    ⟨rfl, C09_accepted_valid_partial _ _ rfl rfl (by decide), rfl, rfl, rfl, rfl, by decide, rfl, by decide⟩ (ExLevel.sizes 2 (by decide)) (env 0)
    (fun _ _ hd => ⟨hd, le_refl _⟩) rfl h

end ExFail
end Props
end Hif
