import Verif.SizesFac

set_option linter.unusedSectionVars false
set_option linter.unusedVariables false

/-!
# C86: the reference sizes of a factorization and the memory of its triangular factors
-/

namespace Hif
namespace Props
open Finset Spec HIF HM Level

variable {K R : Type} [Field K] [StarRing K] [DecidableEq K] [Inhabited K] [Field R] [LinearOrder R] [IsStrictOrderedRing R] [FloorSemiring R]

/-- `factorize` with its sizes, from the beginning. -/
theorem sizedFactorize_of {A : Input K} {ijunk : Nat → Int} {raw : RawCS} {n : Nat} (h : ValidSquare A ijunk raw n) (junk : Nat → K) (ker : Sizes → Kernels K)
    (init : CS K → M Sizes) (next : Sizes → Prec K → M Sizes) (opts : FacOpts) (m0 : Nat) (h0 : HIF K) :
    sizedFactorize junk ijunk ker init next opts A m0 h0 = sizedKernel ker init next opts (2 * n + 2) (raw.toCS n A.vals) m0 false ⟨Buf.mk' 0 0, Buf.mk' 0 0⟩
      { h0 with nrows := A.nrows, ncols := A.ncols, precs := [], work := if h0.empty then h0.work else ⟨0, junk⟩, stats := fun _ => 0 } := by
  unfold sizedFactorize
  rw [bind_ok (h' := { h0 with nrows := A.nrows, ncols := A.ncols, precs := [], work := if h0.empty then h0.work else ⟨0, junk⟩, stats := fun _ => 0 }) (a := ()) rfl]
  rw [bind_ok (h' := { h0 with nrows := A.nrows, ncols := A.ncols, precs := [], work := if h0.empty then h0.work else ⟨0, junk⟩, stats := fun _ => 0 }) (a := raw)
    (by unfold HM.lift; rw [h.zero])]
  have hv : (if opts.check then raw.checkValidity A.other else pure () : M Unit) = .ok () := by
    split
    · rw [h.other]; exact C09_valid_accepted raw n h.valid (by rw [h.start, h.dim])
    · rfl
  rw [hv, bind_ok (h' := { h0 with nrows := A.nrows, ncols := A.ncols, precs := [], work := if h0.empty then h0.work else ⟨0, junk⟩, stats := fun _ => 0 }) (a := ()) rfl]
  rw [h.dim', h.other]

/-- The kernels of the driver that carries its sizes along. -/
abbrev sizedKernels (e : Env K R) (o : Level.Opts R) (x : SymmPar K R) (auto rowMajor : Bool) (dense : Bool → CS K → DenseOps K × Option Err) : Sizes → Kernels K :=
  fun z => fullKernels (e.with z) o x auto rowMajor dense

/-- The kernels of `C63` for given sizes. -/
abbrev givenKernels (e : Env K R) (o : Level.Opts R) (x : SymmPar K R) (auto rowMajor : Bool) (dense : Bool → CS K → DenseOps K × Option Err) (Z : Nat → Sizes) :
    Kernels K :=
  kernels (e.atLevels Z) o auto rowMajor
    { level := fun kind lvl => (fullKernels (e.with (Z lvl)) o x auto rowMajor dense).level kind lvl, dense := dense }

theorem givenKernels_eq (e : Env K R) (o : Level.Opts R) (x : SymmPar K R) (auto rowMajor : Bool) (dense : Bool → CS K → DenseOps K × Option Err) (Z : Nat → Sizes) (d : Sizes) :
    atLevels (sizedKernels e o x auto rowMajor dense) Z d = givenKernels e o x auto rowMajor dense Z := by
  have h : (atLevels (sizedKernels e o x auto rowMajor dense) Z d).level = (givenKernels e o x auto rowMajor dense Z).level := ?_
  · exact congrArg (fun l => (⟨l, dense⟩ : Kernels K)) h
  funext kind lvl N m0 A
  rcases kind with b | _ | _
  · cases b <;> rfl
  · rfl
  · rfl

/-! ### the contents of the arrays -/

theorem init_content {A : Input K} {ijunk : Nat → Int} {raw : RawCS} {n : Nat} (hA : ValidSquare A ijunk raw n) {z : Sizes}
    (hz : Sizes.init false A.rowMajor (raw.toCS n A.vals) = .ok z) : ∃ C, (raw.toCS n A.vals).convert = .ok C ∧
      Initial (if A.rowMajor then raw.toCS n A.vals else C) n A.vals.size z.rows ∧ Initial (if A.rowMajor then C else raw.toCS n A.vals) n A.vals.size z.cols := by
  obtain ⟨hw, hs⟩ := C09_valid_wf raw n hA.valid A.vals hA.vsize
  have hp : (raw.toCS n A.vals).psize = n := hA.dim
  obtain ⟨C, c1, c2, c3⟩ := runs_det (init_runs_false A.rowMajor hw hA.tight (by rw [hp]; rfl)) hz
  have hv : (raw.toCS n A.vals).nnz = A.vals.size := by
    rw [nnz_start hw hA.tight, ← hA.tight.vals_size]; rfl
  rw [hp, hv] at c2 c3
  exact ⟨C, c1, c2, c3⟩

theorem next_content {n : Nat} {z z' : Sizes} {P : Prec K} (hz : z.Good n) (hP : Fine n P) (h : Sizes.next false z P = .ok z') :
    ∀ i, i < P.n - P.m → z'.rows.get i = z.rows.get (P.p.get (P.m + i)) ∧ z'.cols.get i = z.cols.get (P.q.get (P.m + i)) := by
  obtain ⟨hn, hm, ⟨p1, p2⟩, q1, q2⟩ := hP
  unfold Sizes.next at h
  obtain ⟨r, hr, h⟩ := bind_ok_inv h
  obtain ⟨c, hc, h⟩ := bind_ok_inv h
  cases h
  intro i hi
  have e1 := (runs_det (nextSizes_runs P.n P.m hm z.rows P.p (by have := hz.1.1; omega) p1 p2.1) hr).2 i
  have e2 := (runs_det (nextSizes_runs P.n P.m hm z.cols P.q (by have := hz.2.1; omega) q1 q2.1) hc).2 i
  rw [if_pos hi] at e1 e2
  exact ⟨e1, e2⟩

theorem lines_total {A : Input K} {ijunk : Nat → Int} {raw : RawCS} {n : Nat} (hA : ValidSquare A ijunk raw n) {C : CS K} (hC : (raw.toCS n A.vals).convert = .ok C) :
    ∑ i ∈ range n, ((raw.toCS n A.vals).line i).length = A.vals.size ∧ ∑ i ∈ range n, (C.line i).length = A.vals.size := by
  obtain ⟨hw, hs⟩ := C09_valid_wf raw n hA.valid A.vals hA.vsize
  have hp : (raw.toCS n A.vals).psize = n := hA.dim
  have hv : (raw.toCS n A.vals).nnz = A.vals.size := by
    rw [nnz_start hw hA.tight, ← hA.tight.vals_size]; rfl
  have c := runs_det (CS.convert_runs hw hA.tight) hC
  obtain ⟨cw, ct⟩ := c.wf hw hA.tight
  have hcp : C.psize = n := c.psize
  refine ⟨?_, ?_⟩
  · have := start_sum hw n (by omega)
    rw [← this, ← hv, nnz_start hw hA.tight, hp]
  · have := start_sum cw n (by omega)
    rw [← this, ← hv, ← conv_nnz hw hA.tight c, nnz_start cw ct, hcp]

theorem limit_total (a : R) (ha : 0 < a) (n nnz : Nat) (len : Nat → Nat) (hlen : ∑ i ∈ range n, len i = nnz) :
    ((∑ i ∈ range n, max 1 ⌈a * ((max (len i) ((85 * nnz + (100 * n - 1)) / (100 * n)) : Nat) : R)⌉₊ : Nat) : R) ≤ a * (185 / 100 * nnz + n) + n := by
  rcases Nat.eq_zero_or_pos n with rfl | hn
  · have : (0 : R) ≤ 185 / 100 * nnz := by positivity
    have := mul_nonneg ha.le this
    simp only [range_zero, sum_empty, Nat.cast_zero, add_zero]
    exact this
  refine (sum_lineLimit a ha n fun i => max (len i) ((85 * nnz + (100 * n - 1)) / (100 * n))).trans ?_
  have h := sum_initial hn len (fun i => max (len i) ((85 * nnz + (100 * n - 1)) / (100 * n))) hlen (fun _ _ => rfl)
  have h2 : (100 : R) * ((∑ i ∈ range n, max (len i) ((85 * nnz + (100 * n - 1)) / (100 * n)) : Nat) : R) ≤ 185 * nnz + 100 * n := by exact_mod_cast h
  have h3 : ((∑ i ∈ range n, max (len i) ((85 * nnz + (100 * n - 1)) / (100 * n)) : Nat) : R) ≤ 185 / 100 * nnz + n := by linarith
  have := mul_le_mul_of_nonneg_left h3 ha.le
  linarith

section nonsym
variable (e : Env K R) (o : Level.Opts R) (hc : LevelContract e o) (x : SymmPar K R) (dense : Bool → CS K → DenseOps K × Option Err) (junk : Nat → K)
  (ijunk : Nat → Int) (opts : FacOpts) (hsy : opts.isSymm = false) (A : Input K) (raw : RawCS) (n : Nat) (hA : ValidSquare A ijunk raw n) (hnz : 0 < A.vals.size)

theorem LevelContract.with {e : Env K R} {o : Level.Opts R} (hc : LevelContract e o) (z : Sizes) : LevelContract (e.with z) o :=
  ⟨hc.one, hc.mul, hc.nrm, hc.nth, hc.srt, hc.pre⟩

theorem LevelContract.atLevels {e : Env K R} {o : Level.Opts R} (hc : LevelContract e o) (Z : Nat → Sizes) : LevelContract (e.atLevels Z) o :=
  ⟨hc.one, hc.mul, hc.nrm, hc.nth, hc.srt, hc.pre⟩

include hc hsy hA hnz

theorem sized_run (h : HIF K) : ∃ Z : Nat → Sizes, (∀ l, (Z l).Good n) ∧ Sizes.init false A.rowMajor (raw.toCS n A.vals) = .ok (Z 1) ∧
    sizedFactorize junk ijunk (sizedKernels e o x (opts.pivot == .auto) A.rowMajor dense) (Sizes.init false A.rowMajor) (Sizes.next false) opts A 0 h =
      factorize junk ijunk (givenKernels e o x (opts.pivot == .auto) A.rowMajor dense Z) opts A 0 h ∧
    Chain (fun lvl P => P.OK ∧ (0 < o.par.alphaL → 0 < o.par.alphaU → Limited (8 * o.par.alphaU) (8 * o.par.alphaL) (Z lvl).rows (Z lvl).cols P) ∧ (P.m ≠ 0 → TightLevel P)) 1 n
      (factorize junk ijunk (givenKernels e o x (opts.pivot == .auto) A.rowMajor dense Z) opts A 0 h).1.precs ∧
    ∀ k P, (factorize junk ijunk (givenKernels e o x (opts.pivot == .auto) A.rowMajor dense Z) opts A 0 h).1.precs[k]? = some P →
      k + 1 < (factorize junk ijunk (givenKernels e o x (opts.pivot == .auto) A.rowMajor dense Z) opts A 0 h).1.precs.length → Sizes.next false (Z (k + 1)) P = .ok (Z (k + 2)) := by
  obtain ⟨hw, hs⟩ := C09_valid_wf raw n hA.valid A.vals hA.vsize
  have hp : (raw.toCS n A.vals).psize = n := hA.dim
  have hsq : (raw.toCS n A.vals).ssize = (raw.toCS n A.vals).psize := by rw [hp]; rfl
  have hnnz : 0 < (raw.toCS n A.vals).nnz := by
    rw [nnz_start hw hA.tight, ← hA.tight.vals_size]
    exact hnz
  set ker := sizedKernels e o x (opts.pivot == .auto) A.rowMajor dense with hker
  set d : Sizes := ⟨Buf.mk' 0 0, Buf.mk' 0 0⟩ with hd
  set h1 : HIF K := { h with nrows := A.nrows, ncols := A.ncols, precs := [], work := if h.empty then h.work else ⟨0, junk⟩, stats := fun _ => 0 } with hh1
  have hinit : ∃ z, Sizes.init false A.rowMajor (raw.toCS n A.vals) = .ok z ∧ z.Good n := by
    obtain ⟨z, z1, C, -, z2, z3⟩ := init_runs_false A.rowMajor hw hA.tight hsq
    refine ⟨z, z1, ?_, ?_⟩
    · have := z2.good hnnz; rwa [hp] at this
    · have := z3.good hnnz; rwa [hp] at this
  obtain ⟨Z, z1, z2, -, z4⟩ := sizedKernel_sim ker (Sizes.init false A.rowMajor) (Sizes.next false) opts d (fun _ => rfl) (Sizes.Good n) (Fine n)
    next_good (2 * n + 2) (raw.toCS n A.vals) 0 false d h1 rfl (fun _ => hinit) (fun h0 => absurd rfl h0)
  have hlv : h1.levels = 0 := rfl
  have chain := factorizeKernel_chain (atLevels ker Z d) opts
    (fun lvl P => P.OK ∧ (0 < o.par.alphaL → 0 < o.par.alphaU → Limited (8 * o.par.alphaU) (8 * o.par.alphaL) (Z lvl).rows (Z lvl).cols P) ∧ (P.m ≠ 0 → TightLevel P))
    (fun lvl P l hQ => ⟨⟨hQ.1.le, hQ.1.L_wf, hQ.1.L_p, hQ.1.L_s, hQ.1.U_wf, hQ.1.U_p, hQ.1.U_s, hQ.1.E_wf, hQ.1.F_wf, hQ.1.F_p, hQ.1.d_size, hQ.1.s_size, hQ.1.t_size,
      hQ.1.p_size, hQ.1.pinv_size, hQ.1.q_size, hQ.1.qinv_size, hQ.1.p_inv, hQ.1.q_inv, hQ.1.lower, hQ.1.upper, hQ.1.d_ne, hQ.1.s_ne, hQ.1.t_ne⟩, hQ.2.1, fun hm => let t := hQ.2.2 hm; ⟨t.L, t.U, t.E, t.F⟩⟩)
    (fun B => (B.WF ∧ B.Tight ∧ B.Sorted ∧ B.ssize = B.psize) ∧ B.psize ≤ n) (fun _ _ => False)
    (fun lvl sym mp N m B out hlvl hB hsym hm ho hg => by
      have hs0 : sym = false := by cases sym with | false => rfl | true => exact (hsym rfl).elim
      subst hs0
      have hm := hm rfl
      subst hm
      obtain ⟨⟨w, t, s, sq⟩, hle⟩ := hB
      have hce := LevelContract.with hc (Z lvl)
      have hsz : SizesOK (e.with (Z lvl)) B.psize := SizesOK.mono (n := n) (fun _ => z1 lvl) hle
      have hkind : levelKind opts false mp = .plain false ∨ levelKind opts false mp = .pivot := by
        unfold levelKind
        rw [hsy]
        cases opts.pivot <;> cases mp <;> simp
      have fin : ∀ au, LevelOut B.psize o au A.rowMajor B out → (au = true → (postFlag out.m2 out.m).1 = 0) →
          ((postFlag out.m2 out.m).2 ≠ 0 → 0 < o.par.alphaL → 0 < o.par.alphaU →
            Limited (8 * o.par.alphaU) (8 * o.par.alphaL) (Z lvl).rows (Z lvl).cols (out.toPrec B.psize out.m)) →
          ((out.toPrec B.psize (postFlag out.m2 out.m).2).OK ∧ (0 < o.par.alphaL → 0 < o.par.alphaU →
              Limited (8 * o.par.alphaU) (8 * o.par.alphaL) (Z lvl).rows (Z lvl).cols (out.toPrec B.psize (postFlag out.m2 out.m).2)) ∧
              ((out.toPrec B.psize (postFlag out.m2 out.m).2).m ≠ 0 → TightLevel (out.toPrec B.psize (postFlag out.m2 out.m).2))) ∧
            (postFlag out.m2 out.m).2 ≤ B.psize ∧ ((postFlag out.m2 out.m).2 < B.psize →
              ((((out.rest B (postFlag out.m2 out.m).2).WF ∧ (out.rest B (postFlag out.m2 out.m).2).Tight ∧ (out.rest B (postFlag out.m2 out.m).2).Sorted ∧
                (out.rest B (postFlag out.m2 out.m).2).ssize = (out.rest B (postFlag out.m2 out.m).2).psize) ∧ (out.rest B (postFlag out.m2 out.m).2).psize ≤ n) ∧
                (out.rest B (postFlag out.m2 out.m).2).psize = B.psize - (postFlag out.m2 out.m).2)) := by
        intro au hlo hau hlim
        obtain ⟨a1, a2, a3⟩ := step_of hlo hau ⟨w, t, s, sq⟩
        refine ⟨⟨a1, fun hl hu => ?_, fun hm => tight_of hlo hau hm⟩, a2, fun hlt => ?_⟩
        · by_cases h0 : (postFlag out.m2 out.m).2 = 0
          · rw [h0]; exact limited_zero _ _ _ _ _ _
          · rw [(postFlag_m h0).1]; exact hlim h0 hl hu
        · obtain ⟨b1, b2⟩ := a3 hlt
          exact ⟨⟨b1, by omega⟩, b2⟩
      have hprep : ∀ C, CS.ConvSpec B C → ∀ sy, (sy = true → o.symmPreLvls ≠ 0) →
          Runs (prepare (e.with (Z lvl)) o sy B.psize lvl (if A.rowMajor then C else B) (if A.rowMajor then B else C)) (Prepared B.psize) := fun C c sy hsy' =>
        hce.prepOK (fun _ _ => True) sy lvl B.psize _ _ (two_of w t s sq c A.rowMajor).1 trivial hlvl hsy'
      rcases hkind with hk | hk
      · rw [hk] at ho hg
        have ho : plainLevel (e.with (Z lvl)) o (opts.pivot == .auto) A.rowMajor lvl N B.psize B = .ok out := ho
        have hau : (opts.pivot == .auto) = true → (postFlag out.m2 out.m).1 = 0 := fun ha => by
          unfold givesUp at hg
          simp only [ha, Bool.true_and, bne_eq_false_iff_eq] at hg
          exact hg
        have hlo := runs_det (plainLevel_runs hce.envOK o (hce.prepOK fun _ _ => True) (fun _ _ _ _ _ => trivial) (opts.pivot == .auto) A.rowMajor lvl N hlvl w t s sq trivial hsz) ho
        refine fin _ hlo hau fun h0 hl hu => ?_
        refine (plainLevel_fill hce.envOK o (opts.pivot == .auto) A.rowMajor lvl N B.psize hlvl w t s sq (fun C c => hprep C c _ fun hs' h0' => ?_) hsz hl hu ho h0 hau).mono
          (by linarith) (by linarith)
        unfold symmPre at hs'
        rw [h0'] at hs'
        simp at hs'
        omega
      · rw [hk] at ho hg
        have ho : pivotLevel (e.with (Z lvl)) o A.rowMajor lvl N B.psize B = .ok out := ho
        have hlo := runs_det (pivotLevel_runs hce.envOK o (hce.prepOK fun _ _ => True) (fun _ _ _ _ _ => trivial) A.rowMajor lvl N hlvl w t s sq trivial hsz) ho
        refine fin _ hlo (fun h => by cases h) fun h0 hl hu => ?_
        refine pivotLevel_fill hce.envOK o A.rowMajor lvl N B.psize hlvl w t s sq (fun C c => hprep C c _ fun hs' h0' => ?_) hsz hl hu ho h0
        unfold symmPrePivot at hs'
        rw [h0'] at hs'
        simp at hs'
        omega)
    (2 * n + 2) (raw.toCS n A.vals) 0 false h1 rfl ⟨⟨hw, hA.tight, hs, hsq⟩, le_of_eq hp⟩ (fun h0 => absurd h0 (lt_irrefl _))
  obtain ⟨new, c1, c2⟩ := chain
  have c1 : (factorizeKernel (atLevels ker Z d) opts (2 * n + 2) (raw.toCS n A.vals) 0 false h1).1.precs = new := c1
  rw [← c1, hp, hlv] at c2
  obtain ⟨y1, y2⟩ := z4 fun P hP => Fine.of (c2.all P hP).2.choose_spec.1 (c2.all P hP).1
  rw [sizedFactorize_of hA]
  refine ⟨Z, z1, z2 rfl, ?_⟩
  rw [factorize_of hA, ← givenKernels_eq e o x (opts.pivot == .auto) A.rowMajor dense Z d]
  exact ⟨y1, c2, fun k P hk hlt => y2 k P hk (Nat.zero_le _) hlt⟩

/-- **C86 (sizes).** `factorize` as it is in the code, which carries the reference sizes along, does what `factorize` does for the sizes `Z l` at level `l`, for which C63 and
its relatives hold: they are positive; at level 1 they are the line lengths of the input raised to 85 % of the average; and those of a level are those of the deferred
rows and columns of the previous level. -/
theorem C86_sizes (h : HIF K) : ∃ Z : Nat → Sizes, SizesOK (e.atLevels Z) n ∧
    (∃ C, (raw.toCS n A.vals).convert = .ok C ∧
      (∀ i, i < n → (Z 1).rows.get i = max (((if A.rowMajor then raw.toCS n A.vals else C).line i).length) ((85 * A.vals.size + (100 * n - 1)) / (100 * n))) ∧
      ∀ i, i < n → (Z 1).cols.get i = max (((if A.rowMajor then C else raw.toCS n A.vals).line i).length) ((85 * A.vals.size + (100 * n - 1)) / (100 * n))) ∧
    sizedFactorize junk ijunk (sizedKernels e o x (opts.pivot == .auto) A.rowMajor dense) (Sizes.init false A.rowMajor) (Sizes.next false) opts A 0 h =
      factorize junk ijunk (givenKernels e o x (opts.pivot == .auto) A.rowMajor dense Z) opts A 0 h ∧
    ∀ k P, (factorize junk ijunk (givenKernels e o x (opts.pivot == .auto) A.rowMajor dense Z) opts A 0 h).1.precs[k]? = some P →
      k + 1 < (factorize junk ijunk (givenKernels e o x (opts.pivot == .auto) A.rowMajor dense Z) opts A 0 h).1.precs.length →
      ∀ i, i < P.n - P.m → (Z (k + 2)).rows.get i = (Z (k + 1)).rows.get (P.p.get (P.m + i)) ∧ (Z (k + 2)).cols.get i = (Z (k + 1)).cols.get (P.q.get (P.m + i)) := by
  obtain ⟨Z, z1, z2, z3, z4, z5⟩ := sized_run e o hc x dense junk ijunk opts hsy A raw n hA hnz h
  refine ⟨Z, z1, ?_, z3, fun k P hk hlt i hi => ?_⟩
  · obtain ⟨C, hC, a1, a2⟩ := init_content hA z2
    exact ⟨C, hC, a1.2, a2.2⟩
  · have hf := Fine.of (z4.all P (List.mem_of_getElem? hk)).2.choose_spec.1 (z4.all P (List.mem_of_getElem? hk)).1
    exact next_content (z1 (k + 1)) hf (z5 k P hk hlt) i hi

/-- **C86 (memory).** Whatever the outcome, the triangular factors of all stored levels together have at most as many entries as the limits of the lines of the input
allow: `U` at most the sum over the rows of `max 1 ⌈8 alpha_U r⌉`, `r` being the length of the row raised to 85 % of the average; likewise `L` for the columns. -/
theorem C86_lines (hl : 0 < o.par.alphaL) (hu : 0 < o.par.alphaU) (h : HIF K) :
    ∃ C, (raw.toCS n A.vals).convert = .ok C ∧
    (((sizedFactorize junk ijunk (sizedKernels e o x (opts.pivot == .auto) A.rowMajor dense) (Sizes.init false A.rowMajor) (Sizes.next false) opts A 0 h).1.precs.map
        fun P => P.U.nnz).sum ≤ ∑ i ∈ range n, max 1 ⌈8 * o.par.alphaU *
          ((max (((if A.rowMajor then raw.toCS n A.vals else C).line i).length) ((85 * A.vals.size + (100 * n - 1)) / (100 * n)) : Nat) : R)⌉₊) ∧
    ((sizedFactorize junk ijunk (sizedKernels e o x (opts.pivot == .auto) A.rowMajor dense) (Sizes.init false A.rowMajor) (Sizes.next false) opts A 0 h).1.precs.map
        fun P => P.L.nnz).sum ≤ ∑ i ∈ range n, max 1 ⌈8 * o.par.alphaL *
          ((max (((if A.rowMajor then C else raw.toCS n A.vals).line i).length) ((85 * A.vals.size + (100 * n - 1)) / (100 * n)) : Nat) : R)⌉₊ := by
  obtain ⟨Z, z1, z2, z3, z4, z5⟩ := sized_run e o hc x dense junk ijunk opts hsy A raw n hA hnz h
  obtain ⟨C, hC, a1, a2⟩ := init_content hA z2
  rw [z3]
  have hfine : ∀ P ∈ (factorize junk ijunk (givenKernels e o x (opts.pivot == .auto) A.rowMajor dense Z) opts A 0 h).1.precs, Fine n P := fun P hP =>
    Fine.of (z4.all P hP).2.choose_spec.1 (z4.all P hP).1
  refine ⟨C, hC, ?_, ?_⟩
  · refine (chain_sum (fun P => P.U.nnz) (fun P => P.p.get) (lineLimit (8 * o.par.alphaU)) (fun l => (Z l).rows.get)
      (fun lvl P hQ => ⟨(hQ.2.1 hl hu).1, BiPerm.inverse_isPerm hQ.1.p_inv⟩) z4 fun k P hk hlt i hi => ?_).trans (le_of_eq (sum_congr rfl fun i hi => ?_))
    · rw [Nat.add_comm 1 k]
      exact (next_content (z1 (k + 1)) (hfine P (List.mem_of_getElem? hk)) (z5 k P hk hlt) i hi).1
    · show lineLimit _ ((Z 1).rows.get i) = _
      rw [a1.2 i (mem_range.1 hi)]
      rfl
  · refine (chain_sum (fun P => P.L.nnz) (fun P => P.q.get) (lineLimit (8 * o.par.alphaL)) (fun l => (Z l).cols.get)
      (fun lvl P hQ => ⟨(hQ.2.1 hl hu).2, BiPerm.inverse_isPerm hQ.1.q_inv⟩) z4 fun k P hk hlt i hi => ?_).trans (le_of_eq (sum_congr rfl fun i hi => ?_))
    · rw [Nat.add_comm 1 k]
      exact (next_content (z1 (k + 1)) (hfine P (List.mem_of_getElem? hk)) (z5 k P hk hlt) i hi).2
    · show lineLimit _ ((Z 1).cols.get i) = _
      rw [a2.2 i (mem_range.1 hi)]
      rfl

/-- **C86 (linear memory).** Whatever the outcome, the triangular factors of all stored levels together have at most
`8 alpha (1.85 nnz + n) + n` entries: their memory is linear in the size of the input. -/
theorem C86_linear (hl : 0 < o.par.alphaL) (hu : 0 < o.par.alphaU) (h : HIF K) :
    ((((sizedFactorize junk ijunk (sizedKernels e o x (opts.pivot == .auto) A.rowMajor dense) (Sizes.init false A.rowMajor) (Sizes.next false) opts A 0 h).1.precs.map
        fun P => P.U.nnz).sum : Nat) : R) ≤ 8 * o.par.alphaU * (185 / 100 * A.vals.size + n) + n ∧
    ((((sizedFactorize junk ijunk (sizedKernels e o x (opts.pivot == .auto) A.rowMajor dense) (Sizes.init false A.rowMajor) (Sizes.next false) opts A 0 h).1.precs.map
        fun P => P.L.nnz).sum : Nat) : R) ≤ 8 * o.par.alphaL * (185 / 100 * A.vals.size + n) + n := by
  obtain ⟨C, hC, k1, k2⟩ := C86_lines e o hc x dense junk ijunk opts hsy A raw n hA hnz hl hu h
  obtain ⟨s1, s2⟩ := lines_total hA hC
  refine ⟨?_, ?_⟩
  · exact le_trans (by exact_mod_cast k1) (limit_total (8 * o.par.alphaU) (by linarith) n A.vals.size _ (by cases A.rowMajor <;> [exact s2; exact s1]))
  · exact le_trans (by exact_mod_cast k2) (limit_total (8 * o.par.alphaL) (by linarith) n A.vals.size _ (by cases A.rowMajor <;> [exact s1; exact s2]))

/-- **C86 (levels).** With the sizes as the code has them: for every valid square matrix with an entry, all dropping parameters and whatever the object held before, `factorize`
either raises an exception, which is one of the dense factorization, or completes; then the stored levels are valid as soon as the dense solver solves
and multiplies exactly with the block it was given. -/
theorem C86_factorize (hd : ∀ S : CS K, S.WF → S.Sorted → S.ssize = S.psize → 0 < S.psize → (∃ msg, (dense false S).2 = some (.hif msg)) ∨ (dense false S).2 = none)
    (h : HIF K) :
    (∃ h' S, sizedFactorize junk ijunk (sizedKernels e o x (opts.pivot == .auto) A.rowMajor dense) (Sizes.init false A.rowMajor) (Sizes.next false) opts A 0 h = (h', .ok ()) ∧
      S.psize ≤ n ∧ (0 < S.psize → S.WF ∧ S.Sorted ∧ S.ssize = S.psize ∧ (dense false S).2 = none) ∧
      ∀ rk, (0 < S.psize → Prec.DenseExact rk S.psize (mat A.rowMajor S) (dense false S).1) → Prec.Good rk (mat A.rowMajor S) S.psize h'.precs n) ∨
    (∃ h' msg S, sizedFactorize junk ijunk (sizedKernels e o x (opts.pivot == .auto) A.rowMajor dense) (Sizes.init false A.rowMajor) (Sizes.next false) opts A 0 h =
        (h', .error (.hif msg)) ∧ 0 < S.psize ∧ S.psize ≤ n ∧ S.WF ∧ S.Sorted ∧ S.ssize = S.psize ∧ (dense false S).2 = some (.hif msg)) := by
  obtain ⟨Z, z1, -, z3, -⟩ := C86_sizes e o hc x dense junk ijunk opts hsy A raw n hA hnz h
  rw [z3]
  exact C63_factorize (e.atLevels Z) o (LevelContract.atLevels hc Z)
    { level := fun kind lvl => (fullKernels (e.with (Z lvl)) o x (opts.pivot == .auto) A.rowMajor dense).level kind lvl, dense := dense }
    junk ijunk opts hsy A raw n hA z1 hd h

/-- **C86 (exactness).** With the sizes as the code has them: if nothing is dropped, the matrix is nonsingular and the dense solver is exact on every nonsingular block, `factorize`
completes and `solve` returns the solution. -/
theorem C86_exact (hnd : NoDrop o n) (hinj : Injective n (mat A.rowMajor (raw.toCS n A.vals))) (rk : Nat)
    (hd : ∀ S : CS K, S.WF → S.Sorted → S.ssize = S.psize → 0 < S.psize → S.psize ≤ n → Injective S.psize (mat A.rowMajor S) →
      (dense false S).2 = none ∧ Prec.DenseExact rk S.psize (mat A.rowMajor S) (dense false S).1)
    (h : HIF K) (hw : h.empty = true → h.work.size = 0) (hns : h.nsp = none) :
    ∃ h₁, sizedFactorize junk ijunk (sizedKernels e o x (opts.pivot == .auto) A.rowMajor dense) (Sizes.init false A.rowMajor) (Sizes.next false) opts A 0 h = (h₁, .ok ()) ∧
      ∀ b y₀ : Buf K, b.size = n → y₀.size = n → ∃ h₂ z, solve junk b y₀ false rk h₁ = (h₂, .ok z) ∧ z.size = n ∧
        ∀ i, i < n → mulVec n (mat A.rowMajor (raw.toCS n A.vals)) z.get i = b.get i := by
  obtain ⟨Z, z1, -, z3, -⟩ := C86_sizes e o hc x dense junk ijunk opts hsy A raw n hA hnz h
  rw [z3]
  exact C63_exact (e.atLevels Z) o (LevelContract.atLevels hc Z)
    { level := fun kind lvl => (fullKernels (e.with (Z lvl)) o x (opts.pivot == .auto) A.rowMajor dense).level kind lvl, dense := dense }
    junk ijunk opts hsy A raw n hA z1 hnd hinj rk hd h hw hns

end nonsym

/-! ### symmetric -/

/-- The kernels of C70 for given sizes; only the row sizes are read. -/
abbrev givenSymm (e : Env K R) (o : Level.Opts R) (x : SymmPar K R) (auto rowMajor : Bool) (dense : Bool → CS K → DenseOps K × Option Err) (Z : Nat → Sizes) :
    Kernels K :=
  allKernels (e.atLevels fun l => ⟨(Z l).rows, (Z l).rows⟩) o x auto rowMajor
    { level := fun kind lvl => (fullKernels (e.with (Z lvl)) o x auto rowMajor dense).level kind lvl, dense := dense }

theorem givenSymm_eq (e : Env K R) (o : Level.Opts R) (x : SymmPar K R) (auto rowMajor : Bool) (dense : Bool → CS K → DenseOps K × Option Err) (Z : Nat → Sizes) (d : Sizes)
    (opts : FacOpts) (hsy : opts.isSymm = true) (fuel : Nat) (A : CS K) (m0 : Nat) (mp : Bool) (h : HIF K) :
    factorizeKernel (atLevels (sizedKernels e o x auto rowMajor dense) Z d) opts fuel A m0 mp h =
      factorizeKernel (givenSymm e o x auto rowMajor dense Z) opts fuel A m0 mp h := by
  refine factorizeKernel_congr (Level.atLevels (sizedKernels e o x auto rowMajor dense) Z d) (givenSymm e o x auto rowMajor dense Z) opts rfl fuel A m0 mp h fun sym mp lvl N m B _ => ?_
  have hkind : levelKind opts sym mp = .symm := by
    unfold levelKind
    rw [hsy]
    rfl
  rw [hkind]
  rfl

theorem SymmContract.with {e : Env K R} {o : Level.Opts R} (hc : SymmContract e o) (z : Sizes) : SymmContract (e.with z) o :=
  ⟨hc.one, hc.mul, hc.nrm, hc.nth, hc.srt, hc.pre⟩

theorem SymmContract.atLevels {e : Env K R} {o : Level.Opts R} (hc : SymmContract e o) (Z : Nat → Sizes) : SymmContract (e.atLevels Z) o :=
  ⟨hc.one, hc.mul, hc.nrm, hc.nth, hc.srt, hc.pre⟩

theorem init_content_symm {A : Input K} {ijunk : Nat → Int} {raw : RawCS} {n : Nat} (hA : ValidSquare A ijunk raw n) {z : Sizes}
    (hz : Sizes.init true A.rowMajor (raw.toCS n A.vals) = .ok z) : ∃ C, (raw.toCS n A.vals).convert = .ok C ∧
      Initial (if A.rowMajor then raw.toCS n A.vals else C) n A.vals.size z.rows := by
  obtain ⟨hw, hs⟩ := C09_valid_wf raw n hA.valid A.vals hA.vsize
  have hp : (raw.toCS n A.vals).psize = n := hA.dim
  obtain ⟨C, c1, c2⟩ := runs_det (init_runs_true A.rowMajor hw hA.tight (by rw [hp]; rfl)) hz
  have hv : (raw.toCS n A.vals).nnz = A.vals.size := by
    rw [nnz_start hw hA.tight, ← hA.tight.vals_size]; rfl
  rw [hp, hv] at c2
  exact ⟨C, c1, c2⟩

theorem next_content_symm {n : Nat} {z z' : Sizes} {P : Prec K} (hz : z.GoodRows n) (hP : Fine n P) (h : Sizes.next true z P = .ok z') :
    ∀ i, i < P.n - P.m → z'.rows.get i = z.rows.get (P.p.get (P.m + i)) := by
  obtain ⟨hn, hm, ⟨p1, p2⟩, -⟩ := hP
  unfold Sizes.next at h
  obtain ⟨r, hr, h⟩ := bind_ok_inv h
  cases h
  intro i hi
  have e1 := (runs_det (nextSizes_runs P.n P.m hm z.rows P.p (by have := hz.1; omega) p1 p2.1) hr).2 i
  rw [if_pos hi] at e1
  exact e1

section symm
variable (e : Env K R) (o : Level.Opts R) (hc : SymmContract e o) (x : SymmPar K R) (dense : Bool → CS K → DenseOps K × Option Err) (junk : Nat → K)
  (ijunk : Nat → Int) (opts : FacOpts) (hsy : opts.isSymm = true) (A : Input K) (raw : RawCS) (n : Nat) (hA : ValidSquare A ijunk raw n) (hnz : 0 < A.vals.size)
  (hsym : SymMat n (mat A.rowMajor (raw.toCS n A.vals))) (hpat : (raw.toCS n A.vals).PatSym)
include hc hsy hA hnz hsym hpat

theorem sized_run_symm (h : HIF K) : ∃ Z : Nat → Sizes, (∀ l, (Z l).GoodRows n) ∧ Sizes.init true A.rowMajor (raw.toCS n A.vals) = .ok (Z 1) ∧
    sizedFactorize junk ijunk (sizedKernels e o x (opts.pivot == .auto) A.rowMajor dense) (Sizes.init true A.rowMajor) (Sizes.next true) opts A 0 h =
      factorize junk ijunk (givenSymm e o x (opts.pivot == .auto) A.rowMajor dense Z) opts A 0 h ∧
    Chain (fun lvl P => P.OK ∧ (0 < o.par.alphaL →
        P.U.nnz ≤ ∑ i ∈ range P.m, lineLimit (2 * o.par.alphaL) ((Z lvl).rows.get (P.p.get i)) ∧
        P.L.nnz ≤ ∑ i ∈ range P.m, lineLimit (2 * o.par.alphaL) ((Z lvl).rows.get (P.p.get i))) ∧ (P.m ≠ 0 → TightLevel P)) 1 n
      (factorize junk ijunk (givenSymm e o x (opts.pivot == .auto) A.rowMajor dense Z) opts A 0 h).1.precs ∧
    ∀ k P, (factorize junk ijunk (givenSymm e o x (opts.pivot == .auto) A.rowMajor dense Z) opts A 0 h).1.precs[k]? = some P →
      k + 1 < (factorize junk ijunk (givenSymm e o x (opts.pivot == .auto) A.rowMajor dense Z) opts A 0 h).1.precs.length → Sizes.next true (Z (k + 1)) P = .ok (Z (k + 2)) := by
  have hS := input_symCS hA hsym hpat
  have hp : (raw.toCS n A.vals).psize = n := hA.dim
  have hnnz : 0 < (raw.toCS n A.vals).nnz := by
    rw [nnz_start hS.wf hA.tight, ← hA.tight.vals_size]
    exact hnz
  set ker := sizedKernels e o x (opts.pivot == .auto) A.rowMajor dense with hker
  set d : Sizes := ⟨Buf.mk' 0 0, Buf.mk' 0 0⟩ with hd
  set h1 : HIF K := { h with nrows := A.nrows, ncols := A.ncols, precs := [], work := if h.empty then h.work else ⟨0, junk⟩, stats := fun _ => 0 } with hh1
  have hinit : ∃ z, Sizes.init true A.rowMajor (raw.toCS n A.vals) = .ok z ∧ z.GoodRows n := by
    obtain ⟨z, z1, C, -, z2⟩ := init_runs_true A.rowMajor hS.wf hA.tight hS.sq
    refine ⟨z, z1, ?_⟩
    have := z2.good hnnz; rwa [hp] at this
  obtain ⟨Z, z1, z2, -, z4⟩ := sizedKernel_sim ker (Sizes.init true A.rowMajor) (Sizes.next true) opts d (fun _ => rfl) (Sizes.GoodRows n) (Fine n)
    next_goodRows (2 * n + 2) (raw.toCS n A.vals) 0 false d h1 rfl (fun _ => hinit) (fun h0 => absurd rfl h0)
  have hlv : h1.levels = 0 := rfl
  have chain := factorizeKernel_chain (Level.atLevels ker Z d) opts
    (fun lvl P => P.OK ∧ (0 < o.par.alphaL →
        P.U.nnz ≤ ∑ i ∈ range P.m, lineLimit (2 * o.par.alphaL) ((Z lvl).rows.get (P.p.get i)) ∧
        P.L.nnz ≤ ∑ i ∈ range P.m, lineLimit (2 * o.par.alphaL) ((Z lvl).rows.get (P.p.get i))) ∧ (P.m ≠ 0 → TightLevel P))
    (fun lvl P l hQ => ⟨⟨hQ.1.le, hQ.1.L_wf, hQ.1.L_p, hQ.1.L_s, hQ.1.U_wf, hQ.1.U_p, hQ.1.U_s, hQ.1.E_wf, hQ.1.F_wf, hQ.1.F_p, hQ.1.d_size, hQ.1.s_size, hQ.1.t_size,
      hQ.1.p_size, hQ.1.pinv_size, hQ.1.q_size, hQ.1.qinv_size, hQ.1.p_inv, hQ.1.q_inv, hQ.1.lower, hQ.1.upper, hQ.1.d_ne, hQ.1.s_ne, hQ.1.t_ne⟩, hQ.2.1, fun hm => let t := hQ.2.2 hm; ⟨t.L, t.U, t.E, t.F⟩⟩)
    (fun B => SymCS B ∧ B.psize ≤ n) (fun _ _ => False)
    (fun lvl sym mp N m B out hlvl hB hsy' hm ho hg => by
      have hs0 : sym = false := by cases sym with | false => rfl | true => exact (hsy' rfl).elim
      subst hs0
      have hm := hm rfl
      subst hm
      obtain ⟨hB, hle⟩ := hB
      have hce := SymmContract.with hc ⟨(Z lvl).rows, (Z lvl).rows⟩
      have hsz : SizesOK (e.with ⟨(Z lvl).rows, (Z lvl).rows⟩) B.psize := SizesOK.mono (n := n) (fun _ => ⟨z1 lvl, z1 lvl⟩) hle
      have hkind : levelKind opts false mp = .symm := by
        unfold levelKind
        rw [hsy]
        rfl
      rw [hkind] at ho
      have ho : symmLevel (e.with ⟨(Z lvl).rows, (Z lvl).rows⟩) o x A.rowMajor lvl N B.psize B = .ok out := ho
      obtain ⟨hlo, hkeep⟩ := runs_det (symmLevel_does hce x A.rowMajor lvl N hB hsz) ho
      obtain ⟨a1, a2, a3⟩ := step_of hlo (fun h => by cases h) ⟨hB.wf, hB.tight, hB.sorted, hB.sq⟩
      refine ⟨⟨a1, fun hl => ?_, fun hm => tight_of hlo (fun h => by cases h) hm⟩, a2, fun hlt => ?_⟩
      · by_cases h0 : (postFlag out.m2 out.m).2 = 0
        · have := limited_zero (2 * o.par.alphaL) (2 * o.par.alphaL) (Z lvl).rows (Z lvl).rows out B.psize
          rw [h0]
          have hz : (CS.zero 0 0 : CS K).nnz = 0 := rfl
          unfold CroutOut.toPrec
          rw [if_neg (by simp)]
          simp only [hz]
          simp
        · obtain ⟨t1, t2, t3, t4, t5⟩ := toPrec_kept (out := out) (n := B.psize) (postFlag_m h0).2
          have := symmLevel_fill hce.envOK o x A.rowMajor lvl N B.psize hlvl hB.wf hB.sorted hB.sq hB.sym (hce.prepared lvl hB) (hsz lvl).1.1 hl ho h0
          rw [(postFlag_m h0).1, t3, t5]
          exact this
      · obtain ⟨b1, b2⟩ := a3 hlt
        refine ⟨⟨?_, by omega⟩, b2⟩
        by_cases h0 : (postFlag out.m2 out.m).2 = 0
        · rw [h0]; exact hB
        · obtain ⟨hm, hne⟩ := postFlag_m h0
          have : out.rest B (postFlag out.m2 out.m).2 = out.schur := if_pos h0
          rw [this]
          exact (hkeep h0).2.2.2 (by omega))
    (2 * n + 2) (raw.toCS n A.vals) 0 false h1 rfl ⟨hS, le_of_eq hp⟩ (fun h0 => absurd h0 (lt_irrefl _))
  obtain ⟨new, c1, c2⟩ := chain
  have c1 : (factorizeKernel (Level.atLevels ker Z d) opts (2 * n + 2) (raw.toCS n A.vals) 0 false h1).1.precs = new := c1
  rw [← c1, hp, hlv] at c2
  obtain ⟨y1, y2⟩ := z4 fun P hP => Fine.of (c2.all P hP).2.choose_spec.1 (c2.all P hP).1
  rw [sizedFactorize_of hA]
  refine ⟨Z, z1, z2 rfl, ?_⟩
  rw [factorize_of hA, ← givenSymm_eq e o x (opts.pivot == .auto) A.rowMajor dense Z d opts hsy]
  exact ⟨y1, c2, fun k P hk hlt => y2 k P hk (Nat.zero_le _) hlt⟩

/-- **C86 (sizes, symmetric).** The symmetric `factorize` as it is in the code does what `factorize` does for the row sizes `Z l` at level `l`, for which C70 and its relatives hold. -/
theorem C86_sizes_symm (h : HIF K) : ∃ Z : Nat → Sizes, SizesOK (e.atLevels fun l => ⟨(Z l).rows, (Z l).rows⟩) n ∧
    (∃ C, (raw.toCS n A.vals).convert = .ok C ∧
      ∀ i, i < n → (Z 1).rows.get i = max (((if A.rowMajor then raw.toCS n A.vals else C).line i).length) ((85 * A.vals.size + (100 * n - 1)) / (100 * n))) ∧
    sizedFactorize junk ijunk (sizedKernels e o x (opts.pivot == .auto) A.rowMajor dense) (Sizes.init true A.rowMajor) (Sizes.next true) opts A 0 h =
      factorize junk ijunk (givenSymm e o x (opts.pivot == .auto) A.rowMajor dense Z) opts A 0 h ∧
    ∀ k P, (factorize junk ijunk (givenSymm e o x (opts.pivot == .auto) A.rowMajor dense Z) opts A 0 h).1.precs[k]? = some P →
      k + 1 < (factorize junk ijunk (givenSymm e o x (opts.pivot == .auto) A.rowMajor dense Z) opts A 0 h).1.precs.length →
      ∀ i, i < P.n - P.m → (Z (k + 2)).rows.get i = (Z (k + 1)).rows.get (P.p.get (P.m + i)) := by
  obtain ⟨Z, z1, z2, z3, z4, z5⟩ := sized_run_symm e o hc x dense junk ijunk opts hsy A raw n hA hnz hsym hpat h
  refine ⟨Z, fun l => ⟨z1 l, z1 l⟩, ?_, z3, fun k P hk hlt i hi => ?_⟩
  · obtain ⟨C, hC, a1⟩ := init_content_symm hA z2
    exact ⟨C, hC, a1.2⟩
  · have hf := Fine.of (z4.all P (List.mem_of_getElem? hk)).2.choose_spec.1 (z4.all P (List.mem_of_getElem? hk)).1
    exact next_content_symm (z1 (k + 1)) hf (z5 k P hk hlt) i hi

/-- **C86 (linear memory, symmetric).** Each of the two triangular factors of all levels together has at most `2 alpha_L (1.85 nnz + n) + n` entries. -/
theorem C86_linear_symm (hl : 0 < o.par.alphaL) (h : HIF K) :
    ((((sizedFactorize junk ijunk (sizedKernels e o x (opts.pivot == .auto) A.rowMajor dense) (Sizes.init true A.rowMajor) (Sizes.next true) opts A 0 h).1.precs.map
        fun P => P.U.nnz).sum : Nat) : R) ≤ 2 * o.par.alphaL * (185 / 100 * A.vals.size + n) + n ∧
    ((((sizedFactorize junk ijunk (sizedKernels e o x (opts.pivot == .auto) A.rowMajor dense) (Sizes.init true A.rowMajor) (Sizes.next true) opts A 0 h).1.precs.map
        fun P => P.L.nnz).sum : Nat) : R) ≤ 2 * o.par.alphaL * (185 / 100 * A.vals.size + n) + n := by
  obtain ⟨Z, z1, z2, z3, z4, z5⟩ := sized_run_symm e o hc x dense junk ijunk opts hsy A raw n hA hnz hsym hpat h
  obtain ⟨C, hC, a1⟩ := init_content_symm hA z2
  obtain ⟨s1, s2⟩ := lines_total hA hC
  rw [z3]
  have hfine : ∀ P ∈ (factorize junk ijunk (givenSymm e o x (opts.pivot == .auto) A.rowMajor dense Z) opts A 0 h).1.precs, Fine n P := fun P hP =>
    Fine.of (z4.all P hP).2.choose_spec.1 (z4.all P hP).1
  have key : ∀ cnt : Prec K → Nat, (∀ lvl (P : Prec K), (P.U.nnz ≤ ∑ i ∈ range P.m, lineLimit (2 * o.par.alphaL) ((Z lvl).rows.get (P.p.get i)) ∧
        P.L.nnz ≤ ∑ i ∈ range P.m, lineLimit (2 * o.par.alphaL) ((Z lvl).rows.get (P.p.get i))) →
        cnt P ≤ ∑ i ∈ range P.m, lineLimit (2 * o.par.alphaL) ((Z lvl).rows.get (P.p.get i))) →
      ((((factorize junk ijunk (givenSymm e o x (opts.pivot == .auto) A.rowMajor dense Z) opts A 0 h).1.precs.map cnt).sum : Nat) : R) ≤
        2 * o.par.alphaL * (185 / 100 * A.vals.size + n) + n := by
    intro cnt hcnt
    have k1 := chain_sum cnt (fun P => P.p.get) (lineLimit (2 * o.par.alphaL)) (fun l => (Z l).rows.get)
      (fun lvl P hQ => ⟨hcnt lvl P (hQ.2.1 hl), BiPerm.inverse_isPerm hQ.1.p_inv⟩) z4 fun k P hk hlt i hi => by
        rw [Nat.add_comm 1 k]
        exact next_content_symm (z1 (k + 1)) (hfine P (List.mem_of_getElem? hk)) (z5 k P hk hlt) i hi
    refine le_trans ((Nat.cast_le (α := R)).2 k1) (le_trans (le_of_eq ?_) (limit_total (2 * o.par.alphaL) (by linarith) n A.vals.size
      (fun i => ((if A.rowMajor then raw.toCS n A.vals else C).line i).length) (by cases A.rowMajor <;> [exact s2; exact s1])))
    congr 1
    refine sum_congr rfl fun i hi => ?_
    show lineLimit _ ((Z 1).rows.get i) = _
    rw [a1.2 i (mem_range.1 hi)]
    rfl
  exact ⟨key _ fun _ _ h => h.1, key _ fun _ _ h => h.2⟩

/-- **C86 (exactness, symmetric).** With the sizes as the code has them. -/
theorem C86_exact_symm [TrivialStar K] (hnd : NoDrop o n) (hinj : Injective n (mat A.rowMajor (raw.toCS n A.vals))) (rk : Nat)
    (hd : ∀ S : CS K, SymCS S → 0 < S.psize → S.psize ≤ n → Injective S.psize (mat A.rowMajor S) →
      (dense true S).2 = none ∧ SymDenseExact rk S.psize (mat A.rowMajor S) (dense true S).1)
    (h : HIF K) (hw : h.empty = true → h.work.size = 0) (hns : h.nsp = none) :
    ∃ h₁, sizedFactorize junk ijunk (sizedKernels e o x (opts.pivot == .auto) A.rowMajor dense) (Sizes.init true A.rowMajor) (Sizes.next true) opts A 0 h = (h₁, .ok ()) ∧
      ∀ b y₀ : Buf K, b.size = n → y₀.size = n → ∃ h₂ z, solve junk b y₀ false rk h₁ = (h₂, .ok z) ∧ z.size = n ∧
        ∀ i, i < n → mulVec n (mat A.rowMajor (raw.toCS n A.vals)) z.get i = b.get i := by
  obtain ⟨Z, z1, -, z3, -⟩ := C86_sizes_symm e o hc x dense junk ijunk opts hsy A raw n hA hnz hsym hpat h
  rw [z3]
  exact C70_exact (e.atLevels fun l => ⟨(Z l).rows, (Z l).rows⟩) o (SymmContract.atLevels hc _) x
    { level := fun kind lvl => (fullKernels (e.with (Z lvl)) o x (opts.pivot == .auto) A.rowMajor dense).level kind lvl, dense := dense }
    junk ijunk opts hsy A raw n hA hsym hpat z1 hnd hinj rk hd h hw hns

end symm

end Props
end Hif
