import Verif.Props.IterScale
import Verif.Props.SymmLevel
import Verif.Props.IterScaleEx
import Verif.Props.SymmEx

set_option linter.unusedSectionVars false
set_option linter.unusedVariables false

/-!
# C70 with iterative scaling (`pre_scale = 2`)

As `Props.IterScale`, for the symmetric factorization: a nonsingular symmetric matrix has no zero row, so the symmetric iterative scaling never divides by
zero on it, and without dropping every Schur complement is again nonsingular and symmetric.
-/

namespace Hif.Props
open Hif Level Spec HIF HM Finset
variable {K R : Type} [Field K] [StarRing K] [DecidableEq K] [Inhabited K] [Field R] [LinearOrder R] [IsStrictOrderedRing R] [FloorSemiring R]

/-- As `SymmContract` with preprocessing, for every kind of scaling; the magnitude vanishes only at zero. -/
structure SymmScaleContract (e : Env K R) (o : Level.Opts R) : Prop where
  one : e.a.emb 1 = 1
  mul : ∀ x y, e.a.emb (x * y) = e.a.emb x * e.a.emb y
  nrm : ∀ x, 0 ≤ e.a.nrm x
  nrm0 : ∀ x, e.a.nrm x = 0 → x = 0
  nth : SV.NthSpec e.nth
  srt : ∀ f l, (e.srt f l).Perm l
  arith : ArithSpec e.a
  mc64 : MatchingOK e.pre.mc64
  amd : OrderingOK e.pre.amd
  rcm : SymOrderingOK e.pre.rcm
  reorder : 0 ≤ o.pre.reorder ∧ o.pre.reorder < 4

theorem SymmScaleContract.envOK {e : Env K R} {o : Level.Opts R} (h : SymmScaleContract e o) : EnvOK e := ⟨⟨h.one, h.mul⟩, h.nrm, h.nth, h.srt⟩

/-- The symmetric preprocessing of a nonsingular symmetric matrix, whatever scaling is chosen. -/
theorem SymmScaleContract.prepared {e : Env K R} {o : Level.Opts R} (h : SymmScaleContract e o) (rowMajor : Bool) (lvl : Nat) {A : CS K} (hA : SymCS A)
    (hinj : Injective A.psize (mat rowMajor A)) : Runs (prepare e o true A.psize lvl A A) (SymPrepared A.psize) := by
  by_cases h0 : o.noPre = true
  · obtain ⟨g, eg, hg⟩ := prepare_noPre e o h0 true A.psize lvl A A
    refine ⟨g, eg, hg, ?_, ?_⟩
    all_goals
      unfold prepare at eg
      rw [if_pos h0] at eg
      cases eg
      exact fun i hi => rfl
  · unfold prepare
    rw [if_neg h0]
    have hin : Pre.PreIn A.psize A.psize A A := ⟨hA.wf, hA.sorted, rfl, hA.sq, hA.wf, hA.sorted, rfl, hA.sq, le_refl _, Or.inl rfl⟩
    have hp : ∀ i, i < A.psize → ∀ j, j < A.psize → i ∈ Pre.ids A j → j ∈ Pre.ids A i := fun i hi j hj hh =>
      mem_ids.2 (hA.pat j i hj hi (mem_ids.1 hh))
    have hr := h.reorder
    refine (Pre.doPreprocess_runs h.arith.ok (ker := e.pre) true o.pre lvl hin (fun B _ => h.mc64.for _ B) ⟨hr.1, hr.2⟩
      (fun _ _ B hB => ?_) (fun c => by cases c) (fun m b hb _ => h.amd m b hb)
      (fun m b hb hs => h.rcm m b hb hs) (fun i hi j hj => ⟨hp i hi j hj, hp j hj i hi⟩) (fun _ => hp)).mono ?_
    · have hB' : B = A := by
        unfold Pre.matchInput at hB
        rw [if_pos rfl] at hB
        injection hB with hB
        exact hB.symm
      subst hB'
      refine ⟨fun i hi => ?_, fun c => by cases c⟩
      obtain ⟨j, hj, hne⟩ := injective_row hinj hi
      have hne' : B.entry i j ≠ 0 := by
        unfold mat at hne
        split at hne
        · exact hne
        · rw [hA.sym i j hi hj]
          exact hne
      obtain ⟨x, x1, -, x3⟩ := stored_of_entry (hA.wf.mono i hi) hne'
      exact ⟨x, x1, fun hx => x3 (h.nrm0 _ hx)⟩
    · rintro r ⟨hr, g1, g2, hs⟩
      exact ⟨⟨hr.mle, hr.ssz, hr.tsz, hr.spos, hr.tpos, g1, g2⟩, fun i hi => (hs rfl i hi).2.symm, fun i hi => (hs rfl i hi).1.symm⟩

/-- C70 (exactness, every kind of scaling): with nothing dropped, a nonsingular symmetric matrix with symmetric pattern and an exact symmetric dense solver, the
symmetric factorization completes and `solve` inverts the matrix exactly, for every `pre_scale` (also the iterative one, 2) and every reordering. -/
theorem C70_exact_scaled [TrivialStar K] (e : Env K R) (o : Level.Opts R) (hc : SymmScaleContract e o) (x : SymmPar K R) (other : Kernels K) (junk : Nat → K)
    (ijunk : Nat → Int) (opts : FacOpts) (hsy : opts.isSymm = true) (A : Input K) (raw : RawCS) (n : Nat) (hA : ValidSquare A ijunk raw n)
    (hsym : SymMat n (mat A.rowMajor (raw.toCS n A.vals))) (hpat : (raw.toCS n A.vals).PatSym) (hsz : SizesOK e n)
    (hnd : NoDrop o n) (hinj : Injective n (mat A.rowMajor (raw.toCS n A.vals))) (rk : Nat)
    (hd : ∀ S : CS K, SymCS S → 0 < S.psize → S.psize ≤ n → Injective S.psize (mat A.rowMajor S) →
      (other.dense true S).2 = none ∧ SymDenseExact rk S.psize (mat A.rowMajor S) (other.dense true S).1)
    (h : HIF K) (hw : h.empty = true → h.work.size = 0) (hns : h.nsp = none) :
    ∃ h₁, factorize junk ijunk (allKernels e o x (opts.pivot == .auto) A.rowMajor other) opts A 0 h = (h₁, .ok ()) ∧
      ∀ b y₀ : Buf K, b.size = n → y₀.size = n → ∃ h₂ z, solve junk b y₀ false rk h₁ = (h₂, .ok z) ∧ z.size = n ∧
        ∀ i, i < n → mulVec n (mat A.rowMajor (raw.toCS n A.vals)) z.get i = b.get i :=
  symm_exact_of e o hc.envOK x other junk ijunk opts hsy A raw n hA hsym hpat hsz (fun lvl _ hB hi => hc.prepared A.rowMajor lvl hB hi) hnd hinj rk hd h hw hns

/-! ### Example -/

namespace ExSymmIter
open ExLevel

theorem contractS : SymmScaleContract ExPart.envR ExIter.optsI := by
  have h := ExIter.contractI
  refine ⟨h.one, h.mul, h.nrm, h.nrm0, h.nth, h.srt, h.arith, h.mc64, h.amd, fun m b _ _ => ⟨_, rfl, le_refl _, fun i hi => ?_, fun i j hi hj e => ?_⟩, by decide⟩
  · show m - 1 - i < m
    omega
  · have e' : m - 1 - i = m - 1 - j := e
    omega

/-- `[[2,1],[1,0]]`, 1-based by rows. -/
def in2 : Input ℝ :=
  { raw := RawCS.mk false 2 (Buf.ofList [1, 3, 4]) (Buf.ofList [1, 2, 1]) 3, other := 2, vals := Buf.ofList [2, 1, 1], rowMajor := true }
def raw2 : RawCS := { in2.raw with start := ⟨in2.raw.start.size, fun i => in2.raw.start.get i - 1⟩, inds := ⟨in2.raw.inds.size, fun i => in2.raw.inds.get i - 1⟩ }

theorem valid2 : ValidSquare in2 (fun _ => 0) raw2 2 := by
  refine ⟨rfl, C09_accepted_valid_partial _ _ rfl rfl (by decide), rfl, rfl, rfl, rfl, by decide, rfl, by decide⟩

theorem mat2 (x : Nat → ℝ) : Spec.mulVec 2 (mat true (raw2.toCS 2 in2.vals)) x 0 = 2 * x 0 + x 1 ∧ Spec.mulVec 2 (mat true (raw2.toCS 2 in2.vals)) x 1 = x 0 := by
  constructor <;>
  simp [Spec.mulVec, mat, CS.crs, CS.entry, raw2, in2, RawCS.toCS, Buf.ofList, Finset.sum_Ico_eq_sum_range, Finset.sum_range_succ]

theorem inj2 : Injective 2 (mat true (raw2.toCS 2 in2.vals)) := by
  intro x y h
  have h0 := h 0 (by decide)
  have h1 := h 1 (by decide)
  rw [(mat2 x).1, (mat2 y).1] at h0
  rw [(mat2 x).2, (mat2 y).2] at h1
  intro i hi
  match i, hi with
  | 0, _ => exact h1
  | 1, _ => linarith

theorem sym2 : SymMat 2 (mat true (raw2.toCS 2 in2.vals)) := by
  have h01 : mat true (raw2.toCS 2 in2.vals) 0 1 = mat true (raw2.toCS 2 in2.vals) 1 0 := by
    simp [mat, CS.crs, CS.entry, raw2, in2, RawCS.toCS, Buf.ofList, Finset.sum_Ico_eq_sum_range, Finset.sum_range_succ]
  intro i j hi hj
  have : i = 0 ∨ i = 1 := by omega
  have : j = 0 ∨ j = 1 := by omega
  rcases ‹i = 0 ∨ i = 1› with rfl | rfl <;> rcases ‹j = 0 ∨ j = 1› with rfl | rfl
  · rfl
  · exact h01
  · exact h01.symm
  · rfl

theorem pat2 : (raw2.toCS 2 in2.vals).PatSym := ExSymm.patSym_of (by decide)

/-- Non-vacuity of `C70_exact_scaled`: with iterative scaling, real arithmetic and an exact dense solver the hypotheses hold, and `[[2,1],[1,0]] x = b` is solved. -/
example (junk : Nat → ℝ) (spd : Int) (b : Buf ℝ) (hb : b.size = 2) :
    ∃ h₁, factorize junk (fun _ => 0) (allKernels ExPart.envR ExIter.optsI ⟨fun a => a, spd⟩ false true { level := fun _ _ _ _ _ => throw (.ub "not used"), dense := exactDense true })
      ⟨.off, true, -1, true⟩ in2 0 { precs := [], work := ⟨0, junk⟩, nsp := none, nspTran := none, stats := fun _ => 0, nrows := 0, ncols := 0 } = (h₁, .ok ()) ∧
    ∃ h₂ z, solve junk b (Buf.mk' 2 0) false 0 h₁ = (h₂, .ok z) ∧ z.size = 2 ∧ 2 * z.get 0 + z.get 1 = b.get 0 ∧ z.get 0 = b.get 1 := by
  have hsz : SizesOK ExPart.envR 2 := fun _ => ⟨⟨(by show 2 ≤ 100; omega), fun _ _ => Nat.one_pos⟩, ⟨(by show 2 ≤ 100; omega), fun _ _ => Nat.one_pos⟩⟩
  have hnd : NoDrop ExIter.optsI 2 := ⟨le_refl _, le_refl _, by show (0 : ℝ) ≤ 1; norm_num, by show ((2 * 2 : Nat) : ℝ) ≤ 200; norm_num, by show ((2 * 2 : Nat) : ℝ) ≤ 200; norm_num⟩
  obtain ⟨h₁, e1, e2⟩ := C70_exact_scaled ExPart.envR ExIter.optsI contractS ⟨fun a => a, spd⟩ { level := fun _ _ _ _ _ => throw (.ub "not used"), dense := exactDense true } junk (fun _ => 0)
    ⟨.off, true, -1, true⟩ rfl in2 raw2 2 valid2 sym2 pat2 hsz hnd inj2 0 (fun S _ _ _ hi => by
      have hu := isUnit_of_injective hi
      exact ⟨rfl, fun y hy => ⟨_, rfl, rfl, fun i hi => pick_spec hu y.get hi⟩, fun y hy => ⟨_, rfl, rfl, fun i hi => rfl⟩⟩)
    { precs := [], work := ⟨0, junk⟩, nsp := none, nspTran := none, stats := fun _ => 0, nrows := 0, ncols := 0 } (fun _ => rfl) rfl
  obtain ⟨h₂, z, s1, s2, s3⟩ := e2 b (Buf.mk' 2 0) hb rfl
  have h0 : Spec.mulVec 2 (mat true (raw2.toCS 2 in2.vals)) z.get 0 = b.get 0 := s3 0 (by decide)
  have h1 : Spec.mulVec 2 (mat true (raw2.toCS 2 in2.vals)) z.get 1 = b.get 1 := s3 1 (by decide)
  rw [(mat2 z.get).1] at h0
  rw [(mat2 z.get).2] at h1
  exact ⟨h₁, e1, h₂, z, s1, s2, h0, h1⟩

end ExSymmIter

end Hif.Props
