import Verif.Props.Gmres
import Verif.Props.LupEnd
import Verif.Props.MatVec
import Mathlib.Analysis.Real.Sqrt

set_option linter.unusedSectionVars false
set_option linter.unusedVariables false

/-!
# C78: GMRES with the factorization as preconditioner
-/

namespace Hif
namespace Props
open Hif Level Spec HIF HM Finset

/-- Square roots exist for the real numbers. -/
example : Gmres.SqrtOK Real.sqrt := fun x hx => ⟨Real.sqrt_nonneg x, Real.mul_self_sqrt hx⟩

section wholeRun
variable {K R : Type} [Field K] [LinearOrder K] [IsStrictOrderedRing K] [StarRing K] [TrivialStar K] [Inhabited K]
  [Field R] [LinearOrder R] [IsStrictOrderedRing R] [FloorSemiring R]

/-- The call `gmres_hif(A, b, M, restart, rtol, maxit, verbose, true)` (gmres.hpp 18–22) with the factorized object `h`: `A.multiply` is the product in the storage of the input,
`M.solve` the solve of the object (its mutable work array is put back before each call). -/
def gmresCall (junk : Nat → K) (sqrt : K → K) (A : Input K) (C : CS K) (h : HIF K) (rk restart maxit : Nat) (rtol stag nan : K) : Gmres.Env K K :=
  { sc := Gmres.realScal sqrt, flex := false, restart := restart, rtol := rtol, maxit := maxit, stag := stag, nan := nan
    mul := fun x y => if A.rowMajor then C.crsMultiplyNt x y else C.ccsMultiplyNt x y
    prec := fun _ v w => (solve junk v w false rk h).2 }

/-- C78 (end to end): factorize a valid nonsingular square real matrix without dropping, with LUP for the last block, in any pivoting mode, whatever the object held before; then GMRES
with this preconditioner returns, for every right-hand side `b ≠ 0`, the exact solution with `SUCCESS` after one iteration. -/
theorem C78_end_to_end (e : Level.Env K R) (o : Level.Opts R) (hc : LevelContract e o) (other : Kernels K) (junk : Nat → K) (ijunk : Nat → Int)
    (opts : FacOpts) (hsy : opts.isSymm = false) (A : Input K) (raw : RawCS) (n : Nat) (hA : ValidSquare A ijunk raw n) (hsz : SizesOK e n)
    (hnd : NoDrop o n) (hinj : Injective n (mat A.rowMajor (raw.toCS n A.vals)))
    (nrm : K → R) (hn : ∀ x, nrm x ≤ nrm 0 → x = 0) (hdense : other.dense = Lup.dense junk (Lup.getf2 nrm) A.rowMajor)
    (rk : Nat) (hrk : n ≤ rk) (h : HIF K) (hw : h.empty = true → h.work.size = 0) (hns : h.nsp = none)
    (sqrt : K → K) (hs : Gmres.SqrtOK sqrt) (restart maxit : Nat) (rtol stag nan : K) (hres : 0 < restart) (hmx : 0 < maxit) (hrt : 0 ≤ rtol) (hrt1 : rtol < 1) (hst : 0 < stag)
    (b : Buf K) (hb : b.size = n) (hb0 : ∃ i, i < n ∧ b.get i ≠ 0) :
    ∃ h₁, factorize junk ijunk (kernels e o (opts.pivot == .auto) A.rowMajor other) opts A 0 h = (h₁, .ok ()) ∧
      Runs (Gmres.gmres (gmresCall junk sqrt A (raw.toCS n A.vals) h₁ rk restart maxit rtol stag nan) junk b) fun r => r.2 = (0, 1) ∧ r.1.size = n ∧
        ∀ i, i < n → mulVec n (mat A.rowMajor (raw.toCS n A.vals)) r.1.get i = b.get i := by
  obtain ⟨h₁, e1, hsol⟩ := C77_end_to_end e o hc other junk ijunk opts hsy A raw n hA hsz hnd hinj nrm hn hdense rk hrk h hw hns
  refine ⟨h₁, e1, ?_⟩
  set T := mat A.rowMajor (raw.toCS n A.vals) with hT
  have hWF : (raw.toCS n A.vals).WF := (C09_valid_wf raw n hA.valid A.vals hA.vsize).1
  have hps : (raw.toCS n A.vals).psize = n := hA.dim
  have hss : (raw.toCS n A.vals).ssize = n := rfl
  -- the preconditioner as a function
  have hex : ∀ v : Nat → K, ∃ x : Nat → K, ∀ i, i < n → mulVec n T x i = v i := by
    intro v
    obtain ⟨_, x, _, _, hx⟩ := hsol ⟨n, v⟩ ⟨n, v⟩ rfl rfl
    exact ⟨x.get, hx⟩
  set f : (Nat → K) → Nat → K := fun v => Classical.choose (hex v) with hf
  have hfx : ∀ (v : Nat → K) (i : Nat), i < n → mulVec n T (f v) i = v i := fun v => Classical.choose_spec (hex v)
  have huniq : ∀ (x y : Nat → K), (∀ i, i < n → mulVec n T x i = mulVec n T y i) → ∀ i, i < n → x i = y i := hinj
  have hext : Gmres.Ext n f := fun v v' hv => huniq _ _ fun i hi => by rw [hfx v i hi, hfx v' i hi, hv i hi]
  have hlin : Gmres.LinOn n f := by
    intro α β a c
    refine huniq _ _ fun i hi => ?_
    rw [hfx _ i hi]
    have e2 : mulVec n T (fun i => α * f a i + β * f c i) i = α * mulVec n T (f a) i + β * mulVec n T (f c) i := by
      unfold mulVec
      rw [Finset.mul_sum, Finset.mul_sum, ← Finset.sum_add_distrib]
      exact Finset.sum_congr rfl fun k _ => by ring
    rw [e2, hfx a i hi, hfx c i hi]
  have hreg : Gmres.Reg n T f := ⟨hlin, fun v hv i hi => by rw [← hfx v i hi]; exact hv i hi⟩
  subst hb
  refine (C78_exact (e := gmresCall junk sqrt A (raw.toCS b.size A.vals) h₁ rk restart maxit rtol stag nan) (sqrt := sqrt) (A := T) (Mf := fun _ => f) hfx (fun _ _ => hreg)
    hrt hrt1 hst hres hmx hb0 junk).2 ⟨rfl, hs, ?_, ?_, fun _ => hext⟩
  · intro x y hx hy
    show Runs (if A.rowMajor then _ else _) _
    cases hrm : A.rowMajor
    · rw [if_neg (by simp)]
      obtain ⟨y', h1, h2, h3⟩ := C01_ccs_multiply (raw.toCS b.size A.vals) hWF x y (by rw [hps]; exact hx) (by rw [hss]; exact hy)
      refine ⟨y', h1, by rw [h2]; exact hy, fun i hi => ?_⟩
      rw [h3 i (by rw [hss]; exact hi), hps, hT, hrm]
      rfl
    · rw [if_pos rfl]
      obtain ⟨y', h1, h2, h3⟩ := C01_crs_multiply (raw.toCS b.size A.vals) hWF x y (by rw [hss]; exact hx) (by rw [hps]; exact hy)
      refine ⟨y', h1, by rw [h2]; exact hy, fun i hi => ?_⟩
      rw [h3 i (by rw [hps]; exact hi), hss, hT, hrm]
      rfl
  · intro k v w _ hv hw'
    obtain ⟨h₂, x, h1, h2, h3⟩ := hsol v w hv hw'
    refine ⟨x, ?_, h2, huniq _ _ fun i hi => ?_⟩
    · show (solve junk v w false rk h₁).2 = _
      rw [h1]
    · rw [h3 i hi, hfx v.get i hi]

end wholeRun

end Props
end Hif
