import Verif.PSymmDrop
import Verif.FactorRun

set_option linter.unusedVariables false
set_option linter.unusedSectionVars false

/-!
# `level_factorize<true>`: a level with a symmetric leading block (model and proofs)

Model of `level_factorize` with `IsSymm = true` (src/hif/alg/factor.hpp 558–1316): the first level of `factorize(A, params, m0)` with `0 < m0`.
Everything but the preprocessing, which is always the symmetric one (588), and the Crout phase (`PSymm.lean`) is as in `plainLevel`.
-/

namespace Hif
namespace Level

section model
variable {K : Type} {R : Type _} [Field K] [DecidableEq K] [Inhabited K] [Field R] [LinearOrder R] [FloorSemiring R]

/-- The parameters of the Crout loop (factor.hpp 697–711, 803–875, 933–970). -/
def psymmPar (e : Env K R) (o : Opts R) (lvl : Nat) : PSymm.Par K R :=
  let v := localPars e.a.sqrt o.par lvl
  { nrm := e.a.nrm, kappaD := v.kappaD, kappa := v.kappa, safeMin := e.safeMin,
    dropU := Crout.realDrop e.a.nrm e.nth v.tauU v.kappaD v.alphaU (e.rows lvl),
    dropL := PSymm.tailDrop e.a.nrm e.nth v.tauL v.kappaD v.alphaL (e.cols lvl) }

/-- `level_factorize<true>` (558–1316) up to the decisions of the driver. -/
def partLevel (e : Env K R) (o : Opts R) (auto rowMajor : Bool) (lvl N m0 : Nat) (A : CS K) : M (CroutOut K) :=
  if A.psize ≠ A.ssize then throw (.hif "only squared systems are supported")
  else do
    let C ← A.convert
    let Acrs := if rowMajor then A else C
    let Accs := if rowMajor then C else A
    let g ← prepare e o true m0 lvl Accs Acrs
    let I := croutIn e A.psize Acrs Accs g
    let r ← PSymm.croutPhase (psymmPar e o lvl) I
    conclude e o false auto rowMajor lvl N m0 g I r

/-- The kernels of the driver with this level in place of the abstract one. -/
def partKernels (e : Env K R) (o : Opts R) (auto rowMajor : Bool) (other : Kernels K) : Kernels K :=
  kernels e o auto rowMajor
    { level := fun kind lvl N m0 A =>
        match kind with
        | .plain true => partLevel e o auto rowMajor lvl N m0 A
        | k => other.level k lvl N m0 A,
      dense := other.dense }

end model

section runs
open Finset
variable {K R : Type} [Field K] [StarRing K] [DecidableEq K] [Inhabited K] [Field R] [LinearOrder R] [IsStrictOrderedRing R] [FloorSemiring R]

/-- A symmetric preprocessing that keeps the first `m0` rows and columns in front. -/
structure LeadPrepared (n m0 : Nat) (g : Pre.Matched R) : Prop where
  base : Prepared n g
  m : g.m ≤ m0
  st : ∀ i, i < n → g.t.get i = g.s.get i
  pq : ∀ i, i < n → g.q.p.get i = g.p.p.get i
  lead : ∀ i, i < g.m → g.p.p.get i < m0

/-- The level succeeds if the preprocessing of its matrix does; the factors of a level that is kept are transposes of each other. -/
theorem partLevel_runs {e : Env K R} (he : EnvOK e) (o : Opts R) (auto rowMajor : Bool) (lvl N m0 : Nat)
    {A : CS K} (h : A.WF) (ht : A.Tight) (hs : A.Sorted) (hsq : A.ssize = A.psize) (hm0 : m0 ≤ A.psize)
    (hsym : ∀ i j, i < m0 → j < m0 → mat rowMajor A i j = mat rowMajor A j i)
    (hp : ∀ C, CS.ConvSpec A C → Runs (prepare e o true m0 lvl (if rowMajor then C else A) (if rowMajor then A else C)) (LeadPrepared A.psize m0))
    (hsz : SizesOK e A.psize) :
    Runs (partLevel e o auto rowMajor lvl N m0 A) fun out => LevelOut m0 o auto rowMajor A out ∧
      ((postFlag out.m2 out.m).2 ≠ 0 → (auto = true → (postFlag out.m2 out.m).1 = 0) → out.m ≤ m0 ∧ ∀ i j, i < out.m → j < out.m → out.U.ccs i j = out.L.ccs j i) := by
  unfold partLevel
  rw [if_neg (by omega), runs_bind]
  refine (CS.convert_runs h ht).mono ?_
  intro C c
  obtain ⟨h2, hm⟩ := two_of h ht hs hsq c rowMajor
  rw [runs_bind]
  refine (hp C c).mono ?_
  intro g hgl
  have hg := hgl.base
  have hI := croutIn_ok e h2 hg
  obtain ⟨⟨hr1, hr2⟩, hc1, hc2⟩ := hsz lvl
  have hdU := Crout.realDrop_ok A.psize e.a.nrm e.nth he.nth (localPars e.a.sqrt o.par lvl).tauU (localPars e.a.sqrt o.par lvl).kappaD
    (localPars e.a.sqrt o.par lvl).alphaU (e.rows lvl) hr1
  have hdL := PSymm.tailDrop_ok A.psize e.a.nrm e.nth he.nth (localPars e.a.sqrt o.par lvl).tauL (localPars e.a.sqrt o.par lvl).kappaD
    (localPars e.a.sqrt o.par lvl).alphaL (e.cols lvl) hc1
  have hB : ∀ x y, x < g.m → y < g.m → (croutIn e A.psize (if rowMajor then A else C) (if rowMajor then C else A) g).B x y =
      (croutIn e A.psize (if rowMajor then A else C) (if rowMajor then C else A) g).B y x := by
    intro x y hx hy
    have hgm := hgl.m
    have lx := hgl.lead x hx
    have ly := hgl.lead y hy
    unfold Crout.In.B croutIn
    simp only
    rw [hgl.pq x (by omega), hgl.pq y (by omega), hgl.st _ (by omega), hgl.st _ (by omega), hm _ _ (by omega) (by omega), hm _ _ (by omega) (by omega),
      hsym _ _ lx ly]
    ring
  simp only [runs_bind]
  refine (PSymm.croutPhase_runs (pr := psymmPar e o lvl) hI hB hdU hdL).mono ?_
  rintro r ⟨gh, hF, hgs⟩
  have hmr : r.m ≤ g.m := by have h1 : r.m + r.defers = g.m := hF.tot; omega
  have hgm := hgl.m
  have hsy := PSymm.Final.symm hI hF hgs
  refine (conclude_runs_fac he o false auto rowMajor lvl N m0 h2 hm hsz hg (hF.res hI) fun hnd => ?_).mono fun out ho => ⟨ho.1, fun k1 k2 => ?_⟩
  rotate_left
  · obtain ⟨k3, k4⟩ := ho.2 k1 k2
    refine ⟨by omega, fun i j hi hj => ?_⟩
    rw [k3] at hi hj
    rw [(k4 i j hi hj).2, (k4 j i hj hi).1, hsy i j hi hj]
  have hnp := hnd.pars e.a.sqrt lvl
  have hkU := keepsAll_of he ⟨hr1, hr2⟩ hnp.2.1 hnp.2.2.1 hnp.2.2.2.2
  refine ⟨hkU, PSymm.gh_keeps' ⟨hkU, fun s hs => ?_⟩⟩
  refine PSymm.tailDrop_keeps A.psize e.a.nrm he.nrm e.nth he.nth _ _ _ (e.cols lvl) hc1 hnp.1 hnp.2.2.1 (fun lab hlab hp => ?_) s hs
  have h1 : (1 : R) ≤ ((e.cols lvl).get lab : Nat) := by exact_mod_cast hc2 lab hlab
  have := hnp.2.2.2.1 hp
  nlinarith

end runs
end Level
end Hif
