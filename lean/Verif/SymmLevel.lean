import Verif.Level
import Verif.Symm

set_option linter.unusedSectionVars false
set_option linter.unusedVariables false

/-!
# One level of the symmetric factorization (model)

Model of `symm_level_factorize` (src/hif/alg/symm_factor.hpp 126–675), composed like `Level.lean`.  Simplifications: those of `Level.lean` and of
`Symm.lean`; in particular the value type is real, so the transposes of the source need no conjugation.
-/

namespace Hif
namespace Level

/-- What only the symmetric level reads: `opts.spd` (284) and the order of the value type. -/
structure SymmPar (K R : Type _) where
  re : K → R
  spd : Int

section
variable {K R : Type _} [Field K] [DecidableEq K] [Inhabited K] [Field R] [LinearOrder R] [FloorSemiring R]

/-- The sign tests of `is_bad_diag` (288–289). -/
def refuseOf (x : SymmPar K R) (a : K) : Bool :=
  (decide (0 < x.spd) && decide (x.re a ≤ 0)) || (decide (x.spd < 0) && decide (0 ≤ x.re a))

/-- The parameters of the Crout loop at a level (279–291, 408–411). -/
def symmPar (e : Env K R) (o : Opts R) (x : SymmPar K R) (lvl : Nat) : Symm.Par K R :=
  let v := localPars e.a.sqrt o.par lvl
  { nrm := e.a.nrm, kappaD := v.kappaD, kappa := v.kappa, safeMin := e.safeMin,
    drop := Crout.realDrop e.a.nrm e.nth v.tauL v.kappaD v.alphaL (e.rows lvl), refuse := refuseOf x }

/-- The input of the Crout phase (236–305): `make_transpose` (157) aliases the arrays of `A`, so both storages are those of the input. -/
def symmIn (e : Env K R) (n : Nat) (A : CS K) (g : Pre.Matched R) : Symm.In K :=
  { n := n, m2 := g.m, s := ⟨g.s.size, fun i => e.a.emb (g.s.get i)⟩, t := ⟨g.t.size, fun i => e.a.emb (g.t.get i)⟩,
    A := A, p0 := g.p.p, pinv0 := g.p.inv, q0 := g.q.p, qinv0 := g.q.inv }

/-- The Schur part (513–567) and the off-diagonal blocks (616–630): `U_B`, `U_F` and `F` are made from `L_B`, `L_E` and `E` by transposition. -/
def symmBlocks (e : Env K R) (o : Opts R) (rowMajor : Bool) (lvl : Nat) (I : Symm.In K) (r : Symm.Out K) : M (Blocks K) := do
  let LE ← r.L.splitDualWith true r.m r.Lstart
  let LB ← r.L.splitWith false r.m r.Lstart
  let UB ← LB.convert
  let LE ← dropOff e (blockAlpha o false lvl o.par.alphaL) I.n r.m (e.rows lvl) r.p.p LE r.l
  let UF ← LE.convert
  let S ← SchurIn.compute ⟨I.s, I.A, I.t, r.p.p, r.p.inv, r.m, LE, r.d, UF⟩ e.junkK e.junkN
    { r.l with vals := ⟨r.l.vals.size, e.junkK⟩, inds := ⟨r.l.inds.size, e.junkN⟩ }
  let E ← Extract.extractE I.s I.A I.t r.m r.p.p r.p.inv
  let F ← E.convert
  let S ← toInput rowMajor S
  pure ⟨LB, UB, E, F, S⟩

/-- `AmB_nnz` (576–577). -/
def symmNnz (rows p : Buf Nat) (m n : Nat) : M Nat :=
  forUp m n 0 fun i c => do
    let pi ← p.rd i
    let a ← rows.rd pi
    pure (c + a * 2)

/-- `ceil(nm*nm*rho) <= dense_thres1` with `dense_thres1 = alpha_L * AmB_nnz` (581, 600). -/
def symmFew (o : Opts R) (nm nnz : Nat) : Bool :=
  decide (⌈((nm * nm : Nat) : R) * o.rho⌉₊ ≤ ⌊o.par.alphaL * (nnz : R)⌋₊)

/-- After the Crout phase (444–456, 513, 568–573, 575–640). -/
def symmConclude (e : Env K R) (o : Opts R) (rowMajor : Bool) (lvl N m0 : Nat) (g : Pre.Matched R) (I : Symm.In K) (r : Symm.Out K) :
    M (CroutOut K) :=
  if (postFlag g.m r.m).2 = 0 then do
    let nnz ← symmNnz (e.rows lvl) (eyeBuf I.n) 0 I.n
    pure { emptyOut e o N m0 g r.lift I.n nnz with fewAll := symmFew o I.n nnz }
  else do
    let b ← symmBlocks e o rowMajor lvl I r
    let nnz ← symmNnz (e.rows lvl) r.p.p r.m I.n
    pure { keptOut e o N m0 g I.gen r.lift b nnz with few := symmFew o (I.n - r.m) nnz }

/-- `symm_level_factorize` (126–675) up to the decisions of the driver; the preprocessing is the symmetric one (186–191). -/
def symmLevel (e : Env K R) (o : Opts R) (x : SymmPar K R) (rowMajor : Bool) (lvl N m0 : Nat) (A : CS K) : M (CroutOut K) :=
  if A.psize ≠ A.ssize then throw (.hif "only squared systems are supported")
  else do
    let g ← prepare e o true m0 lvl A A
    let I := symmIn e A.psize A g
    let r ← Symm.croutPhase (symmPar e o x lvl) I
    symmConclude e o rowMajor lvl N m0 g I r

/-- The kernels of the driver with all three kinds of levels in place of the abstract ones. -/
def allKernels (e : Env K R) (o : Opts R) (x : SymmPar K R) (auto rowMajor : Bool) (other : Kernels K) : Kernels K :=
  kernels e o auto rowMajor
    { level := fun kind lvl N m0 A =>
        match kind with
        | .symm => symmLevel e o x rowMajor lvl N m0 A
        | k => other.level k lvl N m0 A,
      dense := other.dense }

end
end Level
end Hif
