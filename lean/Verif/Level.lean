import Verif.Extract
import Verif.Factor
import Verif.PCrout
import Verif.FacPars
import Verif.Pre
import Verif.DropOff
import Verif.Schur
import Verif.Struct

set_option linter.unusedSectionVars false
set_option linter.unusedVariables false

/-!
# One level of the factorization (model)

Model of `level_factorize<false>` (src/hif/alg/factor.hpp 558–1316) and of `pivot_level_factorize` (src/hif/alg/pivot_factor.hpp 64–757), composed of the models of its parts: the counterpart matrix,
the preprocessing, the Crout phase, the splitting of the factors, dropping in the off-diagonal blocks, the Schur complement and the
extraction of `E` and `F`.  The decisions at the end of a level are in `Factor.lean`.

Simplifications.
* `row_sizes`, `col_sizes` are inputs of every level (`Env.rows`, `Env.cols`); their initialization and the update between levels
  (630–652, 1245–1257) are modelled by `initSizes` and `nextSizes`.
* The pattern symmetry ratio (598–600) is a parameter, so are `cbrt` and `pow`.
* The work arrays `l`, `ut` keep sizes and tags of the Crout phase; what dropping leaves in their value and index arrays is arbitrary
  (`junkK`, `junkN`).  `P`, `Q` are fresh arrays of the same size when they serve as buffers.
* The counters of dropped entries (`stats[4]`, `stats[5]`) are not modelled; sequential kernels are used (see C23 for the threaded ones).
* The debug-only assertions, messages, timers and allocation failures are not modelled.
-/

namespace Hif
namespace Level

/-- The options read by a level (Options.h). -/
structure Opts (R : Type _) where
  par : FacParOpts R
  pre : Pre.Opts R
  noPre : Bool
  symmPreLvls : Int
  fatSchur1st : Bool
  denseThres : Int
  cD : R
  rho : R
  gamma : R

/-- What a level takes from outside the modelled code. -/
structure Env (K R : Type _) where
  a : Pre.Arith K R
  pre : Pre.Kernels K R
  nth : (Nat → R) → Nat → List Nat → List Nat
  safeMin : R
  cbrt : R → R
  patSymm : CS K → CS K → Bool
  rows : Nat → Buf Nat
  cols : Nat → Buf Nat
  junkK : Nat → K
  junkN : Nat → Nat
  srt : (Nat → R) → List Nat → List Nat

section
variable {K R : Type _} [Field K] [DecidableEq K] [Inhabited K] [Field R] [LinearOrder R] [FloorSemiring R]

/-- `do_symm_pre` (585–606) for `IsSymm = false`. -/
def symmPre (e : Env K R) (o : Opts R) (lvl : Nat) (A C : CS K) : Bool :=
  if o.symmPreLvls < 0 then decide ((lvl : Int) ≤ -o.symmPreLvls) && e.patSymm A C
  else decide ((lvl : Int) ≤ o.symmPreLvls)

/-- Preprocessing or its replacement (657–691). -/
def prepare (e : Env K R) (o : Opts R) (sym : Bool) (m0 lvl : Nat) (Accs Acrs : CS K) : M (Pre.Matched R) :=
  if o.noPre then
    pure { pat := ⟨Buf.mk' 1 0, Buf.mk' 0 0⟩, m := Acrs.psize, s := Buf.mk' Acrs.psize 1, t := Buf.mk' Acrs.psize 1,
           p := ⟨eyeBuf Acrs.psize, eyeBuf Acrs.psize⟩, q := ⟨eyeBuf Acrs.psize, eyeBuf Acrs.psize⟩ }
  else Pre.doPreprocess e.a e.pre sym o.pre m0 lvl Accs Acrs

/-- The input of the Crout phase (713–792): scalings are converted when they are multiplied with matrix values. -/
def croutIn (e : Env K R) (n : Nat) (Acrs Accs : CS K) (g : Pre.Matched R) : Crout.In K :=
  { n := n, m2 := g.m, s := ⟨g.s.size, fun i => e.a.emb (g.s.get i)⟩, t := ⟨g.t.size, fun i => e.a.emb (g.t.get i)⟩,
    Acrs := Acrs, Accs := Accs, p0 := g.p.p, pinv0 := g.p.inv, q0 := g.q.p, qinv0 := g.q.inv }

/-- `P[0] = 0; P[i-m+1] = P[i-m] + row_sizes[p[i]]` (1160–1164). -/
def refArr (n m : Nat) (sz p : Buf Nat) : M (Buf Nat) := do
  let P ← (Buf.mk' (n * 2) 0).wr 0 0
  forUp m n P fun i P => do
    let x ← P.rd (i - m)
    let pi ← p.rd i
    let z ← sz.rd pi
    P.wr (i - m + 1) (x + z)

/-- `a_L`, `a_U` (1147–1151; with pivoting pivot_factor.hpp 606–610). -/
def blockAlpha (o : Opts R) (piv : Bool) (lvl : Nat) (alpha : R) : R :=
  let a := if piv then 4 * alpha else alpha
  if lvl = 1 ∧ o.fatSchur1st = true then a * 2 else a

/-- `drop_L_E` / `drop_U_F` as called (1156–1167). -/
def dropOff (e : Env K R) (alpha : R) (n m : Nat) (sz p : Buf Nat) (T : CS K) (v : SV K) : M (CS K) :=
  if m < n then do
    let ref ← refArr n m sz p
    Drop.dropBlock e.nth e.a.nrm ref alpha T v.vals v.inds
  else pure T

/-- Convert the Schur complement to the format of the input (1315); the empty one is not converted. -/
def toInput (rowMajor : Bool) (S : CS K) : M (CS K) := if rowMajor ∨ S.psize = 0 then pure S else S.convert

/-- The blocks of a level that is kept. -/
structure Blocks (K : Type _) where
  L : CS K
  U : CS K
  E : CS K
  F : CS K
  S : CS K

/-- The Schur part of a level (1128–1183; pivot_factor.hpp 581–654) and the extraction of the off-diagonal blocks (1259–1270; pivot_factor.hpp 708–718). -/
def blocks (e : Env K R) (o : Opts R) (piv rowMajor : Bool) (lvl : Nat) (I : Crout.In K) (r : Crout.Out K) : M (Blocks K) := do
  let LE ← r.L.splitDualWith true r.m r.Lstart
  let LB ← r.L.splitWith false r.m r.Lstart
  let UF2 ← r.U.splitDualWith true r.m r.Ustart
  let UB ← r.U.splitDualWith false r.m r.Ustart
  let LE ← dropOff e (blockAlpha o piv lvl o.par.alphaL) I.n r.m (e.rows lvl) r.p.p LE r.l
  let UF2 ← dropOff e (blockAlpha o piv lvl o.par.alphaU) I.n r.m (e.cols lvl) r.q.p UF2 r.ut
  let UF ← UF2.convert
  let S ← SchurIn.compute ⟨I.s, I.Acrs, I.t, r.p.p, r.q.inv, r.m, LE, r.d, UF⟩ e.junkK e.junkN
    { r.l with vals := ⟨r.l.vals.size, e.junkK⟩, inds := ⟨r.l.inds.size, e.junkN⟩ }
  let E ← Extract.extractE I.s I.Acrs I.t r.m r.p.p r.q.inv
  let F ← Extract.extractF I.s I.Accs I.t r.m r.p.inv r.q.p ⟨r.ut.vals.size, e.junkK⟩
  let S ← toInput rowMajor S
  pure ⟨LB, UB, E, F, S⟩

/-- `AmB_nnz` (1195–1197). -/
def ambNnz (rows cols p q : Buf Nat) (m n : Nat) : M Nat :=
  forUp m n 0 fun i c => do
    let pi ← p.rd i
    let a ← rows.rd pi
    let qi ← q.rd i
    let b ← cols.rd qi
    pure (c + (a + b))

/-- `ceil(nm*nm*rho) <= dense_thres1` (1201–1203, 1233). -/
def few (o : Opts R) (nm nnz : Nat) : Bool :=
  decide (⌈((nm * nm : Nat) : R) * o.rho⌉₊ ≤ ⌊max o.par.alphaL o.par.alphaU * (nnz : R)⌋₊)

/-- `dense_thres2` (1204–1208). -/
def denseThres2 (e : Env K R) (o : Opts R) (N : Nat) : Nat :=
  max ⌈o.cD * e.cbrt (N : R)⌉₊ (if o.denseThres ≤ 0 then 2000 else o.denseThres.toNat)

/-- The increments of the first four statistics (1052–1056). -/
def statInc (m0 : Nat) (pf : Int × Nat) (r : Crout.Out K) (i : Nat) : Nat :=
  if i = 0 then m0 - pf.2
  else if i = 1 then (if pf.2 ≠ 0 then r.defers else 0)
  else if i = 2 then (if pf.1 = 2 then 0 else r.nDiag)
  else if i = 3 then (if pf.1 = 2 then 0 else r.nCond)
  else 0

/-- What a level that eliminates nothing hands over (1128, 1184–1190). -/
def emptyOut (e : Env K R) (o : Opts R) (N m0 : Nat) (g : Pre.Matched R) (r : Crout.Out K) (n nnz : Nat) : CroutOut K :=
  { m2 := g.m, m := r.m, L := CS.zero 0 0, U := CS.zero 0 0, E := CS.zero 0 n, F := CS.zero n 0, d := r.d, s := onesBuf n, t := onesBuf n,
    p := eyeBuf n, pinv := eyeBuf n, q := eyeBuf n, qinv := eyeBuf n, schur := CS.zero 0 0, few := false, fewAll := few o n nnz,
    dt2 := denseThres2 e o N, stats := statInc m0 (postFlag g.m r.m) r }

/-- What a kept level hands over. -/
def keptOut (e : Env K R) (o : Opts R) (N m0 : Nat) (g : Pre.Matched R) (I : Crout.In K) (r : Crout.Out K) (b : Blocks K) (nnz : Nat) :
    CroutOut K :=
  { m2 := g.m, m := r.m, L := b.L, U := b.U, E := b.E, F := b.F, d := r.d, s := I.s, t := I.t, p := r.p.p, pinv := r.p.inv,
    q := r.q.p, qinv := r.q.inv, schur := b.S, few := few o (I.n - r.m) nnz, fewAll := false, dt2 := denseThres2 e o N,
    stats := statInc m0 (postFlag g.m r.m) r }

/-- After the Crout phase: the case distinctions of 1032–1050 and 1128 (pivot_factor.hpp 496–503 and 581). -/
def conclude (e : Env K R) (o : Opts R) (piv auto rowMajor : Bool) (lvl N m0 : Nat) (g : Pre.Matched R) (I : Crout.In K) (r : Crout.Out K) :
    M (CroutOut K) :=
  if (postFlag g.m r.m).2 = 0 ∨ (auto = true ∧ (postFlag g.m r.m).1 ≠ 0) then do
    let nnz ← ambNnz (e.rows lvl) (e.cols lvl) (eyeBuf I.n) (eyeBuf I.n) 0 I.n
    pure (emptyOut e o N m0 g r I.n nnz)
  else do
    let b ← blocks e o piv rowMajor lvl I r
    let nnz ← ambNnz (e.rows lvl) (e.cols lvl) r.p.p r.q.p r.m I.n
    pure (keptOut e o N m0 g I r b nnz)

/-- `level_factorize<false>` (558–1316) up to the decisions of the driver.  `auto` is `opts.pivot == PIVOTING_AUTO`; `rowMajor` is the
format of the input. -/
def plainLevel (e : Env K R) (o : Opts R) (auto rowMajor : Bool) (lvl N m0 : Nat) (A : CS K) : M (CroutOut K) :=
  if A.psize ≠ A.ssize then throw (.hif "only squared systems are supported")
  else do
    let C ← A.convert
    let Acrs := if rowMajor then A else C
    let Accs := if rowMajor then C else A
    let g ← prepare e o (symmPre e o lvl A C) m0 lvl Accs Acrs
    let I := croutIn e A.psize Acrs Accs g
    let r ← Crout.croutPhase (levelPar e.a.nrm e.safeMin e.nth e.a.sqrt o.par lvl (e.rows lvl) (e.cols lvl)) I
    conclude e o false auto rowMajor lvl N m0 g I r

/-- Symmetric or asymmetric preprocessing with pivoting (pivot_factor.hpp 128–146): the pattern is not looked at. -/
def symmPrePivot (o : Opts R) (lvl : Nat) : Bool := !decide ((if o.symmPreLvls ≤ 0 then 0 else o.symmPreLvls.toNat) < lvl)

/-- The parameters of the Crout loop of `pivot_level_factorize` at a level (pivot_factor.hpp 232–246, 271–300, 420–447): those of the loop without
pivoting with both `alpha` multiplied by 4, and the threshold `gamma`. -/
def pivotPar (e : Env K R) (o : Opts R) (lvl : Nat) : PCrout.Par K R :=
  let v := localPars e.a.sqrt o.par lvl
  { nrm := e.a.nrm, kappaD := v.kappaD, kappa := v.kappa, safeMin := e.safeMin,
    dropU := Crout.realDrop e.a.nrm e.nth v.tauU v.kappaD (v.alphaU * 4) (e.rows lvl),
    dropL := Crout.realDrop e.a.nrm e.nth v.tauL v.kappaD (v.alphaL * 4) (e.cols lvl), gamma := o.gamma, srt := e.srt }

/-- `pivot_level_factorize` (pivot_factor.hpp 64–757) up to the decisions of the driver. -/
def pivotLevel (e : Env K R) (o : Opts R) (rowMajor : Bool) (lvl N m0 : Nat) (A : CS K) : M (CroutOut K) :=
  if A.psize ≠ A.ssize then throw (.hif "only squared systems are supported")
  else do
    let C ← A.convert
    let Acrs := if rowMajor then A else C
    let Accs := if rowMajor then C else A
    let g ← prepare e o (symmPrePivot o lvl) m0 lvl Accs Acrs
    let I := croutIn e A.psize Acrs Accs g
    let r ← PCrout.croutPhase (pivotPar e o lvl) I
    conclude e o true false rowMajor lvl N m0 g I r

/-- The kernels of the driver with these levels in place of the abstract ones. -/
def kernels (e : Env K R) (o : Opts R) (auto rowMajor : Bool) (other : Kernels K) : Kernels K :=
  { level := fun kind lvl N m0 A =>
      match kind with
      | .plain false => plainLevel e o auto rowMajor lvl N m0 A
      | .plain true => other.level (.plain true) lvl N m0 A  -- see `partKernels`
      | .pivot => pivotLevel e o rowMajor lvl N m0 A
      | .symm => other.level .symm lvl N m0 A,
    dense := other.dense }

/-! ### reference sizes -/

/-- `row_sizes[i] = A_crs.nnz_in_row(i)`, then raising what is below `ceil(0.85 nnz / n)` to it (630–652). -/
def initSizes (A : CS K) (nnz n : Nat) : M (Buf Nat) := do
  let b ← forUp 0 n (Buf.mk' n 0) fun i b => do
    let x ← A.start.rd (i + 1)
    let y ← A.start.rd i
    b.wr i (x - y)
  let lower := (85 * nnz + (100 * n - 1)) / (100 * n)
  forUp 0 n b fun i b => do
    let x ← b.rd i
    if x < lower then b.wr i lower else pure b

/-- `P[i] = row_sizes[p[i]]` for the deferred rows, then moved to the front of `row_sizes` (1240–1253). -/
def nextSizes (n m : Nat) (sz p : Buf Nat) : M (Buf Nat) := do
  let P ← forUp m n (Buf.mk' (n * 2) 0) fun i P => do
    let pi ← p.rd i
    let x ← sz.rd pi
    P.wr i x
  forUp m n sz fun i sz => do
    let x ← P.rd i
    sz.wr (i - m) x

end
end Level
end Hif
