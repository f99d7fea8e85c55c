import Verif.Crout

set_option linter.unusedVariables false

/-!
# The symmetric Crout phase (model)

Model of the Crout part of `symm_level_factorize` (src/hif/alg/symm_factor.hpp 236–440) and of the two routines of the class `Crout` only it
uses: `compute_symm` (src/hif/alg/Crout.hpp 357–408) and `update_diag<true>` (613–630).  Only `L` is built; the upper factor is its transpose.

Simplifications: those of `Crout.lean`.  The value type is real, as the source itself requires (symm_factor.hpp 155–156: "For complex Hermitian
matrix, the following will not work"), so `real(a)` and `conjugate` do nothing; the sign tests of `is_bad_diag` are the parameter `refuse`.
-/

namespace Hif
namespace Symm
open Crout
variable {K : Type _}

section ops
variable [Field K] [DecidableEq K]

/-- Where the sweep starts in `compute_symm` (Crout.hpp 387–390): behind the current entry; its index is not looked at. -/
def symmFrom (G : FacSide K) (row : Nat) : M Nat := do
  let b ← G.T.start.rd row
  let st ← G.start.rd row
  let e ← G.T.start.rd (row + 1)
  pure (if b + st ≠ e then b + st + 1 else b + st)

/-- Body of the list loop of `compute_symm` (378–406): the column `c` of `L` times `d[c]` times its current entry is subtracted. -/
def symmBody (step : Nat) (L : FacSide K) (d : Buf K) (c : Nat) (v : SV K) : M (Option Nat × SV K) := do
  let b ← L.T.start.rd c
  let st ← L.start.rd c
  let x ← L.T.vals.rd (b + st)
  let dc ← d.rd c
  let lo ← symmFrom L c
  let e ← L.T.start.rd (c + 1)
  let v ← forUp lo e v fun k v => do
    let idx ← L.T.inds.rd k
    let y ← L.T.vals.rd k
    subAt step idx (dc * x * y) v
  let nx ← L.list.rd c
  pure (nx, v)

/-- `compute_symm(s, ccs_A, t, p, qk, m, L, L_start, L_list, d, l)` (357–408); `tqk` is `t[qk]`. -/
def computeSymm (step defers : Nat) (tqk : K) (A : CS K) (s : Buf K) (qk : Nat) (pinv : Buf Nat) (L : FacSide K) (d : Buf K) (v : SV K) : M (SV K) := do
  let v ← loadLine step defers tqk A s qk pinv v.reset
  if step ≠ 0 then do
    let h ← L.list.rd (step + defers)
    chase (symmBody step L d) L.list.size h v
  else pure v

/-- `update_diag<true>(l, l, m, d)` (613–630), after the scaling of `l`: `d[idx] -= d[step] * l[idx] * l[idx]`. -/
def symmDiag (step m : Nat) (l : SV K) (d : Buf K) : M (Buf K) := do
  let dk ← d.rd step
  forUp 0 l.counts d fun i d => do
    let idx ← l.inds.rd i
    if idx < m then do
      let x ← l.vals.rd idx
      let o ← d.rd idx
      d.wr idx (o - dk * x * x)
    else pure d

end ops

/-- What the symmetric Crout loop is given (symm_factor.hpp 151–240): one matrix, used as its own transpose (`make_transpose` aliases the arrays,
154–162), scalings, and the permutations of the preprocessing; `q0` is used for the initial diagonal only (240). -/
structure In (K : Type _) where
  n : Nat
  m2 : Nat
  s : Buf K
  t : Buf K
  A : CS K
  p0 : Buf Nat
  pinv0 : Buf Nat
  q0 : Buf Nat
  qinv0 : Buf Nat

/-- The same input for the general routines. -/
def In.gen (I : In K) : Crout.In K := ⟨I.n, I.m2, I.s, I.t, I.A, I.A, I.p0, I.pinv0, I.q0, I.qinv0⟩

/-- Parameters of the loop (279–291, 408–411). -/
structure Par (K R : Type _) where
  nrm : K → R
  kappaD : R
  kappa : R
  safeMin : R
  drop : K → Nat → SV K → M (SV K)
  refuse : K → Bool

/-- Loop variables (240–305). -/
structure St (K : Type _) where
  step : Nat
  defers : Nat
  m : Nat
  d : Buf K
  p : Buf Nat
  pinv : Buf Nat
  P : Buf (Option Nat)
  L : FacSide K
  kL : Buf K
  l : SV K
  nDiag : Nat
  nCond : Nat

section loop
variable [Field K] [DecidableEq K] {R : Type _} [LinearOrder R]

/-- `is_bad_diag` (287–290). -/
def badDiag (pr : Par K R) (a : K) : Bool := decide (a = 0) || decide (pr.kappaD < pr.nrm (1 / a)) || pr.refuse a

/-- `step.update_kappa(L, L_list, L_start, kappa_l)` (316, 347). -/
def kappas (pr : Par K R) (c : St K) : M (St K) := do
  let kL ← updateKappa pr.nrm c.step c.defers c.L c.kL
  pure { c with kL := kL }

/-- `abs(kappa_l[step]) > kappa` (320, 348). -/
def bigKappa (pr : Par K R) (c : St K) : M Bool := do
  let b ← c.kL.rd c.step
  pure (decide (pr.kappa < pr.nrm b))

/-- Deferral of the current row and column (327–335). -/
def deferOne (n : Nat) (c : St K) : M (St K) := do
  let ds := c.step + c.defers
  let tail := n + c.defers
  let L ← deferEntry c.step c.defers tail c.L
  let pi ← c.p.rd ds
  let P ← c.P.wr tail (some pi)
  let pinv ← c.pinv.wr pi tail
  let P ← P.wr ds none
  pure { c with m := c.m - 1, defers := c.defers + 1, L := L, P := P, pinv := pinv }

/-- Re-test after a deferral (341–352). -/
def retest (pr : Par K R) (c : St K) : M (Bool × St K) := do
  let dv ← c.d.rd (c.step + c.defers)
  if badDiag pr dv then pure (true, { c with nDiag := c.nDiag + 1 })
  else do
    let c ← kappas pr c
    let b ← bigKappa pr c
    pure (b, { c with nCond := if b then c.nCond + 1 else c.nCond })

/-- `while (m > step) { … }` (326–354). -/
def deferLoop (pr : Par K R) (n m2 : Nat) : Nat → St K → M (St K)
  | 0, c => if c.step < c.m then throw (.ub "endless loop") else pure c
  | f + 1, c =>
    if c.step < c.m then do
      let c ← deferOne n c
      if m2 ≤ c.step + c.defers then pure { c with m := c.step }
      else do
        let r ← retest pr c
        if r.1 then deferLoop pr n m2 f r.2 else pure r.2
    else pure c

/-- First test of a step (308–322). -/
def firstTest (pr : Par K R) (c : St K) : M (Bool × St K) := do
  let dv ← c.d.rd (c.step + c.defers)
  let pvt := badDiag pr dv
  let c ← kappas pr { c with nDiag := if pvt then c.nDiag + 1 else c.nDiag }
  if pvt then pure (true, c)
  else do
    let b ← bigKappa pr c
    pure (b, { c with nCond := if b then c.nCond + 1 else c.nCond })

/-- Tests and deferrals of a step (308–356). -/
def pivotPhase (pr : Par K R) (n m2 : Nat) (c : St K) : M (St K) := do
  let r ← firstTest pr c
  if r.1 then deferLoop pr n m2 r.2.m r.2 else pure r.2

/-- The numerical part of a step (380–422): compress `d` and `p`, compute the column of `L`, scale, update the diagonal, drop, sort, append. -/
def updatePhase (pr : Par K R) (I : In K) (c : St K) : M (St K) := do
  let k := c.step
  let kl ← c.kL.rd k
  let d ← compressArray k c.defers c.d
  let p ← compressArray k c.defers c.p
  let pk ← p.rd k
  let tpk ← I.t.rd pk
  let l ← computeSymm k c.defers tpk I.A I.s pk c.pinv c.L d c.l
  let dk ← d.rd k
  let l ← scaleInv pr.nrm pr.safeMin dk l
  let d ← symmDiag k I.m2 l d
  let l ← pr.drop kl pk l
  let l := sortInds l
  let LT ← c.L.T.pushLine (l.inds.slice 0 l.counts) l.vals
  let L ← updateCompress k c.defers { c.L with T := LT }
  pure { c with d := d, p := p, l := l, L := L }

/-- `for (; step < m; ++step) { … }` (306–424). -/
def mainLoop (pr : Par K R) (I : In K) : Nat → St K → M (St K)
  | 0, c => if c.step < c.m then throw (.ub "endless loop") else pure c
  | f + 1, c =>
    if c.step < c.m then do
      let c ← pivotPhase pr I.n I.m2 c
      if c.m = c.step then pure c
      else do
        let c ← updatePhase pr I c
        mainLoop pr I f { c with step := c.step + 1 }
    else pure c

/-- What is left after the Crout phase. -/
structure Out (K : Type _) where
  m : Nat
  defers : Nat
  d : Buf K
  p : BiPerm
  L : CS K
  Lstart : Buf Nat
  kL : Buf K
  nDiag : Nat
  nCond : Nat
  l : SV K

/-- The outcome in the form of the general routine: at the end of a level `p` is copied to `q` (symm_factor.hpp 635–639). -/
def Out.lift (c : Out K) : Crout.Out K :=
  ⟨c.m, c.defers, c.d, c.p, c.p, c.L, c.L, c.Lstart, c.Lstart, c.kL, c.kL, c.nDiag, c.nCond, c.l, c.l⟩

/-- Completion (426–439). -/
def finish (n : Nat) (c : St K) : M (Out K) := do
  let p ← assignGaps c.step c.defers n c.P c.p
  let p ← BiPerm.buildInv ⟨p, c.pinv⟩
  let LT := c.L.T.endAssemble
  let Ls ← globalStart LT c.L.start c.m
  let LT ← compressTail LT Ls c.m c.defers
  pure ⟨c.m, c.defers, c.d, p, LT, Ls, c.kL, c.nDiag, c.nCond, c.l⟩

/-- Initial state (240–302); the initial diagonal is that of the general routine `extract_perm_diag` (240). -/
def init [Inhabited K] (I : In K) : M (St K) := do
  let d ← permDiag I.gen
  let P ← widen I.n I.p0
  pure { step := 0, defers := 0, m := I.m2, d := d, p := I.p0, pinv := I.pinv0, P := P,
         L := emptySide I.n I.m2, kL := Buf.mk' I.m2 default, l := SV.new (2 * I.n), nDiag := 0, nCond := 0 }

/-- The Crout phase of `symm_level_factorize` (240–439). -/
def croutPhase [Inhabited K] (pr : Par K R) (I : In K) : M (Out K) := do
  let c ← init I
  let c ← mainLoop pr I I.m2 c
  finish I.n c

end loop

end Symm
end Hif
