import Verif.Symm

set_option linter.unusedVariables false

/-!
# The Crout phase for a symmetric leading block (model)

Model of the parts of `level_factorize` (src/hif/alg/factor.hpp 697–1001) that depend on `IsSymm = true`, and of the routines of the class
`Crout` used only there: `compute_l<true>` and `_load_acol<true>` (src/hif/alg/Crout.hpp 268–325, 801–830), `symm_update_lstart` (467–475),
`update_diag<true>` (613–632, already in `Symm.lean`) and `symm_defer_l` (721–750).  The leading part of a column of `L` is the transpose of the
leading part of the row of `U`; only rows outside the leading block (the static tail, and the deferred rows behind it) are computed.

Simplifications: those of `Crout.lean`.  The macro `HIF_DISABLE_SPACE_DROP` is not defined.
-/

namespace Hif
namespace PSymm
open Crout
variable {K : Type _}

/-- Parameters of the loop: as `Crout.Par`, except that the dropping on `L` sees the tail only, given how many entries the leading part has. -/
structure Par (K R : Type _) where
  nrm : K → R
  kappaD : R
  kappa : R
  safeMin : R
  dropU : K → Nat → SV K → M (SV K)
  dropL : Nat → K → Nat → SV K → M (SV K)

/-- The parameters the two variants share. -/
def Par.base {R : Type _} (pr : Par K R) : Crout.Par K R := ⟨pr.nrm, pr.kappaD, pr.kappa, pr.safeMin, pr.dropU, pr.dropL 0, fun _ => false⟩

/-- Loop variables: those of the general variant and `L_offsets` (factor.hpp 747–754). -/
structure St (K : Type _) where
  c : Crout.St K
  off : Buf Nat

section ops
variable [Field K] [DecidableEq K]

/-- `compute_l<true>` (Crout.hpp 268–325): nothing to do while the leading block is everything and nothing was deferred; otherwise the
rows `≥ m2` of the column of `A` are loaded (`idx > m - 1`, 801–830) and the columns of `L` are swept from their offsets. -/
def computeTail (n m2 step defers : Nat) (sl : K) (A : CS K) (sc : Buf K) (line : Nat) (inv : Buf Nat) (X Y : FacSide K) (off : Buf Nat)
    (d : Buf K) (v : SV K) : M (SV K) :=
  if defers ≠ 0 ∨ m2 ≠ n then do
    let v ← loadLine step (m2 - 1 - step) sl A sc line inv v.reset
    if step ≠ 0 then do
      let h ← X.list.rd (step + defers)
      chase (computeBody step defers X { Y with start := off } d) X.list.size h v
    else pure v
  else pure v.reset

/-- Body of the loop of `symm_defer_l` (732–747): that of `defer_entry`, then `--L_offsets[idx]`. -/
def symDeferBody (toIdx idx : Nat) (s : FacSide K × Buf Nat) : M (Option Nat × (FacSide K × Buf Nat)) := do
  let r ← deferBody toIdx idx s.1
  let o ← s.2.rd idx
  let off ← s.2.wr idx (o - 1)
  pure (r.1, (r.2, off))

/-- `symm_defer_l(to_idx, L_start, L, L_list, L_offsets)` (721–750). -/
def symDeferL (step defers toIdx : Nat) (F : FacSide K) (off : Buf Nat) : M (FacSide K × Buf Nat) := do
  let h ← F.list.rd (step + defers)
  let s ← chase (symDeferBody toIdx) F.list.size h (F, off)
  let list ← s.1.list.wr step none
  pure ({ s.1 with list := list }, s.2)

/-- The new offset (factor.hpp 1000–1005; `symm_update_lstart`, Crout.hpp 467–475). -/
def newOffset (n m2 step defers : Nat) (L : CS K) (off : Buf Nat) : M (Buf Nat) := do
  let b ← L.start.rd step
  let e ← L.start.rd (step + 1)
  if defers = 0 ∧ m2 = n then off.wr step (e - b)
  else do
    let pos ← lowerBound L.inds m2 (e - b) b
    off.wr step (pos - b)

end ops

section loop
variable [Field K] [DecidableEq K] {R : Type _} [LinearOrder R]

/-- Estimates (811–818, 857–860): `kappa_l[step] = kappa_ut[step]`. -/
def kappas (pr : Par K R) (c : Crout.St K) : M (Crout.St K) := do
  let kU ← updateKappa pr.nrm c.step c.defers c.U c.kU
  let x ← kU.rd c.step
  let kL ← c.kL.wr c.step x
  pure { c with kU := kU, kL := kL }

/-- Deferral of the current row and column (829–845). -/
def deferOne (n : Nat) (s : St K) : M (St K) := do
  let c := s.c
  let ds := c.step + c.defers
  let tail := n + c.defers
  let U ← deferEntry c.step c.defers tail c.U
  let L ← symDeferL c.step c.defers tail c.L s.off
  let pi ← c.p.rd ds
  let qi ← c.q.rd ds
  let P ← c.P.wr tail (some pi)
  let Q ← c.Q.wr tail (some qi)
  let pinv ← c.pinv.wr pi tail
  let qinv ← c.qinv.wr qi tail
  let P ← P.wr ds none
  let Q ← Q.wr ds none
  pure ⟨{ c with m := c.m - 1, defers := c.defers + 1, U := U, L := L.1, P := P, Q := Q, pinv := pinv, qinv := qinv }, L.2⟩

/-- Re-test after a deferral (852–872). -/
def retest (pr : Par K R) (c : Crout.St K) : M (Bool × Crout.St K) := do
  let dv ← c.d.rd (c.step + c.defers)
  if badDiag pr.base dv then pure (true, { c with nDiag := c.nDiag + 1 })
  else do
    let c ← kappas pr c
    let b ← bigKappa pr.base c
    pure (b, { c with nCond := if b then c.nCond + 1 else c.nCond })

/-- `while (m > step) { … }` (828–873). -/
def deferLoop (pr : Par K R) (n m2 : Nat) : Nat → St K → M (St K)
  | 0, s => if s.c.step < s.c.m then throw (.ub "endless loop") else pure s
  | f + 1, s =>
    if s.c.step < s.c.m then do
      let s ← deferOne n s
      if m2 ≤ s.c.step + s.c.defers then pure ⟨{ s.c with m := s.c.step }, s.off⟩
      else do
        let r ← retest pr s.c
        if r.1 then deferLoop pr n m2 f ⟨r.2, s.off⟩ else pure ⟨r.2, s.off⟩
    else pure s

/-- First test of a step (803–824). -/
def firstTest (pr : Par K R) (c : Crout.St K) : M (Bool × Crout.St K) := do
  let dv ← c.d.rd (c.step + c.defers)
  let pvt := badDiag pr.base dv
  let c ← kappas pr { c with nDiag := if pvt then c.nDiag + 1 else c.nDiag }
  if pvt then pure (true, c)
  else do
    let b ← bigKappa pr.base c
    pure (b, { c with nCond := if b then c.nCond + 1 else c.nCond })

/-- Tests and deferrals of a step (803–875). -/
def pivotPhase (pr : Par K R) (n m2 : Nat) (s : St K) : M (St K) := do
  let r ← firstTest pr s.c
  if r.1 then deferLoop pr n m2 r.2.m ⟨r.2, s.off⟩ else pure ⟨r.2, s.off⟩

/-- The numerical part of a step (895–1006). -/
def updatePhase (pr : Par K R) (I : Crout.In K) (st : St K) : M (St K) := do
  let c := st.c
  let k := c.step
  let kut ← c.kU.rd k
  let kl ← c.kL.rd k
  let d ← compressArray k c.defers c.d
  let p ← compressArray k c.defers c.p
  let q ← compressArray k c.defers c.q
  let pk ← p.rd k
  let qk ← q.rd k
  let spk ← I.s.rd pk
  let ut ← computeVec k c.defers spk I.Acrs I.t pk c.qinv c.L c.U d c.ut
  let tqk ← I.t.rd qk
  let l ← computeTail I.n I.m2 k c.defers tqk I.Accs I.s qk c.pinv c.U c.L st.off d c.l
  let dk ← d.rd k
  let ut ← scaleInv pr.nrm pr.safeMin dk ut
  let d ← Symm.symmDiag k I.m2 ut d
  let dk' ← d.rd k
  let l ← scaleInv pr.nrm pr.safeMin dk' l
  let ut ← pr.dropU kut pk ut
  let ut := sortInds ut
  let UT ← c.U.T.pushLine (ut.inds.slice 0 ut.counts) ut.vals
  let lead ← lowerBound ut.inds I.m2 ut.counts 0
  let l ← pr.dropL lead kl qk l
  let l := sortInds l
  let LT ← c.L.T.pushLine2 (ut.inds.slice 0 lead) ut.vals (l.inds.slice 0 l.counts) l.vals
  let U ← updateCompress k c.defers { c.U with T := UT }
  let L ← updateCompress k c.defers { c.L with T := LT }
  let off ← newOffset I.n I.m2 k c.defers L.T st.off
  pure ⟨{ c with d := d, p := p, q := q, ut := ut, l := l, U := U, L := L }, off⟩

/-- `for (; step < m; ++step) { … }` (802–1008). -/
def mainLoop (pr : Par K R) (I : Crout.In K) : Nat → St K → M (St K)
  | 0, s => if s.c.step < s.c.m then throw (.ub "endless loop") else pure s
  | f + 1, s =>
    if s.c.step < s.c.m then do
      let s ← pivotPhase pr I.n I.m2 s
      if s.c.m = s.c.step then pure s
      else do
        let s ← updatePhase pr I s
        mainLoop pr I f ⟨{ s.c with step := s.c.step + 1 }, s.off⟩
    else pure s

/-- The Crout phase of `level_factorize<true>` (690–1035). -/
def croutPhase [Inhabited K] (pr : Par K R) (I : Crout.In K) : M (Out K) := do
  let c ← init I
  let s ← mainLoop pr I I.m2 ⟨c, Buf.mk' I.m2 0⟩
  finish I.n s.c

end loop

section realdrop
variable [Field K] [DecidableEq K] {R : Type _} [Field R] [LinearOrder R] [FloorSemiring R]

/-- The dropping on the tail of a column of `L` (958–985): numerical dropping, then space dropping with the reference size of the
column, `alpha_L`, and the number of leading entries as the fourth argument. -/
def tailDrop (nrm : K → R) (nth : (Nat → R) → Nat → List Nat → List Nat) (tau kappaD alpha : R) (sizes : Buf Nat)
    (lead : Nat) (k : K) (lab : Nat) (v : SV K) : M (SV K) := do
  let v ← v.numDrop nrm tau (nrm k * kappaD)
  let nz ← sizes.rd lab
  v.spaceDrop nth nrm nz alpha lead

end realdrop
end PSymm
end Hif
