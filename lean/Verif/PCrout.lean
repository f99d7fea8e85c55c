import Verif.Aug

set_option linter.unusedVariables false

/-!
# The Crout update with thresholded rook pivoting (model)

Models of the class `PivotCrout` (src/hif/alg/PivotCrout.hpp) and of the main loop of `pivot_level_factorize`
(src/hif/alg/pivot_factor.hpp 165–480).

Simplifications, in addition to those of `Crout.lean`.
* The routines that follow a list of the augmented storage do not change the list; the model collects the list first (`Aug.walk`).
* `compute_ut` and `compute_l` are one definition with rows and columns exchanged; the order of factors in a product is not kept.
* `sort_indices` by decreasing magnitude is a parameter (`srt`), since `std::sort` may order ties in any way.
* The array `d` is uninitialized in the code; in the model it holds a default value that no theorem refers to.
* Of the counters of pivots (`info_counter[7..12]`), which feed messages only, the numbers of exchanges of rows and of columns are modelled.
-/

namespace Hif
namespace PCrout
open Crout
variable {K : Type _}

/-- A factor under construction: augmented storage and local starting positions (pivot_factor.hpp 185–223). -/
structure PSide (K : Type _) where
  A : Aug K
  start : Buf Nat

/-- The factor as plain storage. -/
def PSide.fac (S : PSide K) : FacSide K := ⟨S.A.cs, Buf.mk' 0 none, S.start⟩

/-- `for` over a list. -/
def forL {α σ : Type _} : List α → σ → (α → σ → M σ) → M σ
  | [], s, _ => pure s
  | a :: l, s, f => f a s >>= fun s => forL l s f

section ops
variable [Field K] [DecidableEq K]

/-- Search for the diagonal in a column of `A` (PivotCrout.hpp 105–122): the first entry whose position is the deferred step. -/
def diagFrom (s : Buf K) (A : CS K) (tq : K) (inv : Buf Nat) (ds : Nat) : Nat → Nat → M K
  | 0, _ => pure 0
  | c + 1, k => do
    let ai ← A.inds.rd k
    let idx ← inv.rd ai
    if idx = ds then do
      let si ← s.rd ai
      let v ← A.vals.rd k
      pure (si * v * tq)
    else diagFrom s A tq inv ds c (k + 1)

/-- Body of the loop of `compute_dk` (126–146): `L` is the factor whose current entry may be the diagonal one. -/
def dkBody (ds : Nat) (L : PSide K) (d : Buf K) (e : Nat × K) (dk : K) : M K := do
  let dc ← d.rd e.1
  let b ← L.A.cs.start.rd e.1
  let st ← L.start.rd e.1
  let hi ← L.A.cs.start.rd (e.1 + 1)
  if b + st ≠ hi then do
    let i ← L.A.cs.inds.rd (b + st)
    if i = ds then do
      let y ← L.A.cs.vals.rd (b + st)
      pure (dk - dc * e.2 * y)
    else pure dk
  else pure dk

/-- `compute_dk` (93–149). -/
def computeDk (step defers : Nat) (s : Buf K) (A : CS K) (t : Buf K) (inv : Buf Nat) (qk : Nat) (L : PSide K) (d : Buf K) (U : PSide K) : M K := do
  let tq ← t.rd qk
  let lo ← A.start.rd qk
  let hi ← A.start.rd (qk + 1)
  let dk ← diagFrom s A tq inv (step + defers) (hi - lo) lo
  if step ≠ 0 then do
    let l ← U.A.walk (step + defers)
    forL l dk (dkBody (step + defers) L d)
  else pure dk

/-- Body of the loop of `compute_ut` / `compute_l` (216–248, 311–346). -/
def vecBody (step defers : Nat) (Y : PSide K) (d : Buf K) (e : Nat × K) (v : SV K) : M (SV K) := do
  let dc ← d.rd e.1
  let lo ← sweepFrom (step + defers) Y.fac e.1
  let hi ← Y.A.cs.start.rd (e.1 + 1)
  forUp lo hi v fun k v => do
    let idx ← Y.A.cs.inds.rd k
    let y ← Y.A.cs.vals.rd k
    subAt step idx (e.2 * dc * y) v

/-- `compute_ut` (195–250) with `A` by rows, `X = L`, `Y = U`; `compute_l` (289–349) with `A` by columns, `X = U`, `Y = L`. -/
def computeVec (step defers : Nat) (sl : K) (A : CS K) (sc : Buf K) (line : Nat) (inv : Buf Nat) (X Y : PSide K) (d : Buf K) (v : SV K) : M (SV K) := do
  let v ← loadLine step defers sl A sc line inv v.reset
  if step ≠ 0 then do
    let l ← X.A.walk (step + defers)
    forL l v (vecBody step defers Y d)
  else pure v

/-- Body of the loop of `update_compress` (366–376). -/
def compressBody (defers : Nat) (e : Nat × K) (S : PSide K) : M (PSide K) := do
  let b ← S.A.cs.start.rd e.1
  let st ← S.start.rd e.1
  let x ← S.A.cs.inds.rd (b + st)
  let inds ← S.A.cs.inds.wr (b + st) (x - defers)
  let start ← S.start.wr e.1 (st + 1)
  pure { A := { S.A with cs := { S.A.cs with inds := inds } }, start := start }

/-- `update_compress(T, start)` (360–382). -/
def updateCompress (step defers : Nat) (S : PSide K) : M (PSide K) := do
  let l ← S.A.walk (step + defers)
  let S ← forL l S (compressBody defers)
  let start ← S.start.wr step 0
  let h ← S.A.nstart.rd (step + defers)
  let nstart ← S.A.nstart.wr step h
  let h ← S.A.nend.rd (step + defers)
  let nend ← S.A.nend.wr step h
  let h ← S.A.counts.rd (step + defers)
  let counts ← S.A.counts.wr step h
  pure { A := { S.A with nstart := nstart, nend := nend, counts := counts }, start := start }

/-- Body of the loop of `update_kappa` (412–420). -/
def kappaBody (kappa : Buf K) (e : Nat × K) (sum : K) : M K := do
  let kv ← kappa.rd e.1
  pure (sum + kv * e.2)

/-- `update_kappa(T, kappa, entry)` (394–430). -/
def updateKappa {R : Type _} [LinearOrder R] (nrm : K → R) (step defers entry : Nat) (S : PSide K) (kappa : Buf K) : M (Buf K) :=
  if step = 0 then kappa.wr 0 1
  else do
    let l ← S.A.walk (if entry ≠ 0 then entry else step + defers)
    let sum ← forL l 0 (kappaBody kappa)
    kappa.wr step (kappaPick nrm sum)

/-- `interchange(pivot, T, p, p_inv, d, a_k)` (455–468). -/
def interchange (ds pivot : Nat) (S : PSide K) (p pinv : Buf Nat) (d : Buf K) (a : SV K) : M (PSide K × Buf Nat × Buf Nat × Buf K × SV K) := do
  let p ← Aug.swapBuf p ds pivot
  let x ← p.rd ds
  let y ← p.rd pivot
  let pinv ← Aug.swapBuf pinv x y
  let A ← S.A.interchange ds pivot
  let dv ← d.rd ds
  let av ← a.vals.rd pivot
  let d ← d.wr ds av
  let vals ← a.vals.wr pivot dv
  pure ({ S with A := A }, p, pinv, d, { a with vals := vals })

/-- The list of a sparse vector in another order (`sort_indices(op)`, src/hif/ds/SparseVec.hpp 117–119). -/
def reorder (v : SV K) (l : List Nat) : SV K :=
  { v with inds := { size := v.inds.size, get := fun k => if k < v.counts then l.getD k 0 else v.inds.get k } }

end ops

/-- Parameters of the loop: those of the Crout loop, the pivoting threshold `gamma` and the sorting by magnitude. -/
structure Par (K R : Type _) extends Crout.Par K R where
  gamma : R
  srt : (Nat → R) → List Nat → List Nat

/-- Loop variables of `pivot_level_factorize`. -/
structure St (K : Type _) where
  step : Nat
  defers : Nat
  m : Nat
  d : Buf K
  p : Buf Nat
  q : Buf Nat
  pinv : Buf Nat
  qinv : Buf Nat
  P : Buf (Option Nat)
  Q : Buf (Option Nat)
  U : PSide K
  L : PSide K
  kU : Buf K
  kL : Buf K
  ut : SV K
  l : SV K
  nDiag : Nat
  nCond : Nat
  /-- `info_counter[7]`: exchanges of rows. -/
  nL : Nat
  /-- `info_counter[8]`: exchanges of columns. -/
  nU : Nat

section loop
variable [Field K] [DecidableEq K] {R : Type _} [Mul R] [LinearOrder R]

/-- The predicates `pvt_l_op`, `pvt_u_op` (pivot_factor.hpp 268–279): they store the estimate in `kappa[step]`. -/
def pivOp (pr : Par K R) (step defers m2 : Nat) (S : PSide K) (i : Nat) (kappa : Buf K) : M (Bool × Buf K) :=
  if m2 ≤ i then pure (false, kappa)
  else do
    let kappa ← updateKappa pr.nrm step defers i S kappa
    let x ← kappa.rd step
    pure (decide (pr.nrm x ≤ pr.kappa), kappa)

/-- `find_if(op)` (src/hif/ds/SparseVec.hpp 196–203). -/
def findIf (op : Nat → Buf K → M (Bool × Buf K)) : List Nat → Buf K → M (Option Nat × Buf K)
  | [], kappa => pure (none, kappa)
  | i :: l, kappa => do
    let r ← op i kappa
    if r.1 then pure (some i, r.2) else findIf op l r.2

/-- Sort by magnitude, then find the first acceptable entry (PivotCrout.hpp 533–538, 574–579). -/
def findPivot (pr : Par K R) (step defers m2 : Nat) (S : PSide K) (v : SV K) (kappa : Buf K) : M (SV K × Option Nat × Buf K) := do
  let v := reorder v (pr.srt (fun j => pr.nrm (v.vals.get j)) v.list)
  let r ← findIf (pivOp pr step defers m2 S) (v.inds.slice 0 v.counts) kappa
  pure (v, r)

/-- `abs(d[k]) < gamma * max(abs(l[pivot]), abs(d[k]))` (546–547, 588–589). -/
def better (pr : Par K R) (ds : Nat) (d : Buf K) (v : SV K) (pivot : Nat) : M Bool := do
  let dk ← d.rd ds
  let x ← v.vals.rd pivot
  pure (decide (pr.nrm dk < pr.gamma * max (pr.nrm x) (pr.nrm dk)))

/-- `d[k] = compute_dk(…)` (541, 582; pivot_factor.hpp 354–355). -/
def setDk (I : In K) (c : St K) : M (St K) := do
  let qk ← c.q.rd (c.step + c.defers)
  let dk ← computeDk c.step c.defers I.s I.Accs I.t c.pinv qk c.L c.d c.U
  let d ← c.d.wr (c.step + c.defers) dk
  pure { c with d := d }

/-- `restore_cur_state` and `compute_l` (528–530; pivot_factor.hpp 383–385). -/
def doL (I : In K) (restore : Bool) (c : St K) : M (St K) := do
  let l ← (if restore then c.l.restore else pure c.l)
  let qk ← c.q.rd (c.step + c.defers)
  let tqk ← I.t.rd qk
  let l ← computeVec c.step c.defers tqk I.Accs I.s qk c.pinv c.U c.L c.d l
  pure { c with l := l }

/-- `restore_cur_state` and `compute_ut` (570–571; pivot_factor.hpp 387–389). -/
def doU (I : In K) (restore : Bool) (c : St K) : M (St K) := do
  let ut ← (if restore then c.ut.restore else pure c.ut)
  let pk ← c.p.rd (c.step + c.defers)
  let spk ← I.s.rd pk
  let ut ← computeVec c.step c.defers spk I.Acrs I.t pk c.qinv c.L c.U c.d ut
  pure { c with ut := ut }

/-- The interchange of rows if the entry found is large enough (545–557). -/
def tryL (pr : Par K R) (pivot : Option Nat) (c : St K) : M (Bool × St K) :=
  match pivot with
  | none => pure (false, c)
  | some pv => do
    let b ← better pr (c.step + c.defers) c.d c.l pv
    if b then do
      let r ← interchange (c.step + c.defers) pv c.L c.p c.pinv c.d c.l
      pure (true, { c with L := r.1, p := r.2.1, pinv := r.2.2.1, d := r.2.2.2.1, l := r.2.2.2.2, nL := c.nL + 1 })
    else pure (false, c)

/-- The interchange of columns (587–598). -/
def tryU (pr : Par K R) (pivot : Option Nat) (c : St K) : M (Bool × St K) :=
  match pivot with
  | none => pure (false, c)
  | some pv => do
    let b ← better pr (c.step + c.defers) c.d c.ut pv
    if b then do
      let r ← interchange (c.step + c.defers) pv c.U c.q c.qinv c.d c.ut
      pure (true, { c with U := r.1, q := r.2.1, qinv := r.2.2.1, d := r.2.2.2.1, ut := r.2.2.2.2, nU := c.nU + 1 })
    else pure (false, c)

/-- Row pivoting (522–562); the answer is `l_pivot`. -/
def rowPart (pr : Par K R) (I : In K) (again : Bool) (c : St K) : M (Bool × St K) := do
  let c ← doL I again c
  let r ← findPivot pr c.step c.defers I.m2 c.L c.l c.kL
  let c ← setDk I { c with l := r.1, kL := r.2.2 }
  tryL pr r.2.1 c

/-- Column pivoting (564–602); the answer says whether columns were exchanged. -/
def colPart (pr : Par K R) (I : In K) (again lp : Bool) (c : St K) : M (Bool × St K) := do
  let c ← doU I again c
  let r ← findPivot pr c.step c.defers I.m2 c.U c.ut c.kU
  let c := { c with ut := r.1, kU := r.2.2 }
  let c ← (if lp then setDk I c else pure c)
  tryU pr r.2.1 c

/-- The loop of `apply_thres_pivot` (519–603); `again` is `pivot_step > 0`. -/
def thresPivot (pr : Par K R) (I : In K) : Nat → Bool → St K → M (St K)
  | 0, _, c => pure c
  | f + 1, again, c => do
    let r ← rowPart pr I again c
    if !r.1 && again then pure r.2
    else do
      let r ← colPart pr I again r.1 r.2
      if r.1 then thresPivot pr I f true r.2 else pure r.2

/-- The two `update_kappa` calls (pivot_factor.hpp 304–307, 343–346). -/
def kappas (pr : Par K R) (c : St K) : M (St K) := do
  let kU ← updateKappa pr.nrm c.step c.defers 0 c.U c.kU
  let kL ← updateKappa pr.nrm c.step c.defers 0 c.L c.kL
  pure { c with kU := kU, kL := kL }

/-- `abs(kappa_ut[step]) > kappa || abs(kappa_l[step]) > kappa` (311–312, 347–348). -/
def bigKappa (pr : Par K R) (c : St K) : M Bool := do
  let a ← c.kU.rd c.step
  let b ← c.kL.rd c.step
  pure (decide (pr.kappa < pr.nrm a) || decide (pr.kappa < pr.nrm b))

/-- Deferral of the current row and column (325–336). -/
def deferOne (n : Nat) (c : St K) : M (St K) := do
  let ds := c.step + c.defers
  let tail := n + c.defers
  let U ← c.U.A.defer ds tail
  let L ← c.L.A.defer ds tail
  let pi ← c.p.rd ds
  let qi ← c.q.rd ds
  let P ← c.P.wr tail (some pi)
  let Q ← c.Q.wr tail (some qi)
  let pinv ← c.pinv.wr pi tail
  let qinv ← c.qinv.wr qi tail
  let P ← P.wr ds none
  let Q ← Q.wr ds none
  pure { c with m := c.m - 1, defers := c.defers + 1, U := { c.U with A := U }, L := { c.L with A := L }, P := P, Q := Q, pinv := pinv, qinv := qinv }

/-- Test after a deferral (343–360): the estimates first, then the diagonal; `true` means "defer again". -/
def retest (pr : Par K R) (I : In K) (c : St K) : M (Bool × St K) := do
  let c ← kappas pr c
  let b ← bigKappa pr c
  if b then pure (true, { c with nCond := c.nCond + 1 })
  else do
    let c ← setDk I c
    let dv ← c.d.rd (c.step + c.defers)
    if badDiag pr.toPar dv then pure (true, { c with nDiag := c.nDiag + 1 }) else pure (false, c)

/-- `while (m > step) { … }` (323–362). -/
def deferLoop (pr : Par K R) (I : In K) : Nat → St K → M (St K)
  | 0, c => if c.step < c.m then throw (.ub "endless loop") else pure c
  | f + 1, c =>
    if c.step < c.m then do
      let c ← deferOne I.n c
      if I.m2 ≤ c.step + c.defers then pure { c with m := c.step }
      else do
        let r ← retest pr I c
        if r.1 then deferLoop pr I f r.2 else pure r.2
    else pure c

/-- First test of a step (298–318). -/
def firstTest (pr : Par K R) (c : St K) : M (Bool × St K) := do
  let dv ← c.d.rd (c.step + c.defers)
  let pvt := badDiag pr.toPar dv
  let c ← kappas pr { c with nDiag := if pvt then c.nDiag + 1 else c.nDiag }
  if pvt then pure (true, c)
  else do
    let b ← bigKappa pr c
    pure (b, { c with nCond := if b then c.nCond + 1 else c.nCond })

/-- Pivoting, tests and deferrals of a step (283–363). -/
def pivotPhase (pr : Par K R) (I : In K) (c : St K) : M (St K) := do
  let c ← thresPivot pr I 4 false c
  let r ← firstTest pr c
  if r.1 then deferLoop pr I r.2.m r.2 else pure r.2

/-- The numerical part of a step (369–466). -/
def updatePhase (pr : Par K R) (I : In K) (c : St K) : M (St K) := do
  let k := c.step
  let kut ← c.kU.rd k
  let kl ← c.kL.rd k
  let c ← doL I true c
  let c ← doU I true c
  let d ← compressArray k c.defers c.d
  let p ← compressArray k c.defers c.p
  let q ← compressArray k c.defers c.q
  let dk ← d.rd k
  let ut ← scaleInv pr.nrm pr.safeMin dk c.ut
  let l ← scaleInv pr.nrm pr.safeMin dk c.l
  let pk ← p.rd k
  let ut ← pr.dropU kut pk ut
  let ut := sortInds ut
  let UA ← c.U.A.pushLine k (ut.inds.slice 0 ut.counts) ut.vals
  let qk ← q.rd k
  let l ← pr.dropL kl qk l
  let l := sortInds l
  let LA ← c.L.A.pushLine k (l.inds.slice 0 l.counts) l.vals
  let U ← updateCompress k c.defers { c.U with A := UA }
  let L ← updateCompress k c.defers { c.L with A := LA }
  pure { c with d := d, p := p, q := q, ut := ut, l := l, U := U, L := L }

/-- `for (; step < m; ++step) { … }` (280–467). -/
def mainLoop (pr : Par K R) (I : In K) : Nat → St K → M (St K)
  | 0, c => if c.step < c.m then throw (.ub "endless loop") else pure c
  | f + 1, c =>
    if c.step < c.m then do
      let c ← pivotPhase pr I c
      if c.m = c.step then pure c
      else do
        let c ← updatePhase pr I c
        mainLoop pr I f { c with step := c.step + 1 }
    else pure c

/-- Completion (469–493), as in `Crout.finish`. -/
def finish (n : Nat) (c : St K) : M (Out K) := do
  let p ← assignGaps c.step c.defers n c.P c.p
  let q ← assignGaps c.step c.defers n c.Q c.q
  let p ← BiPerm.buildInv ⟨p, c.pinv⟩
  let q ← BiPerm.buildInv ⟨q, c.qinv⟩
  let UT := c.U.A.cs.endAssemble
  let LT := c.L.A.cs.endAssemble
  let Ls ← globalStart LT c.L.start c.m
  let Us ← globalStart UT c.U.start c.m
  let UT ← compressTail UT Us c.m c.defers
  let LT ← compressTail LT Ls c.m c.defers
  pure ⟨c.m, c.defers, c.d, p, q, UT, LT, Us, Ls, c.kU, c.kL, c.nDiag, c.nCond, c.l, c.ut⟩

/-- An empty factor ready for assembly (185–204, 231–232). -/
def emptySide [Inhabited K] (n m2 : Nat) : PSide K :=
  { A := Aug.begin ⟨CS.mk m2 (2 * n) (Buf.mk' 0 0) (Buf.mk' 0 0) (Buf.mk' 0 default), Buf.mk' 0 0, Buf.mk' 0 none, Buf.mk' 0 none, Buf.mk' 0 none,
      Buf.mk' 0 0, Buf.mk' 0 0, Buf.mk' 0 0⟩,
    start := Buf.mk' m2 0 }

/-- Initial state (165–262). -/
def init [Inhabited K] (I : In K) : M (St K) := do
  let P ← widen I.n I.p0
  let Q ← widen I.n I.q0
  pure { step := 0, defers := 0, m := I.m2, d := Buf.mk' I.m2 default, p := I.p0, q := I.q0, pinv := I.pinv0, qinv := I.qinv0, P := P, Q := Q,
         U := emptySide I.n I.m2, L := emptySide I.n I.m2, kU := Buf.mk' I.m2 default, kL := Buf.mk' I.m2 default,
         ut := SV.new (2 * I.n), l := SV.new (2 * I.n), nDiag := 0, nCond := 0, nL := 0, nU := 0 }

/-- The Crout phase of `pivot_level_factorize` (165–493), with the numbers of exchanges of rows and of columns (`info_counter[7]`, `[8]`). -/
def croutCount [Inhabited K] (pr : Par K R) (I : In K) : M (Out K × Nat × Nat) := do
  let c ← init I
  let c ← mainLoop pr I I.m2 c
  let r ← finish I.n c
  pure (r, c.nL, c.nU)

/-- The Crout phase of `pivot_level_factorize` (165–493). -/
def croutPhase [Inhabited K] (pr : Par K R) (I : In K) : M (Out K) := do
  let r ← croutCount pr I
  pure r.1

end loop
end PCrout
end Hif
