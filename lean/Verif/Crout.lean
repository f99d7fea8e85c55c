import Verif.SparseVec
import Verif.Assemble
import Verif.Perm
import Mathlib.Data.List.Sort

set_option linter.unusedVariables false

/-!
# The Crout update with deferral (model)

Models of the class `Crout` (src/hif/alg/Crout.hpp) and of the main loop of `level_factorize`
(src/hif/alg/factor.hpp 697–1030), non-symmetric variant (`IsSymm = false`).

Simplifications, common to the file.
* Values, scalings, magnitudes are exact (fields `K`, `R`), magnitude `nrm` is a parameter.
* The end-of-list marker `nil = -1` is `none`; the marker `-1` stored in `P`, `Q` is `none`.
* A `while (idx != nil)` loop is run with fuel equal to the length of the list array; running out of fuel is the outcome
  `ub "endless list"`, which the theorems show does not happen.
* `compute_ut` and `compute_l` are the same routine with the roles of rows and columns exchanged (Crout.hpp 144–199 and
  240–290); one definition `computeVec` models both.  The products `s*v*t`, `d*U` versus `L*d` differ in the order of the
  factors only.
* `hif_assert` is inactive in release builds and not modelled; streams and timers are not modelled; of the counters
  `info_counter` only the two deferral counters are kept.
-/

namespace Hif

/-- `rotate_left(n, src, v)` (src/hif/utils/common.hpp 75–80) on the positions `[lo,hi)`: `std::rotate(lo, lo+1, hi)`.  For an
empty range `lo+1` lies beyond the end. -/
def Buf.rotateLeft {α : Type _} (b : Buf α) (lo hi : Nat) : M (Buf α) :=
  if lo < hi ∧ hi ≤ b.size then
    pure { size := b.size,
           get := fun i => if lo ≤ i ∧ i < hi then (if i + 1 < hi then b.get (i + 1) else b.get lo) else b.get i }
  else throw (.ub "rotate of an invalid range")

/-- One triangular factor under construction: the matrix `T` (`U` by rows or `L` by columns), the linked lists and the local
starting positions (factor.hpp 728–760). -/
structure FacSide (K : Type _) where
  T : CS K
  list : Buf (Option Nat)
  start : Buf Nat

namespace Crout
variable {K : Type _}

/-- `while (idx != nil) …` over a linked list; the body returns the next node. -/
def chase {σ : Type _} (body : Nat → σ → M (Option Nat × σ)) : Nat → Option Nat → σ → M σ
  | _, none, s => pure s
  | 0, some _, _ => throw (.ub "endless list")
  | f + 1, some i, s => body i s >>= fun r => chase body f r.1 r.2

/-! ### Class `Crout` -/

section ops
variable [Field K] [DecidableEq K]

/-- Body of the loop of `update_kappa` (Crout.hpp 501–508). -/
def kappaBody (F : FacSide K) (kappa : Buf K) (idx : Nat) (sum : K) : M (Option Nat × K) := do
  let kv ← kappa.rd idx
  let b ← F.T.start.rd idx
  let st ← F.start.rd idx
  let v ← F.T.vals.rd (b + st)
  let nx ← F.list.rd idx
  pure (nx, sum + kv * v)

/-- The choice of the right-hand side entry in `update_kappa` (510–516). -/
def kappaPick {R : Type _} [LinearOrder R] (nrm : K → R) (sum : K) : K :=
  if nrm (1 - sum) < nrm (-1 - sum) then -1 - sum else 1 - sum

/-- `update_kappa` (487–517). -/
def updateKappa {R : Type _} [LinearOrder R] (nrm : K → R) (step defers : Nat) (F : FacSide K) (kappa : Buf K) : M (Buf K) :=
  if step = 0 then kappa.wr 0 1
  else do
    let h ← F.list.rd (step + defers)
    let sum ← chase (kappaBody F kappa) F.list.size h 0
    kappa.wr step (kappaPick nrm sum)

/-- Body of the loop of `defer_entry` (663–679). -/
def deferBody (toIdx idx : Nat) (F : FacSide K) : M (Option Nat × FacSide K) := do
  let b ← F.T.start.rd idx
  let e ← F.T.start.rd (idx + 1)
  let st ← F.start.rd idx
  let inds ← F.T.inds.wr (b + st) toIdx
  let inds ← inds.rotateLeft (b + st) e
  let vals ← F.T.vals.rotateLeft (b + st) e
  let j ← inds.rd (b + st)
  let next ← F.list.rd idx
  let lj ← F.list.rd j
  let list ← F.list.wr idx lj
  let list ← list.wr j (some idx)
  pure (next, { F with T := { F.T with inds := inds, vals := vals }, list := list })

/-- `defer_entry(to_idx, start, T, list)` (651–681). -/
def deferEntry (step defers toIdx : Nat) (F : FacSide K) : M (FacSide K) := do
  let h ← F.list.rd (step + defers)
  let F ← chase (deferBody toIdx) F.list.size h F
  let list ← F.list.wr step none
  pure { F with list := list }

/-- Relinking in `update_compress` (438–443): the node goes to the front of the list of its next entry, if any. -/
def relink (T : CS K) (list : Buf (Option Nat)) (idx pos e : Nat) : M (Buf (Option Nat)) :=
  if pos ≠ e then do
    let j ← T.inds.rd pos
    let lj ← list.rd j
    let list ← list.wr idx lj
    list.wr j (some idx)
  else list.wr idx none

/-- Body of the loop of `update_compress` (433–444). -/
def compressBody (defers idx : Nat) (F : FacSide K) : M (Option Nat × FacSide K) := do
  let b ← F.T.start.rd idx
  let st ← F.start.rd idx
  let old ← F.T.inds.rd (b + st)
  let inds ← F.T.inds.wr (b + st) (old - defers)
  let start ← F.start.wr idx (st + 1)
  let next ← F.list.rd idx
  let e ← F.T.start.rd (idx + 1)
  let list ← relink { F.T with inds := inds } F.list idx (b + st + 1) e
  pure (next, { F with T := { F.T with inds := inds }, list := list, start := start })

/-- Linking of the new line in `update_compress` (447–455). -/
def linkNew (step : Nat) (F : FacSide K) : M (FacSide K) := do
  let list ← F.list.wr step none
  let start ← F.start.wr step 0
  let b ← F.T.start.rd step
  let e ← F.T.start.rd (step + 1)
  if e - b ≠ 0 then do
    let first ← F.T.inds.rd b
    let lf ← list.rd first
    let list ← if lf ≠ none then list.wr step lf else pure list
    let list ← list.wr first (some step)
    pure { F with list := list, start := start }
  else pure { F with list := list, start := start }

/-- `update_compress(T, list, start)` (426–456). -/
def updateCompress (step defers : Nat) (F : FacSide K) : M (FacSide K) := do
  let h ← F.list.rd (step + defers)
  let F ← chase (compressBody defers) F.list.size h F
  linkNew step F

/-- `_load_arow` / `_load_acol<false>` (753–779, 797–825): entries of line `line` of `A` whose permuted index exceeds the
deferred step, scaled.  `sl` is the scaling of the line, `sc` that of the other axis. -/
def loadLine (step defers : Nat) (sl : K) (A : CS K) (sc : Buf K) (line : Nat) (inv : Buf Nat) (v : SV K) : M (SV K) :=
  A.forLine line v fun ai a v => do
    let idx ← inv.rd ai
    if idx > step + defers then do
      let r ← v.push idx step
      let s ← sc.rd ai
      let vals ← r.2.vals.wr idx (sl * a * s)
      pure { r.2 with vals := vals }
    else pure v

/-- `if (v.push_back(idx, _step)) v[idx] = -x; else v[idx] -= x;` (188–191, 277–280). -/
def subAt (step idx : Nat) (x : K) (v : SV K) : M (SV K) := do
  let r ← v.push idx step
  if r.1 then do
    let vals ← r.2.vals.wr idx (-x)
    pure { r.2 with vals := vals }
  else do
    let o ← r.2.vals.rd idx
    let vals ← r.2.vals.wr idx (o - x)
    pure { r.2 with vals := vals }

/-- Where the sweep over line `row` starts: its current position, advanced by one if that entry is the current diagonal
position (176–180, 265–268). -/
def sweepFrom (ds : Nat) (G : FacSide K) (row : Nat) : M Nat := do
  let b ← G.T.start.rd row
  let st ← G.start.rd row
  let e ← G.T.start.rd (row + 1)
  if b + st ≠ e then do
    let i ← G.T.inds.rd (b + st)
    pure (if i = ds then b + st + 1 else b + st)
  else pure (b + st)

/-- Body of the list loop of `compute_ut` / `compute_l` (166–195, 255–286): `X` is the factor whose list is followed, `Y` the
one whose line is swept. -/
def computeBody (step defers : Nat) (X Y : FacSide K) (d : Buf K) (c : Nat) (v : SV K) : M (Option Nat × SV K) := do
  let b ← X.T.start.rd c
  let st ← X.start.rd c
  let x ← X.T.vals.rd (b + st)
  let dc ← d.rd c
  let lo ← sweepFrom (step + defers) Y c
  let e ← Y.T.start.rd (c + 1)
  let v ← forUp lo e v fun k v => do
    let idx ← Y.T.inds.rd k
    let y ← Y.T.vals.rd k
    subAt step idx (x * dc * y) v
  let nx ← X.list.rd c
  pure (nx, v)

/-- `compute_ut` (144–199) with `A` by rows, `X = L`, `Y = U`; `compute_l` (240–290) with `A` by columns, `X = U`, `Y = L`. -/
def computeVec (step defers : Nat) (sl : K) (A : CS K) (sc : Buf K) (line : Nat) (inv : Buf Nat) (X Y : FacSide K)
    (d : Buf K) (v : SV K) : M (SV K) := do
  let v ← loadLine step defers sl A sc line inv v.reset
  if step ≠ 0 then do
    let h ← X.list.rd (step + defers)
    chase (computeBody step defers X Y d) X.list.size h v
  else pure v

/-- `scale_inv_diag` (611–636) for the pivot `dk = d[_step]`: nothing for a zero pivot, otherwise multiplication by the inverse,
or division when the pivot is tiny. -/
def scaleInv {R : Type _} [LinearOrder R] (nrm : K → R) (safeMin : R) (dk : K) (v : SV K) : M (SV K) :=
  if dk = 0 then pure v
  else if nrm dk > safeMin then do
    let vals ← forUp 0 v.counts v.vals fun i vals => do
      let j ← v.inds.rd i
      let x ← vals.rd j
      vals.wr j (x * (1 / dk))
    pure { v with vals := vals }
  else do
    let vals ← forUp 0 v.counts v.vals fun i vals => do
      let j ← v.inds.rd i
      let x ← vals.rd j
      vals.wr j (x / dk)
    pure { v with vals := vals }

/-- One of the two loops of `update_diag<false>` (548–581): run over the entries of `a`; the other vector `b` has an entry in a
slot exactly when its tag there is the current step. -/
def diagSweep (step m : Nat) (a b : SV K) (d : Buf K) : M (Buf K) :=
  forUp 0 a.counts d fun i d => do
    let idx ← a.inds.rd i
    if idx < m then do
      let t ← b.tags.rd idx
      if t = some step then do
        let x ← a.vals.rd idx
        let y ← b.vals.rd idx
        let o ← d.rd idx
        d.wr idx (o - x * y)
      else pure d
    else pure d

/-- `update_diag<false>(l, ut, m, d)` (534–582): the shorter vector is swept. -/
def updateDiag (step m : Nat) (l ut : SV K) (d : Buf K) : M (Buf K) :=
  if ut.counts ≤ l.counts then diagSweep step m ut l d else diagSweep step m l ut d

/-- `sort_indices` (src/hif/ds/SparseVec.hpp 110–112): `std::sort` of distinct indices, so the outcome does not depend on the algorithm. -/
def sortInds (v : SV K) : SV K :=
  let l := v.list.insertionSort (· ≤ ·)
  { v with inds := { size := v.inds.size, get := fun k => if k < v.counts then l.getD k 0 else v.inds.get k } }

end ops

/-! ### Main loop of `level_factorize` -/

/-- What the Crout loop is given: sizes, scalings, the matrix by rows and by columns, the preprocessing permutations with
inverses, and the leading block size `m2`. -/
structure In (K : Type _) where
  n : Nat
  m2 : Nat
  s : Buf K
  t : Buf K
  Acrs : CS K
  Accs : CS K
  p0 : Buf Nat
  pinv0 : Buf Nat
  q0 : Buf Nat
  qinv0 : Buf Nat

/-- Parameters of the loop: magnitude, `kappa_d`, `kappa`, smallest safe pivot, and the dropping applied to a computed row of
`U` (given its estimate and permuted row index) and column of `L` (factor.hpp 909–921, 930–963).  `refuse` says which pivots are rejected for
another reason: none here; the symmetric variant rejects those of the wrong sign (symm_factor.hpp 287–290). -/
structure Par (K R : Type _) where
  nrm : K → R
  kappaD : R
  kappa : R
  safeMin : R
  dropU : K → Nat → SV K → M (SV K)
  dropL : K → Nat → SV K → M (SV K)
  refuse : K → Bool := fun _ => false

/-- Loop variables of `level_factorize` (697–800). -/
structure St (K : Type _) where
  step : Nat
  defers : Nat
  m : Nat
  d : Buf K
  p : Buf Nat
  q : Buf Nat
  pinv : Buf Nat
  qinv : Buf Nat
  P : Buf (Option Nat)
  Q : Buf (Option Nat)
  U : FacSide K
  L : FacSide K
  kU : Buf K
  kL : Buf K
  ut : SV K
  l : SV K
  nDiag : Nat
  nCond : Nat

section loop
variable [Field K] [DecidableEq K] {R : Type _} [LinearOrder R]

/-- `is_bad_diag` (779–781): `abs(1./a) > kappa_d`; for `a = 0` the quotient is infinite, larger than any `kappa_d`. -/
def badDiag (pr : Par K R) (a : K) : Bool := decide (a = 0) || decide (pr.kappaD < pr.nrm (1 / a)) || pr.refuse a

/-- The two `update_kappa` calls (812–818, 859–864). -/
def kappas (pr : Par K R) (c : St K) : M (St K) := do
  let kU ← updateKappa pr.nrm c.step c.defers c.U c.kU
  let kL ← updateKappa pr.nrm c.step c.defers c.L c.kL
  pure { c with kU := kU, kL := kL }

/-- `abs(kappa_ut[step]) > kappa || abs(kappa_l[step]) > kappa` (822, 865). -/
def bigKappa (pr : Par K R) (c : St K) : M Bool := do
  let a ← c.kU.rd c.step
  let b ← c.kL.rd c.step
  pure (decide (pr.kappa < pr.nrm a) || decide (pr.kappa < pr.nrm b))

/-- Deferral of the current row and column (829–845): `--m`, entries of `U` and `L` moved to the tail position, permutations
updated, `increment_defer_counter`. -/
def deferOne (n : Nat) (c : St K) : M (St K) := do
  let ds := c.step + c.defers
  let tail := n + c.defers
  let U ← deferEntry c.step c.defers tail c.U
  let L ← deferEntry c.step c.defers tail c.L
  let pi ← c.p.rd ds
  let qi ← c.q.rd ds
  let P ← c.P.wr tail (some pi)
  let Q ← c.Q.wr tail (some qi)
  let pinv ← c.pinv.wr pi tail
  let qinv ← c.qinv.wr qi tail
  let P ← P.wr ds none
  let Q ← Q.wr ds none
  pure { c with m := c.m - 1, defers := c.defers + 1, U := U, L := L, P := P, Q := Q, pinv := pinv, qinv := qinv }

/-- Re-test after a deferral (852–872): `true` means "defer again". -/
def retest (pr : Par K R) (c : St K) : M (Bool × St K) := do
  let dv ← c.d.rd (c.step + c.defers)
  if badDiag pr dv then pure (true, { c with nDiag := c.nDiag + 1 })
  else do
    let c ← kappas pr c
    let b ← bigKappa pr c
    pure (b, { c with nCond := if b then c.nCond + 1 else c.nCond })

/-- `while (m > step) { … }` (828–873). -/
def deferLoop (pr : Par K R) (n m2 : Nat) : Nat → St K → M (St K)
  | 0, c => if c.step < c.m then throw (.ub "endless loop") else pure c
  | f + 1, c =>
    if c.step < c.m then do
      let c ← deferOne n c
      if m2 ≤ c.step + c.defers then pure { c with m := c.step }
      else do
        let r ← retest pr c
        if r.1 then deferLoop pr n m2 f r.2 else pure r.2
    else pure c

/-- First test of a step (803–824). -/
def firstTest (pr : Par K R) (c : St K) : M (Bool × St K) := do
  let dv ← c.d.rd (c.step + c.defers)
  let pvt := badDiag pr dv
  let c ← kappas pr { c with nDiag := if pvt then c.nDiag + 1 else c.nDiag }
  if pvt then pure (true, c)
  else do
    let b ← bigKappa pr c
    pure (b, { c with nCond := if b then c.nCond + 1 else c.nCond })

/-- Tests and deferrals of a step (803–875). -/
def pivotPhase (pr : Par K R) (n m2 : Nat) (c : St K) : M (St K) := do
  let r ← firstTest pr c
  if r.1 then deferLoop pr n m2 r.2.m r.2 else pure r.2

/-- `v[_step] = v[deferred_step()]` (`compress_array`, Crout.hpp 99–101). -/
def compressArray {α : Type _} (step defers : Nat) (b : Buf α) : M (Buf α) := do
  let x ← b.rd (step + defers)
  b.wr step x

/-- The numerical part of a step (895–978): compress `d`, `p`, `q`; compute the row of `U` and the column of `L`; scale, update
the diagonal, drop, sort, append. -/
def updatePhase (pr : Par K R) (I : In K) (c : St K) : M (St K) := do
  let k := c.step
  let kut ← c.kU.rd k
  let kl ← c.kL.rd k
  let d ← compressArray k c.defers c.d
  let p ← compressArray k c.defers c.p
  let q ← compressArray k c.defers c.q
  let pk ← p.rd k
  let qk ← q.rd k
  let spk ← I.s.rd pk
  let ut ← computeVec k c.defers spk I.Acrs I.t pk c.qinv c.L c.U d c.ut
  let tqk ← I.t.rd qk
  let l ← computeVec k c.defers tqk I.Accs I.s qk c.pinv c.U c.L d c.l
  let dk ← d.rd k
  let ut ← scaleInv pr.nrm pr.safeMin dk ut
  let d ← updateDiag k I.m2 l ut d
  let dk' ← d.rd k
  let l ← scaleInv pr.nrm pr.safeMin dk' l
  let ut ← pr.dropU kut pk ut
  let ut := sortInds ut
  let UT ← c.U.T.pushLine (ut.inds.slice 0 ut.counts) ut.vals
  let l ← pr.dropL kl qk l
  let l := sortInds l
  let LT ← c.L.T.pushLine (l.inds.slice 0 l.counts) l.vals
  let U ← updateCompress k c.defers { c.U with T := UT }
  let L ← updateCompress k c.defers { c.L with T := LT }
  pure { c with d := d, p := p, q := q, ut := ut, l := l, U := U, L := L }

/-- `for (; step < m; ++step) { … }` (802–979).  The test `m == step` (874) sits inside `if (pvt)`; without a deferral
`m > step`, so testing it always is the same. -/
def mainLoop (pr : Par K R) (I : In K) : Nat → St K → M (St K)
  | 0, c => if c.step < c.m then throw (.ub "endless loop") else pure c
  | f + 1, c =>
    if c.step < c.m then do
      let c ← pivotPhase pr I.n I.m2 c
      if c.m = c.step then pure c
      else do
        let c ← updatePhase pr I c
        mainLoop pr I f { c with step := c.step + 1 }
    else pure c

/-- `assign_gap_array(P, p)` for `step` up to `n` (981–984; Crout.hpp 110–113). -/
def assignGaps (step defers n : Nat) (P : Buf (Option Nat)) (p : Buf Nat) : M (Buf Nat) :=
  forUp step n p fun i p => do
    let x ← P.rd (i + defers)
    match x with
    | none => throw (.ub "negative index")
    | some v => p.wr i v

/-- `compress_tails` (443–466) for one factor; `start` holds global positions. -/
def compressTail (T : CS K) (start : Buf Nat) (m dfrs : Nat) : M (CS K) := do
  let inds ← if dfrs ≠ 0 then
      forUp 0 m T.inds fun i inds => do
        let lo ← start.rd i
        let hi ← T.start.rd (i + 1)
        forUp lo hi inds fun k inds => do
          let x ← inds.rd k
          inds.wr k (x - dfrs)
    else pure T.inds
  pure { T with inds := inds, ssize := T.ssize / 2 }

/-- `L_start[i] += L.col_start()[i]` (995–998). -/
def globalStart (T : CS K) (start : Buf Nat) (m : Nat) : M (Buf Nat) :=
  forUp 0 m start fun i st => do
    let a ← st.rd i
    let b ← T.start.rd i
    st.wr i (a + b)

/-- What is left after the Crout phase (before the Schur complement). -/
structure Out (K : Type _) where
  m : Nat
  defers : Nat
  d : Buf K
  p : BiPerm
  q : BiPerm
  U : CS K
  L : CS K
  Ustart : Buf Nat
  Lstart : Buf Nat
  kU : Buf K
  kL : Buf K
  nDiag : Nat
  nCond : Nat
  l : SV K
  ut : SV K

/-- Completion (981–1001): tail of the permutations, inverses, end of assembly, global starts, compressed tails. -/
def finish (n : Nat) (c : St K) : M (Out K) := do
  let p ← assignGaps c.step c.defers n c.P c.p
  let q ← assignGaps c.step c.defers n c.Q c.q
  let p ← BiPerm.buildInv ⟨p, c.pinv⟩
  let q ← BiPerm.buildInv ⟨q, c.qinv⟩
  let UT := c.U.T.endAssemble
  let LT := c.L.T.endAssemble
  let Ls ← globalStart LT c.L.start c.m
  let Us ← globalStart UT c.U.start c.m
  let UT ← compressTail UT Us c.m c.defers
  let LT ← compressTail LT Ls c.m c.defers
  pure ⟨c.m, c.defers, c.d, p, q, UT, LT, Us, Ls, c.kU, c.kL, c.nDiag, c.nCond, c.l, c.ut⟩

/-- Body of `extract_perm_diag` (136–156): `find_sorted` is a `lower_bound`; on a sorted column it finds the entry if present.
Modelled as a search for the first stored index not below the target. -/
def lowerBound (inds : Buf Nat) (v : Nat) : Nat → Nat → M Nat
  | 0, lo => pure lo
  | n + 1, lo => do
    let x ← inds.rd lo
    if x < v then lowerBound inds v n (lo + 1) else pure lo

/-- One diagonal entry (148–155). -/
def permDiagAt (I : In K) (i : Nat) : M K := do
  let qi ← I.q0.rd i
  let pi ← I.p0.rd i
  let lo ← I.Accs.start.rd qi
  let hi ← I.Accs.start.rd (qi + 1)
  let pos ← lowerBound I.Accs.inds pi (hi - lo) lo
  if pos ≠ hi then do
    let x ← I.Accs.inds.rd pos
    if x = pi then do
      let v ← I.Accs.vals.rd pos
      let s ← I.s.rd pi
      let t ← I.t.rd qi
      pure (s * v * t)
    else pure 0
  else pure 0

/-- `extract_perm_diag` (129–158). -/
def permDiag [Inhabited K] (I : In K) : M (Buf K) :=
  if I.Accs.ssize < I.m2 ∨ I.Accs.psize < I.m2 then throw (.hif "invalid leading block size")
  else forUp 0 I.m2 (Buf.mk' I.m2 default) fun i d => do
    let v ← permDiagAt I i
    d.wr i v

/-- Copy of a permutation into the first `n` slots of `P`/`Q` (791–792). -/
def widen (n : Nat) (p : Buf Nat) : M (Buf (Option Nat)) :=
  forUp 0 n (Buf.mk' (2 * n) none) fun i P => do
    let x ← p.rd i
    P.wr i (some x)

/-- An empty factor ready for assembly (697–765). -/
def emptySide [Inhabited K] (n m2 : Nat) : FacSide K :=
  { T := CS.beginAssemble (CS.mk m2 (2 * n) (Buf.mk' 0 0) (Buf.mk' 0 0) (Buf.mk' 0 default)),
    list := Buf.mk' (2 * n) none, start := Buf.mk' m2 0 }

/-- Initial state (690–800). -/
def init [Inhabited K] (I : In K) : M (St K) := do
  let d ← permDiag I
  let P ← widen I.n I.p0
  let Q ← widen I.n I.q0
  pure { step := 0, defers := 0, m := I.m2, d := d, p := I.p0, q := I.q0, pinv := I.pinv0, qinv := I.qinv0, P := P, Q := Q,
         U := emptySide I.n I.m2, L := emptySide I.n I.m2, kU := Buf.mk' I.m2 default, kL := Buf.mk' I.m2 default,
         ut := SV.new (2 * I.n), l := SV.new (2 * I.n), nDiag := 0, nCond := 0 }

/-- The Crout phase of `level_factorize` (690–1001). -/
def croutPhase [Inhabited K] (pr : Par K R) (I : In K) : M (Out K) := do
  let c ← init I
  let c ← mainLoop pr I I.m2 c
  finish I.n c

end loop

section realdrop
variable [Field K] [DecidableEq K] {R : Type _} [Field R] [LinearOrder R] [FloorSemiring R]

/-- The dropping of the code (909–921, 930–963): numerical dropping with `tau` and `|kappa|*kappa_d`, then space dropping with
the reference size of the line and `alpha`. -/
def realDrop (nrm : K → R) (nth : (Nat → R) → Nat → List Nat → List Nat) (tau kappaD alpha : R) (sizes : Buf Nat)
    (k : K) (lab : Nat) (v : SV K) : M (SV K) := do
  let v ← v.numDrop nrm tau (nrm k * kappaD)
  let nz ← sizes.rd lab
  v.spaceDrop nth nrm nz alpha 0

end realdrop

end Crout
end Hif
