import Verif.Pre

/-!
# Reverse Cuthill–McKee ordering (model)

Model of src/hif/pre/rcm.hpp and of `run_rcm` (src/hif/pre/reordering.hpp 111–136).  The arrays are one-based in the code (each pointer is
decremented on entry); `rd1`, `wr1` are accesses to such arrays.  `for (;;)` loops carry fuel; running out of it is the outcome
`ub "endless loop"`.
-/

namespace Hif
namespace Rcm

section acc
variable {α : Type _}

/-- `b[i]` after `--b`. -/
def rd1 (b : Buf α) (i : Nat) : M α := if i = 0 then throw .oob else b.rd (i - 1)
/-- `b[i] = v` after `--b`. -/
def wr1 (b : Buf α) (i : Nat) (v : α) : M (Buf α) := if i = 0 then throw .oob else b.wr (i - 1) v
/-- `ls[i]` where `ls` was passed as `&perm[o]` (zero-based) and decremented. -/
def rdAt (o : Nat) (b : Buf α) (i : Nat) : M α := rd1 b (o + i)
/-- `ls[i] = v`. -/
def wrAt (o : Nat) (b : Buf α) (i : Nat) (v : α) : M (Buf α) := wr1 b (o + i) v

end acc

/-- A signed value used as an array index. -/
def toIdx (z : Int) : M Nat := if z < 0 then throw .oob else pure z.toNat

/-- `for (j = a; j < b; ++j) f(adjncy[j])`. -/
def forAdj {σ : Type _} (adjncy : Buf Nat) (a b : Nat) (s : σ) (f : Nat → σ → M σ) : M σ :=
  forUp a b s fun j s => do
    let nbr ← rd1 adjncy j
    f nbr s

/-- The graph: number of vertices, one-based starts and neighbours. -/
structure Graph where
  n : Nat
  xadj : Buf Int
  adjncy : Buf Nat

/-- `for (j = xadj[node]; j <= xadj[node + 1] - 1; ++j) f(adjncy[j])`. -/
def forNbr {σ : Type _} (G : Graph) (node : Nat) (s : σ) (f : Nat → σ → M σ) : M σ := do
  let a ← rd1 G.xadj node
  let b ← rd1 G.xadj (node + 1)
  let a ← toIdx a
  let b ← toIdx b
  forAdj G.adjncy a b s f

/-! ### Level structure -/

/-- Mask, list of visited vertices, their number. -/
structure LsSt where
  mask : Buf Bool
  ls : Buf Nat
  cc : Nat

/-- A neighbour is appended if it has not been visited (rcm.hpp 81–85). -/
def lsVisit (o : Nat) (nbr : Nat) (s : LsSt) : M LsSt := do
  let m ← s.mask.rd nbr
  if m = true then do
    let ls ← wrAt o s.ls (s.cc + 1) nbr
    let mask ← s.mask.wr nbr false
    pure { mask := mask, ls := ls, cc := s.cc + 1 }
  else pure s

/-- One vertex of the current level (rcm.hpp 75–87). -/
def lsNode (G : Graph) (o i : Nat) (s : LsSt) : M LsSt := do
  let node ← rdAt o s.ls i
  forNbr G node s (lsVisit o)

/-- The level loop (rcm.hpp 66–92). -/
def lsLevels (G : Graph) (o : Nat) : Nat → Nat → Nat → Buf Nat → LsSt → M (LsSt × Nat × Buf Nat)
  | 0, _, _, _, _ => throw (.ub "endless loop")
  | f + 1, lvlend, nlvl, xls, s => do
    let xls ← wr1 xls (nlvl + 1) (lvlend + 1)
    let s' ← forUp (lvlend + 1) (s.cc + 1) s (lsNode G o)
    if s.cc < s'.cc then lsLevels G o f s.cc (nlvl + 1) xls s'
    else do
      let xls ← wr1 xls (nlvl + 2) (s.cc + 1)
      pure (s', nlvl + 1, xls)

/-- Restoring the mask (rcm.hpp 93–97). -/
def lsRestore (o cc : Nat) (ls : Buf Nat) (mask : Buf Bool) : M (Buf Bool) :=
  forUp 1 (cc + 1) mask fun i mask => do
    let node ← rdAt o ls i
    mask.wr node true

/-- Result of `rootls_`. -/
structure Lvl where
  mask : Buf Bool
  ls : Buf Nat
  xls : Buf Nat
  nlvl : Nat

/-- `rootls_` (rcm.hpp 55–99). -/
def rootls (G : Graph) (o root : Nat) (mask : Buf Bool) (xls ls : Buf Nat) : M Lvl := do
  let mask ← mask.wr root false
  let ls ← wrAt o ls 1 root
  let r ← lsLevels G o (G.n + 1) 0 0 xls { mask := mask, ls := ls, cc := 1 }
  let mask ← lsRestore o r.1.cc r.1.ls r.1.mask
  pure { mask := mask, ls := r.1.ls, xls := r.2.2, nlvl := r.2.1 }

/-! ### Pseudo-peripheral root -/

/-- Number of unmasked neighbours (rcm.hpp 121–126). -/
def maskDeg (G : Graph) (mask : Buf Bool) (node : Nat) : M Nat :=
  forNbr G node 0 fun nbr d => do
    let m ← mask.rd nbr
    pure (if m = true then d + 1 else d)

/-- Vertex of smallest degree of the last level (rcm.hpp 115–131). -/
def pickRoot (G : Graph) (o jstrt cc : Nat) (mask : Buf Bool) (ls : Buf Nat) : M Nat := do
  let r0 ← rdAt o ls jstrt
  if cc ≠ jstrt then do
    let r ← forUp jstrt (cc + 1) (r0, cc) fun j r => do
      let node ← rdAt o ls j
      let d ← maskDeg G mask node
      pure (if d < r.2 then (node, d) else r)
    pure r.1
  else pure r0

/-- The loop of `fnroot_` (rcm.hpp 113–137). -/
def fnLoop (G : Graph) (o cc : Nat) : Nat → Lvl → M (Nat × Lvl)
  | 0, _ => throw (.ub "endless loop")
  | f + 1, v => do
    let jstrt ← rd1 v.xls v.nlvl
    let root ← pickRoot G o jstrt cc v.mask v.ls
    let v' ← rootls G o root v.mask v.xls v.ls
    if v'.nlvl ≤ v.nlvl then pure (root, v')
    else if v'.nlvl < cc then fnLoop G o cc f v'
    else pure (root, v')

/-- `fnroot_` (rcm.hpp 101–139): the root and the arrays. -/
def fnroot (G : Graph) (o root : Nat) (mask : Buf Bool) (xls ls : Buf Nat) : M (Nat × Lvl) := do
  let v ← rootls G o root mask xls ls
  let e ← rd1 v.xls (v.nlvl + 1)
  if v.nlvl = 1 ∨ v.nlvl = e - 1 then pure (root, v)
  else fnLoop G o (e - 1) (G.n + 1) v

/-! ### Degrees of a component -/

/-- Starts (negated for visited vertices), visited list, number, degrees. -/
structure DegSt where
  xadj : Buf Int
  ls : Buf Nat
  cc : Nat
  deg : Buf Nat

/-- One neighbour (rcm.hpp 169–175); the pair carries `ideg`. -/
def degVisit (o : Nat) (mask : Buf Bool) (nbr : Nat) (r : Nat × DegSt) : M (Nat × DegSt) := do
  let m ← mask.rd nbr
  if m = true then do
    let x ← rd1 r.2.xadj nbr
    if x < 0 then pure (r.1 + 1, r.2)
    else do
      let xadj ← wr1 r.2.xadj nbr (-x)
      let ls ← wrAt o r.2.ls (r.2.cc + 1) nbr
      pure (r.1 + 1, { r.2 with xadj := xadj, ls := ls, cc := r.2.cc + 1 })
  else pure r

/-- One vertex (rcm.hpp 159–178). -/
def degNode (adjncy : Buf Nat) (o : Nat) (mask : Buf Bool) (i : Nat) (s : DegSt) : M DegSt := do
  let node ← rdAt o s.ls i
  let a ← rd1 s.xadj node
  let b ← rd1 s.xadj (node + 1)
  let a ← toIdx (-a)
  let r ← forAdj adjncy a b.natAbs (0, s) (degVisit o mask)
  let deg ← wr1 r.2.deg node r.1
  pure { r.2 with deg := deg }

/-- The level loop (rcm.hpp 153–182). -/
def degLevels (adjncy : Buf Nat) (o : Nat) (mask : Buf Bool) : Nat → Nat → DegSt → M DegSt
  | 0, _, _ => throw (.ub "endless loop")
  | f + 1, lvlend, s => do
    let s' ← forUp (lvlend + 1) (s.cc + 1) s (degNode adjncy o mask)
    if s.cc < s'.cc then degLevels adjncy o mask f s.cc s' else pure s'

/-- Restoring the starts (rcm.hpp 183–187). -/
def degRestore (o cc : Nat) (ls : Buf Nat) (xadj : Buf Int) : M (Buf Int) :=
  forUp 1 (cc + 1) xadj fun i xadj => do
    let node ← rdAt o ls i
    let x ← rd1 xadj node
    wr1 xadj node (-x)

/-- `degree_` (rcm.hpp 141–189). -/
def degree (G : Graph) (o root : Nat) (mask : Buf Bool) (deg ls : Buf Nat) : M DegSt := do
  let ls ← wrAt o ls 1 root
  let x ← rd1 G.xadj root
  let xadj ← wr1 G.xadj root (-x)
  let s ← degLevels G.adjncy o mask (G.n + 1) 0 { xadj := xadj, ls := ls, cc := 1, deg := deg }
  let xadj ← degRestore o s.cc s.ls s.xadj
  pure { s with xadj := xadj }

/-! ### Numbering of a component -/

/-- Inner loop of the insertion sort (rcm.hpp 228–234): positions `fnbr … fnbr + t - 1` are still to be compared; returns the
insertion position relative to `fnbr`. -/
def insLoop (o : Nat) (deg : Buf Nat) (fnbr nbr : Nat) : Nat → Buf Nat → M (Nat × Buf Nat)
  | 0, perm => pure (0, perm)
  | t + 1, perm => do
    let lperm ← rdAt o perm (fnbr + t)
    let a ← rd1 deg lperm
    let b ← rd1 deg nbr
    if a ≤ b then pure (t + 1, perm)
    else do
      let perm ← wrAt o perm (fnbr + t + 1) lperm
      insLoop o deg fnbr nbr t perm

/-- Insertion sort of `perm[fnbr..lnbr]` by degree (rcm.hpp 223–238). -/
def insSort (o : Nat) (deg : Buf Nat) (fnbr lnbr : Nat) (perm : Buf Nat) : M (Buf Nat) :=
  forUp fnbr lnbr perm fun k perm => do
    let nbr ← rdAt o perm (k + 1)
    let r ← insLoop o deg fnbr nbr (k + 1 - fnbr) perm
    wrAt o r.2 (fnbr + r.1) nbr

/-- One vertex (rcm.hpp 210–239). -/
def rcmNode (G : Graph) (o : Nat) (deg : Buf Nat) (i : Nat) (s : LsSt) : M LsSt := do
  let s' ← lsNode G o i s
  if s'.cc ≤ s.cc + 1 then pure s'
  else do
    let ls ← insSort o deg (s.cc + 1) s'.cc s'.ls
    pure { s' with ls := ls }

/-- The level loop (rcm.hpp 204–242). -/
def rcmLevels (G : Graph) (o : Nat) (deg : Buf Nat) : Nat → Nat → LsSt → M LsSt
  | 0, _, _ => throw (.ub "endless loop")
  | f + 1, lvlend, s => do
    let s' ← forUp (lvlend + 1) (s.cc + 1) s (rcmNode G o deg)
    if s.cc < s'.cc then rcmLevels G o deg f s.cc s' else pure s'

/-- Reversal (rcm.hpp 243–251). -/
def rcmReverse (o cc : Nat) (perm : Buf Nat) : M (Buf Nat) :=
  forUp 1 (cc / 2 + 1) perm fun i perm => do
    let lperm ← rdAt o perm (cc + 1 - i)
    let x ← rdAt o perm i
    let perm ← wrAt o perm (cc + 1 - i) x
    wrAt o perm i lperm

/-- Result of `rcm_`: mask, permutation, size of the component, degrees (in `xls`), starts. -/
structure RcmOut where
  mask : Buf Bool
  perm : Buf Nat
  cc : Nat
  deg : Buf Nat
  xadj : Buf Int

/-- `rcm_` (rcm.hpp 191–253). -/
def rcm (G : Graph) (o root : Nat) (mask : Buf Bool) (perm deg : Buf Nat) : M RcmOut := do
  let d ← degree G o root mask deg perm
  let mask ← mask.wr root false
  if d.cc ≤ 1 then pure { mask := mask, perm := d.ls, cc := d.cc, deg := d.deg, xadj := d.xadj }
  else do
    let s ← rcmLevels { G with xadj := d.xadj } o d.deg (G.n + 1) 0 { mask := mask, ls := d.ls, cc := 1 }
    let perm ← rcmReverse o d.cc s.ls
    pure { mask := s.mask, perm := perm, cc := d.cc, deg := d.deg, xadj := d.xadj }

/-- The loop of `genrcm_` over the vertices (rcm.hpp 266–274): `k` vertices from `i` on remain; `o = num - 1`. -/
def genLoop (G : Graph) : Nat → Nat → Nat → Buf Bool → Buf Nat → Buf Nat → M (Buf Nat)
  | 0, _, _, _, _, perm => pure perm
  | k + 1, i, o, mask, xls, perm => do
    let m ← mask.rd i
    if m = true then do
      let r ← fnroot G o i mask xls perm
      let c ← rcm G o r.1 r.2.mask r.2.ls r.2.xls
      if G.n < o + c.cc + 1 then pure c.perm
      else genLoop { G with xadj := c.xadj } k (i + 1) (o + c.cc) c.mask c.deg c.perm
    else genLoop G k (i + 1) o mask xls perm

/-- `genrcm_` (rcm.hpp 255–276). -/
def genrcm (G : Graph) (perm : Buf Nat) (mask : Buf Bool) (xls : Buf Nat) : M (Buf Nat) := do
  let mask ← forUp 1 (G.n + 1) mask fun i mask => mask.wr i true
  genLoop G G.n 1 0 mask xls perm

/-- `RCM::apply` with its work space (rcm.hpp 296–314). -/
def apply (G : Graph) (perm : Buf Nat) : M (Buf Nat) :=
  if G.n = 0 then pure perm else genrcm G perm (Buf.mk' (G.n + 1) false) (Buf.mk' (G.n + 1) 0)

/-- The graph of a pattern, shifted to one-based numbering (reordering.hpp 118–130). -/
def graphOf (m : Nat) (b : Pre.Pat) : Graph :=
  { n := m, xadj := ⟨b.start.size, fun i => (b.start.get i : Int) + 1⟩, adjncy := ⟨b.inds.size, fun k => b.inds.get k + 1⟩ }

/-- `run_rcm` (reordering.hpp 111–136); the result array is not initialised (zero here). -/
def runRcm (m : Nat) (b : Pre.Pat) : M (Buf Nat) := do
  let P ← apply (graphOf m b) (Buf.mk' m 0)
  pure ⟨P.size, fun i => P.get i - 1⟩

end Rcm
end Hif
