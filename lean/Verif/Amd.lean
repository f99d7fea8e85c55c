import Verif.Core
import Verif.Pre

set_option linter.unusedVariables false

/-!
# Approximate minimum degree ordering (model)

Model of `amd::AMD<Int>` (src/hif/pre/amd.hpp 108–1138) as called by `run_amd<false>` (src/hif/pre/reordering.hpp 52–101).  Numbers, nodes and positions are integers;
`-1` is `EMPTY`, `flip i = -i - 2` is `FLIP(i)`.

Simplifications.
* Integers do not overflow; `wbig` (`Int_MAX - n`, 410) is a parameter.  The dense threshold `alpha * sqrt(n)` (389–394) is a parameter.
* Arrays that share memory at different times (`Sp` and `Nv`, `Tp` and `W`, `Tp` and `P`, 824–825, 1094) are separate; freshly allocated memory has arbitrary
  contents (`junk k` for the `k`-th array).
* The statistics (`Info`, 711–739) and messages are left out; allocation succeeds.
* A `while` loop has a bound on the number of its passes; reaching the bound is the outcome `ub`.
-/

namespace Hif
namespace Amd

/-- An array of integers with a checked access. -/
structure Arr where
  size : Int
  get : Int → Int

/-- Store without check (used only by `wr`). -/
def Arr.set (a : Arr) (i v : Int) : Arr := ⟨a.size, fun k => if k = i then v else a.get k⟩

/-- Checked load. -/
def Arr.rd (a : Arr) (i : Int) : M Int := if 0 ≤ i ∧ i < a.size then pure (a.get i) else throw .oob

/-- Checked store. -/
def Arr.wr (a : Arr) (i v : Int) : M Arr := if 0 ≤ i ∧ i < a.size then pure (a.set i v) else throw .oob

/-- `for (i = lo; i < hi; ++i)`. -/
def forZ {σ : Type _} (lo hi : Int) (s : σ) (f : Int → σ → M σ) : M σ := loop (fun k s => f (lo + k) s) (hi - lo).toNat 0 s

/-- `FLIP` (95). -/
def flip (i : Int) : Int := -i - 2

/-! ### Postorder of a forest -/

/-- Number of steps along a list from `f` (272–274). -/
def countSib (sib : Arr) : Nat → Int → Int → M Int
  | 0, f, head => if f = -1 then pure head else throw (.ub "endless loop")
  | k + 1, f, head =>
    if f = -1 then pure head
    else do
      let g ← sib.rd f
      countSib sib k g (head + 1)

/-- The list from `f` goes to the stack, the first on top (276–278). -/
def pushSib (sib : Arr) : Nat → Int → Int → Arr → M Arr
  | 0, f, _, st => if f = -1 then pure st else throw (.ub "endless loop")
  | k + 1, f, h, st =>
    if f = -1 then pure st
    else do
      let st ← st.wr h f
      let g ← sib.rd f
      pushSib sib k g (h - 1) st

/-- State of the traversal. -/
structure PT where
  head : Int
  k : Int
  child : Arr
  order : Arr
  stack : Arr

/-- One pass of the loop of `post_tree` (269–285). -/
def ptBody (n : Nat) (sib : Arr) (s : PT) : M PT := do
  let i ← s.stack.rd s.head
  let c ← s.child.rd i
  if c ≠ -1 then do
    let head ← countSib sib n c s.head
    let stack ← pushSib sib n c head s.stack
    let child ← s.child.wr i (-1)
    pure { s with head := head, stack := stack, child := child }
  else do
    let order ← s.order.wr i s.k
    pure { s with head := s.head - 1, order := order, k := s.k + 1 }

/-- The loop of `post_tree` (268–286). -/
def ptLoop (n : Nat) (sib : Arr) : Nat → PT → M PT
  | 0, s => if s.head < 0 then pure s else throw (.ub "endless loop")
  | f + 1, s =>
    if s.head < 0 then pure s
    else do
      let s ← ptBody n sib s
      ptLoop n sib f s

/-- `post_tree` (257–288). -/
def postTree (n : Nat) (sib : Arr) (root : Int) (s : PT) : M PT := do
  let stack ← s.stack.wr 0 root
  ptLoop n sib (2 * n) { s with head := 0, stack := stack }

/-- Children lists (293–305): `child` and `sib` are filled. -/
def buildLists (n : Nat) (parent nv child sib : Arr) : M (Arr × Arr) := do
  let r ← forZ 0 n (child, sib) fun j r => do
    let c ← r.1.wr j (-1)
    let s ← r.2.wr j (-1)
    pure (c, s)
  forDown n r fun j r => do
    let v ← nv.rd j
    if 0 < v then do
      let p ← parent.rd j
      if p ≠ -1 then do
        let c ← r.1.rd p
        let s ← r.2.wr j c
        let ch ← r.1.wr p j
        pure (ch, s)
      else pure r
    else pure r

/-- State of the search for the largest child (308–320). -/
structure Big where
  f : Int
  fprev : Int
  maxf : Int
  bigprev : Int
  big : Int

/-- The largest child (312–320). -/
def findBig (fsize sib : Arr) : Nat → Big → M Big
  | 0, b => if b.f = -1 then pure b else throw (.ub "endless loop")
  | k + 1, b =>
    if b.f = -1 then pure b
    else do
      let z ← fsize.rd b.f
      let g ← sib.rd b.f
      findBig fsize sib k (if b.maxf ≤ z then ⟨g, b.f, z, b.fprev, b.f⟩ else { b with f := g, fprev := b.f })

/-- The largest child of `i` goes to the end of its list (307–331). -/
def bigLast (n : Nat) (nv fsize : Arr) (i : Int) (r : Arr × Arr) : M (Arr × Arr) := do
  let v ← nv.rd i
  let c ← r.1.rd i
  if 0 < v ∧ c ≠ -1 then do
    let b ← findBig fsize r.2 n ⟨c, -1, -1, -1, -1⟩
    let fnext ← r.2.rd b.big
    if fnext ≠ -1 then do
      let q ← (if b.bigprev = -1 then do
          let ch ← r.1.wr i fnext
          pure (ch, r.2)
        else do
          let s ← r.2.wr b.bigprev fnext
          pure (r.1, s))
      let s ← q.2.wr b.big (-1)
      let s ← s.wr b.fprev b.big
      pure (q.1, s)
    else pure r
  else pure r

/-- `postorder` (289–347); the result is `Order`. -/
def postorder (n : Nat) (parent nv fsize order child sib stack : Arr) : M Arr := do
  let r ← buildLists n parent nv child sib
  let r ← forZ 0 n r fun i r => bigLast n nv fsize i r
  let order ← forZ 0 n order fun i o => o.wr i (-1)
  let s ← forZ 0 n (⟨0, 0, r.1, order, stack⟩ : PT) fun i s => do
    let p ← parent.rd i
    let v ← nv.rd i
    if p = -1 ∧ 0 < v then postTree n r.2 i s else pure s
  pure s.order

/-! ### Elimination -/

/-- The arrays and counters of `two` (349–378). -/
structure St where
  pe : Arr
  iw : Arr
  len : Arr
  nv : Arr
  next : Arr
  last : Arr
  head : Arr
  elen : Arr
  degree : Arr
  w : Arr
  pfree : Int
  nel : Int
  mindeg : Int
  lemax : Int
  wflg : Int

/-- `clear_flag` (353–362). -/
def clearFlag (n : Nat) (wbig : Int) (c : St) : M St :=
  if c.wflg < 2 ∨ wbig ≤ c.wflg then do
    let w ← forZ 0 n c.w fun x w => do
      let v ← w.rd x
      if v ≠ 0 then w.wr x 1 else pure w
    pure { c with w := w, wflg := 2 }
  else pure c

/-- The first loop over the nodes (397–405). -/
def initArrays (n : Nat) (c : St) : M St :=
  forZ 0 n c fun i c => do
    let last ← c.last.wr i (-1)
    let head ← c.head.wr i (-1)
    let next ← c.next.wr i (-1)
    let nv ← c.nv.wr i 1
    let w ← c.w.wr i 1
    let elen ← c.elen.wr i 0
    let l ← c.len.rd i
    let degree ← c.degree.wr i l
    pure { c with last := last, head := head, next := next, nv := nv, w := w, elen := elen, degree := degree }

/-- `Head[deg]` gets `i` in front (422–425, 690–694). -/
def addDeg (i deg : Int) (c : St) : M St := do
  let inext ← c.head.rd deg
  let last ← (if inext ≠ -1 then c.last.wr inext i else pure c.last)
  let next ← c.next.wr i inext
  let head ← c.head.wr deg i
  pure { c with last := last, next := next, head := head }

/-- Nodes without neighbours, dense nodes and the others (408–427). -/
def initNode (dense : Int) (i : Int) (c : St) : M St := do
  let deg ← c.degree.rd i
  if deg = 0 then do
    let elen ← c.elen.wr i (flip 1)
    let pe ← c.pe.wr i (-1)
    let w ← c.w.wr i 0
    pure { c with elen := elen, pe := pe, w := w, nel := c.nel + 1 }
  else if dense < deg then do
    let nv ← c.nv.wr i 0
    let elen ← c.elen.wr i (-1)
    let pe ← c.pe.wr i (-1)
    pure { c with nv := nv, elen := elen, pe := pe, nel := c.nel + 1 }
  else addDeg i deg c

/-- The search for the smallest degree (429–432); the first argument is the number of lists left. -/
def findMin (head : Arr) : Nat → Int → M (Int × Int)
  | 0, deg => throw (.ub "no node left")
  | k + 1, deg => do
    let me ← head.rd deg
    if me ≠ -1 then pure (me, deg) else findMin head k (deg + 1)

/-- Node `i` leaves its degree list (451–460, 521–529). -/
def dropDeg (i : Int) (c : St) : M St := do
  let ilast ← c.last.rd i
  let inext ← c.next.rd i
  let last ← (if inext ≠ -1 then c.last.wr inext ilast else pure c.last)
  if ilast ≠ -1 then do
    let next ← c.next.wr ilast inext
    pure { c with last := last, next := next }
  else do
    let d ← c.degree.rd i
    let head ← c.head.wr d inext
    pure { c with last := last, head := head }

/-- State of the construction of the new element. -/
structure Build where
  p : Int
  pj : Int
  pme1 : Int
  pme2 : Int
  degme : Int
  c : St

/-- A neighbour of the pivot without elements (445–461). -/
def takeIn (p : Int) (b : Build) : M Build := do
  let i ← b.c.iw.rd p
  let nvi ← b.c.nv.rd i
  if 0 < nvi then do
    let nv ← b.c.nv.wr i (-nvi)
    let iw ← b.c.iw.wr (b.pme2 + 1) i
    let c ← dropDeg i { b.c with nv := nv, iw := iw }
    pure { b with degme := b.degme + nvi, pme2 := b.pme2 + 1, c := c }
  else pure b

/-- First pass of the compression (489–495): the first entry of every list and its address change places. -/
def gcMark (j : Int) (c : St) : M St := do
  let pn ← c.pe.rd j
  if 0 ≤ pn then do
    let x ← c.iw.rd pn
    let pe ← c.pe.wr j x
    let iw ← c.iw.wr pn (flip j)
    pure { c with pe := pe, iw := iw }
  else pure c

/-- Second pass (498–508): lists move to the front. -/
def gcSweep (pend : Int) : Nat → Int → Int → St → M (Int × St)
  | 0, psrc, pdst, c => if pend < psrc then pure (pdst, c) else throw (.ub "endless loop")
  | f + 1, psrc, pdst, c =>
    if pend < psrc then pure (pdst, c)
    else do
      let x ← c.iw.rd psrc
      if 0 ≤ flip x then do
        let pj ← c.pe.rd (flip x)
        let iw ← c.iw.wr pdst pj
        let pe ← c.pe.wr (flip x) pdst
        let lenj ← c.len.rd (flip x)
        let iw ← forZ 0 (lenj - 1) iw fun k iw => do
          let y ← iw.rd (psrc + 1 + k)
          iw.wr (pdst + 1 + k) y
        gcSweep pend f (psrc + 1 + max 0 (lenj - 1)) (pdst + 1 + max 0 (lenj - 1)) { c with iw := iw, pe := pe }
      else gcSweep pend f (psrc + 1) pdst c

/-- The two passes of the compression, then the part of the new element that is there moves, too (488–514); the results are the new start of the new element and the
state. -/
def gcMove (n : Nat) (pme1 : Int) (c : St) : M (Int × St) := do
  let c ← forZ 0 n c fun j c => gcMark j c
  let r ← gcSweep (pme1 - 1) pme1.toNat 0 0 c
  let iw ← forZ pme1 c.pfree r.2.iw fun q iw => do
    let y ← iw.rd q
    iw.wr (r.1 + (q - pme1)) y
  pure (r.1, { r.2 with iw := iw, pfree := r.1 + (c.pfree - pme1) })

/-- The compression (481–516). -/
def gc (n : Nat) (me e knt1 knt2 ln : Int) (b : Build) : M Build := do
  let pe ← b.c.pe.wr me b.p
  let lm ← b.c.len.rd me
  let len ← b.c.len.wr me (lm - knt1)
  let pe ← (if lm - knt1 = 0 then pe.wr me (-1) else pure pe)
  let pe ← pe.wr e b.pj
  let len ← len.wr e (ln - knt2)
  let pe ← (if ln - knt2 = 0 then pe.wr e (-1) else pure pe)
  let r ← gcMove n b.pme1 { b.c with pe := pe, len := len }
  let pj ← r.2.pe.rd e
  let p ← r.2.pe.rd me
  pure { b with p := p, pj := pj, pme1 := r.1, c := r.2 }

/-- An entry of an element or of the pivot (476–531). -/
def takeOut (n : Nat) (iwlen me e knt1 ln knt2 : Int) (b : Build) : M Build := do
  let i ← b.c.iw.rd b.pj
  let b := { b with pj := b.pj + 1 }
  let nvi ← b.c.nv.rd i
  if 0 < nvi then do
    let b ← (if iwlen ≤ b.c.pfree then gc n me e knt1 knt2 ln b else pure b)
    let nv ← b.c.nv.wr i (-nvi)
    let iw ← b.c.iw.wr b.c.pfree i
    let c ← dropDeg i { b.c with nv := nv, iw := iw, pfree := b.c.pfree + 1 }
    pure { b with degme := b.degme + nvi, c := c }
  else pure b

/-- An element of the pivot, or the pivot itself (465–535). -/
def takeList (n : Nat) (iwlen me elenme slenme knt1 : Int) (b : Build) : M Build :=
  if elenme < knt1 then
    forZ 1 (slenme + 1) { b with pj := b.p } fun knt2 b => takeOut n iwlen me me knt1 slenme knt2 b
  else do
    let e ← b.c.iw.rd b.p
    let pj ← b.c.pe.rd e
    let ln ← b.c.len.rd e
    let b ← forZ 1 (ln + 1) { b with p := b.p + 1, pj := pj } fun knt2 b => takeOut n iwlen me e knt1 ln knt2 b
    let pe ← b.c.pe.wr e (flip me)
    let w ← b.c.w.wr e 0
    pure { b with c := { b.c with pe := pe, w := w } }

/-- Construction of the new element (441–537). -/
def build (n : Nat) (iwlen me elenme : Int) (c : St) : M Build := do
  let pm ← c.pe.rd me
  let lm ← c.len.rd me
  if elenme = 0 then
    forZ pm (pm + lm) ⟨0, 0, pm, pm - 1, 0, c⟩ fun p b => takeIn p b
  else do
    let b ← forZ 1 (elenme + 2) ⟨pm, 0, c.pfree, 0, 0, c⟩ fun knt1 b => takeList n iwlen me elenme (lm - elenme) knt1 b
    pure { b with pme2 := b.c.pfree - 1 }

/-- Sizes of the elements outside the new one (543–560), for one node of the new element. -/
def scanW (pme : Int) (c : St) : M St := do
  let i ← c.iw.rd pme
  let eln ← c.elen.rd i
  if 0 < eln then do
    let nv ← c.nv.rd i
    let pi ← c.pe.rd i
    let w ← forZ pi (pi + eln) c.w fun p w => do
      let e ← c.iw.rd p
      let we ← w.rd e
      if c.wflg ≤ we then w.wr e (we + nv)
      else if we ≠ 0 then do
        let d ← c.degree.rd e
        w.wr e (d + (c.wflg + nv))
      else pure w
    pure { c with w := w }
  else pure c

/-- State of the compression of a list (561–607): write position, hash value, degree. -/
structure Cmp where
  pn : Int
  hash : Int
  deg : Int
  c : St

/-- The elements of a list (568–595). -/
def cmpElem (aggressive : Bool) (me p : Int) (s : Cmp) : M Cmp := do
  let e ← s.c.iw.rd p
  let we ← s.c.w.rd e
  if we ≠ 0 then
    if aggressive = false ∨ 0 < we - s.c.wflg then do
      let iw ← s.c.iw.wr s.pn e
      pure { s with pn := s.pn + 1, hash := s.hash + e, deg := s.deg + (we - s.c.wflg), c := { s.c with iw := iw } }
    else do
      let pe ← s.c.pe.wr e (flip me)
      let w ← s.c.w.wr e 0
      pure { s with c := { s.c with pe := pe, w := w } }
  else pure s

/-- The nodes of a list (599–607). -/
def cmpVar (p : Int) (s : Cmp) : M Cmp := do
  let j ← s.c.iw.rd p
  let nvj ← s.c.nv.rd j
  if 0 < nvj then do
    let iw ← s.c.iw.wr s.pn j
    pure { s with pn := s.pn + 1, hash := s.hash + j, deg := s.deg + nvj, c := { s.c with iw := iw } }
  else pure s

/-- `i` enters the bucket of its hash value (622–631). -/
def toBucket (n : Nat) (i hash : Int) (c : St) : M St := do
  let h := hash % n
  let j ← c.head.rd h
  let c ← (if j ≤ -1 then do
      let next ← c.next.wr i (flip j)
      let head ← c.head.wr h (flip i)
      pure { c with next := next, head := head }
    else do
      let lj ← c.last.rd j
      let next ← c.next.wr i lj
      let last ← c.last.wr j i
      pure { c with next := next, last := last })
  let last ← c.last.wr i h
  pure { c with last := last }

/-- State of the second pass over the new element. -/
structure Pass where
  degme : Int
  nvpiv : Int
  c : St

/-- A node of the new element: its list is compressed, it is eliminated with the pivot or goes to a bucket (561–633). -/
def scan2 (n : Nat) (aggressive : Bool) (me pme : Int) (s : Pass) : M Pass := do
  let i ← s.c.iw.rd pme
  let p1 ← s.c.pe.rd i
  let el ← s.c.elen.rd i
  let r ← forZ p1 (p1 + el) (⟨p1, 0, 0, s.c⟩ : Cmp) fun p r => cmpElem aggressive me p r
  let elen ← r.c.elen.wr i (r.pn - p1 + 1)
  let li ← r.c.len.rd i
  let q ← forZ (p1 + el) (p1 + li) { r with c := { r.c with elen := elen } } fun p r => cmpVar p r
  if r.pn - p1 + 1 = 1 ∧ r.pn = q.pn then do
    let pe ← q.c.pe.wr i (flip me)
    let nv ← q.c.nv.rd i
    let nvs ← q.c.nv.wr i 0
    let elen ← q.c.elen.wr i (-1)
    pure ⟨s.degme + nv, s.nvpiv - nv, { q.c with pe := pe, nv := nvs, elen := elen, nel := q.c.nel - nv }⟩
  else do
    let d ← q.c.degree.rd i
    let degree ← q.c.degree.wr i (min d q.deg)
    let x3 ← q.c.iw.rd r.pn
    let iw ← q.c.iw.wr q.pn x3
    let x1 ← iw.rd p1
    let iw ← iw.wr r.pn x1
    let iw ← iw.wr p1 me
    let len ← q.c.len.wr i (q.pn - p1 + 1)
    let c ← toBucket n i q.hash { q.c with degree := degree, iw := iw, len := len }
    pure { s with c := c }

/-- Is `j` indistinguishable from the marked node (662–665)? -/
def same (c : St) (ln eln j : Int) : M Bool := do
  let lj ← c.len.rd j
  let ej ← c.elen.rd j
  let pj ← c.pe.rd j
  forZ (pj + 1) (pj + ln) (decide (lj = ln ∧ ej = eln)) fun p ok =>
    if ok then do
      let x ← c.iw.rd p
      let wx ← c.w.rd x
      pure (decide (wx = c.wflg))
    else pure false

/-- The nodes behind `i` in its bucket (659–676). -/
def mergeLoop (i ln eln : Int) : Nat → Int → Int → St → M St
  | 0, jlast, j, c => if j = -1 then pure c else throw (.ub "endless loop")
  | f + 1, jlast, j, c =>
    if j = -1 then pure c
    else do
      let ok ← same c ln eln j
      if ok then do
        let pe ← c.pe.wr j (flip i)
        let vi ← c.nv.rd i
        let vj ← c.nv.rd j
        let nv ← c.nv.wr i (vi + vj)
        let nv ← nv.wr j 0
        let elen ← c.elen.wr j (-1)
        let jn ← c.next.rd j
        let next ← c.next.wr jlast jn
        mergeLoop i ln eln f jlast jn { c with pe := pe, nv := nv, elen := elen, next := next }
      else do
        let jn ← c.next.rd j
        mergeLoop i ln eln f j jn c

/-- A bucket (652–679). -/
def bucketLoop (n : Nat) : Nat → Int → St → M St
  | 0, i, c => throw (.ub "endless loop")
  | f + 1, i, c =>
    if i = -1 then pure c
    else do
      let nx ← c.next.rd i
      if nx = -1 then pure c
      else do
        let ln ← c.len.rd i
        let eln ← c.elen.rd i
        let pi ← c.pe.rd i
        let w ← forZ (pi + 1) (pi + ln) c.w fun p w => do
          let x ← c.iw.rd p
          w.wr x c.wflg
        let c ← mergeLoop i ln eln n i nx { c with w := w }
        let nx ← c.next.rd i
        bucketLoop n f nx { c with wflg := c.wflg + 1 }

/-- The bucket of a node of the new element (638–680). -/
def bucket (n : Nat) (pme : Int) (c : St) : M St := do
  let i ← c.iw.rd pme
  let v ← c.nv.rd i
  if v < 0 then do
    let h ← c.last.rd i
    let j ← c.head.rd h
    if j = -1 then bucketLoop n (n + 1) (-1) c
    else if j < -1 then do
      let head ← c.head.wr h (-1)
      bucketLoop n (n + 1) (flip j) { c with head := head }
    else do
      let i ← c.last.rd j
      let last ← c.last.wr j (-1)
      bucketLoop n (n + 1) i { c with last := last }
  else pure c

/-- A node of the new element returns to a degree list (684–699). -/
def restore (n : Nat) (degme : Int) (pme : Int) (s : Int × St) : M (Int × St) := do
  let i ← s.2.iw.rd pme
  let v ← s.2.nv.rd i
  let nvi := -v
  if 0 < nvi then do
    let nv ← s.2.nv.wr i nvi
    let d ← s.2.degree.rd i
    let deg := min (d + degme - nvi) (n - s.2.nel - nvi)
    let c ← addDeg i deg { s.2 with nv := nv }
    let last ← c.last.wr i (-1)
    let degree ← c.degree.wr i deg
    let iw ← c.iw.wr s.1 i
    pure (s.1 + 1, { c with last := last, degree := degree, iw := iw, mindeg := min c.mindeg deg })
  else pure s

/-- One pivot (429–710). -/
def pivot (n : Nat) (wbig iwlen : Int) (aggressive : Bool) (c : St) : M St := do
  let m ← findMin c.head (n - c.mindeg).toNat c.mindeg
  let me := m.1
  let inext ← c.next.rd me
  let last ← (if inext ≠ -1 then c.last.wr inext (-1) else pure c.last)
  let head ← c.head.wr m.2 inext
  let elenme ← c.elen.rd me
  let nvpiv ← c.nv.rd me
  let nv ← c.nv.wr me (-nvpiv)
  let b ← build n iwlen me elenme { c with last := last, head := head, nv := nv, nel := c.nel + nvpiv, mindeg := m.2 }
  let degree ← b.c.degree.wr me b.degme
  let pe ← b.c.pe.wr me b.pme1
  let len ← b.c.len.wr me (b.pme2 - b.pme1 + 1)
  let elen ← b.c.elen.wr me (flip (nvpiv + b.degme))
  let c ← clearFlag n wbig { b.c with degree := degree, pe := pe, len := len, elen := elen }
  let c ← forZ b.pme1 (b.pme2 + 1) c fun pme c => scanW pme c
  let s ← forZ b.pme1 (b.pme2 + 1) (⟨b.degme, nvpiv, c⟩ : Pass) fun pme s => scan2 n aggressive me pme s
  let degree ← s.c.degree.wr me s.degme
  let c ← clearFlag n wbig { s.c with degree := degree, lemax := max s.c.lemax s.degme, wflg := s.c.wflg + max s.c.lemax s.degme }
  let c ← forZ b.pme1 (b.pme2 + 1) c fun pme c => bucket n pme c
  let r ← forZ b.pme1 (b.pme2 + 1) (b.pme1, c) fun pme r => restore n s.degme pme r
  let nv ← r.2.nv.wr me s.nvpiv
  let len ← r.2.len.wr me (r.1 - b.pme1)
  let c := { r.2 with nv := nv, len := len }
  let c ← (if r.1 - b.pme1 = 0 then do
      let pe ← c.pe.wr me (-1)
      let w ← c.w.wr me 0
      pure { c with pe := pe, w := w }
    else pure c)
  pure (if elenme ≠ 0 then { c with pfree := r.1 } else c)

/-- `while (nel < n)` (428–710). -/
def elim (n : Nat) (wbig iwlen : Int) (aggressive : Bool) : Nat → St → M St
  | 0, c => if c.nel < n then throw (.ub "endless loop") else pure c
  | f + 1, c =>
    if c.nel < n then do
      let c ← pivot n wbig iwlen aggressive c
      elim n wbig iwlen aggressive f c
    else pure c

/-! ### From the elimination to the permutation -/

/-- The node a path of eliminated nodes leads to (752–754). -/
def findRep (pe nv : Arr) : Nat → Int → M Int
  | 0, j => throw (.ub "endless loop")
  | f + 1, j => do
    let v ← nv.rd j
    if v = 0 then do
      let k ← pe.rd j
      findRep pe nv f k
    else pure j

/-- The path is shortened (757–762). -/
def shorten (nv : Arr) (e : Int) : Nat → Int → Arr → M Arr
  | 0, j, pe => throw (.ub "endless loop")
  | f + 1, j, pe => do
    let v ← nv.rd j
    if v = 0 then do
      let jn ← pe.rd j
      let pe ← pe.wr j e
      shorten nv e f jn pe
    else pure pe

/-- Eliminated nodes point to the node they were eliminated with (747–764). -/
def compress (n : Nat) (nv : Arr) (i : Int) (pe : Arr) : M Arr := do
  let v ← nv.rd i
  if v = 0 then do
    let j ← pe.rd i
    if j = -1 then pure pe
    else do
      let e ← findRep pe nv (n + 1) j
      shorten nv e (n + 1) i pe
  else pure pe

/-- Start of every element in the ordering (777–782). -/
def starts (head nv : Arr) : Nat → Int → Int → Arr → M (Int × Arr)
  | 0, k, nel, next => pure (nel, next)
  | f + 1, k, nel, next => do
    let e ← head.rd k
    if e = -1 then pure (nel, next)
    else do
      let next ← next.wr e nel
      let v ← nv.rd e
      starts head nv f (k + 1) (nel + v) next

/-- Position of the remaining nodes (783–793). -/
def place (pe nv : Arr) (i : Int) (s : Int × Arr) : M (Int × Arr) := do
  let v ← nv.rd i
  if v = 0 then do
    let e ← pe.rd i
    if e ≠ -1 then do
      let x ← s.2.rd e
      let next ← s.2.wr i x
      let y ← next.rd e
      let next ← next.wr e (y + 1)
      pure (s.1, next)
    else do
      let next ← s.2.wr i s.1
      pure (s.1 + 1, next)
  else pure s

/-- From the elimination tree to the permutation (741–797); the result is `Last`. -/
def finish (n : Nat) (c : St) : M Arr := do
  let pe ← forZ 0 n c.pe fun i pe => do let x ← pe.rd i; pe.wr i (flip x)
  let elen ← forZ 0 n c.elen fun i e => do let x ← e.rd i; e.wr i (flip x)
  let pe ← forZ 0 n pe fun i pe => compress n c.nv i pe
  let w ← postorder n pe c.nv elen c.w c.head c.next c.last
  let hn ← forZ 0 n (c.head, c.next) fun k r => do
    let h ← r.1.wr k (-1)
    let x ← r.2.wr k (-1)
    pure (h, x)
  let head ← forZ 0 n hn.1 fun e h => do
    let k ← w.rd e
    if k ≠ -1 then h.wr k e else pure h
  let s ← starts head c.nv n 0 0 hn.2
  let r ← forZ 0 n s fun i s => place pe c.nv i s
  forZ 0 n c.last fun i last => do
    let k ← r.2.rd i
    last.wr k i

/-- `two` (349–798); `dense` is the threshold before it is bounded (389–394). -/
def two (n : Nat) (wbig dense : Int) (aggressive : Bool) (iwlen : Int) (c : St) : M Arr := do
  let c ← initArrays n c
  let c ← clearFlag n wbig { c with nel := 0, mindeg := 0, lemax := 0, wflg := 0 }
  let c ← forZ 0 n c fun i c => initNode (min n (max 16 dense)) i c
  let c ← elim n wbig iwlen aggressive n c
  finish n c

/-! ### The pattern of `A + Aᵀ` -/

/-- The traversal shared by `aat` (893–930) and `one` (833–868), given what is done with an edge `(a, b)`. -/
def walkCol {σ : Type} (ap ai : Arr) (edge : Int → Int → σ → M σ) (k j : Int) : Nat → Int → σ → M (Int × σ)
  | 0, pj, s => pure (pj, s)
  | f + 1, pj, s => do
    let i ← ai.rd pj
    if i < k then do
      let s ← edge i j s
      walkCol ap ai edge k j f (pj + 1) s
    else if i = k then pure (pj + 1, s)
    else pure (pj, s)

/-- The entries above the diagonal of column `k` (836–861, 896–922); the result is the position behind the diagonal. -/
def walkRow {σ : Type} (ap ai : Arr) (edge : Int → Int → σ → M σ) (k : Int) : Nat → Int → Arr → σ → M (Int × Arr × σ)
  | 0, p, tp, s => pure (p, tp, s)
  | f + 1, p, tp, s => do
    let j ← ai.rd p
    if j < k then do
      let s ← edge j k s
      let pj2 ← ap.rd (j + 1)
      let pj ← tp.rd j
      let r ← walkCol ap ai edge k j (pj2 - pj).toNat pj s
      let tp ← tp.wr j r.1
      walkRow ap ai edge k f (p + 1) tp r.2
    else if j = k then pure (p + 1, tp, s)
    else pure (p, tp, s)

/-- All columns (833–868, 893–930). -/
def walk {σ : Type} (n : Nat) (ap ai : Arr) (edge : Int → Int → σ → M σ) (tp : Arr) (s : σ) : M σ := do
  let r ← forZ 0 n (tp, s) fun k r => do
    let p1 ← ap.rd k
    let p2 ← ap.rd (k + 1)
    let x ← walkRow ap ai edge k (p2 - p1).toNat p1 r.1 r.2
    let tp ← x.2.1.wr k x.1
    pure (tp, x.2.2)
  forZ 0 n r.2 fun j s => do
    let lo ← r.1.rd j
    let hi ← ap.rd (j + 1)
    forZ lo hi s fun pj s => do
      let i ← ai.rd pj
      edge i j s

/-- `aat` (873–951) without the statistics: the lengths, and their sum. -/
def aat (n : Nat) (ap ai len tp : Arr) : M (Int × Arr) := do
  let len ← forZ 0 n len fun k len => len.wr k 0
  let len ← walk n ap ai (fun a b len => do
    let x ← len.rd a
    let len ← len.wr a (x + 1)
    let y ← len.rd b
    len.wr b (y + 1)) tp len
  let s ← forZ 0 n (0 : Int) fun k s => do
    let x ← len.rd k
    pure (s + x)
  pure (s, len)

/-- `one` (800–871): the lists of neighbours, then the elimination. -/
def one (n : Nat) (wbig dense : Int) (aggressive : Bool) (ap ai len : Arr) (slen : Int) (junk : Nat → Int → Int) : M Arr := do
  let iwlen := slen - 6 * n
  let r ← forZ 0 n ((⟨n, junk 0⟩ : Arr), (⟨n, junk 1⟩ : Arr), (0 : Int)) fun j r => do
    let pe ← r.1.wr j r.2.2
    let sp ← r.2.1.wr j r.2.2
    let l ← len.rd j
    pure (pe, sp, r.2.2 + l)
  let s ← walk n ap ai (fun a b (s : Arr × Arr) => do
    let x ← s.1.rd a
    let iw ← s.2.wr x b
    let sp ← s.1.wr a (x + 1)
    let y ← sp.rd b
    let iw ← iw.wr y a
    let sp ← sp.wr b (y + 1)
    pure (sp, iw)) ⟨n, junk 2⟩ (r.2.1, (⟨iwlen, junk 3⟩ : Arr))
  two n wbig dense aggressive iwlen ⟨r.1, s.2, len, ⟨n, junk 4⟩, ⟨n, junk 5⟩, ⟨n, junk 6⟩, ⟨n, junk 7⟩, ⟨n, junk 8⟩, ⟨n, junk 9⟩, ⟨n, junk 10⟩, r.2.2, 0, 0, 0, 0⟩

/-- `valid` (953–982) for a matrix whose arrays exist: 0 is `AMD_OK`, 1 is `AMD_OK_BUT_JUMBLED`, -2 is `AMD_INVALID`. -/
def valid (n : Nat) (ap ai : Arr) : M Int := do
  let nz ← ap.rd n
  let a0 ← ap.rd 0
  if a0 ≠ 0 ∨ nz < 0 then pure (-2)
  else forZ 0 n (0 : Int) fun j res =>
    if res = -2 then pure res
    else do
      let p1 ← ap.rd j
      let p2 ← ap.rd (j + 1)
      if p2 < p1 then pure (-2)
      else do
        let r ← forZ p1 p2 (res, (-1 : Int)) fun p (r : Int × Int) =>
          if r.1 = -2 then pure r
          else do
            let i ← ai.rd p
            if i < 0 ∨ (n : Int) ≤ i then pure (-2, r.2)
            else pure (if i ≤ r.2 then 1 else r.1, i)
        pure r.1

/-- `preprocess` (984–1020): the transpose without repeated entries. -/
def preprocess (n : Nat) (ap ai rp ri w flag : Arr) : M (Arr × Arr) := do
  let r ← forZ 0 n (w, flag) fun i r => do
    let w ← r.1.wr i 0
    let flag ← r.2.wr i (-1)
    pure (w, flag)
  let r ← forZ 0 n r fun j r => do
    let p2 ← ap.rd (j + 1)
    let p1 ← ap.rd j
    forZ p1 p2 r fun p (r : Arr × Arr) => do
      let i ← ai.rd p
      let fl ← r.2.rd i
      if fl ≠ j then do
        let x ← r.1.rd i
        let w ← r.1.wr i (x + 1)
        let flag ← r.2.wr i j
        pure (w, flag)
      else pure r
  let rp ← rp.wr 0 0
  let rp ← forZ 0 n rp fun i rp => do
    let x ← rp.rd i
    let y ← r.1.rd i
    rp.wr (i + 1) (x + y)
  let r ← forZ 0 n r fun i r => do
    let x ← rp.rd i
    let w ← r.1.wr i x
    let flag ← r.2.wr i (-1)
    pure (w, flag)
  let s ← forZ 0 n (r.1, r.2, ri) fun j (s : Arr × Arr × Arr) => do
    let p2 ← ap.rd (j + 1)
    let p1 ← ap.rd j
    forZ p1 p2 s fun p (s : Arr × Arr × Arr) => do
      let i ← ai.rd p
      let fl ← s.2.1.rd i
      if fl ≠ j then do
        let x ← s.1.rd i
        let ri ← s.2.2.wr x j
        let w ← s.1.wr i (x + 1)
        let flag ← s.2.1.wr i j
        pure (w, flag, ri)
      else pure s
  pure (rp, s.2.2)

/-- `order` (1022–1136) with checking and with the transposition of matrices that are not sorted (`run_amd<false>` sets `HIF_AMD_SYMM_FLAG`, reordering.hpp 65); a
matrix that is not valid is the exception of `run_amd` (87–97). -/
def order (n : Nat) (wbig dense : Int) (aggressive : Bool) (ap ai : Arr) (junk : Nat → Int → Int) : M Arr :=
  if n = 0 then pure ⟨0, junk 11⟩
  else do
    let nz ← ap.rd n
    let status ← valid n ap ai
    if status = -2 then throw (.hif "AMD returned invalid flag")
    else do
      let cp ← (if status = 1 then preprocess n ap ai ⟨n + 1, junk 12⟩ ⟨nz, junk 13⟩ ⟨n, junk 14⟩ ⟨n, junk 15⟩ else pure (ap, ai))
      let r ← aat n cp.1 cp.2 ⟨n, junk 16⟩ ⟨n, junk 17⟩
      one n wbig dense aggressive cp.1 cp.2 r.2 (r.1 + r.1 / 5 + 7 * n) junk

/-- `run_amd<false>` (reordering.hpp 52–101) on a pattern. -/
def runAmd (wbig dense : Int) (aggressive : Bool) (junk : Nat → Int → Int) (m : Nat) (b : Pre.Pat) : M (Buf Nat) := do
  let p ← order m wbig dense aggressive ⟨b.start.size, fun i => b.start.get i.toNat⟩ ⟨b.inds.size, fun i => b.inds.get i.toNat⟩ junk
  pure ⟨m, fun i => (p.get i).toNat⟩

end Amd
end Hif
