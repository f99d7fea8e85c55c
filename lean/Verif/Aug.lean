import Verif.Crout

/-!
# Augmented compressed storage (model)

Model of `internal::AugmentedCore`, `AugCRS` and `AugCCS` (src/hif/ds/AugmentedStorage.hpp 61–1129).  The two classes are mirror images; the model speaks of
primary lines (rows of `AugCRS`, columns of `AugCCS`) and secondary lists (columns of `AugCRS`, rows of `AugCCS`).  Lines cited are those of the core and of
`AugCRS`; the same code is at 930–1129 for `AugCCS`.

Simplifications: `_NIL` (the largest integer) is `none`; `hif_assert` is inactive; `reserve` does not change what is stored and is left out; the
endless loop of `interchange_cols` has a step bound, and reaching it is the outcome `ub` (the theorems exclude it).
-/

namespace Hif

/-- `rotate_right(n, src, v)` (src/hif/utils/common.hpp 92–100) on the positions `[lo,hi)` = `[src+1-n, src+1)`. -/
def Buf.rotateRight {α : Type _} (b : Buf α) (lo hi : Nat) : M (Buf α) :=
  if lo < hi ∧ hi ≤ b.size then
    pure { size := b.size, get := fun i => if lo ≤ i ∧ i < hi then (if i = lo then b.get (hi - 1) else b.get (i - 1)) else b.get i }
  else throw (.ub "rotate of an invalid range")

/-- Members of `AugCRS`: the storage (base class) and `AugmentedCore` (352–358). -/
structure Aug (K : Type _) where
  cs : CS K
  ninds : Buf Nat
  nstart : Buf (Option Nat)
  nnext : Buf (Option Nat)
  nend : Buf (Option Nat)
  vpos : Buf Nat
  vinv : Buf Nat
  counts : Buf Nat

namespace Aug
variable {K : Type _}

/-- `_begin_assemble_nodes(nlist)` (158–172). -/
def beginNodes (A : Aug K) (nlist : Nat) : Aug K :=
  { A with nstart := Buf.mk' nlist none, nend := Buf.mk' nlist none, counts := Buf.mk' nlist 0, ninds := Buf.mk' 0 0, nnext := Buf.mk' 0 none,
           vpos := Buf.mk' 0 0, vinv := Buf.mk' 0 0 }

/-- `begin_assemble_rows()` (712–715). -/
def begin [Inhabited K] (A : Aug K) : Aug K := beginNodes { A with cs := A.cs.beginAssemble } A.cs.ssize

/-- `_node_next[_node_end[j]] = i` (203). -/
def linkEnd (next : Buf (Option Nat)) (e : Option Nat) (i : Nat) : M (Buf (Option Nat)) :=
  match e with
  | none => pure next
  | some e => next.wr e (some i)

/-- `if (is_nil(_node_start[j])) _node_start[j] = i` (207). -/
def linkStart (start : Buf (Option Nat)) (j i : Nat) : M (Buf (Option Nat)) := do
  let s ← start.rd j
  if s = none then start.wr j (some i) else pure start

/-- Body of the loop of `_push_back_nodes` (194–210), together with the growth of the arrays by one element (184–190: the code grows the arrays by the
whole range first). -/
def pushNode (entry j : Nat) (A : Aug K) : M (Aug K) := do
  let i := A.ninds.size
  let next := A.nnext.push none
  let e ← A.nend.rd j
  let next ← linkEnd next e i
  let nend ← A.nend.wr j (some i)
  let nstart ← linkStart A.nstart j i
  let c ← A.counts.rd j
  let counts ← A.counts.wr j (c + 1)
  pure { A with ninds := A.ninds.push entry, vpos := A.vpos.push i, vinv := A.vinv.push i, nnext := next, nend := nend, nstart := nstart, counts := counts }

/-- `_push_back_nodes(entry, first, last)` (181–211). -/
def pushNodes (entry : Nat) : List Nat → Aug K → M (Aug K)
  | [], A => pure A
  | j :: l, A => do
    let A ← pushNode entry j A
    pushNodes entry l A

/-- `push_back_row(row, first, last, v)` (725–729). -/
def pushLine (A : Aug K) (row : Nat) (l : List Nat) (v : Buf K) : M (Aug K) := do
  let cs ← A.cs.pushLine l v
  pushNodes row l { A with cs := cs }

/-- `push_back_row` with two ranges (744–750). -/
def pushLine2 (A : Aug K) (row : Nat) (l1 : List Nat) (v1 : Buf K) (l2 : List Nat) (v2 : Buf K) : M (Aug K) := do
  let cs ← A.cs.pushLine2 l1 v1 l2 v2
  let A ← pushNodes row l1 { A with cs := cs }
  pushNodes row l2 A

/-- `build_aug(crs)` (423–432) with `_build_aug` (324–342); the status test is not modelled. -/
def buildAug (A : Aug K) (B : CS K) : M (Aug K) :=
  if B.psize + 1 ≠ B.start.size then throw (.hif "row-start array size does not agree with nrows")
  else do
    let nnz ← B.start.back
    if nnz ≠ B.inds.size then throw (.hif "inconsistent nnz")
    else forUp 0 (B.start.size - 1) (beginNodes { A with cs := B } B.ssize) fun i A => do
      let lo ← B.start.rd i
      let hi ← B.start.rd (i + 1)
      pushNodes i (B.inds.slice lo hi) A

/-- Exchange of two elements (`std::swap`). -/
def swapBuf {α : Type _} (b : Buf α) (x y : Nat) : M (Buf α) := do
  let u ← b.rd x
  let v ← b.rd y
  let b ← b.wr x v
  b.wr y u

/-- `_swap_val_pos_exp(p1, p2)` (241–250). -/
def swapPos (A : Aug K) (p1 p2 : Nat) : M (Aug K) := do
  let a ← A.vinv.rd p1
  let b ← A.vinv.rd p2
  let vpos ← swapBuf A.vpos a b
  let vinv ← swapBuf A.vinv p1 p2
  pure { A with vpos := vpos, vinv := vinv }

/-- The assignment of positions after a rotation (267–274, 295–302). -/
def repos (vinv : Buf Nat) (lo hi : Nat) (vpos : Buf Nat) : M (Buf Nat) :=
  forUp lo hi vpos fun i vpos => do
    let x ← vinv.rd i
    vpos.wr x i

/-- `_rotate_val_pos_left(n, src)` (260–275), `rotate_left` of the indices and of the values (597–599), on `[lo,hi)` = `[src, src+n)`. -/
def rotL (A : Aug K) (lo hi : Nat) : M (Aug K) := do
  let vinv ← A.vinv.rotateLeft lo hi
  let vpos ← repos vinv lo hi A.vpos
  let inds ← A.cs.inds.rotateLeft lo hi
  let vals ← A.cs.vals.rotateLeft lo hi
  pure { A with vinv := vinv, vpos := vpos, cs := { A.cs with inds := inds, vals := vals } }

/-- `_rotate_val_pos_right(n, src)` (285–303), `rotate_right` of the indices and of the values (602–604), on `[lo,hi)` = `[src+1-n, src+1)`. -/
def rotR (A : Aug K) (lo hi : Nat) : M (Aug K) := do
  let vinv ← A.vinv.rotateRight lo hi
  let vpos ← repos vinv lo hi A.vpos
  let inds ← A.cs.inds.rotateRight lo hi
  let vals ← A.cs.vals.rotateRight lo hi
  pure { A with vinv := vinv, vpos := vpos, cs := { A.cs with inds := inds, vals := vals } }

/-- The entry of line `r` at position `p` gets the index `k` and moves to its place in the line (571–606, 618–643); `find_sorted` is a `lower_bound`
(modelled by linear search). -/
def moveTo (A : Aug K) (r p k : Nat) : M (Aug K) := do
  let lo ← A.cs.start.rd r
  let hi ← A.cs.start.rd (r + 1)
  let q ← Crout.lowerBound A.cs.inds k (hi - lo) lo
  let inds ← A.cs.inds.wr p k
  let A := { A with cs := { A.cs with inds := inds } }
  if p < q then rotL A p q
  else if q < p then rotR A q (p + 1)
  else pure A

/-- Both lists have an entry in the same line (558–566). -/
def swapBoth (A : Aug K) (p1 p2 : Nat) : M (Aug K) := do
  let vals ← swapBuf A.cs.vals p1 p2
  swapPos { A with cs := { A.cs with vals := vals } } p1 p2

/-- The loop of `interchange_cols` (547–653); `a`, `b` are the current nodes of the two lists. -/
def interLoop (i k : Nat) : Nat → Option Nat → Option Nat → Aug K → M (Aug K)
  | 0, _, _, _ => throw (.ub "the loop does not end")
  | fuel + 1, a, b, A =>
    match a, b with
    | none, none => pure A
    | some a, none => do
      let r ← A.ninds.rd a
      let p ← A.vpos.rd a
      let A ← moveTo A r p k
      let a ← A.nnext.rd a
      interLoop i k fuel a none A
    | none, some b => do
      let r ← A.ninds.rd b
      let p ← A.vpos.rd b
      let A ← moveTo A r p i
      let b ← A.nnext.rd b
      interLoop i k fuel none b A
    | some a, some b => do
      let r ← A.ninds.rd a
      let r' ← A.ninds.rd b
      let p ← A.vpos.rd a
      let p' ← A.vpos.rd b
      if r = r' then do
        let A ← swapBoth A p p'
        let a ← A.nnext.rd a
        let b ← A.nnext.rd b
        interLoop i k fuel a b A
      else if r < r' then do
        let A ← moveTo A r p k
        let a ← A.nnext.rd a
        interLoop i k fuel a (some b) A
      else do
        let A ← moveTo A r' p' i
        let b ← A.nnext.rd b
        interLoop i k fuel (some a) b A

/-- `_interchange_ik_head_tail(i, k)` (309–317). -/
def swapHeads (A : Aug K) (i k : Nat) : M (Aug K) := do
  let nstart ← swapBuf A.nstart i k
  let nend ← swapBuf A.nend i k
  let counts ← swapBuf A.counts i k
  pure { A with nstart := nstart, nend := nend, counts := counts }

/-- `interchange_cols(i, k)` (541–656). -/
def interchange (A : Aug K) (i k : Nat) : M (Aug K) :=
  if i = k then pure A
  else do
    let a ← A.nstart.rd i
    let b ← A.nstart.rd k
    let A ← interLoop i k (2 * A.ninds.size + 1) a b A
    swapHeads A i k

/-- The loop of `defer_col` (675–687). -/
def deferLoop (dst : Nat) : Nat → Option Nat → Aug K → M (Aug K)
  | 0, _, _ => throw (.ub "the loop does not end")
  | _ + 1, none, A => pure A
  | fuel + 1, some a, A => do
    let r ← A.ninds.rd a
    let p ← A.vpos.rd a
    let inds ← A.cs.inds.wr p dst
    let hi ← A.cs.start.rd (r + 1)
    let A ← rotL { A with cs := { A.cs with inds := inds } } p hi
    let a ← A.nnext.rd a
    deferLoop dst fuel a A

/-- `defer_col(from, to)` (668–691). -/
def defer (A : Aug K) (src dst : Nat) : M (Aug K) := do
  let a ← A.nstart.rd src
  let A ← deferLoop dst (A.ninds.size + 1) a A
  swapHeads A src dst

/-- Traversal of a secondary list with `next_col_id`, `row_idx` and `val_from_col_id` (462–513). -/
def walkFrom (A : Aug K) : Nat → Option Nat → M (List (Nat × K))
  | 0, _ => throw (.ub "the loop does not end")
  | _ + 1, none => pure []
  | fuel + 1, some a => do
    let r ← A.ninds.rd a
    let p ← A.vpos.rd a
    let v ← A.cs.vals.rd p
    let a ← A.nnext.rd a
    let l ← walkFrom A fuel a
    pure ((r, v) :: l)

/-- Traversal of list `j` from `start_col_id(j)`. -/
def walk (A : Aug K) (j : Nat) : M (List (Nat × K)) := do
  let a ← A.nstart.rd j
  walkFrom A (A.ninds.size + 1) a

end Aug
end Hif
