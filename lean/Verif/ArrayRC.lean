import Verif.Core

/-!
# Reference-counted arrays (model)

Model of `hif::Array` (src/hif/ds/Array.hpp 72–520) at the level of memory: objects hold a data pointer, sizes, a status and a pointer to
a counter; buffers and counters live on a heap; deleting twice, using freed memory, dereferencing a null counter and deleting user memory
are the outcome `ub`.

Simplifications: objects have names (natural numbers) instead of addresses; the counter objects are allocated by a throwing `new`, whose failure is
not modelled; failure of the non-throwing allocations of buffers is an argument (`ok = false`) of the operation; the converting constructor
(178–190) is the same as `newN` followed by element writes and is not modelled separately.
-/

namespace Hif
namespace RC

/-- A data pointer: into a buffer allocated by `Array` or into memory of the user. -/
inductive Ptr where
  | own (b : Nat)
  | usr (p : Nat)
deriving DecidableEq

/-- `DATA_UNDEF`, `DATA_WRAP`, `DATA_OWN` (Array.hpp 59–63). -/
inductive Status where
  | undef | wrap | own
deriving DecidableEq

/-- Members of `Array` (Array.hpp 453–459). -/
structure Arr where
  data : Option Ptr
  size : Nat
  cap : Nat
  status : Status
  counts : Option Nat
deriving DecidableEq

/-- `f` with the value at `x` replaced. -/
def upd {β : Type _} (f : Nat → β) (x : Nat) (v : β) : Nat → β := fun y => if y = x then v else f y

/-- The heap: live buffers, live counters (`_RefCount`: value and `_invalid`, Array.hpp 87–104), user memory.  `freed` records the
calls of `delete[]`. -/
structure Heap (α : Type _) where
  blk : Nat → Option (Buf α)
  nb : Nat
  cnt : Nat → Option (Nat × Bool)
  nc : Nat
  usr : Nat → Buf α
  freed : List Nat

section
variable {α : Type _}

/-- `new _RefCount()` (Array.hpp 89). -/
def newCount (h : Heap α) : Nat × Heap α := (h.nc, { h with cnt := upd h.cnt h.nc (some (1, false)), nc := h.nc + 1 })

/-- `new value_type[n]` with contents `B`. -/
def newBlk (B : Buf α) (h : Heap α) : Nat × Heap α := (h.nb, { h with blk := upd h.blk h.nb (some B), nb := h.nb + 1 })

/-- `delete[] p`. -/
def delBlk (p : Ptr) (h : Heap α) : M (Heap α) :=
  match p with
  | .usr _ => throw (.ub "delete[] of user memory")
  | .own b =>
    match h.blk b with
    | none => throw (.ub "double free")
    | some _ => pure { h with blk := upd h.blk b none, freed := h.freed ++ [b] }

/-- Dereferencing a counter. -/
def getCount (c : Nat) (h : Heap α) : M (Nat × Bool) :=
  match h.cnt c with
  | none => throw (.ub "counter used after free")
  | some r => pure r

/-- `if (_counts) _counts->dec()` (Array.hpp 196). -/
def decCount (c : Option Nat) (h : Heap α) : M (Heap α) :=
  match c with
  | none => pure h
  | some c => do
    let r ← getCount c h
    if r.1 = 0 then throw (.ub "counter underflow") else pure { h with cnt := upd h.cnt c (some (r.1 - 1, r.2)) }

/-- `_counts->inc()` (Array.hpp 223, 269). -/
def incCount (c : Option Nat) (h : Heap α) : M (Heap α) :=
  match c with
  | none => throw (.ub "null counter")
  | some c => do
    let r ← getCount c h
    pure { h with cnt := upd h.cnt c (some (r.1 + 1, r.2)) }

/-- `delete[] _data` of the last owner (Array.hpp 198–199). -/
def freeData (a : Arr) (h : Heap α) : M (Heap α) :=
  match a.data, a.counts with
  | some p, some c =>
    if a.status = .own then do
      let r ← getCount c h
      if r.1 = 0 ∧ r.2 = false then delBlk p h else pure h
    else pure h
  | _, _ => pure h

/-- `delete _counts` (Array.hpp 200–204). -/
def freeCount (c : Option Nat) (h : Heap α) : M (Option Nat × Heap α) :=
  match c with
  | none => pure (none, h)
  | some c => do
    let r ← getCount c h
    if r.1 = 0 then pure (none, { h with cnt := upd h.cnt c none }) else pure (some c, h)

/-- `~Array()` (Array.hpp 193–208); the members after it are returned because the code goes on using the object. -/
def dtor (a : Arr) (h : Heap α) : M (Arr × Heap α) := do
  let h ← decCount a.counts h
  let h ← freeData a h
  let r ← freeCount a.counts h
  pure ({ data := none, size := 0, cap := 0, status := .undef, counts := r.1 }, r.2)

/-- Reading `data[i]`. -/
def load (p : Option Ptr) (i : Nat) (h : Heap α) : M α :=
  match p with
  | none => throw (.ub "null data")
  | some (.usr u) => (h.usr u).rd i
  | some (.own b) =>
    match h.blk b with
    | none => throw (.ub "use after free")
    | some B => B.rd i

/-- `data[i] = v`. -/
def store (p : Option Ptr) (i : Nat) (v : α) (h : Heap α) : M (Heap α) :=
  match p with
  | none => throw (.ub "null data")
  | some (.usr u) => do
    let B ← (h.usr u).wr i v
    pure { h with usr := upd h.usr u B }
  | some (.own b) =>
    match h.blk b with
    | none => throw (.ub "use after free")
    | some B => do
      let B ← B.wr i v
      pure { h with blk := upd h.blk b (some B) }

/-- `std::copy_n(p, n, B)` into a new buffer. -/
def copyN (p : Option Ptr) (n : Nat) (h : Heap α) (B : Buf α) : M (Buf α) :=
  forUp 0 n B fun i B => do
    let v ← load p i h
    B.wr i v

/-- `Array()` (Array.hpp 117–122). -/
def ctor0 (h : Heap α) : Arr × Heap α :=
  let c := newCount h
  ({ data := none, size := 0, cap := 0, status := .undef, counts := some c.1 }, c.2)

/-- `Array(n)` and `Array(n, v)` (Array.hpp 127–146); the initial value of `Array(n)` is arbitrary. -/
def ctorN (n : Nat) (v : α) (ok : Bool) (h : Heap α) : Arr × Heap α :=
  if ok then
    let b := newBlk (Buf.mk' n v) h
    let c := newCount b.2
    ({ data := some (.own b.1), size := n, cap := n, status := .own, counts := some c.1 }, c.2)
  else
    let c := newCount h
    ({ data := none, size := 0, cap := 0, status := .undef, counts := some c.1 }, c.2)

/-- `Array(n, data, false)` (Array.hpp 155–172): on failure the size is set to `n` nevertheless. -/
def ctorCopy (n : Nat) (p : Ptr) (v : α) (ok : Bool) (h : Heap α) : M (Arr × Heap α) :=
  let c := newCount h
  if ok then do
    let B ← copyN (some p) n c.2 (Buf.mk' n v)
    let b := newBlk B c.2
    pure ({ data := some (.own b.1), size := n, cap := n, status := .own, counts := some c.1 }, b.2)
  else pure ({ data := none, size := n, cap := n, status := .undef, counts := some c.1 }, c.2)

/-- `Array(n, data, true)` (Array.hpp 155–172; `wrap_array`, `wrap_const_array` 506–520). -/
def ctorWrap (n : Nat) (p : Ptr) (h : Heap α) : Arr × Heap α :=
  let c := newCount h
  ({ data := some p, size := n, cap := n, status := .wrap, counts := some c.1 }, c.2)

/-- `Array(other)` (Array.hpp 214–223). -/
def ctorShare (o : Arr) (h : Heap α) : M (Arr × Heap α) := do
  let h ← incCount o.counts h
  pure (o, h)

/-- `Array(other, true)` (Array.hpp 224–232); the allocation throws on failure, which is not modelled. -/
def ctorClone (v : α) (o : Arr) (h : Heap α) : M (Arr × Heap α) := do
  let c := newCount h
  let B ← copyN o.data o.size c.2 (Buf.mk' o.size v)
  let b := newBlk B c.2
  pure ({ data := some (.own b.1), size := o.size, cap := o.size, status := .own, counts := some c.1 }, b.2)

/-- The moved-from object (`RESET_ARRAY`, Array.hpp 236–242). -/
def nullArr : Arr := { data := none, size := 0, cap := 0, status := .undef, counts := none }

/-- `operator=(const Array&)` (Array.hpp 260–272). -/
def assign (a o : Arr) (h : Heap α) : M (Arr × Heap α) :=
  if a.data ≠ o.data then do
    let r ← dtor a h
    let h ← incCount o.counts r.2
    pure (o, h)
  else pure (a, h)

/-- `operator=(Array&&)` (Array.hpp 277–289): both objects. -/
def moveAssign (a o : Arr) (h : Heap α) : M (Arr × Arr × Heap α) :=
  if a.data ≠ o.data then do
    let r ← dtor a h
    pure (o, nullArr, r.2)
  else pure (a, o, h)

/-- `cap = _size ? 1.2 * n : n` (Array.hpp 358); the floating-point product is replaced by `⌊6n/5⌋`. -/
def growCap (size n : Nat) : Nat := if size ≠ 0 then n + n / 5 else n

/-- Values are copied if they are to be preserved (Array.hpp 367). -/
def copyIf (presv : Bool) (p : Option Ptr) (n : Nat) (h : Heap α) (B : Buf α) : M (Buf α) := if presv then copyN p n h B else pure B

/-- `resize(n, presv)` (Array.hpp 351–376). -/
def resize (n : Nat) (presv : Bool) (v : α) (ok : Bool) (a : Arr) (h : Heap α) : M (Arr × Heap α) :=
  if n ≤ a.cap then pure ({ a with size := n }, h)
  else if ok then do
    let cap := growCap a.size n
    let B ← copyIf presv a.data a.size h (Buf.mk' cap v)
    let b := newBlk B h
    let r ← dtor a b.2
    let c := newCount r.2
    pure ({ data := some (.own b.1), size := n, cap := cap, status := .own, counts := some c.1 }, c.2)
  else do
    let r ← dtor a h
    let c := newCount r.2
    pure ({ r.1 with counts := some c.1 }, c.2)

/-- `reserve(n)` (Array.hpp 382–403). -/
def reserve (n : Nat) (v : α) (ok : Bool) (a : Arr) (h : Heap α) : M (Arr × Heap α) :=
  if n ≤ a.cap then pure (a, h)
  else if ok then do
    let B ← copyN a.data a.size h (Buf.mk' n v)
    let b := newBlk B h
    let r ← dtor a b.2
    let c := newCount r.2
    pure ({ data := some (.own b.1), size := a.size, cap := n, status := .own, counts := some c.1 }, c.2)
  else do
    let r ← dtor a h
    let c := newCount r.2
    pure ({ r.1 with counts := some c.1 }, c.2)

/-- `push_back(v)` (Array.hpp 407–410). -/
def pushBack (x d : α) (ok : Bool) (a : Arr) (h : Heap α) : M (Arr × Heap α) := do
  let r ← resize (a.size + 1) true d ok a h
  let h ← store r.1.data (r.1.size - 1) x r.2
  pure (r.1, h)

/-- `push_back(first, last)` and `push_back_n(first, n)` (Array.hpp 418–437); the range does not belong to this array, only its values matter. -/
def pushRange (vs : List α) (d : α) (ok : Bool) (a : Arr) (h : Heap α) : M (Arr × Heap α) := do
  let r ← resize (a.size + vs.length) true d ok a h
  let h ← forUp 0 vs.length r.2 fun i h => store r.1.data (a.size + i) (vs.getD i d) h
  pure (r.1, h)

/-- `steal_array_ownership` (Array.hpp 479–498): object and the pointer handed out. -/
def steal (a : Arr) (h : Heap α) : M (Arr × Option Ptr × Heap α) :=
  if a.status ≠ .own then pure (a, none, h)
  else
    match a.counts with
    | none => throw (.ub "null counter")
    | some c => do
      let r ← getCount c h
      pure ({ data := none, size := 0, cap := 0, status := .undef, counts := some c }, a.data, { h with cnt := upd h.cnt c (some (r.1, true)) })

/-- Named objects, the heap, and the buffers handed out by `steal_array_ownership`. -/
structure State (α : Type _) where
  var : Nat → Option Arr
  heap : Heap α
  given : List Nat

/-- Operations of a history; `x`, `y` are names of objects. -/
inductive Op (α : Type _) where
  | new (x : Nat)
  | newN (x n : Nat) (v : α) (ok : Bool)
  | newCopy (x n : Nat) (p : Ptr) (ok : Bool)
  | wrap (x n : Nat) (p : Ptr)
  | share (x y : Nat)
  | clone (x y : Nat)
  | move (x y : Nat)
  | assign (x y : Nat)
  | moveAssign (x y : Nat)
  | swap (x y : Nat)
  | resize (x n : Nat) (presv ok : Bool)
  | reserve (x n : Nat) (ok : Bool)
  | push (x : Nat) (v : α) (ok : Bool)
  | append (x : Nat) (vs : List α) (ok : Bool)
  | write (x i : Nat) (v : α)
  | steal (x : Nat)
  | destroy (x : Nat)

/-- The object with a name. -/
def obj (s : State α) (x : Nat) : M Arr :=
  match s.var x with
  | none => throw (.ub "no such object")
  | some a => pure a

/-- The state in which object `x` has been replaced. -/
def State.put (s : State α) (x : Nat) (r : Arr × Heap α) : State α := { s with var := upd s.var x (some r.1), heap := r.2 }

/-- The buffer of a pointer handed out. -/
def handOut (p : Option Ptr) (l : List Nat) : List Nat :=
  match p with
  | some (.own b) => b :: l
  | _ => l

variable [Inhabited α]

/-- One operation; `move` is the move constructor (Array.hpp 247–255), `swap` is Array.hpp 328–334, `write` is `x[i] = v` (295–298). -/
def step (o : Op α) (s : State α) : M (State α) :=
  match o with
  | .new x => pure (s.put x (ctor0 s.heap))
  | .newN x n v ok => pure (s.put x (ctorN n v ok s.heap))
  | .newCopy x n p ok => do
    let r ← ctorCopy n p default ok s.heap
    pure (s.put x r)
  | .wrap x n p => pure (s.put x (ctorWrap n p s.heap))
  | .share x y => do
    let o ← obj s y
    let r ← ctorShare o s.heap
    pure (s.put x r)
  | .clone x y => do
    let o ← obj s y
    let r ← ctorClone default o s.heap
    pure (s.put x r)
  | .move x y => do
    let o ← obj s y
    pure { s with var := upd (upd s.var x (some o)) y (some nullArr) }
  | .assign x y => do
    let a ← obj s x
    let o ← obj s y
    let r ← RC.assign a o s.heap
    pure (s.put x r)
  | .moveAssign x y => do
    let a ← obj s x
    let o ← obj s y
    let r ← RC.moveAssign a o s.heap
    pure { s with var := upd (upd s.var x (some r.1)) y (some r.2.1), heap := r.2.2 }
  | .swap x y => do
    let a ← obj s x
    let o ← obj s y
    pure { s with var := upd (upd s.var x (some o)) y (some a) }
  | .resize x n presv ok => do
    let a ← obj s x
    let r ← RC.resize n presv default ok a s.heap
    pure (s.put x r)
  | .reserve x n ok => do
    let a ← obj s x
    let r ← RC.reserve n default ok a s.heap
    pure (s.put x r)
  | .push x v ok => do
    let a ← obj s x
    let r ← pushBack v default ok a s.heap
    pure (s.put x r)
  | .append x vs ok => do
    let a ← obj s x
    let r ← pushRange vs default ok a s.heap
    pure (s.put x r)
  | .write x i v => do
    let a ← obj s x
    let h ← store a.data i v s.heap
    pure { s with heap := h }
  | .steal x => do
    let a ← obj s x
    let r ← RC.steal a s.heap
    pure { var := upd s.var x (some r.1), heap := r.2.2, given := handOut r.2.1 s.given }
  | .destroy x => do
    let a ← obj s x
    let r ← dtor a s.heap
    pure { s with var := upd s.var x none, heap := r.2 }

/-- A history. -/
def run : List (Op α) → State α → M (State α)
  | [], s => pure s
  | o :: l, s => do
    let s ← step o s
    run l s

/-- Value `x[i]`. -/
def peek (s : State α) (x i : Nat) : M α := do
  let a ← obj s x
  load a.data i s.heap

/-- Nothing but user memory. -/
def init (usr : Nat → Buf α) : State α :=
  { var := fun _ => none, heap := { blk := fun _ => none, nb := 0, cnt := fun _ => none, nc := 0, usr := usr, freed := [] }, given := [] }

end

end RC
end Hif
