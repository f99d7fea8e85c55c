import Verif.ArrayRC

/-!
# Dense matrices (model)

Model of `hif::DenseMatrix` (src/hif/ds/DenseMatrix.hpp 165–407): two sizes and an `Array` with the entries by columns.  The array is an object of the
memory model of `ArrayRC.lean`; its operations are the ones of that model.  Assertions (`hif_assert`) are off, as in a release build.  Not modelled here: the
conversion from compressed storage (356–399; `Coo.lean`) and copies between value types (224–226).
-/

namespace Hif
namespace Dense
open RC

/-- Objects: `_data` is the array with the same name; `_nrows`, `_ncols` (DenseMatrix.hpp 402–404). -/
structure State (α : Type _) where
  rc : RC.State α
  nr : Nat → Nat
  nc : Nat → Nat

/-- Operations; `x`, `y` are names of objects. -/
inductive Op (α : Type _) where
  | new (x : Nat)
  | newSq (x n1 n2 : Nat) (ok : Bool)
  | newV (x n1 n2 : Nat) (v : α) (ok : Bool)
  | newCopy (x n1 n2 : Nat) (p : Ptr) (ok : Bool)
  | wrap (x n1 n2 : Nat) (p : Ptr)
  | share (x y : Nat)
  | clone (x y : Nat)
  | move (x y : Nat)
  | assign (x y : Nat)
  | moveAssign (x y : Nat)
  | resize (x n1 n2 : Nat) (ok : Bool)
  | write (x i j : Nat) (v : α)
  | destroy (x : Nat)

section
variable {α : Type _} [Inhabited α]

/-- Number of columns of `DenseMatrix(n1, n2 = 0)` (DenseMatrix.hpp 206). -/
def sqCols (n1 n2 : Nat) : Nat := if n2 ≠ 0 then n2 else n1

/-- What happens to `_data`: constructors (200–240), the assignments generated by the compiler (243–245), `resize` (262–267, nothing if the sizes are the same),
`operator()(i, j)` (285–301, `_data[i + j * _nrows]`). -/
def toRC (s : State α) : Op α → Option (RC.Op α)
  | .new x => some (.new x)
  | .newSq x n1 n2 ok => some (.newN x (n1 * sqCols n1 n2) default ok)
  | .newV x n1 n2 v ok => some (.newN x (n1 * n2) v ok)
  | .newCopy x n1 n2 p ok => some (.newCopy x (n1 * n2) p ok)
  | .wrap x n1 n2 p => some (.wrap x (n1 * n2) p)
  | .share x y => some (.share x y)
  | .clone x y => some (.clone x y)
  | .move x y => some (.move x y)
  | .assign x y => some (.assign x y)
  | .moveAssign x y => some (.moveAssign x y)
  | .resize x n1 n2 ok => if n1 = s.nr x ∧ n2 = s.nc x then none else some (.resize x (n1 * n2) true ok)
  | .write x i j v => some (.write x (i + j * s.nr x) v)
  | .destroy x => some (.destroy x)

/-- `_nrows`, `_ncols` of object `x` are set. -/
def State.dim (s : State α) (rc : RC.State α) (x n1 n2 : Nat) : State α := { rc := rc, nr := upd s.nr x n1, nc := upd s.nc x n2 }

/-- `if (_data.status() == DATA_UNDEF) _nrows = _ncols = 0u` (DenseMatrix.hpp 207, 216). -/
def State.dimOr0 (s : State α) (rc : RC.State α) (x n1 n2 : Nat) : State α :=
  match rc.var x with
  | some a => if a.status = .undef then s.dim rc x 0 0 else s.dim rc x n1 n2
  | none => s.dim rc x n1 n2

/-- What happens to the sizes.  A moved-from object keeps them: the generated move copies the two numbers (244–245). -/
def setDims (s : State α) (rc : RC.State α) : Op α → State α
  | .new x => s.dim rc x 0 0
  | .newSq x n1 n2 _ => s.dimOr0 rc x n1 (sqCols n1 n2)
  | .newV x n1 n2 _ _ => s.dimOr0 rc x n1 n2
  | .newCopy x n1 n2 _ _ => s.dim rc x n1 n2
  | .wrap x n1 n2 _ => s.dim rc x n1 n2
  | .share x y => s.dim rc x (s.nr y) (s.nc y)
  | .clone x y => s.dim rc x (s.nr y) (s.nc y)
  | .move x y => s.dim rc x (s.nr y) (s.nc y)
  | .assign x y => s.dim rc x (s.nr y) (s.nc y)
  | .moveAssign x y => s.dim rc x (s.nr y) (s.nc y)
  | .resize x n1 n2 _ => s.dim rc x n1 n2
  | .write _ _ _ _ => { s with rc := rc }
  | .destroy _ => { s with rc := rc }

/-- The operation on `_data`, if any. -/
def stepRC (o : Option (RC.Op α)) (s : RC.State α) : M (RC.State α) :=
  match o with
  | none => pure s
  | some p => RC.step p s

/-- One operation. -/
def step (o : Op α) (s : State α) : M (State α) := do
  let rc ← stepRC (toRC s o) s.rc
  pure (setDims s rc o)

/-- A history. -/
def run : List (Op α) → State α → M (State α)
  | [], s => pure s
  | o :: l, s => do
    let s ← step o s
    run l s

/-- No object; memory of the user. -/
def init (usr : Nat → Buf α) : State α := { rc := RC.init usr, nr := fun _ => 0, nc := fun _ => 0 }

/-- Value of `A(i, j)` (DenseMatrix.hpp 285–301). -/
def entry (s : State α) (x i j : Nat) : M α := peek s.rc x (i + j * s.nr x)

/-- A loop from `col_begin(j)` to `col_end(j)` (DenseMatrix.hpp 304–325): the values met. -/
def column (s : State α) (x j : Nat) : M (List α) :=
  forUp (j * s.nr x) ((j + 1) * s.nr x) [] fun k acc => do
    let v ← peek s.rc x k
    pure (acc ++ [v])

/-- `for (; it != last; ++it)` for a `StrideIterator` (DenseMatrix.hpp 96–138) at distance `pos` from the first entry; an iterator that has passed `last` never
meets it again. -/
def stride (s : State α) (x step stop : Nat) : Nat → Nat → M (List α)
  | 0, _ => throw (.ub "endless loop")
  | f + 1, pos =>
    if pos = stop then pure []
    else if stop < pos then throw (.ub "past the end")
    else do
      let v ← peek s.rc x pos
      let l ← stride s x step stop f (pos + step)
      pure (v :: l)

/-- A loop from `row_begin(i)` (`data() + i`, stride `_nrows`) to `row_end(i)` (`_data.end() + i`) (DenseMatrix.hpp 329–350): the values met. -/
def row (s : State α) (x i : Nat) : M (List α) := do
  let a ← obj s.rc x
  stride s x (s.nr x) (a.size + i) (a.size + 1) i

end
end Dense
end Hif
