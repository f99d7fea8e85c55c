import Verif.PrecTran
import Verif.Nsp

set_option linter.unusedSectionVars false
set_option linter.unusedVariables false
set_option linter.unusedSimpArgs false

/-!
# The user-level preconditioner object

Model of class `HIF` (src/hif/builder.hpp 107–586) and of `IterRefine` (src/hif/alg/IterRefine.hpp).

Operations are state transformers that keep the state also when an exception is raised (`HM`), because a C++ exception does
not undo the changes made before it.  Memory handed out by `resize` has arbitrary contents: `junk`.
Simplification: a level has at most one dense solver (`Last`); the code has two members, of which it fills one.
The value types of matrix, right-hand side and work space are identified.
-/

namespace Hif
open Finset Spec

/-- Data members of `HIF` (builder.hpp 577–584, 491–492). -/
structure HIF (K : Type _) where
  precs : List (Prec K)
  work : Buf K
  nsp : Option (Nsp K)
  nspTran : Option (Nsp K)
  stats : Nat → Nat
  nrows : Nat
  ncols : Nat

/-- Outcome of an operation on the object: new state, and result or exception. -/
def HM (K : Type _) (α : Type _) := HIF K → HIF K × M α

namespace HM
variable {K : Type _} {α β : Type _}

instance : Monad (HM K) where
  pure a := fun h => (h, .ok a)
  bind m f := fun h => match m h with
    | (h', .ok a) => f a h'
    | (h', .error e) => (h', .error e)

/-- A computation that does not touch the object. -/
def lift (m : M α) : HM K α := fun h => (h, m)
/-- Read the object. -/
def read : HM K (HIF K) := fun h => (h, .ok h)
/-- Replace the object. -/
def write (h : HIF K) : HM K Unit := fun _ => (h, .ok ())
/-- `hif_error`. -/
def fail (msg : String) : HM K α := fun h => (h, .error (.hif msg))
/-- `for (i = lo; i < lo + n; ++i) s = f(i, s)`. -/
def loop {σ : Type _} (f : Nat → σ → HM K σ) : Nat → Nat → σ → HM K σ
  | 0, _, s => pure s
  | n + 1, i, s => f i s >>= fun s' => loop f n (i + 1) s'

/-- From state `h` the operation completes normally with a result and state satisfying `Q`. -/
def Does (m : HM K α) (h : HIF K) (Q : HIF K → α → Prop) : Prop := ∃ h' a, m h = (h', .ok a) ∧ Q h' a

theorem does_pure (a : α) (h : HIF K) (Q : HIF K → α → Prop) : Does (pure a) h Q ↔ Q h a := by
  constructor
  · rintro ⟨h', a', e, q⟩; cases e; exact q
  · intro q; exact ⟨h, a, rfl, q⟩
theorem does_bind (m : HM K α) (f : α → HM K β) (h : HIF K) (Q : HIF K → β → Prop) :
    Does (m >>= f) h Q ↔ Does m h fun h' a => Does (f a) h' Q := by
  show (∃ h' b, (match m h with | (h', .ok a) => f a h' | (h', .error e) => (h', .error e)) = (h', .ok b) ∧ Q h' b) ↔ _
  unfold Does
  rcases hm : m h with ⟨h', _ | a⟩ <;> simp
theorem bind_ok {m : HM K α} {f : α → HM K β} {h h' : HIF K} {a : α} (e : m h = (h', .ok a)) :
    (m >>= f) h = f a h' := by
  show (match m h with | (h', .ok a) => f a h' | (h', .error e) => (h', .error e)) = _
  rw [e]
theorem bind_error {m : HM K α} {f : α → HM K β} {h h' : HIF K} {e : Err} (he : m h = (h', .error e)) :
    (m >>= f) h = (h', .error e) := by
  show (match m h with | (h', .ok a) => f a h' | (h', .error e) => (h', .error e)) = _
  rw [he]
theorem does_lift (m : M α) (h : HIF K) (Q : HIF K → α → Prop) : Does (lift m) h Q ↔ Runs m (Q h) := by
  unfold Does lift Runs
  constructor
  · rintro ⟨h', a, e, q⟩
    rw [Prod.mk.injEq] at e
    obtain ⟨rfl, e⟩ := e
    exact ⟨a, e, q⟩
  · rintro ⟨a, e, q⟩; exact ⟨h, a, by rw [e], q⟩
theorem does_read (h : HIF K) (Q : HIF K → HIF K → Prop) : Does read h Q ↔ Q h h := by
  constructor
  · rintro ⟨h', a, e, q⟩; cases e; exact q
  · intro q; exact ⟨h, h, rfl, q⟩
theorem does_write (w h : HIF K) (Q : HIF K → Unit → Prop) : Does (write w) h Q ↔ Q w () := by
  constructor
  · rintro ⟨h', a, e, q⟩; cases e; exact q
  · intro q; exact ⟨w, (), rfl, q⟩
theorem Does.mono {m : HM K α} {h : HIF K} {P Q : HIF K → α → Prop} (hp : Does m h P) (hpq : ∀ h a, P h a → Q h a) :
    Does m h Q := by
  obtain ⟨h', a, e, p⟩ := hp; exact ⟨h', a, e, hpq h' a p⟩
theorem loop_does {σ : Type _} (f : Nat → σ → HM K σ) (I : Nat → HIF K → σ → Prop) (n i : Nat) (h : HIF K) (s : σ) (h0 : I i h s)
    (hstep : ∀ k h s, i ≤ k → k < i + n → I k h s → Does (f k s) h (I (k + 1))) : Does (loop f n i s) h (I (i + n)) := by
  induction n generalizing i s h with
  | zero => exact (does_pure _ _ _).2 h0
  | succ n ih =>
    rw [loop, does_bind]
    refine (hstep i h s (Nat.le_refl _) (by omega) h0).mono fun h' s' hs' => ?_
    have := ih (i + 1) h' s' hs' (fun k h s hk hk' => hstep k h s (by omega) (by omega))
    rwa [show i + (n + 1) = i + 1 + n by omega]
end HM

namespace HIF
variable {K : Type _}

/-- A default-constructed object.  (`_nrows`, `_ncols`, `_stats` are uninitialised in the code: arbitrary here.) -/
def new (junk : Nat → K) (nrows ncols : Nat) (stats : Nat → Nat) : HIF K := ⟨[], ⟨0, junk⟩, none, none, stats, nrows, ncols⟩

/-! ### Queries -/

/-- `empty` (builder.hpp 137). -/
def empty (h : HIF K) : Bool := h.precs.isEmpty

/-- `levels` (builder.hpp 141–147). -/
def levels (h : HIF K) : Nat :=
  match h.precs.getLast? with
  | none => 0
  | some P => h.precs.length + (if P.last.isNone then 0 else 1)

end HIF

/-- `nnz` of a compressed matrix (CompressedStorage.hpp 135–137): last start minus first, 0 if there is no start array. -/
def CS.nnz {K : Type _} (A : CS K) : Nat := if A.start.size = 0 then 0 else A.start.get (A.start.size - 1) - A.start.get 0

namespace Prec
variable {K : Type _}

/-- `Prec::nnz` (Prec.hpp 170–176). -/
def nnz (P : Prec K) : Nat :=
  let nz := if P.m ≠ 0 then P.L.nnz + P.U.nnz + P.m else 0
  let nz := if P.n - P.m ≠ 0 then nz + (P.E.nnz + P.F.nnz) else nz
  if !P.last.isNone then nz + (P.n - P.m) * (P.n - P.m) else nz

/-- `Prec::nnz_ef` (Prec.hpp 179–182). -/
def nnzEf (P : Prec K) : Nat := if P.n - P.m ≠ 0 then P.E.nnz + P.F.nnz else 0

/-- `Prec::last_rank` (Prec.hpp 202–206). -/
def lastRank (P : Prec K) : Nat := if !P.isLast || P.m == P.n then 0 else P.last.rank

end Prec

namespace HIF
variable {K : Type _}

/-- `nnz` (builder.hpp 158–164). -/
def nnz (h : HIF K) : Nat := h.precs.foldl (fun a P => a + P.nnz) 0

/-- `nnz_ef` (builder.hpp 187–193). -/
def nnzEf (h : HIF K) : Nat := h.precs.foldl (fun a P => a + P.nnzEf) 0

/-- `nnz_ldu` (builder.hpp 196); `size_t` subtraction: `none` stands for wrap-around. -/
def nnzLdu (h : HIF K) : Option Nat := if h.nnzEf ≤ h.nnz then some (h.nnz - h.nnzEf) else none

/-- `schur_rank` (builder.hpp 175–178). -/
def schurRank (h : HIF K) : Nat :=
  match h.precs.getLast? with
  | none => 0
  | some P => P.lastRank

/-- `schur_size` (builder.hpp 181–184). -/
def schurSize (h : HIF K) : Nat :=
  match h.precs.getLast? with
  | none => 0
  | some P => P.n - P.m

/-- `rank` (builder.hpp 167–172); `none` stands for wrap-around of a `size_t` subtraction. -/
def rank (h : HIF K) : Option Nat :=
  match h.precs.getLast? with
  | none => some 0
  | some P =>
    if P.lastRank ≤ P.n - P.m ∧ (P.n - P.m) - P.lastRank ≤ min h.nrows h.ncols then
      some (min h.nrows h.ncols - ((P.n - P.m) - P.lastRank))
    else none

/-- `stats(entry)` (builder.hpp 217–234). -/
def statsAt (h : HIF K) (entry : Nat) : M Nat :=
  if h.empty then throw (.hif "no stats available for empty structure")
  else if 5 < entry then throw (.hif "exceeds maximum statistics entry (5)")
  else pure (h.stats entry)

/-- `prec(level)` (builder.hpp 238–244): `std::advance` then dereference; past the last element this is undefined. -/
def precAt (h : HIF K) (level : Nat) : M (Prec K) :=
  if h.levels ≤ level then throw (.hif "exceeds the total level number")
  else match h.precs[level]? with
    | some P => pure P
    | none => throw (.ub "dereferencing the end of the level list")

/-- `clear` (builder.hpp 247–254). -/
def clear (junk : Nat → K) (h : HIF K) : HIF K := { h with precs := [], work := ⟨0, junk⟩, nsp := none, nspTran := none }

/-! ### Applying the preconditioner -/

section
variable [Field K] [StarRing K]

/-- `if (_prec_work.empty()) _prec_work.resize(len)` (builder.hpp 414–416, 441, 507–509). -/
def ensureWork (junk : Nat → K) (len : Nat) : HM K (Buf K) := fun h =>
  if h.work.size = 0 then ({ h with work := ⟨len, junk⟩ }, .ok ⟨len, junk⟩) else (h, .ok h.work)

/-- Run a computation on the work space `w` and store its contents back.  (The computation only gets at the elements, it cannot
change the size of the array.  Simplification: after an exception the contents are left as they were; nothing reads them.) -/
def withWork {α : Type _} (f : Buf K → M (α × Buf K)) (w : Buf K) : HM K α := fun h =>
  match f w with
  | .ok (a, w') => ({ h with work := ⟨w.size, w'.get⟩ }, .ok a)
  | .error e => (h, .error e)

/-- The filter step of `solve` (builder.hpp 419–422). -/
def applyFilter (h : HIF K) (trans : Bool) (x : Buf K) : M (Buf K) :=
  if !trans && h.nsp.isSome then
    match h.nsp with
    | some F => F.filter x x.size
    | none => pure x
  else if trans && h.nspTran.isSome then
    match h.nspTran with
    | some F => F.filter x x.size
    | none => pure x
  else pure x

/-- `solve` (builder.hpp 409–423). -/
def solve (junk : Nat → K) (b x : Buf K) (trans : Bool) (r : Nat) : HM K (Buf K) := do
  let h ← HM.read
  if h.empty then HM.fail "MILU-Prec is empty!"
  else if b.size ≠ x.size then HM.fail "unmatched sizes"
  else do
    let w ← ensureWork junk (Prec.workSpace h.precs)
    let x ← withWork (fun w => if trans then Prec.solveT r h.precs b x w else Prec.solve r h.precs b x w) w
    HM.lift (h.applyFilter trans x)

/-- `mmultiply` (builder.hpp 502–512). -/
def mmultiply (junk : Nat → K) (x y : Buf K) (trans : Bool) (r : Nat) : HM K (Buf K) := do
  let h ← HM.read
  if h.empty then HM.fail "MILU-Prec is empty!"
  else if y.size ≠ x.size then HM.fail "unmatched sizes"
  else do
    let w ← ensureWork junk (Prec.workSpace h.precs)
    withWork (fun w => if trans then Prec.prodT r h.precs x y w else Prec.prod r h.precs x y w) w

/-- `solve_mrhs<N>` (builder.hpp 433–445).  `b` and `x` are flat buffers of `N`-tuples; the work space is reinterpreted as an
array of tuples. -/
def solveMrhs (junk : Nat → K) (N : Nat) (b x : Buf K) (r : Nat) : HM K (Buf K) := do
  let h ← HM.read
  if h.empty then HM.fail "MILU-Prec is empty!"
  else if b.size ≠ x.size then HM.fail "unmatched sizes"
  else if h.nsp.isSome then HM.fail "multiple RHS does not support null space filter."
  else do
    let w ← ensureWork junk (Prec.workSpace h.precs * N)
    withWork (Prec.solveMrhs N r h.precs b x) w

/-! ### Iterative refinement -/

/-- A matrix operator as `iter_refine` uses it: `multiply(A, x, y, trans)`. -/
abbrev Operator (K : Type _) := Bool → Buf K → Buf K → M (Buf K)

/-- `x := b - A xk` (IterRefine.hpp 93–99), or `x := b` in the first round (100–101). -/
def irResidual (A : Operator K) (b : Buf K) (tran : Bool) (first : Bool) (xk x : Buf K) : M (Buf K) :=
  if !first then do
    let x ← A tran xk x
    updRange 0 b.size x fun j a => do
      let bj ← b.rd j
      pure (bj - a)
  else fillRange 0 b.size x fun j => b.rd j

/-- One round of `iter_refine` (IterRefine.hpp 91–104); the state is `(x, _xk, _r)`. -/
def irStep (junk : Nat → K) (A : Operator K) (b : Buf K) (tran : Bool) (r : Nat) (i : Nat) (s : Buf K × Buf K × Buf K) :
    HM K (Buf K × Buf K × Buf K) := do
  let xk ← HM.lift (fillRange 0 s.1.size s.2.1 fun j => s.1.rd j)
  let x ← HM.lift (irResidual A b tran (i == 0) xk s.1)
  let rr ← solve junk x s.2.2 tran r
  let x ← HM.lift (fillRange 0 b.size x fun j => do
    let a ← rr.rd j
    let c ← xk.rd j
    pure (a + c))
  pure (x, xk, rr)

/-- `hifir(A, b, N, x, trans, r)`: fixed-count refinement (builder.hpp 458–465, IterRefine.hpp 77–105). -/
def hifir (junk : Nat → K) (A : Operator K) (b : Buf K) (N : Nat) (x : Buf K) (tran : Bool) (r : Nat) : HM K (Buf K) :=
  if N ≤ 1 then solve junk b x tran r
  else do
    let h ← HM.read
    if h.ncols = 0 then HM.fail "memory allocation failed"
    else do
      let x ← HM.lift (fillRange 0 x.size x fun _ => pure 0)
      let s ← HM.loop (irStep junk A b tran r) N 0 (x, ⟨h.ncols, junk⟩, ⟨h.ncols, junk⟩)
      pure s.1

variable {R : Type _} [LinearOrder R] [Zero R] [Div R]

/-- One round of the bounded refinement up to the iteration test (IterRefine.hpp 146–147); the state is `(x, _xk, _r)`. -/
def irbUpdate (junk : Nat → K) (b : Buf K) (tran : Bool) (r : Nat) (s : Buf K × Buf K × Buf K) : HM K (Buf K × Buf K) := do
  let xk ← solve junk s.2.2 s.2.1 tran r
  let x ← HM.lift (updRange 0 b.size s.1 fun j a => do
    let c ← xk.rd j
    pure (a + c))
  pure (x, xk)

/-- The residual of the bounded refinement (IterRefine.hpp 152–156). -/
def irbResidual (A : Operator K) (b : Buf K) (tran : Bool) (x xk rr : Buf K) : M (Buf K × Buf K) := do
  let xk ← A tran x xk
  let rr ← fillRange 0 b.size rr fun j => do
    let bj ← b.rd j
    let a ← xk.rd j
    pure (bj - a)
  pure (xk, rr)

/-- The loop of the bounded refinement (IterRefine.hpp 145–164).  `fuel` is the number of iterations still allowed
(`N - iters`); `norm` is `norm2`. -/
def irbLoop (junk : Nat → K) (A : Operator K) (b : Buf K) (norm : Buf K → R) (bnorm β₀ β₁ : R) (tran : Bool) (r : Nat) :
    Nat → Nat → Buf K × Buf K × Buf K → HM K (Buf K × Nat × Int)
  | 0, iters, s => do
    let u ← irbUpdate junk b tran r s
    pure (u.1, iters + 1, -1)
  | fuel + 1, iters, s => do
    let u ← irbUpdate junk b tran r s
    let v ← HM.lift (irbResidual A b tran u.1 u.2 s.2.2)
    let res := norm v.2 / bnorm
    if res ≤ β₀ then pure (u.1, iters + 1, 0)
    else if β₁ < res then pure (u.1, iters + 1, 1)
    else irbLoop junk A b norm bnorm β₀ β₁ tran r fuel (iters + 1) (u.1, v.1, v.2)

/-- `hifir(A, b, N, betas, x, trans, r)`: refinement with residual bounds (builder.hpp 481–489, IterRefine.hpp 121–166). -/
def hifirBounded (junk : Nat → K) (A : Operator K) (norm : Buf K → R) (b : Buf K) (N : Nat) (β₀ β₁ : R) (x : Buf K)
    (tran : Bool) (r : Nat) : HM K (Buf K × Nat × Int) :=
  if N ≤ 1 then do
    let x ← solve junk b x tran r
    pure (x, 1, -1)
  else if norm b = 0 then do
    let x ← HM.lift (fillRange 0 x.size x fun _ => pure 0)
    pure (x, 0, 0)
  else do
    let h ← HM.read
    if h.ncols = 0 then HM.fail "memory allocation failed"
    else do
      let x ← HM.lift (fillRange 0 x.size x fun _ => pure 0)
      let rr ← HM.lift (fillRange 0 b.size ⟨h.ncols, junk⟩ fun j => b.rd j)
      irbLoop junk A b norm (norm b) β₀ β₁ tran r (N - 1) 0 (x, ⟨h.ncols, junk⟩, rr)

end
end HIF
end Hif
