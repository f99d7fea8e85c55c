import Verif.Options
import Verif.Factor

set_option linter.unusedVariables false
set_option linter.unusedSectionVars false

/-!
# The C interface (model)

Models `libhifir/src/libhifir.cpp`.  The four precisions `d`, `s`, `z`, `c` are the same text; the model is one copy over a field
`K`.  The handles of the single-precision variants also hold a double-precision matrix (`Ad`/`Az`) for the mixed-precision calls
`lhfsd*`/`lhfcz*`; the model has this field for all (exact arithmetic makes the precisions equal), the `d` and `z` variants never
look at it.  Handles are addresses in a heap; `NULL` is `none`; using a handle that was destroyed is the outcome
`Fault.freed`.  Simplifications: user arrays are not changed behind the library's back between calls (a change is a
new `wrapMatrix`); accesses to the user's arrays beyond their end are reported when the arrays are taken over; memory
exhaustion is an argument of the allocating calls; file contents are arguments of the reading calls.
-/

namespace Hif.Lhf
variable {K D : Type}

/-- `LhfStatus` (libhifir.h 148–154). -/
inductive Status where
  | success | nullObj | mismatched | badPrec | hifirError
deriving DecidableEq, Repr

/-- `LhfOperationType` (libhifir.h 160–165). -/
inductive Op where
  | S | SH | M | MH
deriving DecidableEq, Repr

/-- `LHF_DEFAULT_RANK` (libhifir.h 167). -/
def DEFAULT_RANK : Int := -2

/-- The user's arrays behind a matrix handle. -/
structure Arrays (K : Type) where
  indptr : Buf Int
  indices : Buf Int
  vals : Buf K

/-- `struct LhfdMatrix` (libhifir.cpp 297–303): the three pointers are always set together. -/
structure Mat (K : Type) where
  arrays : Option (Arrays K)
  n : Nat
  rowMajor : Bool

/-- `struct LhfdHif` / `LhfsHif` (377–380, 595–599). -/
structure Hdl (K : Type) where
  M : HIF K
  A : Option Nat
  Ad : Option Nat

/-- The state of the library: live matrix and preconditioner structures by address, and `error_msgs` (53). -/
structure World (K : Type) where
  mats : Nat → Option (Mat K)
  hifs : Nat → Option (Hdl K)
  next : Nat
  msg0 : String
  msg1 : String

/-- Undefined behaviour in a call: a structure is used after it was destroyed, or the fault happens further down.  (Exceptions of
the core never leave the library.) -/
inductive Fault where
  | freed
  | core (e : Err)
deriving DecidableEq

/-- A library call: new state and outcome. -/
def CM (K : Type) (α : Type) := World K → World K × Except Fault α

namespace CM
variable {α β : Type}

instance : Monad (CM K) where
  pure a := fun w => (w, .ok a)
  bind m f := fun w =>
    match m w with
    | (w', .ok a) => f a w'
    | (w', .error e) => (w', .error e)

def lift (m : Hif.M α) : CM K α := fun w => (w, m.mapError .core)
def read : CM K (World K) := fun w => (w, .ok w)

/-- `*mat` for a handle that is not `NULL`. -/
def derefMat (m : Nat) : CM K (Mat K) := fun w =>
  match w.mats m with
  | some x => (w, .ok x)
  | none => (w, .error .freed)

/-- `*hif` for a handle that is not `NULL`. -/
def derefHif (h : Nat) : CM K (Hdl K) := fun w =>
  match w.hifs h with
  | some x => (w, .ok x)
  | none => (w, .error .freed)

/-- Store through a handle. -/
def setMat (m : Nat) (x : Mat K) : CM K Unit := fun w => ({ w with mats := fun i => if i = m then some x else w.mats i }, .ok ())
def setHif (h : Nat) (x : Hdl K) : CM K Unit := fun w => ({ w with hifs := fun i => if i = h then some x else w.hifs i }, .ok ())

/-- `free`. -/
def freeMat (m : Nat) : CM K Unit := fun w => ({ w with mats := fun i => if i = m then none else w.mats i }, .ok ())
def freeHif (h : Nat) : CM K Unit := fun w => ({ w with hifs := fun i => if i = h then none else w.hifs i }, .ok ())

end CM

/-- What does not come from the C interface: contents of fresh memory, the level kernels for a set of options, conversion of
`double` to `int`, the 2-norm, and the contents of a default-constructed `HIF`. -/
structure Env (K D : Type) where
  junk : Nat → K
  ijunk : Nat → Int
  kers : Options D → Kernels K
  trunc : D → Int
  norm : Buf K → D
  nrows0 : Nat
  ncols0 : Nat
  stats0 : Nat → Nat

/-- The fields of the options the driver of the core reads (builder.hpp 525, 540–563). -/
def facOpts (o : Options D) : FacOpts :=
  ⟨if o.pivot = 0 then .off else if o.pivot = 1 then .on else .auto, o.is_symm ≠ 0, o.N, o.check ≠ 0⟩

/-- `int` to `size_t`. -/
def sizeT (z : Int) : Nat := (z % 2 ^ 64).toNat

/-- Result of a call that reports a status; `thrown` is the message of the exception that the call caught, if any (a ghost: the
C function does not return it). -/
structure Ret where
  status : Status
  thrown : Option String
deriving DecidableEq

section
variable [Field K] [StarRing K] [Field D] [LinearOrder D]

/-- The constructor of `CRS`/`CCS` from pointers with `wrap = true` (src/hif/ds/CompressedStorage.hpp 88–93). -/
def wrapRaw (mat : Mat K) : M (Input K) :=
  match mat.arrays with
  | none => throw (.ub "null pointer")
  | some a =>
    if a.indptr.size < mat.n + 1 then throw .oob
    else
      let nnz := a.indptr.get mat.n - a.indptr.get 0
      if nnz < 0 then throw (.ub "negative length")
      else if a.indices.size < nnz.toNat ∨ a.vals.size < nnz.toNat then throw .oob
      else pure
        { raw := { undef := false, psize := mat.n, start := ⟨mat.n + 1, a.indptr.get⟩, inds := ⟨nnz.toNat, a.indices.get⟩, vsize := nnz.toNat }
          other := mat.n, vals := ⟨nnz.toNat, a.vals.get⟩, rowMajor := mat.rowMajor }

/-- Run a computation of the core on the preconditioner behind `h`; an exception is caught and its message stored
(`_LHF_RETURN_FROM_HIFIR_ERROR`, 45–49). -/
def runHif {α : Type} (h : Nat) (hm : HM K α) : CM K (α ⊕ String) := fun w =>
  match w.hifs h with
  | none => (w, .error .freed)
  | some x =>
    let w' := fun M' : HIF K => { w with hifs := fun i => if i = h then some { x with M := M' } else w.hifs i }
    match hm x.M with
    | (M', .ok a) => (w' M', .ok (.inl a))
    | (M', .error (.hif msg)) => ({ w' M' with msg1 := msg }, .ok (.inr msg))
    | (M', .error e) => (w' M', .error (.core e))

/-- The status of a call that ends with a computation of the core. -/
def retOf {α : Type} : α ⊕ String → Ret
  | .inl _ => ⟨.success, none⟩
  | .inr msg => ⟨.hifirError, some msg⟩

/-- The options of a factorization: from the parameter array, or the defaults if it is `NULL` (132–133). -/
def optsOf (env : Env K D) : Option (Buf D) → M (Options D)
  | none => pure Options.defaults
  | some ps => createParams env.trunc ps

/-- `libhifir_impl::factorize` (128–145). -/
def factorize (env : Env K D) (h m : Nat) (params : Option (Buf D)) : CM K Ret := do
  let mat ← CM.derefMat m
  let o ← CM.lift (optsOf env params)
  let inp ← CM.lift (wrapRaw mat)
  let r ← runHif h (HIF.factorize env.junk env.ijunk (env.kers o) (facOpts o) inp 0)
  pure (retOf r)

/-! ### Matrices -/

/-- `lhfdCreateMatrix` (306–323); `oom`: `malloc` fails. -/
def createMatrix (oom : Bool) (rowMajor : Bool) (n : Nat) (arrays : Option (Arrays K)) : CM K (Option Nat) := fun w =>
  if oom then (w, .ok none)
  else
    let mat : Mat K := if n ≠ 0 ∧ arrays.isSome then ⟨arrays, n, rowMajor⟩ else ⟨none, 0, rowMajor⟩
    ({ w with mats := fun i => if i = w.next then some mat else w.mats i, next := w.next + 1 }, .ok (some w.next))

/-- `lhfdDestroyMatrix` (326–329). -/
def destroyMatrix : Option Nat → CM K Ret
  | none => pure ⟨.success, none⟩
  | some m => do
    let _ ← CM.derefMat m
    CM.freeMat m
    pure ⟨.success, none⟩

/-- `lhfdGetMatrixSize` (332–334). -/
def getMatrixSize : Option Nat → CM K Nat
  | none => pure 0
  | some m => do
    let mat ← CM.derefMat m
    pure mat.n

/-- `lhfdGetMatrixNnz` (337–340). -/
def getMatrixNnz : Option Nat → CM K Nat
  | none => pure 0
  | some m => do
    let mat ← CM.derefMat m
    match mat.arrays with
    | none => CM.lift (throw (.ub "null pointer"))
    | some a => do
      let e ← CM.lift (a.indptr.rd mat.n)
      let b ← CM.lift (a.indptr.rd 0)
      pure (sizeT (e - b))

/-- `lhfdWrapMatrix` (343–355). -/
def wrapMatrix (mat : Option Nat) (n : Nat) (arrays : Option (Arrays K)) : CM K Ret :=
  match mat with
  | none => pure ⟨.nullObj, none⟩
  | some m => do
    let x ← CM.derefMat m
    if n ≠ 0 ∧ arrays.isSome then do
      CM.setMat m { x with arrays := arrays, n := n }
      pure ⟨.success, none⟩
    else pure ⟨.nullObj, none⟩

/-! ### Preconditioners -/

/-- `lhfdSetup` / `lhfsSetup` (410–422, 629–642). -/
def setup (env : Env K D) (hif A S : Option Nat) (params : Option (Buf D)) : CM K Ret :=
  match hif with
  | none => pure ⟨.nullObj, none⟩
  | some h => do
    let x ← CM.derefHif h
    CM.setHif h { x with A := A <|> S, Ad := none }
    match S <|> A with
    | none => pure ⟨.nullObj, none⟩
    | some m => factorize env h m params

/-- `lhfdDestroy` (401–407). -/
def destroy : Option Nat → CM K Ret
  | none => pure ⟨.success, none⟩
  | some h => do
    let _ ← CM.derefHif h
    CM.freeHif h
    pure ⟨.success, none⟩

/-- Allocation of the structure and of the `HIF` object inside (385–391); the fields `A`, `Ad` are set by `setup`, which always
follows. -/
def allocHif (env : Env K D) : CM K Nat := fun w =>
  ({ w with hifs := fun i => if i = w.next then some ⟨HIF.new env.junk env.nrows0 env.ncols0 env.stats0, none, none⟩ else w.hifs i,
            next := w.next + 1 }, .ok w.next)

/-- `lhfdCreate` (383–398); `oom`: one of the two allocations fails. -/
def create (env : Env K D) (oom : Bool) (A S : Option Nat) (params : Option (Buf D)) : CM K (Option Nat × Ret) :=
  if oom then pure (none, ⟨.success, none⟩)
  else do
    let h ← allocHif env
    let r ← setup env (some h) A S params
    if r.status = .hifirError then do
      let _ ← destroy (some h)
      pure (none, r)
    else pure (some h, r)

/-- `lhfdUpdate` (425–431). -/
def update (hif A : Option Nat) : CM K Ret :=
  match hif with
  | none => pure ⟨.nullObj, none⟩
  | some h => do
    let x ← CM.derefHif h
    CM.setHif h { x with A := A }
    match A with
    | none => pure ⟨.success, none⟩
    | some m =>
      if x.M.empty then pure ⟨.success, none⟩
      else do
        let mat ← CM.derefMat m
        if mat.n ≠ x.M.nrows then pure ⟨.mismatched, none⟩ else pure ⟨.success, none⟩

/-- `lhfsdUpdate` (1183–1189). -/
def updateMixed (hif A : Option Nat) : CM K Ret :=
  match hif with
  | none => pure ⟨.nullObj, none⟩
  | some h => do
    let x ← CM.derefHif h
    CM.setHif h { x with Ad := A }
    match A with
    | none => pure ⟨.success, none⟩
    | some m =>
      if x.M.empty then pure ⟨.success, none⟩
      else do
        let mat ← CM.derefMat m
        if mat.n ≠ x.M.nrows then pure ⟨.mismatched, none⟩ else pure ⟨.success, none⟩

/-- `lhfdRefactorize` (434–444). -/
def refactorize (env : Env K D) (hif S : Option Nat) (params : Option (Buf D)) : CM K Ret :=
  match hif with
  | none => pure ⟨.nullObj, none⟩
  | some h =>
    match S with
    | none => pure ⟨.nullObj, none⟩
    | some m => do
      let _ ← CM.derefHif h
      factorize env h m params

/-- A user vector seen as an array of `n` elements. -/
def view (n : Nat) (b : Buf K) : Buf K := ⟨n, b.get⟩

/-- The first `n` elements of `x` replaced by those of `y`. -/
def store (n : Nat) (x y : Buf K) : Buf K := ⟨x.size, fun i => if i < n then y.get i else x.get i⟩

/-- After a completed computation on vectors seen as arrays of `n` elements: were they long enough?  (A computation that throws
does so before it touches the vectors.) -/
def checkLen (n : Nat) (b x : Buf K) : M Unit := if b.size < n ∨ x.size < n then throw .oob else pure ()

/-- `libhifir_impl::solve` (149–158): the rank argument of `HIF::solve` is left at its default 0. -/
def hifSolve (env : Env K D) (b x : Buf K) (trans : Bool) : HM K (Buf K) := do
  let h ← HM.read
  let y ← HIF.solve env.junk (view h.nrows b) (view h.nrows x) trans 0
  HM.lift (checkLen h.nrows b x)
  pure (store h.nrows x y)

/-- `libhifir_impl::mmultiply` (161–170). -/
def hifMultiply (env : Env K D) (b x : Buf K) (trans : Bool) : HM K (Buf K) := do
  let h ← HM.read
  let y ← HIF.mmultiply env.junk (view h.nrows b) (view h.nrows x) trans 0
  HM.lift (checkLen h.nrows b x)
  pure (store h.nrows x y)

/-- The user's matrix as an operator for refinement (`wrap_const_crs`/`wrap_const_ccs` without check, 183–190). -/
def matOp (inp : Input K) : HIF.Operator K := fun t x y =>
  let A := inp.raw.toCS inp.other inp.vals
  if inp.rowMajor then (if t then A.crsMultiplyT x y else A.crsMultiplyNt x y)
  else (if t then A.ccsMultiplyT x y else A.ccsMultiplyNt x y)

/-- `libhifir_impl::hifir` (172–214): without residual bounds the status array is not written. -/
def hifHifir (env : Env K D) (inp : Input K) (n : Nat) (b : Buf K) (nirs : Nat) (betas : Option (D × D)) (trans : Bool) (r : Nat) (x : Buf K) :
    HM K (Buf K × Option (Nat × Int)) := do
  match betas with
  | none => do
    let y ← HIF.hifir env.junk (matOp inp) (view n b) nirs (view n x) trans r
    HM.lift (checkLen n b x)
    pure (store n x y, none)
  | some β => do
    let y ← HIF.hifirBounded env.junk (matOp inp) env.norm (view n b) nirs β.1 β.2 (view n x) trans r
    HM.lift (checkLen n b x)
    pure (store n x y.1, some y.2)

/-- Result of the calls that compute a vector: status, the vector (unchanged if the call failed), iteration count and flag. -/
structure VecRet (K : Type) where
  ret : Ret
  x : Buf K
  ir : Option (Nat × Int)

/-- Result of `apply` from that of the core. -/
def vecRet (x : Buf K) : (Buf K × Option (Nat × Int)) ⊕ String → VecRet K
  | .inl y => ⟨⟨.success, none⟩, y.1, y.2⟩
  | .inr msg => ⟨⟨.hifirError, some msg⟩, x, none⟩

/-- `const bool trans = op == LHF_SH || op == LHF_MH` (451). -/
def Op.trans (op : Op) : Bool := op = .SH || op = .MH

/-- The rank handed to refinement (453–455). -/
def rankOf (op : Op) (nirs rank : Int) : Int :=
  if rank = DEFAULT_RANK then (if (op ≠ .S ∧ op ≠ .SH) ∨ nirs > 1 then -1 else 0) else rank

/-- `lhfdApply` (447–472), `lhfsdApply` (1192–1218) with the matrix handle selected by `pick`. -/
def applyWith (env : Env K D) (pick : Hdl K → Option Nat) (hif : Option Nat) (op : Op) (b : Buf K) (nirs : Int) (betas : Option (D × D))
    (rank : Int) (x : Buf K) : CM K (VecRet K) :=
  match hif with
  | none => pure ⟨⟨.nullObj, none⟩, x, none⟩
  | some h => do
    let H ← CM.derefHif h
    if nirs ≤ 1 ∨ op = .M ∨ op = .MH then
      if op = .M ∨ op = .MH then do
        let r ← runHif h (hifMultiply env b x op.trans)
        pure (vecRet x (r.map (fun y => (y, none)) id))
      else do
        let r ← runHif h (hifSolve env b x op.trans)
        pure (vecRet x (r.map (fun y => (y, none)) id))
    else
      match pick H with
      | none => pure ⟨⟨.nullObj, none⟩, x, none⟩
      | some m => do
        let mat ← CM.derefMat m
        if H.M.nrows ≠ mat.n then pure ⟨⟨.mismatched, none⟩, x, none⟩
        else do
          let inp ← CM.lift (wrapRaw mat)
          let r ← runHif h (hifHifir env inp mat.n b nirs.toNat betas op.trans (sizeT (rankOf op nirs rank)) x)
          pure (vecRet x r)

def apply (env : Env K D) := applyWith env (·.A)
def applyMixed (env : Env K D) := applyWith env (·.Ad)

/-- `lhfdSolve` (475–483). -/
def solve (env : Env K D) (hif : Option Nat) (b x : Buf K) : CM K (VecRet K) :=
  match hif with
  | none => pure ⟨⟨.nullObj, none⟩, x, none⟩
  | some h => do
    let r ← runHif h (hifSolve env b x false)
    pure (vecRet x (r.map (fun y => (y, none)) id))

/-- `lhfdGetStats` (486–492) with `get_factor_stats` (56–71); `none`: the subtraction in `rank()` wraps around. -/
def getStats : Option Nat → CM K (List (Option Nat))
  | none => pure (List.replicate 9 (some 0))
  | some h => do
    let x ← CM.derefHif h
    if x.M.empty then pure (List.replicate 9 (some 0))
    else do
      let s0 ← CM.lift (x.M.statsAt 0)
      let s1 ← CM.lift (x.M.statsAt 1)
      let s4 ← CM.lift (x.M.statsAt 4)
      let s5 ← CM.lift (x.M.statsAt 5)
      pure [some x.M.nnz, some s0, some s1, some s4, some s5, some x.M.levels, x.M.rank, some x.M.schurRank, some x.M.schurSize]

/-- `lhfdReadVector` (363–374): `file` is what `from_mm` returns or throws. -/
def readVector (file : Buf K ⊕ String) (n : Nat) (v : Buf K) : CM K (VecRet K) := fun w =>
  match file with
  | .inr msg => ({ w with msg1 := msg }, .ok ⟨⟨.hifirError, some msg⟩, v, none⟩)
  | .inl u =>
    if n ≠ u.size then (w, .ok ⟨⟨.mismatched, none⟩, v, none⟩)
    else if v.size < n then (w, .error (.core .oob))
    else (w, .ok ⟨⟨.success, none⟩, store n v u, none⟩)

/-- `lhfGetErrorMsg` (224–229): the result is `NULL` if there is no pending message. -/
def getErrorMsg : CM K (Option String) := fun w =>
  ({ w with msg0 := w.msg1, msg1 := "" }, .ok (if w.msg1 = "" then none else some w.msg1))

/-! ### Histories -/

/-- The calls of the interface that change the state of the library. -/
inductive Call (K D : Type) where
  | createMatrix (oom rowMajor : Bool) (n : Nat) (arrays : Option (Arrays K))
  | destroyMatrix (m : Option Nat)
  | wrapMatrix (m : Option Nat) (n : Nat) (arrays : Option (Arrays K))
  | create (oom : Bool) (A S : Option Nat) (params : Option (Buf D))
  | destroy (h : Option Nat)
  | setup (h A S : Option Nat) (params : Option (Buf D))
  | update (h A : Option Nat)
  | updateMixed (h A : Option Nat)
  | refactorize (h S : Option Nat) (params : Option (Buf D))
  | apply (h : Option Nat) (op : Op) (b : Buf K) (nirs : Int) (betas : Option (D × D)) (rank : Int) (x : Buf K)
  | applyMixed (h : Option Nat) (op : Op) (b : Buf K) (nirs : Int) (betas : Option (D × D)) (rank : Int) (x : Buf K)
  | solve (h : Option Nat) (b x : Buf K)
  | readVector (file : Buf K ⊕ String) (n : Nat) (v : Buf K)
  | getErrorMsg

/-- What the caller sees of a call (apart from vectors): a new handle, a status, a message; `thrown` as in `Ret`. -/
inductive Seen where
  | handle (h : Option Nat) (r : Ret)
  | ret (r : Ret)
  | msg (m : Option String)

/-- A call of the interface. -/
def Call.exec (env : Env K D) : Call K D → CM K Seen
  | .createMatrix oom rm n a => do let m ← Lhf.createMatrix oom rm n a; pure (.handle m ⟨.success, none⟩)
  | .destroyMatrix m => do let r ← Lhf.destroyMatrix m; pure (.ret r)
  | .wrapMatrix m n a => do let r ← Lhf.wrapMatrix m n a; pure (.ret r)
  | .create oom A S ps => do let r ← Lhf.create env oom A S ps; pure (.handle r.1 r.2)
  | .destroy h => do let r ← Lhf.destroy h; pure (.ret r)
  | .setup h A S ps => do let r ← Lhf.setup env h A S ps; pure (.ret r)
  | .update h A => do let r ← Lhf.update h A; pure (.ret r)
  | .updateMixed h A => do let r ← Lhf.updateMixed h A; pure (.ret r)
  | .refactorize h S ps => do let r ← Lhf.refactorize env h S ps; pure (.ret r)
  | .apply h op b nirs betas rank x => do let r ← Lhf.apply env h op b nirs betas rank x; pure (.ret r.ret)
  | .applyMixed h op b nirs betas rank x => do let r ← Lhf.applyMixed env h op b nirs betas rank x; pure (.ret r.ret)
  | .solve h b x => do let r ← Lhf.solve env h b x; pure (.ret r.ret)
  | .readVector f n v => do let r ← Lhf.readVector f n v; pure (.ret r.ret)
  | .getErrorMsg => do let m ← Lhf.getErrorMsg; pure (.msg m)

/-- A history: the calls one after the other (ending at undefined behaviour), with what was seen. -/
def run (env : Env K D) : List (Call K D) → CM K (List Seen)
  | [] => pure []
  | c :: cs => do
    let s ← c.exec env
    let ss ← run env cs
    pure (s :: ss)

/-- The library before any call. -/
def start : World K := ⟨fun _ => none, fun _ => none, 0, "", ""⟩

end
end Hif.Lhf
