import Verif.PrecSpec

set_option linter.unusedSectionVars false
set_option linter.unusedVariables false
set_option linter.unusedSimpArgs false

/-!
# Applying the multilevel preconditioner

Models of `prec_solve`, `prec_solve_tran`, `prec_solve_mrhs` (src/hif/alg/prec_solve.hpp), `prec_prod`, `prec_prod_tran`
(src/hif/alg/prec_prod.hpp) on the `Prec` structure (src/hif/alg/Prec.hpp 82–330).

Simplification (views): the code passes views `y_mn = y[m,n)`, `work_b = work[m,n)` and `work_next = work[n,…)` to the
recursive call.  The model passes copies of these ranges and stores `y_mn`, `work_next` back afterwards.  The three ranges are
disjoint from one another and from everything else the callee uses, and `work_b` is only read by the callee.
Values of `b`, `y`, `work` and the factors may have different precisions in the code; here all are in one field.
-/

namespace Hif
open Finset Spec

namespace Buf
variable {α : Type _}

/-- A view of `len` elements starting at `off` (as a copy). -/
def win (b : Buf α) (off len : Nat) : M (Buf α) :=
  if off + len ≤ b.size then pure { size := len, get := fun i => b.get (off + i) } else throw .oob

/-- Everything from `off` on (pointer arithmetic `data + off`). -/
def winTail (b : Buf α) (off : Nat) : M (Buf α) := b.win off (b.size - off)

/-- Store a view back. -/
def put (b : Buf α) (off : Nat) (w : Buf α) : Buf α :=
  { size := b.size, get := fun i => if off ≤ i ∧ i < off + w.size then w.get (i - off) else b.get i }

@[simp] theorem put_size (b : Buf α) (off : Nat) (w : Buf α) : (b.put off w).size = b.size := rfl
theorem put_get (b : Buf α) (off : Nat) (w : Buf α) (i : Nat) :
    (b.put off w).get i = if off ≤ i ∧ i < off + w.size then w.get (i - off) else b.get i := rfl

@[simp] theorem runs_win (b : Buf α) (off len : Nat) (Q : Buf α → Prop) :
    Runs (b.win off len) Q ↔ off + len ≤ b.size ∧ Q { size := len, get := fun i => b.get (off + i) } := by
  unfold win
  by_cases h : off + len ≤ b.size <;> simp [h]

@[simp] theorem runs_winTail (b : Buf α) (off : Nat) (Q : Buf α → Prop) :
    Runs (b.winTail off) Q ↔ off ≤ b.size ∧ Q { size := b.size - off, get := fun i => b.get (off + i) } := by
  unfold winTail
  rw [runs_win]
  constructor
  · rintro ⟨h1, h2⟩; exact ⟨by omega, h2⟩
  · rintro ⟨h1, h2⟩; exact ⟨by omega, h2⟩

end Buf

variable {K : Type _}

/-- `for (i = lo; i < hi; ++i) w[i] = g(i)`. -/
def fillRange (lo hi : Nat) (w : Buf K) (g : Nat → M K) : M (Buf K) :=
  forUp lo hi w fun i w => do
    let v ← g i
    w.wr i v

/-- `for (i = lo; i < hi; ++i) w[i] = g(i, w[i])`. -/
def updRange (lo hi : Nat) (w : Buf K) (g : Nat → K → M K) : M (Buf K) :=
  forUp lo hi w fun i w => do
    let a ← w.rd i
    let v ← g i a
    w.wr i v

theorem fillRange_runs {lo hi : Nat} {w : Buf K} {g : Nat → M K} (h : lo ≤ hi) (hw : hi ≤ w.size) (v : Nat → K)
    (hg : ∀ i, lo ≤ i → i < hi → Runs (g i) fun a => a = v i) :
    Runs (fillRange lo hi w g) fun w' => w'.size = w.size ∧
      ∀ i, w'.get i = if lo ≤ i ∧ i < hi then v i else w.get i := by
  unfold fillRange
  refine forUp_runs' (fun k (w' : Buf K) => w'.size = w.size ∧
    ∀ i, w'.get i = if lo ≤ i ∧ i < k then v i else w.get i) h ⟨rfl, fun i => by rw [if_neg (by omega)]⟩ ?_ (fun _ q => q)
  rintro k w' h1 h2 ⟨h3, h4⟩
  simp only [runs_bind]
  refine (hg k h1 h2).mono ?_
  rintro a rfl
  simp only [runs_wr, Buf.set_size, Buf.set_get]
  refine ⟨by omega, h3, fun i => ?_⟩
  by_cases e : i = k
  · subst e; rw [if_pos rfl, if_pos (by omega)]
  · rw [if_neg e, h4]
    by_cases c : lo ≤ i ∧ i < k
    · rw [if_pos c, if_pos (by omega)]
    · rw [if_neg c, if_neg (by omega)]

theorem updRange_runs {lo hi : Nat} {w : Buf K} {g : Nat → K → M K} (h : lo ≤ hi) (hw : hi ≤ w.size) (v : Nat → K)
    (hg : ∀ i, lo ≤ i → i < hi → Runs (g i (w.get i)) fun a => a = v i) :
    Runs (updRange lo hi w g) fun w' => w'.size = w.size ∧
      ∀ i, w'.get i = if lo ≤ i ∧ i < hi then v i else w.get i := by
  unfold updRange
  refine forUp_runs' (fun k (w' : Buf K) => w'.size = w.size ∧
    ∀ i, w'.get i = if lo ≤ i ∧ i < k then v i else w.get i) h ⟨rfl, fun i => by rw [if_neg (by omega)]⟩ ?_ (fun _ q => q)
  rintro k w' h1 h2 ⟨h3, h4⟩
  simp only [runs_bind, runs_rd]
  refine ⟨by omega, ?_⟩
  rw [h4 k, if_neg (by omega)]
  refine (hg k h1 h2).mono ?_
  rintro a rfl
  simp only [runs_wr, Buf.set_size, Buf.set_get]
  refine ⟨by omega, h3, fun i => ?_⟩
  by_cases e : i = k
  · subst e; rw [if_pos rfl, if_pos (by omega)]
  · rw [if_neg e, h4]
    by_cases c : lo ≤ i ∧ i < k
    · rw [if_pos c, if_pos (by omega)]
    · rw [if_neg c, if_neg (by omega)]

/-- The operations of a dense solver of the final Schur complement; the Boolean is the transpose flag, the number the
requested rank.  The dense factorizations themselves (LAPACK) are not modelled. -/
structure DenseOps (K : Type _) where
  solve : Buf K → Nat → Bool → M (Buf K)
  multiply : Buf K → Nat → Bool → M (Buf K)
  solveMrhs : Nat → Buf K → Nat → M (Buf K)
  rank : Nat

/-- Which dense solver is set (`dense_solver`, `symm_dense_solver`; Prec.hpp 322–323). -/
inductive Last (K : Type _) where
  | none
  | dense (D : DenseOps K)
  | symm (D : DenseOps K)

/-- `Last` is empty. -/
def Last.isNone : Last K → Bool
  | .none => true
  | _ => false

/-- `if (!dense_solver.empty()) dense_solver.solve(v, r[, true]) else symm_dense_solver.solve(v, r)` (prec_solve.hpp 376–379,
581–584). -/
def Last.solve : Last K → Buf K → Nat → Bool → M (Buf K)
  | .dense D, v, r, tran => D.solve v r tran
  | .symm D, v, r, _ => D.solve v r false
  | .none, _, _, _ => throw (.hif "empty dense solver")

/-- The same for `multiply` (prec_prod.hpp 84–87, 179–182). -/
def Last.multiply : Last K → Buf K → Nat → Bool → M (Buf K)
  | .dense D, v, r, tran => D.multiply v r tran
  | .symm D, v, r, _ => D.multiply v r false
  | .none, _, _, _ => throw (.hif "empty dense solver")

/-- The same for `solve_mrhs` (prec_solve.hpp 479–482). -/
def Last.solveMrhs : Last K → Nat → Buf K → Nat → M (Buf K)
  | .dense D, N, v, r => D.solveMrhs N v r
  | .symm D, N, v, r => D.solveMrhs N v r
  | .none, _, _, _ => throw (.hif "empty dense solver")

/-- `rank()` of the solver that is set (Prec.hpp 204–205). -/
def Last.rank : Last K → Nat
  | .dense D => D.rank
  | .symm D => D.rank
  | .none => 0

/-- `Prec` (Prec.hpp 309–323). -/
structure Prec (K : Type _) where
  m : Nat
  n : Nat
  L : CS K
  d : Buf K
  U : CS K
  E : CS K
  F : CS K
  s : Buf K
  t : Buf K
  p : Buf Nat
  pinv : Buf Nat
  q : Buf Nat
  qinv : Buf Nat
  last : Last K

namespace Prec

/-- `is_last_level` (Prec.hpp 197–199). -/
def isLast (P : Prec K) : Bool := !P.last.isNone || P.m == P.n

section ops
variable [Field K] [StarRing K]

/-- `s[p[i]] * b[p[i]]`. -/
def mulAt (s b : Buf K) (p : Buf Nat) (i : Nat) : M K := do
  let k ← p.rd i
  let a ← s.rd k
  let c ← b.rd k
  pure (a * c)

/-- `b[q[i]] / t[q[i]]`. -/
def divAt (t b : Buf K) (q : Buf Nat) (i : Nat) : M K := do
  let k ← q.rd i
  let c ← b.rd k
  let a ← t.rd k
  pure (c / a)

/-- `prec_solve_ldu` (prec_solve.hpp 204–224). -/
def solveLdu (P : Prec K) (y : Buf K) : M (Buf K) :=
  if P.U.ssize = 0 then pure y else do
    let y ← P.L.ccsLower y
    let y ← updRange 0 P.U.ssize y fun i a => do
      let di ← P.d.rd i
      pure (a / di)
    P.U.ccsUpper y

/-- `prec_solve_utdlt` (prec_solve.hpp 284–304). -/
def solveUtdlt (P : Prec K) (y : Buf K) : M (Buf K) :=
  if P.U.ssize = 0 then pure y else do
    let y ← P.U.ccsUpperT y
    let y ← updRange 0 P.U.ssize y fun i a => do
      let di ← P.d.rd i
      pure (a / star di)
    P.L.ccsLowerT y

/-- The `if (nm)` block computing `y(m+1:n)` in `prec_solve` (prec_solve.hpp 362–369). -/
def solveE (P : Prec K) (b y work : Buf K) : M (Buf K × Buf K) :=
  if P.n - P.m ≠ 0 then do
    let work ← P.solveLdu work
    let v ← y.winTail P.m
    let v ← P.E.ccsMul work v
    let y := y.put P.m v
    let y ← updRange P.m P.n y fun i a => do
      let c ← mulAt P.s b P.p i
      pure (c - a)
    pure (work, y)
  else pure (work, y)

/-- The dense solve on the view `y[m,n)` (prec_solve.hpp 371–381). -/
def lastSolve (P : Prec K) (r : Nat) (tran : Bool) (y : Buf K) : M (Buf K) :=
  if P.n - P.m ≠ 0 then do
    let v ← y.win P.m (P.n - P.m)
    let v ← P.last.solve v r tran
    pure (y.put P.m v)
  else pure y

/-- The part of `prec_solve` between the Schur complement and the final scaling (prec_solve.hpp 391–406): copy `y(m+1:n)`, form `work(1:m)`,
solve. -/
def solveF (P : Prec K) (b y work : Buf K) : M (Buf K) := do
  let work ← fillRange P.m y.size work fun i => y.rd i
  let work ←
    if P.F.psize ≠ 0 then do
      let v ← y.winTail P.m
      let work ← P.F.ccsMul v work
      updRange 0 P.m work fun i a => do
        let c ← mulAt P.s b P.p i
        pure (c - a)
    else if P.n - P.m ≠ 0 then fillRange 0 P.m work (mulAt P.s b P.p)
    else pure work
  P.solveLdu work

/-- The Schur complement stage shared by `prec_solve` and `prec_solve_tran` (prec_solve.hpp 371–389, 576–595): `dense` is the
dense solve of the last level, `child` the recursive call.  `y_mn` is copied to `work_b` before the call. -/
def schurStage (P : Prec K) (dense : Buf K → M (Buf K)) (child : Buf K → Buf K → Buf K → M (Buf K × Buf K))
    (y work : Buf K) : M (Buf K × Buf K) :=
  if P.isLast then do
    let y ← dense y
    pure (work, y)
  else do
    let ymn ← y.win P.m (P.n - P.m)
    let work ← fillRange P.m P.n work fun i => ymn.rd (i - P.m)
    let wb ← work.win P.m (P.n - P.m)
    let wn ← work.winTail P.n
    let c ← child wb ymn wn
    pure (work.put P.n c.2, y.put P.m c.1)

/-- `prec_solve` (prec_solve.hpp 332–412).  Returns the solution and the work space. -/
def solve (r : Nat) : List (Prec K) → Buf K → Buf K → Buf K → M (Buf K × Buf K)
  | [], _, _, _ => throw (.ub "dereferencing the end of the level list")
  | P :: rest, b, y, work => do
    let work ← fillRange 0 P.m work (mulAt P.s b P.p)
    let (work, y) ← P.solveE b y work
    let (work, y) ← P.schurStage (P.lastSolve r false) (solve r rest) y work
    let work ← P.solveF b y work
    let y ← fillRange 0 P.n y fun i => do
      let k ← P.qinv.rd i
      let ti ← P.t.rd i
      let w ← work.rd k
      pure (ti * w)
    pure (y, work)

/-- First part of `prec_solve_tran` (prec_solve.hpp 567–573). -/
def solveTF (P : Prec K) (b y work : Buf K) : M (Buf K × Buf K) :=
  if P.F.psize ≠ 0 then do
    let work ← P.solveUtdlt work
    let v ← y.winTail P.m
    let v ← P.F.ccsMulT work v
    let y := y.put P.m v
    let y ← updRange P.m P.n y fun i a => do
      let c ← mulAt P.t b P.q i
      pure (c - a)
    pure (work, y)
  else if P.n - P.m ≠ 0 then do
    let y ← fillRange P.m P.n y (mulAt P.t b P.q)
    pure (work, y)
  else pure (work, y)

/-- Last part of `prec_solve_tran` (prec_solve.hpp 597–605). -/
def solveTE (P : Prec K) (b y work : Buf K) : M (Buf K) := do
  let work ← fillRange P.m y.size work fun i => y.rd i
  let work ←
    if P.n - P.m ≠ 0 then do
      let v ← y.winTail P.m
      let work ← P.E.ccsMulT v work
      updRange 0 P.m work fun i a => do
        let c ← mulAt P.t b P.q i
        pure (c - a)
    else fillRange 0 P.m work (mulAt P.t b P.q)
  P.solveUtdlt work

/-- `prec_solve_tran` (prec_solve.hpp 541–611). -/
def solveT (r : Nat) : List (Prec K) → Buf K → Buf K → Buf K → M (Buf K × Buf K)
  | [], _, _, _ => throw (.ub "dereferencing the end of the level list")
  | P :: rest, b, y, work => do
    let work ← fillRange 0 P.m work (mulAt P.t b P.q)
    let (work, y) ← P.solveTF b y work
    let (work, y) ← P.schurStage (P.lastSolve r true) (solveT r rest) y work
    let work ← P.solveTE b y work
    let y ← fillRange 0 P.n y fun i => do
      let k ← P.pinv.rd i
      let si ← P.s.rd i
      let w ← work.rd k
      pure (si * w)
    pure (y, work)

/-- The Schur complement part of `prec_prod` / `prec_prod_tran` on the last level (prec_prod.hpp 81–88, 176–183): copy
`work(m+1:n)` to `y(m+1:n)` and multiply there. -/
def prodLast (P : Prec K) (r : Nat) (tran : Bool) (y work : Buf K) : M (Buf K) :=
  if P.n - P.m ≠ 0 then do
    let v ← work.win P.m (P.n - P.m)
    let _ ← y.win P.m (P.n - P.m)
    let v ← P.last.multiply v r tran
    pure (y.put P.m v)
  else pure y

/-- The Schur complement stage of `prec_prod` / `prec_prod_tran` (prec_prod.hpp 77–95, 172–190). -/
def prodStage (P : Prec K) (dense : Buf K → Buf K → M (Buf K)) (child : Buf K → Buf K → Buf K → M (Buf K × Buf K))
    (y work : Buf K) : M (Buf K × Buf K) :=
  if P.isLast then do
    let y ← dense y work
    pure (work, y)
  else do
    let ymn ← y.win P.m (P.n - P.m)
    let wb ← work.win P.m (P.n - P.m)
    let wn ← work.winTail P.n
    let c ← child wb ymn wn
    pure (work.put P.n c.2, y.put P.m c.1)

/-- `work(1:m) = L D U work(1:m)` (prec_prod.hpp 97–109). -/
def prodLdu (P : Prec K) (b y work : Buf K) : M (Buf K × Buf K) := do
  let work ← fillRange 0 P.m work (divAt P.t b P.q)
  let y ← P.U.ccsMul work y
  let y ← updRange 0 P.m y fun i a => do
    let w ← work.rd i
    let di ← P.d.rd i
    pure ((a + w) * di)
  let work ← P.L.ccsMul y work
  let work ← updRange 0 P.m work fun i a => do
    let v ← y.rd i
    pure (a + v)
  pure (work, y)

/-- The `F` part of `prec_prod` (prec_prod.hpp 111–116). -/
def prodF (P : Prec K) (y work : Buf K) : M (Buf K × Buf K) :=
  if P.F.psize ≠ 0 then do
    let v ← work.winTail P.m
    let y ← P.F.ccsMul v y
    let work ← updRange 0 P.m work fun i a => do
      let v ← y.rd i
      pure (a + v)
    pure (work, y)
  else pure (work, y)

/-- The `E` part of `prec_prod` (prec_prod.hpp 120–129). -/
def prodE (P : Prec K) (b y work : Buf K) : M (Buf K) :=
  if P.n - P.m ≠ 0 then do
    let y ← P.solveLdu y
    let y ← updRange 0 P.m y fun i a => do
      let c ← divAt P.t b P.q i
      pure (a + c)
    let v ← work.winTail P.m
    let v ← P.E.ccsMul y v
    let work := work.put P.m v
    updRange P.m P.n work fun i a => do
      let v ← y.rd i
      pure (a + v)
  else pure work

/-- `prec_prod` (prec_prod.hpp 54–134).  Returns the product and the work space. -/
def prod (r : Nat) : List (Prec K) → Buf K → Buf K → Buf K → M (Buf K × Buf K)
  | [], _, _, _ => throw (.ub "dereferencing the end of the level list")
  | P :: rest, b, y, work => do
    let work ← fillRange P.m P.n work (divAt P.t b P.q)
    let (work, y) ← P.prodStage (P.prodLast r false) (prod r rest) y work
    let (work, y) ← P.prodLdu b y work
    let (work, y) ← P.prodF y work
    let work ← P.prodE b y work
    let y ← fillRange 0 P.n y fun i => do
      let k ← P.pinv.rd i
      let w ← work.rd k
      let si ← P.s.rd i
      pure (w / si)
    pure (y, work)

/-- `work(1:m) = U^H conj(D) L^H work(1:m)` (prec_prod.hpp 192–204). -/
def prodLduT (P : Prec K) (b y work : Buf K) : M (Buf K × Buf K) := do
  let work ← fillRange 0 P.m work (divAt P.s b P.p)
  let y ← P.L.ccsMulT work y
  let y ← updRange 0 P.m y fun i a => do
    let w ← work.rd i
    let di ← P.d.rd i
    pure ((a + w) * star di)
  let work ← P.U.ccsMulT y work
  let work ← updRange 0 P.m work fun i a => do
    let v ← y.rd i
    pure (a + v)
  pure (work, y)

/-- The `E^H` part of `prec_prod_tran` (prec_prod.hpp 206–211). -/
def prodTE (P : Prec K) (y work : Buf K) : M (Buf K × Buf K) :=
  if P.n - P.m ≠ 0 then do
    let v ← work.winTail P.m
    let y ← P.E.ccsMulT v y
    let work ← updRange 0 P.m work fun i a => do
      let v ← y.rd i
      pure (a + v)
    pure (work, y)
  else pure (work, y)

/-- The `F^H` part of `prec_prod_tran` (prec_prod.hpp 215–225). -/
def prodTF (P : Prec K) (b y work : Buf K) : M (Buf K) :=
  if P.n - P.m ≠ 0 then do
    let y ← P.solveUtdlt y
    let y ← updRange 0 P.m y fun i a => do
      let c ← divAt P.s b P.p i
      pure (a + c)
    let v ← work.winTail P.m
    let v ← P.F.ccsMulT y v
    let work := work.put P.m v
    updRange P.m P.n work fun i a => do
      let v ← y.rd i
      pure (a + v)
  else pure work

/-- `prec_prod_tran` (prec_prod.hpp 149–230). -/
def prodT (r : Nat) : List (Prec K) → Buf K → Buf K → Buf K → M (Buf K × Buf K)
  | [], _, _, _ => throw (.ub "dereferencing the end of the level list")
  | P :: rest, b, y, work => do
    let work ← fillRange P.m P.n work (divAt P.s b P.p)
    let (work, y) ← P.prodStage (P.prodLast r true) (prodT r rest) y work
    let (work, y) ← P.prodLduT b y work
    let (work, y) ← P.prodTE y work
    let work ← P.prodTF b y work
    let y ← fillRange 0 P.n y fun i => do
      let k ← P.qinv.rd i
      let w ← work.rd k
      let ti ← P.t.rd i
      pure (w / ti)
    pure (y, work)

/-- `for (i = lo; i < hi; ++i) for (k = 0; k < N; ++k) w[i][k] = g(i, k, w[i][k])` on the flat buffer. -/
def updRows (N lo hi : Nat) (w : Buf K) (g : Nat → Nat → K → M K) : M (Buf K) :=
  forUp lo hi w fun i w => forUp 0 N w fun k w => do
    let a ← w.rd (i * N + k)
    let v ← g i k a
    w.wr (i * N + k) v

/-- `s[p[i]] * b[p[i]][k]`. -/
def mulAtRow (s b : Buf K) (p : Buf Nat) (N i k : Nat) : M K := do
  let j ← p.rd i
  let a ← s.rd j
  let c ← b.rd (j * N + k)
  pure (a * c)

/-- `prec_solve_ldu_mrhs` (prec_solve.hpp 240–265). -/
def solveLduMrhs (P : Prec K) (N : Nat) (y : Buf K) : M (Buf K) :=
  if P.U.ssize = 0 then pure y else do
    let y ← P.L.ccsLowerMrhs N y
    let y ← updRows N 0 P.U.ssize y fun i _ a => do
      let di ← P.d.rd i
      pure (a / di)
    P.U.ccsUpperMrhs N y

/-- The `if (nm)` block of `prec_solve_mrhs` (prec_solve.hpp 461–473). -/
def solveEMrhs (P : Prec K) (N : Nat) (b y work : Buf K) : M (Buf K × Buf K) :=
  if P.n - P.m ≠ 0 then do
    let work ← P.solveLduMrhs N work
    let v ← y.winTail (P.m * N)
    let v ← P.E.ccsMulMrhs N work v
    let y := y.put (P.m * N) v
    let y ← updRows N P.m P.n y fun i k a => do
      let c ← mulAtRow P.s b P.p N i k
      pure (c - a)
    pure (work, y)
  else pure (work, y)

/-- The Schur complement stage of `prec_solve_mrhs` (prec_solve.hpp 475–493).  Note the direction of the copy before the
recursive call: the code overwrites `y_mn` with `work_b`.  (`work_next` is given the size `nm` in the code, which only matters
for debug assertions; the memory it refers to is the rest of `work`.) -/
def schurStageMrhs (P : Prec K) (N r : Nat) (child : Buf K → Buf K → Buf K → M (Buf K × Buf K)) (y work : Buf K) :
    M (Buf K × Buf K) :=
  if P.isLast then
    if P.n - P.m ≠ 0 then do
      let v ← y.win (P.m * N) ((P.n - P.m) * N)
      let v ← P.last.solveMrhs N v r
      pure (work, y.put (P.m * N) v)
    else pure (work, y)
  else do
    let wn ← work.winTail (P.n * N)
    let wb ← work.win (P.m * N) ((P.n - P.m) * N)
    let _ ← y.win (P.m * N) ((P.n - P.m) * N)
    let c ← child wb wb wn
    pure (work.put (P.n * N) c.2, y.put (P.m * N) c.1)

/-- The last part of `prec_solve_mrhs` before the final scaling (prec_solve.hpp 495–519).  Note the direction of the copy: the
code overwrites `y(m+1:n)` with `work(m+1:n)`. -/
def solveFMrhs (P : Prec K) (N : Nat) (b y work : Buf K) : M (Buf K × Buf K) := do
  let y ← updRows N P.m P.n y fun i k _ => work.rd (i * N + k)
  let work ←
    if P.F.psize ≠ 0 then do
      let v ← y.winTail (P.m * N)
      let work ← P.F.ccsMulMrhs N v work
      updRows N 0 P.m work fun i k a => do
        let c ← mulAtRow P.s b P.p N i k
        pure (c - a)
    else if P.n - P.m ≠ 0 then updRows N 0 P.m work fun i k _ => mulAtRow P.s b P.p N i k
    else pure work
  let work ← P.solveLduMrhs N work
  pure (y, work)

/-- `prec_solve_mrhs` (prec_solve.hpp 426–528), on flat buffers (`Array<std::array<T,N>>`). -/
def solveMrhs (N r : Nat) : List (Prec K) → Buf K → Buf K → Buf K → M (Buf K × Buf K)
  | [], _, _, _ => throw (.ub "dereferencing the end of the level list")
  | P :: rest, b, y, work => do
    let work ← updRows N 0 P.m work fun i k _ => mulAtRow P.s b P.p N i k
    let (work, y) ← P.solveEMrhs N b y work
    let (work, y) ← P.schurStageMrhs N r (solveMrhs N r rest) y work
    let (y, work) ← P.solveFMrhs N b y work
    let y ← updRows N 0 P.n y fun i k _ => do
      let ti ← P.t.rd i
      let j ← P.qinv.rd i
      let w ← work.rd (j * N + k)
      pure (ti * w)
    pure (y, work)

/-- `compute_prec_work_space` (prec_solve.hpp 620–626). -/
def workSpace : List (Prec K) → Nat
  | [] => 0
  | P :: rest => P.n + workSpace rest

end ops

end Prec
end Hif
