import Verif.SparseVec
import Verif.MT

set_option linter.unusedSectionVars false
set_option linter.unusedVariables false

/-!
# Schur complement

Model of `compute_Schur_simple`, serial (src/hif/alg/Schur.hpp 213–372) and threaded (586–742).
Simplifications: the two symbolic passes iterate with `forLine`, which also reads the values (only index arrays are read in the
code); the value buffer of pass 3 is the buffer's own value array in both versions (the serial code uses a separate one if it
computes in higher precision).
-/

namespace Hif
open Finset

/-- Arguments of `compute_Schur_simple` (Schur.hpp 214–221): `q.inv` is `qinv`; `L` is `L_E` (CRS), `U` is `U_F` (CRS). -/
structure SchurIn (K : Type _) where
  s : Buf K
  A : CS K
  t : Buf K
  p : Buf Nat
  qinv : Buf Nat
  m : Nat
  L : CS K
  d : Buf K
  U : CS K

namespace SchurIn
variable {K : Type _}

/-- Size of the Schur complement (Schur.hpp 233–237). -/
def N (a : SchurIn K) : Nat := a.A.psize - a.m

/-- `buf.push_back(j, tag)`, result ignored. -/
def pushTo (tag j : Nat) (s : SV K) : M (SV K) := do
  let r ← s.push j tag
  pure r.2

/-- `if (inv_q >= m) buf.push_back(inv_q - m, tag)` (Schur.hpp 258–259, 295–300). -/
def pushC (a : SchurIn K) (tag j : Nat) (s : SV K) : M (SV K) := do
  let c ← a.qinv.rd j
  if a.m ≤ c then pushTo tag (c - a.m) s else pure s

/-- Collect the pattern of row `i` in the buffer (Schur.hpp 246–260 and, again, 279–301). -/
def collect (a : SchurIn K) (i tag : Nat) (s : SV K) : M (SV K) := do
  let s ← a.L.forLine i s.reset fun k _ s => a.U.forLine k s fun j _ s => pushTo tag j s
  let pi ← a.p.rd (a.m + i)
  a.A.forLine pi s fun j _ s => a.pushC tag j s

/-- `buf.sort_indices()`: `std::sort` of the index list (SparseVec.hpp 110–112). -/
def sortIdx (s : SV K) : SV K :=
  let l := (s.inds.slice 0 s.counts).insertionSort (· ≤ ·)
  { s with inds := ⟨s.inds.size, fun k => if k < s.counts then l.getD k 0 else s.inds.get k⟩ }

/-- Pass 2 for row `i` (Schur.hpp 278–308): the sorted pattern goes to `col_ind` from position `pos`. -/
def fillIdx (a : SchurIn K) (i tag pos : Nat) (s : SV K) (ci : Buf Nat) : M (SV K × Buf Nat) := do
  let s ← a.collect i tag s
  let s := sortIdx s
  let ci ← forUp pos (pos + s.counts) ci fun j ci => do
    let x ← s.inds.rd (j - pos)
    ci.wr j x
  pure (s, ci)

section
variable [CommRing K]

/-- Pass 3, first and second part (Schur.hpp 329–350): zero the positions of the pattern, load the scaled row of `C`. -/
def loadRow (a : SchurIn K) (i : Nat) (rs ci : Buf Nat) (w : Buf K) : M (Buf K) := do
  let lo ← rs.rd i
  let hi ← rs.rd (i + 1)
  let w ← forUp lo hi w fun k w => do
    let j ← ci.rd k
    w.wr j 0
  let pi ← a.p.rd (a.m + i)
  let spi ← a.s.rd pi
  a.A.forLine pi w fun j v w => do
    let c ← a.qinv.rd j
    if a.m ≤ c then do
      let tj ← a.t.rd j
      w.wr (c - a.m) (spi * v * tj)
    else pure w

/-- Pass 3, third part (Schur.hpp 353–365): subtract `L_E D U_F`. -/
def subtractRow (a : SchurIn K) (i : Nat) (w : Buf K) : M (Buf K) :=
  a.L.forLine i w fun idx v w => do
    let dk ← a.d.rd idx
    a.U.forLine idx w fun j u w => do
      let y ← w.rd j
      w.wr j (y - v * dk * u)

/-- Pass 3 for row `i` (Schur.hpp 327–371). -/
def fillVals (a : SchurIn K) (i : Nat) (rs ci : Buf Nat) (w vals : Buf K) : M (Buf K × Buf K) := do
  let w ← a.loadRow i rs ci w
  let w ← a.subtractRow i w
  let lo ← rs.rd i
  let hi ← rs.rd (i + 1)
  let vals ← forUp lo hi vals fun k vals => do
    let j ← ci.rd k
    let x ← w.rd j
    vals.wr k x
  pure (w, vals)

/-- Pass 1 for row `i` (Schur.hpp 246–262). -/
def countRow (a : SchurIn K) (i : Nat) (st : SV K × Buf Nat) : M (SV K × Buf Nat) := do
  let buf ← a.collect i (a.A.psize + i) st.1
  let r ← st.2.rd i
  let rs ← st.2.wr (i + 1) (r + buf.counts)
  pure (buf, rs)

/-- Serial `compute_Schur_simple` (Schur.hpp 213–372) for a freshly constructed result `SC`; `junk` is the content of newly
allocated memory. -/
def compute (a : SchurIn K) (junk : Nat → K) (ijunk : Nat → Nat) (buf : SV K) : M (CS K) :=
  if a.m = a.A.psize then pure ⟨0, 0, ⟨0, ijunk⟩, ⟨0, ijunk⟩, ⟨0, junk⟩⟩
  else do
    let rs ← (⟨a.N + 1, ijunk⟩ : Buf Nat).wr 0 0
    let st ← forUp 0 a.N (buf, rs) a.countRow
    let rs := st.2
    let nnz ← rs.rd a.N
    if nnz = 0 then pure ⟨a.N, a.N, rs, ⟨0, ijunk⟩, ⟨0, junk⟩⟩
    else do
      let st ← forUp 0 a.N (st.1, (⟨nnz, ijunk⟩ : Buf Nat), 0) fun i st => do
        let r ← a.fillIdx i (a.A.psize + a.N + i) st.2.2 st.1 st.2.1
        pure (r.1, r.2, st.2.2 + r.1.counts)
      let ci := st.2.1
      let st ← forUp 0 a.N (st.1.vals, (⟨nnz, junk⟩ : Buf K)) fun i st => a.fillVals i rs ci st.1 st.2
      pure ⟨a.N, a.N, rs, ci, st.2⟩

/-! ### Threaded version -/

/-- Shared state of the first part of the parallel region (Schur.hpp 639–667): next row of each thread, the threads' buffers, and
the array of row counts. -/
structure Par1 (K : Type _) where
  pc : Nat → Nat
  bufs : Nat → SV K
  rs : Buf Nat

/-- One row of pass 1 in thread `t` (Schur.hpp 645–666); the thread's tag has grown by one for every row it did.  The only shared
effect is the store `row_start[i+1]`. -/
def step1 (a : SchurIn K) (T t : Nat) (st : Par1 K) : M (Par1 K) :=
  if st.pc t < (MT.uniformPartition a.N T t).2 then do
    let i := st.pc t
    let buf ← a.collect i (a.A.psize + (i - (MT.uniformPartition a.N T t).1)) (st.bufs t)
    let rs ← st.rs.wr (i + 1) buf.counts
    pure { pc := fun u => if u = t then i + 1 else st.pc u, bufs := fun u => if u = t then buf else st.bufs u, rs := rs }
  else pure st

/-- A schedule of the first part: a list of thread numbers, one step each. -/
def run1 (a : SchurIn K) (T : Nat) : List Nat → Par1 K → M (Par1 K)
  | [], st => pure st
  | t :: ts, st => if t < T then a.step1 T t st >>= a.run1 T ts else a.run1 T ts st

/-- The master's prefix sums between the barriers (Schur.hpp 671–674). -/
def prefixSums (a : SchurIn K) (rs : Buf Nat) : M (Buf Nat) :=
  forUp 0 a.N rs fun i rs => do
    let x ← rs.rd (i + 1)
    let y ← rs.rd i
    rs.wr (i + 1) (x + y)

/-- Shared state of the second part (Schur.hpp 684–739). -/
structure Par2 (K : Type _) where
  pc : Nat → Nat
  bufs : Nat → SV K
  ci : Buf Nat
  vals : Buf K

/-- One step of thread `t` in the second part: first all rows of its range in pass 2 (Schur.hpp 685–705), then all of them in pass 3
(708–739), without a barrier between.  `pc` counts from 0 to twice the length of the range.  A step stores only into the segment of
its row. -/
def step2 (a : SchurIn K) (T t : Nat) (rs : Buf Nat) (st : Par2 K) : M (Par2 K) :=
  let lo := (MT.uniformPartition a.N T t).1
  let len := (MT.uniformPartition a.N T t).2 - lo
  if st.pc t < len then do
    let i := lo + st.pc t
    let pos ← rs.rd i
    let r ← a.fillIdx i (a.A.psize + len + st.pc t) pos (st.bufs t) st.ci
    pure { st with pc := fun u => if u = t then st.pc t + 1 else st.pc u, bufs := fun u => if u = t then r.1 else st.bufs u, ci := r.2 }
  else if st.pc t < 2 * len then do
    let i := lo + (st.pc t - len)
    let r ← a.fillVals i rs st.ci (st.bufs t).vals st.vals
    pure { st with pc := fun u => if u = t then st.pc t + 1 else st.pc u,
                   bufs := fun u => if u = t then { st.bufs t with vals := r.1 } else st.bufs u, vals := r.2 }
  else pure st

/-- A schedule of the second part. -/
def run2 (a : SchurIn K) (T : Nat) (rs : Buf Nat) : List Nat → Par2 K → M (Par2 K)
  | [], st => pure st
  | t :: ts, st => if t < T then a.step2 T t rs st >>= a.run2 T rs ts else a.run2 T rs ts st

/-- All threads are through with the first part. -/
def done1 (a : SchurIn K) (T : Nat) (st : Par1 K) : Prop := ∀ t, t < T → st.pc t = (MT.uniformPartition a.N T t).2

/-- All threads are through with the second part. -/
def done2 (a : SchurIn K) (T : Nat) (st : Par2 K) : Prop :=
  ∀ t, t < T → st.pc t = 2 * ((MT.uniformPartition a.N T t).2 - (MT.uniformPartition a.N T t).1)

/-- Start of the first part: every thread at the beginning of its range. -/
def init1 (a : SchurIn K) (T : Nat) (bufs : Nat → SV K) (rs : Buf Nat) : Par1 K :=
  ⟨fun t => (MT.uniformPartition a.N T t).1, bufs, rs⟩

/-- Outcomes of the threaded `compute_Schur_simple` (Schur.hpp 586–742; the branch taken when it decides to run in parallel):
`SC` is a possible result iff there are schedules of the two parts leading to it. -/
inductive Par (a : SchurIn K) (T : Nat) (junk : Nat → K) (ijunk : Nat → Nat) (bufs : Nat → SV K) : M (CS K) → Prop
  | fail1 (sched) (rs0) (e) : (⟨a.N + 1, ijunk⟩ : Buf Nat).wr 0 0 = .ok rs0 →
      a.run1 T sched (a.init1 T bufs rs0) = .error e → Par a T junk ijunk bufs (.error e)
  | failSum (sched) (rs0) (st) (e) : (⟨a.N + 1, ijunk⟩ : Buf Nat).wr 0 0 = .ok rs0 →
      a.run1 T sched (a.init1 T bufs rs0) = .ok st → a.done1 T st → a.prefixSums st.rs = .error e → Par a T junk ijunk bufs (.error e)
  | empty (sched) (rs0) (st) (rs) : (⟨a.N + 1, ijunk⟩ : Buf Nat).wr 0 0 = .ok rs0 →
      a.run1 T sched (a.init1 T bufs rs0) = .ok st → a.done1 T st → a.prefixSums st.rs = .ok rs → rs.rd a.N = .ok 0 →
      Par a T junk ijunk bufs (.ok ⟨a.N, a.N, rs, ⟨0, ijunk⟩, ⟨0, junk⟩⟩)
  | fail2 (sched sched') (rs0) (st) (rs) (nnz) (e) : (⟨a.N + 1, ijunk⟩ : Buf Nat).wr 0 0 = .ok rs0 →
      a.run1 T sched (a.init1 T bufs rs0) = .ok st → a.done1 T st → a.prefixSums st.rs = .ok rs → rs.rd a.N = .ok nnz → nnz ≠ 0 →
      a.run2 T rs sched' ⟨fun _ => 0, st.bufs, ⟨nnz, ijunk⟩, ⟨nnz, junk⟩⟩ = .error e → Par a T junk ijunk bufs (.error e)
  | full (sched sched') (rs0) (st) (rs) (nnz) (st') : (⟨a.N + 1, ijunk⟩ : Buf Nat).wr 0 0 = .ok rs0 →
      a.run1 T sched (a.init1 T bufs rs0) = .ok st → a.done1 T st → a.prefixSums st.rs = .ok rs → rs.rd a.N = .ok nnz → nnz ≠ 0 →
      a.run2 T rs sched' ⟨fun _ => 0, st.bufs, ⟨nnz, ijunk⟩, ⟨nnz, junk⟩⟩ = .ok st' → a.done2 T st' →
      Par a T junk ijunk bufs (.ok ⟨a.N, a.N, rs, st'.ci, st'.vals⟩)

end
end SchurIn
end Hif
