import Verif.Conv
import Verif.Prec
import Verif.Builder

set_option linter.unusedSectionVars false
set_option linter.unusedVariables false

/-!
# Exporting a level

Model of `export_compressed_data` (src/hif/ds/CompressedStorage.hpp 2715–2727) and of `Prec::inquire_sizes`, `Prec::export_sparse_data`, `Prec::inquire_or_export_dense`
(src/hif/alg/Prec.hpp 209–306).

Simplifications: values and indices keep their type (the code converts to the type of the user's arrays); `s` and `t` are arrays of `K` as in `Prec`.
-/

namespace Hif
namespace Export

variable {K : Type}

/-- `std::copy_n(src.cbegin(), n, dst)`. -/
def copyN {α : Type} (n : Nat) (src dst : Buf α) : M (Buf α) :=
  forUp 0 n dst fun i dst => do
    let v ← src.rd i
    dst.wr i v

/-- The constructor of the other storage order (911–919, 1895–1905) for a matrix that may be default-constructed: `nnz()` (135–137) is 0 then, and nothing is read. -/
def other [Inhabited K] (A : CS K) : M (CS K) :=
  if A.start.size = 0 then pure { psize := A.ssize, ssize := A.psize, start := Buf.mk' (A.ssize + 1) 0, inds := Buf.mk' 0 0, vals := Buf.mk' 0 default }
  else A.convert

/-- The three arrays of the user for one matrix. -/
structure Trip (K : Type) where
  start : Buf Nat
  inds : Buf Nat
  vals : Buf K

/-- `export_compressed_data` (2715–2727); `same`: the export format is that of the matrix. -/
def exportCS [Inhabited K] (same : Bool) (A : CS K) (o : Trip K) : M (Trip K) := do
  let B ← (if same then pure A else other A)
  let st ← copyN (B.psize + 1) B.start o.start
  let ix ← copyN B.nnz B.inds o.inds
  let vl ← copyN B.nnz B.vals o.vals
  pure ⟨st, ix, vl⟩

/-- `inquire_sizes` (Prec.hpp 209–218). -/
def sizes (P : Prec K) : Nat × Nat × Nat × Nat × Nat × Nat := (P.m, P.n, P.L.nnz, P.U.nnz, P.E.nnz, P.F.nnz)

/-- The arrays of the user (Prec.hpp 222–243). -/
structure Out (K : Type) where
  L : Trip K
  d : Buf K
  U : Trip K
  E : Trip K
  F : Trip K
  s : Buf K
  t : Buf K
  p : Buf Nat
  pinv : Buf Nat
  q : Buf Nat
  qinv : Buf Nat

/-- A destroyed matrix (CompressedStorage.hpp 651–656, 2621–2624). -/
def destroyed [Inhabited K] : CS K := ⟨0, 0, Buf.mk' 0 0, Buf.mk' 0 0, Buf.mk' 0 default⟩

/-- What `jit_destroy` leaves of the level (249–270): `L_B` is not destroyed. -/
def jit [Inhabited K] (P : Prec K) : Prec K :=
  { P with d := Buf.mk' 0 default, U := destroyed, E := destroyed, F := destroyed, s := Buf.mk' 0 default, t := Buf.mk' 0 default,
           p := Buf.mk' 0 0, pinv := Buf.mk' 0 0, q := Buf.mk' 0 0, qinv := Buf.mk' 0 0, m := 0, n := 0 }

/-- `export_sparse_data` (220–272): the filled arrays and the level afterwards.  The level is changed while the export runs, but nothing destroyed is read again. -/
def exportSparse [Inhabited K] (same destroy : Bool) (P : Prec K) (o : Out K) : M (Out K × Prec K) := do
  let L ← exportCS same P.L o.L
  let d ← copyN P.m P.d o.d
  let U ← exportCS same P.U o.U
  let E ← exportCS same P.E o.E
  let F ← exportCS same P.F o.F
  let s ← copyN P.n P.s o.s
  let t ← copyN P.n P.t o.t
  let p ← copyN P.n P.p o.p
  let pinv ← copyN P.n P.pinv o.pinv
  let q ← copyN P.n P.q o.q
  let qinv ← copyN P.n P.qinv o.qinv
  pure (⟨L, d, U, E, F, s, t, p, pinv, q, qinv⟩, if destroy then jit P else P)

/-- The matrices of a dense solver: `_mat` and `_mat_backup` with their common shape. -/
structure DenseMats (K : Type) where
  nrows : Nat
  ncols : Nat
  mat : Buf K
  backup : Buf K

/-- `inquire_or_export_dense` (274–306) on the two solvers of a level: with a null pointer the shape is returned, otherwise the backup is copied to the array and, if asked for, both
arrays are freed (the shape is kept).  A solver is empty if `_mat` has no elements; without a solver the assertion (291) fails in a debug build; otherwise the symmetric (empty) one is used. -/
def denseExport [Inhabited K] (debug : Bool) (a b : DenseMats K) (mat : Option (Buf K)) (nrows ncols : Nat) (destroy : Bool) :
    M (DenseMats K × DenseMats K × Option (Buf K) × Nat × Nat) :=
  let freed (c : DenseMats K) : DenseMats K := if destroy then { c with mat := Buf.mk' 0 default, backup := Buf.mk' 0 default } else c
  if a.mat.size ≠ 0 then
    match mat with
    | none => pure (a, b, none, a.nrows, a.ncols)
    | some u => do
      let u ← copyN a.backup.size a.backup u
      pure (freed a, b, some u, nrows, ncols)
  else if b.mat.size = 0 ∧ debug = true then throw (.hif "fatal")
  else
    match mat with
    | none => pure (a, b, none, b.nrows, b.ncols)
    | some u => do
      let u ← copyN b.backup.size b.backup u
      pure (a, freed b, some u, nrows, ncols)

/-! ### proofs -/

theorem copyN_runs {α : Type} {n : Nat} {src dst : Buf α} (h1 : n ≤ src.size) (h2 : n ≤ dst.size) :
    Runs (copyN n src dst) fun r => r.size = dst.size ∧ ∀ i, r.get i = if i < n then src.get i else dst.get i := by
  unfold copyN
  refine forUp_runs' (fun k (r : Buf α) => r.size = dst.size ∧ ∀ i, r.get i = if i < k then src.get i else dst.get i) (Nat.zero_le _) ⟨rfl, fun i => by rw [if_neg (by omega)]⟩ ?_
    (fun _ q => q)
  rintro k r _ hk ⟨e, hr⟩
  simp only [runs_bind, runs_rd, runs_wr]
  refine ⟨by omega, by omega, e, fun i => ?_⟩
  rw [Buf.set_get]
  by_cases c : i = k
  · subst c; rw [if_pos rfl, if_pos (by omega)]
  · rw [if_neg c, hr i]
    by_cases c' : i < k
    · rw [if_pos c', if_pos (by omega)]
    · rw [if_neg c', if_neg (by omega)]

/-- Number of entries of a valid matrix with exactly sized arrays. -/
theorem nnz_eq {A : CS K} (h : A.WF) (ht : A.Tight) : A.nnz = A.start.get A.psize := by
  unfold CS.nnz
  rw [if_neg (by rw [ht.start_size]; omega), ht.start_size, h.start_zero]
  rfl

theorem other_eq [Inhabited K] {A : CS K} (ht : A.Tight) : other A = A.convert := by
  unfold other
  rw [if_neg (by rw [ht.start_size]; omega)]

/-- The arrays of the user are those of the matrix `B`. -/
structure Holds (B : CS K) (o r : Trip K) : Prop where
  sz1 : r.start.size = o.start.size
  sz2 : r.inds.size = o.inds.size
  sz3 : r.vals.size = o.vals.size
  st : ∀ i, r.start.get i = if i < B.psize + 1 then B.start.get i else o.start.get i
  ix : ∀ k, r.inds.get k = if k < B.start.get B.psize then B.inds.get k else o.inds.get k
  vl : ∀ k, r.vals.get k = if k < B.start.get B.psize then B.vals.get k else o.vals.get k

theorem copy3 [Inhabited K] {B : CS K} (h : B.WF) (ht : B.Tight) {o : Trip K} (h1 : B.psize + 1 ≤ o.start.size) (h2 : B.nnz ≤ o.inds.size) (h3 : B.nnz ≤ o.vals.size) :
    Runs (do
      let st ← copyN (B.psize + 1) B.start o.start
      let ix ← copyN B.nnz B.inds o.inds
      let vl ← copyN B.nnz B.vals o.vals
      pure (⟨st, ix, vl⟩ : Trip K)) fun r => Holds B o r := by
  have e := nnz_eq h ht
  rw [runs_bind]
  refine (copyN_runs (by rw [ht.start_size]) h1).mono ?_
  rintro st ⟨s1, g1⟩
  rw [runs_bind]
  refine (copyN_runs (by rw [ht.inds_size, e]) h2).mono ?_
  rintro ix ⟨s2, g2⟩
  rw [runs_bind]
  refine (copyN_runs (by rw [ht.vals_size, e]) h3).mono ?_
  rintro vl ⟨s3, g3⟩
  rw [runs_pure]
  rw [e] at g2 g3
  exact ⟨s1, s2, s3, g1, g2, g3⟩

/-- The matrix in the arrays of the user. -/
def Trip.cs (o : Trip K) (psize ssize : Nat) : CS K := ⟨psize, ssize, o.start, o.inds, o.vals⟩

theorem Holds.wf {B : CS K} {o r : Trip K} (h : B.WF) (hh : Holds B o r) (h1 : B.psize + 1 ≤ o.start.size) (h2 : B.start.get B.psize ≤ o.inds.size)
    (h3 : B.start.get B.psize ≤ o.vals.size) : (r.cs B.psize B.ssize).WF := by
  have es : ∀ i, i ≤ B.psize → r.start.get i = B.start.get i := fun i hi => by rw [hh.st, if_pos (by omega)]
  refine ⟨by rw [Trip.cs, hh.sz1]; exact h1, ?_, fun i hi => ?_, ?_, ?_, fun k hk => ?_⟩
  · show r.start.get 0 = 0
    rw [es 0 (Nat.zero_le _)]; exact h.start_zero
  · show r.start.get i ≤ r.start.get (i + 1)
    rw [es i (Nat.le_of_lt hi), es (i + 1) hi]; exact h.mono i hi
  · show r.start.get B.psize ≤ r.inds.size
    rw [es _ (le_refl _), hh.sz2]; exact h2
  · show r.start.get B.psize ≤ r.vals.size
    rw [es _ (le_refl _), hh.sz3]; exact h3
  · have hk' : k < r.start.get B.psize := hk
    rw [es _ (le_refl _)] at hk'
    show r.inds.get k < B.ssize
    rw [hh.ix, if_pos hk']; exact h.inds_lt k hk'

theorem start_le {B : CS K} (h : B.WF) : ∀ d i, i + d = B.psize → B.start.get i ≤ B.start.get B.psize
  | 0, i, e => by rw [← e]; exact le_refl _
  | d + 1, i, e => le_trans (h.mono i (by omega)) (start_le h d (i + 1) (by omega))

theorem Holds.entry [AddCommMonoid K] {B : CS K} {o r : Trip K} (h : B.WF) (hh : Holds B o r) {i : Nat} (hi : i < B.psize) (j : Nat) :
    (r.cs B.psize B.ssize).entry i j = B.entry i j := by
  unfold CS.entry
  have e1 : r.start.get i = B.start.get i := by rw [hh.st, if_pos (by omega)]
  have e2 : r.start.get (i + 1) = B.start.get (i + 1) := by rw [hh.st, if_pos (by omega)]
  show ∑ k ∈ Finset.Ico (r.start.get i) (r.start.get (i + 1)), (if r.inds.get k = j then r.vals.get k else 0) = _
  rw [e1, e2]
  refine Finset.sum_congr rfl fun k hk => ?_
  have hk' := (Finset.mem_Ico.1 hk).2
  have := start_le h (B.psize - (i + 1)) (i + 1) (by omega)
  have hlt : k < B.start.get B.psize := by omega
  rw [hh.ix, if_pos hlt, hh.vl, if_pos hlt]

end Export
end Hif
