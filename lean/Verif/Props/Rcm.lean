import Verif.RcmLemmas
import Verif.Props.Pre

/-!
# C45: reverse Cuthill–McKee; C58 with the library's own RCM
-/

namespace Hif.Props

open Hif Pre Rcm

/-- C45: for every graph (adjacency lists sorted and in range) with symmetric adjacency, `run_rcm` terminates without an access outside the
arrays and returns an array of length `m` that is a permutation of the vertices. -/
theorem C45_rcm (m : Nat) (b : Pat) (hb : PatWF m b)
    (hs : ∀ i, i < m → ∀ j, j < m → j ∈ b.inds.slice (b.start.get i) (b.start.get (i + 1)) → i ∈ b.inds.slice (b.start.get j) (b.start.get (j + 1))) :
    ∃ P, runRcm m b = .ok P ∧ P.size = m ∧ (∀ i, i < m → P.get i < m) ∧ ∀ i j, i < m → j < m → P.get i = P.get j → i = j := by
  obtain ⟨P, e, h1, h2⟩ := runRcm_runs hb hs
  exact ⟨P, e, h1, h2.1, h2.2⟩

/-- C45: symmetry is needed: for the graph with the arcs `0 → 1`, `0 → 2` the result repeats vertex 2 and loses vertex 0. -/
theorem C45_nonsymmetric_witness :
    ∃ b : Pat, PatWF 3 b ∧ (runRcm 3 b).map Buf.toList = .ok [1, 2, 2] :=
  ⟨⟨Buf.ofList [0, 2, 2, 2], Buf.ofList [1, 2]⟩, by unfold PatWF; decide, by decide +kernel⟩

/-- Non-vacuity: a path with four vertices is a valid symmetric graph and gets the reversed order. -/
example : PatWF 4 ⟨Buf.ofList [0, 2, 5, 8, 10], Buf.ofList [0, 1, 0, 1, 2, 1, 2, 3, 2, 3]⟩ ∧
    PatSymm 4 ⟨Buf.ofList [0, 2, 5, 8, 10], Buf.ofList [0, 1, 0, 1, 2, 1, 2, 3, 2, 3]⟩ ∧
    (runRcm 4 ⟨Buf.ofList [0, 2, 5, 8, 10], Buf.ofList [0, 1, 0, 1, 2, 1, 2, 3, 2, 3]⟩).map Buf.toList = .ok [3, 2, 1, 0] := by
  unfold PatWF PatSymm; decide +kernel

/-- Two components: the edges `0—1—3` and the isolated vertex 2. -/
example : (runRcm 4 ⟨Buf.ofList [0, 1, 3, 3, 4], Buf.ofList [1, 0, 3, 1]⟩).map Buf.toList = .ok [3, 1, 0, 2] := by decide +kernel

/-- C45: hence the contract assumed of the ordering in C58 holds for `run_rcm`. -/
theorem C45_contract : SymOrderingOK runRcm := fun m b hb hs => by
  obtain ⟨P, e, h1, h2, h3⟩ := C45_rcm m b hb hs
  exact ⟨P, e, le_of_eq h1.symm, h2, h3⟩

section
variable {K R : Type} [CommMonoid K] [Inhabited K] [Field R] [LinearOrder R] [IsStrictOrderedRing R]

/-- C58 with the library's RCM: `C58_preprocess_partial` without an assumption on the RCM ordering; only matching and AMD, which are third-party codes,
remain contracts.  What is missing is stated there. -/
theorem C58_preprocess_rcm_partial {a : Arith K R} (ha : ArithSpec a) {ker : Kernels K R} (hk : MatchingOK ker.mc64) (hamd : OrderingOK ker.amd)
    (hrcm : ker.rcm = runRcm) (isSymm : Bool) (opts : Opts R) (hre : 0 ≤ opts.reorder ∧ opts.reorder < 4)
    (n m0 level : Nat) (Accs Acrs : CS K) (h : PreIn n m0 Accs Acrs)
    (hsame : ∀ i, i < n → ∀ j, j < n → ((∃ v, (i, v) ∈ Accs.line j) ↔ ∃ v, (j, v) ∈ Acrs.line i))
    (hsym : isSymm = true → ∀ i, i < m0 → ∀ j, j < m0 → (∃ v, (i, v) ∈ Accs.line j) → ∃ v, (j, v) ∈ Accs.line i)
    (hz : opts.preScale ≠ 0 → opts.preScale ≠ 1 →
      (∀ i, i < m0 → ∃ e ∈ Acrs.line i, e.1 < m0 ∧ a.nrm e.2 ≠ 0) ∧
      (isSymm = false → ∀ j, j < m0 → ∃ i, i < m0 ∧ ∃ e ∈ Acrs.line i, e.1 = j ∧ a.nrm e.2 ≠ 0))
    (hno : isSymm = false → opts.reorder = 3 → m0 = n ∧ ∀ C : CS K, C.psize = n → ∀ i, i < n →
      Dominant a.nrm a.eps Accs Acrs (((ker.mc64 C).perm.get i).natAbs - 1) i) :
    ∃ r, doPreprocess a ker isSymm opts m0 level Accs Acrs = .ok r ∧ Preprocessed a n m0 Accs Acrs r ∧
      (isSymm = true → ∀ i, i < n → r.p.p.get i = r.q.p.get i ∧ r.s.get i = r.t.get i) :=
  C58_preprocess_partial ha hk hamd (hrcm ▸ C45_contract) isSymm opts hre n m0 level Accs Acrs h hsame hsym hz hno

end

namespace ExPre

/-- Identity matching, library RCM. -/
def kerI : Kernels ℚ ℚ where
  mc64 B := { info := 0, perm := ⟨B.psize, fun i => (i : Int) + 1⟩, s := Buf.mk' B.psize 1, t := Buf.mk' B.psize 1 }
  amd m _ := .ok ⟨m, fun i => i⟩
  rcm := runRcm

/-- `[[2,0,1],[0,0,0],[1,0,2]]`: symmetric pattern, the middle row is empty. -/
def S3 : CS ℚ := Ex.mk 3 3 [0, 2, 2, 4] [0, 2, 0, 2] [2, 1, 1, 2]

end ExPre

open ExPre in
/-- Non-vacuity: matrix, symmetry of the pattern and both storages meet the hypotheses of C58 with the library RCM. -/
example : PreIn 3 3 S3 S3 ∧ (∀ i, i < 3 → ∀ j, j < 3 → (i ∈ (S3.line j).map Prod.fst ↔ j ∈ (S3.line i).map Prod.fst)) ∧
    SymOrderingOK kerI.rcm ∧ MatchingOK kerI.mc64 := by
  refine ⟨⟨by constructor <;> decide, ExPre.sorted_of_bounded (by decide), rfl, rfl, by constructor <;> decide, ExPre.sorted_of_bounded (by decide), rfl, rfl,
      le_refl _, Or.inl rfl⟩, by decide, C45_contract, fun B => ⟨le_refl _, fun hB hs => ⟨rfl, rfl, rfl, ⟨fun i hi => ?_, fun i j hi hj e => ?_⟩, fun i _ =>
      ⟨one_pos, one_pos⟩⟩⟩⟩
  · show ((i : Int) + 1).natAbs - 1 < B.psize
    omega
  · have e' : ((i : Int) + 1).natAbs - 1 = ((j : Int) + 1).natAbs - 1 := e
    omega

open ExPre in
/-- Its run: the empty row is deferred, the other two are ordered by RCM. -/
example : (doPreprocess (⟨fun x => |x|, id, id, 1/1000, 1/1000⟩ : Arith ℚ ℚ) kerI true ⟨3, 0, -1⟩ 3 1 S3 S3).map
    (fun r => (r.m, [r.p.p.toList, r.p.inv.toList, r.q.p.toList])) = .ok (2, [[2, 0, 1], [1, 2, 0], [2, 0, 1]]) := by decide +kernel

end Hif.Props
