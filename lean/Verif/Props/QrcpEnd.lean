import Verif.Props.Qrcp

set_option linter.unusedSectionVars false
set_option linter.unusedVariables false

/-!
# C64: the whole factorization with QRCP as the dense solver
-/

namespace Hif
namespace Props
open Hif Level Spec HIF HM Finset

variable {K R : Type} [Field K] [StarRing K] [DecidableEq K] [Inhabited K] [Field R] [LinearOrder R] [IsStrictOrderedRing R] [FloorSemiring R]

/-- QRCP on a nonsingular sparse block: the factorization succeeds, solving and multiplying with rank `≥ n` are exact. -/
theorem qrcp_dense_exact {env : Qrcp.Env K R} (hl : Qrcp.Laic1OK env) (hnrm : Qrcp.NrmOK env.nrm) (ht : 0 < env.diagTol)
    (rowMajor : Bool) {S : CS K} (hw : S.WF) (hs : S.Sorted) (hsq : S.ssize = S.psize) (hpos : 0 < S.psize) (hA : Injective S.psize (mat rowMajor S))
    (hg : ∀ m : Buf K, m.size = S.psize * S.psize → Qrcp.Geqp3OK env S.psize m) {rk : Nat} (hrk : S.psize ≤ rk) :
    (Qrcp.dense env rowMajor false S).2 = none ∧ Prec.DenseExact rk S.psize (mat rowMajor S) (Qrcp.dense env rowMajor false S).1 := by
  have hdist : ∀ i, i < S.psize → ∀ k l, S.start.get i ≤ k → k < l → l < S.start.get (i + 1) → S.inds.get k ≠ S.inds.get l := by
    intro i hi k l h1 h2 h3
    have := hs i hi k l ⟨h1, by omega⟩ ⟨by omega, h3⟩ h2
    omega
  have hd : Runs (if rowMajor then S.denseFromCRS else S.denseFromCCS) fun d => d.size = S.psize * S.psize ∧
      ∀ i j, i < S.psize → j < S.psize → colMajor S.psize d i j = mat rowMajor S i j := by
    cases rowMajor
    · simp only [Bool.false_eq_true, if_false]
      refine (CS.denseFromCCS_runs hw hdist).mono ?_
      rintro d ⟨d1, d2⟩
      rw [hsq] at d1 d2
      exact ⟨d1, fun i j hi hj => d2 j hj i hi⟩
    · simp only [if_true]
      refine (CS.denseFromCRS_runs hw hdist).mono ?_
      rintro d ⟨d1, d2⟩
      rw [hsq] at d1 d2
      exact ⟨d1, fun i j hi hj => d2 i hi j hj⟩
  obtain ⟨d, ed, d1, d2⟩ := hd
  have hA' : Injective S.psize (colMajor S.psize d) := by
    intro x y hxy
    refine hA x y fun i hi => ?_
    have := hxy i hi
    unfold mulVec at *
    rw [sum_congr rfl fun j hj => by rw [← d2 i j hi (mem_range.1 hj)], this]
    exact sum_congr rfl fun j hj => by rw [d2 i j hi (mem_range.1 hj)]
  obtain ⟨s, es, hs⟩ := C64_exact hl hnrm ht hpos (hg d d1) hA'
  have hdn : Qrcp.dense env rowMajor false S = (Qrcp.ops s, none) := by
    unfold Qrcp.dense
    rw [ed, hsq]
    simp only [ite_self]
    show (match Qrcp.factorize env S.psize S.psize d with | .ok s => (Qrcp.ops s, none) | .error e => (Qrcp.failed, some e)) = _
    rw [es]
  rw [hdn]
  refine ⟨rfl, ?_⟩
  have hx := hs rk (Or.inl hrk)
  have hm : ∀ x i, i < S.psize → mulVec S.psize (colMajor S.psize d) x i = mulVec S.psize (mat rowMajor S) x i := fun x i hi =>
    sum_congr rfl fun j hj => by rw [d2 i j hi (mem_range.1 hj)]
  have hmh : ∀ x i, i < S.psize → mulVec S.psize (herm (colMajor S.psize d)) x i = mulVec S.psize (herm (mat rowMajor S)) x i := fun x i hi =>
    sum_congr rfl fun j hj => by unfold herm; rw [d2 j i (mem_range.1 hj) hi]
  refine ⟨fun y hy => (hx.solve y hy).mono fun x h => ⟨h.1, fun i hi => ?_⟩, fun y hy => (hx.solveT y hy).mono fun x h => ⟨h.1, fun i hi => ?_⟩,
    fun y hy => (hx.multiply y hy).mono fun x h => ⟨h.1, fun i hi => ?_⟩, fun y hy => (hx.multiplyT y hy).mono fun x h => ⟨h.1, fun i hi => ?_⟩⟩
  · rw [← hm _ i hi]; exact h.2 i hi
  · rw [← hmh _ i hi]; exact h.2 i hi
  · rw [← hm _ i hi]; exact h.2 i hi
  · rw [← hmh _ i hi]; exact h.2 i hi

/-- C64 (end to end): with QRCP as the dense solver, for every valid nonsingular square matrix, every pivoting mode, nothing dropped and whatever the object held before, `factorize`
completes, and `solve` with full rank returns, for every right-hand side, the solution of `A x = b`.  The hypotheses on LAPACK are `Qrcp.Geqp3OK` for blocks up to the size of
the matrix, and `Qrcp.Laic1OK`. -/
theorem C64_end_to_end (e : Level.Env K R) (o : Level.Opts R) (hc : LevelContract e o) (other : Kernels K) (junk : Nat → K) (ijunk : Nat → Int)
    (opts : FacOpts) (hsy : opts.isSymm = false) (A : Input K) (raw : RawCS) (n : Nat) (hA : ValidSquare A ijunk raw n) (hsz : SizesOK e n)
    (hnd : NoDrop o n) (hinj : Injective n (mat A.rowMajor (raw.toCS n A.vals)))
    (env : Qrcp.Env K R) (hl : Qrcp.Laic1OK env) (hnrm : Qrcp.NrmOK env.nrm) (ht : 0 < env.diagTol)
    (hg : ∀ k, 0 < k → k ≤ n → ∀ m : Buf K, m.size = k * k → Qrcp.Geqp3OK env k m) (hdense : other.dense = Qrcp.dense env A.rowMajor)
    (rk : Nat) (hrk : n ≤ rk) (h : HIF K) (hw : h.empty = true → h.work.size = 0) (hns : h.nsp = none) :
    ∃ h₁, factorize junk ijunk (kernels e o (opts.pivot == .auto) A.rowMajor other) opts A 0 h = (h₁, .ok ()) ∧
      ∀ b y₀ : Buf K, b.size = n → y₀.size = n → ∃ h₂ x, solve junk b y₀ false rk h₁ = (h₂, .ok x) ∧ x.size = n ∧
        ∀ i, i < n → mulVec n (mat A.rowMajor (raw.toCS n A.vals)) x.get i = b.get i := by
  refine C63_exact e o hc other junk ijunk opts hsy A raw n hA hsz hnd hinj rk (fun S s1 s2 s3 s4 s5 s6 => ?_) h hw hns
  rw [hdense]
  exact qrcp_dense_exact hl hnrm ht A.rowMajor s1 s2 s3 s4 s6 (hg _ s4 s5) (by omega)

end Props
end Hif
