import Verif.Props.Export
import Verif.Props.FillEx

set_option linter.unusedSectionVars false
set_option linter.unusedVariables false

/-!
# C80: exporting what `factorize` stored
-/

namespace Hif.Props
open Hif Level Spec HIF HM Finset
open _root_.Hif.Export (exportSparse)

/-- Every level with exactly sized blocks can be exported into fresh arrays and built again. -/
theorem exists_reimported {K : Type} [Field K] [Inhabited K] (same : Bool) (P : Prec K) (h : Exportable P) : ∃ Q, Reimported same P Q := by
  let z := _root_.Hif.Export.sizes P
  let u : _root_.Hif.Export.Out K :=
    { L := ⟨Buf.mk' (z.1 + 1) 0, Buf.mk' z.2.2.1 0, Buf.mk' z.2.2.1 default⟩, d := Buf.mk' z.1 default, U := ⟨Buf.mk' (z.1 + 1) 0, Buf.mk' z.2.2.2.1 0, Buf.mk' z.2.2.2.1 default⟩,
      E := ⟨Buf.mk' ((if same then z.1 else z.2.1 - z.1) + 1) 0, Buf.mk' z.2.2.2.2.1 0, Buf.mk' z.2.2.2.2.1 default⟩,
      F := ⟨Buf.mk' ((if same then z.2.1 - z.1 else z.1) + 1) 0, Buf.mk' z.2.2.2.2.2 0, Buf.mk' z.2.2.2.2.2 default⟩,
      s := Buf.mk' z.2.1 default, t := Buf.mk' z.2.1 default, p := Buf.mk' z.2.1 0, pinv := Buf.mk' z.2.1 0, q := Buf.mk' z.2.1 0, qinv := Buf.mk' z.2.1 0 }
  have hu : Allocated same z u := ⟨⟨rfl, rfl, rfl⟩, rfl, ⟨rfl, rfl, rfl⟩, ⟨rfl, rfl, rfl⟩, ⟨rfl, rfl, rfl⟩, rfl, rfl, rfl, rfl, rfl, rfl⟩
  obtain ⟨y, e1, -, Q, e2, -⟩ := C80_level same false P h u hu
  exact ⟨Q, u, false, y, hu, e1, e2⟩

theorem exists_reimported_all {K : Type} [Field K] [Inhabited K] (same : Bool) : ∀ ps : List (Prec K), (∀ P ∈ ps, Exportable P) → ∃ qs, List.Forall₂ (Reimported same) ps qs
  | [], _ => ⟨[], .nil⟩
  | P :: ps, h => by
    obtain ⟨Q, hQ⟩ := exists_reimported same P (h P (List.mem_cons_self ..))
    obtain ⟨qs, hqs⟩ := exists_reimported_all same ps fun P' hP => h P' (List.mem_cons_of_mem _ hP)
    exact ⟨Q :: qs, .cons hQ hqs⟩

section nonsym
variable {K R : Type} [Field K] [StarRing K] [DecidableEq K] [Inhabited K] [Field R] [LinearOrder R] [IsStrictOrderedRing R] [FloorSemiring R]
variable (e : Env K R) (o : Level.Opts R) (hc : LevelContract e o) (x : SymmPar K R) (dense : Bool → CS K → DenseOps K × Option Err) (junk : Nat → K)
  (ijunk : Nat → Int) (opts : FacOpts) (hsy : opts.isSymm = false) (A : Input K) (raw : RawCS) (n : Nat) (hA : ValidSquare A ijunk raw n) (hnz : 0 < A.vals.size)
include hc hsy hA hnz

/-- **C80 (after `factorize`).** Whatever the outcome of `factorize` and whatever the object held before: every stored level that eliminated something is valid, its four blocks
are exactly allocated and have the shapes that `inquire_sizes` reports, i.e. it meets the hypotheses of the theorems about exporting one level. -/
theorem C80_factorized (h : HIF K) : ∀ P ∈ (sizedFactorize junk ijunk (sizedKernels e o x (opts.pivot == .auto) A.rowMajor dense) (Sizes.init false A.rowMajor)
    (Sizes.next false) opts A 0 h).1.precs, P.m ≠ 0 → Exportable P := by
  obtain ⟨Z, z1, z2, z3, z4, z5⟩ := sized_run e o hc x dense junk ijunk opts hsy A raw n hA hnz h
  rw [z3]
  intro P hP hm
  obtain ⟨-, lvl, hok, -, ht⟩ := z4.all P hP
  obtain ⟨t1, t2, t3, t4⟩ := ht hm
  exact ⟨hok, t1, t2, t3, t4⟩

/-- **C80 (exporting after `factorize`).** Every stored level that eliminated something is exported, row- or column-major, into arrays allocated by the answers of `inquire_sizes`, and
what is built from the arrays is the same level. -/
theorem C80_factorized_level (h : HIF K) (same destroy : Bool) : ∀ P ∈ (sizedFactorize junk ijunk (sizedKernels e o x (opts.pivot == .auto) A.rowMajor dense)
      (Sizes.init false A.rowMajor) (Sizes.next false) opts A 0 h).1.precs, P.m ≠ 0 → ∀ u : _root_.Hif.Export.Out K, Allocated same (_root_.Hif.Export.sizes P) u →
    Runs (exportSparse same destroy P u) fun y => (destroy = false → y.2 = P) ∧ Runs (rebuild same P.m P.n P.last y.1) fun Q => Exportable Q ∧ SameLevel P Q :=
  fun P hP hm u hu => C80_level same destroy P (C80_factorized e o hc x dense junk ijunk opts hsy A raw n hA hnz h P hP hm) u hu

/-- **C80 (exporting a whole preconditioner after `factorize`).** If `factorize` completes, no level is without eliminated unknowns and the dense solver is exact on the blocks it
accepts, a preconditioner built again from the exported levels returns the same vector for every right-hand side, also with the transpose flag. -/
theorem C80_factorized_solves (rk : Nat) (hd : ∀ S : CS K, S.WF → S.Sorted → S.ssize = S.psize → 0 < S.psize →
      (∃ msg, (dense false S).2 = some (.hif msg)) ∨ ((dense false S).2 = none ∧ Prec.DenseExact rk S.psize (mat A.rowMajor S) (dense false S).1))
    (h : HIF K) (hw : h.empty = true → h.work.size = 0) (hns : h.nsp = none) (hnt : h.nspTran = none) :
    ∀ h₁, sizedFactorize junk ijunk (sizedKernels e o x (opts.pivot == .auto) A.rowMajor dense) (Sizes.init false A.rowMajor) (Sizes.next false) opts A 0 h = (h₁, .ok ()) →
      (∀ P ∈ h₁.precs, P.m ≠ 0) → ∀ same : Bool, (∃ ps, List.Forall₂ (Reimported same) h₁.precs ps) ∧ ∀ (junk' : Nat → K) (h' : HIF K), List.Forall₂ (Reimported same) h₁.precs h'.precs → Ready h' → h'.nsp = none →
      h'.nspTran = none → ∀ (trans : Bool) (b y₀ z₀ : Buf K), b.size = n → y₀.size = n → z₀.size = n →
      ∃ h₂ y h₃ z, solve junk b y₀ trans rk h₁ = (h₂, .ok y) ∧ solve junk' b z₀ trans rk h' = (h₃, .ok z) ∧ y.size = n ∧ z.size = n ∧ ∀ i, i < n → z.get i = y.get i := by
  intro h₁ e1 hm same
  have hx : ∀ P ∈ h₁.precs, Exportable P := fun P hP => by
    have := C80_factorized e o hc x dense junk ijunk opts hsy A raw n hA hnz h P
    rw [e1] at this
    exact this hP (hm P hP)
  refine ⟨exists_reimported_all same _ hx, ?_⟩
  intro junk' h' hre hr' hn1 hn2 trans b y₀ z₀ hb hy hz
  have hgood : ∃ S : CS K, Prec.Good rk (mat A.rowMajor S) S.psize h₁.precs n := by
    rcases C86_factorize e o hc x dense junk ijunk opts hsy A raw n hA hnz (fun S a b c d => (hd S a b c d).imp id fun k => k.1) h with
      ⟨h'', S, k1, k2, k3, k4⟩ | ⟨h'', msg, S, k1, -⟩
    · rw [e1] at k1
      cases k1
      refine ⟨S, k4 rk fun h0 => ?_⟩
      obtain ⟨s1, s2, s3, s4⟩ := k3 h0
      rcases hd S s1 s2 s3 h0 with ⟨msg, hmsg⟩ | hok
      · rw [hmsg] at s4; cases s4
      · exact hok.2
    · rw [e1] at k1
      cases k1
  obtain ⟨S, hg⟩ := hgood
  obtain ⟨Z, -, -, z3, -⟩ := C86_sizes e o hc x dense junk ijunk opts hsy A raw n hA hnz h
  obtain ⟨ps, st, hfr⟩ := factorize_frame junk ijunk (givenKernels e o x (opts.pivot == .auto) A.rowMajor dense Z) opts A 0 h
  rw [← z3, e1] at hfr
  have hfr : h₁ = _ := hfr
  have hready : Ready h₁ := by
    left
    rw [hfr]
    show (if h.empty then h.work else ⟨0, junk⟩ : Buf K).size = 0
    split
    · rename_i hc; exact hw hc
    · rfl
  have hn : (if trans then h₁.nspTran else h₁.nsp) = none := by
    rw [hfr]
    cases trans
    · exact hns
    · exact hnt
  have hn' : (if trans then h'.nspTran else h'.nsp) = none := by cases trans <;> [exact hn1; exact hn2]
  exact C80_rebuilt_solves same junk junk' h₁ h' rk _ _ n hg hx hre hready hr' trans hn hn' b y₀ z₀ hb hy hz

end nonsym

section symm
variable {K R : Type} [Field K] [StarRing K] [DecidableEq K] [Inhabited K] [Field R] [LinearOrder R] [IsStrictOrderedRing R] [FloorSemiring R]
variable (e : Env K R) (o : Level.Opts R) (hc : SymmContract e o) (x : SymmPar K R) (dense : Bool → CS K → DenseOps K × Option Err) (junk : Nat → K)
  (ijunk : Nat → Int) (opts : FacOpts) (hsy : opts.isSymm = true) (A : Input K) (raw : RawCS) (n : Nat) (hA : ValidSquare A ijunk raw n) (hnz : 0 < A.vals.size)
  (hsym : SymMat n (mat A.rowMajor (raw.toCS n A.vals))) (hpat : (raw.toCS n A.vals).PatSym)
include hc hsy hA hnz hsym hpat

/-- **C80 (after symmetric `factorize`).** -/
theorem C80_factorized_symm (h : HIF K) : ∀ P ∈ (sizedFactorize junk ijunk (sizedKernels e o x (opts.pivot == .auto) A.rowMajor dense) (Sizes.init true A.rowMajor)
    (Sizes.next true) opts A 0 h).1.precs, P.m ≠ 0 → Exportable P := by
  obtain ⟨Z, z1, z2, z3, z4, z5⟩ := sized_run_symm e o hc x dense junk ijunk opts hsy A raw n hA hnz hsym hpat h
  rw [z3]
  intro P hP hm
  obtain ⟨-, lvl, hok, -, ht⟩ := z4.all P hP
  obtain ⟨t1, t2, t3, t4⟩ := ht hm
  exact ⟨hok, t1, t2, t3, t4⟩

end symm

end Hif.Props

namespace Hif.Props.ExExport
open Hif Level Spec HIF HM Finset ExLevel ExSymm ExFill

/-! ### examples -/

/-- A dense solver for blocks of one row. -/
def ops1 (S : CS ℚ) : DenseOps ℚ :=
  { solve := fun y _ _ => pure ⟨1, fun i => y.get i / mat true S 0 0⟩
    multiply := fun y _ _ => pure ⟨1, fun i => mat true S 0 0 * y.get i⟩
    solveMrhs := fun _ y _ => pure y
    rank := 1 }

def dense1 (_s : Bool) (S : CS ℚ) : DenseOps ℚ × Option Err :=
  (ops1 S, if S.psize = 1 ∧ mat true S 0 0 ≠ 0 then none else some (.hif "singular"))

theorem dense1_exact (rk : Nat) (S : CS ℚ) :
    (∃ msg, (dense1 false S).2 = some (.hif msg)) ∨ ((dense1 false S).2 = none ∧ Prec.DenseExact rk S.psize (mat true S) (dense1 false S).1) := by
  by_cases hs : S.psize = 1 ∧ mat true S 0 0 ≠ 0
  · right
    obtain ⟨h1, h0⟩ := hs
    refine ⟨if_pos ⟨h1, h0⟩, ?_⟩
    rw [h1]
    refine ⟨fun y hy => ⟨_, rfl, rfl, fun i hi => ?_⟩, fun y hy => ⟨_, rfl, rfl, fun i hi => ?_⟩, fun y hy => ⟨_, rfl, rfl, fun i hi => ?_⟩, fun y hy => ⟨_, rfl, rfl, fun i hi => ?_⟩⟩
    all_goals
      obtain rfl : i = 0 := by omega
      simp [mulVec, herm]
    all_goals field_simp
  · left
    exact ⟨"singular", if_neg hs⟩

def par1 : SymmPar ℚ ℚ := ⟨fun a => a, 1⟩

/-- A run on the matrix with rows `(2,0,1)`, `(0,4,1)`, `(1,1,0)`. -/
def run1 : HIF ℚ × Except Err Unit :=
  sizedFactorize (fun _ => 55) (fun _ => 0) (sizedKernels env optsF par1 false true dense1) (Sizes.init false true) (Sizes.next false) ⟨.off, false, -1, true⟩ in3 0 (new fun _ => 55)

/-- One level, which eliminates two unknowns; the run completes; the answers of `inquire_sizes`. -/
theorem run1_levels : (run1.1.precs.map fun P => (P.n, P.m)) = [(3, 2)] ∧ run1.2 = .ok () ∧
    (run1.1.precs.map fun P => _root_.Hif.Export.sizes P) = [(2, 3, 0, 0, 2, 2)] := by
  decide +kernel

/-- Non-vacuity of C80 (after `factorize`): all hypotheses hold for this run. -/
example (same : Bool) : ∃ ps, List.Forall₂ (Reimported same) run1.1.precs ps := by
  refine (C80_factorized_solves env optsF contractF par1 dense1 (fun _ => 55) (fun _ => 0) ⟨.off, false, -1, true⟩ rfl in3 raw3 3 valid3 (by decide) 0
    (fun S _ _ _ _ => dense1_exact 0 S) (new fun _ => 55) (fun _ => rfl) rfl rfl run1.1 ?_ ?_ same).1
  · show run1 = _
    rw [← run1_levels.2.1]
  · intro P hP
    have h := run1_levels.1
    have : (P.n, P.m) ∈ [(3, 2)] := h ▸ List.mem_map_of_mem (f := fun P : Prec ℚ => (P.n, P.m)) hP
    simp at this
    omega

end Hif.Props.ExExport
