import Verif.BuilderLemmas
import Verif.Examples
import Mathlib.Algebra.Field.Rat
import Mathlib.Tactic.NormNum
import Mathlib.Tactic.Linarith

set_option linter.unusedSectionVars false
set_option linter.unusedVariables false

/-!
# C27, C28: solving and multiplying with a multilevel preconditioner

`Prec.Good r S kf precs k` (PrecLemmas.lean) says: `precs` is a complete chain of levels for a `k × k` system — every level has
consistent storage, strictly triangular `L`, `U`, nonzero pivots and scalings, `p`, `q` permutations with their inverses — that
ends in a final `kf × kf` dense block with matrix `S` whose dense solver is exact for requested rank `r`.
`HIF.Ready` says the work space is either not allocated yet or large enough (C30 shows when that holds).
-/

namespace Hif.Props
open Finset Spec HIF
variable {K : Type _} [Field K] [StarRing K]

section
variable (junk : Nat → K) (h : HIF K) (r : Nat) (S : Nat → Nat → K) (kf k : Nat) (hg : Prec.Good r S kf h.precs k)
  (hr : Ready h) (trans : Bool) (hn : (if trans then h.nspTran else h.nsp) = none)
include hg hr hn

/-- C27: `solve` inverts `mmultiply` — for any number of levels and any block sizes, plain or Hermitian-transposed,
`solve(mmultiply(x)) = x`, and both calls complete without an out-of-range access. -/
theorem C27_solve_mmultiply (x y₀ z₀ : Buf K) (hx : x.size = k) (hy : y₀.size = k) (hz : z₀.size = k) :
    ∃ h₁ y h₂ z, mmultiply junk x y₀ trans r h = (h₁, .ok y) ∧ solve junk y z₀ trans r h₁ = (h₂, .ok z) ∧
      y.size = k ∧ z.size = k ∧ ∀ i, i < k → z.get i = x.get i := by
  obtain ⟨h₁, y, e1, ⟨w, hw, rfl⟩, s1, a1⟩ := mmultiply_does (junk := junk) hg hr trans x y₀ hx hy
  obtain ⟨h₂, z, e2, -, s2, a2⟩ := solve_does (junk := junk) (h := { h with work := w }) hg (Or.inr hw) trans hn y z₀ s1 hz
  refine ⟨_, y, h₂, z, e1, e2, s1, s2, ?_⟩
  cases trans with
  | false => exact Applies.unique_x hg.injective.1 hg.chain a2 a1 (fun _ _ => rfl)
  | true => exact Applies.unique_x hg.injective.2 (Prec.adj_chain hg.chain) a2 a1 (fun _ _ => rfl)

/-- C27: `mmultiply` inverts `solve`: `mmultiply(solve(b)) = b`. -/
theorem C27_mmultiply_solve (b y₀ z₀ : Buf K) (hb : b.size = k) (hy : y₀.size = k) (hz : z₀.size = k) :
    ∃ h₁ y h₂ z, solve junk b y₀ trans r h = (h₁, .ok y) ∧ mmultiply junk y z₀ trans r h₁ = (h₂, .ok z) ∧
      y.size = k ∧ z.size = k ∧ ∀ i, i < k → z.get i = b.get i := by
  obtain ⟨h₁, y, e1, ⟨w, hw, rfl⟩, s1, a1⟩ := solve_does (junk := junk) hg hr trans hn b y₀ hb hy
  obtain ⟨h₂, z, e2, -, s2, a2⟩ := mmultiply_does (junk := junk) (h := { h with work := w }) hg (Or.inr hw) trans y z₀ s1 hz
  refine ⟨_, y, h₂, z, e1, e2, s1, s2, ?_⟩
  cases trans with
  | false => exact Applies.unique_b hg.chain a2 a1 (fun _ _ => rfl)
  | true => exact Applies.unique_b (Prec.adj_chain hg.chain) a2 a1 (fun _ _ => rfl)

/-- C27, in terms of the factors: `solve` returns the exact solution of the block system
`P^T S M T Q = [[B, F], [E, E B⁻¹ F + S_C]]`, `B = (I+L) D (I+U)`, level by level (`Spec.Applies`). -/
theorem C27_solve_spec (ht : trans = false) (b y₀ : Buf K) (hb : b.size = k) (hy : y₀.size = k) :
    ∃ h₁ y, solve junk b y₀ trans r h = (h₁, .ok y) ∧ y.size = k ∧
      Applies S (h.precs.map Prec.toLevel) k y.get b.get := by
  subst ht
  obtain ⟨h₁, y, e1, -, s1, a1⟩ := solve_does (junk := junk) hg hr false hn b y₀ hb hy
  exact ⟨h₁, y, e1, s1, a1⟩

end

/-- Scalings are real (they are arrays of the real scalar type in the code). -/
def RealScalings (precs : List (Prec K)) : Prop := ∀ P ∈ precs, (∀ i, star (P.s.get i) = P.s.get i) ∧ ∀ i, star (P.t.get i) = P.t.get i

section
variable (junk : Nat → K) (h : HIF K) (r : Nat) (S : Nat → Nat → K) (kf k : Nat) (hg : Prec.Good r S kf h.precs k)
  (hr : Ready h) (hreal : RealScalings h.precs)
include hg hr hreal

/-- C28 (solve): the Hermitian-transposed solve is the adjoint of the solve: `⟨c, solve(b)⟩ = ⟨solve_tran(c), b⟩`. -/
theorem C28_solve_adjoint (hn : h.nsp = none) (hn' : h.nspTran = none) (b c y₀ z₀ : Buf K) (hb : b.size = k) (hc : c.size = k)
    (hy : y₀.size = k) (hz : z₀.size = k) :
    ∃ h₁ x h₂ z, solve junk b y₀ false r h = (h₁, .ok x) ∧ solve junk c z₀ true r h₁ = (h₂, .ok z) ∧
      ip k c.get x.get = ip k z.get b.get := by
  obtain ⟨h₁, x, e1, ⟨w, hw, rfl⟩, s1, a1⟩ := solve_does (junk := junk) hg hr false hn b y₀ hb hy
  obtain ⟨h₂, z, e2, -, s2, a2⟩ := solve_does (junk := junk) (h := { h with work := w }) hg (Or.inr hw) true hn' c z₀ hc hz
  refine ⟨_, x, h₂, z, e1, e2, ?_⟩
  refine (Applies.adjoint hg.chain ?_ a1 a2).symm
  intro v hv
  obtain ⟨P, hP, rfl⟩ := List.mem_map.1 hv
  exact hreal P hP

/-- C28 (product): the Hermitian-transposed product is the adjoint of the product: `⟨z, M x⟩ = ⟨M^H z, x⟩`. -/
theorem C28_mmultiply_adjoint (x z y₀ z₀ : Buf K) (hx : x.size = k) (hz : z.size = k)
    (hy : y₀.size = k) (hz₀ : z₀.size = k) :
    ∃ h₁ b h₂ c, mmultiply junk x y₀ false r h = (h₁, .ok b) ∧ mmultiply junk z z₀ true r h₁ = (h₂, .ok c) ∧
      ip k z.get b.get = ip k c.get x.get := by
  obtain ⟨h₁, b, e1, ⟨w, hw, rfl⟩, s1, a1⟩ := mmultiply_does (junk := junk) hg hr false x y₀ hx hy
  obtain ⟨h₂, c, e2, -, s2, a2⟩ := mmultiply_does (junk := junk) (h := { h with work := w }) hg (Or.inr hw) true z z₀ hz hz₀
  refine ⟨_, b, h₂, c, e1, e2, ?_⟩
  refine Applies.adjoint hg.chain ?_ a1 a2
  intro v hv
  obtain ⟨P, hP, rfl⟩ := List.mem_map.1 hv
  exact hreal P hP

end

/-! ## Non-vacuity: a two-level preconditioner of a 3×3 system -/

namespace Ex
open Hif.Ex

/-- First level: `m = 2`, `n = 3`. -/
def P1 : Prec ℚ :=
  { m := 2, n := 3, L := mk 2 2 [0, 1, 1] [1] [4], d := Buf.ofList [2, -1], U := mk 2 2 [0, 0, 1] [0] [2],
    E := mk 2 1 [0, 1, 2] [0, 0] [1, 3], F := mk 1 2 [0, 1] [0] [5], s := Buf.ofList [1, 2, 3], t := Buf.ofList [1, 1/2, 1],
    p := Buf.ofList [2, 0, 1], pinv := Buf.ofList [1, 2, 0], q := Buf.ofList [1, 0, 2], qinv := Buf.ofList [1, 0, 2],
    last := .none }

/-- The exact dense solver of the 1×1 block `[7]`. -/
def D7 : DenseOps ℚ :=
  { solve := fun y _ _ => pure ⟨1, fun _ => y.get 0 / 7⟩, multiply := fun y _ _ => pure ⟨1, fun _ => y.get 0 * 7⟩,
    solveMrhs := fun N y _ => pure ⟨N, fun i => y.get i / 7⟩, rank := 1 }

/-- Second level: `m = 0`, `n = 1`, dense block `[7]`. -/
def P2 : Prec ℚ :=
  { m := 0, n := 1, L := mk 0 0 [0] [] [], d := Buf.ofList [], U := mk 0 0 [0] [] [], E := mk 0 1 [0] [] [], F := mk 1 0 [0, 0] [] [],
    s := Buf.ofList [2], t := Buf.ofList [3], p := Buf.ofList [0], pinv := Buf.ofList [0], q := Buf.ofList [0],
    qinv := Buf.ofList [0], last := .dense D7 }

theorem P1_ok : P1.OK := by
  constructor
  case L_wf => constructor <;> decide
  case U_wf => constructor <;> decide
  case E_wf => exact fun _ => ⟨by constructor <;> decide, rfl, rfl⟩
  case F_wf => exact fun _ => ⟨by constructor <;> decide, rfl⟩
  case p_inv => exact ⟨by decide, by decide⟩
  case q_inv => exact ⟨by decide, by decide⟩
  case lower => unfold StrictLower; decide +kernel
  case upper => unfold StrictUpper; decide +kernel
  case d_ne => decide +kernel
  case s_ne => decide +kernel
  case t_ne => decide +kernel
  all_goals decide

theorem P2_ok : P2.OK := by
  constructor
  case L_wf => constructor <;> decide
  case U_wf => constructor <;> decide
  case E_wf => exact fun _ => ⟨by constructor <;> decide, rfl, rfl⟩
  case F_wf => exact fun _ => ⟨by constructor <;> decide, rfl⟩
  case p_inv => exact ⟨by decide, by decide⟩
  case q_inv => exact ⟨by decide, by decide⟩
  case lower => unfold StrictLower; decide +kernel
  case upper => unfold StrictUpper; decide +kernel
  case d_ne => decide +kernel
  case s_ne => decide +kernel
  case t_ne => decide +kernel
  all_goals decide

theorem D7_exact : Prec.DenseExact 0 1 (fun _ _ => (7 : ℚ)) D7 := by
  have h0 : ∀ i, i < 1 → i = 0 := by omega
  constructor
  all_goals
    intro y hy
    refine ⟨_, rfl, rfl, fun i hi => ?_⟩
    rw [h0 i hi]
    simp [mulVec, herm]
  all_goals ring

theorem good : Prec.Good 0 (fun _ _ => (7 : ℚ)) 1 [P1, P2] 3 :=
  ⟨rfl, P1_ok, rfl, P2_ok, rfl, rfl, D7_exact⟩

/-- The object with these two levels satisfies all hypotheses of C27 and C28. -/
example : Prec.Good 0 (fun _ _ => (7 : ℚ)) 1 (HIF.mk [P1, P2] ⟨0, fun _ => (0 : ℚ)⟩ none none (fun _ => 0) 3 3).precs 3 ∧
    Ready (HIF.mk [P1, P2] ⟨0, fun _ => (0 : ℚ)⟩ none none (fun _ => 0) 3 3) ∧ RealScalings [P1, P2] :=
  ⟨good, Or.inl rfl, fun P _ => ⟨fun _ => rfl, fun _ => rfl⟩⟩

end Ex

end Hif.Props
