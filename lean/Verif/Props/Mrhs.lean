import Verif.History
import Verif.Props.Prec

set_option linter.unusedSectionVars false
set_option linter.unusedVariables false

/-!
# C29, C30: multiple right-hand sides and the work space
-/

namespace Hif.Props
open Finset Spec HIF
variable {K : Type _} [Field K] [StarRing K]

/-- C29 (partial: one level without dense block): every column of `solve_mrhs` is what `solve` returns for that column.
Missing: levels with a Schur complement, where the code is wrong (`C29_witness`). -/
theorem C29_single_level_partial (junk : Nat → K) (h : HIF K) (P : Prec K) (hP : h.precs = [P]) (ok : P.OK) (hmn : P.m = P.n)
    (hl : P.last = .none) (hn : h.nsp = none) (r N : Nat) (hN : 0 < N) (hr : ReadyFor N h) (b x₀ : Buf K)
    (hb : b.size = P.n * N) (hx : x₀.size = P.n * N) :
    ∃ h₁ X, solveMrhs junk N b x₀ r h = (h₁, .ok X) ∧ X.size = P.n * N ∧
      ∀ c, c < N → ∀ y₀ : Buf K, y₀.size = P.n →
        ∃ h₂ y, solve junk ⟨P.n, fun i => b.get (i * N + c)⟩ y₀ false r h = (h₂, .ok y) ∧
          ∀ i, i < P.n → X.get (i * N + c) = y.get i := by
  have good : Prec.Good r (fun _ _ => (0 : K)) 0 h.precs P.n := by
    rw [hP]
    refine ⟨rfl, ok, ?_⟩
    have : P.isLast = true := by unfold Prec.isLast; simp [hmn]
    rw [if_pos this]
    refine ⟨rfl, by omega, ?_⟩
    rw [hl]
    rfl
  have hR : Ready h := by
    rcases hr with hr | hr
    · exact Or.inl hr
    · exact Or.inr (le_trans (Nat.le_mul_of_pos_right _ hN) hr)
  have hw : Prec.workSpace h.precs = P.n := by rw [hP]; rfl
  have run : HM.Does (solveMrhs junk N b x₀ r) h fun h₁ X => X.size = P.n * N ∧
      ∀ c, c < N → Applies (fun _ _ => (0 : K)) [P.toLevel] P.n (fun i => X.get (i * N + c)) (fun i => b.get (i * N + c)) := by
    unfold solveMrhs
    rw [HM.does_bind, HM.does_read]
    have he : h.empty = false := by unfold empty; rw [hP]; rfl
    simp only [he, Bool.false_eq_true, if_false, hn, Option.isSome_none]
    rw [if_neg (by omega), HM.does_bind, hw]
    have key : ∀ w : Buf K, P.n * N ≤ w.size → HM.Does (withWork (Prec.solveMrhs N r h.precs b x₀) w) { h with work := w }
        fun h₁ X => X.size = P.n * N ∧
        ∀ c, c < N → Applies (fun _ _ => (0 : K)) [P.toLevel] P.n (fun i => X.get (i * N + c)) (fun i => b.get (i * N + c)) := by
      intro w hw
      refine withWork_does _ _ _ ?_
      rw [hP]
      refine (Prec.solveMrhs_runs ok hmn N r (fun _ _ => 0) b x₀ w hb hx hw).mono ?_
      rintro o ⟨h1, h2, h3⟩
      exact ⟨h1, h3⟩
    unfold ensureWork HM.Does
    beta_reduce
    by_cases c : h.work.size = 0
    · rw [if_pos c]
      exact ⟨_, _, rfl, key _ (le_refl _)⟩
    · rw [if_neg c]
      have hh := hr.resolve_left c
      rw [hw] at hh
      exact ⟨_, _, rfl, key h.work hh⟩
  obtain ⟨h₁, X, e, s, a⟩ := run
  refine ⟨h₁, X, e, s, fun c hc y₀ hy => ?_⟩
  obtain ⟨h₂, y, e2, -, s2, a2⟩ := solve_does (junk := junk) good hR false hn ⟨P.n, fun i => b.get (i * N + c)⟩ y₀ rfl hy
  refine ⟨h₂, y, e2, ?_⟩
  have ch := good.chain
  rw [hP] at ch
  rw [hP] at a2
  exact Applies.unique_x good.injective.1 ch (a c hc) a2 (fun _ _ => rfl)

/-- C29 fails when the last level has a dense block: on the one-level preconditioner whose dense block is the 1×1 matrix `[7]`
(scalings 2 and 3), `solve` returns `6/7` for the right-hand side `1` while `solve_mrhs` with one column returns three times
whatever the uninitialised work space held, for every right-hand side. -/
theorem C29_witness (j : ℚ) (b : Buf ℚ) (hb : b.size = 1) :
    let h : HIF ℚ := ⟨[Ex.P2], ⟨0, fun _ => j⟩, none, none, fun _ => 0, 1, 1⟩
    (solveMrhs (fun _ => j) 1 b ⟨1, fun _ => 0⟩ 0 h).2.map (·.get 0) = .ok (3 * j) ∧
    (solve (fun _ => j) b ⟨1, fun _ => 0⟩ false 0 h).2.map (·.get 0) = .ok (3 * (2 * b.get 0 / 7)) := by
  obtain ⟨n, g⟩ := b
  simp only at hb
  subst hb
  intro h
  refine ⟨rfl, ?_⟩
  rw [← sub_zero (2 * _)]
  rfl

/-- C30 (partial: single-vector calls): after every history of calls on an object — any number of factorizations (complete or
failed), clears, solves, products, refinements and multi-column solves with any number ≥ 1 of columns — whenever the object
holds a complete factorization, `solve` and `mmultiply` find enough work space: they complete without touching memory
outside of it. -/
theorem C30_single_calls_partial (junk : Nat → K) (nr nc : Nat) (st : Nat → Nat) (cs : List (Call K))
    (hc : ∀ c ∈ cs, ∀ w, c.width = some w → 1 ≤ w) (r : Nat) (S : Nat → Nat → K) (kf k : Nat) (trans : Bool) (b x : Buf K)
    (hb : b.size = k) (hx : x.size = k) :
    let h := run junk (HIF.new junk nr nc st) cs
    Prec.Good r S kf h.precs k → (if trans then h.nspTran else h.nsp) = none →
    (h.work.size = 0 ∨ Prec.workSpace h.precs ≤ h.work.size) ∧
    (∃ h₁ y, solve junk b x trans r h = (h₁, .ok y)) ∧ ∃ h₁ y, mmultiply junk b x trans r h = (h₁, .ok y) := by
  intro h hg hn
  have hf : Fits 1 h := fits_run junk cs hc _ ⟨Or.inl rfl, fun _ => rfl⟩
  have hr : Ready h := by
    rcases hf.1 with e | e
    · exact Or.inl e
    · exact Or.inr (by rwa [Nat.mul_one] at e)
  obtain ⟨h₁, y, e1, -⟩ := solve_does (junk := junk) hg hr trans hn b x hb hx
  obtain ⟨h₂, z, e2, -⟩ := mmultiply_does (junk := junk) hg hr trans b x hb hx
  exact ⟨hr, ⟨h₁, y, e1⟩, ⟨h₂, z, e2⟩⟩

/-- C30 (partial: multi-column calls): if no call of the history works on fewer than `N` columns at once, the work space is
unallocated or holds `N` times the scalars the recursion needs.  Missing: histories with narrower calls, for which the claim is
false (`C30_witness`, `C30_witness_widths`). -/
theorem C30_multi_calls_partial (junk : Nat → K) (nr nc : Nat) (st : Nat → Nat) (N : Nat) (cs : List (Call K))
    (hc : ∀ c ∈ cs, ∀ w, c.width = some w → N ≤ w) :
    let h := run junk (HIF.new junk nr nc st) cs
    h.work.size = 0 ∨ Prec.workSpace h.precs * N ≤ h.work.size :=
  (fits_run junk cs hc _ ⟨Or.inl rfl, fun _ => rfl⟩).1

namespace Ex
open Hif.Ex

/-- A one-level preconditioner of a 2×2 system, `m = n = 2`, no dense block. -/
def P3 : Prec ℚ :=
  { m := 2, n := 2, L := mk 2 2 [0, 1, 1] [1] [4], d := Buf.ofList [2, -1], U := mk 2 2 [0, 0, 1] [0] [2],
    E := mk 2 0 [0, 0, 0] [] [], F := mk 0 2 [0] [] [], s := Buf.ofList [1, 2], t := Buf.ofList [1, 1/2],
    p := Buf.ofList [1, 0], pinv := Buf.ofList [1, 0], q := Buf.ofList [0, 1], qinv := Buf.ofList [0, 1], last := .none }

theorem P3_ok : P3.OK := by
  constructor
  case L_wf => constructor <;> decide
  case U_wf => constructor <;> decide
  case E_wf => exact fun h => absurd h (by decide)
  case F_wf => exact fun h => absurd h (by decide)
  case p_inv => exact ⟨by decide, by decide⟩
  case q_inv => exact ⟨by decide, by decide⟩
  case lower => unfold StrictLower; decide +kernel
  case upper => unfold StrictUpper; decide +kernel
  case d_ne => decide +kernel
  case s_ne => decide +kernel
  case t_ne => decide +kernel
  all_goals decide

/-- The hypotheses of `C29_single_level_partial` hold of an object with this level. -/
example : P3.OK ∧ P3.m = P3.n ∧ P3.last = .none ∧
    ReadyFor 2 (HIF.mk [P3] ⟨0, fun _ => (0 : ℚ)⟩ none none (fun _ => 0) 2 2) := ⟨P3_ok, rfl, rfl, Or.inl rfl⟩

end Ex

/-- An object freshly factorized into the valid level `Ex.P3`. -/
def exHistory (rest : List (Call ℚ)) : HIF ℚ :=
  run (fun _ => 0) (HIF.new (fun _ => 0) 0 0 fun _ => 0) (.factorize [Ex.P3] 2 2 (fun _ => 0) :: rest)

/-- C30 fails after a narrower call: `solve` followed by `solve_mrhs` with two columns writes outside of the work space. -/
theorem C30_witness : (solveMrhs (fun _ => 0) 2 ⟨4, fun _ => 1⟩ ⟨4, fun _ => 0⟩ 0
    (exHistory [.solve ⟨2, fun _ => 1⟩ ⟨2, fun _ => 0⟩ false 0])).2.map (·.get 0) = .error .oob := by decide +kernel

/-- The same for two multi-column solves, first with two columns, then with three. -/
theorem C30_witness_widths : (solveMrhs (fun _ => 0) 3 ⟨6, fun _ => 1⟩ ⟨6, fun _ => 0⟩ 0
    (exHistory [.solveMrhs 2 ⟨4, fun _ => 1⟩ ⟨4, fun _ => 0⟩ 0])).2.map (·.get 0) = .error .oob := by decide +kernel

/-- …while on the freshly factorized object the same call completes (non-vacuity of the history model). -/
example : (solveMrhs (fun _ => 0) 3 ⟨6, fun _ => 1⟩ ⟨6, fun _ => 0⟩ 0 (exHistory [])).2.map (·.get 0) = .ok (-13) := by
  decide +kernel

end Hif.Props
