import Verif.Builder

set_option linter.unusedSectionVars false
set_option linter.unusedVariables false
set_option linter.unusedSimpArgs false

/-! # Helper lemmas about the user-level object -/

namespace Hif
open Finset Spec
variable {K : Type _} [Field K] [StarRing K]

namespace Spec

/-- If `A^H` hits every right-hand side then `A` is injective. -/
theorem injective_of_herm_surj {k : Nat} {A : Nat → Nat → K}
    (h : ∀ y : Nat → K, ∃ x, ∀ i, i < k → mulVec k (herm A) x i = y i) : Injective k A := by
  intro x y hxy i hi
  obtain ⟨w, hw⟩ := h fun j => if j = i then 1 else 0
  have e : ip k w (mulVec k A x) = ip k w (mulVec k A y) := ip_congr (fun _ _ => rfl) hxy
  rw [ip_mulVec, ip_mulVec, ip_congr hw (fun _ _ => rfl), ip_congr (v := y) hw (fun _ _ => rfl)] at e
  have key : ∀ v : Nat → K, ip k (fun j => if j = i then (1 : K) else 0) v = v i := by
    intro v
    unfold ip
    rw [sum_eq_single i]
    · simp
    · intro j _ hj; simp [hj]
    · intro hh; exact absurd (mem_range.2 hi) hh
  rwa [key, key] at e

end Spec

namespace Prec

theorem LastOK.injective {r kf : Nat} {S : Nat → Nat → K} {l : Last K} (h : LastOK r kf S l) :
    Injective kf S ∧ Injective kf (herm S) := by
  have mk : ∀ (D : Buf K → M (Buf K)) (T : Nat → Nat → K),
      (∀ y : Buf K, y.size = kf → Runs (D y) fun x => x.size = kf ∧ ∀ i, i < kf → mulVec kf T x.get i = y.get i) →
      ∀ y : Nat → K, ∃ x, ∀ i, i < kf → mulVec kf T x i = y i := by
    intro D T hD y
    obtain ⟨x, -, -, hx⟩ := hD ⟨kf, y⟩ rfl
    exact ⟨x.get, hx⟩
  cases l with
  | none =>
    have h : kf = 0 := h
    subst h
    exact ⟨fun _ _ _ i hi => by omega, fun _ _ _ i hi => by omega⟩
  | dense D =>
    refine ⟨injective_of_herm_surj (mk (fun y => D.solve y r true) _ h.solveT), injective_of_herm_surj ?_⟩
    rw [herm_herm]
    exact mk (fun y => D.solve y r false) _ h.solve
  | symm D =>
    have e : ∀ x i, i < kf → mulVec kf (herm S) x i = mulVec kf S x i := by
      intro x i hi
      unfold mulVec
      exact sum_congr rfl fun j hj => by rw [h.1 i j hi (mem_range.1 hj)]
    have h1 : Injective kf S := injective_of_herm_surj fun y => by
      obtain ⟨x, hx⟩ := mk (fun y => D.solve y r false) _ h.2.1 y
      exact ⟨x, fun i hi => by rw [e x i hi, hx i hi]⟩
    exact ⟨h1, fun x y hxy => h1 x y fun i hi => by rw [← e x i hi, ← e y i hi, hxy i hi]⟩

theorem Good.lastOK {r : Nat} {S : Nat → Nat → K} {kf : Nat} : ∀ {precs : List (Prec K)} {k : Nat},
    Good r S kf precs k → ∃ P ∈ precs, LastOK r kf S P.last
  | [], _, h => h.elim
  | P :: rest, k, ⟨_, _, h3⟩ => by
    split at h3
    · exact ⟨P, by simp, h3.2.2⟩
    · obtain ⟨Q, h1, h2⟩ := Good.lastOK h3
      exact ⟨Q, by simp [h1], h2⟩

theorem Good.injective {r : Nat} {S : Nat → Nat → K} {kf : Nat} {precs : List (Prec K)} {k : Nat}
    (h : Good r S kf precs k) : Injective kf S ∧ Injective kf (herm S) := by
  obtain ⟨P, -, hP⟩ := h.lastOK
  exact hP.injective

theorem Good.ne_nil {r : Nat} {S : Nat → Nat → K} {kf : Nat} {precs : List (Prec K)} {k : Nat}
    (h : Good r S kf precs k) : precs ≠ [] := by
  rintro rfl; exact h

end Prec

namespace HIF
open HM

/-- The work space is unallocated or large enough. -/
def Ready (h : HIF K) : Prop := h.work.size = 0 ∨ Prec.workSpace h.precs ≤ h.work.size

theorem ensureWork_does (junk : Nat → K) (h : HIF K) (hr : Ready h) {Q : HIF K → Buf K → Prop}
    (hQ : ∀ w, Prec.workSpace h.precs ≤ w.size → Q { h with work := w } w) :
    Does (ensureWork junk (Prec.workSpace h.precs)) h Q := by
  unfold ensureWork Does
  beta_reduce
  by_cases c : h.work.size = 0
  · rw [if_pos c]
    exact ⟨_, _, rfl, hQ _ (le_refl _)⟩
  · rw [if_neg c]
    have hh := hr.resolve_left c
    exact ⟨_, _, rfl, hQ h.work hh⟩

theorem withWork_does {α : Type _} (f : Buf K → M (α × Buf K)) (w : Buf K) (h : HIF K) {Q : HIF K → α → Prop}
    (hf : Runs (f w) fun o => Q { h with work := ⟨w.size, o.2.get⟩ } o.1) : Does (withWork f w) h Q := by
  obtain ⟨⟨a, w'⟩, e, q⟩ := hf
  exact ⟨_, _, by unfold withWork; rw [e], q⟩

/-- Main lemma: what `solve` does without a filter. -/
theorem solve_does {junk : Nat → K} {h : HIF K} {r : Nat} {S : Nat → Nat → K} {kf k : Nat} (hg : Prec.Good r S kf h.precs k)
    (hr : Ready h) (trans : Bool) (hn : (if trans then h.nspTran else h.nsp) = none) (b x : Buf K)
    (hb : b.size = k) (hx : x.size = k) :
    Does (solve junk b x trans r) h fun h' y => (∃ w, Prec.workSpace h.precs ≤ w.size ∧ h' = { h with work := w }) ∧
      y.size = k ∧ if trans then Applies (herm S) ((h.precs.map Prec.toLevel).map Level.adj) k y.get b.get
        else Applies S (h.precs.map Prec.toLevel) k y.get b.get := by
  unfold solve
  rw [does_bind, does_read]
  have he : h.empty = false := by
    unfold empty
    cases hp : h.precs with
    | nil => exact absurd hp hg.ne_nil
    | cons => rfl
  simp only [he, Bool.false_eq_true, if_false]
  rw [if_neg (by omega), does_bind]
  refine ensureWork_does junk h hr fun w hw => ?_
  rw [does_bind]
  refine withWork_does _ _ _ ?_
  have run : Runs (if trans = true then Prec.solveT r h.precs b x w else Prec.solve r h.precs b x w) fun o =>
      o.1.size = k ∧ o.2.size = w.size ∧
      if trans then Applies (herm S) ((h.precs.map Prec.toLevel).map Level.adj) k o.1.get b.get
        else Applies S (h.precs.map Prec.toLevel) k o.1.get b.get := by
    cases trans with
    | false => exact Prec.solve_runs hg b x w (by omega) hx hw
    | true => exact Prec.solveT_runs hg b x w (by omega) hx hw
  refine run.mono ?_
  rintro ⟨y, w'⟩ ⟨h1, h2, h3⟩
  have hf : h.applyFilter trans y = .ok y := by
    unfold applyFilter
    cases trans
    · have : h.nsp = none := hn
      simp [this]; rfl
    · have : h.nspTran = none := hn
      simp [this]; rfl
  rw [does_lift, hf, runs_ok]
  have h2 : w'.size = w.size := h2
  exact ⟨⟨⟨w.size, w'.get⟩, hw, rfl⟩, h1, h3⟩

/-- Main lemma: what `mmultiply` does. -/
theorem mmultiply_does {junk : Nat → K} {h : HIF K} {r : Nat} {S : Nat → Nat → K} {kf k : Nat} (hg : Prec.Good r S kf h.precs k)
    (hr : Ready h) (trans : Bool) (x y : Buf K) (hx : x.size = k) (hy : y.size = k) :
    Does (mmultiply junk x y trans r) h fun h' z => (∃ w, Prec.workSpace h.precs ≤ w.size ∧ h' = { h with work := w }) ∧
      z.size = k ∧ if trans then Applies (herm S) ((h.precs.map Prec.toLevel).map Level.adj) k x.get z.get
        else Applies S (h.precs.map Prec.toLevel) k x.get z.get := by
  unfold mmultiply
  rw [does_bind, does_read]
  have he : h.empty = false := by
    unfold empty
    cases hp : h.precs with
    | nil => exact absurd hp hg.ne_nil
    | cons => rfl
  simp only [he, Bool.false_eq_true, if_false]
  rw [if_neg (by omega), does_bind]
  refine ensureWork_does junk h hr fun w hw => ?_
  refine withWork_does _ _ _ ?_
  have run : Runs (if trans = true then Prec.prodT r h.precs x y w else Prec.prod r h.precs x y w) fun o =>
      o.1.size = k ∧ o.2.size = w.size ∧
      if trans then Applies (herm S) ((h.precs.map Prec.toLevel).map Level.adj) k x.get o.1.get
        else Applies S (h.precs.map Prec.toLevel) k x.get o.1.get := by
    cases trans with
    | false => exact Prec.prod_runs hg x y w (by omega) hy hw
    | true => exact Prec.prodT_runs hg x y w (by omega) hy hw
  refine run.mono ?_
  rintro ⟨z, w'⟩ ⟨h1, h2, h3⟩
  have h2 : w'.size = w.size := h2
  exact ⟨⟨⟨w.size, w'.get⟩, hw, rfl⟩, h1, h3⟩

end HIF
end Hif
