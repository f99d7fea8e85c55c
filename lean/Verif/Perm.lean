import Verif.Slice
import Verif.Spec
import Mathlib.Logic.Equiv.Basic
import Mathlib.Data.Fintype.Card
import Mathlib.Data.List.Sublists

set_option linter.unusedSectionVars false
set_option linter.unusedVariables false

/-!
# Permutation matrices (src/hif/ds/PermMatrix.hpp)
-/

namespace Hif

/-- `std::swap(b[i], b[j])`. -/
def Buf.swap {α : Type _} (b : Buf α) (i j : Nat) : M (Buf α) := do
  let x ← b.rd i
  let y ← b.rd j
  let b ← b.wr i y
  b.wr j x

/-- `BiPermMatrix`: the permutation vector `_p` and the inverse mapping `_p_inv` (PermMatrix.hpp 48–121, 127–224). -/
structure BiPerm where
  p : Buf Nat
  inv : Buf Nat

namespace BiPerm

/-- `BiPermMatrix::make_eye` (101–104, 181–185): identity and copy. -/
def makeEye (P : BiPerm) : M BiPerm := do
  let p ← forUp 0 P.p.size P.p fun i p => p.wr i i
  let inv ← forUp 0 p.size P.inv fun i inv => do
    let v ← p.rd i
    inv.wr i v
  pure { p := p, inv := inv }

/-- `BiPermMatrix::build_inv` (190–194). -/
def buildInv (P : BiPerm) : M BiPerm := do
  let inv ← forUp 0 P.p.size P.inv fun i inv => do
    let v ← P.p.rd i
    inv.wr v i
  pure { P with inv := inv }

/-- `BiPermMatrix::interchange` (96–98, 199–202). -/
def interchange (P : BiPerm) (i j : Nat) : M BiPerm := do
  let p ← P.p.swap i j
  let a ← p.rd i
  let b ← p.rd j
  let inv ← P.inv.swap a b
  pure { p := p, inv := inv }

/-- `BiPermMatrix::interchange_inv` (207–210). -/
def interchangeInv (P : BiPerm) (i j : Nat) : M BiPerm := do
  let inv ← P.inv.swap i j
  let a ← inv.rd i
  let b ← inv.rd j
  let p ← P.p.swap a b
  pure { p := p, inv := inv }

/-- `is_eye` (107–110): `_p.front() == 0 && std::is_sorted(_p)`. -/
def isEye (P : BiPerm) : M Bool :=
  if P.p.size ≠ 0 then do
    let f ← P.p.rd 0
    if f = 0 then
      forUp 1 P.p.size true fun k acc => do
        let y ← P.p.rd k
        let x ← P.p.rd (k - 1)
        pure (acc && decide (x ≤ y))
    else pure false
  else pure true

/-- One call on a permutation object. -/
inductive Op where
  | makeEye
  | buildInv
  | interchange (i j : Nat)
  | interchangeInv (i j : Nat)

/-- Dispatch. -/
def Op.run (P : BiPerm) : Op → M BiPerm
  | .makeEye => P.makeEye
  | .buildInv => P.buildInv
  | .interchange i j => P.interchange i j
  | .interchangeInv i j => P.interchangeInv i j

/-- A history of calls. -/
def runAll : List Op → BiPerm → M BiPerm
  | [], P => pure P
  | o :: l, P => o.run P >>= runAll l

/-! ### proofs -/

theorem swap_runs {α : Type _} (b : Buf α) (i j : Nat) (hi : i < b.size) (hj : j < b.size) :
    Runs (b.swap i j) fun c => c.size = b.size ∧ ∀ k, c.get k = b.get (if k = i then j else if k = j then i else k) := by
  unfold Buf.swap
  simp only [runs_bind, runs_rd, runs_wr, Buf.set_size, Buf.set_get]
  refine ⟨hi, hj, hi, hj, trivial, fun k => ?_⟩
  by_cases h1 : k = j
  · subst h1
    by_cases h2 : k = i
    · subst h2; simp
    · simp [h2]
  · by_cases h2 : k = i
    · subst h2; simp [h1]
    · simp [h1, h2]

/-- Sizes agree and the two maps are mutually inverse. -/
def Good (n : Nat) (P : BiPerm) : Prop := P.p.size = n ∧ P.inv.size = n ∧ Spec.Inverse n P.p.get P.inv.get

theorem makeEye_runs (n : Nat) (P : BiPerm) (h1 : P.p.size = n) (h2 : P.inv.size = n) :
    Runs P.makeEye fun Q => Q.p.size = n ∧ Q.inv.size = n ∧ ∀ i, i < n → Q.p.get i = i ∧ Q.inv.get i = i := by
  unfold makeEye
  simp only [runs_bind]
  refine forUp_runs' (fun i (p : Buf Nat) => p.size = n ∧ ∀ k, k < i → p.get k = k) (Nat.zero_le _)
    ⟨h1, fun k hk => by omega⟩ ?_ ?_
  · rintro i p - hi ⟨p1, p2⟩
    simp only [runs_wr, Buf.set_size, Buf.set_get]
    refine ⟨by omega, p1, fun k hk => ?_⟩
    by_cases e : k = i
    · rw [if_pos e]; exact e.symm
    · rw [if_neg e]; exact p2 k (by omega)
  rintro p ⟨p1, p2⟩
  rw [h1] at p2
  refine forUp_runs' (fun i (q : Buf Nat) => q.size = n ∧ ∀ k, k < i → q.get k = k) (Nat.zero_le _)
    ⟨h2, fun k hk => by omega⟩ ?_ ?_
  · rintro i q - hi ⟨q1, q2⟩
    simp only [runs_bind, runs_rd, runs_wr, Buf.set_size, Buf.set_get]
    refine ⟨by omega, by omega, q1, fun k hk => ?_⟩
    by_cases e : k = i
    · rw [if_pos e, p2 i (by omega), e]
    · rw [if_neg e]; exact q2 k (by omega)
  rintro q ⟨q1, q2⟩
  simp only [runs_pure]
  exact ⟨p1, q1, fun i hi => ⟨p2 i hi, q2 i (by omega)⟩⟩

theorem buildInv_runs (n : Nat) (P : BiPerm) (h1 : P.p.size = n) (h2 : P.inv.size = n)
    (hp : Spec.IsPerm n P.p.get) :
    Runs P.buildInv fun Q => Q.p = P.p ∧ Good n Q := by
  unfold buildInv
  simp only [runs_bind]
  refine forUp_runs' (fun i (q : Buf Nat) => q.size = n ∧ ∀ k, k < i → q.get (P.p.get k) = k) (Nat.zero_le _)
    ⟨h2, fun k hk => by omega⟩ ?_ ?_
  · rintro i q - hi ⟨q1, q2⟩
    have := hp.1 i (by omega)
    simp only [runs_bind, runs_rd, runs_wr, Buf.set_size, Buf.set_get]
    refine ⟨by omega, by omega, q1, fun k hk => ?_⟩
    by_cases e : k = i
    · rw [e, if_pos rfl]
    · rw [if_neg (fun e' => e (hp.2 k i (by omega) (by omega) e'))]; exact q2 k (by omega)
  rintro q ⟨q1, q2⟩
  rw [h1] at q2
  simp only [runs_pure]
  refine ⟨trivial, h1, q1, fun i hi => ⟨hp.1 i hi, q2 i hi⟩, fun i hi => ?_⟩
  -- surjectivity of an injective self map
  have hsurj : ∃ k, k < n ∧ P.p.get k = i := by
    let f : Fin n → Fin n := fun k => ⟨P.p.get k, hp.1 k k.2⟩
    have hf : Function.Injective f := fun a b hab => Fin.ext (hp.2 a b a.2 b.2 (congrArg Fin.val hab))
    obtain ⟨k, hk⟩ := Finite.surjective_of_injective hf ⟨i, hi⟩
    exact ⟨k, k.2, congrArg Fin.val hk⟩
  obtain ⟨k, k1, k2⟩ := hsurj
  have := q2 k k1
  rw [k2] at this
  simp only
  rw [this]
  exact ⟨k1, k2⟩

theorem inverse_symm {n : Nat} {f g : Nat → Nat} (h : Spec.Inverse n f g) : Spec.Inverse n g f := ⟨h.2, h.1⟩

theorem inverse_isPerm {n : Nat} {f g : Nat → Nat} (h : Spec.Inverse n f g) : Spec.IsPerm n f :=
  ⟨fun i hi => (h.1 i hi).1, fun i j hi hj e => by rw [← (h.1 i hi).2, e, (h.1 j hj).2]⟩

/-- Exchanging two arguments of one map and the two corresponding values of the other keeps them inverse. -/
theorem inverse_swap {n : Nat} {f g : Nat → Nat} (h : Spec.Inverse n f g) {i j : Nat} (hi : i < n) (hj : j < n)
    {f' g' : Nat → Nat}
    (hf : ∀ k, f' k = f (if k = i then j else if k = j then i else k))
    (hg : ∀ k, g' k = g (if k = f j then f i else if k = f i then f j else k)) : Spec.Inverse n f' g' := by
  have inj : ∀ a b, a < n → b < n → f a = f b → a = b := (inverse_isPerm h).2
  obtain ⟨h1, h2⟩ := h
  refine ⟨fun k hk => ?_, fun k hk => ?_⟩
  · rw [hg, hf]
    by_cases a : k = i
    · subst a
      simp only [if_true]
      exact ⟨(h1 j hj).1, (h1 k hi).2⟩
    · by_cases b : k = j
      · subst b
        simp only [if_neg a, if_true]
        refine ⟨(h1 i hi).1, ?_⟩
        by_cases c : f i = f k
        · exact absurd (inj i k hi hk c).symm a
        · rw [if_neg c]; exact (h1 k hk).2
      · rw [if_neg a, if_neg b, if_neg (fun e => b (inj _ _ hk hj e)), if_neg (fun e => a (inj _ _ hk hi e))]
        exact h1 k hk
  · rw [hg]
    have key : ∀ x, x < n → g x = i ∨ g x = j ∨ (g x ≠ i ∧ g x ≠ j) := fun x _ => by
      by_cases a : g x = i
      · exact Or.inl a
      · by_cases b : g x = j
        · exact Or.inr (Or.inl b)
        · exact Or.inr (Or.inr ⟨a, b⟩)
    by_cases a : k = f j
    · rw [if_pos a, (h1 i hi).2]
      refine ⟨hi, ?_⟩
      rw [hf, if_pos rfl, a]
    · rw [if_neg a]
      by_cases b : k = f i
      · rw [if_pos b, (h1 j hj).2]
        refine ⟨hj, ?_⟩
        rw [hf]
        by_cases c : j = i
        · subst c; simp [b]
        · rw [if_neg c, if_pos rfl, b]
      · rw [if_neg b]
        refine ⟨(h2 k hk).1, ?_⟩
        rw [hf, if_neg (fun e => b (by rw [← (h2 k hk).2, e])), if_neg (fun e => a (by rw [← (h2 k hk).2, e]))]
        exact (h2 k hk).2

theorem interchange_runs (n : Nat) (P : BiPerm) (h : Good n P) (i j : Nat) (hi : i < n) (hj : j < n) :
    Runs (P.interchange i j) fun Q => Good n Q ∧
      ∀ k, Q.p.get k = P.p.get (if k = i then j else if k = j then i else k) := by
  obtain ⟨h1, h2, h3⟩ := h
  unfold interchange
  simp only [runs_bind]
  refine (swap_runs P.p i j (by omega) (by omega)).mono ?_
  rintro p ⟨p1, p2⟩
  simp only [runs_rd]
  have ei : p.get i = P.p.get j := by rw [p2, if_pos rfl]
  have ej : p.get j = P.p.get i := by
    rw [p2]; by_cases c : j = i
    · subst c; simp
    · rw [if_neg c, if_pos rfl]
  have bi := (h3.1 i hi).1
  have bj := (h3.1 j hj).1
  refine ⟨by omega, by omega, ?_⟩
  rw [ei, ej]
  refine (swap_runs P.inv _ _ (by omega) (by omega)).mono ?_
  rintro inv ⟨q1, q2⟩
  simp only [runs_pure]
  exact ⟨⟨p1.trans h1, q1.trans h2, inverse_swap h3 hi hj p2 q2⟩, p2⟩

theorem interchangeInv_runs (n : Nat) (P : BiPerm) (h : Good n P) (i j : Nat) (hi : i < n) (hj : j < n) :
    Runs (P.interchangeInv i j) fun Q => Good n Q ∧
      ∀ k, Q.inv.get k = P.inv.get (if k = i then j else if k = j then i else k) := by
  have hg : Good n ⟨P.inv, P.p⟩ := ⟨h.2.1, h.1, inverse_symm h.2.2⟩
  obtain ⟨Q, q1, q2, q3⟩ := interchange_runs n ⟨P.inv, P.p⟩ hg i j hi hj
  refine ⟨⟨Q.inv, Q.p⟩, ?_, ⟨q2.2.1, q2.1, inverse_symm q2.2.2⟩, q3⟩
  unfold interchange at q1
  unfold interchangeInv
  simp only [bind, Except.bind, pure, Except.pure] at q1 ⊢
  cases e1 : P.inv.swap i j with
  | error e => rw [e1] at q1; simp at q1
  | ok a =>
    rw [e1] at q1
    simp only at q1 ⊢
    cases e2 : a.rd i with
    | error e => rw [e2] at q1; simp at q1
    | ok x =>
      rw [e2] at q1
      simp only at q1 ⊢
      cases e3 : a.rd j with
      | error e => rw [e3] at q1; simp at q1
      | ok y =>
        rw [e3] at q1
        simp only at q1 ⊢
        cases e4 : P.p.swap x y with
        | error e => rw [e4] at q1; simp at q1
        | ok z =>
          rw [e4] at q1
          simp only at q1 ⊢
          injection q1 with q1
          rw [← q1]

theorem isEye_runs (n : Nat) (P : BiPerm) (h1 : P.p.size = n) (hp : Spec.IsPerm n P.p.get) :
    Runs P.isEye fun b => b = true ↔ ∀ i, i < n → P.p.get i = i := by
  unfold isEye
  by_cases hn : n = 0
  · rw [if_neg (by omega)]
    simp only [runs_pure, true_iff]
    intro i hi; omega
  rw [if_pos (by omega)]
  simp only [runs_bind, runs_rd, runs_ite, runs_pure]
  refine ⟨by omega, ?_⟩
  split
  · rename_i h0
    refine forUp_runs' (fun t r => r = true ↔ ∀ k, 1 ≤ k → k < t → P.p.get (k - 1) ≤ P.p.get k) (by omega) ?_ ?_ ?_
    · simp only [true_iff]; intro k a b; omega
    · intro k r a b hr
      simp only [runs_bind, runs_rd, runs_pure, Bool.and_eq_true, decide_eq_true_eq, hr]
      refine ⟨by omega, by omega, ?_, ?_⟩
      · rintro ⟨x, y⟩ l l1 l2
        rcases Nat.lt_or_ge l k with h3 | h3
        · exact x l l1 h3
        · rw [show l = k by omega]; exact y
      · intro x
        exact ⟨fun l l1 l2 => x l l1 (by omega), x k (by omega) (by omega)⟩
    · intro r hr
      rw [hr, h1]
      constructor
      · intro hs
        -- strictly increasing, hence `p i ≥ i`; bounded, hence identity
        have hst : ∀ k, k + 1 < n → P.p.get k < P.p.get (k + 1) := by
          intro k hk
          have := hs (k + 1) (by omega) hk
          rw [Nat.add_sub_cancel] at this
          rcases Nat.lt_or_ge (P.p.get k) (P.p.get (k + 1)) with h | h
          · exact h
          · have := hp.2 k (k + 1) (by omega) hk (by omega); omega
        have lb : ∀ i, i < n → i ≤ P.p.get i := by
          intro i
          induction i with
          | zero => intro _; exact Nat.zero_le _
          | succ i ih => intro hi; have := hst i hi; have := ih (by omega); omega
        have ub : ∀ d i, i + d + 1 = n → P.p.get i ≤ i := by
          intro d
          induction d with
          | zero => intro i hi; have := hp.1 i (by omega); omega
          | succ d ih => intro i hi; have := hst i (by omega); have := ih (i + 1) (by omega); omega
        intro i hi
        exact le_antisymm (ub (n - 1 - i) i (by omega)) (lb i hi)
      · intro hid k k1 k2
        rw [hid k k2, hid (k - 1) (by omega)]; omega
  · rename_i h0
    simp only [Bool.false_eq_true, false_iff]
    intro hid
    exact h0 (hid 0 (by omega))

end BiPerm
end Hif
