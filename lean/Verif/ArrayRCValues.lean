import Verif.ArrayRCStep

set_option linter.unusedVariables false

/-! # Contents of reference-counted arrays -/

namespace Hif
namespace RC

variable {α : Type _}

theorem bind_ok {β γ : Type _} {m : M β} {f : β → M γ} {b : γ} (h : (m >>= f) = .ok b) : ∃ a, m = .ok a ∧ f a = .ok b := by
  cases m with
  | error e => exact absurd h (by intro h; cases h)
  | ok a => exact ⟨a, rfl, h⟩

theorem pure_ok {β : Type _} {a b : β} (h : (pure a : M β) = .ok b) : a = b := by injection h

/-- Memory that is not freed keeps its contents. -/
structure Kp (h h' : Heap α) : Prop where
  usr : h'.usr = h.usr
  nb : h.nb ≤ h'.nb
  blk : ∀ b, b < h.nb → h'.blk b ≠ none → h'.blk b = h.blk b

theorem Kp.rfl {h : Heap α} : Kp h h := ⟨Eq.refl _, le_refl _, fun _ _ _ => Eq.refl _⟩

theorem Kp.trans {h h' h'' : Heap α} (a : Kp h h') (b : Kp h' h'') : Kp h h'' :=
  ⟨b.usr.trans a.usr, a.nb.trans b.nb, fun i hi hne => by
    have e := b.blk i (lt_of_lt_of_le hi a.nb) hne
    rw [e]
    exact a.blk i hi (by rw [← e]; exact hne)⟩

theorem Kp.mem {h h' : Heap α} (k : Kp h h') {b : Nat} (hb : b < h.nb) {B : Buf α} (e : h'.blk b = some B) : h.blk b = some B := by
  rw [← k.blk b hb (by rw [e]; simp)]; exact e

theorem newCount_kp (h : Heap α) : Kp h (newCount h).2 := ⟨rfl, le_refl _, fun _ _ _ => rfl⟩

theorem newBlk_kp (B : Buf α) (h : Heap α) : Kp h (newBlk B h).2 :=
  ⟨rfl, Nat.le_succ _, fun b hb _ => upd_ne _ _ (Nat.ne_of_lt hb)⟩

theorem delBlk_kp {p : Ptr} {h h' : Heap α} (e : delBlk p h = .ok h') : Kp h h' := by
  cases p with
  | usr _ => simp [delBlk, throw, throwThe, MonadExceptOf.throw] at e
  | own b =>
    unfold delBlk at e
    cases hb : h.blk b with
    | none => simp [hb, throw, throwThe, MonadExceptOf.throw] at e
    | some B =>
      simp only [hb] at e
      have := pure_ok e
      subst this
      refine ⟨rfl, le_refl _, fun b' _ hne => ?_⟩
      by_cases e' : b' = b
      · subst e'; exact absurd (upd_same _ _ _) hne
      · exact upd_ne _ _ e'

theorem decCount_kp {c : Option Nat} {h h' : Heap α} (e : decCount c h = .ok h') : Kp h h' := by
  cases c with
  | none => have := pure_ok e; subst this; exact Kp.rfl
  | some c =>
    obtain ⟨r, -, e⟩ := bind_ok e
    split at e
    · simp [throw, throwThe, MonadExceptOf.throw] at e
    · have := pure_ok e; subst this; exact ⟨rfl, le_refl _, fun _ _ _ => rfl⟩

theorem incCount_kp {c : Option Nat} {h h' : Heap α} (e : incCount c h = .ok h') : Kp h h' := by
  cases c with
  | none => simp [incCount, throw, throwThe, MonadExceptOf.throw] at e
  | some c =>
    obtain ⟨r, -, e⟩ := bind_ok e
    have := pure_ok e; subst this; exact ⟨rfl, le_refl _, fun _ _ _ => rfl⟩

theorem freeData_kp {a : Arr} {h h' : Heap α} (e : freeData a h = .ok h') : Kp h h' := by
  unfold freeData at e
  split at e
  · split at e
    · obtain ⟨r, -, e⟩ := bind_ok e
      split at e
      · exact delBlk_kp e
      · have := pure_ok e; subst this; exact Kp.rfl
    · have := pure_ok e; subst this; exact Kp.rfl
  · have := pure_ok e; subst this; exact Kp.rfl

theorem freeCount_kp {c : Option Nat} {h : Heap α} {r : Option Nat × Heap α} (e : freeCount c h = .ok r) : Kp h r.2 := by
  cases c with
  | none => have := pure_ok e; subst this; exact Kp.rfl
  | some c =>
    obtain ⟨r, -, e⟩ := bind_ok e
    split at e
    · have := pure_ok e; subst this; exact ⟨rfl, le_refl _, fun _ _ _ => rfl⟩
    · have := pure_ok e; subst this; exact Kp.rfl

theorem dtor_kp {a : Arr} {h : Heap α} {r : Arr × Heap α} (e : dtor a h = .ok r) : Kp h r.2 := by
  obtain ⟨h1, e1, e⟩ := bind_ok e
  obtain ⟨h2, e2, e⟩ := bind_ok e
  obtain ⟨r3, e3, e⟩ := bind_ok e
  have := pure_ok e; subst this
  exact ((decCount_kp e1).trans (freeData_kp e2)).trans (freeCount_kp e3)

theorem resize_kp {n : Nat} {presv : Bool} {d : α} {ok : Bool} {a : Arr} {h : Heap α} {r : Arr × Heap α} (e : resize n presv d ok a h = .ok r) : Kp h r.2 := by
  unfold resize at e
  split at e
  · have := pure_ok e; subst this; exact Kp.rfl
  split at e
  · obtain ⟨B, -, e⟩ := bind_ok e
    obtain ⟨r2, e2, e⟩ := bind_ok e
    have := pure_ok e; subst this
    exact ((newBlk_kp B h).trans (dtor_kp e2)).trans (newCount_kp _)
  · obtain ⟨r2, e2, e⟩ := bind_ok e
    have := pure_ok e; subst this
    exact (dtor_kp e2).trans (newCount_kp _)

theorem reserve_kp {n : Nat} {d : α} {ok : Bool} {a : Arr} {h : Heap α} {r : Arr × Heap α} (e : reserve n d ok a h = .ok r) : Kp h r.2 := by
  unfold reserve at e
  split at e
  · have := pure_ok e; subst this; exact Kp.rfl
  split at e
  · obtain ⟨B, -, e⟩ := bind_ok e
    obtain ⟨r2, e2, e⟩ := bind_ok e
    have := pure_ok e; subst this
    exact ((newBlk_kp B h).trans (dtor_kp e2)).trans (newCount_kp _)
  · obtain ⟨r2, e2, e⟩ := bind_ok e
    have := pure_ok e; subst this
    exact (dtor_kp e2).trans (newCount_kp _)

/-- Operations that write elements. -/
def writes : Op α → Prop
  | .write _ _ _ => True
  | .push _ _ _ => True
  | .append _ _ _ => True
  | _ => False

/-- The objects an operation may change. -/
def targets : Op α → List Nat
  | .new x => [x]
  | .newN x _ _ _ => [x]
  | .newCopy x _ _ _ => [x]
  | .wrap x _ _ => [x]
  | .share x _ => [x]
  | .clone x _ => [x]
  | .move x y => [x, y]
  | .assign x _ => [x]
  | .moveAssign x y => [x, y]
  | .swap x y => [x, y]
  | .resize x _ _ _ => [x]
  | .reserve x _ _ => [x]
  | .push x _ _ => [x]
  | .append x _ _ => [x]
  | .write _ _ _ => []
  | .steal x => [x]
  | .destroy x => [x]

variable [Inhabited α]

/-- An operation that writes no elements leaves all memory that remains allocated as it is. -/
theorem step_kp {o : Op α} (hw : ¬ writes o) {s s' : State α} (e : step o s = .ok s') : Kp s.heap s'.heap := by
  cases o with
  | write => exact absurd trivial hw
  | push => exact absurd trivial hw
  | append => exact absurd trivial hw
  | new x => have := pure_ok e; subst this; exact newCount_kp _
  | newN x n v ok =>
    have := pure_ok e; subst this
    cases ok
    · exact newCount_kp _
    · exact (newBlk_kp _ _).trans (newCount_kp _)
  | newCopy x n p ok =>
    obtain ⟨r, e1, e⟩ := bind_ok e
    have := pure_ok e; subst this
    cases ok
    · have := pure_ok e1; subst this; exact newCount_kp _
    · obtain ⟨B, -, e1⟩ := bind_ok e1
      have := pure_ok e1; subst this
      exact (newCount_kp _).trans (newBlk_kp _ _)
  | wrap x n p => have := pure_ok e; subst this; exact newCount_kp _
  | share x y =>
    obtain ⟨o, -, e⟩ := bind_ok e
    obtain ⟨r, e1, e⟩ := bind_ok e
    have := pure_ok e; subst this
    obtain ⟨h1, e2, e1⟩ := bind_ok e1
    have := pure_ok e1; subst this
    exact incCount_kp e2
  | clone x y =>
    obtain ⟨o, -, e⟩ := bind_ok e
    obtain ⟨r, e1, e⟩ := bind_ok e
    have := pure_ok e; subst this
    obtain ⟨B, -, e1⟩ := bind_ok e1
    have := pure_ok e1; subst this
    exact (newCount_kp _).trans (newBlk_kp _ _)
  | move x y =>
    obtain ⟨o, -, e⟩ := bind_ok e
    have := pure_ok e; subst this; exact Kp.rfl
  | assign x y =>
    obtain ⟨a, -, e⟩ := bind_ok e
    obtain ⟨o, -, e⟩ := bind_ok e
    obtain ⟨r, e1, e⟩ := bind_ok e
    have := pure_ok e; subst this
    unfold assign at e1
    split at e1
    · obtain ⟨r1, e2, e1⟩ := bind_ok e1
      obtain ⟨h2, e3, e1⟩ := bind_ok e1
      have := pure_ok e1; subst this
      exact (dtor_kp e2).trans (incCount_kp e3)
    · have := pure_ok e1; subst this; exact Kp.rfl
  | moveAssign x y =>
    obtain ⟨a, -, e⟩ := bind_ok e
    obtain ⟨o, -, e⟩ := bind_ok e
    obtain ⟨r, e1, e⟩ := bind_ok e
    have := pure_ok e; subst this
    unfold moveAssign at e1
    split at e1
    · obtain ⟨r1, e2, e1⟩ := bind_ok e1
      have := pure_ok e1; subst this
      exact dtor_kp e2
    · have := pure_ok e1; subst this; exact Kp.rfl
  | swap x y =>
    obtain ⟨a, -, e⟩ := bind_ok e
    obtain ⟨o, -, e⟩ := bind_ok e
    have := pure_ok e; subst this; exact Kp.rfl
  | resize x n presv ok =>
    obtain ⟨a, -, e⟩ := bind_ok e
    obtain ⟨r, e1, e⟩ := bind_ok e
    have := pure_ok e; subst this
    exact resize_kp e1
  | reserve x n ok =>
    obtain ⟨a, -, e⟩ := bind_ok e
    obtain ⟨r, e1, e⟩ := bind_ok e
    have := pure_ok e; subst this
    exact reserve_kp e1
  | steal x =>
    obtain ⟨a, -, e⟩ := bind_ok e
    obtain ⟨r, e1, e⟩ := bind_ok e
    have := pure_ok e; subst this
    unfold steal at e1
    split at e1
    · have := pure_ok e1; subst this; exact Kp.rfl
    · split at e1
      · simp [throw, throwThe, MonadExceptOf.throw] at e1
      · obtain ⟨q, -, e1⟩ := bind_ok e1
        have := pure_ok e1; subst this
        exact ⟨rfl, le_refl _, fun _ _ _ => rfl⟩
  | destroy x =>
    obtain ⟨a, -, e⟩ := bind_ok e
    obtain ⟨r, e1, e⟩ := bind_ok e
    have := pure_ok e; subst this
    exact dtor_kp e1

/-- An operation changes no other object. -/
theorem step_var {o : Op α} {s s' : State α} (e : step o s = .ok s') {y : Nat} (hy : y ∉ targets o) : s'.var y = s.var y := by
  cases o <;> simp only [targets, List.mem_cons, List.not_mem_nil, or_false, not_or, not_false_eq_true] at hy
  case new x => have := pure_ok e; subst this; exact upd_ne _ _ hy
  case newN x n v ok => have := pure_ok e; subst this; exact upd_ne _ _ hy
  case wrap x n v => have := pure_ok e; subst this; exact upd_ne _ _ hy
  case newCopy x n p ok =>
    obtain ⟨r, -, e⟩ := bind_ok e
    have := pure_ok e; subst this; exact upd_ne _ _ hy
  case move =>
    obtain ⟨o, -, e⟩ := bind_ok e
    have := pure_ok e; subst this; exact (upd_ne _ _ hy.2).trans (upd_ne _ _ hy.1)
  case swap =>
    obtain ⟨a, -, e⟩ := bind_ok e
    obtain ⟨o, -, e⟩ := bind_ok e
    have := pure_ok e; subst this; exact (upd_ne _ _ hy.2).trans (upd_ne _ _ hy.1)
  case moveAssign =>
    obtain ⟨a, -, e⟩ := bind_ok e
    obtain ⟨o, -, e⟩ := bind_ok e
    obtain ⟨r, -, e⟩ := bind_ok e
    have := pure_ok e; subst this; exact (upd_ne _ _ hy.2).trans (upd_ne _ _ hy.1)
  case assign =>
    obtain ⟨a, -, e⟩ := bind_ok e
    obtain ⟨o, -, e⟩ := bind_ok e
    obtain ⟨r, -, e⟩ := bind_ok e
    have := pure_ok e; subst this; exact upd_ne _ _ hy
  case write =>
    obtain ⟨a, -, e⟩ := bind_ok e
    obtain ⟨r, -, e⟩ := bind_ok e
    have := pure_ok e; subst this; rfl
  all_goals
    obtain ⟨a, -, e⟩ := bind_ok e
    obtain ⟨r, -, e⟩ := bind_ok e
    have := pure_ok e; subst this; exact upd_ne _ _ hy

end RC
end Hif
