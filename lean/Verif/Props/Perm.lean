import Verif.Perm

/-!
# C16: permutation objects
-/

namespace Hif.Props
open Hif

/-- The call's arguments are valid entry numbers of a permutation of size `n`. -/
def permArgsOk (n : Nat) : BiPerm.Op → Prop
  | .interchange i j => i < n ∧ j < n
  | .interchangeInv i j => i < n ∧ j < n
  | _ => True

/-- Effect of one call, on the forward map `f` and inverse map `g`, as documented: identity; unchanged; `f` with entries
`i`,`j` exchanged; `g` with entries `i`,`j` exchanged. -/
def permEffect (n : Nat) (o : BiPerm.Op) (f g f' g' : Nat → Nat) : Prop :=
  match o with
  | .makeEye => ∀ i, i < n → f' i = i
  | .buildInv => ∀ i, i < n → f' i = f i
  | .interchange i j => f' i = f j ∧ f' j = f i ∧ ∀ k, k ≠ i → k ≠ j → f' k = f k
  | .interchangeInv i j => g' i = g j ∧ g' j = g i ∧ ∀ k, k ≠ i → k ≠ j → g' k = g k

/-- C16, one call: from a consistent object every call with in-range arguments succeeds, has its documented effect and
leaves a consistent object (forward and inverse maps are mutually inverse bijections of `[0,n)`). -/
theorem C16_step (n : Nat) (P : BiPerm) (h1 : P.p.size = n) (h2 : P.inv.size = n)
    (h3 : Spec.Inverse n P.p.get P.inv.get) (o : BiPerm.Op) (ho : permArgsOk n o) :
    ∃ Q, o.run P = .ok Q ∧ Q.p.size = n ∧ Q.inv.size = n ∧ Spec.Inverse n Q.p.get Q.inv.get ∧
      permEffect n o P.p.get P.inv.get Q.p.get Q.inv.get := by
  cases o with
  | makeEye =>
    obtain ⟨Q, q0, q1, q2, q3⟩ := BiPerm.makeEye_runs n P h1 h2
    refine ⟨Q, q0, q1, q2, ⟨fun i hi => ?_, fun i hi => ?_⟩, fun i hi => (q3 i hi).1⟩
    · rw [(q3 i hi).1]; exact ⟨hi, (q3 i hi).2⟩
    · rw [(q3 i hi).2]; exact ⟨hi, (q3 i hi).1⟩
  | buildInv =>
    obtain ⟨Q, q0, q1, q2, q3, q4⟩ := BiPerm.buildInv_runs n P h1 h2 (BiPerm.inverse_isPerm h3)
    exact ⟨Q, q0, q2, q3, q4, fun i _ => by rw [q1]⟩
  | interchange i j =>
    obtain ⟨Q, q0, ⟨q1, q2, q3⟩, q4⟩ := BiPerm.interchange_runs n P ⟨h1, h2, h3⟩ i j ho.1 ho.2
    refine ⟨Q, q0, q1, q2, q3, ?_, ?_, fun k a b => ?_⟩
    · rw [q4, if_pos rfl]
    · rw [q4]; by_cases c : j = i
      · subst c; simp
      · rw [if_neg c, if_pos rfl]
    · rw [q4, if_neg a, if_neg b]
  | interchangeInv i j =>
    obtain ⟨Q, q0, ⟨q1, q2, q3⟩, q4⟩ := BiPerm.interchangeInv_runs n P ⟨h1, h2, h3⟩ i j ho.1 ho.2
    refine ⟨Q, q0, q1, q2, q3, ?_, ?_, fun k a b => ?_⟩
    · rw [q4, if_pos rfl]
    · rw [q4]; by_cases c : j = i
      · subst c; simp
      · rw [if_neg c, if_pos rfl]
    · rw [q4, if_neg a, if_neg b]

/-- C16: for every object of size `n` (whatever its contents), `make_eye` followed by any history of calls with in-range
arguments succeeds and leaves forward and inverse maps that are mutually inverse bijections. -/
theorem C16_history (n : Nat) (P : BiPerm) (h1 : P.p.size = n) (h2 : P.inv.size = n) (ops : List BiPerm.Op)
    (ho : ∀ o ∈ ops, permArgsOk n o) :
    ∃ Q, BiPerm.runAll (.makeEye :: ops) P = .ok Q ∧ Q.p.size = n ∧ Q.inv.size = n ∧
      Spec.Inverse n Q.p.get Q.inv.get := by
  have gen : ∀ (ops : List BiPerm.Op), (∀ o ∈ ops, permArgsOk n o) → ∀ P : BiPerm, P.p.size = n → P.inv.size = n →
      Spec.Inverse n P.p.get P.inv.get → ∃ Q, BiPerm.runAll ops P = .ok Q ∧ Q.p.size = n ∧ Q.inv.size = n ∧
        Spec.Inverse n Q.p.get Q.inv.get := by
    intro ops
    induction ops with
    | nil => intro _ P a b c; exact ⟨P, rfl, a, b, c⟩
    | cons o ops ih =>
      intro ho P a b c
      obtain ⟨Q, q0, q1, q2, q3, -⟩ := C16_step n P a b c o (ho o (by simp))
      obtain ⟨S, s0, s1⟩ := ih (fun x hx => ho x (by simp [hx])) Q q1 q2 q3
      refine ⟨S, ?_, s1⟩
      simp only [BiPerm.runAll, q0]; exact s0
  obtain ⟨Q, q0, q1, q2, q3⟩ := BiPerm.makeEye_runs n P h1 h2
  have hinv : Spec.Inverse n Q.p.get Q.inv.get := by
    refine ⟨fun i hi => ?_, fun i hi => ?_⟩
    · rw [(q3 i hi).1]; exact ⟨hi, (q3 i hi).2⟩
    · rw [(q3 i hi).2]; exact ⟨hi, (q3 i hi).1⟩
  obtain ⟨S, s0, s1⟩ := gen ops ho Q q1 q2 hinv
  refine ⟨S, ?_, s1⟩
  simp only [BiPerm.runAll, BiPerm.Op.run, q0]; exact s0

/-- C16: whatever was in the inverse map, `build_inv` on a bijection makes it the inverse and keeps the bijection. -/
theorem C16_build_inv (n : Nat) (P : BiPerm) (h1 : P.p.size = n) (h2 : P.inv.size = n) (hp : Spec.IsPerm n P.p.get) :
    ∃ Q, P.buildInv = .ok Q ∧ Q.p = P.p ∧ Spec.Inverse n Q.p.get Q.inv.get := by
  obtain ⟨Q, q0, q1, q2, q3, q4⟩ := BiPerm.buildInv_runs n P h1 h2 hp
  exact ⟨Q, q0, q1, q4⟩

/-- C16: on every bijection, `is_eye` answers yes exactly when it is the identity. -/
theorem C16_is_eye (n : Nat) (P : BiPerm) (h1 : P.p.size = n) (hp : Spec.IsPerm n P.p.get) :
    ∃ b, P.isEye = .ok b ∧ (b = true ↔ ∀ i, i < n → P.p.get i = i) :=
  BiPerm.isEye_runs n P h1 hp

/-- Non-vacuity of C16: a history on an object of size 4 with arbitrary initial contents. -/
example : ((BiPerm.runAll [.makeEye, .interchange 0 2, .interchangeInv 1 2, .interchange 3 3]
    ⟨Buf.ofList [7, 7, 7, 7], Buf.ofList [9, 9, 9, 9]⟩).map fun Q => (Q.p.toList, Q.inv.toList)) =
    .ok ([1, 2, 0, 3], [2, 0, 1, 3]) := by decide
example : (BiPerm.isEye ⟨Buf.ofList [0, 1, 2], Buf.ofList []⟩, BiPerm.isEye ⟨Buf.ofList [0, 2, 1], Buf.ofList []⟩) =
    (.ok true, .ok false) := by decide

end Hif.Props
