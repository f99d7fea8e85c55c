import Verif.DenseMat
import Verif.Props.ArrayRC
import Mathlib.Tactic.Ring

set_option linter.unusedVariables false

/-!
# C89: dense matrices

`Permitted s o` says, in the terms of a user of `DenseMatrix`, when an operation is allowed; `Reached` are the states after permitted histories.  `Live` are
objects that have not been moved from.
-/

namespace Hif
namespace Spec
open RC Dense

variable {α : Type} [Inhabited α]

/-- The object exists and has not been moved from; wrapped memory is there. -/
def Live (s : Dense.State α) (x : Nat) : Prop := ∃ a, s.rc.var x = some a ∧ a.counts ≠ none ∧ Usable a s.rc.heap

/-- Permitted use of dense matrices: new names for new objects; user memory holds as many values as the sizes say; moved-from objects are only destroyed or
assigned to; indices are in range; `resize` gets the memory it asks for; and an assignment between two objects that share their memory does not change the number of
entries (the unchanged code fails otherwise, `C89_assign_shared_witness`). -/
def Permitted (s : Dense.State α) : Dense.Op α → Prop
  | .new x => s.rc.var x = none
  | .newSq x _ _ _ => s.rc.var x = none
  | .newV x _ _ _ _ => s.rc.var x = none
  | .newCopy x n1 n2 p ok => s.rc.var x = none ∧ ok = true ∧ ∃ B, s.rc.heap.mem p = some B ∧ n1 * n2 ≤ B.size
  | .wrap x _ _ _ => s.rc.var x = none
  | .share x y => s.rc.var x = none ∧ Live s y
  | .clone x y => s.rc.var x = none ∧ Live s y
  | .move x y => s.rc.var x = none ∧ Live s y
  | .assign x y => Live s y ∧ ∃ a o, s.rc.var x = some a ∧ s.rc.var y = some o ∧ (a.data = o.data → a.size = o.size)
  | .moveAssign x y => Live s y ∧ ∃ a o, s.rc.var x = some a ∧ s.rc.var y = some o ∧ (a.data = o.data → a.size = o.size)
  | .resize x n1 n2 ok => Live s x ∧ (ok = true ∨ ∃ a, s.rc.var x = some a ∧ n1 * n2 ≤ a.cap)
  | .write x i j _ => Live s x ∧ i < s.nr x ∧ j < s.nc x
  | .destroy x => ∃ a, s.rc.var x = some a

/-- Every operation of the history is permitted when it is executed. -/
def PermittedAll : List (Dense.Op α) → Dense.State α → Prop
  | [], _ => True
  | o :: l, s => Permitted s o ∧ ∀ s', Dense.step o s = .ok s' → PermittedAll l s'

/-- The states reached by permitted histories. -/
def DReached (usr : Nat → Buf α) (s : Dense.State α) : Prop := ∃ l, PermittedAll l (Dense.init usr) ∧ Dense.run l (Dense.init usr) = .ok s

end Spec

namespace Props
open RC Dense Spec

variable {α : Type} [Inhabited α]

/-- The number of entries is the product of the sizes. -/
def Shape (s : Dense.State α) : Prop := ∀ x a, s.rc.var x = some a → a.counts ≠ none → a.size = s.nr x * s.nc x

theorem legal_snoc : ∀ (l : List (RC.Op α)) (s s' : RC.State α) (o : RC.Op α), RC.Legal l s → RC.run l s = .ok s' → Legit s' o → RC.Legal (l ++ [o]) s
  | [], s, s', o, _, e, h => by
    have := pure_ok e; subst this
    exact ⟨h, fun _ _ => trivial⟩
  | p :: l, s, s', o, hl, e, h => by
    obtain ⟨s1, e1, e⟩ := RC.bind_ok e
    refine ⟨hl.1, fun s2 e2 => ?_⟩
    rw [e1] at e2; injection e2 with e2; subst e2
    exact legal_snoc l s1 s' o (hl.2 s1 e1) e h

theorem run_snoc : ∀ (l : List (RC.Op α)) (s s' s'' : RC.State α) (o : RC.Op α), RC.run l s = .ok s' → RC.step o s' = .ok s'' → RC.run (l ++ [o]) s = .ok s''
  | [], s, s', s'', o, e, h => by
    have := pure_ok e; subst this
    show (RC.step o s >>= fun s => pure s) = _
    rw [h]; rfl
  | p :: l, s, s', s'', o, e, h => by
    obtain ⟨s1, e1, e⟩ := RC.bind_ok e
    show (RC.step p s >>= fun s => RC.run (l ++ [o]) s) = _
    rw [e1]
    exact run_snoc l s1 s' s'' o e h

theorem reached_step {usr : Nat → Buf α} {s s' : RC.State α} (h : Spec.Reached usr s) {o : RC.Op α} (ho : Legit s o) (e : RC.step o s = .ok s') : Spec.Reached usr s' := by
  obtain ⟨l, hl, el⟩ := h
  exact ⟨l ++ [o], legal_snoc l _ _ o hl el ho, run_snoc l _ _ _ o el e⟩

theorem size_lt {r c i j : Nat} (hi : i < r) (hj : j < c) : i + j * r < r * c := by
  have : (j + 1) * r ≤ c * r := Nat.mul_le_mul_right r hj
  rw [Nat.add_mul, Nat.mul_comm c r] at this
  omega

/-- A permitted operation is permitted for the array. -/
theorem permitted_legit {s : Dense.State α} (hs : Shape s) {o : Dense.Op α} (ho : Permitted s o) {p : RC.Op α} (e : toRC s o = some p) : Legit s.rc p := by
  cases o <;> simp only [toRC, Option.some.injEq] at e
  case new => subst e; exact ho
  case newSq => subst e; exact ho
  case newV => subst e; exact ho
  case newCopy => subst e; exact ho
  case wrap => subst e; exact ho
  case share =>
    subst e
    obtain ⟨h, a, h1, h2, -⟩ := ho
    exact ⟨h, a, h1, h2⟩
  case clone =>
    subst e
    obtain ⟨h, a, h1, -, h3⟩ := ho
    exact ⟨h, a, h1, h3⟩
  case move =>
    subst e
    obtain ⟨h, a, h1, -⟩ := ho
    exact ⟨h, a, h1⟩
  case assign =>
    subst e
    obtain ⟨⟨o, g1, g2, -⟩, a, o', h1, h2, -⟩ := ho
    exact ⟨a, o, h1, g1, Or.inl g2⟩
  case moveAssign =>
    subst e
    obtain ⟨-, a, o', h1, h2, -⟩ := ho
    exact ⟨a, o', h1, h2⟩
  case resize =>
    obtain ⟨⟨a, h1, -, h3⟩, -⟩ := ho
    split at e
    · cases e
    · injection e with e
      subst e
      exact ⟨a, h1, h3⟩
  case write =>
    subst e
    obtain ⟨⟨a, h1, h2, h3⟩, hi, hj⟩ := ho
    exact ⟨a, h1, h3, by rw [hs _ a h1 h2]; exact size_lt hi hj⟩
  case destroy => subst e; exact ho

theorem stepRC_runs {usr : Nat → Buf α} {s : Dense.State α} (h : Spec.Reached usr s.rc) (hs : Shape s) {o : Dense.Op α} (ho : Permitted s o) :
    ∃ rc, stepRC (toRC s o) s.rc = .ok rc ∧ Spec.Reached usr rc := by
  cases e : toRC s o with
  | none => exact ⟨s.rc, rfl, h⟩
  | some p =>
    have hl := permitted_legit hs ho e
    obtain ⟨own, hi⟩ := rc_inv h
    obtain ⟨s', e', -⟩ := step_runs hi p hl
    exact ⟨s', e', reached_step h hl e'⟩

theorem var_put {s : RC.State α} {x : Nat} {r : Arr × Heap α} {y : Nat} {a : Arr} (h : (s.put x r).var y = some a) : (y = x ∧ a = r.1) ∨ (y ≠ x ∧ s.var y = some a) := by
  by_cases e : y = x
  · subst e
    left
    have : (s.put y r).var y = some r.1 := upd_same _ _ _
    rw [this] at h
    injection h with h
    exact ⟨rfl, h.symm⟩
  · right
    exact ⟨e, (upd_ne _ _ e).symm.trans h⟩

theorem shape_dim {s : Dense.State α} (hs : Shape s) {rc : RC.State α} {x n1 n2 : Nat} (hv : ∀ y, y ≠ x → rc.var y = s.rc.var y)
    (hx : ∀ a, rc.var x = some a → a.counts ≠ none → a.size = n1 * n2) : Shape (s.dim rc x n1 n2) := by
  intro y a hy hc
  by_cases e : y = x
  · subst e
    show a.size = upd s.nr y n1 y * upd s.nc y n2 y
    rw [upd_same, upd_same]
    exact hx a hy hc
  · show a.size = upd s.nr x n1 y * upd s.nc x n2 y
    rw [upd_ne _ _ e, upd_ne _ _ e]
    exact hs y a ((hv y e).symm.trans hy) hc

theorem shape_dimOr0 {s : Dense.State α} (hs : Shape s) {x n1 n2 : Nat} {v : α} {ok : Bool} (h0 : n1 * n2 = n1 * n2) :
    Shape (s.dimOr0 (s.rc.put x (ctorN (n1 * n2) v ok s.rc.heap)) x n1 n2) := by
  have hx : (s.rc.put x (ctorN (n1 * n2) v ok s.rc.heap)).var x = some (ctorN (n1 * n2) v ok s.rc.heap).1 := upd_same _ _ _
  have hv : ∀ y, y ≠ x → (s.rc.put x (ctorN (n1 * n2) v ok s.rc.heap)).var y = s.rc.var y := fun y hy => upd_ne _ _ hy
  unfold State.dimOr0
  rw [hx]
  cases ok with
  | true =>
    show Shape (if (Status.own = Status.undef) then _ else _)
    rw [if_neg (by decide)]
    refine shape_dim hs hv fun a ha _ => ?_
    rw [hx] at ha; injection ha with ha; subst ha; rfl
  | false =>
    show Shape (if (Status.undef = Status.undef) then _ else _)
    rw [if_pos rfl]
    refine shape_dim hs hv fun a ha _ => ?_
    rw [hx] at ha; injection ha with ha; subst ha; rfl

theorem shape_step {usr : Nat → Buf α} {s : Dense.State α} (h : Spec.Reached usr s.rc) (hs : Shape s) {o : Dense.Op α} (ho : Permitted s o) {rc : RC.State α}
    (e : stepRC (toRC s o) s.rc = .ok rc) : Shape (setDims s rc o) := by
  have hl := fun p => permitted_legit hs ho (p := p)
  cases o <;> simp only [toRC, stepRC] at e
  case new x =>
    have := pure_ok e; subst this
    refine shape_dim hs (fun y hy => upd_ne _ _ hy) fun a ha _ => ?_
    have hx : (s.rc.put x (ctor0 s.rc.heap)).var x = some (ctor0 s.rc.heap).1 := upd_same _ _ _
    rw [hx] at ha; injection ha with ha; subst ha; rfl
  case newSq x n1 n2 ok => have := pure_ok e; subst this; exact shape_dimOr0 hs rfl
  case newV x n1 n2 v ok => have := pure_ok e; subst this; exact shape_dimOr0 hs rfl
  case newCopy x n1 n2 p ok =>
    obtain ⟨r, e1, e⟩ := RC.bind_ok e
    have := pure_ok e; subst this
    refine shape_dim hs (fun y hy => upd_ne _ _ hy) fun a ha _ => ?_
    have hx : (s.rc.put x r).var x = some r.1 := upd_same _ _ _
    rw [hx] at ha; injection ha with ha; subst ha
    unfold ctorCopy at e1
    split at e1
    · obtain ⟨B, -, e1⟩ := RC.bind_ok e1
      have := pure_ok e1; subst this; rfl
    · have := pure_ok e1; subst this; rfl
  case wrap x n1 n2 p =>
    have := pure_ok e; subst this
    refine shape_dim hs (fun y hy => upd_ne _ _ hy) fun a ha _ => ?_
    have hx : (s.rc.put x (ctorWrap (n1 * n2) p s.rc.heap)).var x = some (ctorWrap (n1 * n2) p s.rc.heap).1 := upd_same _ _ _
    rw [hx] at ha; injection ha with ha; subst ha; rfl
  case share x y =>
    obtain ⟨-, o, ho1, ho2, -⟩ := ho
    have hx := (C17_share e ho1).1
    refine shape_dim hs (fun z hz => step_var e (by simpa [targets] using hz)) fun a ha _ => ?_
    rw [hx] at ha; injection ha with ha; subst ha
    exact hs y _ ho1 ho2
  case clone x y =>
    obtain ⟨-, o, ho1, ho2, -⟩ := ho
    obtain ⟨a', hx, -, hsz, -⟩ := C17_clone h (hl _ rfl) e ho1
    refine shape_dim hs (fun z hz => step_var e (by simpa [targets] using hz)) fun a ha _ => ?_
    rw [hx] at ha; injection ha with ha; subst ha
    rw [hsz]
    exact hs y _ ho1 ho2
  case move x y =>
    obtain ⟨hn, o, ho1, ho2, -⟩ := ho
    obtain ⟨o', e1, e⟩ := RC.bind_ok e
    unfold obj at e1; rw [ho1] at e1
    have := pure_ok e1; subst this
    have := pure_ok e; subst this
    have hxy : x ≠ y := by rintro rfl; rw [hn] at ho1; cases ho1
    intro z a hz hc
    have hz' : upd (upd s.rc.var x (some o)) y (some nullArr) z = some a := hz
    by_cases zy : z = y
    · subst zy
      rw [upd_same] at hz'; injection hz' with hz'; subst hz'
      exact absurd rfl hc
    · rw [upd_ne _ _ zy] at hz'
      by_cases zx : z = x
      · subst zx
        rw [upd_same] at hz'; injection hz' with hz'; subst hz'
        show _ = upd s.nr z _ z * upd s.nc z _ z
        rw [upd_same, upd_same]
        exact hs y _ ho1 ho2
      · rw [upd_ne _ _ zx] at hz'
        show _ = upd s.nr x _ z * upd s.nc x _ z
        rw [upd_ne _ _ zx, upd_ne _ _ zx]
        exact hs z a hz' hc
  case assign x y =>
    obtain ⟨⟨o, ho1, ho2, -⟩, a, o', hx, hy, hd⟩ := ho
    rw [ho1] at hy; injection hy with hy; subst hy
    refine shape_dim hs (fun z hz => step_var e (by simpa [targets] using hz)) fun b hb _ => ?_
    obtain ⟨a', e1, e⟩ := RC.bind_ok e
    unfold obj at e1; rw [hx] at e1
    have := pure_ok e1; subst this
    obtain ⟨o', e1, e⟩ := RC.bind_ok e
    unfold obj at e1; rw [ho1] at e1
    have := pure_ok e1; subst this
    obtain ⟨r, e1, e⟩ := RC.bind_ok e
    have := pure_ok e; subst this
    have hv : (s.rc.put x r).var x = some r.1 := upd_same _ _ _
    rw [hv] at hb; injection hb with hb; subst hb
    unfold RC.assign at e1
    split at e1
    · obtain ⟨q, -, e1⟩ := RC.bind_ok e1
      obtain ⟨h', -, e1⟩ := RC.bind_ok e1
      have := pure_ok e1; subst this
      exact hs y _ ho1 ho2
    · rename_i hne
      have := pure_ok e1; subst this
      rw [← hs y _ ho1 ho2]
      exact hd (not_not.1 hne)
  case moveAssign x y =>
    obtain ⟨⟨o, ho1, ho2, -⟩, a, o', hx, hy, hd⟩ := ho
    rw [ho1] at hy; injection hy with hy; subst hy
    obtain ⟨a', e1, e⟩ := RC.bind_ok e
    unfold obj at e1; rw [hx] at e1
    have := pure_ok e1; subst this
    obtain ⟨o', e1, e⟩ := RC.bind_ok e
    unfold obj at e1; rw [ho1] at e1
    have := pure_ok e1; subst this
    obtain ⟨r, e1, e⟩ := RC.bind_ok e
    have := pure_ok e; subst this
    intro z b hz hc
    have hz' : upd (upd s.rc.var x (some r.1)) y (some r.2.1) z = some b := hz
    unfold RC.moveAssign at e1
    split at e1
    · rename_i hne
      obtain ⟨q, -, e1⟩ := RC.bind_ok e1
      have := pure_ok e1; subst this
      by_cases zy : z = y
      · subst zy
        rw [upd_same] at hz'; injection hz' with hz'; subst hz'
        exact absurd rfl hc
      · rw [upd_ne _ _ zy] at hz'
        by_cases zx : z = x
        · subst zx
          rw [upd_same] at hz'; injection hz' with hz'; subst hz'
          show _ = upd s.nr z _ z * upd s.nc z _ z
          rw [upd_same, upd_same]
          exact hs y _ ho1 ho2
        · rw [upd_ne _ _ zx] at hz'
          show _ = upd s.nr x _ z * upd s.nc x _ z
          rw [upd_ne _ _ zx, upd_ne _ _ zx]
          exact hs z b hz' hc
    · rename_i hne
      have := pure_ok e1; subst this
      have hsz := hd (not_not.1 hne)
      show _ = upd s.nr x _ z * upd s.nc x _ z
      by_cases zx : z = x
      · subst zx
        rw [upd_same, upd_same, ← hs y _ ho1 ho2]
        by_cases zy : z = y
        · subst zy
          rw [upd_same] at hz'; injection hz' with hz'; subst hz'
          rfl
        · rw [upd_ne _ _ zy, upd_same] at hz'; injection hz' with hz'; subst hz'
          exact hsz
      · rw [upd_ne _ _ zx, upd_ne _ _ zx]
        by_cases zy : z = y
        · subst zy
          rw [upd_same] at hz'; injection hz' with hz'; subst hz'
          exact hs z _ ho1 ho2
        · rw [upd_ne _ _ zy, upd_ne _ _ zx] at hz'
          exact hs z b hz' hc
  case resize x n1 n2 ok =>
    obtain ⟨⟨a, hx, hc, hu⟩, hok⟩ := ho
    by_cases hd : n1 = s.nr x ∧ n2 = s.nc x
    · rw [if_pos hd] at e
      have := pure_ok e; subst this
      refine shape_dim hs (fun _ _ => rfl) fun b hb hbc => ?_
      rw [hs x b hb hbc, hd.1, hd.2]
    · rw [if_neg hd] at e
      have hl' := hl (.resize x (n1 * n2) true ok) (by simp only [toRC]; rw [if_neg hd])
      refine shape_dim hs (fun z hz => step_var e (by simpa [targets] using hz)) fun b hb hbc => ?_
      obtain ⟨a', h1, h2, -⟩ := C17_resize h hl' e hx (hok.imp id fun ⟨a', h1, h2⟩ => by
        rw [hx] at h1; injection h1 with h1; subst h1; exact h2)
      rw [h1] at hb; injection hb with hb; subst hb
      exact h2
  case write x i j v =>
    intro z b hz hc
    obtain ⟨⟨a, hx, -⟩, -⟩ := ho
    obtain ⟨a', e1, e⟩ := RC.bind_ok e
    obtain ⟨h', -, e⟩ := RC.bind_ok e
    have := pure_ok e; subst this
    exact hs z b hz hc
  case destroy x =>
    intro z b hz hc
    obtain ⟨a', e1, e⟩ := RC.bind_ok e
    obtain ⟨r, -, e⟩ := RC.bind_ok e
    have := pure_ok e; subst this
    have hz' : upd s.rc.var x none z = some b := hz
    by_cases zx : z = x
    · subst zx; rw [upd_same] at hz'; cases hz'
    · rw [upd_ne _ _ zx] at hz'
      exact hs z b hz' hc

theorem run_ok {usr : Nat → Buf α} : ∀ (l : List (Dense.Op α)) (s : Dense.State α), Spec.Reached usr s.rc → Shape s → PermittedAll l s →
    ∃ s', Dense.run l s = .ok s' ∧ Spec.Reached usr s'.rc ∧ Shape s'
  | [], s, h, hs, _ => ⟨s, rfl, h, hs⟩
  | o :: l, s, h, hs, hp => by
    obtain ⟨rc, e, hr⟩ := stepRC_runs h hs hp.1
    have e' : Dense.step o s = .ok (setDims s rc o) := by
      show (stepRC (toRC s o) s.rc >>= fun rc => pure (setDims s rc o)) = _
      rw [e]; rfl
    have hrc : (setDims s rc o).rc = rc := by
      cases o <;> simp only [setDims, State.dim, State.dimOr0] <;> (try split) <;> (try split) <;> rfl
    obtain ⟨s', e'', h1, h2⟩ := run_ok l (setDims s rc o) (by rw [hrc]; exact hr) (shape_step h hs hp.1 e) (hp.2 _ e')
    refine ⟨s', ?_, h1, h2⟩
    show (Dense.step o s >>= fun s => Dense.run l s) = _
    rw [e']
    exact e''

theorem reached_inv {usr : Nat → Buf α} {s : Dense.State α} (h : DReached usr s) : Spec.Reached usr s.rc ∧ Shape s := by
  obtain ⟨l, hl, e⟩ := h
  obtain ⟨s', e', h1, h2⟩ := run_ok l (Dense.init usr) ⟨[], trivial, rfl⟩ (fun x a hx _ => by cases hx) hl
  rw [e] at e'; injection e' with e'; subst e'
  exact ⟨h1, h2⟩

/-- C89 (histories): every permitted history of dense matrices runs without undefined behaviour, leaves the memory sound (no double free, no leak), and every object
that has not been moved from has as many entries as its sizes say. -/
theorem C89_history_partial (usr : Nat → Buf α) (l : List (Dense.Op α)) (h : PermittedAll l (Dense.init usr)) :
    ∃ s, Dense.run l (Dense.init usr) = .ok s ∧ SoundMemory s.rc ∧ ∀ x, Live s x → ∃ a, s.rc.var x = some a ∧ a.size = s.nr x * s.nc x := by
  obtain ⟨s, e, ⟨l', h1, h2⟩, h3⟩ := run_ok l (Dense.init usr) ⟨[], trivial, rfl⟩ (fun x a hx _ => by cases hx) h
  obtain ⟨s', e', hm⟩ := C17_history_safe_partial usr l' h1
  rw [h2] at e'; injection e' with e'; subst e'
  exact ⟨s, e, hm, fun x ⟨a, ha, hc, _⟩ => ⟨a, ha, h3 x a ha hc⟩⟩

/-! ### The views -/

theorem forUp_append {s : RC.State α} {x : Nat} {V : Nat → α} (lo : Nat) : ∀ (n : Nat) (acc : List α), (∀ k, lo ≤ k → k < lo + n → peek s x k = .ok (V k)) →
    forUp lo (lo + n) acc (fun k acc => do let v ← peek s x k; pure (acc ++ [v])) = .ok (acc ++ (List.range n).map fun i => V (lo + i)) := by
  intro n acc h
  have : Runs (forUp lo (lo + n) acc (fun k acc => do let v ← peek s x k; pure (acc ++ [v]))) fun r => r = acc ++ (List.range n).map fun i => V (lo + i) := by
    refine forUp_runs' (fun k (r : List α) => r = acc ++ (List.range (k - lo)).map fun i => V (lo + i)) (by omega) (by simp) ?_ (by
      intro r hr
      rw [hr, Nat.add_sub_cancel_left])
    rintro k r h1 h2 rfl
    rw [h k h1 h2]
    show Runs (pure _) _
    rw [runs_pure, show k + 1 - lo = (k - lo) + 1 by omega, List.range_succ, List.map_append, List.append_assoc, List.map_singleton, show lo + (k - lo) = k by omega]
  obtain ⟨r, e, rfl⟩ := this
  exact e

theorem stride_runs {s : Dense.State α} {x step stop : Nat} {V : Nat → α} : ∀ (n pos f : Nat), pos + n * step = stop → 0 < step → n < f →
    (∀ k, k < n → peek s.rc x (pos + k * step) = .ok (V k)) → stride s x step stop f pos = .ok ((List.range n).map V)
  | 0, pos, f + 1, h, hst, hf, hv => by
    unfold stride
    rw [if_pos (by omega)]
    rfl
  | n + 1, pos, f + 1, h, hst, hf, hv => by
    have h' : pos + step + n * step = stop := by rw [← h]; ring
    have hlt : pos < stop := by
      have : 0 ≤ n * step := Nat.zero_le _
      omega
    unfold stride
    rw [if_neg (by omega), if_neg (by omega)]
    have h0 := hv 0 (by omega)
    rw [Nat.zero_mul, Nat.add_zero] at h0
    rw [h0]
    have ih := stride_runs (V := fun k => V (k + 1)) n (pos + step) f h' hst (by omega) (fun k hk => by
      have := hv (k + 1) (by omega)
      rwa [show pos + (k + 1) * step = pos + step + k * step by ring] at this)
    show (stride s x step stop f (pos + step) >>= fun l => pure (V 0 :: l)) = _
    rw [ih, List.range_succ_eq_map, List.map_cons, List.map_map]
    rfl

/-- C89 (views): in every state reached, for every object that has not been moved from, the entries `A(i, j)`, the loops over the columns and the loops over the rows
show one and the same matrix with `nrows()` rows and `ncols()` columns; they meet all its entries in order, nothing else, and read nothing outside. -/
theorem C89_views_partial {usr : Nat → Buf α} {s : Dense.State α} (hs : DReached usr s) {x : Nat} (hx : Live s x) :
    ∃ V : Nat → Nat → α,
      (∀ i j, i < s.nr x → j < s.nc x → entry s x i j = .ok (V i j)) ∧
      (∀ j, j < s.nc x → column s x j = .ok ((List.range (s.nr x)).map fun i => V i j)) ∧
      (∀ i, i < s.nr x → row s x i = .ok ((List.range (s.nc x)).map fun j => V i j)) := by
  obtain ⟨h1, h2⟩ := reached_inv hs
  obtain ⟨a, ha, hc, hu⟩ := hx
  have hsz := h2 x a ha hc
  have hex : ∀ k, ∃ v, k < a.size → peek s.rc x k = .ok v := fun k => by
    by_cases hk : k < a.size
    · obtain ⟨v, hv⟩ := C17_read_safe h1 ha hu hk
      exact ⟨v, fun _ => hv⟩
    · exact ⟨default, fun h => absurd h hk⟩
  choose W hW using hex
  refine ⟨fun i j => W (i + j * s.nr x), fun i j hi hj => hW _ (by rw [hsz]; exact size_lt hi hj), fun j hj => ?_, fun i hi => ?_⟩
  · unfold column
    rw [show (j + 1) * s.nr x = j * s.nr x + s.nr x by ring]
    rw [forUp_append (V := W) (j * s.nr x) (s.nr x) [] (fun k k1 k2 => hW k (by
      rw [hsz]
      have := size_lt (show k - j * s.nr x < s.nr x by omega) hj
      omega))]
    simp only [List.nil_append, Nat.add_comm]
  · unfold row obj
    rw [ha]
    show stride s x (s.nr x) (a.size + i) (a.size + 1) i = _
    have hr : 0 < s.nr x := by omega
    refine stride_runs (V := fun j => W (i + j * s.nr x)) (s.nc x) i _ (by rw [hsz]; ring) hr ?_ fun k hk => hW _ (by rw [hsz]; exact size_lt hi hk)
    rw [hsz]
    have := Nat.le_mul_of_pos_left (s.nc x) hr
    omega

/-! ### Writing, resizing, copying -/

theorem entry_inj {r i j i' j' : Nat} (hi : i < r) (hi' : i' < r) (h : i + j * r = i' + j' * r) : i = i' ∧ j = j' := by
  have h1 : i = i' := by
    have := congrArg (· % r) h
    simpa [Nat.add_mul_mod_self_right, Nat.mod_eq_of_lt hi, Nat.mod_eq_of_lt hi'] using this
  subst h1
  exact ⟨rfl, Nat.eq_of_mul_eq_mul_right (by omega) (Nat.add_left_cancel h)⟩

theorem step_ok {o : Dense.Op α} {s s' : Dense.State α} (e : Dense.step o s = .ok s') : ∃ rc, stepRC (toRC s o) s.rc = .ok rc ∧ s' = setDims s rc o := by
  obtain ⟨rc, e1, e⟩ := RC.bind_ok e
  exact ⟨rc, e1, (pure_ok e).symm⟩

/-- C89 (writing): `A(i, j) = v` changes this entry and no other entry of the matrix; matrices with other memory stay the same. -/
theorem C89_write_partial {usr : Nat → Buf α} {s s' : Dense.State α} (hs : DReached usr s) {x i j : Nat} {v : α} (ho : Permitted s (.write x i j v))
    (e : Dense.step (.write x i j v) s = .ok s') :
    s'.nr = s.nr ∧ s'.nc = s.nc ∧ entry s' x i j = .ok v ∧
    (∀ i' j', i' < s.nr x → (i', j') ≠ (i, j) → entry s' x i' j' = entry s x i' j') ∧
    ∀ y a a', s.rc.var x = some a → s.rc.var y = some a' → a'.data ≠ a.data → ∀ i' j', entry s' y i' j' = entry s y i' j' := by
  obtain ⟨h1, h2⟩ := reached_inv hs
  have hl := permitted_legit h2 ho (p := .write x (i + j * s.nr x) v) rfl
  obtain ⟨⟨a, ha, -, -⟩, hi, hj⟩ := ho
  obtain ⟨rc, e1, rfl⟩ := step_ok e
  obtain ⟨k1, k2, k3⟩ := C17_write h1 hl e1 ha ha
  obtain ⟨k4, k5⟩ := k2 rfl
  refine ⟨rfl, rfl, k4, fun i' j' hi' hne => k5 _ fun hc => hne ?_, fun y b b' hb hb' hd i' j' => ?_⟩
  · obtain ⟨rfl, rfl⟩ := entry_inj hi' hi hc
    rfl
  · rw [ha] at hb; injection hb with hb; subst hb
    exact (C17_write h1 hl e1 ha hb').2.2 hd _

/-- C89 (resizing): after `resize(n1, n2)` the matrix has these sizes, and the entries, counted down the columns, are the old ones as far as they reach; in particular,
if the number of rows stays the same, `A(i, j)` is unchanged in all common columns. -/
theorem C89_resize_partial {usr : Nat → Buf α} {s s' : Dense.State α} (hs : DReached usr s) {x n1 n2 : Nat} {ok : Bool} (ho : Permitted s (.resize x n1 n2 ok))
    (e : Dense.step (.resize x n1 n2 ok) s = .ok s') :
    s'.nr x = n1 ∧ s'.nc x = n2 ∧
    (∀ i j i' j', i < n1 → j < n2 → i' < s.nr x → j' < s.nc x → i + j * n1 = i' + j' * s.nr x → entry s' x i j = entry s x i' j') ∧
    (n1 = s.nr x → ∀ i j, i < n1 → j < n2 → j < s.nc x → entry s' x i j = entry s x i j) := by
  obtain ⟨h1, h2⟩ := reached_inv hs
  have hl := fun p => permitted_legit h2 ho (p := p)
  obtain ⟨⟨a, ha, hc, hu⟩, hok⟩ := ho
  have hsz := h2 x a ha hc
  obtain ⟨rc, e1, rfl⟩ := step_ok e
  have hnr : (setDims s rc (.resize x n1 n2 ok)).nr x = n1 := upd_same _ _ _
  have hnc : (setDims s rc (.resize x n1 n2 ok)).nc x = n2 := upd_same _ _ _
  have main : ∀ i j i' j', i < n1 → j < n2 → i' < s.nr x → j' < s.nc x → i + j * n1 = i' + j' * s.nr x →
      entry (setDims s rc (.resize x n1 n2 ok)) x i j = entry s x i' j' := by
    intro i j i' j' hi hj hi' hj' heq
    unfold entry
    rw [hnr, heq]
    show peek rc x _ = _
    by_cases hd : n1 = s.nr x ∧ n2 = s.nc x
    · simp only [toRC, if_pos hd] at e1
      have := pure_ok e1; subst this
      rfl
    · simp only [toRC, if_neg hd] at e1
      obtain ⟨a', -, -, k⟩ := C17_resize h1 (hl _ (by simp only [toRC, if_neg hd])) e1 ha (hok.imp id fun ⟨a', g1, g2⟩ => by
        rw [ha] at g1; injection g1 with g1; subst g1; exact g2)
      exact k _ (by rw [← heq]; exact size_lt hi hj) (by rw [hsz]; exact size_lt hi' hj')
  exact ⟨hnr, hnc, main, fun hr i j hi hj hj' => main i j i j hi hj (by omega) hj' (by rw [hr])⟩

/-- C89 (copying): a shallow copy, a deep copy and a moved matrix have the sizes and the entries of the original; a deep copy is independent of it: writing to one does
not change the other. -/
theorem C89_copy_partial {usr : Nat → Buf α} {s s' : Dense.State α} (hs : DReached usr s) {x y : Nat} {o : Dense.Op α}
    (ho' : o = .share x y ∨ o = .clone x y ∨ o = .move x y) (ho : Permitted s o) (e : Dense.step o s = .ok s') :
    s'.nr x = s.nr y ∧ s'.nc x = s.nc y ∧ (∀ i j, i < s.nr y → j < s.nc y → entry s' x i j = entry s y i j) ∧
    (o = .clone x y → ∃ a b, s'.rc.var x = some a ∧ s'.rc.var y = some b ∧ ((b.status = .own ∨ ∃ u, b.data = some (.usr u)) → b.data ≠ a.data)) := by
  obtain ⟨h1, h2⟩ := reached_inv hs
  have hl := fun p => permitted_legit h2 ho (p := p)
  obtain ⟨rc, e1, rfl⟩ := step_ok e
  rcases ho' with rfl | rfl | rfl
  · obtain ⟨hn, b, hb, hbc, -⟩ := ho
    refine ⟨upd_same _ _ _, upd_same _ _ _, fun i j hi hj => ?_, fun h => by cases h⟩
    unfold entry
    rw [show (setDims s rc (.share x y)).nr x = s.nr y from upd_same _ _ _]
    exact (C17_share e1 hb).2 _
  · obtain ⟨hn, b, hb, hbc, -⟩ := ho
    obtain ⟨a, k1, k2, k3, k4, k5⟩ := C17_clone h1 (hl _ rfl) e1 hb
    refine ⟨upd_same _ _ _, upd_same _ _ _, fun i j hi hj => ?_, fun _ => ⟨a, b, k1, ?_, fun h => ?_⟩⟩
    · unfold entry
      rw [show (setDims s rc (.clone x y)).nr x = s.nr y from upd_same _ _ _]
      exact k4 _ (by rw [h2 y b hb hbc]; exact size_lt hi hj)
    · have hxy : y ≠ x := by rintro rfl; rw [hn] at hb; cases hb
      exact (step_var (o := .clone x y) e1 (by simpa [targets] using hxy)).trans hb
    · have hxy : y ≠ x := by rintro rfl; rw [hn] at hb; cases hb
      exact k5 y b hxy ((step_var (o := .clone x y) e1 (by simpa [targets] using hxy)).trans hb) h
  · obtain ⟨hn, b, hb, hbc, -⟩ := ho
    have hxy : x ≠ y := by rintro rfl; rw [hn] at hb; cases hb
    refine ⟨upd_same _ _ _, upd_same _ _ _, fun i j hi hj => ?_, fun h => by cases h⟩
    unfold entry
    rw [show (setDims s rc (.move x y)).nr x = s.nr y from upd_same _ _ _]
    obtain ⟨o', e2, e1⟩ := RC.bind_ok e1
    unfold obj at e2; rw [hb] at e2
    have := pure_ok e2; subst this
    have := pure_ok e1; subst this
    show peek { s.rc with var := upd (upd s.rc.var x (some b)) y (some nullArr) } x _ = _
    unfold peek obj
    simp only [hb]
    rw [upd_ne _ _ hxy, upd_same]

namespace ExDense

/-- Memory of the user. -/
def usr : Nat → Buf Nat := fun _ => Buf.ofList [7, 8, 9, 1, 2, 3]

/-- Build, write, share, shrink, copy, wrap, move, grow, assign, destroy. -/
def hist : List (Dense.Op Nat) :=
  [.newV 0 2 3 5 true, .write 0 1 2 4, .share 1 0, .write 1 0 1 6, .clone 2 0, .write 0 0 0 8, .wrap 3 3 2 (.usr 0), .write 3 2 1 9, .resize 1 2 2 true, .move 4 2,
   .assign 2 3, .newSq 5 2 0 true, .resize 5 3 3 true, .newCopy 6 2 2 (.usr 1) true, .moveAssign 5 0]

/-- Decision of `Live`. -/
def liveB (s : Dense.State Nat) (x : Nat) : Bool :=
  match s.rc.var x with
  | some a => a.counts.isSome && ExRC.usableB a s.rc.heap
  | none => false

/-- Decision of the condition of the assignments. -/
def sameB (s : Dense.State Nat) (x y : Nat) : Bool :=
  match s.rc.var x, s.rc.var y with
  | some a, some o => decide (a.data ≠ o.data) || decide (a.size = o.size)
  | _, _ => false

/-- Decision of `Permitted`. -/
def permB (s : Dense.State Nat) : Dense.Op Nat → Bool
  | .new x => (s.rc.var x).isNone
  | .newSq x _ _ _ => (s.rc.var x).isNone
  | .newV x _ _ _ _ => (s.rc.var x).isNone
  | .newCopy x n1 n2 p ok => (s.rc.var x).isNone && ok && (match s.rc.heap.mem p with | some B => decide (n1 * n2 ≤ B.size) | none => false)
  | .wrap x _ _ _ => (s.rc.var x).isNone
  | .share x y => (s.rc.var x).isNone && liveB s y
  | .clone x y => (s.rc.var x).isNone && liveB s y
  | .move x y => (s.rc.var x).isNone && liveB s y
  | .assign x y => liveB s y && sameB s x y
  | .moveAssign x y => liveB s y && sameB s x y
  | .resize x _ _ ok => liveB s x && ok
  | .write x i j _ => liveB s x && decide (i < s.nr x) && decide (j < s.nc x)
  | .destroy x => (s.rc.var x).isSome

/-- Decision of `PermittedAll`. -/
def permAllB : List (Dense.Op Nat) → Dense.State Nat → Bool
  | [], _ => true
  | o :: l, s => permB s o && (match Dense.step o s with | .ok s' => permAllB l s' | .error _ => true)

theorem liveB_sound {s : Dense.State Nat} {x : Nat} (e : liveB s x = true) : Live s x := by
  unfold liveB at e
  split at e
  · rename_i a ha
    simp only [Bool.and_eq_true] at e
    exact ⟨a, ha, by intro hc; simp [hc] at e, ExRC.usableB_sound e.2⟩
  · simp at e

theorem sameB_sound {s : Dense.State Nat} {x y : Nat} (e : sameB s x y = true) :
    ∃ a o, s.rc.var x = some a ∧ s.rc.var y = some o ∧ (a.data = o.data → a.size = o.size) := by
  unfold sameB at e
  split at e
  · rename_i a o ha ho
    simp only [Bool.or_eq_true, decide_eq_true_eq] at e
    exact ⟨a, o, ha, ho, fun h => e.resolve_left (fun hn => hn h)⟩
  · simp at e

theorem permB_sound {s : Dense.State Nat} {o : Dense.Op Nat} (e : permB s o = true) : Permitted s o := by
  cases o <;> simp only [permB, Bool.and_eq_true, Option.isNone_iff_eq_none, Option.isSome_iff_exists, decide_eq_true_eq] at e <;> simp only [Permitted]
  case newCopy x n1 n2 p ok =>
    refine ⟨e.1.1, e.1.2, ?_⟩
    have e := e.2
    split at e
    · rename_i B hB
      exact ⟨B, hB, by simpa using e⟩
    · simp at e
  case share => exact ⟨e.1, liveB_sound e.2⟩
  case clone => exact ⟨e.1, liveB_sound e.2⟩
  case move => exact ⟨e.1, liveB_sound e.2⟩
  case assign => exact ⟨liveB_sound e.1, sameB_sound e.2⟩
  case moveAssign => exact ⟨liveB_sound e.1, sameB_sound e.2⟩
  case resize => exact ⟨liveB_sound e.1, Or.inl e.2⟩
  case write => exact ⟨liveB_sound e.1.1, e.1.2, e.2⟩
  all_goals exact e

theorem permAllB_sound : ∀ (l : List (Dense.Op Nat)) (s : Dense.State Nat), permAllB l s = true → PermittedAll l s := by
  intro l
  induction l with
  | nil => intro s _; trivial
  | cons o l ih =>
    intro s h
    simp only [permAllB, Bool.and_eq_true] at h
    refine ⟨permB_sound h.1, fun s' e => ih s' ?_⟩
    have h2 := h.2
    rw [e] at h2
    exact h2

theorem hist_permitted : PermittedAll hist (Dense.init usr) := permAllB_sound _ _ (by decide +kernel)

/-- An observation at the end of a history. -/
def obs {β : Type} (l : List (Dense.Op Nat)) (f : Dense.State Nat → M β) : M β := do
  let s ← Dense.run l (Dense.init usr)
  f s

-- the deep copy (moved to object 4) by rows and by columns; the shrunk copy; the wrapped matrix
example : obs hist (fun s => do
    let a ← row s 4 0
    let b ← column s 4 2
    let c ← row s 1 0
    let d ← row s 3 2
    pure (a, b, c, d, s.nr 5, s.nc 5)) = .ok ([5, 6, 5], [5, 4], [8, 6], [9, 9], 2, 3) := by decide +kernel

-- the hypotheses of the theorems about single operations are met
example : ∃ s, DReached usr s ∧ Live s 4 ∧ Permitted s (.write 4 1 2 7) ∧ Permitted s (.resize 4 2 9 true) ∧ Permitted s (.clone 9 4) := by
  obtain ⟨s, e, -⟩ := C89_history_partial usr hist hist_permitted
  refine ⟨s, ⟨hist, hist_permitted, e⟩, ?_⟩
  have h : obs hist (fun s => pure (liveB s 4 && permB s (.write 4 1 2 7) && permB s (.resize 4 2 9 true) && permB s (.clone 9 4))) = .ok true := by
    decide +kernel
  unfold obs at h
  rw [e] at h
  have h := pure_ok h
  simp only [Bool.and_eq_true] at h
  exact ⟨liveB_sound h.1.1.1, permB_sound h.1.1.2, permB_sound h.1.2, permB_sound h.2⟩

end ExDense

open ExDense

/-- Assigning a matrix with the same memory but other sizes sets the sizes and leaves the array as it is (Array.hpp 261): the matrix says 2 × 2, its array still has
eight entries, and a loop over a row meets four of them. -/
theorem C89_assign_shared_witness :
    obs [.newV 0 4 2 1 true, .share 1 0, .resize 1 2 2 true, .assign 0 1] (fun s => do
      let a ← obj s.rc 0
      let r ← row s 0 0
      pure (s.nr 0, s.nc 0, a.size, r.length)) = .ok (2, 2, 8, 4) := by decide +kernel

/-- A moved-from matrix keeps its sizes: resizing it to the same sizes does nothing, and the first access is a null dereference; other sizes allocate. -/
theorem C89_moved_resize_witness :
    obs [.newV 0 2 2 1 true, .move 1 0, .resize 0 2 2 true] (fun s => entry s 0 0 0) = .error (.ub "null data") ∧
    obs [.newV 0 2 2 1 true, .move 1 0] (fun s => pure (s.nr 0, s.nc 0)) = .ok (2, 2) := by decide +kernel

/-- `resize` whose allocation fails has set the new sizes before, and the array has given its memory away (DenseMatrix.hpp 262–267, Array.hpp 354–376): the matrix says
2 × 4, and the first access is a null dereference. -/
theorem C89_failed_resize_witness :
    obs [.newV 0 2 2 1 true, .resize 0 2 4 false] (fun s => do
      let a ← obj s.rc 0
      pure (s.nr 0, s.nc 0, a.status)) = .ok (2, 4, .undef) ∧
    obs [.newV 0 2 2 1 true, .resize 0 2 4 false] (fun s => entry s 0 0 0) = .error (.ub "null data") := by decide +kernel

end Props
end Hif
