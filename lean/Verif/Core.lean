import Mathlib.Logic.Function.Basic
import Mathlib.Tactic.Common

/-!
# Core of the model: outcomes, checked buffers, loops, and rules about them

Every C++ routine is transliterated to a program in the outcome monad `M`.  An access outside the
bounds of an array is the distinct outcome `Err.oob`; other undefined behaviour is `Err.ub`; an
exception thrown by the code (`hif_error_if`, `hif_error`) is `Err.hif`.
-/

namespace Hif

/-- Closes goals of the form `True` or `x = x` (which of the two `simp` leaves varies). -/
macro "tt" : tactic => `(tactic| first | rfl | trivial | assumption)

/-- Abnormal outcomes.  `oob`: access outside an array (undefined behaviour in C++); `ub`: other
undefined behaviour; `hif`: exception raised with `hif_error_if`/`hif_error`
(src/hif/utils/log.hpp 160–260). -/
inductive Err where
  | oob
  | ub (what : String)
  | hif (msg : String)
deriving DecidableEq, Repr

/-- Outcome monad. -/
abbrev M := Except Err

/-- A fixed-size memory buffer (C++ pointer together with the number of valid elements, or
`hif::Array`, src/hif/ds/Array.hpp).  Only `get i` for `i < size` is meaningful. -/
structure Buf (α : Type _) where
  size : Nat
  get : Nat → α

namespace Buf
variable {α : Type _}

/-- Store without check (used only by `wr`). -/
def set (b : Buf α) (i : Nat) (v : α) : Buf α :=
  { size := b.size, get := fun j => if j = i then v else b.get j }

@[simp] theorem set_size (b : Buf α) (i : Nat) (v : α) : (b.set i v).size = b.size := rfl
@[simp] theorem set_get (b : Buf α) (i : Nat) (v : α) (j : Nat) :
    (b.set i v).get j = if j = i then v else b.get j := rfl
theorem set_get_self (b : Buf α) (i : Nat) (v : α) : (b.set i v).get i = v := by simp
theorem set_get_ne (b : Buf α) {i j : Nat} (v : α) (h : j ≠ i) : (b.set i v).get j = b.get j := by
  simp [h]

/-- Checked load `b[i]`. -/
def rd (b : Buf α) (i : Nat) : M α := if i < b.size then pure (b.get i) else throw Err.oob

/-- Checked store `b[i] = v`. -/
def wr (b : Buf α) (i : Nat) (v : α) : M (Buf α) :=
  if i < b.size then pure (b.set i v) else throw Err.oob

/-- Buffer with the contents of a list (for examples). -/
def ofList [Inhabited α] (l : List α) : Buf α := { size := l.length, get := fun i => l.getD i default }

@[simp] theorem ofList_size [Inhabited α] (l : List α) : (ofList l).size = l.length := rfl

/-- Contents as a list. -/
def toList (b : Buf α) : List α := (List.range b.size).map b.get

/-- A freshly allocated buffer: `n` elements all equal to `v` (value-initialised) — the code either
initialises explicitly or the contents are irrelevant. -/
def mk' (n : Nat) (v : α) : Buf α := { size := n, get := fun _ => v }

@[simp] theorem mk'_size (n : Nat) (v : α) : (mk' n v).size = n := rfl
@[simp] theorem mk'_get (n : Nat) (v : α) (i : Nat) : (mk' n v).get i = v := rfl

end Buf

/-- Loop body executed `n` times with counter starting at `i`. -/
def loop {σ : Type _} (f : Nat → σ → M σ) : Nat → Nat → σ → M σ
  | 0, _, s => pure s
  | n + 1, i, s => f i s >>= fun s' => loop f n (i + 1) s'

/-- `for (i = lo; i < hi; ++i) s = f(i, s)`. -/
def forUp {σ : Type _} (lo hi : Nat) (s : σ) (f : Nat → σ → M σ) : M σ := loop f (hi - lo) lo s

/-- `for (i = n; i != 0; --i) s = f(i-1, s)`. -/
def forDown {σ : Type _} : (n : Nat) → (s : σ) → (f : Nat → σ → M σ) → M σ
  | 0, s, _ => pure s
  | n + 1, s, f => f n s >>= fun s' => forDown n s' f

/-- The program terminates normally and its result satisfies `Q` (total correctness: no
out-of-range access, no undefined behaviour, no exception). -/
def Runs {α : Type _} (m : M α) (Q : α → Prop) : Prop := ∃ a, m = .ok a ∧ Q a

section rules
variable {α β σ : Type _}

@[simp] theorem runs_ok (a : α) (Q : α → Prop) : Runs (.ok a : M α) Q ↔ Q a := by
  simp [Runs]
@[simp] theorem runs_pure (a : α) (Q : α → Prop) : Runs (pure a : M α) Q ↔ Q a := by
  simp [Runs, pure, Except.pure]
@[simp] theorem runs_throw (e : Err) (Q : α → Prop) : Runs (throw e : M α) Q ↔ False := by
  simp [Runs, throw, throwThe, MonadExceptOf.throw]
@[simp] theorem runs_error (e : Err) (Q : α → Prop) : Runs (.error e : M α) Q ↔ False := by
  simp [Runs]
@[simp] theorem runs_bind (m : M α) (f : α → M β) (Q : β → Prop) :
    Runs (m >>= f) Q ↔ Runs m (fun a => Runs (f a) Q) := by
  cases m <;> simp [Runs, bind, Except.bind]
@[simp] theorem runs_map (m : M α) (f : α → β) (Q : β → Prop) :
    Runs (f <$> m) Q ↔ Runs m (fun a => Q (f a)) := by
  cases m <;> simp [Runs, Functor.map, Except.map]
@[simp] theorem runs_ite (c : Prop) [Decidable c] (x y : M α) (Q : α → Prop) :
    Runs (if c then x else y) Q ↔ if c then Runs x Q else Runs y Q := by
  split <;> rfl
@[simp] theorem runs_rd (b : Buf α) (i : Nat) (Q : α → Prop) :
    Runs (b.rd i) Q ↔ i < b.size ∧ Q (b.get i) := by
  unfold Buf.rd
  by_cases h : i < b.size <;> simp [h]
@[simp] theorem runs_wr (b : Buf α) (i : Nat) (v : α) (Q : Buf α → Prop) :
    Runs (b.wr i v) Q ↔ i < b.size ∧ Q (b.set i v) := by
  unfold Buf.wr
  by_cases h : i < b.size <;> simp [h]

theorem Runs.mono {m : M α} {P Q : α → Prop} (h : Runs m P) (hpq : ∀ a, P a → Q a) : Runs m Q := by
  obtain ⟨a, h1, h2⟩ := h; exact ⟨a, h1, hpq a h2⟩

theorem Runs.and {m : M α} {P Q : α → Prop} (h : Runs m P) (h' : Runs m Q) :
    Runs m (fun a => P a ∧ Q a) := by
  obtain ⟨a, h1, h2⟩ := h; obtain ⟨b, h3, h4⟩ := h'
  rw [h1] at h3; cases h3; exact ⟨a, h1, h2, h4⟩

theorem Runs.eq {m : M α} {Q : α → Prop} {a : α} (h : Runs m Q) (e : m = .ok a) : Q a := by
  obtain ⟨b, h1, h2⟩ := h; rw [h1] at e; cases e; exact h2

theorem loop_runs (f : Nat → σ → M σ) (I : Nat → σ → Prop) (n i : Nat) (s : σ) (h0 : I i s)
    (hstep : ∀ k s, i ≤ k → k < i + n → I k s → Runs (f k s) (I (k + 1))) :
    Runs (loop f n i s) (I (i + n)) := by
  induction n generalizing i s with
  | zero => simpa [loop] using h0
  | succ n ih =>
    simp only [loop, runs_bind]
    refine (hstep i s (Nat.le_refl _) (by omega) h0).mono fun s' hs' => ?_
    have := ih (i + 1) s' hs' (fun k s hk hk' => hstep k s (by omega) (by omega))
    rwa [show i + (n + 1) = i + 1 + n by omega]

/-- Loop-invariant rule for `forUp`. -/
theorem forUp_runs {lo hi : Nat} {s : σ} {f : Nat → σ → M σ} (I : Nat → σ → Prop)
    (hle : lo ≤ hi) (h0 : I lo s)
    (hstep : ∀ k s, lo ≤ k → k < hi → I k s → Runs (f k s) (I (k + 1))) :
    Runs (forUp lo hi s f) (I hi) := by
  have := loop_runs f I (hi - lo) lo s h0 (fun k s h1 h2 => hstep k s h1 (by omega))
  rwa [show lo + (hi - lo) = hi by omega] at this

/-- Loop-invariant rule followed by consequence. -/
theorem forUp_runs' {lo hi : Nat} {s : σ} {f : Nat → σ → M σ} {Q : σ → Prop} (I : Nat → σ → Prop)
    (hle : lo ≤ hi) (h0 : I lo s)
    (hstep : ∀ k s, lo ≤ k → k < hi → I k s → Runs (f k s) (I (k + 1)))
    (hQ : ∀ s, I hi s → Q s) : Runs (forUp lo hi s f) Q :=
  (forUp_runs I hle h0 hstep).mono hQ

theorem forUp_empty {lo hi : Nat} (s : σ) (f : Nat → σ → M σ) (h : hi ≤ lo) :
    forUp lo hi s f = pure s := by
  simp [forUp, Nat.sub_eq_zero_of_le h, loop]

theorem forUp_step {lo hi : Nat} (s : σ) (f : Nat → σ → M σ) (h : lo < hi) :
    forUp lo hi s f = f lo s >>= fun s' => forUp (lo + 1) hi s' f := by
  unfold forUp
  rw [show hi - lo = (hi - (lo + 1)) + 1 by omega]
  rfl

theorem forDown_runs {n : Nat} {s : σ} {f : Nat → σ → M σ} (I : Nat → σ → Prop)
    (h0 : I n s) (hstep : ∀ k s, k < n → I (k + 1) s → Runs (f k s) (I k)) :
    Runs (forDown n s f) (I 0) := by
  induction n generalizing s with
  | zero => simpa [forDown] using h0
  | succ n ih =>
    simp only [forDown, runs_bind]
    refine (hstep n s (by omega) h0).mono fun s' hs' => ?_
    exact ih hs' (fun k s hk => hstep k s (by omega))

theorem forDown_runs' {n : Nat} {s : σ} {f : Nat → σ → M σ} {Q : σ → Prop} (I : Nat → σ → Prop)
    (h0 : I n s) (hstep : ∀ k s, k < n → I (k + 1) s → Runs (f k s) (I k))
    (hQ : ∀ s, I 0 s → Q s) : Runs (forDown n s f) Q :=
  (forDown_runs I h0 hstep).mono hQ

end rules

end Hif
