import Verif.Prec
import Mathlib.Algebra.CharZero.Defs
import Mathlib.Data.Nat.Cast.Basic

set_option linter.unusedSectionVars false
set_option linter.unusedVariables false

/-!
# Null-space filter

Model of `NspFilter` (src/hif/NspFilter.hpp 62–183).
-/

namespace Hif
open Finset

/-- `static_cast<std::size_t>(-1)` (64-bit `size_t`). -/
def sizeMax : Nat := 2 ^ 64 - 1

/-- `_type` together with what each type carries (NspFilter.hpp 66–70, 180–182).  The user routines are arbitrary functions
of the vector: `userOr none` is the virtual function that was not overridden, `userCb none` an unattached callback. -/
inductive NspKind (K : Type _) where
  | constant
  | userOr (f : Option (Buf K → M (Buf K)))
  | userCb (f : Option (Buf K → M (Buf K)))

/-- `NspFilter`: `_type`, `_cst_rg[0]`, `_cst_rg[1]` (NspFilter.hpp 180–182). -/
structure Nsp (K : Type _) where
  kind : NspKind K
  start : Nat
  stop : Nat

namespace Nsp
variable {K : Type _}

/-- `NspFilter(start, end)` (NspFilter.hpp 75–81); both arguments are optional in the code (0 and `size_t(-1)`). -/
def const (start stop : Nat) : Nsp K := ⟨.constant, start, stop⟩

/-- `NspFilter(f)` (NspFilter.hpp 86–98). -/
def ofCallback (f : Option (Buf K → M (Buf K))) : Nsp K := ⟨.userCb f, 0, sizeMax⟩

/-- `set_nsp_const` (NspFilter.hpp 121–127). -/
def setConst (F : Nsp K) (start stop : Nat) : Nsp K := ⟨.constant, start, stop⟩

/-- `set_nsp_callback` (NspFilter.hpp 130–134); a null callback is stored before the error is raised, the type stays. -/
def setCallback (F : Nsp K) (f : Option (Buf K → M (Buf K))) : M (Nsp K) :=
  match f with
  | some g => pure { F with kind := .userCb (some g) }
  | none => throw (.hif "empty user callback was not attached!")

section
variable [Field K]

/-- The effective end of the range (NspFilter.hpp 161–164). -/
def effEnd (F : Nsp K) (n : Nat) : Nat :=
  if F.stop = sizeMax ∨ F.stop < F.start then n else F.stop

/-- `_const_filter` (NspFilter.hpp 157–173). -/
def constFilter (F : Nsp K) (x : Buf K) (n : Nat) : M (Buf K) :=
  let e := F.effEnd n
  if e < F.start ∨ n < e then throw (.hif "wrong range (start,end,n)")
  else if F.start = e then pure x
  else do
    let sum ← forUp F.start e (0 : K) fun i a => do
      let v ← x.rd i
      pure (a + v)
    let shift := sum / ((e - F.start : Nat) : K)
    updRange F.start e x fun _ a => pure (a - shift)

/-- `filter` (NspFilter.hpp 138–151). -/
def filter (F : Nsp K) (x : Buf K) (n : Nat) : M (Buf K) :=
  match F.kind with
  | .constant => F.constFilter x n
  | .userOr (some f) => f x
  | .userOr none => throw (.hif "user routine was not overriden!")
  | .userCb (some f) => f x
  | .userCb none => throw (.hif "user callback was not attached!")

/-- What the constant filter does on a valid, non-empty range. -/
theorem constFilter_runs (F : Nsp K) (x : Buf K) (n : Nat) (hx : n ≤ x.size) (h1 : F.start < F.effEnd n) (h2 : F.effEnd n ≤ n) :
    Runs (F.constFilter x n) fun y => y.size = x.size ∧
      ∀ i, y.get i = if F.start ≤ i ∧ i < F.effEnd n then
        x.get i - (∑ j ∈ Ico F.start (F.effEnd n), x.get j) / ((F.effEnd n - F.start : Nat) : K) else x.get i := by
  unfold constFilter
  simp only
  rw [if_neg (by omega), if_neg (by omega), runs_bind]
  have hs : Runs (forUp F.start (F.effEnd n) (0 : K) fun i a => do
      let v ← x.rd i
      pure (a + v)) fun s => s = ∑ j ∈ Ico F.start (F.effEnd n), x.get j := by
    refine forUp_runs' (fun i s => s = ∑ j ∈ Ico F.start i, x.get j) (by omega) (by simp) ?_ (fun _ h => h)
    rintro i s h3 h4 rfl
    simp only [runs_bind, runs_rd, runs_pure]
    exact ⟨by omega, by rw [sum_Ico_succ_top h3]⟩
  refine hs.mono ?_
  rintro s rfl
  refine (updRange_runs (by omega) (by omega) (fun i => x.get i -
    (∑ j ∈ Ico F.start (F.effEnd n), x.get j) / ((F.effEnd n - F.start : Nat) : K)) ?_).mono ?_
  · intro i _ _
    simp only [runs_pure]
  · rintro y ⟨h3, h4⟩
    exact ⟨h3, h4⟩

end
end Nsp
end Hif
