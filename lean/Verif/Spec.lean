import Mathlib.Algebra.BigOperators.Intervals
import Mathlib.Algebra.Star.Basic

/-!
# Small specification vocabulary (independent of the model)

Matrices are functions `Nat → Nat → K` together with explicit dimensions; vectors are functions
`Nat → K`.
-/

namespace Hif.Spec
open Finset
variable {K : Type _}

/-- `(A x)_i` for a matrix with `n` columns. -/
def mulVec [NonUnitalNonAssocSemiring K] (n : Nat) (A : Nat → Nat → K) (x : Nat → K) (i : Nat) : K :=
  ∑ j ∈ range n, A i j * x j

/-- Hermitian transpose. -/
def herm [Star K] (A : Nat → Nat → K) : Nat → Nat → K := fun i j => star (A j i)

/-- The `n × n` matrix `A` is strictly lower triangular. -/
def StrictLower [Zero K] (n : Nat) (A : Nat → Nat → K) : Prop :=
  ∀ i, i < n → ∀ j, j < n → i ≤ j → A i j = 0
/-- The `n × n` matrix `A` is strictly upper triangular. -/
def StrictUpper [Zero K] (n : Nat) (A : Nat → Nat → K) : Prop :=
  ∀ i, i < n → ∀ j, j < n → j ≤ i → A i j = 0

/-- `x` solves `(I + T) x = b` (dimension `n`). -/
def SolvesUnit [NonUnitalNonAssocSemiring K] (n : Nat) (T : Nat → Nat → K) (b x : Nat → K) : Prop :=
  ∀ i, i < n → x i + mulVec n T x i = b i

/-- Column `c` of a row-major `n × N` array. -/
def col (N : Nat) (x : Nat → K) (c : Nat) : Nat → K := fun i => x (i * N + c)

/-- `f` restricted to `[0,n)` is a bijection of `[0,n)`. -/
def IsPerm (n : Nat) (f : Nat → Nat) : Prop :=
  (∀ i, i < n → f i < n) ∧ ∀ i j, i < n → j < n → f i = f j → i = j

/-- `f` and `g` are mutually inverse permutations of `[0,n)`. -/
def Inverse (n : Nat) (f g : Nat → Nat) : Prop :=
  (∀ i, i < n → f i < n ∧ g (f i) = i) ∧ (∀ i, i < n → g i < n ∧ f (g i) = i)

end Hif.Spec
