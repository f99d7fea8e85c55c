import Verif.Mc64Kernel
import Verif.Pre
import Verif.Builder

set_option linter.unusedVariables false
set_option linter.unusedSectionVars false
set_option linter.unusedSimpArgs false

/-!
# The driver of the weighted matching

Model of `eql::detail::compute` (src/hif/pre/equilibrate.hpp 67–160) and `eql::Equilibrator` (724–798), and of the shift to numbering from 1
(`shift_to_fortran_index` at the end of the a-priori scalings, a_priori_scaling.hpp 62–70).
-/

namespace Hif
namespace Mc64

/-- The functions `std::log`, `std::exp`. -/
structure Trans (R : Type _) where
  log : R → R
  exp : R → R

section
variable {K : Type _} {R : Type _} [Field R] [LinearOrder R] [Inhabited K]

/-- Column pointers of the matrix as the matching sees them: the lines of `B`, numbered from 1 (a_priori_scaling.hpp 62–70). -/
def ipOf (B : CS K) : Buf Nat := ⟨B.start.size + 1, fun j => B.start.get (j - 1) + 1⟩

/-- Row numbers, from 1. -/
def irnOf (B : CS K) : Buf Nat := ⟨B.inds.size + 1, fun k => B.inds.get (k - 1) + 1⟩

/-- Values, from 1. -/
def valsOf (B : CS K) : Buf K := ⟨B.vals.size + 1, fun k => B.vals.get (k - 1)⟩

/-- `std::log` of a stored number; `log(inf)` is `inf`. -/
def logD (T : Trans R) : D R → D R
  | some x => some (T.log x)
  | none => none

/-- Costs of line `j` (119–134): the largest magnitude is kept, and an entry costs the logarithm of its ratio to it; `rinf / n` is infinite. -/
def costBody (nrm : K → R) (T : Trans R) (B : CS K) (j : Nat) (r : Buf R × Buf (D R)) : M (Buf R × Buf (D R)) := do
  let lo ← rd1 (ipOf B) j
  let hi ← rd1 (ipOf B) (j + 1)
  let w ← forUp lo hi (r.2, (0 : R)) fun k (w : Buf (D R) × R) => do
    let x ← rd1 (valsOf B) k
    let a ← wr1 w.1 k ((nrm x : R) : D R)
    pure (a, if w.2 < nrm x then nrm x else w.2)
  let mx ← wr1 r.1 j w.2
  let fact : D R := if w.2 ≠ 0 then ((T.log w.2 : R) : D R) else ⊤
  let a ← forUp lo hi w.1 fun k (a : Buf (D R)) => do
    let x ← rd1 a k
    if x ≠ ((0 : R) : D R) then do
      let y ← fsub fact (logD T x)
      wr1 a k y
    else wr1 a k ⊤
  pure (mx, a)

/-- Costs (119–134); `junk` is what the work arrays contain. -/
def costs (nrm : K → R) (T : Trans R) (B : CS K) (junk : Nat → R) : M (Buf R × Buf (D R)) :=
  forUp 1 (B.psize + 1) ((⟨B.psize + 1, junk⟩ : Buf R), (⟨B.nnz + 1, fun i => ((junk i : R) : D R)⟩ : Buf (D R))) fun j r => costBody nrm T B j r

/-- Column values of the unscaled matrix (138–145), only if all columns are assigned. -/
def shiftDual (T : Trans R) (n num : Nat) (mx : Buf R) (d : Buf (D R)) : M (Buf (D R)) :=
  if num = n then
    forUp 1 (n + 1) d fun j d => do
      let m ← rd1 mx j
      if m ≠ 0 then do
        let x ← rd1 d j
        let y ← fsub x ((T.log m : R) : D R)
        wr1 d j y
      else wr1 d j ((0 : R) : D R)
  else pure d

/-- The flag (146–152): 2 for an infinite scaling (`log(rinf) * .5` is infinite), 1 for a structurally singular matrix. -/
def flag (n num : Nat) (u d : Buf (D R)) : M Int := do
  let f ← forUp 1 (n + 1) (0 : Int) fun j f =>
    if f = 2 then pure f
    else do
      let x ← rd1 u j
      let y ← rd1 d j
      pure (if x < ⊤ ∧ y < ⊤ then f else 2)
  pure (if f = 0 ∧ num < n then 1 else f)

/-- `Equilibrator::s`, `Equilibrator::t` (778–781) for all indices.  Simplification: an infinite scaling is reported as undefined. -/
def expAll (T : Trans R) (n : Nat) (u : Buf (D R)) : M (Buf R) :=
  forUp 0 n (Buf.mk' n 0) fun i s => do
    let x ← rd1 u (i + 1)
    match x with
    | some x => s.wr i (T.exp x)
    | none => throw (.ub "infinite scaling")

/-- `Equilibrator::compute` (741–758) with `compute` (67–160), on a matrix given by its lines.  The lengths of the work arrays are the required ones
(794–798). -/
def compute (nrm : K → R) (T : Trans R) (junk : Nat → R) (junkI : Nat → Nat) (B : CS K) : M (Pre.MatchOut R) :=
  if B.psize < 1 then pure ⟨-2, Buf.mk' 0 0, Buf.mk' 0 0, Buf.mk' 0 0⟩
  else if B.nnz < 1 then pure ⟨-3, Buf.mk' 0 0, Buf.mk' 0 0, Buf.mk' 0 0⟩
  else do
    let r ← costs nrm T B junk
    let o ← kernel ⟨B.psize, ipOf B, irnOf B, r.2⟩ junkI
    let d ← shiftDual T B.psize o.num r.1 o.d
    let f ← flag B.psize o.num o.u d
    let s ← expAll T B.psize o.u
    let t ← expAll T B.psize d
    pure ⟨f, ⟨B.psize, fun i => o.perm.get (i + 1)⟩, s, t⟩

/-- The matching as the preprocessing calls it; a run that does not complete is represented by a negative flag. -/
def matchOf (nrm : K → R) (T : Trans R) (junk : Nat → R) (junkI : Nat → Nat) (B : CS K) : Pre.MatchOut R :=
  match compute nrm T junk junkI B with
  | .ok o => o
  | .error _ => ⟨-1, Buf.mk' 0 0, Buf.mk' 0 0, Buf.mk' 0 0⟩

end
end Mc64
end Hif
