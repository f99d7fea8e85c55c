import Verif.SyEig
import Verif.Qrcp

/-!
# The symmetric dense solver in the multilevel preconditioner (model)

How `symm_level_factorize` and the solve and product routines use `SYEIG`.
-/

namespace Hif
namespace SyEig
variable {R V : Type} [Field R] [LinearOrder R] [Field V] [StarRing V]

/-- The operations the preconditioner uses (prec_solve.hpp 379, 482, 584; prec_prod.hpp 87, 182): there is no transposed version. -/
def ops (c : R → V) (s : St R V) : DenseOps V :=
  { solve := fun x rank _ => solve c s x rank, multiply := fun x rank _ => multiply c s x rank,
    solveMrhs := fun N x rank => mrhs divAt c s (x.size / N) N x rank, rank := s.rank }

/-- `last_level.set_matrix(S_D); last_level.factorize(opts)` (symm_factor.hpp 654–657; SYEIG.hpp 84–90, 107–175) for a new solver; the backup is not used by solves and
products. -/
def dense [Inhabited V] (c : R → V) (spd : Int) (eps : R) (srt : (Nat → R) → Buf Nat → Buf Nat) (syev : Nat → Buf V → Buf R × Buf V × Int) (lwork : Nat → Nat) (rowMajor : Bool)
    (_symm : Bool) (S : CS V) : DenseOps V × Option Err :=
  let r : M (St R V) := do
    let d ← (if rowMajor then S.denseFromCRS else S.denseFromCCS)
    factorize spd eps srt syev (lwork S.psize)
      { nrows := if rowMajor then S.psize else S.ssize, ncols := if rowMajor then S.ssize else S.psize, mat := d, w := Buf.mk' 0 0, work := Buf.mk' 0 default,
        order := Buf.mk' 0 0, rank := 0 }
  match r with
  | .ok s => (ops c s, none)
  | .error e => (Qrcp.failed, some e)

end SyEig
end Hif
