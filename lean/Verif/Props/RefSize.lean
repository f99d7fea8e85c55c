import Verif.SizesRun

set_option linter.unusedVariables false
set_option linter.unusedSectionVars false

/-!
# C62: which reference size every level is given

The dense criterion of a level (`C62_dense_criterion`) refers to a size `N`; here: it is one and the same number for all levels.
-/

namespace Hif.Props
open HIF HM
variable {K : Type} [Zero K] [One K]

/-- The option `N` if it is not negative, otherwise the given size. -/
def refOf (opts : FacOpts) (n : Nat) : Nat := if 0 ≤ opts.N then opts.N.toNat else n

/-- Kernels that ignore the size the driver hands them and use `N` at every level. -/
def Kernels.withSize (ker : Kernels K) (N : Nat) : Kernels K := { ker with level := fun kind lvl _ m0 A => ker.level kind lvl N m0 A }

theorem refSize_kernel (ker : Kernels K) (opts : FacOpts) (n : Nat) : ∀ fuel A m0 mp (h : HIF K),
    (h.precs = [] ∧ A.psize = n ∨ ∃ P rest, h.precs = P :: rest ∧ P.n = n) →
    factorizeKernel ker opts fuel A m0 mp h = factorizeKernel (Kernels.withSize ker (refOf opts n)) opts fuel A m0 mp h
  | 0, A, m0, mp, h, _ => rfl
  | fuel + 1, A, m0, mp, h, hh => by
    rw [factorizeKernel, factorizeKernel]
    by_cases hsq : A.psize ≠ A.ssize
    · rw [if_pos hsq, if_pos hsq]
    rw [if_neg hsq, if_neg hsq, bind_ok (h' := h) (a := h) rfl, bind_ok (h' := h) (a := h) rfl]
    have hN : refSize opts h A = refOf opts n := by
      unfold refSize refOf
      split
      · rfl
      · rcases hh with ⟨e, en⟩ | ⟨P, rest, e, en⟩
        · rw [e]; exact en
        · rw [e]; exact en
    have hl : levelFactorize (Kernels.withSize ker (refOf opts n)) opts (levelKind opts (h.levels + 1 == 1 && decide (0 < m0)) mp) (h.levels + 1)
        (refSize opts h A) (if (h.levels + 1 == 1 && decide (0 < m0)) = true then m0 else A.psize) A h =
        levelFactorize ker opts (levelKind opts (h.levels + 1 == 1 && decide (0 < m0)) mp) (h.levels + 1)
        (refSize opts h A) (if (h.levels + 1 == 1 && decide (0 < m0)) = true then m0 else A.psize) A h := by
      rw [hN]; rfl
    have shape := Level.levelFactorize_shape ker opts (levelKind opts (h.levels + 1 == 1 && decide (0 < m0)) mp) (h.levels + 1) (refSize opts h A)
        (if (h.levels + 1 == 1 && decide (0 < m0)) = true then m0 else A.psize) A h
    rcases e1 : levelFactorize ker opts (levelKind opts (h.levels + 1 == 1 && decide (0 < m0)) mp) (h.levels + 1) (refSize opts h A)
        (if (h.levels + 1 == 1 && decide (0 < m0)) = true then m0 else A.psize) A h with ⟨h', e' | res⟩
    · rw [e1] at hl
      rw [bind_error e1, bind_error hl]
    · rw [e1] at hl shape
      rw [bind_ok e1, bind_ok hl, bind_ok (h' := h') (a := h') rfl, bind_ok (h' := h') (a := h') rfl]
      split
      · refine refSize_kernel ker opts n fuel _ _ _ h' ?_
        rcases shape with ⟨err, -, e⟩ | ⟨out, -, ⟨-, e⟩ | ⟨-, h2, l, r, e, hp, -⟩⟩
        · cases e
        · cases e; exact hh
        · cases e
          rcases hh with ⟨e0, en⟩ | ⟨P, rest, e0, en⟩
          · refine Or.inr ⟨_, [], by rw [hp, e0]; rfl, ?_⟩
            show (out.toPrec A.psize (postFlag out.m2 out.m).2).n = n
            rw [(toPrec_m out A.psize _).2.1, en]
          · exact Or.inr ⟨P, rest ++ _, by rw [hp, e0]; rfl, en⟩
      · rfl

/-- **C62** (reference size): whatever the object held before, whichever levels are retried and however many there are, every level of `factorize` decides with one and the
same reference size: the option `N`, or the size of the user's matrix if this option is negative. -/
theorem C62_reference_size (junk : Nat → K) (ijunk : Nat → Int) (ker : Kernels K) (opts : FacOpts) (A : Input K) (m0 : Nat) (h : HIF K) :
    factorize junk ijunk ker opts A m0 h =
      factorize junk ijunk { ker with level := fun kind lvl _ m0 B => ker.level kind lvl (if 0 ≤ opts.N then opts.N.toNat else A.raw.psize) m0 B } opts A m0 h := by
  unfold factorize
  rw [bind_ok (m := beginFactorize junk A.nrows A.ncols) (h := h) rfl, bind_ok (m := beginFactorize junk A.nrows A.ncols) (h := h) rfl]
  set g := (beginFactorize junk A.nrows A.ncols h).1 with hg
  have hp : g.precs = [] := rfl
  rcases hz : A.toZeroBased ijunk with e | raw
  · rfl
  have hr : raw.psize = A.raw.psize := by
    unfold Input.toZeroBased at hz
    split at hz
    · rcases e0 : A.raw.start.rd 0 with e | b
      · rw [e0] at hz; cases hz
      · rw [e0] at hz
        change (if b = 0 then _ else _ : M RawCS) = _ at hz
        split at hz
        · cases hz; rfl
        · split at hz
          · cases hz; rfl
          · cases hz
    · cases hz; rfl
  rw [bind_ok (h' := g) (a := raw) rfl, bind_ok (h' := g) (a := raw) rfl]
  rcases hc : (if opts.check = true then raw.checkValidity A.other else pure () : M Unit) with e | u
  · rfl
  · rw [bind_ok (h' := g) (a := u) rfl, bind_ok (h' := g) (a := u) rfl]
    exact refSize_kernel ker opts A.raw.psize _ _ _ _ g (Or.inl ⟨hp, hr⟩)

end Hif.Props
