import Verif.Props.Nsp
import Verif.Props.Factor

set_option linter.unusedSectionVars false
set_option linter.unusedVariables false

/-!
# Further statements about C26, C33, C40, C42

Added after testing the theorems against wrong programs: the filter step of `solve`, attaching a callback, `clear`, a level in
which nothing was eliminated, and the choice of the level kernel after a level was given up.
-/

namespace Hif.Props
open Finset
variable {K : Type} [Field K] [StarRing K]

/-- Run a step of an HM program on two objects. -/
theorem HM_bind_snd {α β : Type} (m : HM K α) (f : α → HM K β) (h : HIF K) :
    (m >>= f) h = match m h with | (h', .ok a) => f a h' | (h', .error e) => (h', .error e) := rfl

/-- **C33 (use in `solve`).** The answer of `solve` is the answer of the same object without filters, passed through the filter of
the requested direction if there is one: the left filter for `trans = false`, the other one for `trans = true`.  The filter of the
other direction plays no role.  Errors of the solve proper are the same. -/
theorem C33_solve_applies_filter (junk : Nat → K) (h : HIF K) (b x : Buf K) (trans : Bool) (r : Nat) :
    (HIF.solve junk b x trans r h).2 =
      match (HIF.solve junk b x trans r { h with nsp := none, nspTran := none }).2 with
      | .error e => .error e
      | .ok y => match (if trans then h.nspTran else h.nsp) with
        | none => .ok y
        | some F => F.filter y y.size := by
  obtain ⟨precs, work, nsp, nspTran, stats, nrows, ncols⟩ := h
  rcases precs with _ | ⟨P, ps⟩
  · rfl
  have he : ∀ (w : Buf K) (f g : Option (Nsp K)), HIF.empty ⟨P :: ps, w, f, g, stats, nrows, ncols⟩ = false := fun _ _ _ => rfl
  generalize P :: ps = precs at he ⊢
  have key : ∀ (w w0 : Buf K) (f : Buf K → M (Buf K × Buf K)),
      ((HIF.withWork f w >>= fun a => HM.lift (HIF.applyFilter ⟨precs, work, nsp, nspTran, stats, nrows, ncols⟩ trans a))
          ⟨precs, w0, nsp, nspTran, stats, nrows, ncols⟩).2 =
      match ((HIF.withWork f w >>= fun a => HM.lift (HIF.applyFilter ⟨precs, work, none, none, stats, nrows, ncols⟩ trans a))
          ⟨precs, w0, none, none, stats, nrows, ncols⟩).2 with
      | .error e => .error e
      | .ok y => match (if trans then nspTran else nsp) with
        | none => .ok y
        | some F => F.filter y y.size := by
    intro w w0 f
    simp only [HM_bind_snd]
    unfold HIF.withWork
    rcases f w with e | ⟨a, w'⟩
    · rfl
    · simp only [HM.lift, HIF.applyFilter]
      cases trans <;> cases nsp <;> cases nspTran <;> rfl
  have hsol : ∀ f g : Option (Nsp K), HIF.solve junk b x trans r ⟨precs, work, f, g, stats, nrows, ncols⟩ =
      if b.size ≠ x.size then HM.fail "unmatched sizes" ⟨precs, work, f, g, stats, nrows, ncols⟩
      else (HIF.withWork (fun w => if trans then Prec.solveT r precs b x w else Prec.solve r precs b x w)
          (if work.size = 0 then ⟨Prec.workSpace precs, junk⟩ else work) >>= fun a =>
            HM.lift (HIF.applyFilter ⟨precs, work, f, g, stats, nrows, ncols⟩ trans a))
          ⟨precs, if work.size = 0 then ⟨Prec.workSpace precs, junk⟩ else work, f, g, stats, nrows, ncols⟩ := by
    intro f g
    unfold HIF.solve
    rw [HM.bind_ok (h' := ⟨precs, work, f, g, stats, nrows, ncols⟩) (a := ⟨precs, work, f, g, stats, nrows, ncols⟩) rfl, he]
    rw [if_neg (by simp)]
    by_cases hs : b.size ≠ x.size
    · rw [if_pos hs, if_pos hs]
    · rw [if_neg hs, if_neg hs]
      by_cases hw : work.size = 0
      · rw [if_pos hw]
        exact HM.bind_ok (by unfold HIF.ensureWork; rw [if_pos hw])
      · rw [if_neg hw]
        exact HM.bind_ok (by unfold HIF.ensureWork; rw [if_neg hw])
  rw [hsol, hsol]
  by_cases hs : b.size ≠ x.size
  · rw [if_pos hs, if_pos hs]; rfl
  · rw [if_neg hs, if_neg hs]; exact key _ _ _

/-- **C33 (callbacks).** After a callback was attached the filter is that callback, whatever the filter was before; a null
callback is rejected. -/
theorem C33_callback_installed (F : Nsp K) (g : Buf K → M (Buf K)) :
    (∃ F', F.setCallback (some g) = .ok F' ∧ ∀ x n, F'.filter x n = g x) ∧
      (∀ x n, (Nsp.ofCallback (some g)).filter x n = g x) ∧
      (∃ m, F.setCallback none = .error (.hif m)) ∧ (∀ a e x n, (F.setConst a e).filter x n = (Nsp.const a e).filter x n) :=
  ⟨⟨_, rfl, fun _ _ => rfl⟩, fun _ _ => rfl, ⟨_, rfl⟩, fun _ _ _ _ => rfl⟩

/-- **C40 (`clear`).** A cleared object is a default-constructed one (apart from the recorded sizes and statistics, which
`factorize` overwrites): no levels, no work space, no filters; every query answers as for an empty object and applying it
raises an exception. -/
theorem C40_clear_resets (junk : Nat → K) (h : HIF K) :
    h.clear junk = HIF.new junk h.nrows h.ncols h.stats ∧ (h.clear junk).empty = true ∧ (h.clear junk).levels = 0 ∧
      (h.clear junk).nnz = 0 ∧ (h.clear junk).rank = some 0 ∧ (h.clear junk).schurSize = 0 ∧
      ∀ b x t r, (HIF.solve junk b x t r (h.clear junk)).2 = .error (.hif "MILU-Prec is empty!") :=
  ⟨rfl, rfl, rfl, rfl, rfl, rfl, fun _ _ _ _ => rfl⟩

/-- **C42 (a level in which nothing was eliminated).** If the leading block is empty, the stored level consists of the dense
block only: no entries in any sparse factor, unit scalings, identity orderings; its count is `n²` with a dense solver and it
contributes nothing to the count of the off-diagonal blocks. -/
theorem C42_trivial_level (o : CroutOut K) (n : Nat) :
    let P := o.toPrec n 0
    P.m = 0 ∧ P.n = n ∧ P.nnz = 0 ∧ P.nnzEf = 0 ∧
      (∀ D, ({ P with last := .dense D } : Prec K).nnz = n * n ∧ ({ P with last := .dense D } : Prec K).nnzEf = 0) ∧
      (∀ i j, P.E.entry i j = 0 ∧ P.F.entry i j = 0 ∧ P.L.entry i j = 0 ∧ P.U.entry i j = 0) ∧
      (∀ i, P.s.get i = 1 ∧ P.t.get i = 1 ∧ P.p.get i = i ∧ P.pinv.get i = i ∧ P.q.get i = i ∧ P.qinv.get i = i) := by
  refine ⟨rfl, rfl, ?_, ?_, fun D => ⟨?_, ?_⟩, fun i j => ⟨?_, ?_, ?_, ?_⟩, fun i => ⟨rfl, rfl, rfl, rfl, rfl, rfl⟩⟩
  · by_cases hn : n = 0 <;> simp [CroutOut.toPrec, Prec.nnz, CS.nnz, CS.zero, Last.isNone]
  · simp [CroutOut.toPrec, Prec.nnzEf, CS.nnz, CS.zero]
  · simp [CroutOut.toPrec, Prec.nnz, CS.nnz, CS.zero, Last.isNone]
  · simp [CroutOut.toPrec, Prec.nnzEf, CS.nnz, CS.zero]
  all_goals simp [CroutOut.toPrec, CS.entry, CS.zero]

/-- **C26 (pivoting sticks).** With automatic pivoting, once a level was given up (`mustPivot`), the non-pivoting kernels are never
consulted again: changing what they would do changes nothing. -/
theorem C26_pivoting_sticks (ker ker' : Kernels K) (opts : FacOpts) (hopt : opts.pivot = .auto) (hsym : opts.isSymm = false)
    (hlev : ker.level .pivot = ker'.level .pivot) (hden : ker.dense false = ker'.dense false) (fuel : Nat) :
    ∀ (A : CS K) (m0 : Nat) (h : HIF K),
      HIF.factorizeKernel ker opts fuel A m0 true h = HIF.factorizeKernel ker' opts fuel A m0 true h := by
  have hk : ∀ sym, levelKind opts sym true = .pivot := fun sym => by simp [levelKind, hsym, hopt]
  have hp : ∀ r : LevelRes K, pivotFlag opts true r = true := fun r => by simp [pivotFlag, hsym, hopt]
  have hl : ∀ lvl N m A, HIF.levelFactorize ker opts .pivot lvl N m A = HIF.levelFactorize ker' opts .pivot lvl N m A := by
    intro lvl N m A
    unfold HIF.levelFactorize
    have e1 : (LevelKind.pivot == LevelKind.symm) = false := rfl
    simp only [hlev, e1, hden]
  induction fuel with
  | zero => intro A m0 h; rfl
  | succ fuel ih =>
    intro A m0 h
    unfold HIF.factorizeKernel
    split
    · rfl
    · have ih' : ∀ A m0, HIF.factorizeKernel ker opts fuel A m0 true = HIF.factorizeKernel ker' opts fuel A m0 true :=
        fun A m0 => funext (ih A m0)
      simp only [hk, hp, hl, ih']

/-- **C26 (giving up).** A level that is given up under automatic pivoting is redone, on the same matrix, with the pivoting kernel:
nothing was pushed and the flag is set. -/
theorem C26_retry_uses_pivoting (opts : FacOpts) (hopt : opts.pivot = .auto) (hsym : opts.isSymm = false) (mp : Bool) (sym : Bool) :
    levelKind opts sym (pivotFlag opts mp (LevelRes.retry : LevelRes K)) = .pivot := by
  simp [levelKind, pivotFlag, hsym, hopt]

/-! ### Concrete cases -/

example : ((Nsp.const 0 2).setCallback (some fun x : Buf ℚ => pure (x.set 0 7))).toOption.isSome = true := rfl

end Hif.Props
