import Verif.BuilderLemmas
import Verif.PrecMrhs

set_option linter.unusedSectionVars false
set_option linter.unusedVariables false
set_option linter.unusedSimpArgs false

/-!
# Call histories on the user-level object

A history is a list of calls; each call may complete or raise an exception, and the object keeps whatever state it then has.
-/

namespace Hif
open Finset Spec
variable {K : Type _} [Field K] [StarRing K]

namespace HM

/-- The operation keeps the invariant `I`, whether or not it raises an exception. -/
def Keeps {α : Type _} (I : HIF K → Prop) (m : HM K α) : Prop := ∀ h, I h → I (m h).1

theorem keeps_pure {α : Type _} {I : HIF K → Prop} (a : α) : Keeps I (pure a : HM K α) := fun _ hi => hi
theorem keeps_lift {α : Type _} {I : HIF K → Prop} (m : M α) : Keeps I (lift m : HM K α) := fun _ hi => hi
theorem keeps_fail {α : Type _} {I : HIF K → Prop} (s : String) : Keeps I (fail s : HM K α) := fun _ hi => hi
theorem keeps_read {I : HIF K → Prop} : Keeps I (read : HM K (HIF K)) := fun _ hi => hi
theorem keeps_bind {α β : Type _} {I : HIF K → Prop} {m : HM K α} {f : α → HM K β} (hm : Keeps I m) (hf : ∀ a, Keeps I (f a)) :
    Keeps I (m >>= f) := by
  intro h hi
  have := hm h hi
  show I (match m h with | (h', .ok a) => f a h' | (h', .error e) => (h', .error e)).1
  rcases e : m h with ⟨h', _ | a⟩
  · rw [e] at this; exact this
  · rw [e] at this; exact hf a h' this
theorem keeps_ite {α : Type _} {I : HIF K → Prop} {c : Prop} [Decidable c] {m m' : HM K α} (h1 : Keeps I m) (h2 : Keeps I m') :
    Keeps I (if c then m else m') := by split <;> assumption
theorem keeps_loop {σ : Type _} {I : HIF K → Prop} {f : Nat → σ → HM K σ} (hf : ∀ i s, Keeps I (f i s)) :
    ∀ n i s, Keeps I (loop f n i s)
  | 0, _, s => keeps_pure s
  | n + 1, i, s => keeps_bind (hf i s) fun s' => keeps_loop hf n (i + 1) s'

end HM

namespace HIF
open HM

/-- The calls a user can make on one object.  `factorize` carries what it leaves in the object: the levels it managed to
build (all of them if it completes, some of them if it raises an exception) and the sizes and statistics; `work` is emptied
iff the object held levels before (builder.hpp 295–301).  Filters are public members: `setFilters`. -/
inductive Call (K : Type _) where
  | factorize (precs : List (Prec K)) (nrows ncols : Nat) (stats : Nat → Nat)
  | clear
  | setFilters (nsp nspTran : Option (Nsp K))
  | solve (b x : Buf K) (trans : Bool) (r : Nat)
  | mmultiply (x y : Buf K) (trans : Bool) (r : Nat)
  | hifir (A : Operator K) (b : Buf K) (N : Nat) (x : Buf K) (trans : Bool) (r : Nat)
  | hifirBounded (A : Operator K) (norm : Buf K → Rat) (b : Buf K) (N : Nat) (β₀ β₁ : Rat) (x : Buf K) (trans : Bool) (r : Nat)
  | solveMrhs (N : Nat) (b x : Buf K) (r : Nat)

/-- State after a call. -/
def Call.exec (junk : Nat → K) : Call K → HIF K → HIF K
  | .factorize ps nr nc st, h =>
    { h with precs := ps, nrows := nr, ncols := nc, stats := st, work := if h.empty then h.work else ⟨0, junk⟩ }
  | .clear, h => h.clear junk
  | .setFilters a b, h => { h with nsp := a, nspTran := b }
  | .solve b x t r, h => (HIF.solve junk b x t r h).1
  | .mmultiply x y t r, h => (HIF.mmultiply junk x y t r h).1
  | .hifir A b N x t r, h => (HIF.hifir junk A b N x t r h).1
  | .hifirBounded A nm b N b0 b1 x t r, h => (HIF.hifirBounded junk A nm b N b0 b1 x t r h).1
  | .solveMrhs N b x r, h => (HIF.solveMrhs junk N b x r h).1

/-- State after a history. -/
def run (junk : Nat → K) (h : HIF K) : List (Call K) → HIF K
  | [] => h
  | c :: cs => run junk (c.exec junk h) cs

/-- Number of right-hand sides a call works on at once (none: it does not use the work space). -/
def Call.width : Call K → Option Nat
  | .factorize .. | .clear | .setFilters .. => none
  | .solveMrhs N .. => some N
  | _ => some 1

/-- The work space is unallocated or large enough for `N` right-hand sides at once. -/
def ReadyFor (N : Nat) (h : HIF K) : Prop := h.work.size = 0 ∨ Prec.workSpace h.precs * N ≤ h.work.size

/-- Invariant: ready for `N`, and nothing allocated while there are no levels. -/
def Fits (N : Nat) (h : HIF K) : Prop := ReadyFor N h ∧ (h.precs = [] → h.work.size = 0)

theorem fits_ensureWork {N W : Nat} (junk : Nat → K) (h : HIF K) (hf : Fits N h) (hne : h.precs ≠ [])
    (hW : Prec.workSpace h.precs * N ≤ W) : Fits N (ensureWork junk W h).1 ∧ (ensureWork junk W h).1.precs = h.precs ∧
      ∃ w, (ensureWork junk W h).2 = .ok w ∧ w.size = (ensureWork junk W h).1.work.size := by
  unfold ensureWork
  split
  · exact ⟨⟨Or.inr hW, fun hh => absurd hh hne⟩, rfl, _, rfl, rfl⟩
  · exact ⟨hf, rfl, _, rfl, rfl⟩

theorem fits_withWork {α : Type _} {N : Nat} (f : Buf K → M (α × Buf K)) (w : Buf K) (h : HIF K) (hf : Fits N h)
    (hw : w.size = h.work.size) : Fits N (withWork f w h).1 := by
  unfold withWork
  rcases f w with e | ⟨a, w'⟩
  · exact hf
  · refine ⟨?_, fun hh => ?_⟩
    · show w.size = 0 ∨ Prec.workSpace h.precs * N ≤ w.size
      rw [hw]; exact hf.1
    · show w.size = 0
      rw [hw]; exact hf.2 hh

theorem empty_false {h : HIF K} (he : ¬ h.empty = true) : h.precs ≠ [] := by
  intro hp; apply he; unfold empty; rw [hp]; rfl

/-- The shape shared by all calls that use the work space. -/
theorem fits_apply {α : Type _} {N W : Nat} (junk : Nat → K) (f : Buf K → M (α × Buf K)) (h : HIF K) (hf : Fits N h)
    (hne : h.precs ≠ []) (hW : Prec.workSpace h.precs * N ≤ W) :
    Fits N ((ensureWork junk W >>= fun w => withWork f w) h).1 := by
  obtain ⟨h1, h2, w, e, hw⟩ := fits_ensureWork junk h hf hne hW
  rcases e2 : ensureWork junk W h with ⟨h', o⟩
  rw [e2] at h1 h2 e hw
  simp only at e
  subst e
  rw [bind_ok e2]
  exact fits_withWork f w h' h1 hw

theorem keeps_solve {N : Nat} (hN : N ≤ 1) (junk : Nat → K) (b x : Buf K) (t : Bool) (r : Nat) :
    Keeps (Fits N) (solve junk b x t r) := by
  intro h hf
  unfold solve
  show Fits N ((if h.empty = true then _ else _ : HM K _) h).1
  split
  · exact hf
  rename_i he
  split
  · exact hf
  have hne := empty_false he
  obtain ⟨h1, h2, w, e, hw⟩ := fits_ensureWork junk h hf hne (W := Prec.workSpace h.precs) (by
    calc _ ≤ Prec.workSpace h.precs * 1 := Nat.mul_le_mul_left _ hN
      _ = _ := Nat.mul_one _)
  rcases e2 : ensureWork junk (Prec.workSpace h.precs) h with ⟨h', o⟩
  rw [e2] at h1 h2 e hw
  simp only at e
  subst e
  rw [bind_ok e2]
  refine keeps_bind (I := fun g => Fits N g ∧ w.size = g.work.size) ?_ (fun a => keeps_lift _) h' ⟨h1, hw⟩ |>.1
  intro g hg
  refine ⟨fits_withWork _ _ g hg.1 hg.2, ?_⟩
  unfold withWork
  split
  · rfl
  · exact hg.2

theorem keeps_mmultiply {N : Nat} (hN : N ≤ 1) (junk : Nat → K) (b x : Buf K) (t : Bool) (r : Nat) :
    Keeps (Fits N) (mmultiply junk b x t r) := by
  intro h hf
  unfold mmultiply
  show Fits N ((if h.empty = true then _ else _ : HM K _) h).1
  split
  · exact hf
  rename_i he
  split
  · exact hf
  exact fits_apply junk _ h hf (empty_false he) (by
    calc _ ≤ Prec.workSpace h.precs * 1 := Nat.mul_le_mul_left _ hN
      _ = _ := Nat.mul_one _)

theorem keeps_solveMrhs {N : Nat} (junk : Nat → K) (N' : Nat) (hN : N ≤ N') (b x : Buf K) (r : Nat) :
    Keeps (Fits N) (solveMrhs junk N' b x r) := by
  intro h hf
  unfold solveMrhs
  show Fits N ((if h.empty = true then _ else _ : HM K _) h).1
  split
  · exact hf
  rename_i he
  split
  · exact hf
  split
  · exact hf
  exact fits_apply junk _ h hf (empty_false he) (Nat.mul_le_mul_left _ hN)

theorem keeps_hifir {N : Nat} (hN : N ≤ 1) (junk : Nat → K) (A : Operator K) (b : Buf K) (n : Nat) (x : Buf K) (t : Bool) (r : Nat) :
    Keeps (Fits N) (hifir junk A b n x t r) := by
  unfold hifir
  refine keeps_ite (keeps_solve hN _ _ _ _ _) (keeps_bind keeps_read fun h => keeps_ite (keeps_fail _) ?_)
  refine keeps_bind (keeps_lift _) fun x => keeps_bind (keeps_loop (fun i s => ?_) _ _ _) fun s => keeps_pure _
  unfold irStep
  exact keeps_bind (keeps_lift _) fun _ => keeps_bind (keeps_lift _) fun _ => keeps_bind (keeps_solve hN _ _ _ _ _) fun _ =>
    keeps_bind (keeps_lift _) fun _ => keeps_pure _

theorem keeps_irbUpdate {N : Nat} (hN : N ≤ 1) (junk : Nat → K) (b : Buf K) (t : Bool) (r : Nat) (s : Buf K × Buf K × Buf K) :
    Keeps (Fits N) (irbUpdate junk b t r s) := by
  unfold irbUpdate
  exact keeps_bind (keeps_solve hN _ _ _ _ _) fun _ => keeps_bind (keeps_lift _) fun _ => keeps_pure _

theorem keeps_irbLoop {R : Type _} [LinearOrder R] [Zero R] [Div R] {N : Nat} (hN : N ≤ 1) (junk : Nat → K) (A : Operator K)
    (b : Buf K) (norm : Buf K → R) (bnorm β₀ β₁ : R) (t : Bool) (r : Nat) : ∀ fuel it s,
    Keeps (Fits N) (irbLoop junk A b norm bnorm β₀ β₁ t r fuel it s)
  | 0, it, s => by
    unfold irbLoop
    exact keeps_bind (keeps_irbUpdate hN _ _ _ _ _) fun _ => keeps_pure _
  | fuel + 1, it, s => by
    unfold irbLoop
    exact keeps_bind (keeps_irbUpdate hN _ _ _ _ _) fun _ => keeps_bind (keeps_lift _) fun _ => keeps_ite (keeps_pure _)
      (keeps_ite (keeps_pure _) (keeps_irbLoop hN _ _ _ _ _ _ _ _ _ _ _ _))

theorem keeps_hifirBounded {R : Type _} [LinearOrder R] [Zero R] [Div R] {N : Nat} (hN : N ≤ 1) (junk : Nat → K) (A : Operator K)
    (norm : Buf K → R) (b : Buf K) (n : Nat) (β₀ β₁ : R) (x : Buf K) (t : Bool) (r : Nat) :
    Keeps (Fits N) (hifirBounded junk A norm b n β₀ β₁ x t r) := by
  unfold hifirBounded
  refine keeps_ite (keeps_bind (keeps_solve hN _ _ _ _ _) fun _ => keeps_pure _)
    (keeps_ite (keeps_bind (keeps_lift _) fun _ => keeps_pure _) (keeps_bind keeps_read fun h => keeps_ite (keeps_fail _) ?_))
  exact keeps_bind (keeps_lift _) fun _ => keeps_bind (keeps_lift _) fun _ => keeps_irbLoop hN _ _ _ _ _ _ _ _ _ _ _ _

theorem fits_exec {N : Nat} (junk : Nat → K) (c : Call K) (hc : ∀ w, c.width = some w → N ≤ w) (h : HIF K) (hf : Fits N h) :
    Fits N (c.exec junk h) := by
  cases c with
  | factorize ps nr nc st =>
    unfold Call.exec Fits ReadyFor
    have hz : (if h.empty = true then h.work else (⟨0, junk⟩ : Buf K)).size = 0 := by
      split
      · rename_i he
        apply hf.2
        unfold empty at he
        exact List.isEmpty_iff.1 he
      · rfl
    exact ⟨Or.inl hz, fun _ => hz⟩
  | clear => exact ⟨Or.inl rfl, fun _ => rfl⟩
  | setFilters a b => exact hf
  | solve b x t r => exact keeps_solve (hc 1 rfl) junk b x t r h hf
  | mmultiply x y t r => exact keeps_mmultiply (hc 1 rfl) junk x y t r h hf
  | hifir A b n x t r => exact keeps_hifir (hc 1 rfl) junk A b n x t r h hf
  | hifirBounded A nm b n b0 b1 x t r => exact keeps_hifirBounded (hc 1 rfl) junk A nm b n b0 b1 x t r h hf
  | solveMrhs n b x r => exact keeps_solveMrhs junk n (hc n rfl) b x r h hf

theorem fits_run {N : Nat} (junk : Nat → K) : ∀ (cs : List (Call K)), (∀ c ∈ cs, ∀ w, c.width = some w → N ≤ w) →
    ∀ h : HIF K, Fits N h → Fits N (run junk h cs)
  | [], _, h, hf => hf
  | c :: cs, hc, h, hf => fits_run junk cs (fun c' h' => hc c' (by simp [h'])) _ (fits_exec junk c (hc c (by simp)) h hf)

end HIF
end Hif
