import Verif.LibHifir
import Verif.Props.Tight
import Verif.Props.Refine

set_option linter.unusedVariables false
set_option linter.unusedSectionVars false
set_option linter.unusedSimpArgs false

/-!
# Properties of the C interface (C36, C37, C38)
-/

namespace Hif.Lhf
variable {K D : Type}

/-- Outcome of a call from a given state: it completes with `Q`, or it faults with `F`. -/
def Post {α : Type} (m : CM K α) (w : World K) (F : Fault → Prop) (Q : World K → α → Prop) : Prop :=
  match m w with
  | (w', .ok a) => Q w' a
  | (_, .error e) => F e

section rules
variable {α β : Type} {w : World K} {F : Fault → Prop}

theorem post_pure (a : α) (Q : World K → α → Prop) : Post (pure a) w F Q ↔ Q w a := Iff.rfl

theorem post_bind (m : CM K α) (f : α → CM K β) (Q : World K → β → Prop) :
    Post (m >>= f) w F Q ↔ Post m w F fun w' a => Post (f a) w' F Q := by
  simp only [Post, bind]
  rcases m w with ⟨w', e | a⟩ <;> rfl

theorem post_lift (m : Hif.M α) (Q : World K → α → Prop) :
    Post (CM.lift m) w F Q ↔ match m with | .ok a => Q w a | .error e => F (.core e) := by
  rcases m with e | a <;> rfl

theorem post_derefMat (m : Nat) (Q : World K → Mat K → Prop) :
    Post (CM.derefMat m) w F Q ↔ match w.mats m with | some x => Q w x | none => F .freed := by
  simp only [Post, CM.derefMat]
  rcases w.mats m with _ | x <;> rfl

theorem post_derefHif (h : Nat) (Q : World K → Hdl K → Prop) :
    Post (CM.derefHif h) w F Q ↔ match w.hifs h with | some x => Q w x | none => F .freed := by
  simp only [Post, CM.derefHif]
  rcases w.hifs h with _ | x <;> rfl

theorem post_setHif (h : Nat) (x : Hdl K) (Q : World K → Unit → Prop) :
    Post (CM.setHif h x) w F Q ↔ Q { w with hifs := fun i => if i = h then some x else w.hifs i } () := Iff.rfl

theorem post_setMat (m : Nat) (x : Mat K) (Q : World K → Unit → Prop) :
    Post (CM.setMat m x) w F Q ↔ Q { w with mats := fun i => if i = m then some x else w.mats i } () := Iff.rfl

theorem Post.mono {m : CM K α} {Q Q' : World K → α → Prop} (h : Post m w F Q) (hq : ∀ w' a, Q w' a → Q' w' a) : Post m w F Q' := by
  unfold Post at *
  revert h
  rcases m w with ⟨w', e | a⟩
  · exact id
  · exact hq _ _

theorem post_runHif (h : Nat) (hm : HM K α) (Q : World K → α ⊕ String → Prop) (x : Hdl K) (hx : w.hifs h = some x)
    (hok : ∀ M' a, hm x.M = (M', .ok a) → Q { w with hifs := fun i => if i = h then some { x with M := M' } else w.hifs i } (.inl a))
    (hex : ∀ M' msg, hm x.M = (M', .error (.hif msg)) →
      Q { w with hifs := fun i => if i = h then some { x with M := M' } else w.hifs i, msg1 := msg } (.inr msg))
    (hf : ∀ e, F (.core e)) : Post (runHif h hm) w F Q := by
  unfold Post runHif
  rw [hx]
  rcases hh : hm x.M with ⟨M', e | a⟩
  · rcases e with _ | _ | msg <;> simp only [hh]
    · exact hf _
    · exact hf _
    · exact hex _ _ hh
  · simp only [hh]
    exact hok _ _ hh

end rules
end Hif.Lhf

namespace Hif.Spec
open Lhf

/-- The message reported by a call, if any. -/
def thrown : Seen → Option String
  | .handle _ r => r.thrown
  | .ret r => r.thrown
  | .msg _ => none

/-- The message of the most recent internal error that was not asked for yet (empty if there is none), after the calls `ss`,
if it was `m` before. -/
def pending (m : String) : List Seen → String
  | [] => m
  | .msg _ :: ss => pending "" ss
  | s :: ss => pending ((thrown s).getD m) ss

/-- No structure is destroyed while it is in use: every matrix a live preconditioner refers to is live. -/
def Linked {K : Type} (w : World K) : Prop :=
  ∀ h x, w.hifs h = some x → ∀ m, (x.A = some m ∨ x.Ad = some m) → (w.mats m).isSome

/-- A handle argument is `NULL` or live. -/
def liveMat {K : Type} (w : World K) (m : Option Nat) : Prop := ∀ i, m = some i → (w.mats i).isSome
def liveHif {K : Type} (w : World K) (h : Option Nat) : Prop := ∀ i, h = some i → (w.hifs i).isSome

/-- The call asks for refinement, that is, for products with the matrix the preconditioner refers to. -/
def refines (op : Op) (nirs : Int) : Prop := 1 < nirs ∧ (op = .S ∨ op = .SH)

/-- What the user must respect: no use of destroyed handles.  A matrix a preconditioner refers to is used by refinement: either
(`keep`) the user destroys a matrix only when no live preconditioner refers to it, or he sees to it that it is live whenever
refinement is asked for. -/
def Allowed {K D : Type} (keep : Prop) (w : World K) : Call K D → Prop
  | .createMatrix .. | .readVector .. | .getErrorMsg => True
  | .destroyMatrix m => liveMat w m ∧ (keep → ∀ h x, w.hifs h = some x → m ≠ none → x.A ≠ m ∧ x.Ad ≠ m)
  | .wrapMatrix m _ _ => liveMat w m
  | .create _ A S _ => liveMat w A ∧ liveMat w S
  | .destroy h => liveHif w h
  | .setup h A S _ => liveHif w h ∧ liveMat w A ∧ liveMat w S
  | .update h A => liveHif w h ∧ liveMat w A
  | .updateMixed h A => liveHif w h ∧ liveMat w A
  | .refactorize h S _ => liveHif w h ∧ liveMat w S
  | .apply h op _ nirs .. => liveHif w h ∧ (¬keep → refines op nirs → ∀ i x, h = some i → w.hifs i = some x → liveMat w x.A)
  | .applyMixed h op _ nirs .. => liveHif w h ∧ (¬keep → refines op nirs → ∀ i x, h = some i → w.hifs i = some x → liveMat w x.Ad)
  | .solve h _ _ => liveHif w h

/-- A history that respects this at every step. -/
def Disciplined {K D : Type} [Field K] [StarRing K] [Field D] [LinearOrder D] (keep : Prop) (env : Env K D) :
    List (Call K D) → World K → Prop
  | [], _ => True
  | c :: cs, w => Allowed keep w c ∧ ∀ w' s, c.exec env w = (w', .ok s) → Disciplined keep env cs w'

end Hif.Spec

namespace Hif.Lhf
open Spec
variable {K D : Type} [Field K] [StarRing K] [Field D] [LinearOrder D] {keep : Prop}

/-! ### Invariants of every call -/

/-- Effect of a call on the pending message, consistent with its status. -/
def MsgOK (m0 : String) (r : Ret) (w' : World K) : Prop :=
  w'.msg1 = r.thrown.getD m0 ∧ (r.thrown.isSome ↔ r.status = .hifirError)

theorem msgOK_none (w : World K) (s : Status) (hs : s ≠ .hifirError) : MsgOK w.msg1 ⟨s, none⟩ w := by
  simp [MsgOK, hs]

theorem factorize_post (env : Env K D) (h m : Nat) (ps : Option (Buf D)) (w : World K) (F : Fault → Prop) (hF : ∀ e, F (.core e))
    (Q : World K → Ret → Prop) (x : Hdl K) (hx : w.hifs h = some x) (hm : (w.mats m).isSome)
    (hQ : ∀ M' r msg1, r.thrown.getD w.msg1 = msg1 → (r.thrown.isSome ↔ r.status = .hifirError) →
      Q { w with hifs := fun i => if i = h then some { x with M := M' } else w.hifs i, msg1 := msg1 } r) :
    Post (factorize env h m ps) w F Q := by
  obtain ⟨mat, hmat⟩ := Option.isSome_iff_exists.mp hm
  unfold factorize
  rw [post_bind, post_derefMat, hmat]
  simp only
  rw [post_bind, post_lift]
  split
  case h_2 => exact hF _
  case h_1 o ho =>
    rw [post_bind, post_lift]
    split
    case h_2 => exact hF _
    case h_1 inp hinp =>
      rw [post_bind]
      refine post_runHif h _ _ x hx (fun M' a _ => ?_) (fun M' msg _ => ?_) hF
      · exact hQ M' ⟨.success, none⟩ w.msg1 rfl (by simp)
      · exact hQ M' ⟨.hifirError, some msg⟩ msg rfl (by simp)

theorem linked_keep {w : World K} (hl : Linked w) {h : Nat} {x y : Hdl K} (hx : w.hifs h = some x) (hA : y.A = x.A) (hAd : y.Ad = x.Ad)
    (msg0 msg1 : String) : Linked { w with hifs := fun i => if i = h then some y else w.hifs i, msg0 := msg0, msg1 := msg1 } := by
  intro h' z hz m hm
  simp only at hz
  split at hz
  · cases hz
    exact hl h x hx m (by rwa [hA, hAd] at hm)
  · exact hl h' z hz m hm

/-- Fresh addresses are not in use. -/
def Fresh (w : World K) : Prop := ∀ i, w.next ≤ i → w.mats i = none ∧ w.hifs i = none

/-- What every allowed call preserves. -/
def Good (keep : Prop) (w : World K) : Prop := (keep → Linked w) ∧ Fresh w

theorem fresh_setHif {w : World K} (hf : Fresh w) {h : Nat} {x y : Hdl K} (hx : w.hifs h = some x) (msg0 msg1 : String) :
    Fresh { w with hifs := fun i => if i = h then some y else w.hifs i, msg0 := msg0, msg1 := msg1 } := by
  intro i hi
  obtain ⟨h1, h2⟩ := hf i hi
  refine ⟨h1, ?_⟩
  simp only
  rw [if_neg, h2]
  rintro rfl
  rw [hx] at h2; cases h2

theorem good_setHif {w : World K} (hg : Good keep w) {h : Nat} {x y : Hdl K} (hx : w.hifs h = some x) (hA : y.A = x.A) (hAd : y.Ad = x.Ad)
    (msg0 msg1 : String) : Good keep { w with hifs := fun i => if i = h then some y else w.hifs i, msg0 := msg0, msg1 := msg1 } :=
  ⟨fun hk => linked_keep (hg.1 hk) hx hA hAd _ _, fresh_setHif hg.2 hx _ _⟩

theorem good_relink {w : World K} (hg : Good keep w) {h : Nat} {x y : Hdl K} (hx : w.hifs h = some x)
    (hy : keep → ∀ m, (y.A = some m ∨ y.Ad = some m) → (w.mats m).isSome) :
    Good keep { w with hifs := fun i => if i = h then some y else w.hifs i } := by
  refine ⟨fun hk => ?_, fresh_setHif hg.2 hx _ _⟩
  intro h' z hz m hm
  simp only at hz
  split at hz
  · cases hz
    exact hy hk m hm
  · exact hg.1 hk h' z hz m hm

/-- Every call, from a state in which it is allowed, faults (if at all) only in the core, keeps the links, and updates the
pending message by what it threw. -/
def Fine (keep : Prop) (w : World K) (w' : World K) (r : Ret) : Prop := Good keep w' ∧ MsgOK w.msg1 r w'

theorem setup_fine (env : Env K D) (w : World K) (hg : Good keep w) (h A S : Option Nat) (ps : Option (Buf D)) (hh : liveHif w h)
    (hA : liveMat w A) (hS : liveMat w S) : Post (setup env h A S ps) w (· ≠ .freed) fun w' r => Fine keep w w' r := by
  unfold setup
  rcases h with _ | h
  · exact ⟨hg, msgOK_none w _ (by simp)⟩
  obtain ⟨x, hx⟩ := Option.isSome_iff_exists.mp (hh h rfl)
  simp only
  rw [post_bind, post_derefHif, hx]
  simp only
  rw [post_bind, post_setHif]
  have hlink : Good keep { w with hifs := fun i => if i = h then some { x with A := A <|> S, Ad := none } else w.hifs i } := by
    refine good_relink hg hx fun hk m hm => ?_
    simp only [reduceCtorEq, or_false] at hm
    rcases A with _ | a
    · exact hS m (by simpa using hm)
    · exact hA m (by simpa using hm)
  rcases hf : (S <|> A) with _ | m
  · exact ⟨hlink, msgOK_none w _ (by simp)⟩
  · simp only
    have hm : (w.mats m).isSome := by
      rcases S with _ | s
      · exact hA m (by simpa using hf)
      · exact hS m (by simpa using hf)
    refine factorize_post env h m ps _ _ (by simp) _ { x with A := A <|> S, Ad := none } (by simp) hm ?_
    intro M' r msg1 h1 h2
    refine ⟨?_, h1.symm, h2⟩
    have := good_setHif hlink (h := h) (x := { x with A := A <|> S, Ad := none })
      (y := { x with M := M', A := A <|> S, Ad := none }) (by simp) rfl rfl w.msg0 msg1
    exact this

theorem destroy_fine (w : World K) (hg : Good keep w) (h : Option Nat) (hh : liveHif w h) :
    Post (destroy h) w (· ≠ .freed) fun w' r => Good keep w' ∧ w'.msg1 = w.msg1 ∧ w'.mats = w.mats ∧ r = ⟨.success, none⟩ := by
  unfold destroy
  rcases h with _ | h
  · exact ⟨hg, rfl, rfl, rfl⟩
  obtain ⟨x, hx⟩ := Option.isSome_iff_exists.mp (hh h rfl)
  simp only
  rw [post_bind, post_derefHif, hx]
  refine ⟨⟨fun hk => ?_, ?_⟩, rfl, rfl, rfl⟩
  · intro h' z hz m hm
    simp only at hz
    split at hz
    · cases hz
    · exact hg.1 hk h' z hz m hm
  · intro i hi
    obtain ⟨h1, h2⟩ := hg.2 i hi
    refine ⟨h1, ?_⟩
    simp only
    split
    · rfl
    · exact h2

theorem setup_live (env : Env K D) (w : World K) (h : Nat) (hh : (w.hifs h).isSome) (A S : Option Nat) (ps : Option (Buf D)) (hg : Good keep w)
    (hA : liveMat w A) (hS : liveMat w S) : Post (setup env (some h) A S ps) w (· ≠ .freed) fun w' r => (w'.hifs h).isSome := by
  obtain ⟨x, hx⟩ := Option.isSome_iff_exists.mp hh
  unfold setup
  simp only
  rw [post_bind, post_derefHif, hx]
  simp only
  rw [post_bind, post_setHif]
  rcases hf : (S <|> A) with _ | m
  · simp [Post, pure]
  · simp only
    have hm : (w.mats m).isSome := by
      rcases S with _ | s
      · exact hA m (by simpa using hf)
      · exact hS m (by simpa using hf)
    refine factorize_post env h m ps _ _ (by simp) _ { x with A := A <|> S, Ad := none } (by simp) hm ?_
    intro M' r msg1 h1 h2
    simp

theorem Post.and {α : Type} {m : CM K α} {w : World K} {F : Fault → Prop} {P Q : World K → α → Prop} (h1 : Post m w F P) (h2 : Post m w F Q) :
    Post m w F fun w' a => P w' a ∧ Q w' a := by
  unfold Post at *
  revert h1 h2
  rcases m w with ⟨w', e | a⟩
  · exact fun h _ => h
  · exact fun h h' => ⟨h, h'⟩

theorem create_fine (env : Env K D) (w : World K) (hg : Good keep w) (oom : Bool) (A S : Option Nat) (ps : Option (Buf D))
    (hA : liveMat w A) (hS : liveMat w S) : Post (create env oom A S ps) w (· ≠ .freed) fun w' r => Fine keep w w' r.2 := by
  unfold create
  rcases oom with _ | _
  case true => exact ⟨hg, msgOK_none w _ (by simp)⟩
  simp only [Bool.false_eq_true, if_false]
  rw [post_bind]
  let w1 : World K := (allocHif env w).1
  show Post _ w1 _ _
  have hg1 : Good keep w1 := by
    refine ⟨fun hk => ?_, ?_⟩
    · intro h' z hz m hm
      simp only [w1, allocHif] at hz
      split at hz
      · cases hz; simp at hm
      · exact hg.1 hk h' z hz m hm
    · intro i hi
      simp only [w1, allocHif] at hi ⊢
      obtain ⟨h1, h2⟩ := hg.2 i (by omega)
      exact ⟨h1, by rw [if_neg (by omega), h2]⟩
  have hl : (w1.hifs w.next).isSome := by simp [w1, allocHif]
  rw [post_bind]
  refine ((setup_fine env w1 hg1 (some w.next) A S ps (by intro i hi; cases hi; exact hl) hA hS).and
    (setup_live env w1 w.next hl A S ps hg1 hA hS)).mono fun w2 r hr => ?_
  obtain ⟨⟨hg2, hm1, hm2⟩, hl2⟩ := hr
  split
  · rw [post_bind]
    refine (destroy_fine w2 hg2 (some w.next) (by intro i hi; cases hi; exact hl2)).mono fun w3 r3 h3 => ?_
    exact ⟨h3.1, h3.2.1.trans hm1, hm2⟩
  · exact ⟨hg2, hm1, hm2⟩

theorem apply_fine (env : Env K D) (pick : Hdl K → Option Nat) (w : World K) (hg : Good keep w)
    (h : Option Nat) (hh : liveHif w h) (op : Op) (b : Buf K) (nirs : Int)
    (hpick : refines op nirs → ∀ i x, h = some i → w.hifs i = some x → liveMat w (pick x)) (betas : Option (D × D)) (rank : Int) (x : Buf K) :
    Post (applyWith env pick h op b nirs betas rank x) w (· ≠ .freed) fun w' r => Fine keep w w' r.ret := by
  unfold applyWith
  rcases h with _ | h
  · exact ⟨hg, msgOK_none w _ (by simp)⟩
  obtain ⟨H, hH⟩ := Option.isSome_iff_exists.mp (hh h rfl)
  simp only
  rw [post_bind, post_derefHif, hH]
  simp only
  have key : ∀ M' msg1 (r : Ret), r.thrown.getD w.msg1 = msg1 → (r.thrown.isSome ↔ r.status = .hifirError) →
      Fine keep w { w with hifs := fun i => if i = h then some { H with M := M' } else w.hifs i, msg1 := msg1 } r := fun M' msg1 r h1 h2 =>
    ⟨good_setHif (y := { H with M := M' }) hg hH rfl rfl w.msg0 msg1, h1.symm, h2⟩
  split
  · split
    · rw [post_bind]
      refine post_runHif h _ _ H hH (fun M' a _ => ?_) (fun M' msg _ => ?_) (by simp)
      · exact key M' w.msg1 ⟨.success, none⟩ rfl (by simp)
      · exact key M' msg ⟨.hifirError, some msg⟩ rfl (by simp)
    · rw [post_bind]
      refine post_runHif h _ _ H hH (fun M' a _ => ?_) (fun M' msg _ => ?_) (by simp)
      · exact key M' w.msg1 ⟨.success, none⟩ rfl (by simp)
      · exact key M' msg ⟨.hifirError, some msg⟩ rfl (by simp)
  · rename_i href
    have href : refines op nirs := by
      unfold refines
      rcases op <;> simp_all
    rcases hp : pick H with _ | m
    · exact ⟨hg, msgOK_none w _ (by simp)⟩
    · simp only
      obtain ⟨mat, hmat⟩ := Option.isSome_iff_exists.mp (hpick href h H rfl hH m hp)
      rw [post_bind, post_derefMat, hmat]
      simp only
      split
      · exact ⟨hg, msgOK_none w _ (by simp)⟩
      · rw [post_bind, post_lift]
        split
        · rw [post_bind]
          refine post_runHif h _ _ H hH (fun M' a _ => ?_) (fun M' msg _ => ?_) (by simp)
          · exact key M' w.msg1 ⟨.success, none⟩ rfl (by simp)
          · exact key M' msg ⟨.hifirError, some msg⟩ rfl (by simp)
        · simp

theorem update_fine (setA : Hdl K → Option Nat → Hdl K) (w : World K) (hg : Good keep w) (h : Nat) (hh : (w.hifs h).isSome) (A : Option Nat) (hA : liveMat w A)
    (hset : ∀ x m, (setA x A).A = some m ∨ (setA x A).Ad = some m → x.A = some m ∨ x.Ad = some m ∨ A = some m) :
    Post (do
      let x ← CM.derefHif h
      CM.setHif h (setA x A)
      match A with
      | none => pure (⟨.success, none⟩ : Ret)
      | some m =>
        if x.M.empty then pure ⟨.success, none⟩
        else do
          let mat ← CM.derefMat m
          if mat.n ≠ x.M.nrows then pure ⟨.mismatched, none⟩ else pure ⟨.success, none⟩) w (· ≠ .freed) fun w' r => Fine keep w w' r := by
  obtain ⟨H, hH⟩ := Option.isSome_iff_exists.mp hh
  rw [post_bind, post_derefHif, hH]
  simp only
  rw [post_bind, post_setHif]
  have hlink : Good keep { w with hifs := fun i => if i = h then some (setA H A) else w.hifs i } := by
    refine good_relink hg hH fun hk m hm => ?_
    rcases hset H m hm with e | e | e
    · exact hg.1 hk h H hH m (.inl e)
    · exact hg.1 hk h H hH m (.inr e)
    · exact hA m e
  have done : ∀ s : Status, s ≠ .hifirError → Fine keep w { w with hifs := fun i => if i = h then some (setA H A) else w.hifs i } ⟨s, none⟩ :=
    fun s hs => ⟨hlink, rfl, by simpa using hs⟩
  rcases A with _ | m
  · exact done .success (by simp)
  · simp only
    split
    · exact done .success (by simp)
    · obtain ⟨mat, hmat⟩ := Option.isSome_iff_exists.mp (hA m rfl)
      rw [post_bind, post_derefMat]
      simp only [hmat]
      split
      · exact done .mismatched (by simp)
      · exact done .success (by simp)

/-- The result record of a call as the caller sees it. -/
def SeenOK (keep : Prop) (w : World K) (w' : World K) (s : Seen) : Prop :=
  Good keep w' ∧ w'.msg1 = pending w.msg1 [s] ∧
    (∀ r, (s = .ret r ∨ ∃ h, s = .handle h r) → (r.thrown.isSome ↔ r.status = .hifirError)) ∧
    (∀ m, s = .msg m → m = if w.msg1 = "" then none else some w.msg1)

theorem Fine.seenRet {w w' : World K} {r : Ret} (h : Fine keep w w' r) : SeenOK keep w w' (.ret r) :=
  ⟨h.1, h.2.1, by rintro r' (e | ⟨_, e⟩) <;> cases e; exact h.2.2, by simp⟩

theorem Fine.seenHandle {w w' : World K} {r : Ret} (x : Option Nat) (h : Fine keep w w' r) : SeenOK keep w w' (.handle x r) :=
  ⟨h.1, h.2.1, by rintro r' (e | ⟨_, e⟩) <;> cases e; exact h.2.2, by simp⟩

/-- Every allowed call. -/
theorem exec_fine (env : Env K D) (c : Call K D) (w : World K) (hg : Good keep w) (hc : Allowed keep w c) :
    Post (c.exec env) w (· ≠ .freed) fun w' s => SeenOK keep w w' s := by
  rcases c with ⟨oom, rm, n, a⟩ | m | ⟨m, n, a⟩ | ⟨oom, A, S, ps⟩ | h | ⟨h, A, S, ps⟩ | ⟨h, A⟩ | ⟨h, A⟩ | ⟨h, S, ps⟩ | ⟨h, op, b, nirs, betas, rank, x⟩ |
    ⟨h, op, b, nirs, betas, rank, x⟩ | ⟨h, b, x⟩ | ⟨f, n, v⟩ | _ <;> unfold Call.exec <;> simp only <;> rw [post_bind]
  · -- createMatrix
    unfold createMatrix
    rcases oom with _ | _
    · refine Fine.seenHandle _ ⟨⟨fun hk => ?_, ?_⟩, msgOK_none _ _ (by simp)⟩
      · intro h x hx m hm
        simp only at hx ⊢
        split
        · simp
        · exact hg.1 hk h x hx m hm
      · intro i hi
        simp only at hi ⊢
        obtain ⟨h1, h2⟩ := hg.2 i (by omega)
        exact ⟨by rw [if_neg (by omega), h1], h2⟩
    · exact Fine.seenHandle _ ⟨hg, msgOK_none _ _ (by simp)⟩
  · -- destroyMatrix
    obtain ⟨h1, h2⟩ := hc
    unfold destroyMatrix
    rcases m with _ | m
    · exact Fine.seenRet ⟨hg, msgOK_none _ _ (by simp)⟩
    · obtain ⟨mat, hmat⟩ := Option.isSome_iff_exists.mp (h1 m rfl)
      simp only
      rw [post_bind, post_derefMat, hmat]
      refine Fine.seenRet ⟨⟨fun hk => ?_, ?_⟩, msgOK_none _ _ (by simp)⟩
      · intro h x hx m' hm'
        simp only at hx ⊢
        rw [if_neg]
        · exact hg.1 hk h x hx m' hm'
        · rintro rfl
          have := h2 hk h x hx (by simp)
          rcases hm' with e | e
          · exact this.1 e
          · exact this.2 e
      · intro i hi
        obtain ⟨h3, h4⟩ := hg.2 i hi
        refine ⟨?_, h4⟩
        simp only
        split
        · rfl
        · exact h3
  · -- wrapMatrix
    unfold wrapMatrix
    rcases m with _ | m
    · exact Fine.seenRet ⟨hg, msgOK_none _ _ (by simp)⟩
    · obtain ⟨mat, hmat⟩ := Option.isSome_iff_exists.mp (hc m rfl)
      simp only
      rw [post_bind, post_derefMat, hmat]
      simp only
      split
      · rw [post_bind, post_setMat]
        refine Fine.seenRet ⟨⟨fun hk => ?_, ?_⟩, msgOK_none _ _ (by simp)⟩
        · intro h x hx m' hm'
          simp only at hx ⊢
          split
          · simp
          · exact hg.1 hk h x hx m' hm'
        · intro i hi
          obtain ⟨h3, h4⟩ := hg.2 i hi
          refine ⟨?_, h4⟩
          simp only
          rw [if_neg, h3]
          rintro rfl
          rw [hmat] at h3; cases h3
      · exact Fine.seenRet ⟨hg, msgOK_none _ _ (by simp)⟩
  · exact (create_fine env w hg oom A S ps hc.1 hc.2).mono fun w' r hr => hr.seenHandle _
  · refine (destroy_fine w hg h hc).mono fun w' r hr => ?_
    rw [hr.2.2.2]
    exact Fine.seenRet ⟨hr.1, by simp [MsgOK, hr.2.1]⟩
  · exact (setup_fine env w hg h A S ps hc.1 hc.2.1 hc.2.2).mono fun w' r hr => hr.seenRet
  · -- update
    unfold update
    rcases h with _ | h
    · exact Fine.seenRet ⟨hg, msgOK_none _ _ (by simp)⟩
    · exact (update_fine (fun x A => { x with A := A }) w hg h (hc.1 h rfl) A hc.2 (by
        intro x m hm; simp only at hm; tauto)).mono fun w' r hr => hr.seenRet
  · unfold updateMixed
    rcases h with _ | h
    · exact Fine.seenRet ⟨hg, msgOK_none _ _ (by simp)⟩
    · exact (update_fine (fun x A => { x with Ad := A }) w hg h (hc.1 h rfl) A hc.2 (by
        intro x m hm; simp only at hm; tauto)).mono fun w' r hr => hr.seenRet
  · -- refactorize
    unfold refactorize
    rcases h with _ | h
    · exact Fine.seenRet ⟨hg, msgOK_none _ _ (by simp)⟩
    rcases S with _ | m
    · exact Fine.seenRet ⟨hg, msgOK_none _ _ (by simp)⟩
    obtain ⟨H, hH⟩ := Option.isSome_iff_exists.mp (hc.1 h rfl)
    simp only
    rw [post_bind, post_derefHif, hH]
    simp only
    refine factorize_post env h m ps _ _ (by simp) _ H hH (hc.2 m rfl) fun M' r msg1 h1 h2 => ?_
    exact Fine.seenRet ⟨good_setHif (y := { H with M := M' }) hg hH rfl rfl w.msg0 msg1, h1.symm, h2⟩
  · refine (apply_fine env _ w hg h hc.1 op b nirs (fun href i x hi hx m hm => ?_) betas rank x).mono fun w' r hr => hr.seenRet
    by_cases hk : keep
    · exact hg.1 hk i x hx m (.inl hm)
    · exact hc.2 hk href i x hi hx m hm
  · refine (apply_fine env _ w hg h hc.1 op b nirs (fun href i x hi hx m hm => ?_) betas rank x).mono fun w' r hr => hr.seenRet
    by_cases hk : keep
    · exact hg.1 hk i x hx m (.inr hm)
    · exact hc.2 hk href i x hi hx m hm
  · -- solve
    unfold solve
    rcases h with _ | h
    · exact Fine.seenRet ⟨hg, msgOK_none _ _ (by simp)⟩
    obtain ⟨H, hH⟩ := Option.isSome_iff_exists.mp (hc h rfl)
    simp only
    rw [post_bind]
    refine post_runHif h _ _ H hH (fun M' a _ => ?_) (fun M' msg _ => ?_) (by simp)
    · exact Fine.seenRet ⟨good_setHif (y := { H with M := M' }) hg hH rfl rfl w.msg0 w.msg1, by simp [MsgOK, vecRet]⟩
    · exact Fine.seenRet ⟨good_setHif (y := { H with M := M' }) hg hH rfl rfl w.msg0 msg, by simp [MsgOK, vecRet]⟩
  · -- readVector
    unfold readVector
    rcases f with u | msg
    · simp only [Post]
      split_ifs with h1 h2
      · exact Fine.seenRet ⟨hg, msgOK_none _ _ (by simp)⟩
      · simp
      · exact Fine.seenRet ⟨hg, msgOK_none _ _ (by simp)⟩
    · exact Fine.seenRet ⟨hg, by simp [MsgOK]⟩
  · refine ⟨hg, rfl, ?_, ?_⟩
    · rintro r (e | ⟨_, e⟩) <;> cases e
    · intro m hm
      cases hm
      rfl

theorem good_start : Good keep (start : World K) := ⟨fun _ h x hx => (by cases hx), fun i _ => ⟨rfl, rfl⟩⟩

theorem pending_append (m : String) (a b : List Seen) : pending m (a ++ b) = pending (pending m a) b := by
  induction a generalizing m with
  | nil => rfl
  | cons s a ih => rcases s with _ | _ | _ <;> exact ih _

theorem pending_cons (m : String) (s : Seen) (b : List Seen) : pending m (s :: b) = pending (pending m [s]) b :=
  pending_append m [s] b

/-- Every history. -/
theorem run_fine (env : Env K D) (cs : List (Call K D)) : ∀ w : World K, Good keep w → Disciplined keep env cs w →
    Post (run env cs) w (· ≠ .freed) fun w' ss => Good keep w' ∧ w'.msg1 = pending w.msg1 ss ∧
      (∀ s, s ∈ ss → ∀ r, (s = .ret r ∨ ∃ h, s = .handle h r) → (r.thrown.isSome ↔ r.status = .hifirError)) ∧
      (∀ a m b, ss = a ++ .msg m :: b → m = if pending w.msg1 a = "" then none else some (pending w.msg1 a)) := by
  induction cs with
  | nil =>
    intro w hg _
    exact ⟨hg, rfl, by simp, by simp⟩
  | cons c cs ih =>
    intro w hg hd
    unfold run
    rw [post_bind]
    have h1 := exec_fine env c w hg hd.1
    unfold Post at h1 ⊢
    rcases he : c.exec env w with ⟨w1, e | s⟩
    · rw [he] at h1; exact h1
    · rw [he] at h1
      obtain ⟨g1, p1, t1, m1⟩ := h1
      show Post (run env cs >>= fun ss => pure (s :: ss)) w1 _ _
      rw [post_bind]
      refine (ih w1 g1 (hd.2 w1 s he)).mono fun w2 ss h2 => ?_
      obtain ⟨g2, p2, t2, m2⟩ := h2
      refine ⟨g2, ?_, ?_, ?_⟩
      · show w2.msg1 = pending w.msg1 (s :: ss)
        rw [pending_cons, ← p1, p2]
      · intro s' hs'
        rcases List.mem_cons.1 hs' with rfl | hs'
        · exact t1
        · exact t2 s' hs'
      · intro a m b hab
        rcases a with _ | ⟨a0, a⟩
        · rw [List.nil_append, List.cons.injEq] at hab
          exact m1 m hab.1
        · rw [List.cons_append, List.cons.injEq] at hab
          obtain ⟨rfl, hab⟩ := hab
          rw [pending_cons, ← p1]
          exact m2 a m b hab

end Hif.Lhf

namespace Hif.Props
open Lhf Spec
variable {K D : Type} [Field K] [StarRing K] [Field D] [LinearOrder D]

/-! ## C38: the error message channel -/

/-- C38: in every history of calls from the start of the program, every call that asks for the message gets the one of the most
recent internal error that was not yet reported, or `NULL` if there is none; a call reports an internal error exactly when it
caught an exception. -/
theorem C38_error_message (keep : Prop) (env : Env K D) (cs : List (Call K D)) (hd : Disciplined keep env cs start) (w : World K)
    (ss : List Seen) (hrun : run env cs start = (w, .ok ss)) :
    (∀ a m b, ss = a ++ .msg m :: b → m = if pending "" a = "" then none else some (pending "" a)) ∧
    (∀ s, s ∈ ss → ∀ r, (s = .ret r ∨ ∃ h, s = .handle h r) → (r.thrown.isSome ↔ r.status = .hifirError)) := by
  have := run_fine env cs start good_start hd
  unfold Post at this
  rw [hrun] at this
  exact ⟨this.2.2.2, this.2.2.1⟩

/-- C38 (once): the message is reported once; asking again gives `NULL`. -/
theorem C38_once (w : World K) : (getErrorMsg (getErrorMsg w).1).2 = .ok none := rfl

/-! ## C36: life cycle of handles -/

/-- C36 (no dangling use): no history of calls that respects the documented ownership rule uses a destroyed structure, whatever
the sizes, `NULL`s, contents of matrices, and failures in between. -/
theorem C36_no_dangling (keep : Prop) (env : Env K D) (cs : List (Call K D)) (hd : Disciplined keep env cs start) (w : World K) :
    run env cs start ≠ (w, .error .freed) := by
  intro h
  have := run_fine env cs start good_start hd
  unfold Post at this
  rw [h] at this
  exact this rfl

/-- C36 (`NULL`): with a `NULL` handle nothing happens to any object, vector or message, and the call reports `LHF_NULL_OBJ` (the
destructors succeed, the queries give zero). -/
theorem C36_null_handle (env : Env K D) (w : World K) (A S : Option Nat) (ps : Option (Buf D)) (n : Nat) (arrays : Option (Arrays K))
    (op : Op) (b x : Buf K) (nirs rank : Int) (betas : Option (D × D)) :
    setup env none A S ps w = (w, .ok ⟨.nullObj, none⟩) ∧
    update none A w = (w, .ok ⟨.nullObj, none⟩) ∧
    updateMixed none A w = (w, .ok ⟨.nullObj, none⟩) ∧
    refactorize env none S ps w = (w, .ok ⟨.nullObj, none⟩) ∧
    (∀ h, refactorize env h none ps w = (w, .ok ⟨.nullObj, none⟩)) ∧
    apply env none op b nirs betas rank x w = (w, .ok ⟨⟨.nullObj, none⟩, x, none⟩) ∧
    applyMixed env none op b nirs betas rank x w = (w, .ok ⟨⟨.nullObj, none⟩, x, none⟩) ∧
    solve env none b x w = (w, .ok ⟨⟨.nullObj, none⟩, x, none⟩) ∧
    wrapMatrix none n arrays w = (w, .ok ⟨.nullObj, none⟩) ∧
    destroy none w = (w, .ok ⟨.success, none⟩) ∧
    destroyMatrix none w = (w, .ok ⟨.success, none⟩) ∧
    getMatrixSize none w = (w, .ok 0) ∧
    getMatrixNnz none w = (w, .ok 0) ∧
    getStats none w = (w, .ok (List.replicate 9 (some 0))) :=
  ⟨rfl, rfl, rfl, rfl, fun h => by rcases h <;> rfl, rfl, rfl, rfl, rfl, rfl, rfl, rfl, rfl, rfl⟩

/-- `w` with the preconditioner at `h` replaced. -/
def withHif (w : World K) (h : Nat) (x : Hdl K) : World K := { w with hifs := fun i => if i = h then some x else w.hifs i }

/-- C36 (setup): the matrix that is factorized is `S`, or `A` if `S` is `NULL`; refinement will use `A`, or `S` if `A` is `NULL`; the
status and the stored message tell the outcome of the factorization; all other objects stay as they are. -/
theorem C36_setup_roles (env : Env K D) (w : World K) (h : Nat) (x : Hdl K) (hx : w.hifs h = some x) (A S : Option Nat) (ps : Option (Buf D))
    (m : Nat) (hm : S = some m ∨ (S = none ∧ A = some m)) (mat : Mat K) (hmat : w.mats m = some mat) (inp : Input K)
    (hinp : wrapRaw mat = .ok inp) (o : Options D)
    (ho : (ps = none ∧ o = Options.defaults) ∨ ∃ b, ps = some b ∧ createParams env.trunc b = .ok o) :
    ∃ M' res, HIF.factorize env.junk env.ijunk (env.kers o) (facOpts o) inp 0 x.M = (M', res) ∧
      (res = .ok () → setup env (some h) A S ps w = (withHif w h ⟨M', if A = none then S else A, none⟩, .ok ⟨.success, none⟩)) ∧
      (∀ msg, res = .error (.hif msg) →
        setup env (some h) A S ps w = ({ withHif w h ⟨M', if A = none then S else A, none⟩ with msg1 := msg }, .ok ⟨.hifirError, some msg⟩)) := by
  have hsa : (S <|> A) = some m := by
    rcases hm with rfl | ⟨rfl, rfl⟩ <;> rfl
  have has : (A <|> S) = if A = none then S else A := by rcases A <;> rfl
  have hopt : optsOf env ps = .ok o := by
    rcases ho with ⟨rfl, rfl⟩ | ⟨b, rfl, hb⟩
    · rfl
    · exact hb
  rcases hf : HIF.factorize env.junk env.ijunk (env.kers o) (facOpts o) inp 0 x.M with ⟨M', res⟩
  have hover : ∀ (msg1 : String) (M' : HIF K) (i : Nat), (if i = h then some (⟨M', A <|> S, none⟩ : Hdl K) else if i = h then
      some { x with A := A <|> S, Ad := none } else w.hifs i) = if i = h then some ⟨M', A <|> S, none⟩ else w.hifs i := by
    intro _ M' i; split <;> rfl
  have key : setup env (some h) A S ps w = (factorize env h m ps (withHif w h { x with A := A <|> S, Ad := none })) := by
    show (CM.derefHif h >>= fun x => CM.setHif h { x with A := A <|> S, Ad := none } >>= fun _ => _) w = _
    simp only [bind, CM.derefHif, hx, CM.setHif, hsa]
    rfl
  refine ⟨_, _, rfl, ?_, ?_⟩
  · rintro rfl
    rw [key]
    simp only [factorize, bind, CM.derefMat, withHif, hmat, CM.lift, hopt, hinp, Except.mapError, runHif, if_true, hf]
    simp only [pure, retOf, ← has, hover w.msg1]
  · rintro msg rfl
    rw [key]
    simp only [factorize, bind, CM.derefMat, withHif, hmat, CM.lift, hopt, hinp, Except.mapError, runHif, if_true, hf]
    simp only [pure, retOf, ← has, hover w.msg1]

/-- C36 (create): no handle is returned exactly when memory is exhausted or the factorization failed, and then nothing stays
behind; otherwise the handle is a new live one. -/
theorem C36_create (env : Env K D) (w : World K) (hf : ∀ i, w.next ≤ i → w.mats i = none ∧ w.hifs i = none) (oom : Bool) (A S : Option Nat)
    (ps : Option (Buf D)) (hA : liveMat w A) (hS : liveMat w S) (w' : World K) (hdl : Option Nat) (r : Ret)
    (hrun : create env oom A S ps w = (w', .ok (hdl, r))) :
    (hdl = none ↔ oom = true ∨ r.status = .hifirError) ∧
    (hdl = none → w'.hifs = w.hifs ∧ w'.mats = w.mats) ∧
    (∀ h, hdl = some h → w.hifs h = none ∧ (w'.hifs h).isSome ∧ w'.mats = w.mats ∧ ∀ i, i ≠ h → w'.hifs i = w.hifs i) := by
  suffices hs : Post (create env oom A S ps) w (fun _ => True) fun w' o =>
    (o.1 = none ↔ oom = true ∨ o.2.status = .hifirError) ∧ (o.1 = none → w'.hifs = w.hifs ∧ w'.mats = w.mats) ∧
    (∀ h, o.1 = some h → w.hifs h = none ∧ (w'.hifs h).isSome ∧ w'.mats = w.mats ∧ ∀ i, i ≠ h → w'.hifs i = w.hifs i) by
    unfold Post at hs
    rw [hrun] at hs
    exact hs
  unfold create
  rcases oom with _ | _
  case true => exact ⟨by simp, fun _ => ⟨rfl, rfl⟩, by simp⟩
  simp only [Bool.false_eq_true, if_false, false_or]
  rw [post_bind]
  show Post _ (allocHif env w).1 _ _
  have hn := (hf w.next (Nat.le_refl _)).2
  -- what `setup` does to the new handle
  have hset : Post (setup env (some w.next) A S ps) (allocHif env w).1 (fun _ => True) fun w2 r =>
      w2.mats = w.mats ∧ (w2.hifs w.next).isSome ∧ ∀ i, i ≠ w.next → w2.hifs i = w.hifs i := by
    unfold setup
    simp only
    rw [post_bind, post_derefHif]
    simp only [allocHif, if_true]
    rw [post_bind, post_setHif]
    rcases hm : (S <|> A) with _ | m
    · refine ⟨rfl, by simp, fun i hi => by simp [hi]⟩
    · simp only
      have hm : (w.mats m).isSome := by
        rcases S with _ | s
        · exact hA m (by simpa using hm)
        · exact hS m (by simpa using hm)
      refine factorize_post env w.next m ps _ _ (by simp) _ _ (by simp; rfl) hm ?_
      intro M' r msg1 h1 h2
      exact ⟨rfl, by simp, fun i hi => by simp [hi]⟩
  rw [post_bind]
  refine hset.mono fun w2 r h2 => ?_
  obtain ⟨e1, e2, e3⟩ := h2
  split
  case isTrue hr =>
    obtain ⟨y, hy⟩ := Option.isSome_iff_exists.mp e2
    rw [post_bind]
    unfold destroy
    simp only
    rw [post_bind, post_derefHif, hy]
    refine ⟨by simp [hr], fun _ => ⟨?_, e1⟩, by simp⟩
    funext i
    simp only
    split
    · next h => rw [h, hn]
    · next h => exact e3 i h
  case isFalse hr =>
    refine ⟨by simp [hr], by simp, ?_⟩
    rintro h ⟨⟩
    exact ⟨hn, e2, e1, e3⟩

theorem cm_bind {α β : Type} {m : CM K α} {f : α → CM K β} {w w' : World K} {a : α} (e : m w = (w', .ok a)) : (m >>= f) w = f a w' := by
  show (match m w with | (w', .ok a) => f a w' | (w', .error e) => (w', .error e)) = _
  rw [e]

theorem cm_bind_error {α β : Type} {m : CM K α} {f : α → CM K β} {w w' : World K} {e : Fault} (h : m w = (w', .error e)) :
    (m >>= f) w = (w', .error e) := by
  show (match m w with | (w', .ok a) => f a w' | (w', .error e) => (w', .error e)) = _
  rw [h]

theorem derefHif_eq {w : World K} {h : Nat} {x : Hdl K} (e : w.hifs h = some x) : CM.derefHif h w = (w, .ok x) := by
  unfold CM.derefHif; rw [e]

theorem derefMat_eq {w : World K} {m : Nat} {x : Mat K} (e : w.mats m = some x) : CM.derefMat m w = (w, .ok x) := by
  unfold CM.derefMat; rw [e]

theorem CM_setHif_eq (w : World K) (h : Nat) (x : Hdl K) : CM.setHif h x w = (withHif w h x, .ok ()) := rfl

/-- What `apply` does when refinement is asked for. -/
theorem applyWith_refines (env : Env K D) (pick : Hdl K → Option Nat) (w : World K) (h : Nat) (H : Hdl K) (hH : w.hifs h = some H) (op : Op) (b : Buf K)
    (nirs : Int) (href : 1 < nirs ∧ (op = .S ∨ op = .SH)) (betas : Option (D × D)) (rank : Int) (x : Buf K) :
    applyWith env pick (some h) op b nirs betas rank x w = (match pick H with
      | none => pure ⟨⟨.nullObj, none⟩, x, none⟩
      | some m => do
        let mat ← CM.derefMat m
        if H.M.nrows ≠ mat.n then pure ⟨⟨.mismatched, none⟩, x, none⟩
        else do
          let inp ← CM.lift (wrapRaw mat)
          let r ← runHif h (hifHifir env inp mat.n b nirs.toNat betas op.trans (sizeT (rankOf op nirs rank)) x)
          pure (vecRet x r) : CM K (VecRet K)) w := by
  have hbr : ¬(nirs ≤ 1 ∨ op = .M ∨ op = .MH) := by
    obtain ⟨h1, h2 | h2⟩ := href <;> subst h2 <;> simp <;> omega
  unfold applyWith
  simp only
  rw [cm_bind (derefHif_eq hH), if_neg hbr]
  rcases pick H with _ | m <;> rfl

/-- C36 (refinement sizes): refinement with a preconditioner that refers to no matrix, or to a matrix whose size differs from that of
the factorization, is refused, and the vector and all objects stay as they are; if refinement succeeds, the sizes agree.  (Both for
`lhf?Apply` and for the mixed-precision calls.) -/
theorem C36_refinement_sizes (env : Env K D) (mixed : Bool) (w : World K) (h : Nat) (H : Hdl K) (hH : w.hifs h = some H) (op : Op) (b : Buf K)
    (nirs : Int) (href : 1 < nirs ∧ (op = .S ∨ op = .SH)) (betas : Option (D × D)) (rank : Int) (x : Buf K) :
    let A := if mixed then H.Ad else H.A
    let call := if mixed then applyMixed env (some h) op b nirs betas rank x else apply env (some h) op b nirs betas rank x
    (A = none → call w = (w, .ok ⟨⟨.nullObj, none⟩, x, none⟩)) ∧
    (∀ m mat, A = some m → w.mats m = some mat → mat.n ≠ H.M.nrows → call w = (w, .ok ⟨⟨.mismatched, none⟩, x, none⟩)) ∧
    (∀ w' v, call w = (w', .ok v) → v.ret.status = .success → ∃ m mat, A = some m ∧ w.mats m = some mat ∧ mat.n = H.M.nrows) := by
  intro A call
  have hcall : call w = (match A with
      | none => pure ⟨⟨.nullObj, none⟩, x, none⟩
      | some m => do
        let mat ← CM.derefMat m
        if H.M.nrows ≠ mat.n then pure ⟨⟨.mismatched, none⟩, x, none⟩
        else do
          let inp ← CM.lift (wrapRaw mat)
          let r ← runHif h (hifHifir env inp mat.n b nirs.toNat betas op.trans (sizeT (rankOf op nirs rank)) x)
          pure (vecRet x r) : CM K (VecRet K)) w := by
    rcases mixed with _ | _
    · exact applyWith_refines env (·.A) w h H hH op b nirs href betas rank x
    · exact applyWith_refines env (·.Ad) w h H hH op b nirs href betas rank x
  rw [hcall]
  refine ⟨fun hA => ?_, fun m mat hA hm hne => ?_, fun w' v hv hs => ?_⟩
  · rw [hA]; rfl
  · rw [hA]
    simp only
    rw [cm_bind (derefMat_eq hm), if_pos (Ne.symm hne)]
    rfl
  · rcases hA : A with _ | m
    · rw [hA] at hv; cases hv; cases hs
    · rw [hA] at hv
      simp only at hv
      rcases hm : w.mats m with _ | mat
      · rw [cm_bind_error (w' := w) (e := .freed) (by unfold CM.derefMat; rw [hm])] at hv; cases hv
      · rw [cm_bind (derefMat_eq hm)] at hv
        by_cases hne : H.M.nrows ≠ mat.n
        · rw [if_pos hne] at hv; cases hv; cases hs
        · exact ⟨m, mat, rfl, hm, (not_ne_iff.mp hne).symm⟩

/-- C36 (update): the matrix for refinement is replaced (by nothing, if `NULL`), also when the call complains that the sizes differ; the
factorization and all other objects stay. -/
theorem C36_update (w : World K) (h : Nat) (H : Hdl K) (hH : w.hifs h = some H) (A : Option Nat) (hA : liveMat w A) :
    ∃ s, update (some h) A w = (withHif w h { H with A := A }, .ok ⟨s, none⟩) ∧
      (s = .mismatched ↔ ∃ m mat, A = some m ∧ w.mats m = some mat ∧ H.M.precs ≠ [] ∧ mat.n ≠ H.M.nrows) ∧ (s = .mismatched ∨ s = .success) := by
  have hem : H.M.empty = true ↔ H.M.precs = [] := by unfold HIF.empty; exact List.isEmpty_iff
  rcases A with _ | m
  · exact ⟨.success, by unfold update; simp only; rw [cm_bind (derefHif_eq hH), cm_bind (CM_setHif_eq w h _)]; rfl, by simp, .inr rfl⟩
  · obtain ⟨mat, hm⟩ := Option.isSome_iff_exists.mp (hA m rfl)
    by_cases he : H.M.empty = true
    · refine ⟨.success, by unfold update; simp only; rw [cm_bind (derefHif_eq hH), cm_bind (CM_setHif_eq w h _), if_pos he]; rfl, ?_, .inr rfl⟩
      simp only [reduceCtorEq, false_iff, not_exists, not_and]
      intro _ _ _ _ h'
      exact absurd (hem.1 he) h'
    · by_cases hne : mat.n ≠ H.M.nrows
      · refine ⟨.mismatched, ?_, ?_, .inl rfl⟩
        · unfold update; simp only
          rw [cm_bind (derefHif_eq hH), cm_bind (CM_setHif_eq w h _), if_neg he, cm_bind (derefMat_eq (w := withHif w h _) hm), if_pos hne]; rfl
        · simp only [true_iff]
          exact ⟨m, mat, rfl, hm, fun h => he (hem.2 h), hne⟩
      · refine ⟨.success, ?_, ?_, .inr rfl⟩
        · unfold update; simp only
          rw [cm_bind (derefHif_eq hH), cm_bind (CM_setHif_eq w h _), if_neg he, cm_bind (derefMat_eq (w := withHif w h _) hm), if_neg hne]; rfl
        · simp only [reduceCtorEq, false_iff, not_exists, not_and]
          rintro _ mat' ⟨⟩ h' _
          rw [hm] at h'; cases h'
          exact hne

/-- C36 (solve): `lhf?Solve` is `lhf?Apply` with one sweep of the inverse, whatever bounds and rank are given. -/
theorem C36_solve_is_apply (env : Env K D) (w : World K) (h : Option Nat) (b x : Buf K) (nirs : Int) (hn : nirs ≤ 1) (betas : Option (D × D))
    (rank : Int) : solve env h b x w = apply env h .S b nirs betas rank x w := by
  rcases h with _ | h
  · rfl
  · rcases hh : w.hifs h with _ | H
    · unfold solve apply applyWith
      simp only
      rw [cm_bind_error (w' := w) (e := .freed) (by unfold runHif; rw [hh]), cm_bind_error (w' := w) (e := .freed) (by unfold CM.derefHif; rw [hh])]
    · unfold solve apply applyWith
      simp only
      rw [cm_bind (derefHif_eq hh), if_pos (Or.inl hn : nirs ≤ 1 ∨ Op.S = .M ∨ Op.S = .MH), if_neg (by simp)]
      rfl

/-- C36 (operations): without refinement `S`/`SH` is the core's solve with the inverse or its adjoint and `M`/`MH` the core's product with the
preconditioner or its adjoint, applied to the first `nrows` elements of the user's vectors; elements beyond are untouched. -/
theorem C36_apply_operation (env : Env K D) (w : World K) (h : Nat) (H : Hdl K) (hH : w.hifs h = some H) (b x : Buf K) (hb : H.M.nrows ≤ b.size)
    (hx : H.M.nrows ≤ x.size) (nirs : Int) (betas : Option (D × D)) (rank : Int) (adj : Bool) (M' : HIF K) (y : Buf K) :
    (nirs ≤ 1 → HIF.solve env.junk ⟨H.M.nrows, b.get⟩ ⟨H.M.nrows, x.get⟩ adj 0 H.M = (M', .ok y) →
      apply env (some h) (if adj then .SH else .S) b nirs betas rank x w =
        (withHif w h { H with M := M' }, .ok ⟨⟨.success, none⟩, ⟨x.size, fun i => if i < H.M.nrows then y.get i else x.get i⟩, none⟩)) ∧
    (HIF.mmultiply env.junk ⟨H.M.nrows, b.get⟩ ⟨H.M.nrows, x.get⟩ adj 0 H.M = (M', .ok y) →
      apply env (some h) (if adj then .MH else .M) b nirs betas rank x w =
        (withHif w h { H with M := M' }, .ok ⟨⟨.success, none⟩, ⟨x.size, fun i => if i < H.M.nrows then y.get i else x.get i⟩, none⟩)) := by
  have hcl : checkLen H.M.nrows b x = .ok () := by
    unfold checkLen; rw [if_neg (by omega)]; rfl
  refine ⟨fun hn hy => ?_, fun hy => ?_⟩
  · have hrun : runHif h (hifSolve env b x adj) w = (withHif w h { H with M := M' }, .ok (Sum.inl (store H.M.nrows x y))) := by
      unfold runHif hifSolve
      rw [hH]
      simp only [view]
      rw [HM.bind_ok (h' := H.M) (a := H.M) rfl, HM.bind_ok hy, HM.bind_ok (h' := M') (a := ()) (by unfold HM.lift; rw [hcl])]
      rfl
    unfold apply applyWith
    simp only
    rw [cm_bind (derefHif_eq hH)]
    cases adj with
    | false =>
      simp only [Bool.false_eq_true, if_false]
      rw [if_pos (Or.inl hn), if_neg (by simp), show Op.trans .S = false from rfl, cm_bind hrun]
      rfl
    | true =>
      simp only [if_true]
      rw [if_pos (Or.inl hn), if_neg (by simp), show Op.trans .SH = true from rfl, cm_bind hrun]
      rfl
  · have hrun : runHif h (hifMultiply env b x adj) w = (withHif w h { H with M := M' }, .ok (Sum.inl (store H.M.nrows x y))) := by
      unfold runHif hifMultiply
      rw [hH]
      simp only [view]
      rw [HM.bind_ok (h' := H.M) (a := H.M) rfl, HM.bind_ok hy, HM.bind_ok (h' := M') (a := ()) (by unfold HM.lift; rw [hcl])]
      rfl
    unfold apply applyWith
    simp only
    rw [cm_bind (derefHif_eq hH)]
    cases adj with
    | false =>
      simp only [Bool.false_eq_true, if_false]
      rw [if_pos (by simp), if_pos (by simp), show Op.trans .M = false from rfl, cm_bind hrun]
      rfl
    | true =>
      simp only [if_true]
      rw [if_pos (by simp), if_pos (by simp), show Op.trans .MH = true from rfl, cm_bind hrun]
      rfl

/-- C36 (refinement matrix): the operator used by refinement is the user's matrix, read by rows or by columns according to the format of the
handle. -/
theorem C36_refinement_matrix (inp : Input K) (A : CS K) (hAe : A = inp.raw.toCS inp.other inp.vals) (hA : A.WF) (n : Nat) (hn : 0 < n)
    (hp : A.psize = n) (hs : A.ssize = n) : Spec.OpOK (matOp inp) n (if inp.rowMajor then A.crs else A.ccs) := by
  subst hAe
  cases hr : inp.rowMajor with
  | true =>
    have e : matOp inp = fun t x y => if t then (inp.raw.toCS inp.other inp.vals).crsMultiplyT x y else (inp.raw.toCS inp.other inp.vals).crsMultiplyNt x y := by
      funext t x y; simp only [matOp, hr, if_true]
    rw [e]
    exact opOK_crs _ hA n hn hp hs
  | false =>
    have e : matOp inp = fun t x y => if t then (inp.raw.toCS inp.other inp.vals).ccsMultiplyT x y else (inp.raw.toCS inp.other inp.vals).ccsMultiplyNt x y := by
      funext t x y; simp only [matOp, hr, Bool.false_eq_true, if_false]
    rw [e]
    exact opOK_ccs _ hA n hp hs

/-! ## C37: the rank argument of apply -/

/-- C37 (finding): without refinement and for products the rank argument has no effect at all. -/
theorem C37_rank_ignored (env : Env K D) (w : World K) (h : Option Nat) (op : Op) (b x : Buf K) (nirs : Int) (betas : Option (D × D))
    (hn : nirs ≤ 1 ∨ op = .M ∨ op = .MH) (r r' : Int) : apply env h op b nirs betas r x w = apply env h op b nirs betas r' x w := by
  rcases h with _ | h
  · rfl
  · unfold apply applyWith
    simp only [if_pos hn]

/-- C37 (what does hold): with refinement, the rank given (converted to `size_t`, so that −1 means full rank), or full rank if the default
is asked for, is the rank used in every solve of the refinement. -/
theorem C37_refinement_partial (env : Env K D) (w : World K) (h m : Nat) (H : Hdl K) (hH : w.hifs h = some H) (hA : H.A = some m) (mat : Mat K)
    (hm : w.mats m = some mat) (hsz : mat.n = H.M.nrows) (inp : Input K) (hinp : wrapRaw mat = .ok inp) (op : Op) (hop : op = .S ∨ op = .SH)
    (b x : Buf K) (hb : mat.n ≤ b.size) (hxs : mat.n ≤ x.size) (nirs : Int) (hn : 1 < nirs) (rank : Int) :
    let r := if rank = DEFAULT_RANK then 2 ^ 64 - 1 else (rank % 2 ^ 64).toNat
    (∀ M' y, HIF.hifir env.junk (matOp inp) ⟨mat.n, b.get⟩ nirs.toNat ⟨mat.n, x.get⟩ (op = .SH) r H.M = (M', .ok y) →
      apply env (some h) op b nirs none rank x w = (withHif w h { H with M := M' }, .ok ⟨⟨.success, none⟩, store mat.n x y, none⟩)) ∧
    (∀ β : D × D, ∀ M' y, HIF.hifirBounded env.junk (matOp inp) env.norm ⟨mat.n, b.get⟩ nirs.toNat β.1 β.2 ⟨mat.n, x.get⟩ (op = .SH) r H.M = (M', .ok y) →
      apply env (some h) op b nirs (some β) rank x w =
        (withHif w h { H with M := M' }, .ok ⟨⟨.success, none⟩, store mat.n x y.1, some y.2⟩)) := by
  intro r
  have hbr : ¬(nirs ≤ 1 ∨ op = .M ∨ op = .MH) := by
    rcases hop with h2 | h2 <;> subst h2 <;> simp <;> omega
  have hr : sizeT (rankOf op nirs rank) = r := by
    unfold rankOf
    simp only [r]
    by_cases hd : rank = DEFAULT_RANK
    · rw [if_pos hd, if_pos (Or.inr hn), if_pos hd]; rfl
    · rw [if_neg hd, if_neg hd]; rfl
  have ht : op.trans = decide (op = .SH) := by rcases hop with h2 | h2 <;> subst h2 <;> rfl
  have hcl : checkLen mat.n b x = .ok () := by
    unfold checkLen; rw [if_neg (by omega)]; rfl
  refine ⟨fun M' y hy => ?_, fun β M' y hy => ?_⟩
  · unfold apply
    rw [applyWith_refines env (·.A) w h H hH op b nirs ⟨hn, hop⟩]
    simp only [hA]
    rw [cm_bind (derefMat_eq hm), if_neg (by simp [hsz]), cm_bind (show CM.lift (wrapRaw mat) w = (w, .ok inp) by rw [hinp]; rfl), hr, ht]
    have hrun : runHif h (hifHifir env inp mat.n b nirs.toNat none (decide (op = .SH)) r x) w =
        (withHif w h { H with M := M' }, .ok (Sum.inl (store mat.n x y, none))) := by
      unfold runHif hifHifir
      rw [hH]
      simp only [view]
      rw [HM.bind_ok hy, HM.bind_ok (h' := M') (a := ()) (by unfold HM.lift; rw [hcl])]
      rfl
    rw [cm_bind hrun, ← hA]
    rfl
  · unfold apply
    rw [applyWith_refines env (·.A) w h H hH op b nirs ⟨hn, hop⟩]
    simp only [hA]
    rw [cm_bind (derefMat_eq hm), if_neg (by simp [hsz]), cm_bind (show CM.lift (wrapRaw mat) w = (w, .ok inp) by rw [hinp]; rfl), hr, ht]
    have hrun : runHif h (hifHifir env inp mat.n b nirs.toNat (some β) (decide (op = .SH)) r x) w =
        (withHif w h { H with M := M' }, .ok (Sum.inl (store mat.n x y.1, some y.2))) := by
      unfold runHif hifHifir
      rw [hH]
      simp only [view]
      rw [HM.bind_ok hy, HM.bind_ok (h' := M') (a := ()) (by unfold HM.lift; rw [hcl])]
      rfl
    rw [cm_bind hrun, ← hA]
    rfl

/-! ## Concrete cases and witnesses -/

namespace ExLhf

/-- A library over the rational numbers with the level kernels of the 3×3 example. -/
def env : Env ℚ ℚ :=
  { junk := fun _ => 0, ijunk := fun _ => 0, kers := fun _ => Ex.ker false false, trunc := fun x => x.floor, norm := fun b => |b.get 0|
    nrows0 := 0, ncols0 := 0, stats0 := fun _ => 0 }

/-- The same with a second level that fails. -/
def envFail : Env ℚ ℚ := { env with kers := fun _ => Ex.ker true false }

/-- A 3×3 identity matrix, zero-based. -/
def eye3 : Arrays ℚ := ⟨Buf.ofList [0, 1, 2, 3], Buf.ofList [0, 1, 2], Buf.ofList [1, 1, 1]⟩
/-- A vector. -/
def ones : Buf ℚ := ⟨3, fun _ => 1⟩

/-- A history with a preconditioner, a refinement and destruction in the careless order. -/
def hist : List (Call ℚ ℚ) :=
  [.createMatrix false true 3 (some eye3), .create false (some 0) none none, .apply (some 1) .S ones 2 none DEFAULT_RANK ones, .getErrorMsg,
   .destroyMatrix (some 0), .solve (some 1) ones ones, .destroy (some 1)]

/-- The part of an outcome that can be compared. -/
def sig (r : World ℚ × Except Fault (List Seen)) : Option (List (Option Status)) ⊕ Bool :=
  match r.2 with
  | .ok ss => .inl (some (ss.map fun s => match s with | .handle _ r => some r.status | .ret r => some r.status | .msg _ => none))
  | .error .freed => .inr true
  | .error _ => .inr false

/-- The history runs through: everything succeeds. -/
theorem hist_runs : sig (run env hist start) =
    .inl (some [some .success, some .success, some .success, none, some .success, some .success, some .success]) := by decide +kernel

theorem disciplined_step {keep : Prop} {c : Call ℚ ℚ} {cs : List (Call ℚ ℚ)} {w : World ℚ} (h1 : Allowed keep w c)
    (h2 : Disciplined keep env cs (c.exec env w).1) : Disciplined keep env (c :: cs) w :=
  ⟨h1, fun w' s h => by rw [h] at h2; exact h2⟩

/-- It respects the ownership rule, so the hypotheses of C36 and C38 are met by it. -/
theorem hist_disciplined : Disciplined False env hist start := by
  have lm : ∀ (w : World ℚ) (i : Nat), (w.mats i).isSome = true → liveMat w (some i) := fun w i h j hj => by cases hj; exact h
  have lh : ∀ (w : World ℚ) (i : Nat), (w.hifs i).isSome = true → liveHif w (some i) := fun w i h j hj => by cases hj; exact h
  have ln : ∀ (w : World ℚ), liveMat w none := fun w j hj => by cases hj
  unfold hist
  refine disciplined_step trivial (disciplined_step ⟨lm _ _ (by decide +kernel), ln _⟩ (disciplined_step ⟨lh _ _ (by decide +kernel), ?_⟩
    (disciplined_step trivial (disciplined_step ⟨lm _ _ (by decide +kernel), fun h => h.elim⟩
      (disciplined_step (lh _ _ (by decide +kernel)) (disciplined_step (lh _ _ (by decide +kernel)) trivial))))))
  intro _ _ i x hi hx
  cases hi
  have hA : (((Call.exec env (.create false (some 0) none none) (Call.exec env (.createMatrix false true 3 (some eye3)) start).1).1.hifs 1).map (·.A)) =
      some (some 0) := by decide +kernel
  rw [hx] at hA
  rw [show x.A = some 0 from Option.some.inj hA]
  exact lm _ _ (by decide +kernel)

/-- The rule is needed: refinement after the matrix was destroyed is a use of a destroyed structure. -/
example : sig (run env [.createMatrix false true 3 (some eye3), .create false (some 0) none none, .destroyMatrix (some 0),
    .apply (some 1) .S ones 2 none DEFAULT_RANK ones] start) = .inr true := by decide +kernel

/-- A failing factorization: no handle, the message is reported once, then `NULL`. -/
example : ((run envFail [.createMatrix false true 3 (some eye3), .create false (some 0) none none, .getErrorMsg, .getErrorMsg] start).2.map fun ss =>
    ss.map fun s => match s with | .handle h r => (h, r.thrown) | .ret r => (none, r.thrown) | .msg m => (none, m)) =
    .ok [(some 0, none), (none, some "bad pivot"), (none, some "bad pivot"), (none, none)] := by decide +kernel

/-- A level that is one dense block of size 2, the solver of which (for the identity) zeroes what is beyond the rank asked for (0: all). -/
def truncated : Prec ℚ :=
  { m := 0, n := 2, L := CS.zero 0 0, d := Buf.ofList [], U := CS.zero 0 0, E := CS.zero 0 2, F := CS.zero 2 0, s := onesBuf 2, t := onesBuf 2
    p := eyeBuf 2, pinv := eyeBuf 2, q := eyeBuf 2, qinv := eyeBuf 2
    last := .dense
      { solve := fun v r _ => pure ⟨2, fun i => if r = 0 ∨ i < r then v.get i else 0⟩
        multiply := fun v r _ => pure ⟨2, fun i => if r = 0 ∨ i < r then v.get i else 0⟩
        solveMrhs := fun _ v _ => pure v
        rank := 2 } }

/-- The library with such a preconditioner at address 0. -/
def world2 : World ℚ :=
  ⟨fun _ => none, fun i => if i = 0 then some ⟨⟨[truncated], ⟨0, fun _ => 0⟩, none, none, fun _ => 0, 2, 2⟩, none, none⟩ else none, 1, "", ""⟩

/-- The entries of a computed vector. -/
def entries (r : World ℚ × Except Fault (VecRet ℚ)) : Option (List ℚ) :=
  match r.2 with
  | .ok v => some v.x.toList
  | .error _ => none

end ExLhf

/-- C37 fails without refinement: `lhf?Apply` with rank 1 gives the full-rank solution, while the core's `solve` with rank 1 gives another one
(and the same for the product). -/
theorem C37_witness :
    ExLhf.entries (apply ExLhf.env (some 0) .S ⟨2, fun _ => 1⟩ 1 none 1 ⟨2, fun _ => 0⟩ ExLhf.world2) = some [1, 1] ∧
    ((HIF.solve (fun _ => 0) ⟨2, fun _ => 1⟩ ⟨2, fun _ => 0⟩ false 1 ⟨[ExLhf.truncated], ⟨0, fun _ => 0⟩, none, none, fun _ => 0, 2, 2⟩).2.map
      Buf.toList) = .ok [1, 0] ∧
    ExLhf.entries (apply ExLhf.env (some 0) .M ⟨2, fun _ => 1⟩ 1 none 1 ⟨2, fun _ => 0⟩ ExLhf.world2) = some [1, 1] ∧
    ((HIF.mmultiply (fun _ => 0) ⟨2, fun _ => 1⟩ ⟨2, fun _ => 0⟩ false 1 ⟨[ExLhf.truncated], ⟨0, fun _ => 0⟩, none, none, fun _ => 0, 2, 2⟩).2.map
      Buf.toList) = .ok [1, 0] := by decide +kernel

/-- C39 fails in the C interface beyond the factorization: a one-based matrix is accepted by the factorization, but refinement takes the same
arrays as zero-based and reads past their end. -/
theorem C39_c_refinement_witness :
    let one : Arrays ℚ := ⟨Buf.ofList [1, 2, 3, 4], Buf.ofList [1, 2, 3], Buf.ofList [1, 1, 1]⟩
    let cs : List (Call ℚ ℚ) := [.createMatrix false true 3 (some one), .create false (some 0) none none]
    ExLhf.sig (run ExLhf.env cs start) = .inl (some [some .success, some .success]) ∧
    (run ExLhf.env (cs ++ [.apply (some 1) .S ExLhf.ones 2 none DEFAULT_RANK ExLhf.ones]) start).2.map (fun _ => ()) = .error (.core .oob) := by
  decide +kernel

/-- A matrix handle made from `NULL` arrays is valid for the interface, but asking for its number of nonzeros, or factorizing it, dereferences a
null pointer. -/
theorem C36_empty_matrix_witness (w : World ℚ) (rm : Bool) (n : Nat) :
    ∃ w' m, createMatrix false rm n none w = (w', .ok (some m)) ∧
      (getMatrixNnz (some m) w').2 = .error (.core (.ub "null pointer")) ∧
      ∀ H h, w.hifs h = some H → (refactorize ExLhf.env (some h) (some m) none w').2 = .error (.core (.ub "null pointer")) := by
  refine ⟨_, _, rfl, ?_, ?_⟩
  · show ((CM.derefMat w.next >>= _) _).2 = _
    rw [cm_bind (derefMat_eq (x := (⟨none, 0, rm⟩ : Mat ℚ)) (by simp))]
    rfl
  · intro H h hH
    have key : ∀ w' : World ℚ, w'.mats w.next = some ⟨none, 0, rm⟩ → w'.hifs h = some H →
        (refactorize ExLhf.env (some h) (some w.next) none w').2 = .error (.core (.ub "null pointer")) := by
      intro w' h1 h2
      unfold refactorize
      simp only
      rw [cm_bind (derefHif_eq h2)]
      unfold factorize
      rw [cm_bind (derefMat_eq h1)]
      rfl
    exact key _ (by simp) hH

end Hif.Props
