import Verif.PSymmVec

set_option linter.unusedVariables false
set_option linter.unusedSectionVars false
set_option linter.unusedSimpArgs false

/-!
# The main loop of the Crout phase for a symmetric leading block: tests and deferrals (proofs)

The invariant of the general loop (`Crout.Inv`) holds, and in addition the leading parts of `U` and `L` are transposes of each other.
-/

namespace Hif.PSymm
open Finset Crout
variable {K : Type _} [Field K] [DecidableEq K] {R : Type _} [LinearOrder R]

/-- A dropping routine that drops nothing from vectors with at most `n` entries. -/
def KeepsTail (n : Nat) (f : K → Nat → SV K → M (SV K)) : Prop :=
  ∀ kap lab v r N step, lab < n → N ≤ 2 * n → SV.Busy N step v → v.vals.size = N → v.counts ≤ n → f kap lab v = .ok r → v.list ⊆ r.list

/-- Nothing is dropped from rows of `U` nor from tails of columns of `L`. -/
def Par.Keeps (pr : Par K R) (n : Nat) : Prop := KeepsAll n pr.dropU ∧ ∀ s, s ≤ n → KeepsTail n (pr.dropL s)

open Classical in
/-- Parameters of the general loop used to state the invariant: there the dropping on `L` matters only for what it promises. -/
noncomputable def Par.gh (pr : Par K R) (n : Nat) : Crout.Par K R :=
  { pr.base with dropL := fun _ _ v => if pr.Keeps n then pure v else pure { v with counts := 0 } }

theorem badDiag_gh (pr : Par K R) (n : Nat) (a : K) : badDiag (pr.gh n) a = badDiag pr.base a := rfl
theorem bigKappa_gh (pr : Par K R) (n : Nat) (c : Crout.St K) : bigKappa (pr.gh n) c = bigKappa pr.base c := rfl

/-- A vector with one entry. -/
def single (n : Nat) (w : K) : SV K :=
  ⟨⟨2 * n, fun _ => w⟩, ⟨2 * n, fun _ => 0⟩, 1, ⟨2 * n, fun i => if i = 0 then some 0 else none⟩, ⟨2 * n, fun _ => false⟩⟩

theorem single_list (n : Nat) (w : K) : (single n w).list = [0] := by
  unfold SV.list single Buf.slice; rfl

theorem single_busy {n : Nat} (hn : 0 < n) (w : K) : SV.Busy (2 * n) 0 (single n w) := by
  have hl := single_list n w
  refine ⟨rfl, le_refl _, rfl, fun _ => rfl, by rw [hl]; simp, fun i => ?_, fun i hi t ht => ?_⟩
  · rw [hl, List.mem_singleton]
    constructor
    · rintro rfl; exact ⟨by omega, rfl⟩
    · rintro ⟨-, h2⟩
      by_contra hc
      simp [single, hc] at h2
  · by_cases e : i = 0
    · simp [single, e] at ht; omega
    · simp [single, e] at ht

theorem gh_drop_ok (pr : Par K R) (n : Nat) : DropOK n (fun _ _ => True) (pr.gh n).dropL := by
  classical
  intro kap lab v N step _ hv hvs
  show Runs (if _ then _ else _) _
  split
  · rw [runs_pure]
    exact ⟨rfl, rfl, rfl, rfl, hv.drop_false, hv.nodup, fun x hx => hx, trivial⟩
  · rw [runs_pure]
    have : (SV.list { v with counts := 0 }) = [] := by unfold SV.list; rw [Buf.slice_empty _ _ _ (le_refl _)]
    exact ⟨rfl, rfl, rfl, rfl, hv.drop_false, by rw [this]; simp, by rw [this]; simp, trivial⟩

theorem gh_keeps {pr : Par K R} {n : Nat} (hn : 0 < n) (h : KeepsAll n (pr.gh n).dropL) : pr.Keeps n := by
  classical
  by_contra hc
  have h1 := h 0 0 (single n 0) { single n 0 with counts := 0 } (2 * n) 0 hn (le_refl _) (single_busy hn 0) rfl (by
    show (if _ then _ else _) = _
    rw [if_neg hc]; rfl)
  rw [single_list] at h1
  have := h1 (List.mem_singleton.2 rfl)
  unfold SV.list at this
  rw [Buf.slice_empty _ _ _ (le_refl _)] at this
  simp at this

theorem gh_keeps' {pr : Par K R} {n : Nat} (h : pr.Keeps n) : KeepsAll n (pr.gh n).dropL := by
  classical
  intro kap lab v r N step _ _ _ _ hok
  change (if _ then _ else _) = _ at hok
  rw [if_pos h] at hok
  cases hok
  exact fun x hx => hx

/-- The recorded rule says nothing unless entries may be dropped. -/
theorem gh_rule {pr : Par K R} {n : Nat} {Ψ : K → Nat → K → Prop} (h : DropRule n (pr.gh n).dropL Ψ) {lab : Nat} (hlab : lab < n) (hk : ¬ pr.Keeps n)
    (kap w : K) : Ψ kap lab w := by
  classical
  refine h kap lab (single n w) { single n w with counts := 0 } (2 * n) 0 hlab (single_busy (by omega) w) rfl ?_ 0 ?_ ?_
  · show (if _ then _ else _) = _
    rw [if_neg hk]; rfl
  · rw [single_list]; exact List.mem_singleton.2 rfl
  · unfold SV.list
    rw [Buf.slice_empty _ _ _ (le_refl _)]
    simp

/-- Loop invariant. -/
structure SInv (pr : Par K R) (I : Crout.In K) (ΦU : Nat → Nat → Prop) (s : St K) (g : Gh K) : Prop where
  inv : Inv (pr.gh I.n) I ΦU (fun _ _ => True) s.c g
  off : OffOK I.m2 s.c.step s.c.L.T s.off
  sy : ∀ h, h < s.c.step → ∀ x, x < I.n → g.v x < I.m2 → g.Ls h x = g.Us h x
  kap : ∀ h, h < s.c.step → s.c.kL.get h = s.c.kU.get h

variable {pr : Par K R} {I : Crout.In K} {ΦU : Nat → Nat → Prop}

theorem SInv.counters {c : Crout.St K} {off : Buf Nat} {g : Gh K} (h : SInv pr I ΦU ⟨c, off⟩ g) (a b : Nat) :
    SInv pr I ΦU ⟨{ c with nDiag := a, nCond := b }, off⟩ g :=
  ⟨h.inv.counters a b, h.off, h.sy, h.kap⟩

/-- The estimates. -/
theorem kappas_runs (hI : InOK I) {c : Crout.St K} {off : Buf Nat} {g : Gh K} (h : SInv pr I ΦU ⟨c, off⟩ g) (hlt : c.step + c.defers < I.m2) :
    Runs (kappas pr c) fun r => SInv pr I ΦU ⟨r, off⟩ g ∧ KapNow (pr.gh I.n) r g ∧ r.kL.get c.step = r.kU.get c.step ∧
      (∃ a b, r = { c with kU := a, kL := b }) := by
  have hmle := hI.mle
  have hin : Inv (pr.gh I.n) I ΦU (fun _ _ => True) c g := h.inv
  have hkap : ∀ i, i < c.step → c.kL.get i = c.kU.get i := h.kap
  have hsy : ∀ i, i < c.step → ∀ x, x < I.n → g.v x < I.m2 → g.Ls i x = g.Us i x := h.sy
  unfold kappas
  simp only [runs_bind]
  refine (updateKappa_runs pr.nrm hin.U hlt hin.kUsz).mono ?_
  rintro a ⟨a1, a2, a3⟩
  have hkL := hin.kLsz

  simp only [runs_rd, runs_wr, runs_pure]
  refine ⟨by omega, by omega, ?_⟩
  have hb2 : ∀ i, i ≠ c.step → (c.kL.set c.step (a.get c.step)).get i = c.kL.get i := fun i hi => Buf.set_get_ne _ _ hi
  have hnow : a.get c.step = (if c.step = 0 then 1 else
      kappaPick pr.nrm (∑ i ∈ range c.step, a.get i * g.Us i (c.step + c.defers))) := by
    rw [a3]
    split
    · rfl
    · refine congrArg _ (sum_congr rfl fun i hi => ?_)
      have hi := mem_range.1 hi
      have h4 := hin.entU i hi (c.step + c.defers) (by omega)
      rw [hin.pos.pend _ (le_refl _)] at h4
      rw [a2 i (by omega), ← h4]
  refine ⟨⟨{ hin with kUsz := a1, kLsz := ?_, kapU := ?_, kapL := ?_, rulU := ?_, rulL := ?_ }, h.off, h.sy, ?_⟩, ⟨hnow, ?_⟩, ?_, _, _, rfl⟩
  · show (c.kL.set _ _).size = _
    rw [Buf.set_size]; exact hkL
  · exact hin.kapU.congr (fun i hi => a2 i (Nat.ne_of_lt hi)) (fun _ _ _ _ => rfl)
  · exact hin.kapL.congr (fun i hi => hb2 i (Nat.ne_of_lt hi)) (fun _ _ _ _ => rfl)
  · intro Ψ hΨ i hi x hx
    have hi : i < c.step := hi
    show _ ∨ (_ ∧ Ψ (a.get i) _ _)
    rw [a2 i (by omega)]; exact hin.rulU Ψ hΨ i hi x hx
  · intro Ψ hΨ i hi x hx
    have hi : i < c.step := hi
    show _ ∨ (_ ∧ Ψ ((c.kL.set _ _).get i) _ _)
    rw [hb2 i (by omega)]; exact hin.rulL Ψ hΨ i hi x hx
  · intro i hi
    have hi : i < c.step := hi
    show (c.kL.set _ _).get i = a.get i
    rw [hb2 i (by omega), a2 i (by omega)]; exact hkap i hi
  · show (c.kL.set _ _).get c.step = _
    rw [Buf.set_get_self]
    refine hnow.trans ?_
    show _ = (if c.step = 0 then 1 else kappaPick pr.nrm (∑ i ∈ range c.step, (c.kL.set c.step (a.get c.step)).get i * g.Ls i (c.step + c.defers)))
    split
    · rfl
    · refine congrArg _ (sum_congr rfl fun i hi => ?_)
      have hi := mem_range.1 hi
      rw [hb2 i (by omega), a2 i (by omega), ← hkap i hi, hsy i hi (c.step + c.defers) (by omega) (by rw [hin.pos.pend _ (le_refl _)]; exact hlt)]
  · show (c.kL.set _ _).get c.step = a.get c.step
    rw [Buf.set_get_self]

/-- The candidate is acceptable. -/
def SAccepted (pr : Par K R) (n : Nat) (c : Crout.St K) (g : Gh K) : Prop := Accepted (pr.gh n) c g ∧ c.kL.get c.step = c.kU.get c.step

/-- First test of a step. -/
theorem firstTest_runs (hI : InOK I) {c : Crout.St K} {off : Buf Nat} {g : Gh K} (h : SInv pr I ΦU ⟨c, off⟩ g) (hlt : c.step + c.defers < I.m2)
    (hc : c.nDiag + c.nCond = c.defers) :
    Runs (firstTest pr c) fun r => SInv pr I ΦU ⟨r.2, off⟩ g ∧ r.2.step = c.step ∧ r.2.defers = c.defers ∧
      r.2.nDiag + r.2.nCond = r.2.defers + (if r.1 then 1 else 0) ∧ (r.1 = false → SAccepted pr I.n r.2 g) := by
  unfold firstTest
  simp only [runs_bind, runs_rd]
  refine ⟨by have := h.inv.dsz; simp only at this; omega, ?_⟩
  have h' := h.counters (if badDiag pr.base (c.d.get (c.step + c.defers)) then c.nDiag + 1 else c.nDiag) c.nCond
  refine (kappas_runs hI h' hlt).mono ?_
  rintro r ⟨r1, r2, r3, a, b, rfl⟩
  by_cases hb : badDiag pr.base (c.d.get (c.step + c.defers)) = true
  · simp only [hb, if_true, runs_pure] at r1 r2 ⊢
    exact ⟨r1, trivial, trivial, by omega, fun hc => by simp at hc⟩
  · rw [Bool.not_eq_true] at hb
    simp only [hb, Bool.false_eq_true, if_false, runs_bind] at r1 r2 ⊢
    rw [← bigKappa_gh pr I.n]
    refine (bigKappa_runs r1.inv hlt).mono ?_
    intro bb hbb
    simp only [runs_pure]
    refine ⟨r1.counters _ _, trivial, trivial, ?_, fun hc => ⟨⟨hb, r2, hbb.1 hc⟩, r3⟩⟩
    cases bb <;> simp <;> omega

/-- Test after a deferral. -/
theorem retest_runs (hI : InOK I) {c : Crout.St K} {off : Buf Nat} {g : Gh K} (h : SInv pr I ΦU ⟨c, off⟩ g) (hlt : c.step + c.defers < I.m2)
    (hc : c.nDiag + c.nCond = c.defers) :
    Runs (retest pr c) fun r => SInv pr I ΦU ⟨r.2, off⟩ g ∧ r.2.step = c.step ∧ r.2.defers = c.defers ∧
      r.2.nDiag + r.2.nCond = r.2.defers + (if r.1 then 1 else 0) ∧ (r.1 = false → SAccepted pr I.n r.2 g) := by
  unfold retest
  simp only [runs_bind, runs_rd]
  refine ⟨by have := h.inv.dsz; simp only at this; omega, ?_⟩
  by_cases hb : badDiag pr.base (c.d.get (c.step + c.defers)) = true
  · simp only [hb, if_true, runs_pure]
    exact ⟨h.counters _ _, trivial, trivial, by omega, fun hc => by simp at hc⟩
  · rw [Bool.not_eq_true] at hb
    simp only [hb, Bool.false_eq_true, if_false, runs_bind]
    refine (kappas_runs hI h hlt).mono ?_
    rintro r ⟨r1, r2, r3, a, b, rfl⟩
    rw [← bigKappa_gh pr I.n]
    refine (bigKappa_runs r1.inv hlt).mono ?_
    intro bb hbb
    simp only [runs_pure]
    refine ⟨r1.counters _ _, trivial, trivial, ?_, fun hc => ⟨⟨hb, r2, hbb.1 hc⟩, r3⟩⟩
    cases bb <;> simp <;> omega

theorem chase_fst (t : Nat) (f : Nat) : ∀ (h : Option Nat) (s r : FacSide K × Buf Nat), chase (symDeferBody t) f h s = .ok r →
    chase (deferBody t) f h s.1 = .ok r.1 := by
  induction f with
  | zero =>
    intro h s r hr
    cases h with
    | none => simp only [chase, pure, Except.pure] at hr ⊢; cases hr; rfl
    | some i => simp [chase] at hr
  | succ f ih =>
    intro h s r hr
    cases h with
    | none => simp only [chase, pure, Except.pure] at hr ⊢; cases hr; rfl
    | some i =>
      have hr' : Runs (chase (symDeferBody t) (f + 1) (some i) s) fun x => x = r := ⟨r, hr, rfl⟩
      suffices H : Runs (chase (deferBody t) (f + 1) (some i) s.1) fun x => x = r.1 by
        obtain ⟨x, hx, rfl⟩ := H; exact hx
      simp only [chase, symDeferBody, runs_bind, runs_rd, runs_wr, runs_pure] at hr' ⊢
      refine hr'.mono ?_
      rintro x ⟨-, -, y, hy, rfl⟩
      exact ⟨_, ih _ _ _ hy, rfl⟩

theorem symDeferL_fst {k δ t : Nat} {F : FacSide K} {off : Buf Nat} {s : FacSide K × Buf Nat} (h : symDeferL k δ t F off = .ok s) :
    deferEntry k δ t F = .ok s.1 := by
  have h' : Runs (symDeferL k δ t F off) fun x => x = s := ⟨s, h, rfl⟩
  suffices H : Runs (deferEntry k δ t F) fun x => x = s.1 by
    obtain ⟨x, hx, rfl⟩ := H; exact hx
  unfold symDeferL at h'
  unfold deferEntry
  simp only [runs_bind, runs_rd, runs_wr, runs_pure] at h' ⊢
  obtain ⟨h1, y, hy, h2, rfl⟩ := h'
  exact ⟨h1, y.1, chase_fst t _ _ _ _ hy, h2, rfl⟩

/-- The deferral does what the general one does, and keeps the offsets. -/
theorem deferOne_eq {n : Nat} {c r : Crout.St K} {off : Buf Nat} {s : FacSide K × Buf Nat}
    (hs : symDeferL c.step c.defers (n + c.defers) c.L off = .ok s) (hr : Crout.deferOne n c = .ok r) :
    deferOne n ⟨c, off⟩ = .ok ⟨r, s.2⟩ ∧ r.L = s.1 := by
  have h' : Runs (Crout.deferOne n c) fun x => x = r := ⟨r, hr, rfl⟩
  have hf := symDeferL_fst hs
  suffices H : Runs (deferOne n ⟨c, off⟩) fun x => x = ⟨r, s.2⟩ ∧ r.L = s.1 by
    obtain ⟨x, hx, rfl, h2⟩ := H; exact ⟨hx, h2⟩
  unfold Crout.deferOne at h'
  unfold deferOne
  dsimp only at h' ⊢
  simp only [hf, hs, runs_bind, runs_rd, runs_wr, runs_pure, runs_ok] at h' ⊢
  refine h'.mono ?_
  rintro U ⟨x1, x2, x3, x4, x5, x6, x7, x8, rfl⟩
  exact ⟨x1, x2, x3, x4, x5, x6, x7, x8, by tt, by tt⟩

theorem deferOne_runs (hI : InOK I) {s : St K} {g : Gh K} (h : SInv pr I ΦU s g) (hlt : s.c.step + s.c.defers < I.m2) :
    Runs (deferOne I.n s) fun r => SInv pr I ΦU r { g with v := upd g.v (s.c.step + s.c.defers) (I.n + s.c.defers) } ∧
      r.c.step = s.c.step ∧ r.c.defers = s.c.defers + 1 ∧ r.c.nDiag = s.c.nDiag ∧ r.c.nCond = s.c.nCond := by
  obtain ⟨c, off⟩ := s
  simp only at hlt ⊢
  have hmle := hI.mle
  obtain ⟨r, hr, r1, r2, r3, r4, r5, r6, r7⟩ := Crout.deferOne_runs hI h.inv hlt
  obtain ⟨w, hw, w1, w2, w3, w4⟩ := symDeferL_runs h.inv.L hlt h.off
  obtain ⟨e1, e2⟩ := deferOne_eq hw hr
  refine ⟨_, e1, ⟨r1, ?_, ?_, ?_⟩, r2, r3, r4, r5⟩
  · show OffOK I.m2 r.step r.L.T w.2
    rw [r2, e2]; exact w4
  · intro i hi x hx hv
    have hi : i < r.step := hi
    simp only at hv ⊢
    by_cases e : x = c.step + c.defers
    · rw [e, upd_self] at hv; omega
    · rw [upd_ne _ _ e] at hv
      exact h.sy i (by rw [r2] at hi; exact hi) x hx hv
  · intro i hi
    have hi : i < r.step := hi
    show r.kL.get i = r.kU.get i
    rw [r6, r7]
    exact h.kap i (by rw [r2] at hi; exact hi)

/-- The deferral loop. -/
theorem deferLoop_runs (hI : InOK I) (f : Nat) : ∀ {s : St K} {g : Gh K}, SInv pr I ΦU s g → s.c.step + s.c.defers < I.m2 →
    s.c.nDiag + s.c.nCond = s.c.defers + 1 → I.m2 - s.c.defers - s.c.step ≤ f →
    Runs (deferLoop pr I.n I.m2 f s) fun r => (∃ g', SInv pr I ΦU r g' ∧
      (r.c.step + r.c.defers < I.m2 → SAccepted pr I.n r.c g')) ∧ r.c.step = s.c.step ∧ r.c.nDiag + r.c.nCond = r.c.defers := by
  induction f with
  | zero => intro s g h hlt hc hf; omega
  | succ f ih =>
    intro s g h hlt hc hf
    rw [deferLoop, if_pos (by rw [h.inv.m]; omega), runs_bind]
    refine (deferOne_runs hI h hlt).mono ?_
    rintro r ⟨r1, r2, r3, r4, r5⟩
    simp only [runs_ite, runs_pure, runs_bind]
    by_cases hend : I.m2 ≤ r.c.step + r.c.defers
    · rw [if_pos hend]
      refine ⟨⟨_, ⟨{ r1.inv with m := ?_ }, r1.off, r1.sy, r1.kap⟩, fun hc => ?_⟩, r2, by omega⟩
      · show r.c.step = I.m2 - r.c.defers
        have := r1.inv.le; omega
      · omega
    · rw [if_neg hend]
      refine (retest_runs (off := r.off) hI r1 (by omega) (by omega)).mono ?_
      rintro ⟨b, r'⟩ ⟨q1, q2, q3, q4, q5⟩
      simp only at q1 q2 q3 q4 q5 ⊢
      cases b with
      | true =>
        simp only [if_true] at q4 ⊢
        refine (ih q1 (by simp only; omega) q4 (by simp only; omega)).mono ?_
        rintro r'' ⟨w1, w2, w3⟩
        exact ⟨w1, by simp only at w2; omega, w3⟩
      | false =>
        simp only [Bool.false_eq_true, if_false, add_zero] at q4 ⊢
        exact ⟨⟨_, q1, fun _ => q5 rfl⟩, by omega, q4⟩

/-- Tests and deferrals of a step. -/
theorem pivotPhase_runs (hI : InOK I) {s : St K} {g : Gh K} (h : SInv pr I ΦU s g) (hlt : s.c.step + s.c.defers < I.m2)
    (hc : s.c.nDiag + s.c.nCond = s.c.defers) :
    Runs (pivotPhase pr I.n I.m2 s) fun r => (∃ g', SInv pr I ΦU r g' ∧
      (r.c.step + r.c.defers < I.m2 → SAccepted pr I.n r.c g')) ∧ r.c.step = s.c.step ∧ r.c.nDiag + r.c.nCond = r.c.defers := by
  unfold pivotPhase
  rw [runs_bind]
  refine (firstTest_runs (off := s.off) hI h hlt hc).mono ?_
  rintro ⟨b, r⟩ ⟨q1, q2, q3, q4, q5⟩
  simp only at q1 q2 q3 q4 q5 ⊢
  cases b with
  | true =>
    simp only [if_true] at q4 ⊢
    refine (deferLoop_runs hI r.m q1 (by simp only; omega) q4 (by have := q1.inv.m; simp only at this ⊢; omega)).mono ?_
    rintro r'' ⟨w1, w2, w3⟩
    exact ⟨w1, by simp only at w2; omega, w3⟩
  | false =>
    simp only [Bool.false_eq_true, if_false, add_zero, runs_pure] at q4 ⊢
    exact ⟨⟨_, q1, fun _ => q5 rfl⟩, by omega, q4⟩

end Hif.PSymm
