import Verif.PCroutStep
import Verif.CroutProps

set_option linter.unusedVariables false
set_option linter.unusedSectionVars false
set_option linter.unusedSimpArgs false

/-!
# The Crout update with pivoting: beginning and end (proofs)
-/

namespace Hif.PCrout
open Finset Crout
variable {K : Type} [Field K] [DecidableEq K] {R : Type _} [Mul R] [LinearOrder R] {pr : Par K R} {I : In K} {ΦU ΦL : Nat → Nat → Prop}

theorem emptySide_side [Inhabited K] {n m2 : Nat} (h : m2 ≤ n) : PSideOK n m2 0 0 (emptySide (K := K) n m2) := by
  refine ⟨by omega, h, ?_, rfl, rfl, rfl, fun i hi => by omega⟩
  obtain ⟨L, hL⟩ := Aug.begin_inv (K := K) ⟨CS.mk m2 (2 * n) (Buf.mk' 0 0) (Buf.mk' 0 0) (Buf.mk' 0 default), Buf.mk' 0 0, Buf.mk' 0 none, Buf.mk' 0 none, Buf.mk' 0 none,
      Buf.mk' 0 0, Buf.mk' 0 0, Buf.mk' 0 0⟩
  exact ⟨L, hL.store, lists_mono hL.lists fun j hj => hj.2⟩

/-- The initial state satisfies the invariant. -/
theorem init_runs [Inhabited K] (hI : InOK I) :
    Runs (init I) fun c => (∃ g, PInv pr I ΦU ΦL c g) ∧ c.step = 0 ∧ c.nDiag + c.nCond = c.defers ∧
      (SV.Ready (2 * I.n) c.step c.l ∧ c.l.vals.size = 2 * I.n) ∧ (SV.Ready (2 * I.n) c.step c.ut ∧ c.ut.vals.size = 2 * I.n) := by
  have hmle := hI.mle
  unfold init
  simp only [runs_bind]
  refine (widen_runs I.n I.p0 hI.psz).mono ?_
  rintro P ⟨P1, P2⟩
  refine (widen_runs I.n I.q0 hI.qsz).mono ?_
  rintro Q ⟨Q1, Q2⟩
  rw [runs_pure]
  refine ⟨⟨⟨fun x => x, fun x => x, fun x => x, fun x => x, fun _ _ => 0, fun _ _ => 0, fun _ _ => 0, fun _ _ => 0, ∅⟩, ?_⟩, by tt, by tt, ⟨new_ready _, rfl⟩, ⟨new_ready _, rfl⟩⟩
  exact {
    le := by show 0 + 0 ≤ I.m2; omega
    m := rfl
    rpos := PPos.init _
    cpos := PPos.init _
    perm := ⟨hI.psz, hI.pisz, P1, fun x h => by simp at h, fun x _ _ => rfl, fun x _ hx => P2 x hx,
      fun x _ hx => (hI.pinv.1 x hx).2, fun x h => by simp at h, fun _ _ _ => rfl⟩
    qerm := ⟨hI.qsz, hI.qisz, Q1, fun x h => by simp at h, fun x _ _ => rfl, fun x _ hx => Q2 x hx,
      fun x _ hx => (hI.qinv.1 x hx).2, fun x h => by simp at h, fun _ _ _ => rfl⟩
    U := emptySide_side hmle, L := emptySide_side hmle, dsz := rfl, kUsz := rfl, kLsz := rfl
    entU := fun h hh => by simp at hh
    entL := fun h hh => by simp at hh
    num := ⟨fun h hh => by simp at hh, fun h hh => by simp at hh, fun h hh => by simp at hh, fun h hh => by simp at hh,
      fun h hh => by simp at hh, fun _ h hh => by simp at hh, fun _ h hh => by simp at hh,
      fun h hh => by simp at hh, fun h hh => by simp at hh, fun h hh => by simp at hh⟩
    kapU := fun h hh => by simp at hh
    kapL := fun h hh => by simp at hh
    rulU := fun Ψ _ h hh => by simp at hh
    rulL := fun Ψ _ h hh => by simp at hh
    cntU := fun h hh => by simp at hh
    cntL := fun h hh => by simp at hh
    thrU := fun _ h hh => by simp at hh
    thrL := fun _ h hh => by simp at hh
    slack := by simp
    idle := fun _ => ⟨rfl, rfl⟩ }

theorem PPos.cases {n k δ : Nat} {v o : Nat → Nat} (h : PPos n k δ v o) {x : Nat} (hx : x < n) : v x < k ∨ (k + δ ≤ v x ∧ v x < n + δ) :=
  (h.to_pos x hx).1

theorem place_perm {n k δ : Nat} {v o : Nat → Nat} (hp : PPos n k δ v o) (hkn : k + δ ≤ n) : Spec.IsPerm n (place k δ v) := by
  constructor
  · intro x hx
    unfold place
    rcases hp.cases hx with h1 | h1
    · rw [if_pos h1]; omega
    · rw [if_neg (by omega)]; omega
  · intro x y hx hy e
    refine hp.inj hx hy ?_
    unfold place at e
    rcases hp.cases hx with h1 | h1 <;> rcases hp.cases hy with h2 | h2
    · rw [if_pos h1, if_pos h2] at e; exact e
    · rw [if_pos h1, if_neg (by omega)] at e; omega
    · rw [if_pos h2, if_neg (by omega)] at e; omega
    · rw [if_neg (by omega), if_neg (by omega)] at e; omega

theorem assignGaps_runs {n m2 k δ : Nat} {v o : Nat → Nat} {p0 p pinv : Buf Nat} {P : Buf (Option Nat)} (h : PPerm n m2 k δ o p0 p pinv P)
    (hp : PPos n k δ v o) (hkn : k + δ ≤ n) (hm : k + δ = m2) :
    Runs (assignGaps k δ n P p) fun r => r.size = n ∧ ∀ x, x < n → r.get (place k δ v x) = p0.get x := by
  unfold assignGaps
  refine forUp_runs' (fun i r => r.size = n ∧ (∀ j, j < k → r.get j = p.get j) ∧
    ∀ j, k + δ ≤ j → j < i + δ → r.get (j - δ) = p0.get (o j)) (by omega) ⟨h.psz, fun _ _ => rfl, fun x h1 h2 => by omega⟩ ?_ ?_
  · rintro i r h1 h2 ⟨r1, r2, r3⟩
    have hb := h.big (i + δ) (by omega) (by omega)
    simp only [runs_bind, runs_rd, hb, runs_wr, Buf.set_size, Buf.set_get]
    refine ⟨by rw [h.Psz]; omega, by omega, r1, fun j hj => by rw [if_neg (by omega)]; exact r2 j hj, fun y y1 y2 => ?_⟩
    by_cases e : y = i + δ
    · rw [if_pos (by omega), e]
    · rw [if_neg (by omega)]; exact r3 y y1 (by omega)
  · rintro r ⟨r1, r2, r3⟩
    refine ⟨r1, fun x hx => ?_⟩
    obtain ⟨g1, g2⟩ := hp.to_pos x hx
    unfold place
    by_cases e : v x < k
    · rw [if_pos e, r2 _ e, h.kept _ e, g2]
    · rw [if_neg e]
      rcases g1 with g1 | g1
      · omega
      · rw [r3 _ g1.1 g1.2, g2]

/-- Everything known at the end of the Crout phase with pivoting. -/
structure PFinal (pr : Par K R) (I : In K) (ΦU ΦL : Nat → Nat → Prop) (r : Out K) (g : Gh K) : Prop where
  tot : r.m + r.defers = I.m2
  cnt : r.nDiag + r.nCond = r.defers
  rpos : PPos I.n r.m r.defers g.vr g.orow
  cpos : PPos I.n r.m r.defers g.vc g.ocol
  psz : r.p.p.size = I.n
  qsz : r.q.p.size = I.n
  p : ∀ x, x < I.n → r.p.p.get (place r.m r.defers g.vr x) = I.p0.get x
  q : ∀ x, x < I.n → r.q.p.get (place r.m r.defers g.vc x) = I.q0.get x
  pinv : r.p.inv.size = I.n ∧ Spec.Inverse I.n r.p.p.get r.p.inv.get
  qinv : r.q.inv.size = I.n ∧ Spec.Inverse I.n r.q.p.get r.q.inv.get
  rfix : ∀ j, I.m2 ≤ j → j < I.n → g.orow j = j
  cfix : ∀ j, I.m2 ≤ j → j < I.n → g.ocol j = j
  dsz : r.d.size = I.m2
  U : FinOK I.n r.m r.U r.Ustart g.Us (place r.m r.defers g.vc) (fun i => ΦU (I.p0.get (g.orow i)))
  L : FinOK I.n r.m r.L r.Lstart g.Ls (place r.m r.defers g.vr) (fun i => ΦL (I.q0.get (g.ocol i)))
  num : PNum pr.toPar I.n r.m I.B g.vr g.orow g.vc g.ocol g.Us g.Ut g.Ls g.Lt r.d.get
  kapU : Kap pr.toPar r.m r.kU g.Us g.ocol
  kapL : Kap pr.toPar r.m r.kL g.Ls g.orow
  rulU : ∀ Ψ, DropRule I.n pr.dropU Ψ → ∀ h, h < r.m → ∀ x, x < I.n →
    g.Us h x = g.Ut h x ∨ (g.Us h x = 0 ∧ Ψ (r.kU.get h) (I.p0.get (g.orow h)) (g.Ut h x))
  rulL : ∀ Ψ, DropRule I.n pr.dropL Ψ → ∀ h, h < r.m → ∀ x, x < I.n →
    g.Ls h x = g.Lt h x ∨ (g.Ls h x = 0 ∧ Ψ (r.kL.get h) (I.q0.get (g.ocol h)) (g.Lt h x))
  lR : SV.Ready (2 * I.n) I.n r.l ∧ r.l.vals.size = 2 * I.n
  utR : SV.Ready (2 * I.n) I.n r.ut ∧ r.ut.vals.size = 2 * I.n

/-- What is known about the pivots and the numbers of exchanges at the end. -/
structure PThres (pr : Par K R) (I : In K) (r : Out K) (nL nU : Nat) (g : Gh K) : Prop where
  thrU : RookPar pr → Thres pr I.n I.m2 r.m g.S g.vc r.kU.get g.Us g.Ut r.d.get
  thrL : RookPar pr → Thres pr I.n I.m2 r.m g.S g.vr r.kL.get g.Ls g.Lt r.d.get
  slack : 4 * g.S.card ≤ 4 * r.defers + nU
  idle : (∀ k b, ¬ pr.nrm k < pr.gamma * max (pr.nrm b) (pr.nrm k)) → nL = 0 ∧ nU = 0

/-- The Crout phase with pivoting completes and establishes `PFinal`. -/
theorem croutCount_runs [Inhabited K] (hs : SrtOK pr) (hI : InOK I) (hU : DropOK I.n ΦU pr.dropU) (hL : DropOK I.n ΦL pr.dropL) :
    Runs (croutCount pr I) fun r => ∃ g, PFinal pr I ΦU ΦL r.1 g ∧ PThres pr I r.1 r.2.1 r.2.2 g := by
  have hmle := hI.mle
  unfold croutCount
  simp only [runs_bind]
  refine (init_runs (pr := pr) (ΦU := ΦU) (ΦL := ΦL) hI).mono ?_
  rintro c0 ⟨⟨g0, h0⟩, hs0, hc0, hl0, hu0⟩
  refine (mainLoop_runs hs hI hU hL I.m2 h0 hl0 hu0 hc0 (by omega)).mono ?_
  rintro c ⟨⟨g, h⟩, hl, hu, htot, hm, hcnt⟩
  have hkn : c.step + c.defers ≤ I.n := by omega
  unfold finish
  simp only [runs_bind]
  refine (assignGaps_runs h.perm h.rpos hkn htot).mono ?_
  rintro p ⟨p1, p2⟩
  refine (assignGaps_runs h.qerm h.cpos hkn htot).mono ?_
  rintro q ⟨q1, q2⟩
  have hperm : ∀ (p p0 : Buf Nat) (z : Nat → Nat), Spec.IsPerm I.n p0.get → Spec.IsPerm I.n z → (∀ x, x < I.n → p.get (z x) = p0.get x) →
      Spec.IsPerm I.n p.get := by
    intro p p0 z hp0 hpl he
    constructor
    · intro i hi
      obtain ⟨x, x1, x2⟩ := isPerm_surj hpl hi
      have := he x x1
      rw [x2] at this
      rw [this]; exact hp0.1 x x1
    · intro i j hi hj e
      obtain ⟨x, x1, x2⟩ := isPerm_surj hpl hi
      obtain ⟨y, y1, y2⟩ := isPerm_surj hpl hj
      have e1 := he x x1
      have e2 := he y y1
      rw [x2] at e1
      rw [y2] at e2
      have := hp0.2 x y x1 y1 (by rw [← e1, ← e2, e])
      subst this
      rw [← x2, ← y2]
  refine (BiPerm.buildInv_runs I.n ⟨p, c.pinv⟩ p1 h.perm.isz (hperm p _ _ hI.perm_p (place_perm h.rpos hkn) p2)).mono ?_
  rintro bp ⟨e1, e2, e3⟩
  refine (BiPerm.buildInv_runs I.n ⟨q, c.qinv⟩ q1 h.qerm.isz (hperm q _ _ hI.perm_q (place_perm h.cpos hkn) q2)).mono ?_
  rintro bq ⟨f1, f2, f3⟩
  rw [hm]
  obtain ⟨Ls, l1, l2⟩ := side_finish h.L.core htot (fun x hx => h.rpos.cases hx) h.entL (Φ := fun i => ΦL (I.q0.get (g.ocol i))) h.cntL
  obtain ⟨Us, u1, u2⟩ := side_finish h.U.core htot (fun x hx => h.cpos.cases hx) h.entU (Φ := fun i => ΦU (I.p0.get (g.orow i))) h.cntU
  refine ⟨Ls, l1, Us, u1, Runs.mono u2 ?_⟩
  intro UT hUT
  refine Runs.mono l2 ?_
  intro LT hLT
  rw [runs_pure, runs_pure]
  have hF : PFinal pr I ΦU ΦL ⟨c.step, c.defers, c.d, bp, bq, UT, LT, Us, Ls, c.kU, c.kL, c.nDiag, c.nCond, c.l, c.ut⟩ g := by
    constructor
    case tot => exact htot
    case cnt => exact hcnt
    case rpos => exact h.rpos
    case cpos => exact h.cpos
    case psz => exact e2
    case qsz => exact f2
    case p => intro x hx; show bp.p.get _ = _; rw [e1]; exact p2 x hx
    case q => intro x hx; show bq.p.get _ = _; rw [f1]; exact q2 x hx
    case pinv => exact e3
    case qinv => exact f3
    case rfix => exact h.perm.fix
    case cfix => exact h.qerm.fix
    case dsz => exact h.dsz
    case U => exact hUT
    case L => exact hLT
    case num => exact h.num
    case kapU => exact h.kapU
    case kapL => exact h.kapL
    case rulU => exact h.rulU
    case rulL => exact h.rulL
    case lR => exact hl
    case utR => exact hu
  exact ⟨g, hF, h.thrU, h.thrL, h.slack, h.idle⟩

/-- The Crout phase with pivoting completes and establishes `PFinal`. -/
theorem croutPhase_runs [Inhabited K] (hs : SrtOK pr) (hI : InOK I) (hU : DropOK I.n ΦU pr.dropU) (hL : DropOK I.n ΦL pr.dropL) :
    Runs (croutPhase pr I) fun r => ∃ g, PFinal pr I ΦU ΦL r g := by
  unfold croutPhase
  rw [runs_bind]
  refine (croutCount_runs hs hI hU hL).mono ?_
  rintro r ⟨g, h, -⟩
  rw [runs_pure]
  exact ⟨g, h⟩

end Hif.PCrout
