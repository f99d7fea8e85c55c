import Verif.SymmRun
import Verif.CroutProps
import Verif.SchurRes

set_option linter.unusedVariables false
set_option linter.unusedSectionVars false

/-!
# Element growth of a level

What the condition estimates and the pivot test (C54) guarantee about the blocks a level stores: `Growth`.
-/

namespace Hif
namespace Level
open Finset HIF

variable {K R : Type} [Field K] [DecidableEq K] [Inhabited K] [Field R] [LinearOrder R] [IsStrictOrderedRing R] [FloorSemiring R]

/-- The factors of a level grow by at most `kappa`, its pivots by at most `kappaD`: `xᵀ (I + U) = e` and `(I + L) y = f` for right-hand sides with entries `±1`
and solutions of magnitude between one and `kappa`. -/
structure Growth (nrm : K → R) (kappa kappaD : R) (v : Spec.Level K) : Prop where
  d : ∀ h, h < v.m → nrm (1 / v.d h) ≤ kappaD
  U : ∃ x e : Nat → K, ∀ h, h < v.m → (e h = 1 ∨ e h = -1) ∧ ∑ i ∈ range v.m, x i * Spec.unit v.U i h = e h ∧ 1 ≤ nrm (x h) ∧ nrm (x h) ≤ kappa
  L : ∃ x e : Nat → K, ∀ h, h < v.m → (e h = 1 ∨ e h = -1) ∧ ∑ i ∈ range v.m, Spec.unit v.L h i * x i = e h ∧ 1 ≤ nrm (x h) ∧ nrm (x h) ≤ kappa

theorem res_growth {pr : Crout.Par K R} {I : Crout.In K} {ΦU ΦL : Nat → Nat → Prop} {r : Crout.Out K} (hn : Crout.IsAbs pr.nrm) (hF : Crout.Res pr I ΦU ΦL r)
    {rowMajor : Bool} {LE UF : Nat → Nat → K} {b : Blocks K} (hb : BlocksOK rowMajor I r LE UF b) {out : CroutOut K} {n : Nat}
    (ho : (out.toPrec n out.m).toLevel.m = r.m ∧ (out.toPrec n out.m).toLevel.d = r.d.get ∧ (out.toPrec n out.m).toLevel.U = b.U.ccs ∧
      (out.toPrec n out.m).toLevel.L = b.L.ccs) : Growth pr.nrm pr.kappa pr.kappaD (out.toPrec n out.m).toLevel := by
  obtain ⟨o1, o2, o3, o4⟩ := ho
  obtain ⟨eU, a1, a2, a3, -⟩ := Crout.estimate (m := r.m) (kap := r.kU) (W := r.Ubar) hn (fun h hh => (hF.kapU h hh).1) (fun h _ => if_pos rfl)
    (fun i h h1 h2 => by unfold Crout.Out.Ubar; rw [if_neg (by omega)]; exact hF.U.zero h2 (by omega))
  obtain ⟨eL, b1, b2, b3, -⟩ := Crout.estimate (m := r.m) (kap := r.kL) (W := fun i h => r.Lbar h i) hn (fun h hh => (hF.kapL h hh).1) (fun h _ => if_pos rfl)
    (fun i h h1 h2 => by unfold Crout.Out.Lbar; rw [if_neg (by omega)]; exact hF.L.zero h2 (by omega))
  refine ⟨?_, ⟨r.kU.get, eU, ?_⟩, ⟨r.kL.get, eL, ?_⟩⟩
  all_goals
    rw [o1]
    intro h hh
  · rw [o2]
    have := hF.good h hh
    unfold Crout.badDiag at this
    simp only [Bool.or_eq_false_iff, decide_eq_false_iff_not, not_lt] at this
    exact this.1.2
  · refine ⟨a1 h hh, ?_, a3 h hh, (hF.kapU h hh).2⟩
    rw [o3, ← a2 h hh]
    refine sum_congr rfl fun i hi => ?_
    unfold Spec.unit Crout.Out.Ubar
    rw [hb.U_ent i h (mem_range.1 hi) hh]
  · refine ⟨b1 h hh, ?_, b3 h hh, (hF.kapL h hh).2⟩
    rw [o4, ← b2 h hh]
    refine sum_congr rfl fun i hi => ?_
    unfold Spec.unit Crout.Out.Lbar
    rw [hb.L_ent h i hh (mem_range.1 hi), mul_comm]

theorem conclude_growth {e : Env K R} (he : EnvOK e) (hn : Crout.IsAbs e.a.nrm) (o : Opts R) (piv auto rowMajor : Bool) (lvl N : Nat) {A : CS K} {Acrs Accs : CS K}
    (h2 : Two A.psize Acrs Accs) (hmat : ∀ i j, i < A.psize → j < A.psize → Acrs.entry i j = mat rowMajor A i j) (hsz : SizesOK e A.psize)
    {g : Pre.Matched R} (hg : Prepared A.psize g) {pr : Crout.Par K R} {ΦU ΦL : Nat → Nat → Prop} {r : Crout.Out K}
    (hF : Crout.Res pr (croutIn e A.psize Acrs Accs g) ΦU ΦL r) (hpn : pr.nrm = e.a.nrm) {out : CroutOut K}
    (ho : conclude e o piv auto rowMajor lvl N A.psize g (croutIn e A.psize Acrs Accs g) r = .ok out)
    (hk : (postFlag out.m2 out.m).2 ≠ 0) (ha : auto = true → (postFlag out.m2 out.m).1 = 0) :
    Growth e.a.nrm pr.kappa pr.kappaD (out.toPrec A.psize out.m).toLevel := by
  obtain ⟨⟨hr1, hr2⟩, hc1, hc2⟩ := hsz lvl
  have hK := croutIn_link (rowMajor := rowMajor) he h2 hmat hg
  unfold conclude at ho
  split at ho
  · rename_i hc
    obtain ⟨nnz, -, ho⟩ := SchurIn.bind_ok_inv ho
    cases ho
    exfalso
    rcases hc with hc | hc
    · exact hk hc
    · exact hc.2 (ha hc.1)
  · rename_i hc
    push Not at hc
    have hm0 := (postFlag_m hc.1).2
    obtain ⟨b, e1, ho⟩ := SchurIn.bind_ok_inv ho
    obtain ⟨nnz, e2, ho⟩ := SchurIn.bind_ok_inv ho
    obtain ⟨b', e3, LE, UF, hb, -⟩ := blocks_runs he.nth o piv rowMajor lvl hK.ok hF ⟨hr1, hr2⟩ ⟨hc1, hc2⟩
    obtain rfl : b' = b := Except.ok.inj (e3.symm.trans e1)
    cases ho
    rw [← hpn]
    refine res_growth (hpn ▸ hn) hF hb ?_
    unfold CroutOut.toPrec
    rw [if_pos (by exact hm0)]
    exact ⟨rfl, rfl, rfl, rfl⟩

theorem plainLevel_growth {e : Env K R} (he : EnvOK e) (hn : Crout.IsAbs e.a.nrm) (o : Opts R) {G : Nat → (Nat → Nat → K) → Prop} (hp : PrepOK e o G)
    (hGc : ∀ n T T', (∀ i j, i < n → j < n → T i j = T' i j) → G n T → G n T') (auto rowMajor : Bool) (lvl N : Nat) (hlvl : 0 < lvl)
    {A : CS K} (h : A.WF) (ht : A.Tight) (hs : A.Sorted) (hsq : A.ssize = A.psize) (hG : G A.psize (mat rowMajor A)) (hsz : SizesOK e A.psize) {out : CroutOut K}
    (ho : plainLevel e o auto rowMajor lvl N A.psize A = .ok out) (hk : (postFlag out.m2 out.m).2 ≠ 0) (ha : auto = true → (postFlag out.m2 out.m).1 = 0) :
    Growth e.a.nrm (localPars e.a.sqrt o.par lvl).kappa (localPars e.a.sqrt o.par lvl).kappaD (out.toPrec A.psize out.m).toLevel := by
  unfold plainLevel at ho
  rw [if_neg (by omega)] at ho
  obtain ⟨C, e1, ho⟩ := SchurIn.bind_ok_inv ho
  obtain ⟨C', e1', c⟩ := CS.convert_runs h ht
  obtain rfl : C' = C := Except.ok.inj (e1'.symm.trans e1)
  obtain ⟨h2, hm⟩ := two_of h ht hs hsq c rowMajor
  obtain ⟨g, e2, ho⟩ := SchurIn.bind_ok_inv ho
  obtain ⟨g', e2', hg⟩ := hp (symmPre e o lvl A C') lvl A.psize _ _ h2 (hGc _ _ _ (fun i j hi hj => (hm i j hi hj).symm) hG) hlvl (fun hsym h0 => by
    unfold symmPre at hsym
    rw [h0] at hsym
    simp at hsym
    omega)
  obtain rfl : g' = g := Except.ok.inj (e2'.symm.trans e2)
  have hI := croutIn_ok e h2 hg
  obtain ⟨⟨hr1, hr2⟩, hc1, hc2⟩ := hsz lvl
  have hdU := Crout.realDrop_ok A.psize e.a.nrm e.nth he.nth (localPars e.a.sqrt o.par lvl).tauU (localPars e.a.sqrt o.par lvl).kappaD
    (localPars e.a.sqrt o.par lvl).alphaU (e.rows lvl) hr1
  have hdL := Crout.realDrop_ok A.psize e.a.nrm e.nth he.nth (localPars e.a.sqrt o.par lvl).tauL (localPars e.a.sqrt o.par lvl).kappaD
    (localPars e.a.sqrt o.par lvl).alphaL (e.cols lvl) hc1
  obtain ⟨r, e3, ho⟩ := SchurIn.bind_ok_inv ho
  obtain ⟨r', e3', gh, hF⟩ := Crout.croutPhase_runs (pr := levelPar e.a.nrm e.safeMin e.nth e.a.sqrt o.par lvl (e.rows lvl) (e.cols lvl)) hI hdU hdL
  obtain rfl : r' = r := Except.ok.inj (e3'.symm.trans e3)
  exact conclude_growth he hn o false auto rowMajor lvl N h2 hm hsz hg (hF.res hI) rfl ho hk ha

theorem pivotLevel_growth {e : Env K R} (he : EnvOK e) (hn : Crout.IsAbs e.a.nrm) (o : Opts R) {G : Nat → (Nat → Nat → K) → Prop} (hp : PrepOK e o G)
    (hGc : ∀ n T T', (∀ i j, i < n → j < n → T i j = T' i j) → G n T → G n T') (rowMajor : Bool) (lvl N : Nat) (hlvl : 0 < lvl)
    {A : CS K} (h : A.WF) (ht : A.Tight) (hs : A.Sorted) (hsq : A.ssize = A.psize) (hG : G A.psize (mat rowMajor A)) (hsz : SizesOK e A.psize) {out : CroutOut K}
    (ho : pivotLevel e o rowMajor lvl N A.psize A = .ok out) (hk : (postFlag out.m2 out.m).2 ≠ 0) :
    Growth e.a.nrm (localPars e.a.sqrt o.par lvl).kappa (localPars e.a.sqrt o.par lvl).kappaD (out.toPrec A.psize out.m).toLevel := by
  unfold pivotLevel at ho
  rw [if_neg (by omega)] at ho
  obtain ⟨C, e1, ho⟩ := SchurIn.bind_ok_inv ho
  obtain ⟨C', e1', c⟩ := CS.convert_runs h ht
  obtain rfl : C' = C := Except.ok.inj (e1'.symm.trans e1)
  obtain ⟨h2, hm⟩ := two_of h ht hs hsq c rowMajor
  obtain ⟨g, e2, ho⟩ := SchurIn.bind_ok_inv ho
  obtain ⟨g', e2', hg⟩ := hp (symmPrePivot o lvl) lvl A.psize _ _ h2 (hGc _ _ _ (fun i j hi hj => (hm i j hi hj).symm) hG) hlvl (fun hsym h0 => by
    unfold symmPrePivot at hsym
    rw [h0] at hsym
    simp at hsym
    omega)
  obtain rfl : g' = g := Except.ok.inj (e2'.symm.trans e2)
  have hI := croutIn_ok e h2 hg
  obtain ⟨⟨hr1, hr2⟩, hc1, hc2⟩ := hsz lvl
  have hdU := Crout.realDrop_ok A.psize e.a.nrm e.nth he.nth (localPars e.a.sqrt o.par lvl).tauU (localPars e.a.sqrt o.par lvl).kappaD
    ((localPars e.a.sqrt o.par lvl).alphaU * 4) (e.rows lvl) hr1
  have hdL := Crout.realDrop_ok A.psize e.a.nrm e.nth he.nth (localPars e.a.sqrt o.par lvl).tauL (localPars e.a.sqrt o.par lvl).kappaD
    ((localPars e.a.sqrt o.par lvl).alphaL * 4) (e.cols lvl) hc1
  obtain ⟨r, e3, ho⟩ := SchurIn.bind_ok_inv ho
  obtain ⟨r', e3', gh, hF⟩ := PCrout.croutPhase_runs (pr := pivotPar e o lvl) he.srt hI hdU hdL
  obtain rfl : r' = r := Except.ok.inj (e3'.symm.trans e3)
  exact conclude_growth he hn o true false rowMajor lvl N h2 hm hsz hg (hF.res hI) rfl ho hk (fun hc => by cases hc)

theorem symmLevel_growth {e : Env K R} (he : EnvOK e) (hn : Crout.IsAbs e.a.nrm) (o : Opts R) (x : SymmPar K R) (rowMajor : Bool) (lvl N : Nat)
    {A : CS K} (h : A.WF) (hs : A.Sorted) (hsq : A.ssize = A.psize)
    (hsym : ∀ i j, i < A.psize → j < A.psize → A.entry i j = A.entry j i)
    (hp : Runs (prepare e o true A.psize lvl A A) (SymPrepared A.psize)) (hsz : SizesOK e A.psize) {out : CroutOut K}
    (ho : symmLevel e o x rowMajor lvl N A.psize A = .ok out) (hk : (postFlag out.m2 out.m).2 ≠ 0) :
    Growth e.a.nrm (localPars e.a.sqrt o.par lvl).kappa (localPars e.a.sqrt o.par lvl).kappaD (out.toPrec A.psize out.m).toLevel := by
  have h2 : Two A.psize A A := ⟨⟨h, hs, rfl, hsq, h, hs, rfl, hsq, le_refl _, Or.inl rfl⟩, fun i j hi hj => hsym j i hj hi⟩
  unfold symmLevel at ho
  rw [if_neg (by omega)] at ho
  obtain ⟨g, e2, ho⟩ := SchurIn.bind_ok_inv ho
  obtain ⟨g', e2', hg, hgt, hgq⟩ := hp
  obtain rfl : g' = g := Except.ok.inj (e2'.symm.trans e2)
  have hI : Crout.InOK (symmIn e A.psize A g').gen := croutIn_ok e h2 hg
  have hI' : Crout.InOK (symmIn e A.psize A g').sym := croutIn_ok e h2 (g := { g' with q := g'.p, t := g'.s }) ⟨hg.mle, hg.ssz, hg.ssz, hg.spos, hg.spos, hg.p, hg.p⟩
  have hst : ∀ i, i < A.psize → (symmIn e A.psize A g').t.get i = (symmIn e A.psize A g').s.get i := fun i hi => by
    show e.a.emb (g'.t.get i) = e.a.emb (g'.s.get i)
    rw [hgt i hi]
  have ht := rd_ext (n := A.psize) (by exact hI.tsz) (by exact hI.ssz) hst
  have hq := rd_ext (a := g'.q.p) (b := g'.p.p) (n := A.psize) hg.q.1 hg.p.1 hgq
  obtain ⟨⟨hr1, hr2⟩, -⟩ := hsz lvl
  have hd := Crout.realDrop_ok A.psize e.a.nrm e.nth he.nth (localPars e.a.sqrt o.par lvl).tauL (localPars e.a.sqrt o.par lvl).kappaD
    (localPars e.a.sqrt o.par lvl).alphaL (e.rows lvl) hr1
  obtain ⟨r, e3, ho⟩ := SchurIn.bind_ok_inv ho
  obtain ⟨r', e3', hr0⟩ := Symm.croutPhase_runs (pr := symmPar e o x lvl) (I := symmIn e A.psize A g') hI' ht hq hd hd
  obtain rfl : r' = r := Except.ok.inj (e3'.symm.trans e3)
  have hF := res_gen hst hr0
  unfold symmConclude at ho
  split at ho
  · rename_i hc
    obtain ⟨nnz, -, ho⟩ := SchurIn.bind_ok_inv ho
    cases ho
    exact absurd hc hk
  · rename_i hc
    have hm0 := (postFlag_m hc).2
    obtain ⟨b, e4, ho⟩ := SchurIn.bind_ok_inv ho
    obtain ⟨nnz, e5, ho⟩ := SchurIn.bind_ok_inv ho
    obtain ⟨b', e6, LE, UF, hb, -⟩ := symmBlocks_runs he.nth o rowMajor lvl hI hF hst ⟨hr1, hr2⟩
    obtain rfl : b' = b := Except.ok.inj (e6.symm.trans e4)
    cases ho
    refine res_growth (by exact hn) hF hb ?_
    unfold CroutOut.toPrec
    rw [if_pos (by exact hm0)]
    exact ⟨rfl, rfl, rfl, rfl⟩

end Level
end Hif
