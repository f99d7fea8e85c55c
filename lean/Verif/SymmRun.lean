import Verif.LevelRun
import Verif.SymmSim
import Verif.SymmLevel

set_option linter.unusedSectionVars false
set_option linter.unusedVariables false

/-!
# One level of the symmetric factorization: the result
-/

namespace Hif
namespace Level
open Finset
variable {K R : Type} [Field K] [DecidableEq K] [Inhabited K] [Field R] [LinearOrder R] [IsStrictOrderedRing R] [FloorSemiring R]

/-- The outcome of the symmetric phase, read with the scaling of the columns it was given. -/
theorem res_gen {pr : Crout.Par K R} {I : Symm.In K} {ΦU ΦL : Nat → Nat → Prop} {r : Symm.Out K} (hst : ∀ i, i < I.n → I.t.get i = I.s.get i)
    (h : Crout.Res pr I.sym ΦU ΦL r.lift) : Crout.Res pr I.gen ΦU ΦL r.lift :=
  { tot := h.tot, cnt := h.cnt, psz := h.psz, qsz := h.qsz, pinv := h.pinv, qinv := h.qinv, dsz := h.dsz, U := h.U, L := h.L, good := h.good
    kapU := h.kapU, kapL := h.kapL, lR := h.lR, utR := h.utR
    exact := fun k1 k2 i j hi hj hm => by
      rw [h.exact k1 k2 i j hi hj hm]
      have : I.t.get (r.p.p.get j) = I.s.get (r.p.p.get j) := hst _ ((h.pinv.2.1 j hj).1)
      show I.s.get (r.p.p.get i) * I.A.entry (r.p.p.get i) (r.p.p.get j) * I.s.get (r.p.p.get j) =
        I.s.get (r.p.p.get i) * I.A.entry (r.p.p.get i) (r.p.p.get j) * I.t.get (r.p.p.get j)
      rw [this] }

/-- The target of a symmetric level is symmetric. -/
theorem target_symm {pr : Crout.Par K R} {I : Symm.In K} {ΦU ΦL : Nat → Nat → Prop} {r : Symm.Out K} (hst : ∀ i, i < I.n → I.t.get i = I.s.get i)
    (hI : Crout.InOK I.gen) (h : Crout.Res pr I.gen ΦU ΦL r.lift) {i j : Nat} (hi : i < I.n) (hj : j < I.n) :
    Crout.Out.target I.gen r.lift i j = Crout.Out.target I.gen r.lift j i := by
  have h1 : r.p.p.get i < I.n := (h.pinv.2.1 i hi).1
  have h2 : r.p.p.get j < I.n := (h.pinv.2.1 j hj).1
  show I.s.get (r.p.p.get i) * I.A.entry (r.p.p.get i) (r.p.p.get j) * I.t.get (r.p.p.get j) =
    I.s.get (r.p.p.get j) * I.A.entry (r.p.p.get j) (r.p.p.get i) * I.t.get (r.p.p.get i)
  have h3 : I.A.entry (r.p.p.get j) (r.p.p.get i) = I.A.entry (r.p.p.get i) (r.p.p.get j) := hI.same _ _ h1 h2
  rw [hst _ h1, hst _ h2, h3]
  ring

set_option maxHeartbeats 1000000 in
theorem symmBlocks_runs {e : Env K R} (hnth : SV.NthSpec e.nth) (o : Opts R) (rowMajor : Bool) (lvl : Nat) {pr : Crout.Par K R} {I : Symm.In K}
    (hI : Crout.InOK I.gen) {ΦU ΦL : Nat → Nat → Prop} {r : Symm.Out K} (h : Crout.Res pr I.gen ΦU ΦL r.lift) (hst : ∀ i, i < I.n → I.t.get i = I.s.get i)
    (hr : I.n ≤ (e.rows lvl).size ∧ ∀ i, i < I.n → 0 < (e.rows lvl).get i) :
    Runs (symmBlocks e o rowMajor lvl I r) fun b => ∃ LE UF, BlocksOK rowMajor I.gen r.lift LE UF b ∧
      ((I.n : R) ≤ o.par.alphaL → ∀ i c, i < I.n - r.m → c < r.m → LE i c = r.L.entry c (r.m + i)) ∧
      (∀ c j, c < r.m → j < I.n - r.m → UF c j = LE j c) ∧
      (∀ i j, i < r.m → j < r.m → b.U.ccs i j = b.L.ccs j i) ∧
      (∀ i j, i < r.m → j < I.n - r.m → b.F.ccs i j = b.E.ccs j i) ∧
      (∀ i j, i < I.n - r.m → j < I.n - r.m → mat rowMajor b.S i j = mat rowMajor b.S j i) ∧
      (I.A.PatSym → r.m < I.n → b.S.PatSym) := by
  have hmle : r.m ≤ I.n := by
    have h1 : r.m + r.defers = I.m2 := h.tot
    have h2 : I.m2 ≤ I.n := hI.mle
    omega
  have hpl : ∀ i, i < I.n → r.p.p.get i < I.n := fun i hi => (h.pinv.2.1 i hi).1
  have hps : r.p.p.size = I.n := h.psz
  have hL : Crout.FinOK I.n r.m r.L r.Lstart r.L.entry id (fun i => ΦL (r.p.p.get i)) := h.L
  have hLss := hL.ssz
  have hLps := hL.psz
  unfold symmBlocks
  simp only [runs_bind]
  refine (CS.splitDualWith_runs hL.wf hL.tight true r.m (by omega) r.Lstart (by rw [hLps]; exact hL.stsz) (splitPos_of hL)).mono ?_
  rintro LE0 ⟨LEb, le1, le2⟩
  obtain ⟨LEw, LEt⟩ := le2.wf le1.wf le1.tight
  have LEs := le2.sorted le1.wf le1.tight (le1.sorted hL.wf hL.sorted)
  have LEp : LE0.psize = I.n - r.m := by rw [le2.psize, le1.ssize, if_pos rfl, hLss]
  have LEss : LE0.ssize = r.m := by rw [le2.ssize, le1.psize, hLps]
  refine (CS.splitWith_runs hL.wf hL.tight false r.m (by omega) r.Lstart (by rw [hLps]; exact hL.stsz) (splitPos_of hL)).mono ?_
  intro LB lb
  refine (CS.convert_runs lb.wf lb.tight).mono ?_
  intro UB ub
  obtain ⟨UBw, UBt⟩ := ub.wf lb.wf lb.tight
  have lR : SV.Ready (2 * I.n) I.n r.l ∧ r.l.vals.size = 2 * I.n := h.lR
  refine (dropOff_runs hnth (blockAlpha o false lvl o.par.alphaL) (sz := e.rows lvl) (p := r.p.p) (n := I.n) (m := r.m) hr.1 (by omega) hpl hr.2 LEw LEt LEs LEp
    (v := r.l) (by omega) (by have := lR.1.inds_size; omega)).mono ?_
  rintro LE ⟨le3, le4, le5, le6, le7⟩
  refine (CS.convert_runs le3 le4).mono ?_
  intro UF uf8
  obtain ⟨uf9, uf10⟩ := uf8.wf le3 le4
  have hLEp : LE.psize = I.n - r.m := by omega
  have hLEs : LE.ssize = r.m := by omega
  refine (schurPart_runs e (I := I.gen) (r := r.lift) hI h le3 hLEp hLEs uf9 (by rw [uf8.psize]; exact hLEs) (by rw [uf8.ssize]; exact hLEp)).mono ?_
  rintro S0 ⟨S1, S2, S3⟩
  have S1 : S0.psize = I.n - r.m := S1
  have S2 : S0.ssize = I.n - r.m := S2
  have hAp : I.A.psize = I.n := hI.rp
  have hAs : I.A.ssize = I.n := hI.rs
  have hss : I.s.size = I.n := hI.ssz
  have hts : I.t.size = I.n := hI.tsz
  have hpis : r.p.inv.size = I.n := h.pinv.1
  have hinv : Spec.Inverse I.n r.p.p.get r.p.inv.get := h.pinv.2
  obtain ⟨E, eE, E1, E2, E3, E4, E5⟩ := Props.C61_extract_E I.A hI.rwf I.s I.t (by omega) (by omega) r.m (by omega) (by omega)
    r.p.p r.p.inv r.p.p.get (by omega) (fun i hi => by rw [hAp] at hi ⊢; exact hpl i hi) (by omega) (by rw [hAs]; exact hinv)
  refine ⟨E, eE, ?_⟩
  refine (CS.convert_runs E1 E2).mono ?_
  intro F f1
  obtain ⟨F1, F2⟩ := f1.wf E1 E2
  refine (toInput_runs rowMajor S1 S2 fun hm => by
    obtain ⟨a1, a2, a3, -⟩ := S3 (by show r.m < I.n; omega)
    exact ⟨a1, a2, a3⟩).mono ?_
  rintro S ⟨T1, T2, T3⟩
  simp only [runs_pure]
  have hLB : ∀ i j, i < r.m → j < r.m → LB.ccs i j = r.L.entry j i := fun i j hi hj =>
    lb.entry_fst hL.wf (show j < r.L.psize by omega) hi
  have hLBp : LB.psize = r.m := by rw [lb.psize, hLps]
  have hLBs : LB.ssize = r.m := by rw [lb.ssize]; rfl
  have hUBL : ∀ i j, i < r.m → j < r.m → UB.ccs i j = LB.ccs j i := fun i j hi hj => ub.entry lb.wf lb.tight (by omega) (by omega)
  have hEent : ∀ i j, i < I.n - r.m → j < r.m → E.ccs i j = Crout.Out.target I.gen r.lift (r.m + i) j := fun i j hi hj => E5 i j (by omega) hj
  have hFE : ∀ i j, i < r.m → j < I.n - r.m → F.ccs i j = E.ccs j i := fun i j hi hj => f1.entry E1 E2 (by omega) (by omega)
  have hUL : ∀ c j, c < r.m → j < I.n - r.m → UF.crs c j = LE.crs j c := fun c j hc hj => uf8.entry le3 le4 (by omega) (by omega)
  have hSent : r.m < I.n → ∀ i j, i < I.n - r.m → j < I.n - r.m → mat rowMajor S i j =
      Crout.Out.target I.gen r.lift (r.m + i) (r.m + j) - ∑ c ∈ range r.m, LE.crs i c * r.d.get c * UF.crs c j := fun hm i j hi hj => by
    obtain ⟨-, -, -, a4, -⟩ := T3 (by omega)
    obtain ⟨-, -, -, b4, -⟩ := S3 hm
    rw [a4 i j hi hj, b4 i j hi hj]
    rfl
  refine ⟨LE.crs, UF.crs, ⟨lb.wf, hLBp, hLBs, hLB, UBw, by rw [ub.psize, hLBs]; rfl,
    by rw [ub.ssize, hLBp]; rfl, fun i j hi hj => ?_, E1, E3, ?_, hEent, F1, ?_, ?_, fun i j hi hj => ?_, T1, T2, fun hm => ?_, hSent, ⟨lb.tight, UBt, E2, F2⟩⟩, fun ha i c hi hc' => ?_, hUL, hUBL, hFE, ?_, fun hPS hm => ?_⟩
  · rw [hUBL i j hi hj, hLB j i hj hi]; rfl
  · rw [E4, hAp]; rfl
  · rw [f1.psize, E4, hAp]; rfl
  · rw [f1.ssize, E3]; rfl
  · have hi : i < r.m := hi
    have hj : j < I.n - r.m := hj
    rw [hFE i j hi hj, hEent j i hj hi]
    exact target_symm hst hI h (by omega) (by omega)
  · have hm : r.m < I.n := hm
    obtain ⟨a1, a2, a3, -⟩ := T3 (by omega)
    exact ⟨a1, a2, a3⟩
  · have hn1 : (1 : R) ≤ I.n := by exact_mod_cast (show 1 ≤ I.n by omega)
    have hal : (I.n : R) ≤ blockAlpha o false lvl o.par.alphaL := ha.trans (blockAlpha_ge o false lvl (by linarith))
    have hpos : 0 < blockAlpha o false lvl o.par.alphaL := by linarith
    have hlines := le7 (fun x hx => by
      have h1 : (1 : R) ≤ ((e.rows lvl).get x : Nat) := by exact_mod_cast hr.2 x hx
      have h2 : (LE0.ssize : R) ≤ I.n := by exact_mod_cast (show LE0.ssize ≤ I.n by omega)
      nlinarith) hpos i (by omega)
    show LE.entry i c = _
    rw [CS.entry_congr_line (LEw.mono i (by omega)) (le3.mono i (by omega)) hlines, ← le1.entry_snd hL.wf (show c < r.L.psize by omega)]
    exact le2.entry le1.wf le1.tight (by rw [le1.psize]; omega) (by rw [le1.ssize, if_pos rfl]; omega)
  · intro i j hi hj
    have hm : r.m < I.n := by omega
    rw [hSent hm i j hi hj, hSent hm j i hj hi, target_symm hst hI h (by omega) (by omega)]
    congr 1
    refine sum_congr rfl fun c hc => ?_
    rw [hUL c j (mem_range.1 hc) hj, hUL c i (mem_range.1 hc) hi]
    ring
  · obtain ⟨-, -, -, -, a5⟩ := T3 (by omega)
    obtain ⟨-, -, -, -, b5⟩ := S3 hm
    have h0 : ∀ i j, i < I.n - r.m → j < I.n - r.m → S0.Has i j → S0.Has j i := fun i j hi hj hh => by
      rw [b5 j i hj hi]
      rcases (b5 i j hi hj).1 hh with ⟨c, c1, c2⟩ | c
      · have hc : c < LE.ssize := c1.lt le3 (by omega)
        exact Or.inl ⟨c, (uf8.has le3 le4 (by omega) hc).1 c2, (uf8.has le3 le4 (by omega) hc).2 c1⟩
      · exact Or.inr (hPS (r.p.p.get (r.m + i)) (r.p.p.get (r.m + j)) (by rw [hAp]; exact hpl _ (by omega)) (by rw [hAp]; exact hpl _ (by omega)) c)
    intro i j hi hj hh
    have hi : i < I.n - r.m := by have : S.psize = I.n - r.m := T1; omega
    have hj : j < I.n - r.m := by have : S.psize = I.n - r.m := T1; omega
    by_cases hrm : rowMajor = true
    · have e1 := a5 i j hi hj
      have e2 := a5 j i hj hi
      rw [if_pos hrm] at e1 e2
      exact e2.2 (h0 i j hi hj (e1.1 hh))
    · have e1 := a5 j i hj hi
      have e2 := a5 i j hi hj
      rw [if_neg hrm] at e1 e2
      exact e2.2 (h0 j i hj hi (e1.1 hh))

theorem symmNnz_runs {rows p : Buf Nat} {m n : Nat} (hmn : m ≤ n) (h1 : n ≤ rows.size) (h3 : n ≤ p.size) (h5 : ∀ i, i < n → p.get i < n) :
    Runs (symmNnz rows p m n) fun c => c = 2 * ∑ i ∈ Ico m n, rows.get (p.get i) := by
  unfold symmNnz
  refine forUp_runs' (fun k c => c = 2 * ∑ i ∈ Ico m k, rows.get (p.get i)) hmn (by simp) ?_ (fun _ h => h)
  rintro i c hi0 hi rfl
  have := h5 i hi
  simp only [runs_bind, runs_rd, runs_pure]
  refine ⟨by omega, by omega, ?_⟩
  rw [sum_Ico_succ_top hi0]
  ring

/-- A symmetric preprocessing: the same scaling and the same permutation on both sides. -/
structure SymPrepared (n : Nat) (g : Pre.Matched R) : Prop where
  base : Prepared n g
  st : ∀ i, i < n → g.t.get i = g.s.get i
  pq : ∀ i, i < n → g.q.p.get i = g.p.p.get i

/-- What the symmetric level adds. -/
structure SymOut (rowMajor : Bool) (n : Nat) (out : CroutOut K) : Prop where
  st : ∀ i, i < n → out.t.get i = out.s.get i
  pq : ∀ i, i < n → out.q.get i = out.p.get i
  L : ∀ i j, i < out.m → j < out.m → out.U.ccs i j = out.L.ccs j i
  E : ∀ i j, i < out.m → j < n - out.m → out.F.ccs i j = out.E.ccs j i
  S : ∀ i j, i < n - out.m → j < n - out.m → mat rowMajor out.schur i j = mat rowMajor out.schur j i

theorem rd_ext {α : Type} {a b : Buf α} {n : Nat} (ha : a.size = n) (hb : b.size = n) (h : ∀ i, i < n → a.get i = b.get i) (i : Nat) : a.rd i = b.rd i := by
  unfold Buf.rd
  rw [ha, hb]
  split
  · rename_i hi; rw [h i hi]
  · rfl

set_option maxHeartbeats 1000000 in
/-- The symmetric level succeeds. -/
theorem symmLevel_runs {e : Env K R} (he : EnvOK e) (o : Opts R) (x : SymmPar K R) (rowMajor : Bool) (lvl N m0 : Nat)
    {A : CS K} (h : A.WF) (hs : A.Sorted) (hsq : A.ssize = A.psize)
    (hsym : ∀ i j, i < A.psize → j < A.psize → A.entry i j = A.entry j i)
    (hp : Runs (prepare e o true m0 lvl A A) (SymPrepared A.psize)) (hsz : SizesOK e A.psize) :
    Runs (symmLevel e o x rowMajor lvl N m0 A) fun out => LevelOut m0 o false rowMajor A out ∧
      ((postFlag out.m2 out.m).2 ≠ 0 → SymOut rowMajor A.psize out ∧
        (∀ i, i < out.m → refuseOf x (out.d.get i) = false) ∧ (A.PatSym → out.m < A.psize → out.schur.PatSym)) := by
  have h2 : Two A.psize A A := ⟨⟨h, hs, rfl, hsq, h, hs, rfl, hsq, le_refl _, Or.inl rfl⟩, fun i j hi hj => hsym j i hj hi⟩
  have hmat : ∀ i j, i < A.psize → j < A.psize → A.entry i j = mat rowMajor A i j := fun i j hi hj => by
    unfold mat
    split
    · rfl
    · exact hsym i j hi hj
  unfold symmLevel
  rw [if_neg (by omega), runs_bind]
  refine hp.mono ?_
  rintro g ⟨hg, hgt, hgq⟩
  have hK := croutIn_link (rowMajor := rowMajor) he h2 hmat hg
  have hI : Crout.InOK (symmIn e A.psize A g).gen := hK.ok
  have hI' : Crout.InOK (symmIn e A.psize A g).sym := croutIn_ok e h2 (g := { g with q := g.p, t := g.s }) ⟨hg.mle, hg.ssz, hg.ssz, hg.spos, hg.spos, hg.p, hg.p⟩
  have hst : ∀ i, i < A.psize → (symmIn e A.psize A g).t.get i = (symmIn e A.psize A g).s.get i := fun i hi => by
    show e.a.emb (g.t.get i) = e.a.emb (g.s.get i)
    rw [hgt i hi]
  have ht := rd_ext (n := A.psize) (by exact hI.tsz) (by exact hI.ssz) hst
  have hq := rd_ext (a := g.q.p) (b := g.p.p) (n := A.psize) hg.q.1 hg.p.1 hgq
  obtain ⟨⟨hr1, hr2⟩, -⟩ := hsz lvl
  have hd := Crout.realDrop_ok A.psize e.a.nrm e.nth he.nth (localPars e.a.sqrt o.par lvl).tauL (localPars e.a.sqrt o.par lvl).kappaD
    (localPars e.a.sqrt o.par lvl).alphaL (e.rows lvl) hr1
  simp only [runs_bind]
  refine (Symm.croutPhase_runs (pr := symmPar e o x lvl) (I := symmIn e A.psize A g) hI' ht hq hd hd).mono ?_
  intro r hr0
  have hF := res_gen hst hr0
  have hst' := statInc_ok m0 hK hF
  have htot : r.m + r.defers = g.m := hF.tot
  have hgm := hg.mle
  unfold symmConclude
  split
  · rename_i hc
    simp only [runs_bind]
    refine (symmNnz_runs (n := A.psize) (Nat.zero_le _) (by omega) (le_refl _) (fun i hi => hi)).mono ?_
    intro nnz _
    simp only [runs_pure]
    refine ⟨⟨by show r.m ≤ g.m; omega, hg.mle, hst', fun h0 h1 => ?_, fun h0 h1 => ?_⟩, fun h0 => ?_⟩
    · exact absurd hc h0
    · exact absurd hc h0
    · exact absurd hc h0
  · rename_i hc
    have hm0 := (postFlag_m hc).2
    simp only [runs_bind]
    refine (symmBlocks_runs he.nth o rowMajor lvl hI hF hst ⟨hr1, hr2⟩).mono ?_
    rintro b ⟨LE, UF, hb, hLE, hUL, hU, hFE, hSs, hPat⟩
    refine (symmNnz_runs (p := r.p.p) (m := r.m) (n := A.psize) (by omega) (by omega) (by have : r.p.p.size = A.psize := hF.psz; omega) (fun i hi => (hF.pinv.2.1 i hi).1)).mono ?_
    intro nnz _
    simp only [runs_pure]
    have h2n : (A.psize : R) ≤ ((2 * A.psize : Nat) : R) := by exact_mod_cast (show A.psize ≤ 2 * A.psize by omega)
    have hks : NoDrop o A.psize → Crout.KeepsAll A.psize (symmPar e o x lvl).drop := fun hnd => by
      have hnp := hnd.pars e.a.sqrt lvl
      exact keepsAll_of he ⟨hr1, hr2⟩ hnp.1 hnp.2.2.1 hnp.2.2.2.1
    refine ⟨kept_ok e o false rowMajor N m0 hK hF (fun hnd => ⟨hks hnd, hks hnd⟩) hm0 hb (fun hn => hLE (h2n.trans hn.alphaL))
      (fun hn c j hc' hj => ?_) nnz _, fun _ => ⟨⟨fun i hi => hst i hi, fun i hi => rfl, hU, hFE, hSs⟩, fun i hi => ?_, hPat⟩⟩
    · exact (hUL c j hc' hj).trans (hLE (h2n.trans hn.alphaL) j c hj hc')
    · have := hF.good i hi
      unfold Crout.badDiag at this
      simp only [Bool.or_eq_false_iff, decide_eq_false_iff_not, not_lt] at this
      exact this.2

end Level
end Hif
