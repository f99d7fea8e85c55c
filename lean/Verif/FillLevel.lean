import Verif.LevelRun
import Verif.SymmRun
import Verif.Builder

set_option linter.unusedSectionVars false
set_option linter.unusedVariables false

/-!
# How many entries the triangular factors of a level have
-/

namespace Hif
namespace Level
open Finset

theorem bind_ok_inv {α β : Type _} {x : M α} {f : α → M β} {b : β} (h : (x >>= f) = .ok b) : ∃ a, x = .ok a ∧ f a = .ok b := by
  cases x with
  | error e => cases h
  | ok a => exact ⟨a, rfl, h⟩

theorem runs_det {α : Type _} {x : M α} {Q : α → Prop} (h : Runs x Q) {a : α} (ha : x = .ok a) : Q a := by
  obtain ⟨b, hb, hq⟩ := h
  rw [hb] at ha
  cases ha
  exact hq

section
variable {K : Type _} [Field K] [Inhabited K]

theorem nnz_start {A : CS K} (h : A.WF) (ht : A.Tight) : A.nnz = A.start.get A.psize := by
  unfold CS.nnz
  rw [if_neg (by rw [ht.start_size]; omega), ht.start_size, h.start_zero]
  simp

/-- The number of entries is the sum of the lengths of the lines. -/
theorem start_sum {A : CS K} (h : A.WF) : ∀ k, k ≤ A.psize → A.start.get k = ∑ i ∈ range k, (A.line i).length := by
  intro k
  induction k with
  | zero => intro _; rw [h.start_zero]; rfl
  | succ k ih =>
    intro hk
    have := h.mono k (by omega)
    rw [sum_range_succ, ← ih (by omega), Crout.line_length]
    omega

/-- The first part of a split has at most as many entries. -/
theorem split_le {A B : CS K} {m : Nat} (hb : CS.SplitSpec A B false m) : B.nnz ≤ ∑ i ∈ range A.psize, (A.line i).length := by
  rw [nnz_start hb.wf hb.tight, start_sum hb.wf _ (le_refl _), hb.psize]
  refine sum_le_sum fun i hi => ?_
  have := hb.line i (mem_range.1 hi)
  simp only [Bool.false_eq_true, if_false] at this
  rw [this]
  exact List.length_filter_le _ _

theorem conv_nnz {A B : CS K} (h : A.WF) (ht : A.Tight) (c : CS.ConvSpec A B) : B.nnz = A.nnz := by
  obtain ⟨w, t⟩ := c.wf h ht
  rw [nnz_start w t, nnz_start h ht, ← t.inds_size, ← ht.inds_size, c.inds_size]

end

section
variable {K R : Type} [Field K] [DecidableEq K] [Inhabited K] [Field R] [LinearOrder R] [IsStrictOrderedRing R] [FloorSemiring R]

/-- What a level keeps of the factors of the Crout phase. -/
theorem conclude_fill {e : Env K R} {o : Opts R} {piv auto rowMajor : Bool} {lvl N m0 : Nat} {g : Pre.Matched R} {I : Crout.In K}
    {pr : Crout.Par K R} {ΦU ΦL : Nat → Nat → Prop} {r : Crout.Out K} (hI : Crout.InOK I) (hF : Crout.Res pr I ΦU ΦL r) {out : CroutOut K}
    (ho : conclude e o piv auto rowMajor lvl N m0 g I r = .ok out) (hk : (postFlag out.m2 out.m).2 ≠ 0) (hk2 : auto = true → (postFlag out.m2 out.m).1 = 0) :
    out.m = r.m ∧ out.p = r.p.p ∧ out.q = r.q.p ∧ out.L.nnz ≤ ∑ i ∈ range r.m, (r.L.line i).length ∧ out.U.nnz ≤ ∑ i ∈ range r.m, (r.U.line i).length := by
  have hmle : r.m ≤ I.n := by have := hF.tot; have := hI.mle; omega
  have hLss := hF.L.ssz
  have hLps := hF.L.psz
  have hUss := hF.U.ssz
  have hUps := hF.U.psz
  unfold conclude at ho
  split at ho
  · rename_i hc
    obtain ⟨nnz, -, h⟩ := bind_ok_inv ho
    cases h
    rcases hc with hc | ⟨h1, h2⟩
    · exact absurd hc hk
    · exact absurd (hk2 h1) h2
  · obtain ⟨b, hb, h⟩ := bind_ok_inv ho
    obtain ⟨nnz, -, h⟩ := bind_ok_inv h
    cases h
    refine ⟨rfl, rfl, rfl, ?_⟩
    unfold blocks at hb
    obtain ⟨LE, -, h⟩ := bind_ok_inv hb
    obtain ⟨LB, hLB, h⟩ := bind_ok_inv h
    obtain ⟨UF2, -, h⟩ := bind_ok_inv h
    obtain ⟨UB, hUB, h⟩ := bind_ok_inv h
    obtain ⟨_, -, h⟩ := bind_ok_inv h
    obtain ⟨_, -, h⟩ := bind_ok_inv h
    obtain ⟨_, -, h⟩ := bind_ok_inv h
    obtain ⟨_, -, h⟩ := bind_ok_inv h
    obtain ⟨_, -, h⟩ := bind_ok_inv h
    obtain ⟨_, -, h⟩ := bind_ok_inv h
    obtain ⟨_, -, h⟩ := bind_ok_inv h
    cases h
    have lb := runs_det (CS.splitWith_runs hF.L.wf hF.L.tight false r.m (by omega) r.Lstart (by rw [hLps]; exact hF.L.stsz) (splitPos_of hF.L)) hLB
    obtain ⟨UBb, ub1, ub2⟩ := runs_det (CS.splitDualWith_runs hF.U.wf hF.U.tight false r.m (by omega) r.Ustart (by rw [hUps]; exact hF.U.stsz) (splitPos_of hF.U)) hUB
    refine ⟨?_, ?_⟩
    · have := split_le lb
      rw [hLps] at this
      exact this
    · have := split_le ub1
      rw [hUps, ← conv_nnz ub1.wf ub1.tight ub2] at this
      exact this

theorem symmConclude_fill {e : Env K R} {o : Opts R} {rowMajor : Bool} {lvl N m0 : Nat} {g : Pre.Matched R} {I : Symm.In K}
    {pr : Crout.Par K R} {ΦU ΦL : Nat → Nat → Prop} {r : Symm.Out K} (hI : Crout.InOK I.sym) (hF : Crout.Res pr I.sym ΦU ΦL r.lift) {out : CroutOut K}
    (ho : symmConclude e o rowMajor lvl N m0 g I r = .ok out) (hk : (postFlag out.m2 out.m).2 ≠ 0) :
    out.m = r.m ∧ out.p = r.p.p ∧ out.L.nnz ≤ ∑ i ∈ range r.m, (r.L.line i).length ∧ out.U.nnz ≤ ∑ i ∈ range r.m, (r.L.line i).length := by
  have hmle : r.m ≤ I.n := by have := hF.tot; have := hI.mle; have : r.lift.m = r.m := rfl; have : I.sym.n = I.n := rfl; omega
  have hLss : r.L.ssize = I.n := hF.L.ssz
  have hLps : r.L.psize = r.m := hF.L.psz
  unfold symmConclude at ho
  split at ho
  · rename_i hc
    obtain ⟨nnz, -, h⟩ := bind_ok_inv ho
    cases h
    exact absurd hc hk
  · obtain ⟨b, hb, h⟩ := bind_ok_inv ho
    obtain ⟨nnz, -, h⟩ := bind_ok_inv h
    cases h
    refine ⟨rfl, rfl, ?_⟩
    unfold symmBlocks at hb
    obtain ⟨LE, -, h⟩ := bind_ok_inv hb
    obtain ⟨LB, hLB, h⟩ := bind_ok_inv h
    obtain ⟨UB, hUB, h⟩ := bind_ok_inv h
    obtain ⟨_, -, h⟩ := bind_ok_inv h
    obtain ⟨_, -, h⟩ := bind_ok_inv h
    obtain ⟨_, -, h⟩ := bind_ok_inv h
    obtain ⟨_, -, h⟩ := bind_ok_inv h
    obtain ⟨_, -, h⟩ := bind_ok_inv h
    obtain ⟨_, -, h⟩ := bind_ok_inv h
    cases h
    have lb := runs_det (CS.splitWith_runs (A := r.L) hF.L.wf hF.L.tight false r.m (by omega) r.Lstart (by rw [hLps]; exact hF.L.stsz) (splitPos_of hF.L)) hLB
    have ub := runs_det (CS.convert_runs lb.wf lb.tight) hUB
    have := split_le lb
    rw [hLps] at this
    refine ⟨this, ?_⟩
    show UB.nnz ≤ _
    rw [conv_nnz lb.wf lb.tight ub]
    exact this

/-- The limit of a line: `max 1 ⌈alpha·size⌉`. -/
def lineLimit (alpha : R) (size : Nat) : Nat := max 1 ⌈alpha * (size : R)⌉₊

theorem lineLimit_mono {a b : R} (hab : a ≤ b) (s : Nat) : lineLimit a s ≤ lineLimit b s := by
  unfold lineLimit
  exact max_le_max (le_refl _) (Nat.ceil_le_ceil (mul_le_mul_of_nonneg_right hab (Nat.cast_nonneg _)))

/-- A stored level whose factors are limited by the sizes `rows`, `cols`. -/
def Limited (aU aL : R) (rows cols : Buf Nat) (P : Prec K) : Prop :=
  P.U.nnz ≤ ∑ i ∈ range P.m, lineLimit aU (rows.get (P.p.get i)) ∧ P.L.nnz ≤ ∑ i ∈ range P.m, lineLimit aL (cols.get (P.q.get i))

theorem localPars_alpha (sqrt : R → R) (o : FacParOpts R) (lvl : Nat) (hlv : 0 < lvl) :
    let v := localPars sqrt o lvl
    (0 < o.alphaL → 0 < v.alphaL ∧ v.alphaL ≤ 2 * o.alphaL) ∧ (0 < o.alphaU → 0 < v.alphaU ∧ v.alphaU ≤ 2 * o.alphaU) := by
  have key : ∀ a : R, 0 < a → 0 < (if lvl > 2 then a else a * ((min lvl 2 : Nat) : R)) ∧ (if lvl > 2 then a else a * ((min lvl 2 : Nat) : R)) ≤ 2 * a := by
    intro a ha
    split
    · exact ⟨ha, by linarith⟩
    · have h1 : (1 : R) ≤ ((min lvl 2 : Nat) : R) := by exact_mod_cast (show 1 ≤ min lvl 2 by omega)
      have h2 : ((min lvl 2 : Nat) : R) ≤ 2 := by exact_mod_cast (show min lvl 2 ≤ 2 by omega)
      exact ⟨by nlinarith, by nlinarith⟩
  simp only [localPars, determineFacPars]
  split
  · exact ⟨key _, key _⟩
  · exact ⟨fun hl => ⟨hl, by simp only; linarith⟩, fun hu => ⟨hu, by simp only; linarith⟩⟩

theorem toPrec_kept {out : CroutOut K} {n m : Nat} (hm : m ≠ 0) : (out.toPrec n m).U = out.U ∧ (out.toPrec n m).L = out.L ∧ (out.toPrec n m).p = out.p ∧
    (out.toPrec n m).q = out.q ∧ (out.toPrec n m).m = m := by
  unfold CroutOut.toPrec
  rw [if_pos hm]
  exact ⟨rfl, rfl, rfl, rfl, rfl⟩

/-- A level without pivoting. -/
theorem plainLevel_fill {e : Env K R} (he : EnvOK e) (o : Opts R) (auto rowMajor : Bool) (lvl N m0 : Nat) (hlvl : 0 < lvl)
    {A : CS K} (h : A.WF) (ht : A.Tight) (hs : A.Sorted) (hsq : A.ssize = A.psize)
    (hp : ∀ C, CS.ConvSpec A C → Runs (prepare e o (symmPre e o lvl A C) m0 lvl (if rowMajor then C else A) (if rowMajor then A else C)) (Prepared A.psize))
    (hsz : SizesOK e A.psize) (hl : 0 < o.par.alphaL) (hu : 0 < o.par.alphaU) {out : CroutOut K} (ho : plainLevel e o auto rowMajor lvl N m0 A = .ok out)
    (hk : (postFlag out.m2 out.m).2 ≠ 0) (hk2 : auto = true → (postFlag out.m2 out.m).1 = 0) :
    Limited (2 * o.par.alphaU) (2 * o.par.alphaL) (e.rows lvl) (e.cols lvl) (out.toPrec A.psize out.m) := by
  obtain ⟨⟨hr1, hr2⟩, hc1, hc2⟩ := hsz lvl
  unfold plainLevel at ho
  rw [if_neg (by omega)] at ho
  obtain ⟨C, hC, ho⟩ := bind_ok_inv ho
  have c := runs_det (CS.convert_runs h ht) hC
  obtain ⟨h2, hm⟩ := two_of h ht hs hsq c rowMajor
  obtain ⟨g, hg, ho⟩ := bind_ok_inv ho
  have hg := runs_det (hp C c) hg
  have hI := croutIn_ok e h2 hg
  have hdU := Crout.realDrop_ok A.psize e.a.nrm e.nth he.nth (localPars e.a.sqrt o.par lvl).tauU (localPars e.a.sqrt o.par lvl).kappaD
    (localPars e.a.sqrt o.par lvl).alphaU (e.rows lvl) hr1
  have hdL := Crout.realDrop_ok A.psize e.a.nrm e.nth he.nth (localPars e.a.sqrt o.par lvl).tauL (localPars e.a.sqrt o.par lvl).kappaD
    (localPars e.a.sqrt o.par lvl).alphaL (e.cols lvl) hc1
  obtain ⟨r, hr, ho⟩ := bind_ok_inv ho
  obtain ⟨gh, hF⟩ := runs_det (Crout.croutPhase_runs (pr := levelPar e.a.nrm e.safeMin e.nth e.a.sqrt o.par lvl (e.rows lvl) (e.cols lvl)) hI hdU hdL) hr
  have hR := hF.res hI
  obtain ⟨k1, k2, k3, k4, k5⟩ := conclude_fill hI hR ho hk hk2
  obtain ⟨-, hm0⟩ := postFlag_m hk
  obtain ⟨t1, t2, t3, t4, t5⟩ := toPrec_kept (out := out) (n := A.psize) hm0
  obtain ⟨a1, a2⟩ := (localPars_alpha e.a.sqrt o.par lvl hlvl).1 hl
  obtain ⟨a3, a4⟩ := (localPars_alpha e.a.sqrt o.par lvl hlvl).2 hu
  unfold Limited
  rw [t1, t2, t3, t4, t5, k1, k2, k3]
  refine ⟨k5.trans (sum_le_sum fun i hi => ?_), k4.trans (sum_le_sum fun i hi => ?_)⟩
  · exact (hR.U.cnt i (mem_range.1 hi) a3).trans (lineLimit_mono a4 _)
  · exact (hR.L.cnt i (mem_range.1 hi) a1).trans (lineLimit_mono a2 _)

/-- A level with pivoting. -/
theorem pivotLevel_fill {e : Env K R} (he : EnvOK e) (o : Opts R) (rowMajor : Bool) (lvl N m0 : Nat) (hlvl : 0 < lvl)
    {A : CS K} (h : A.WF) (ht : A.Tight) (hs : A.Sorted) (hsq : A.ssize = A.psize)
    (hp : ∀ C, CS.ConvSpec A C → Runs (prepare e o (symmPrePivot o lvl) m0 lvl (if rowMajor then C else A) (if rowMajor then A else C)) (Prepared A.psize))
    (hsz : SizesOK e A.psize) (hl : 0 < o.par.alphaL) (hu : 0 < o.par.alphaU) {out : CroutOut K} (ho : pivotLevel e o rowMajor lvl N m0 A = .ok out)
    (hk : (postFlag out.m2 out.m).2 ≠ 0) :
    Limited (8 * o.par.alphaU) (8 * o.par.alphaL) (e.rows lvl) (e.cols lvl) (out.toPrec A.psize out.m) := by
  obtain ⟨⟨hr1, hr2⟩, hc1, hc2⟩ := hsz lvl
  unfold pivotLevel at ho
  rw [if_neg (by omega)] at ho
  obtain ⟨C, hC, ho⟩ := bind_ok_inv ho
  have c := runs_det (CS.convert_runs h ht) hC
  obtain ⟨h2, hm⟩ := two_of h ht hs hsq c rowMajor
  obtain ⟨g, hg, ho⟩ := bind_ok_inv ho
  have hg := runs_det (hp C c) hg
  have hI := croutIn_ok e h2 hg
  have hdU := Crout.realDrop_ok A.psize e.a.nrm e.nth he.nth (localPars e.a.sqrt o.par lvl).tauU (localPars e.a.sqrt o.par lvl).kappaD
    ((localPars e.a.sqrt o.par lvl).alphaU * 4) (e.rows lvl) hr1
  have hdL := Crout.realDrop_ok A.psize e.a.nrm e.nth he.nth (localPars e.a.sqrt o.par lvl).tauL (localPars e.a.sqrt o.par lvl).kappaD
    ((localPars e.a.sqrt o.par lvl).alphaL * 4) (e.cols lvl) hc1
  obtain ⟨r, hr, ho⟩ := bind_ok_inv ho
  obtain ⟨gh, hF⟩ := runs_det (PCrout.croutPhase_runs (pr := pivotPar e o lvl) he.srt hI hdU hdL) hr
  have hR := hF.res hI
  obtain ⟨k1, k2, k3, k4, k5⟩ := conclude_fill hI hR ho hk (fun hc => by cases hc)
  obtain ⟨-, hm0⟩ := postFlag_m hk
  obtain ⟨t1, t2, t3, t4, t5⟩ := toPrec_kept (out := out) (n := A.psize) hm0
  obtain ⟨a1, a2⟩ := (localPars_alpha e.a.sqrt o.par lvl hlvl).1 hl
  obtain ⟨a3, a4⟩ := (localPars_alpha e.a.sqrt o.par lvl hlvl).2 hu
  unfold Limited
  rw [t1, t2, t3, t4, t5, k1, k2, k3]
  refine ⟨k5.trans (sum_le_sum fun i hi => ?_), k4.trans (sum_le_sum fun i hi => ?_)⟩
  · exact (hR.U.cnt i (mem_range.1 hi) (by linarith)).trans (lineLimit_mono (by linarith) _)
  · exact (hR.L.cnt i (mem_range.1 hi) (by linarith)).trans (lineLimit_mono (by linarith) _)

/-- A symmetric level: both factors are limited by the row sizes. -/
theorem symmLevel_fill {e : Env K R} (he : EnvOK e) (o : Opts R) (x : SymmPar K R) (rowMajor : Bool) (lvl N m0 : Nat) (hlvl : 0 < lvl)
    {A : CS K} (h : A.WF) (hs : A.Sorted) (hsq : A.ssize = A.psize)
    (hsym : ∀ i j, i < A.psize → j < A.psize → A.entry i j = A.entry j i)
    (hp : Runs (prepare e o true m0 lvl A A) (SymPrepared A.psize)) (hr1 : A.psize ≤ (e.rows lvl).size)
    (hl : 0 < o.par.alphaL) {out : CroutOut K} (ho : symmLevel e o x rowMajor lvl N m0 A = .ok out)
    (hk : (postFlag out.m2 out.m).2 ≠ 0) :
    (out.toPrec A.psize out.m).U.nnz ≤ ∑ i ∈ range out.m, lineLimit (2 * o.par.alphaL) ((e.rows lvl).get (out.p.get i)) ∧
    (out.toPrec A.psize out.m).L.nnz ≤ ∑ i ∈ range out.m, lineLimit (2 * o.par.alphaL) ((e.rows lvl).get (out.p.get i)) := by
  have h2 : Two A.psize A A := ⟨⟨h, hs, rfl, hsq, h, hs, rfl, hsq, le_refl _, Or.inl rfl⟩, fun i j hi hj => hsym j i hj hi⟩
  unfold symmLevel at ho
  rw [if_neg (by omega)] at ho
  obtain ⟨g, hg, ho⟩ := bind_ok_inv ho
  obtain ⟨hg, hgt, hgq⟩ := runs_det hp hg
  have hI : Crout.InOK (symmIn e A.psize A g).gen := croutIn_ok e h2 hg
  have hI' : Crout.InOK (symmIn e A.psize A g).sym := croutIn_ok e h2 (g := { g with q := g.p, t := g.s }) ⟨hg.mle, hg.ssz, hg.ssz, hg.spos, hg.spos, hg.p, hg.p⟩
  have hst : ∀ i, i < A.psize → (symmIn e A.psize A g).t.get i = (symmIn e A.psize A g).s.get i := fun i hi => by
    show e.a.emb (g.t.get i) = e.a.emb (g.s.get i)
    rw [hgt i hi]
  have ht := rd_ext (n := A.psize) (by exact hI.tsz) (by exact hI.ssz) hst
  have hq := rd_ext (a := g.q.p) (b := g.p.p) (n := A.psize) hg.q.1 hg.p.1 hgq
  have hd := Crout.realDrop_ok A.psize e.a.nrm e.nth he.nth (localPars e.a.sqrt o.par lvl).tauL (localPars e.a.sqrt o.par lvl).kappaD
    (localPars e.a.sqrt o.par lvl).alphaL (e.rows lvl) hr1
  obtain ⟨r, hr, ho⟩ := bind_ok_inv ho
  have hR := runs_det (Symm.croutPhase_runs (pr := symmPar e o x lvl) (I := symmIn e A.psize A g) hI' ht hq hd hd) hr
  obtain ⟨k1, k2, k3, k4⟩ := symmConclude_fill hI' hR ho hk
  obtain ⟨-, hm0⟩ := postFlag_m hk
  obtain ⟨t1, t2, t3, t4, t5⟩ := toPrec_kept (out := out) (n := A.psize) hm0
  have hv : 0 < (localPars e.a.sqrt o.par lvl).alphaL ∧ (localPars e.a.sqrt o.par lvl).alphaL ≤ 2 * o.par.alphaL :=
    (localPars_alpha e.a.sqrt o.par lvl hlvl).1 hl
  have key : ∑ i ∈ range r.m, (r.L.line i).length ≤ ∑ i ∈ range r.m, lineLimit (2 * o.par.alphaL) ((e.rows lvl).get (r.p.p.get i)) :=
    sum_le_sum fun i hi => (hR.L.cnt i (mem_range.1 hi) hv.1).trans (lineLimit_mono hv.2 _)
  rw [t1, t2, k1, k2]
  exact ⟨k4.trans key, k3.trans key⟩

end
end Level
end Hif
