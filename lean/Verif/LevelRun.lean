import Verif.LevelLemmas

set_option linter.unusedSectionVars false
set_option linter.unusedVariables false

/-!
# One level of the factorization: the result
-/

namespace Hif
namespace Level
open Finset
variable {K R : Type} [Field K] [DecidableEq K] [Inhabited K] [Field R] [LinearOrder R] [IsStrictOrderedRing R] [FloorSemiring R]

theorem ambNnz_runs {rows cols p q : Buf Nat} {m n : Nat} (hmn : m ≤ n) (h1 : n ≤ rows.size) (h2 : n ≤ cols.size) (h3 : n ≤ p.size) (h4 : n ≤ q.size)
    (h5 : ∀ i, i < n → p.get i < n) (h6 : ∀ i, i < n → q.get i < n) : Runs (ambNnz rows cols p q m n) fun _ => True := by
  unfold ambNnz
  refine forUp_runs' (fun _ _ => True) hmn trivial ?_ (fun _ _ => trivial)
  rintro i c - hi -
  have := h5 i hi
  have := h6 i hi
  simp only [runs_bind, runs_rd, runs_pure]
  exact ⟨by omega, by omega, by omega, by omega, trivial⟩

theorem emb_ne {emb : R → K} (h : Pre.EmbSpec emb) {x : R} (hx : 0 < x) : emb x ≠ 0 := fun e => by
  have h1 : emb (x * x⁻¹) = emb x * emb x⁻¹ := h.mul _ _
  rw [mul_inv_cancel₀ (ne_of_gt hx), h.one, e, zero_mul] at h1
  exact one_ne_zero h1

/-- Parameters with which nothing is dropped in a matrix of dimension `n`. -/
structure NoDrop (o : Opts R) (n : Nat) : Prop where
  tauL : o.par.tauL ≤ 0
  tauU : o.par.tauU ≤ 0
  kappaD : 0 ≤ o.par.kappaD
  alphaL : ((2 * n : Nat) : R) ≤ o.par.alphaL
  alphaU : ((2 * n : Nat) : R) ≤ o.par.alphaU

theorem NoDrop.mono {o : Opts R} {n k : Nat} (h : NoDrop o n) (hk : k ≤ n) : NoDrop o k :=
  have h' : ((2 * k : Nat) : R) ≤ ((2 * n : Nat) : R) := by exact_mod_cast (show 2 * k ≤ 2 * n by omega)
  ⟨h.tauL, h.tauU, h.kappaD, h'.trans h.alphaL, h'.trans h.alphaU⟩

theorem facTau_nonneg (lvl : Nat) : (0 : R) ≤ facTau lvl := by
  unfold facTau
  refine div_nonneg zero_le_one (le_min (by norm_num) (by positivity))

/-- The local parameters of a level do not drop either. -/
theorem NoDrop.pars {o : Opts R} {n : Nat} (h : NoDrop o n) (sqrt : R → R) (lvl : Nat) :
    (localPars sqrt o.par lvl).tauL ≤ 0 ∧ (localPars sqrt o.par lvl).tauU ≤ 0 ∧ 0 ≤ (localPars sqrt o.par lvl).kappaD ∧
    (0 < (localPars sqrt o.par lvl).alphaL → ((2 * n : Nat) : R) ≤ (localPars sqrt o.par lvl).alphaL) ∧
    (0 < (localPars sqrt o.par lvl).alphaU → ((2 * n : Nat) : R) ≤ (localPars sqrt o.par lvl).alphaU) := by
  have h0 : (0 : R) ≤ ((2 * n : Nat) : R) := Nat.cast_nonneg _
  have hal := h.alphaL
  have hau := h.alphaU
  have key : ∀ a : R, ((2 * n : Nat) : R) ≤ a → 0 < (if lvl > 2 then a else a * (min lvl 2 : Nat)) →
      ((2 * n : Nat) : R) ≤ if lvl > 2 then a else a * (min lvl 2 : Nat) := by
    intro a ha hp
    split
    · exact ha
    · rename_i hl
      rw [if_neg hl] at hp
      have h1 : 1 ≤ min lvl 2 := by
        rcases Nat.eq_zero_or_pos (min lvl 2) with hz | hz
        · rw [hz] at hp; simp at hp
        · exact hz
      have h2 : (1 : R) ≤ (min lvl 2 : Nat) := by exact_mod_cast h1
      have h3 : 0 ≤ a := h0.trans ha
      nlinarith
  unfold localPars determineFacPars
  split
  · refine ⟨mul_nonpos_of_nonpos_of_nonneg h.tauU (facTau_nonneg lvl), mul_nonpos_of_nonpos_of_nonneg h.tauL (facTau_nonneg lvl),
      le_trans (by norm_num) (le_max_left _ _), key _ hal, key _ hau⟩
  · exact ⟨h.tauU, h.tauL, h.kappaD, fun _ => hal, fun _ => hau⟩

/-- Reference sizes as the levels provide them: long enough and nowhere zero. -/
def SizesOK (e : Env K R) (n : Nat) : Prop :=
  ∀ lvl, (n ≤ (e.rows lvl).size ∧ ∀ i, i < n → 0 < (e.rows lvl).get i) ∧ (n ≤ (e.cols lvl).size ∧ ∀ i, i < n → 0 < (e.cols lvl).get i)

theorem SizesOK.mono {e : Env K R} {n k : Nat} (h : SizesOK e n) (hk : k ≤ n) : SizesOK e k := fun lvl =>
  ⟨⟨hk.trans (h lvl).1.1, fun i hi => (h lvl).1.2 i (by omega)⟩, ⟨hk.trans (h lvl).2.1, fun i hi => (h lvl).2.2 i (by omega)⟩⟩

/-- What the arithmetic and the selection must satisfy. -/
structure EnvOK (e : Env K R) : Prop where
  emb : Pre.EmbSpec e.a.emb
  nrm : ∀ x, 0 ≤ e.a.nrm x
  nth : SV.NthSpec e.nth
  srt : ∀ f l, (e.srt f l).Perm l

/-- What a level hands to the driver. -/
structure LevelOut (m0 : Nat) (o : Opts R) (auto rowMajor : Bool) (A : CS K) (out : CroutOut K) : Prop where
  mle : out.m ≤ out.m2
  m2le : out.m2 ≤ A.psize
  stats : out.stats 0 = m0 - (postFlag out.m2 out.m).2 ∧ out.stats 1 = (if (postFlag out.m2 out.m).2 ≠ 0 then out.m2 - out.m else 0) ∧
    out.stats 2 + out.stats 3 = (if (postFlag out.m2 out.m).1 = 2 then 0 else out.m2 - out.m)
  kept : (postFlag out.m2 out.m).2 ≠ 0 → (auto = true → (postFlag out.m2 out.m).1 = 0) →
    (out.toPrec A.psize out.m).OK ∧ out.schur.psize = A.psize - out.m ∧ out.schur.ssize = A.psize - out.m ∧
    (out.m < A.psize → out.schur.WF ∧ out.schur.Tight ∧ out.schur.Sorted) ∧
    (NoDrop o A.psize → ∃ LE UF, Spec.ExactLevel (out.toPrec A.psize out.m).toLevel (mat rowMajor out.schur) (mat rowMajor A) LE UF)
  tight : (postFlag out.m2 out.m).2 ≠ 0 → (auto = true → (postFlag out.m2 out.m).1 = 0) → out.L.Tight ∧ out.U.Tight ∧
    (out.E.WF ∧ out.E.Tight ∧ out.E.psize = out.m ∧ out.E.ssize = A.psize - out.m) ∧ out.F.WF ∧ out.F.Tight ∧ out.F.ssize = out.m

theorem postFlag_m {m2 m : Nat} (h : (postFlag m2 m).2 ≠ 0) : (postFlag m2 m).2 = m ∧ m ≠ 0 := by
  unfold postFlag at *
  by_cases h1 : 4 * m ≤ m2
  · rw [if_pos h1] at h; exact absurd rfl h
  · rw [if_neg h1] at h ⊢
    by_cases h2 : 5 * m ≤ 2 * m2
    · rw [if_pos h2] at h ⊢; exact ⟨rfl, h⟩
    · rw [if_neg h2] at h ⊢; exact ⟨rfl, h⟩

/-- What all levels need to know about the input of the Crout phase. -/
structure InLink (rowMajor : Bool) (A : CS K) (g : Pre.Matched R) (I : Crout.In K) : Prop where
  ok : Crout.InOK I
  n : I.n = A.psize
  m2 : I.m2 = g.m
  s_ne : ∀ i, i < A.psize → I.s.get i ≠ 0
  t_ne : ∀ i, i < A.psize → I.t.get i ≠ 0
  mat : ∀ i j, i < A.psize → j < A.psize → I.Acrs.entry i j = mat rowMajor A i j

theorem croutIn_link {e : Env K R} (he : EnvOK e) {rowMajor : Bool} {A : CS K} {Acrs Accs : CS K}
    (h2 : Two A.psize Acrs Accs) (hmat : ∀ i j, i < A.psize → j < A.psize → Acrs.entry i j = mat rowMajor A i j)
    {g : Pre.Matched R} (hg : Prepared A.psize g) : InLink rowMajor A g (croutIn e A.psize Acrs Accs g) :=
  ⟨croutIn_ok e h2 hg, rfl, rfl, fun i hi => emb_ne he.emb (hg.spos i hi), fun i hi => emb_ne he.emb (hg.tpos i hi), hmat⟩

/-- The statistics of a level. -/
theorem statInc_ok (m0 : Nat) {rowMajor : Bool} {A : CS K} {g : Pre.Matched R} {I : Crout.In K} (hL : InLink rowMajor A g I) {pr : Crout.Par K R}
    {ΦU ΦL : Nat → Nat → Prop} {r : Crout.Out K} (hF : Crout.Res pr I ΦU ΦL r) :
    statInc m0 (postFlag g.m r.m) r 0 = m0 - (postFlag g.m r.m).2 ∧
      statInc m0 (postFlag g.m r.m) r 1 = (if (postFlag g.m r.m).2 ≠ 0 then g.m - r.m else 0) ∧
      statInc m0 (postFlag g.m r.m) r 2 + statInc m0 (postFlag g.m r.m) r 3 = (if (postFlag g.m r.m).1 = 2 then 0 else g.m - r.m) := by
  have htot := hF.tot
  have hm2 := hL.m2
  have hcnt := hF.cnt
  have hdm : r.defers = g.m - r.m := by omega
  refine ⟨rfl, ?_, ?_⟩
  · show (if (postFlag g.m r.m).2 ≠ 0 then r.defers else 0) = _
    rw [hdm]
  · show (if (postFlag g.m r.m).1 = 2 then 0 else r.nDiag) + (if (postFlag g.m r.m).1 = 2 then 0 else r.nCond) = _
    split
    · rfl
    · omega

/-- The same output with another answer about the number of remaining entries. -/
def withFew (c : CroutOut K) (fw : Bool) : CroutOut K := { c with few := fw }

set_option maxHeartbeats 1000000 in
/-- A kept level. -/
theorem kept_ok (e : Env K R) (o : Opts R) (auto rowMajor : Bool) (N m0 : Nat) {A : CS K} {g : Pre.Matched R} {I : Crout.In K}
    (hK : InLink rowMajor A g I) {pr : Crout.Par K R} {ΦU ΦL : Nat → Nat → Prop} {r : Crout.Out K} (hF : Crout.Res pr I ΦU ΦL r)
    (hnd : NoDrop o A.psize → Crout.KeepsAll A.psize pr.dropU ∧ Crout.KeepsAll A.psize pr.dropL) (hm0 : r.m ≠ 0)
    {LE UF : Nat → Nat → K} {b : Blocks K} (hb : BlocksOK rowMajor I r LE UF b)
    (hLE : NoDrop o A.psize → ∀ i c, i < I.n - r.m → c < r.m → LE i c = r.L.entry c (r.m + i))
    (hUF : NoDrop o A.psize → ∀ c j, c < r.m → j < I.n - r.m → UF c j = r.U.entry c (r.m + j)) (nnz : Nat) (fw : Bool) :
    LevelOut m0 o auto rowMajor A (withFew (keptOut e o N m0 g I r b nnz) fw) := by
  have hI := hK.ok
  have hInm := hK.n
  have hIs := hK.s_ne
  have hIt := hK.t_ne
  have hIm2 := hK.m2
  have hmat := hK.mat
  have htot := hF.tot
  have hmle := hI.mle
  have hst := statInc_ok m0 hK hF
  have hgm : g.m ≤ A.psize := by omega
  have hP : (withFew (keptOut e o N m0 g I r b nnz) fw).toPrec A.psize r.m =
    { m := r.m, n := A.psize, L := b.L, d := r.d, U := b.U, E := b.E, F := b.F, s := I.s, t := I.t, p := r.p.p, pinv := r.p.inv, q := r.q.p,
      qinv := r.q.inv, last := .none } := by
    unfold CroutOut.toPrec
    rw [if_pos hm0]
    rfl
  have hok : ((withFew (keptOut e o N m0 g I r b nnz) fw).toPrec A.psize r.m).OK := by
    rw [hP]
    refine ⟨by show r.m ≤ A.psize; omega, hb.L_wf, hb.L_p, hb.L_s, hb.U_wf, hb.U_p, hb.U_s, fun _ => ⟨hb.E_wf, hb.E_p, by rw [hb.E_s, hInm]⟩,
      fun _ => ⟨hb.F_wf, hb.F_s⟩, by rw [hb.F_p, hInm], ?_, ?_, ?_, ?_, ?_, ?_, ?_, ?_, ?_, ?_, ?_, ?_, hIs, hIt⟩
    · show r.m ≤ r.d.size; have := hF.dsz; omega
    · show A.psize ≤ I.s.size; rw [hI.ssz]; omega
    · show A.psize ≤ I.t.size; rw [hI.tsz]; omega
    · show A.psize ≤ r.p.p.size; rw [hF.psz]; omega
    · show A.psize ≤ r.p.inv.size; rw [hF.pinv.1]; omega
    · show A.psize ≤ r.q.p.size; rw [hF.qsz]; omega
    · show A.psize ≤ r.q.inv.size; rw [hF.qinv.1]; omega
    · show Spec.Inverse A.psize r.p.p.get r.p.inv.get; rw [← hInm]; exact hF.pinv.2
    · show Spec.Inverse A.psize r.q.p.get r.q.inv.get; rw [← hInm]; exact hF.qinv.2
    · intro i hi j hj hij
      show b.L.ccs i j = 0
      rw [hb.L_ent i j hi hj]
      exact hF.L.zero hj hij
    · intro i hi j hj hij
      show b.U.ccs i j = 0
      rw [hb.U_ent i j hi hj]
      exact hF.U.zero hi hij
    · intro i hi
      have := hF.good i hi
      unfold Crout.badDiag at this
      simp only [Bool.or_eq_false_iff, decide_eq_false_iff_not, not_lt] at this
      exact this.1.1
  refine ⟨by show r.m ≤ g.m; omega, hgm, hst, fun h0 h1 => ⟨hok, by show b.S.psize = A.psize - r.m; rw [hb.S_p, hInm],
    by show b.S.ssize = A.psize - r.m; rw [hb.S_s, hInm], fun hm => hb.S_wf (by rw [hInm]; exact hm), fun hnd' => ?_⟩,
    fun _ _ => ⟨hb.tight.1, hb.tight.2.1, ⟨hb.E_wf, hb.tight.2.2.1, hb.E_p, by show b.E.ssize = A.psize - r.m; rw [hb.E_s, hInm]⟩, hb.F_wf, hb.tight.2.2.2, hb.F_s⟩⟩
  have hex : ∀ i j, i < A.psize → j < A.psize → min i j < r.m →
      ∑ b ∈ range r.m, r.Lbar i b * r.d.get b * r.Ubar b j = Crout.Out.target I r i j := fun i j hi hj hm =>
    hF.exact (by rw [hInm]; exact (hnd hnd').1) (by rw [hInm]; exact (hnd hnd').2) i j (by rw [hInm]; exact hi) (by rw [hInm]; exact hj) hm
  have hLE' := hLE hnd'
  have hUF' := hUF hnd'
  rw [hInm] at hLE' hUF'
  have htgt : ∀ i j, i < A.psize → j < A.psize →
      Spec.scaled ((withFew (keptOut e o N m0 g I r b nnz) fw).toPrec A.psize r.m).toLevel (mat rowMajor A) i j = Crout.Out.target I r i j := by
    intro i j hi hj
    rw [hP]
    unfold Crout.Out.target
    rw [hmat _ _ (by have := (hF.pinv.2.1 i (by omega)).1; omega) (by have := (hF.qinv.2.1 j (by omega)).1; omega)]
    rfl
  have hLb : ∀ i c, i < r.m → c < r.m → Spec.unit b.L.ccs i c = r.Lbar i c := fun i c hi hc => by
    unfold Spec.unit Crout.Out.Lbar
    rw [hb.L_ent i c hi hc]
  have hUb : ∀ c j, c < r.m → j < r.m → Spec.unit b.U.ccs c j = r.Ubar c j := fun c j hc hj => by
    unfold Spec.unit Crout.Out.Ubar
    rw [hb.U_ent c j hc hj]
  have hLbE : ∀ i c, i < A.psize - r.m → c < r.m → LE i c = r.Lbar (r.m + i) c := fun i c hi hc => by
    unfold Crout.Out.Lbar
    rw [hLE' i c hi hc, if_neg (by omega)]
  have hUbF : ∀ c j, c < r.m → j < A.psize - r.m → UF c j = r.Ubar c (r.m + j) := fun c j hc hj => by
    unfold Crout.Out.Ubar
    rw [hUF' c j hc hj, if_neg (by omega)]
  refine ⟨LE, UF, ⟨⟨hok.le, hok.lower, hok.upper, hok.d_ne, hok.s_ne, hok.t_ne, BiPerm.inverse_isPerm hok.p_inv, BiPerm.inverse_isPerm hok.q_inv⟩, fun i j hi hj => ?_, fun i j hi hj => ?_, fun i j hi hj => ?_, fun i j hi hj => ?_, fun i j hi hj => ?_, fun i j hi hj => ?_⟩⟩
  all_goals
    have hm : ((withFew (keptOut e o N m0 g I r b nnz) fw).toPrec A.psize r.m).toLevel.m = r.m := by rw [hP]; rfl
    have hn : ((withFew (keptOut e o N m0 g I r b nnz) fw).toPrec A.psize r.m).toLevel.n = A.psize := by rw [hP]; rfl
    have hLl : ((withFew (keptOut e o N m0 g I r b nnz) fw).toPrec A.psize r.m).toLevel.L = b.L.ccs := by rw [hP]; rfl
    have hUl : ((withFew (keptOut e o N m0 g I r b nnz) fw).toPrec A.psize r.m).toLevel.U = b.U.ccs := by rw [hP]; rfl
    have hEl : ((withFew (keptOut e o N m0 g I r b nnz) fw).toPrec A.psize r.m).toLevel.E = b.E.ccs := by rw [hP]; rfl
    have hFl : ((withFew (keptOut e o N m0 g I r b nnz) fw).toPrec A.psize r.m).toLevel.F = b.F.ccs := by rw [hP]; rfl
    have hdl : ((withFew (keptOut e o N m0 g I r b nnz) fw).toPrec A.psize r.m).toLevel.d = r.d.get := by rw [hP]; rfl
    have hml : (withFew (keptOut e o N m0 g I r b nnz) fw).m = r.m := rfl
    simp only [hml] at hi hj ⊢
    simp only [hm, hn] at hi hj
    simp only [hm, hLl, hUl, hEl, hFl, hdl]
    rw [htgt _ _ (by omega) (by omega)]
  · rw [← hex i j (by omega) (by omega) (by omega)]
    exact sum_congr rfl fun c hc => by rw [hLb i c hi (mem_range.1 hc), hUb c j (mem_range.1 hc) hj]
  · exact hb.F_ent i j hi (by omega)
  · exact hb.E_ent i j (by omega) hj
  · rw [← hex i (r.m + j) (by omega) (by omega) (by omega)]
    exact sum_congr rfl fun c hc => by rw [hLb i c hi (mem_range.1 hc), hUbF c j (mem_range.1 hc) hj]
  · rw [← hex (r.m + i) j (by omega) (by omega) (by omega)]
    exact sum_congr rfl fun c hc => by rw [hLbE i c hi (mem_range.1 hc), hUb c j (mem_range.1 hc) hj]
  · show _ + mat rowMajor b.S i j = _
    rw [hb.S_ent (by omega) i j (by omega) (by omega)]
    ring

/-- After preprocessing and the Crout phase; the triangular factors are the leading parts of those of the Crout phase. -/
theorem conclude_runs_fac {e : Env K R} (he : EnvOK e) (o : Opts R) (piv auto rowMajor : Bool) (lvl N m0 : Nat) {A : CS K} {Acrs Accs : CS K}
    (h2 : Two A.psize Acrs Accs) (hmat : ∀ i j, i < A.psize → j < A.psize → Acrs.entry i j = mat rowMajor A i j) (hsz : SizesOK e A.psize)
    {g : Pre.Matched R} (hg : Prepared A.psize g) {pr : Crout.Par K R} {ΦU ΦL : Nat → Nat → Prop} {r : Crout.Out K}
    (hF : Crout.Res pr (croutIn e A.psize Acrs Accs g) ΦU ΦL r)
    (hnd : NoDrop o A.psize → Crout.KeepsAll A.psize pr.dropU ∧ Crout.KeepsAll A.psize pr.dropL) :
    Runs (conclude e o piv auto rowMajor lvl N m0 g (croutIn e A.psize Acrs Accs g) r) fun out => LevelOut m0 o auto rowMajor A out ∧
      ((postFlag out.m2 out.m).2 ≠ 0 → (auto = true → (postFlag out.m2 out.m).1 = 0) → out.m = r.m ∧
        ∀ i j, i < r.m → j < r.m → out.L.ccs i j = r.L.entry j i ∧ out.U.ccs i j = r.U.entry i j) := by
  obtain ⟨⟨hr1, hr2⟩, hc1, hc2⟩ := hsz lvl
  have hK := croutIn_link (rowMajor := rowMajor) he h2 hmat hg
  have hI := hK.ok
  have hInm : (croutIn e A.psize Acrs Accs g).n = A.psize := rfl
  have hst := statInc_ok m0 hK hF
  have hIm2 := hK.m2
  generalize croutIn e A.psize Acrs Accs g = I at *
  have htot := hF.tot
  have hmle := hI.mle
  unfold conclude
  split
  · rename_i hc
    simp only [runs_bind]
    refine (ambNnz_runs (n := I.n) (Nat.zero_le _) (by omega) (by omega) (le_refl _) (le_refl _) (fun i hi => hi) (fun i hi => hi)).mono ?_
    intro nnz _
    simp only [runs_pure]
    refine ⟨⟨by show r.m ≤ g.m; omega, hg.mle, hst, fun h0 h1 => ?_, fun h0 h1 => ?_⟩, fun h0 h1 => ?_⟩
    all_goals
     have h0 : (postFlag g.m r.m).2 ≠ 0 := h0
     have h1 : auto = true → (postFlag g.m r.m).1 = 0 := h1
     rcases hc with hc | hc
     · exact absurd hc h0
     · exact absurd (h1 hc.1) hc.2
  · rename_i hc
    push Not at hc
    have hm0 := (postFlag_m hc.1).2
    simp only [runs_bind]
    refine (blocks_runs he.nth o piv rowMajor lvl hI hF (by rw [hInm]; exact ⟨hr1, hr2⟩) (by rw [hInm]; exact ⟨hc1, hc2⟩)).mono ?_
    rintro b ⟨LE, UF, hb, hLE, hUF⟩
    refine (ambNnz_runs (by omega) (by omega) (by omega) (by have := hF.psz; omega) (by have := hF.qsz; omega) (fun i hi => (hF.pinv.2.1 i hi).1)
      (fun i hi => (hF.qinv.2.1 i hi).1)).mono ?_
    intro nnz _
    simp only [runs_pure]
    have h2n : (A.psize : R) ≤ ((2 * A.psize : Nat) : R) := by exact_mod_cast (show A.psize ≤ 2 * A.psize by omega)
    refine ⟨kept_ok e o auto rowMajor N m0 hK hF hnd hm0 hb (fun hn => hLE (by rw [hInm]; exact h2n.trans hn.alphaL))
      (fun hn => hUF (by rw [hInm]; exact h2n.trans hn.alphaU)) nnz _,
      fun _ _ => ⟨rfl, fun i j hi hj => ⟨hb.L_ent i j hi hj, hb.U_ent i j hi hj⟩⟩⟩

/-- After preprocessing and the Crout phase. -/
theorem conclude_runs {e : Env K R} (he : EnvOK e) (o : Opts R) (piv auto rowMajor : Bool) (lvl N m0 : Nat) {A : CS K} {Acrs Accs : CS K}
    (h2 : Two A.psize Acrs Accs) (hmat : ∀ i j, i < A.psize → j < A.psize → Acrs.entry i j = mat rowMajor A i j) (hsz : SizesOK e A.psize)
    {g : Pre.Matched R} (hg : Prepared A.psize g) {pr : Crout.Par K R} {ΦU ΦL : Nat → Nat → Prop} {r : Crout.Out K}
    (hF : Crout.Res pr (croutIn e A.psize Acrs Accs g) ΦU ΦL r)
    (hnd : NoDrop o A.psize → Crout.KeepsAll A.psize pr.dropU ∧ Crout.KeepsAll A.psize pr.dropL) :
    Runs (conclude e o piv auto rowMajor lvl N m0 g (croutIn e A.psize Acrs Accs g) r) (LevelOut m0 o auto rowMajor A) :=
  (conclude_runs_fac he o piv auto rowMajor lvl N m0 h2 hmat hsz hg hF hnd).mono fun _ h => h.1

/-- Dropping with the parameters of a level removes nothing if the options say so. -/
theorem keepsAll_of {e : Env K R} (he : EnvOK e) {n : Nat} {sz : Buf Nat} (hsz : n ≤ sz.size ∧ ∀ i, i < n → 0 < sz.get i) {tau kappaD alpha : R}
    (h1 : tau ≤ 0) (h2 : 0 ≤ kappaD) (h3 : 0 < alpha → ((2 * n : Nat) : R) ≤ alpha) :
    Crout.KeepsAll n (Crout.realDrop e.a.nrm e.nth tau kappaD alpha sz) := by
  refine Crout.realDrop_keeps_big n e.a.nrm he.nrm e.nth he.nth _ _ _ sz hsz.1 h1 h2 ?_
  intro lab hlab hp
  have h1 : (1 : R) ≤ (sz.get lab : Nat) := by exact_mod_cast hsz.2 lab hlab
  have := h3 hp
  nlinarith

/-- The preprocessing succeeds on every matrix satisfying `G`. -/
def PrepOK (e : Env K R) (o : Opts R) (G : Nat → (Nat → Nat → K) → Prop) : Prop :=
  ∀ sym lvl n Accs Acrs, Two n Acrs Accs → G n Acrs.entry → 0 < lvl → (sym = true → o.symmPreLvls ≠ 0) → Runs (prepare e o sym n lvl Accs Acrs) (Prepared n)

/-- One level without pivoting succeeds if the preprocessing of its matrix does. -/
theorem plainLevel_runs_for {e : Env K R} (he : EnvOK e) (o : Opts R) (auto rowMajor : Bool) (lvl N m0 : Nat)
    {A : CS K} (h : A.WF) (ht : A.Tight) (hs : A.Sorted) (hsq : A.ssize = A.psize)
    (hp : ∀ C, CS.ConvSpec A C → Runs (prepare e o (symmPre e o lvl A C) m0 lvl (if rowMajor then C else A) (if rowMajor then A else C)) (Prepared A.psize))
    (hsz : SizesOK e A.psize) :
    Runs (plainLevel e o auto rowMajor lvl N m0 A) (LevelOut m0 o auto rowMajor A) := by
  unfold plainLevel
  rw [if_neg (by omega), runs_bind]
  refine (CS.convert_runs h ht).mono ?_
  intro C c
  obtain ⟨h2, hm⟩ := two_of h ht hs hsq c rowMajor
  rw [runs_bind]
  refine (hp C c).mono ?_
  intro g hg
  have hI := croutIn_ok e h2 hg
  obtain ⟨⟨hr1, hr2⟩, hc1, hc2⟩ := hsz lvl
  have hdU := Crout.realDrop_ok A.psize e.a.nrm e.nth he.nth (localPars e.a.sqrt o.par lvl).tauU (localPars e.a.sqrt o.par lvl).kappaD
    (localPars e.a.sqrt o.par lvl).alphaU (e.rows lvl) hr1
  have hdL := Crout.realDrop_ok A.psize e.a.nrm e.nth he.nth (localPars e.a.sqrt o.par lvl).tauL (localPars e.a.sqrt o.par lvl).kappaD
    (localPars e.a.sqrt o.par lvl).alphaL (e.cols lvl) hc1
  simp only [runs_bind]
  refine (Crout.croutPhase_runs (pr := levelPar e.a.nrm e.safeMin e.nth e.a.sqrt o.par lvl (e.rows lvl) (e.cols lvl)) hI hdU hdL).mono ?_
  rintro r ⟨gh, hF⟩
  refine conclude_runs he o false auto rowMajor lvl N m0 h2 hm hsz hg (hF.res hI) fun hnd => ?_
  have hnp := hnd.pars e.a.sqrt lvl
  exact ⟨keepsAll_of he ⟨hr1, hr2⟩ hnp.2.1 hnp.2.2.1 hnp.2.2.2.2, keepsAll_of he ⟨hc1, hc2⟩ hnp.1 hnp.2.2.1 hnp.2.2.2.1⟩

/-- One level with pivoting succeeds if the preprocessing of its matrix does. -/
theorem pivotLevel_runs_for {e : Env K R} (he : EnvOK e) (o : Opts R) (rowMajor : Bool) (lvl N m0 : Nat)
    {A : CS K} (h : A.WF) (ht : A.Tight) (hs : A.Sorted) (hsq : A.ssize = A.psize)
    (hp : ∀ C, CS.ConvSpec A C → Runs (prepare e o (symmPrePivot o lvl) m0 lvl (if rowMajor then C else A) (if rowMajor then A else C)) (Prepared A.psize))
    (hsz : SizesOK e A.psize) :
    Runs (pivotLevel e o rowMajor lvl N m0 A) (LevelOut m0 o false rowMajor A) := by
  unfold pivotLevel
  rw [if_neg (by omega), runs_bind]
  refine (CS.convert_runs h ht).mono ?_
  intro C c
  obtain ⟨h2, hm⟩ := two_of h ht hs hsq c rowMajor
  rw [runs_bind]
  refine (hp C c).mono ?_
  intro g hg
  have hI := croutIn_ok e h2 hg
  obtain ⟨⟨hr1, hr2⟩, hc1, hc2⟩ := hsz lvl
  have hdU := Crout.realDrop_ok A.psize e.a.nrm e.nth he.nth (localPars e.a.sqrt o.par lvl).tauU (localPars e.a.sqrt o.par lvl).kappaD
    ((localPars e.a.sqrt o.par lvl).alphaU * 4) (e.rows lvl) hr1
  have hdL := Crout.realDrop_ok A.psize e.a.nrm e.nth he.nth (localPars e.a.sqrt o.par lvl).tauL (localPars e.a.sqrt o.par lvl).kappaD
    ((localPars e.a.sqrt o.par lvl).alphaL * 4) (e.cols lvl) hc1
  simp only [runs_bind]
  refine (PCrout.croutPhase_runs (pr := pivotPar e o lvl) he.srt hI hdU hdL).mono ?_
  rintro r ⟨gh, hF⟩
  refine conclude_runs he o true false rowMajor lvl N m0 h2 hm hsz hg (hF.res hI) fun hnd => ?_
  have hnp := hnd.pars e.a.sqrt lvl
  have h0 : (0 : R) ≤ ((2 * A.psize : Nat) : R) := Nat.cast_nonneg _
  have four : ∀ a : R, (0 < a → ((2 * A.psize : Nat) : R) ≤ a) → 0 < a * 4 → ((2 * A.psize : Nat) : R) ≤ a * 4 := fun a ha hp => by
    have h1 : 0 < a := by linarith
    have := ha h1
    linarith
  exact ⟨keepsAll_of he ⟨hr1, hr2⟩ hnp.2.1 hnp.2.2.1 (four _ hnp.2.2.2.2), keepsAll_of he ⟨hc1, hc2⟩ hnp.1 hnp.2.2.1 (four _ hnp.2.2.2.1)⟩

/-- One level without pivoting succeeds. -/
theorem plainLevel_runs {e : Env K R} (he : EnvOK e) (o : Opts R) {G : Nat → (Nat → Nat → K) → Prop} (hp : PrepOK e o G)
    (hGc : ∀ n T T', (∀ i j, i < n → j < n → T i j = T' i j) → G n T → G n T') (auto rowMajor : Bool) (lvl N : Nat) (hlvl : 0 < lvl)
    {A : CS K} (h : A.WF) (ht : A.Tight) (hs : A.Sorted) (hsq : A.ssize = A.psize) (hG : G A.psize (mat rowMajor A)) (hsz : SizesOK e A.psize) :
    Runs (plainLevel e o auto rowMajor lvl N A.psize A) (LevelOut A.psize o auto rowMajor A) := by
  refine plainLevel_runs_for he o auto rowMajor lvl N A.psize h ht hs hsq (fun C c => ?_) hsz
  obtain ⟨h2, hm⟩ := two_of h ht hs hsq c rowMajor
  refine hp (symmPre e o lvl A C) lvl A.psize _ _ h2 (hGc _ _ _ (fun i j hi hj => (hm i j hi hj).symm) hG) hlvl (fun hsym h0 => ?_)
  unfold symmPre at hsym
  rw [h0] at hsym
  simp at hsym
  omega

/-- One level with pivoting succeeds. -/
theorem pivotLevel_runs {e : Env K R} (he : EnvOK e) (o : Opts R) {G : Nat → (Nat → Nat → K) → Prop} (hp : PrepOK e o G)
    (hGc : ∀ n T T', (∀ i j, i < n → j < n → T i j = T' i j) → G n T → G n T') (rowMajor : Bool) (lvl N : Nat) (hlvl : 0 < lvl)
    {A : CS K} (h : A.WF) (ht : A.Tight) (hs : A.Sorted) (hsq : A.ssize = A.psize) (hG : G A.psize (mat rowMajor A)) (hsz : SizesOK e A.psize) :
    Runs (pivotLevel e o rowMajor lvl N A.psize A) (LevelOut A.psize o false rowMajor A) := by
  refine pivotLevel_runs_for he o rowMajor lvl N A.psize h ht hs hsq (fun C c => ?_) hsz
  obtain ⟨h2, hm⟩ := two_of h ht hs hsq c rowMajor
  refine hp (symmPrePivot o lvl) lvl A.psize _ _ h2 (hGc _ _ _ (fun i j hi hj => (hm i j hi hj).symm) hG) hlvl (fun hsym h0 => ?_)
  unfold symmPrePivot at hsym
  rw [h0] at hsym
  simp at hsym
  omega

end Level
end Hif
