import Verif.Props.LevelEx
import Verif.Props.Refine

set_option linter.unusedSectionVars false
set_option linter.unusedVariables false

/-!
# C63 with iterative scaling (`pre_scale = 2`)

C62 and C63 exclude the iterative scaling, which divides by the square root of zero when a line of the matrix is zero (C59).  A nonsingular matrix has
no such line, and without dropping all Schur complements of a nonsingular matrix are nonsingular; so for them all settings of `pre_scale` work.
-/

namespace Hif.Props
open Hif Level Spec HIF HM Finset
variable {K R : Type} [Field K] [StarRing K] [DecidableEq K] [Inhabited K] [Field R] [LinearOrder R] [IsStrictOrderedRing R] [FloorSemiring R]

/-- As `LevelContract` with preprocessing, for every kind of scaling; the magnitude vanishes only at zero. -/
structure ScaleContract (e : Env K R) (o : Level.Opts R) : Prop where
  one : e.a.emb 1 = 1
  mul : ∀ x y, e.a.emb (x * y) = e.a.emb x * e.a.emb y
  nrm : ∀ x, 0 ≤ e.a.nrm x
  nrm0 : ∀ x, e.a.nrm x = 0 → x = 0
  nth : SV.NthSpec e.nth
  srt : ∀ f l, (e.srt f l).Perm l
  arith : ArithSpec e.a
  mc64 : MatchingOK e.pre.mc64
  amd : OrderingOK e.pre.amd
  reorder : 0 ≤ o.pre.reorder ∧ o.pre.reorder ≤ 2
  rcm : o.pre.reorder = 1 → o.symmPreLvls = 0 ∨ OrderingOK e.pre.rcm

theorem ScaleContract.envOK {e : Env K R} {o : Level.Opts R} (h : ScaleContract e o) : EnvOK e := ⟨⟨h.one, h.mul⟩, h.nrm, h.nth, h.srt⟩

omit [StarRing K] [DecidableEq K] [Inhabited K] in
/-- A nonsingular matrix has no zero column … -/
theorem injective_col {k : Nat} {T : Nat → Nat → K} (h : Injective k T) {j : Nat} (hj : j < k) : ∃ i, i < k ∧ T i j ≠ 0 := by
  by_contra hcon
  push Not at hcon
  have := h (fun c => if c = j then 1 else 0) (fun _ => 0) (fun i hi => by
    unfold mulVec
    refine sum_congr rfl fun c hc => ?_
    show T i c * (if c = j then 1 else 0) = T i c * 0
    split
    · rename_i e
      rw [e, hcon i hi, zero_mul, zero_mul]
    · rfl) j hj
  simp at this

omit [DecidableEq K] [Inhabited K] in
/-- … and no zero row. -/
theorem injective_row {k : Nat} {T : Nat → Nat → K} (h : Injective k T) {i : Nat} (hi : i < k) : ∃ j, j < k ∧ T i j ≠ 0 := by
  by_contra hcon
  push Not at hcon
  obtain ⟨x, hx⟩ := ExLevel.solvable (ExLevel.isUnit_of_injective h) fun _ => (1 : K)
  have := hx i hi
  unfold mulVec at this
  rw [sum_eq_zero fun j hj => by rw [hcon j (mem_range.1 hj), zero_mul]] at this
  exact one_ne_zero this.symm

omit [StarRing K] [DecidableEq K] [Inhabited K] in
/-- A nonzero entry is stored. -/
theorem stored_of_entry {A : CS K} {i j : Nat} (hm : A.start.get i ≤ A.start.get (i + 1)) (h : A.entry i j ≠ 0) : ∃ e ∈ A.line i, e.1 = j ∧ e.2 ≠ 0 := by
  by_contra hcon
  push Not at hcon
  rw [CS.entry_eq_line A i j hm] at h
  refine h (List.sum_eq_zero fun v hv => ?_)
  obtain ⟨e, he, rfl⟩ := List.mem_map.1 hv
  split
  · exact hcon e he ‹_›
  · rfl

/-- The preprocessing succeeds on every nonsingular matrix, whatever scaling is chosen. -/
theorem ScaleContract.prepOK {e : Env K R} {o : Level.Opts R} (h : ScaleContract e o) {G : Nat → (Nat → Nat → K) → Prop} (hG : ∀ n T, G n T → Injective n T) :
    PrepOK e o G := by
  intro sym lvl n Accs Acrs h2 hg hl hs
  have hn : Acrs.psize = n := h2.pre.rp
  by_cases h0 : o.noPre = true
  · have := prepare_noPre e o h0 sym n lvl Accs Acrs
    rwa [hn] at this
  · have hinj := hG _ _ hg
    have hr := h.reorder
    unfold prepare
    rw [if_neg h0]
    refine (Pre.doPreprocess_runs_of h.arith.ok (ker := e.pre) sym o.pre lvl h2.pre (fun B _ => h.mc64.for _ B) ⟨hr.1, by omega⟩
      (fun _ _ B hB => ?_) (fun _ c => by omega) (fun m b hb _ => h.amd m b hb)
      (fun _ _ => True) (fun hc m b hb _ => ?_) (fun _ _ _ _ _ => trivial)).mono ?_
    · have hB' : B = Acrs := by
        unfold Pre.matchInput at hB
        rw [if_pos hn.symm] at hB
        injection hB with hB
        exact hB.symm
      subst hB'
      have hmono : ∀ i, i < n → B.start.get i ≤ B.start.get (i + 1) := fun i hi => h2.pre.rwf.mono i (by omega)
      refine ⟨fun i hi => ?_, fun _ j hj => ?_⟩
      · obtain ⟨j, hj, hne⟩ := injective_row hinj (show i < n by omega)
        obtain ⟨x, x1, -, x3⟩ := stored_of_entry (hmono i (by omega)) hne
        exact ⟨x, x1, fun hx => x3 (h.nrm0 _ hx)⟩
      · obtain ⟨i, hi, hne⟩ := injective_col hinj (show j < n by omega)
        obtain ⟨x, x1, x2, x3⟩ := stored_of_entry (hmono i hi) hne
        exact ⟨i, by omega, x, x1, x2, fun hx => x3 (h.nrm0 _ hx)⟩
    · rcases hc with ⟨c1, c2⟩ | c
      · rcases h.rcm c2 with c3 | c3
        · exact absurd c3 (hs c1)
        · exact c3 m b hb
      · omega
    · rintro r ⟨hr, g1, g2, -⟩
      exact ⟨hr.mle, hr.ssz, hr.tsz, hr.spos, hr.tpos, g1, g2⟩

/-- The factorization with nothing dropped, whenever the preprocessing succeeds on nonsingular matrices. -/
theorem exact_state_of (e : Env K R) (o : Level.Opts R) (he : EnvOK e) (other : Kernels K) (junk : Nat → K) (ijunk : Nat → Int)
    (opts : FacOpts) (hsy : opts.isSymm = false) (A : Input K) (raw : RawCS) (n : Nat) (hA : ValidSquare A ijunk raw n) (hsz : SizesOK e n)
    (hprep : PrepOK e o fun k T => k ≤ n ∧ Injective k T) (hnd : NoDrop o n) (hinj : Injective n (mat A.rowMajor (raw.toCS n A.vals))) (rk : Nat)
    (hd : ∀ S : CS K, S.WF → S.Sorted → S.ssize = S.psize → 0 < S.psize → S.psize ≤ n → Injective S.psize (mat A.rowMajor S) →
      (other.dense false S).2 = none ∧ Prec.DenseExact rk S.psize (mat A.rowMajor S) (other.dense false S).1)
    (h : HIF K) (hw : h.empty = true → h.work.size = 0) :
    ∃ h₁, ∃ S : CS K, factorize junk ijunk (kernels e o (opts.pivot == .auto) A.rowMajor other) opts A 0 h = (h₁, .ok ()) ∧
      Prec.Good rk (mat A.rowMajor S) S.psize h₁.precs n ∧ Ready h₁ ∧ h₁.nsp = h.nsp ∧ h₁.ncols = A.ncols ∧
      ∀ x c : Nat → K, Inv (mat A.rowMajor S) h₁.precs n false x c → ∀ i, i < n → mulVec n (mat A.rowMajor (raw.toCS n A.vals)) x i = c i := by
  have hp : (raw.toCS n A.vals).psize = n := hA.dim
  obtain ⟨hwf, hso⟩ := C09_valid_wf raw n hA.valid A.vals hA.vsize
  have hfac := factorize_of hA junk (kernels e o (opts.pivot == .auto) A.rowMajor other) opts 0 h
  rcases factorizeKernel_runs he o hprep (fun k T T' hT hi => ⟨hi.1, fun x y hxy => hi.2 x y fun i hi' => by
        have := hxy i hi'
        unfold mulVec at *
        rw [sum_congr rfl fun j hj => by rw [hT i j hi' (mem_range.1 hj)], this]
        exact sum_congr rfl fun j hj => by rw [hT i j hi' (mem_range.1 hj)]⟩) A.rowMajor other n
      (fun S a b c d i => Or.inr (hd S a b c d i.1 i.2).1) (fun _ B out hout hk hle hi => by
        obtain ⟨hm, hne⟩ := postFlag_m hk
        obtain ⟨k1, -, -, -, k5⟩ := hout.kept hk (fun hc => by cases hc)
        obtain ⟨LE, UF, hx⟩ := k5 (hnd.mono hle)
        obtain ⟨pm, pn, -⟩ := toPrec_m out B.psize out.m
        have hn : (out.toPrec B.psize out.m).toLevel.n = B.psize := pn
        have hm : (out.toPrec B.psize out.m).toLevel.m = out.m := pm
        have := hx.injective (fun c => by
          obtain ⟨w, -, -, hw, -⟩ := Prec.solveLdu_runs k1 ⟨(out.toPrec B.psize out.m).toLevel.m, c⟩ (le_refl _)
          exact ⟨w.get, hw⟩) (by rw [hn]; exact hi.2)
        rw [hn, hm] at this
        exact ⟨by omega, this⟩) hsz opts hsy (2 * n + 2) (raw.toCS n A.vals) false
      { h with nrows := A.nrows, ncols := A.ncols, precs := [], work := if h.empty then h.work else ⟨0, junk⟩, stats := fun _ => 0 }
      hwf hA.tight hso (by rw [hp]; rfl) ⟨le_of_eq hp, by rw [hp]; exact hinj⟩ (le_of_eq hp) rfl (by simp; omega) with ⟨h', S, new, k1, kp, k2⟩ | ⟨h', msg, S, k1, k2, k3, k4, k5⟩
  · rw [← hfac] at k1
    have hpr : h'.precs = new := by rw [kp]; rfl
    rw [← hpr] at k2
    have hgood := k2.good rk fun h0 => by
      obtain ⟨b, -⟩ := k2.block h0
      exact (hd S b.wf b.sorted b.sq h0 b.good.1 b.good.2).2
    rw [hp] at hgood
    obtain ⟨ps, st, hfr⟩ := factorize_frame junk ijunk (kernels e o (opts.pivot == .auto) A.rowMajor other) opts A 0 h
    rw [k1] at hfr
    have hfr : h' = _ := hfr
    refine ⟨h', S, k1, hgood, ?_, by rw [hfr], by rw [hfr], fun x c hx => ?_⟩
    · left
      rw [hfr]
      show (if h.empty then h.work else ⟨0, junk⟩ : Buf K).size = 0
      split
      · rename_i hc; exact hw hc
      · rfl
    · have := k2.exact (by rw [hp]; exact hnd) x c (by rw [hp]; exact hx)
      rwa [hp] at this
  · exact absurd k5 (by rw [(hd S k4.wf k4.sorted k4.sq k2 k4.good.1 k4.good.2).1]; simp)

/-- C63 (exactness, every scaling): with preprocessing on and any value of `pre_scale`, iterative scaling included, nothing dropped and a nonsingular matrix, `factorize` completes for
every history of the object and afterwards `solve` returns the solution of `A x = b`. -/
theorem C63_exact_scaled (e : Env K R) (o : Level.Opts R) (hc : ScaleContract e o) (other : Kernels K) (junk : Nat → K) (ijunk : Nat → Int)
    (opts : FacOpts) (hsy : opts.isSymm = false) (A : Input K) (raw : RawCS) (n : Nat) (hA : ValidSquare A ijunk raw n) (hsz : SizesOK e n)
    (hnd : NoDrop o n) (hinj : Injective n (mat A.rowMajor (raw.toCS n A.vals))) (rk : Nat)
    (hd : ∀ S : CS K, S.WF → S.Sorted → S.ssize = S.psize → 0 < S.psize → S.psize ≤ n → Injective S.psize (mat A.rowMajor S) →
      (other.dense false S).2 = none ∧ Prec.DenseExact rk S.psize (mat A.rowMajor S) (other.dense false S).1)
    (h : HIF K) (hw : h.empty = true → h.work.size = 0) (hns : h.nsp = none) :
    ∃ h₁, factorize junk ijunk (kernels e o (opts.pivot == .auto) A.rowMajor other) opts A 0 h = (h₁, .ok ()) ∧
      ∀ b y₀ : Buf K, b.size = n → y₀.size = n → ∃ h₂ x, solve junk b y₀ false rk h₁ = (h₂, .ok x) ∧ x.size = n ∧
        ∀ i, i < n → mulVec n (mat A.rowMajor (raw.toCS n A.vals)) x.get i = b.get i := by
  obtain ⟨h₁, S, e1, hg, hr, hn, -, hM⟩ := exact_state_of e o hc.envOK other junk ijunk opts hsy A raw n hA hsz (hc.prepOK fun _ _ hg => hg.2) hnd hinj rk hd h hw
  refine ⟨h₁, e1, fun b y₀ hb hy => ?_⟩
  obtain ⟨h₂, x, s1, s2, s3⟩ := C27_solve_spec junk h₁ rk _ _ n hg hr false (by rw [if_neg (by simp), hn, hns]) rfl b y₀ hb hy
  exact ⟨h₂, x, s1, s2, hM x.get b.get s3⟩

end Hif.Props
