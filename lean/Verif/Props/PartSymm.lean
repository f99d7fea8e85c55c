import Verif.PSymmLevel
import Verif.Props.Level
import Verif.Props.SymmLevel

set_option linter.unusedSectionVars false
set_option linter.unusedVariables false

/-!
# C84: `factorize(A, params, m0)` with a symmetric leading block
-/

namespace Hif.Props
open Hif Level Spec HIF HM Finset

section
variable {K R : Type} [Field K] [StarRing K] [DecidableEq K] [Inhabited K] [Field R] [LinearOrder R] [IsStrictOrderedRing R] [FloorSemiring R]

/-- The preprocessing with a leading block of size `m0`. -/
theorem LevelContract.lead {e : Env K R} {o : Level.Opts R} (h : LevelContract e o) (sym : Bool) (lvl : Nat) {n m0 : Nat} {Accs Acrs : CS K} (h2 : Two n Acrs Accs)
    (hm0 : m0 ≤ n) (hl : m0 = n ∨ ∃ i j, i < m0 ∧ j < m0 ∧ Acrs.Has i j) (hnp : o.noPre = true → m0 = n)
    (hs : sym = true → o.pre.reorder = 1 → o.noPre = false → OrderingOK e.pre.rcm ∨ (SymOrderingOK e.pre.rcm ∧
      (∀ i, i < n → ∀ j, j < n → (i ∈ Pre.ids Accs j ↔ j ∈ Pre.ids Acrs i)) ∧ ∀ i, i < m0 → ∀ j, j < m0 → i ∈ Pre.ids Accs j → j ∈ Pre.ids Accs i)) :
    Runs (prepare e o sym m0 lvl Accs Acrs) fun g => Prepared n g ∧ (sym = true → LeadPrepared n m0 g) := by
  have hn : Acrs.psize = n := h2.pre.rp
  by_cases h0 : o.noPre = true
  · obtain ⟨g, eg, hg⟩ := prepare_noPre e o h0 sym m0 lvl Accs Acrs
    rw [hn] at hg
    refine ⟨g, eg, hg, fun _ => ⟨hg, ?_, ?_, ?_, ?_⟩⟩
    · have := hg.mle; have := hnp h0; omega
    all_goals
      unfold prepare at eg
      rw [if_pos h0] at eg
      cases eg
    · exact fun i hi => rfl
    · exact fun i hi => rfl
    · intro i hi
      have := hnp h0
      show i < m0
      have hi : i < Acrs.psize := hi
      omega
  · rcases h.pre with h1 | ⟨ha, hk, hamd, hr1, hr2, hps, -⟩
    · exact absurd h1 h0
    unfold prepare
    rw [if_neg h0]
    have hlead : m0 = n ∨ ∃ i, i < m0 ∧ ∃ jv ∈ Acrs.line i, jv.1 < m0 := by
      rcases hl with c | ⟨i, j, c1, c2, c3⟩
      · exact Or.inl c
      · right
        obtain ⟨v, hv⟩ := CS.has_iff.1 c3
        exact ⟨i, c1, (j, v), hv, c2⟩
    have hin : Pre.PreIn n m0 Accs Acrs := { h2.pre with mle := hm0, lead := hlead }
    have hrun : Runs (Pre.doPreprocess e.a e.pre sym o.pre m0 lvl Accs Acrs) fun r => Pre.MatchedOK e.a n m0 Accs Acrs r ∧ BiPerm.Good n r.p ∧ BiPerm.Good n r.q ∧
        (sym = true → ∀ i, i < n → r.p.p.get i = r.q.p.get i ∧ r.s.get i = r.t.get i) := by
      by_cases hrc : sym = true ∧ o.pre.reorder = 1
      · rcases hs hrc.1 hrc.2 (by simpa using h0) with hc | ⟨hc, h3, h4⟩
        · exact Pre.doPreprocess_runs_of ha.ok (ker := e.pre) sym o.pre lvl hin (fun B _ => hk.for _ B) ⟨hr1, by omega⟩
            (fun a b => by rcases hps with c | c <;> contradiction) (fun _ c => by omega) (fun m b hb _ => hamd m b hb)
            (fun _ _ => True) (fun _ m b hb _ => hc m b hb) (fun _ _ _ _ _ => trivial)
        · exact Pre.doPreprocess_runs ha.ok (ker := e.pre) sym o.pre lvl hin (fun B _ => hk.for _ B) ⟨hr1, by omega⟩
            (fun a b => by rcases hps with c | c <;> contradiction) (fun _ c => by omega) (fun m b hb _ => hamd m b hb)
            (fun m b hb hs => hc m b hb hs) h3 (fun _ => h4)
      · exact Pre.doPreprocess_runs_of ha.ok (ker := e.pre) sym o.pre lvl hin (fun B _ => hk.for _ B) ⟨hr1, by omega⟩
          (fun a b => by rcases hps with c | c <;> contradiction) (fun _ c => by omega) (fun m b hb _ => hamd m b hb)
          (fun _ _ => True) (fun hc m b hb _ => by
            rcases hc with hc | hc
            · exact absurd hc hrc
            · omega) (fun _ _ _ _ _ => trivial)
    refine hrun.mono ?_
    · rintro r ⟨hr, g1, g2, hsy⟩
      have hp : Prepared n r := ⟨hr.mle.trans hm0, hr.ssz, hr.tsz, hr.spos, hr.tpos, g1, g2⟩
      refine ⟨hp, fun hsm => ⟨hp, hr.mle, fun i hi => (hsy hsm i hi).2.symm, fun i hi => (hsy hsm i hi).1.symm, fun i hi => ?_⟩⟩
      have hmle := hr.mle
      by_contra hc
      have h1 := hr.pperm.1 i (by omega)
      have h2 := (hr.ptail (r.p.p.get i) (by omega) h1).1
      have := hr.pperm.2 _ _ h1 (show i < n by omega) h2
      omega

/-- What the caller promises who names the leading `m0` rows and columns of `A` a symmetric block: `pre` — the block is only separated from the rest by the
preprocessing (see DESIGN.md, discrepancy 71) —, `stored` and `rcm` are needed by the matching and the ordering (the library's own RCM needs the stored pattern of the block to be symmetric, any ordering of arbitrary patterns does not). -/
structure LeadingBlock (e : Env K R) (o : Level.Opts R) (rowMajor : Bool) (A : CS K) (n m0 : Nat) : Prop where
  pos : 0 < m0
  le : m0 ≤ n
  symm : ∀ i j, i < m0 → j < m0 → mat rowMajor A i j = mat rowMajor A j i
  stored : m0 = n ∨ ∃ i j, i < m0 ∧ j < m0 ∧ A.Has i j
  pre : o.noPre = true → m0 = n
  rcm : o.pre.reorder = 1 → o.noPre = false → OrderingOK e.pre.rcm ∨ (SymOrderingOK e.pre.rcm ∧ ∀ i j, i < m0 → j < m0 → A.Has i j → A.Has j i)

/-- The preprocessing of the first level. -/
theorem lead_prep {e : Env K R} {o : Level.Opts R} (hc : LevelContract e o) (rowMajor : Bool) (lvl m0 : Nat) {A : CS K} (h : A.WF) (ht : A.Tight) (hs : A.Sorted)
    (hsq : A.ssize = A.psize) (hl : LeadingBlock e o rowMajor A A.psize m0) (sym : Bool) (C : CS K) (c : CS.ConvSpec A C) :
    Runs (prepare e o sym m0 lvl (if rowMajor then C else A) (if rowMajor then A else C)) fun g => Prepared A.psize g ∧ (sym = true → LeadPrepared A.psize m0 g) := by
  obtain ⟨h2, -⟩ := two_of h ht hs hsq c rowMajor
  refine hc.lead sym lvl h2 hl.le ?_ hl.pre (fun _ k1 k2 => ?_)
  · rcases hl.stored with k | ⟨i, j, hi, hj, k⟩
    · exact Or.inl k
    · have hle := hl.le
      cases rowMajor with
      | true => exact Or.inr ⟨i, j, hi, hj, k⟩
      | false => exact Or.inr ⟨j, i, hj, hi, (c.has h ht (by omega) (by omega)).2 k⟩
  · rcases hl.rcm k1 k2 with k | ⟨k, hsym⟩
    · exact Or.inl k
    · refine Or.inr ⟨k, ?_, ?_⟩
      · intro i hi j hj
        rw [mem_ids, mem_ids]
        cases rowMajor with
        | true => exact c.has h ht hi (by omega)
        | false => exact (c.has h ht hj (by omega)).symm
      · have hle := hl.le
        intro i hi j hj
        rw [mem_ids, mem_ids]
        cases rowMajor with
        | true =>
          intro k
          exact (c.has h ht (by omega) (by omega)).2 (hsym i j hi hj ((c.has h ht (by omega) (by omega)).1 k))
        | false => exact fun k => hsym j i hj hi k

/-- The first level of a factorization with a leading block. -/
theorem lead_level {e : Env K R} {o : Level.Opts R} (hc : LevelContract e o) (other : Kernels K) (opts : FacOpts) (hsy : opts.isSymm = false) (rowMajor mp : Bool)
    (lvl N m0 : Nat) {A : CS K} (h : A.WF) (ht : A.Tight) (hs : A.Sorted) (hsq : A.ssize = A.psize) (hsz : SizesOK e A.psize)
    (hl : LeadingBlock e o rowMajor A A.psize m0) :
    Runs ((partKernels e o (opts.pivot == .auto) rowMajor other).level (levelKind opts true mp) lvl N m0 A)
      (LevelOut m0 o (levelKind opts true mp == .plain true && opts.pivot == .auto) rowMajor A) := by
  have hprep := lead_prep hc rowMajor lvl m0 h ht hs hsq hl
  have hkind : levelKind opts true mp = .plain true ∨ levelKind opts true mp = .pivot := by
    unfold levelKind
    rw [hsy]
    cases opts.pivot <;> cases mp <;> simp
  rcases hkind with hk | hk
  · rw [hk]
    have hb : ((LevelKind.plain true == LevelKind.plain true) && opts.pivot == .auto) = (opts.pivot == .auto) := by simp
    rw [hb]
    exact (partLevel_runs hc.envOK o (opts.pivot == .auto) rowMajor lvl N m0 h ht hs hsq hl.le hl.symm
      (fun C c => (hprep true C c).mono fun g hg => hg.2 rfl) hsz).mono fun _ k => k.1
  · rw [hk]
    have hb : ((LevelKind.pivot == LevelKind.plain true) && opts.pivot == .auto) = false := by
      have : (LevelKind.pivot == LevelKind.plain true) = false := rfl
      rw [this]; rfl
    rw [hb]
    exact pivotLevel_runs_for hc.envOK o rowMajor lvl N m0 h ht hs hsq (fun C c => (hprep _ C c).mono fun g hg => hg.1) hsz

/-- C84 (level): for every valid square matrix whose leading `m0` rows and columns are a symmetric block, the level made by `factorize(A, params, m0)` runs to the
end without an access out of range and eliminates at most `m0` unknowns; stats(0) and stats(1) count the
rows it defers; if it is kept, it is a valid level whose factors are transposes of each other (only one
of them is computed), it hands over a valid matrix of dimension `n - m`, and with parameters that drop nothing the level and that matrix represent the input
exactly. -/
theorem C84_level {e : Env K R} {o : Level.Opts R} (hc : LevelContract e o) (auto rowMajor : Bool) (lvl N m0 : Nat) (A : CS K) (hA : A.WF)
    (ht : A.Tight) (hs : A.Sorted) (hsq : A.ssize = A.psize) (hsz : SizesOK e A.psize) (hl : LeadingBlock e o rowMajor A A.psize m0) :
    ∃ out, partLevel e o auto rowMajor lvl N m0 A = .ok out ∧ out.m ≤ out.m2 ∧ out.m2 ≤ A.psize ∧
      (4 * out.m ≤ out.m2 → out.stats 0 = m0) ∧
      (out.m2 < 4 * out.m → (auto = true → 2 * out.m2 < 5 * out.m) → out.m ≤ m0 ∧ out.stats 0 + out.m = m0 ∧ out.stats 1 + out.m = out.m2 ∧
        (out.toPrec A.psize out.m).OK ∧ (∀ i j, i < out.m → j < out.m → out.U.ccs i j = out.L.ccs j i) ∧
        out.schur.psize = A.psize - out.m ∧ out.schur.ssize = A.psize - out.m ∧
        (out.m < A.psize → out.schur.WF ∧ out.schur.Tight ∧ out.schur.Sorted) ∧
        (NoDrop o A.psize → ∃ LE UF, ExactLevel (out.toPrec A.psize out.m).toLevel (mat rowMajor out.schur) (mat rowMajor A) LE UF)) := by
  obtain ⟨out, eo, ho, hsy⟩ := partLevel_runs hc.envOK o auto rowMajor lvl N m0 hA ht hs hsq hl.le hl.symm
      (fun C c => (lead_prep hc rowMajor lvl m0 hA ht hs hsq hl true C c).mono fun g hg => hg.2 rfl) hsz
  obtain ⟨st0, st1, -⟩ := ho.stats
  refine ⟨out, eo, ho.mle, ho.m2le, fun h4 => ?_, fun h4 h5 => ?_⟩
  · rw [st0]
    unfold postFlag
    rw [if_pos h4]
    rfl
  have k1 : (postFlag out.m2 out.m).2 ≠ 0 := by unfold postFlag; rw [if_neg (by omega)]; split <;> (show out.m ≠ 0; omega)
  have k2 : auto = true → (postFlag out.m2 out.m).1 = 0 := fun ha => by have := h5 ha; unfold postFlag; rw [if_neg (by omega), if_neg (by omega)]
  obtain ⟨a1, a2, a3, a4, a5⟩ := ho.kept k1 k2
  obtain ⟨b1, b2⟩ := hsy k1 k2
  have hpm := (postFlag_m k1).1
  rw [hpm] at st0 st1
  rw [if_pos (postFlag_m k1).2] at st1
  have hmle := ho.mle
  refine ⟨b1, by omega, by omega, a1, b2, a2, a3, a4, a5⟩

variable (e : Env K R) (o : Level.Opts R) (hc : LevelContract e o) (other : Kernels K) (junk : Nat → K) (ijunk : Nat → Int)
  (opts : FacOpts) (hsy : opts.isSymm = false) (A : Input K) (raw : RawCS) (n : Nat) (hA : ValidSquare A ijunk raw n) (hsz : SizesOK e n)
  (m0 : Nat) (hl : LeadingBlock e o A.rowMajor (raw.toCS n A.vals) n m0)
include hc hsy hA hsz hl

theorem part_represents (G : Nat → (Nat → Nat → K) → Prop) (hGc : ∀ n T T', (∀ i j, i < n → j < n → T i j = T' i j) → G n T → G n T')
    (hG : G n (mat A.rowMajor (raw.toCS n A.vals))) (hd : DenseOK false other.dense (onMat A.rowMajor G))
    (hnext : ∀ m0 B out, LevelOut m0 o false A.rowMajor B out → (postFlag out.m2 out.m).2 ≠ 0 → B.psize ≤ n → G B.psize (mat A.rowMajor B) →
      G (B.psize - out.m) (mat A.rowMajor out.schur)) (h : HIF K) :
    (∃ h' S, factorize junk ijunk (partKernels e o (opts.pivot == .auto) A.rowMajor other) opts A m0 h = (h', .ok ()) ∧
      Represents false o other.dense A.rowMajor (onMat A.rowMajor G) (fun _ => True) (raw.toCS n A.vals) S h'.precs) ∨
    (∃ h' msg S, factorize junk ijunk (partKernels e o (opts.pivot == .auto) A.rowMajor other) opts A m0 h = (h', .error (.hif msg)) ∧ 0 < S.psize ∧ S.psize ≤ n ∧
      IsBlock (onMat A.rowMajor G) S ∧ (other.dense false S).2 = some (.hif msg)) := by
  rw [factorize_of hA]
  obtain ⟨hw, hs⟩ := C09_valid_wf raw n hA.valid A.vals hA.vsize
  have hp : (raw.toCS n A.vals).psize = n := hA.dim
  have hq : (raw.toCS n A.vals).ssize = (raw.toCS n A.vals).psize := by rw [hp]; rfl
  have hpos := hl.pos
  set h0 : HIF K := { h with nrows := A.nrows, ncols := A.ncols, precs := [], work := if h.empty then h.work else ⟨0, junk⟩, stats := fun _ => 0 } with hh0
  have hsym : (h0.levels + 1 == 1 && decide (0 < m0)) = true := by
    simp [hh0, HIF.levels, hpos]
  have hstep := factorizeKernel_step o (G := onMat A.rowMajor G) (Lv := fun _ => True) A.rowMajor (partKernels e o (opts.pivot == .auto) A.rowMajor other) opts
    (by rw [hsy]; exact hd) (fun _ _ => trivial) (2 * n + 1) (raw.toCS n A.vals) m0 false h0 hw hA.tight hs hq (by show G _ _; rw [hp]; exact hG) rfl true hsym
    (levelKind opts true false == .plain true && opts.pivot == .auto)
    (fun hk => by
      simp only [Bool.and_eq_true, beq_iff_eq] at hk
      exact ⟨hk.2, true, hk.1⟩)
    (by
      rw [if_pos rfl]
      refine (lead_level hc other opts hsy A.rowMajor false (h0.levels + 1) _ m0 hw hA.tight hs hq (by rw [hp]; exact hsz) (by rw [hp]; exact hl)).mono ?_
      refine fun out hout => ⟨hout, fun ho hne => ⟨trivial, fun hlt => ?_⟩⟩
      obtain ⟨-, a1, -⟩ := ho.kept hne (fun hc => by cases hc)
      show G out.schur.psize (mat A.rowMajor out.schur)
      rw [a1]
      exact hnext _ _ out ho hne (le_of_eq hp) (by rw [hp]; exact hG))
    (by
      intro S mp' h' s1 s2 s3 s4 s5 s6 s7 s8
      have := factorizeKernel_runs hc.envOK o (hc.prepOK G) hGc A.rowMajor
        { level := fun kind lvl N m0 B =>
            match kind with
            | .plain true => partLevel e o (opts.pivot == .auto) A.rowMajor lvl N m0 B
            | k => other.level k lvl N m0 B,
          dense := other.dense } n hd hnext hsz opts hsy (2 * n + 1) S mp' h' s1 s2 s3 s4 s5 (by omega) s7
        (by rw [hp] at s6 s8; rcases s8 with s8 | ⟨s8, -, rfl⟩
            · split <;> omega
            · simp; omega)
      unfold Outcome
      rw [hsy]
      exact this)
  unfold Outcome at hstep
  rw [hsy] at hstep
  rcases hstep with ⟨h', S, new, k1, k2, k3⟩ | ⟨h', msg, S, k1, k2, k3, k4⟩
  · left
    refine ⟨h', S, k1, ?_⟩
    rw [k2]
    exact k3
  · right
    exact ⟨h', msg, S, k1, k2, by omega, k4⟩

/-- C84: for every valid square matrix (0- or 1-based, rows or columns) whose leading `m0` rows and columns are a symmetric block, all dropping parameters and
whatever the object held before, `factorize(A, params, m0)` without pivoting, with pivoting or switching to pivoting either raises an exception, which is one
of the dense factorization, or completes; then the stored levels are valid as soon as the dense solver solves and multiplies exactly with the block `S` it was
given. -/
theorem C84_factorize (hd : ∀ S : CS K, S.WF → S.Sorted → S.ssize = S.psize → 0 < S.psize → (∃ msg, (other.dense false S).2 = some (.hif msg)) ∨ (other.dense false S).2 = none)
    (h : HIF K) :
    (∃ h' S, factorize junk ijunk (partKernels e o (opts.pivot == .auto) A.rowMajor other) opts A m0 h = (h', .ok ()) ∧ S.psize ≤ n ∧
      (0 < S.psize → S.WF ∧ S.Sorted ∧ S.ssize = S.psize ∧ (other.dense false S).2 = none) ∧
      ∀ rk, (0 < S.psize → Prec.DenseExact rk S.psize (mat A.rowMajor S) (other.dense false S).1) → Prec.Good rk (mat A.rowMajor S) S.psize h'.precs n) ∨
    (∃ h' msg S, factorize junk ijunk (partKernels e o (opts.pivot == .auto) A.rowMajor other) opts A m0 h = (h', .error (.hif msg)) ∧ 0 < S.psize ∧ S.psize ≤ n ∧
      S.WF ∧ S.Sorted ∧ S.ssize = S.psize ∧ (other.dense false S).2 = some (.hif msg)) := by
  have hp : (raw.toCS n A.vals).psize = n := hA.dim
  rcases part_represents e o hc other junk ijunk opts hsy A raw n hA hsz m0 hl (fun _ _ => True) (fun _ _ _ _ _ => trivial) trivial
    (fun S a b c d _ => hd S a b c d) (fun _ _ _ _ _ _ _ => trivial) h with ⟨h', S, k1, k2⟩ | ⟨h', msg, S, k1, k2, k3, k4, k5⟩
  · left
    refine ⟨h', S, k1, by have := k2.size; omega, fun h0 => ?_, fun rk hx => ?_⟩
    · obtain ⟨b, b2⟩ := k2.block h0
      exact ⟨b.wf, b.sorted, b.sq, b2⟩
    · have := k2.good rk hx
      rwa [hp] at this
  · right
    exact ⟨h', msg, S, k1, k2, k3, k4.wf, k4.sorted, k4.sq, k5⟩

/-- C84 (exactness): if nothing is dropped, the matrix is nonsingular and the dense solver is exact on every nonsingular block, then for every history of the
object `factorize(A, params, m0)` completes, and afterwards `solve` returns, for every right-hand side, the solution of `A x = b`. -/
theorem C84_exact (hnd : NoDrop o n) (hinj : Injective n (mat A.rowMajor (raw.toCS n A.vals))) (rk : Nat)
    (hd : ∀ S : CS K, S.WF → S.Sorted → S.ssize = S.psize → 0 < S.psize → S.psize ≤ n → Injective S.psize (mat A.rowMajor S) →
      (other.dense false S).2 = none ∧ Prec.DenseExact rk S.psize (mat A.rowMajor S) (other.dense false S).1)
    (h : HIF K) (hw : h.empty = true → h.work.size = 0) (hns : h.nsp = none) :
    ∃ h₁, factorize junk ijunk (partKernels e o (opts.pivot == .auto) A.rowMajor other) opts A m0 h = (h₁, .ok ()) ∧
      ∀ b y₀ : Buf K, b.size = n → y₀.size = n → ∃ h₂ x, solve junk b y₀ false rk h₁ = (h₂, .ok x) ∧ x.size = n ∧
        ∀ i, i < n → mulVec n (mat A.rowMajor (raw.toCS n A.vals)) x.get i = b.get i := by
  have hp : (raw.toCS n A.vals).psize = n := hA.dim
  rcases part_represents e o hc other junk ijunk opts hsy A raw n hA hsz m0 hl (fun k T => k ≤ n ∧ Injective k T)
      (fun k T T' hT hi => ⟨hi.1, fun x y hxy => hi.2 x y fun i hi' => by
        have := hxy i hi'
        unfold mulVec at *
        rw [sum_congr rfl fun j hj => by rw [hT i j hi' (mem_range.1 hj)], this]
        exact sum_congr rfl fun j hj => by rw [hT i j hi' (mem_range.1 hj)]⟩) ⟨le_refl _, hinj⟩
    (fun S a b c d i => Or.inr (hd S a b c d i.1 i.2).1) (fun _ B out hout hk hle hi => by
      obtain ⟨hm, hne⟩ := postFlag_m hk
      obtain ⟨k1, -, -, -, k5⟩ := hout.kept hk (fun hc => by cases hc)
      obtain ⟨LE, UF, hx⟩ := k5 (hnd.mono hle)
      obtain ⟨pm, pn, -⟩ := toPrec_m out B.psize out.m
      have hn : (out.toPrec B.psize out.m).toLevel.n = B.psize := pn
      have hm : (out.toPrec B.psize out.m).toLevel.m = out.m := pm
      have := hx.injective (fun c => by
        obtain ⟨w, -, -, hw, -⟩ := Prec.solveLdu_runs k1 ⟨(out.toPrec B.psize out.m).toLevel.m, c⟩ (le_refl _)
        exact ⟨w.get, hw⟩) (by rw [hn]; exact hi.2)
      rw [hn, hm] at this
      exact ⟨by omega, this⟩) h with ⟨h', S, k1, k2⟩ | ⟨h', msg, S, k1, k2, k3, k4, k5⟩
  · refine ⟨h', k1, fun b y₀ hb hy => ?_⟩
    have hgood := k2.good rk fun h0 => by
      obtain ⟨b, -⟩ := k2.block h0
      exact (hd S b.wf b.sorted b.sq h0 b.good.1 b.good.2).2
    rw [hp] at hgood
    obtain ⟨ps, st, hfr⟩ := factorize_frame junk ijunk (partKernels e o (opts.pivot == .auto) A.rowMajor other) opts A m0 h
    rw [k1] at hfr
    have hfr : h' = _ := hfr
    have hready : Ready h' := by
      left
      rw [hfr]
      show (if h.empty then h.work else ⟨0, junk⟩ : Buf K).size = 0
      split
      · rename_i hc; exact hw hc
      · rfl
    have hns' : h'.nsp = none := by rw [hfr]; exact hns
    obtain ⟨h₂, x, s1, s2, s3⟩ := C27_solve_spec junk h' rk _ _ n hgood hready false hns' rfl b y₀ hb hy
    refine ⟨h₂, x, s1, s2, ?_⟩
    have := k2.exact (by rw [hp]; exact hnd) x.get b.get (by rw [hp]; exact s3)
    rwa [hp] at this
  · exact absurd k5 (by rw [(hd S k4.wf k4.sorted k4.sq k2 k4.good.1 k4.good.2).1]; simp)

end
end Hif.Props
