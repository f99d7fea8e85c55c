import Verif.Props.PartSymm

set_option linter.unusedSectionVars false
set_option linter.unusedVariables false

/-!
# C85: the symmetric factorization with a leading block
-/

namespace Hif.Props
open Level Spec Pre Finset HIF HM

section
variable {K R : Type} [Field K] [StarRing K] [DecidableEq K] [Inhabited K] [Field R] [LinearOrder R] [IsStrictOrderedRing R] [FloorSemiring R]

/-- A leading block the matching can work on. -/
structure LeadCS (A : CS K) (m0 : Nat) : Prop where
  pos : 0 < m0
  le : m0 ≤ A.psize
  stored : m0 = A.psize ∨ ∃ i j, i < m0 ∧ j < m0 ∧ A.Has i j

/-- The symmetric preprocessing of a leading block. -/
theorem SymmContract.prepared_lead {e : Env K R} {o : Level.Opts R} (h : SymmContract e o) (lvl : Nat) {A : CS K} (hA : SymCS A) {m0 : Nat} (hl : LeadCS A m0) :
    Runs (prepare e o true m0 lvl A A) fun g => SymPrepared A.psize g ∧ (o.noPre = false → g.m ≤ m0) := by
  by_cases h0 : o.noPre = true
  · obtain ⟨g, eg, hg⟩ := prepare_noPre e o h0 true m0 lvl A A
    refine ⟨g, eg, ⟨hg, ?_, ?_⟩, fun h1 => by rw [h1] at h0; cases h0⟩
    all_goals
      unfold prepare at eg
      rw [if_pos h0] at eg
      cases eg
      exact fun i hi => rfl
  · rcases h.pre with h1 | ⟨ha, hk, hamd, hrcm, hr1, hr2, hps⟩
    · exact absurd h1 h0
    · unfold prepare
      rw [if_neg h0]
      have hlead : m0 = A.psize ∨ ∃ i, i < m0 ∧ ∃ jv ∈ A.line i, jv.1 < m0 := by
        rcases hl.stored with c | ⟨i, j, c1, c2, c3⟩
        · exact Or.inl c
        · right
          obtain ⟨v, hv⟩ := CS.has_iff.1 c3
          exact ⟨i, c1, (j, v), hv, c2⟩
      have hle := hl.le
      have hin : Pre.PreIn A.psize m0 A A := ⟨hA.wf, hA.sorted, rfl, hA.sq, hA.wf, hA.sorted, rfl, hA.sq, hle, hlead⟩
      have hp : ∀ i, i < A.psize → ∀ j, j < A.psize → i ∈ Pre.ids A j → j ∈ Pre.ids A i := fun i hi j hj hh =>
        mem_ids.2 (hA.pat j i hj hi (mem_ids.1 hh))
      refine (Pre.doPreprocess_runs ha.ok (ker := e.pre) true o.pre lvl hin (fun B _ => hk.for _ B) ⟨hr1, hr2⟩
        (fun a b => by rcases hps with c | c <;> contradiction) (fun c => by cases c) (fun m b hb _ => hamd m b hb)
        (fun m b hb hs => hrcm m b hb hs) (fun i hi j hj => ⟨hp i hi j hj, hp j hj i hi⟩) (fun _ i hi j hj => hp i (by omega) j (by omega))).mono ?_
      rintro r ⟨hr, g1, g2, hs⟩
      exact ⟨⟨⟨hr.mle.trans hle, hr.ssz, hr.tsz, hr.spos, hr.tpos, g1, g2⟩, fun i hi => (hs rfl i hi).2.symm, fun i hi => (hs rfl i hi).1.symm⟩, fun _ => hr.mle⟩

/-- The number of unknowns a symmetric level tries to eliminate is what the preprocessing says. -/
theorem symmLevel_m2 {e : Env K R} {o : Level.Opts R} {x : SymmPar K R} {rowMajor : Bool} {lvl N m0 : Nat} {A : CS K} {out : CroutOut K}
    (h : symmLevel e o x rowMajor lvl N m0 A = .ok out) : ∃ g, prepare e o true m0 lvl A A = .ok g ∧ out.m2 = g.m := by
  unfold symmLevel at h
  split at h
  · cases h
  · cases hg : prepare e o true m0 lvl A A with
    | error ex => rw [hg] at h; cases h
    | ok g =>
      rw [hg] at h
      refine ⟨g, rfl, ?_⟩
      change (Symm.croutPhase (symmPar e o x lvl) (symmIn e A.psize A g) >>= _) = _ at h
      cases hr : Symm.croutPhase (symmPar e o x lvl) (symmIn e A.psize A g) with
      | error ex => rw [hr] at h; cases h
      | ok r =>
        rw [hr] at h
        change symmConclude e o rowMajor lvl N m0 g (symmIn e A.psize A g) r = _ at h
        unfold symmConclude at h
        split at h
        · cases hn : symmNnz (e.rows lvl) (eyeBuf (symmIn e A.psize A g).n) 0 (symmIn e A.psize A g).n with
          | error ex => rw [hn] at h; cases h
          | ok nnz => rw [hn] at h; cases h; rfl
        · cases hb : symmBlocks e o rowMajor lvl (symmIn e A.psize A g) r with
          | error ex => rw [hb] at h; cases h
          | ok b =>
            rw [hb] at h
            change (symmNnz (e.rows lvl) r.p.p r.m (symmIn e A.psize A g).n >>= _) = _ at h
            cases hn : symmNnz (e.rows lvl) r.p.p r.m (symmIn e A.psize A g).n with
            | error ex => rw [hn] at h; cases h
            | ok nnz => rw [hn] at h; cases h; rfl

/-- C85 (level): with preprocessing, a symmetric level with a leading block tries at most `m0` unknowns, and its counters account for all of them: `stats(0)` counts the
rows of the leading block that are not eliminated, `stats(1)` those that were deferred.  Everything C69 says about a level holds too. -/
theorem C85_level {e : Env K R} {o : Level.Opts R} (hc : SymmContract e o) (x : SymmPar K R) (rowMajor : Bool) (lvl N m0 : Nat) (A : CS K) (hA : SymCS A)
    (hl : LeadCS A m0) (hsz : SizesOK e A.psize) :
    ∃ out, symmLevel e o x rowMajor lvl N m0 A = .ok out ∧ out.m ≤ out.m2 ∧ out.m2 ≤ A.psize ∧ (o.noPre = false → out.m2 ≤ m0) ∧
      (4 * out.m ≤ out.m2 → out.stats 0 = m0) ∧
      (out.m2 < 4 * out.m → (o.noPre = false → out.stats 0 + out.m = m0) ∧ out.stats 1 + out.m = out.m2 ∧
        (out.toPrec A.psize out.m).OK ∧ SymLevel (out.toPrec A.psize out.m).toLevel ∧
        (∀ i, i < out.m → (0 < x.spd → 0 < x.re (out.d.get i)) ∧ (x.spd < 0 → x.re (out.d.get i) < 0)) ∧
        out.schur.psize = A.psize - out.m ∧ out.schur.ssize = A.psize - out.m ∧ (out.m < A.psize → SymCS out.schur) ∧
        (NoDrop o A.psize → ∃ LE UF, ExactLevel (out.toPrec A.psize out.m).toLevel (mat rowMajor out.schur) (mat rowMajor A) LE UF)) := by
  have hprep := hc.prepared_lead lvl hA hl
  obtain ⟨out, eo, ho, hs⟩ := symmLevel_does_of hc.envOK x rowMajor lvl N m0 hA (hprep.mono fun _ h => h.1) hsz
  obtain ⟨g, eg, hg⟩ := symmLevel_m2 eo
  obtain ⟨g', eg', -, hg'⟩ := hprep
  obtain rfl : g = g' := Except.ok.inj (eg.symm.trans eg')
  have hmm : o.noPre = false → out.m2 ≤ m0 := fun h => by rw [hg]; exact hg' h
  obtain ⟨st0, st1, -⟩ := ho.stats
  have hmle := ho.mle
  refine ⟨out, eo, hmle, ho.m2le, hmm, fun h4 => ?_, fun h4 => ?_⟩
  · rw [st0]
    unfold postFlag
    rw [if_pos h4]
    rfl
  have k1 : (postFlag out.m2 out.m).2 ≠ 0 := by unfold postFlag; rw [if_neg (by omega)]; split <;> (show out.m ≠ 0; omega)
  obtain ⟨a1, a2, a3, -, a5⟩ := ho.kept k1 (fun h => by cases h)
  obtain ⟨b1, b2, -, b4⟩ := hs k1
  rw [(postFlag_m k1).1] at st0 st1
  rw [if_pos (postFlag_m k1).2] at st1
  refine ⟨fun h => by have := hmm h; omega, by omega, a1, b1, fun i hi => ?_, a2, a3, b4, a5⟩
  have := b2 i hi
  unfold refuseOf at this
  simp only [Bool.or_eq_false_iff, Bool.and_eq_false_iff, decide_eq_false_iff_not, not_lt, not_le] at this
  exact ⟨fun h => this.1.resolve_left (by omega), fun h => this.2.resolve_left (by omega)⟩

variable (e : Env K R) (o : Level.Opts R) (hc : SymmContract e o) (x : SymmPar K R) (other : Kernels K) (junk : Nat → K) (ijunk : Nat → Int)
  (opts : FacOpts) (hsy : opts.isSymm = true) (A : Input K) (raw : RawCS) (n : Nat) (hA : ValidSquare A ijunk raw n)
  (hsym : SymMat n (mat A.rowMajor (raw.toCS n A.vals))) (hpat : (raw.toCS n A.vals).PatSym) (hsz : SizesOK e n)
  (m0 : Nat) (hl : LeadCS (raw.toCS n A.vals) m0)
include hc hsy hA hsym hpat hsz hl

theorem symm_represents_lead (G : CS K → Prop) (hG : G (raw.toCS n A.vals)) (hGs : ∀ S, G S → SymCS S) (hd : DenseOK true other.dense G)
    (hnext : ∀ m0 B out, LevelOut m0 o false A.rowMajor B out → (postFlag out.m2 out.m).2 ≠ 0 → B.psize ≤ n → G B → out.m < B.psize → SymCS out.schur →
      SymLevel (out.toPrec B.psize out.m).toLevel → G out.schur)
    (h : HIF K) :
    (∃ h' S, factorize junk ijunk (allKernels e o x (opts.pivot == .auto) A.rowMajor other) opts A m0 h = (h', .ok ()) ∧
      Represents true o other.dense A.rowMajor G (SignedLevel x) (raw.toCS n A.vals) S h'.precs) ∨
    (∃ h' msg S, factorize junk ijunk (allKernels e o x (opts.pivot == .auto) A.rowMajor other) opts A m0 h = (h', .error (.hif msg)) ∧ 0 < S.psize ∧ S.psize ≤ n ∧
      IsBlock G S ∧ (other.dense true S).2 = some (.hif msg)) := by
  rw [factorize_of hA]
  obtain ⟨hw, hs⟩ := C09_valid_wf raw n hA.valid A.vals hA.vsize
  have hp : (raw.toCS n A.vals).psize = n := hA.dim
  have hq : (raw.toCS n A.vals).ssize = (raw.toCS n A.vals).psize := by rw [hp]; rfl
  have hpos := hl.pos
  have hkind : ∀ sym mp, levelKind opts sym mp = .symm := by
    intro sym mp
    unfold levelKind
    rw [hsy]
    simp
  have hker : ∀ lvl N k B, G B → B.psize ≤ n → Runs (prepare e o true k lvl B B) (SymPrepared B.psize) →
      Runs ((allKernels e o x (opts.pivot == .auto) A.rowMajor other).level .symm lvl N k B) fun out => LevelOut k o false A.rowMajor B out ∧
        (LevelOut k o false A.rowMajor B out → (postFlag out.m2 out.m).2 ≠ 0 → SignedLevel x (out.toPrec B.psize out.m).toLevel ∧ (out.m < B.psize → G out.schur)) := by
    intro lvl N k B g hn hpr
    refine (symmLevel_does_of hc.envOK x A.rowMajor lvl N k (hGs B g) hpr (hsz.mono hn)).mono ?_
    rintro out ⟨h1, h2⟩
    refine ⟨h1, fun _ h0 => ?_⟩
    obtain ⟨a1, a2, a3, a4⟩ := h2 h0
    refine ⟨⟨a1, fun i hi => ?_⟩, fun hlt => hnext _ B out h1 h0 hn g hlt (a4 hlt) a1⟩
    have hm0 := (postFlag_m h0).2
    unfold CroutOut.toPrec at hi ⊢
    rw [if_pos hm0] at hi ⊢
    exact a2 i hi
  set h0 : HIF K := { h with nrows := A.nrows, ncols := A.ncols, precs := [], work := if h.empty then h.work else ⟨0, junk⟩, stats := fun _ => 0 } with hh0
  have hsym0 : (h0.levels + 1 == 1 && decide (0 < m0)) = true := by
    simp [hh0, HIF.levels, hpos]
  have hstep := factorizeKernel_step o (G := G) (Lv := SignedLevel x) A.rowMajor (allKernels e o x (opts.pivot == .auto) A.rowMajor other) opts
    (by rw [hsy]; exact hd) (signed_zero x) (2 * n + 1) (raw.toCS n A.vals) m0 false h0 hw hA.tight hs hq hG rfl true hsym0
    false (fun hk => by cases hk)
    (by
      rw [if_pos rfl, hkind]
      exact hker _ _ m0 _ hG (le_of_eq hp) ((hc.prepared_lead _ (hGs _ hG) hl).mono fun g k => k.1))
    (by
      intro S mp' h' s1 s2 s3 s4 s5 s6 s7 s8
      exact factorizeKernel_gen o A.rowMajor (allKernels e o x (opts.pivot == .auto) A.rowMajor other) n opts (G := G) (Lv := SignedLevel x)
        (by rw [hsy]; exact hd) (signed_zero x) (fun mp lvl N B hl w t sr sq g hn => by
          rw [hkind]
          exact hker lvl N B.psize B g hn (hc.prepared lvl (hGs B g))) (2 * n + 1) S mp' h' s1 s2 s3 s4 s5 (by omega) s7
        (by rw [hp] at s6 s8; rcases s8 with s8 | ⟨s8, -, rfl⟩
            · split <;> omega
            · simp; omega))
  unfold Outcome at hstep
  rw [hsy] at hstep
  rcases hstep with ⟨h', S, new, k1, k2, k3⟩ | ⟨h', msg, S, k1, k2, k3, k4⟩
  · left
    refine ⟨h', S, k1, ?_⟩
    rw [k2]
    exact k3
  · right
    exact ⟨h', msg, S, k1, k2, by omega, k4⟩

/-- C85: for every valid symmetric matrix with symmetric pattern, all dropping parameters and whatever the object held before, the symmetric `factorize(A, params, m0)` either
raises an exception, which is one of the dense factorization, or completes; then the stored levels are symmetric, their pivots have the sign asked for,
the block `S` left to the dense solver is symmetric, and the levels are valid — as required by C27, C28, C29, C30 — as soon as the
dense solver solves and multiplies exactly with `S`. -/
theorem C85_factorize [TrivialStar K] (hd : ∀ S : CS K, SymCS S → 0 < S.psize → (∃ msg, (other.dense true S).2 = some (.hif msg)) ∨ (other.dense true S).2 = none)
    (h : HIF K) :
    (∃ h' S, factorize junk ijunk (allKernels e o x (opts.pivot == .auto) A.rowMajor other) opts A m0 h = (h', .ok ()) ∧ S.psize ≤ n ∧
      (∀ P ∈ h'.precs, SymLevel P.toLevel ∧ ∀ i, i < P.m → (0 < x.spd → 0 < x.re (P.d.get i)) ∧ (x.spd < 0 → x.re (P.d.get i) < 0)) ∧
      (0 < S.psize → SymCS S ∧ (other.dense true S).2 = none) ∧
      ∀ rk, (0 < S.psize → SymDenseExact rk S.psize (mat A.rowMajor S) (other.dense true S).1) → Prec.Good rk (mat A.rowMajor S) S.psize h'.precs n) ∨
    (∃ h' msg S, factorize junk ijunk (allKernels e o x (opts.pivot == .auto) A.rowMajor other) opts A m0 h = (h', .error (.hif msg)) ∧ 0 < S.psize ∧ S.psize ≤ n ∧
      SymCS S ∧ (other.dense true S).2 = some (.hif msg)) := by
  have hp : (raw.toCS n A.vals).psize = n := hA.dim
  rcases symm_represents_lead e o hc x other junk ijunk opts hsy A raw n hA hsym hpat hsz m0 hl SymCS
    (input_symCS hA hsym hpat) (fun _ h => h)
    (fun S _ _ _ d g => hd S g d) (fun _ _ _ _ _ _ _ _ hs _ => hs) h with ⟨h', S, k1, k2⟩ | ⟨h', msg, S, k1, k2, k3, k4, k5⟩
  · left
    refine ⟨h', S, k1, by have := k2.size; omega, fun P hP => ?_, fun h0 => ?_, fun rk hx => ?_⟩
    · have := k2.lv P.toLevel (List.mem_map.2 ⟨P, hP, rfl⟩)
      exact ⟨this.1, fun i hi => ⟨fun h0 => this.pos h0 hi, fun h0 => this.neg h0 hi⟩⟩
    · obtain ⟨b, b2⟩ := k2.block h0
      exact ⟨b.good, b2⟩
    · have := k2.good rk fun h0 => lastOK_symm (k2.block h0).1.good A.rowMajor (hx h0)
      rwa [hp] at this
  · right
    exact ⟨h', msg, S, k1, k2, k3, k4.good, k5⟩

/-- C85 (exactness): if nothing is dropped, the symmetric matrix is nonsingular and the symmetric dense solver is exact on every nonsingular symmetric block,
then for every history of the object the symmetric `factorize(A, params, m0)` completes, and afterwards `solve` returns, for every right-hand side, the solution of `A x = b`. -/
theorem C85_exact [TrivialStar K] (hnd : NoDrop o n) (hinj : Injective n (mat A.rowMajor (raw.toCS n A.vals))) (rk : Nat)
    (hd : ∀ S : CS K, SymCS S → 0 < S.psize → S.psize ≤ n → Injective S.psize (mat A.rowMajor S) →
      (other.dense true S).2 = none ∧ SymDenseExact rk S.psize (mat A.rowMajor S) (other.dense true S).1)
    (h : HIF K) (hw : h.empty = true → h.work.size = 0) (hns : h.nsp = none) :
    ∃ h₁, factorize junk ijunk (allKernels e o x (opts.pivot == .auto) A.rowMajor other) opts A m0 h = (h₁, .ok ()) ∧
      ∀ b y₀ : Buf K, b.size = n → y₀.size = n → ∃ h₂ z, solve junk b y₀ false rk h₁ = (h₂, .ok z) ∧ z.size = n ∧
        ∀ i, i < n → mulVec n (mat A.rowMajor (raw.toCS n A.vals)) z.get i = b.get i := by
  have hp : (raw.toCS n A.vals).psize = n := hA.dim
  rcases symm_represents_lead e o hc x other junk ijunk opts hsy A raw n hA hsym hpat hsz m0 hl
      (fun S => SymCS S ∧ S.psize ≤ n ∧ Injective S.psize (mat A.rowMajor S)) ⟨input_symCS hA hsym hpat, le_of_eq hp, by rw [hp]; exact hinj⟩ (fun _ h => h.1)
    (fun S _ _ _ d i => Or.inr (hd S i.1 d i.2.1 i.2.2).1) (fun _ B out hout hk hle hi hlt hs _ => by
      obtain ⟨hm, hne⟩ := postFlag_m hk
      obtain ⟨k1, k2, -, -, k5⟩ := hout.kept hk (fun hc => by cases hc)
      obtain ⟨LE, UF, hx⟩ := k5 (hnd.mono hle)
      obtain ⟨pm, pn, -⟩ := toPrec_m out B.psize out.m
      have hn : (out.toPrec B.psize out.m).toLevel.n = B.psize := pn
      have hm : (out.toPrec B.psize out.m).toLevel.m = out.m := pm
      have := hx.injective (fun c => by
        obtain ⟨w, -, -, hw, -⟩ := Prec.solveLdu_runs k1 ⟨(out.toPrec B.psize out.m).toLevel.m, c⟩ (le_refl _)
        exact ⟨w.get, hw⟩) (by rw [hn]; exact hi.2.2)
      rw [hn, hm] at this
      refine ⟨hs, by omega, ?_⟩
      rw [k2]
      exact this) h with ⟨h', S, k1, k2⟩ | ⟨h', msg, S, k1, k2, k3, k4, k5⟩
  · refine ⟨h', k1, fun b y₀ hb hy => ?_⟩
    have hgood := k2.good rk fun h0 => by
      obtain ⟨b, -⟩ := k2.block h0
      exact lastOK_symm b.good.1 A.rowMajor (hd S b.good.1 h0 b.good.2.1 b.good.2.2).2
    rw [hp] at hgood
    obtain ⟨hready, hns'⟩ := factorize_ready k1 hw hns
    obtain ⟨h₂, z, s1, s2, s3⟩ := C27_solve_spec junk h' rk _ _ n hgood hready false hns' rfl b y₀ hb hy
    refine ⟨h₂, z, s1, s2, ?_⟩
    have := k2.exact (by rw [hp]; exact hnd) z.get b.get (by rw [hp]; exact s3)
    rwa [hp] at this
  · exact absurd k5 (by rw [(hd S k4.good.1 k2 k4.good.2.1 k4.good.2.2).1]; simp)

end
end Hif.Props
