import Verif.SymmRun
import Verif.SymSpec
import Verif.Props.Level
import Verif.Props.Symm
import Verif.Props.Rcm

set_option linter.unusedVariables false
set_option linter.unusedSectionVars false

/-!
# C69, C70: one symmetric level, and the symmetric factorization from end to end

Vocabulary: `Level.symmLevel e o x rowMajor lvl N n A` runs one level of the symmetric factorization on the matrix stored in `A`; `CS.PatSym A`: position
`(j, i)` is stored whenever `(i, j)` is; `Spec.SymLevel v`: `U = Lᵀ`, `F = Eᵀ`, one scaling and one permutation on both sides; `Spec.SymMat k T`: the
`k × k` matrix `T` is symmetric; `Spec.dot k u v = Σ u_i v_i`; `Spec.PosDef k T`: `Σ x_i (T x)_i > 0` for every `x ≠ 0`.
-/

namespace Hif.Props
open Level Spec Pre Finset HIF HM

section
variable {K R : Type} [Field K] [StarRing K] [DecidableEq K] [Inhabited K] [Field R] [LinearOrder R] [IsStrictOrderedRing R] [FloorSemiring R]

/-- What a symmetric level relies on outside the modelled code.  The library's own RCM keeps the contract asked of it (`C45_contract`). -/
structure SymmContract (e : Env K R) (o : Level.Opts R) : Prop where
  one : e.a.emb 1 = 1
  mul : ∀ x y, e.a.emb (x * y) = e.a.emb x * e.a.emb y
  nrm : ∀ x, 0 ≤ e.a.nrm x
  nth : SV.NthSpec e.nth
  srt : ∀ f l, (e.srt f l).Perm l
  pre : o.noPre = true ∨ (ArithSpec e.a ∧ MatchingOK e.pre.mc64 ∧ OrderingOK e.pre.amd ∧ SymOrderingOK e.pre.rcm ∧ 0 ≤ o.pre.reorder ∧ o.pre.reorder < 4 ∧
    (o.pre.preScale = 0 ∨ o.pre.preScale = 1))

theorem SymmContract.envOK {e : Env K R} {o : Level.Opts R} (h : SymmContract e o) : EnvOK e := ⟨⟨h.one, h.mul⟩, h.nrm, h.nth, h.srt⟩

/-- A valid matrix with symmetric values and a symmetric pattern. -/
structure SymCS (A : CS K) : Prop where
  wf : A.WF
  tight : A.Tight
  sorted : A.Sorted
  sq : A.ssize = A.psize
  sym : ∀ i j, i < A.psize → j < A.psize → A.entry i j = A.entry j i
  pat : A.PatSym

theorem mem_ids {A : CS K} {i j : Nat} : j ∈ Pre.ids A i ↔ A.Has i j := by
  rw [Pre.ids_eq, CS.has_iff]
  simp

/-- The symmetric preprocessing. -/
theorem SymmContract.prepared {e : Env K R} {o : Level.Opts R} (h : SymmContract e o) (lvl : Nat) {A : CS K} (hA : SymCS A) :
    Runs (prepare e o true A.psize lvl A A) (SymPrepared A.psize) := by
  by_cases h0 : o.noPre = true
  · obtain ⟨g, eg, hg⟩ := prepare_noPre e o h0 true A.psize lvl A A
    refine ⟨g, eg, hg, ?_, ?_⟩
    all_goals
      unfold prepare at eg
      rw [if_pos h0] at eg
      cases eg
      exact fun i hi => rfl
  · rcases h.pre with h1 | ⟨ha, hk, hamd, hrcm, hr1, hr2, hps⟩
    · exact absurd h1 h0
    · unfold prepare
      rw [if_neg h0]
      have hin : Pre.PreIn A.psize A.psize A A := ⟨hA.wf, hA.sorted, rfl, hA.sq, hA.wf, hA.sorted, rfl, hA.sq, le_refl _, Or.inl rfl⟩
      have hp : ∀ i, i < A.psize → ∀ j, j < A.psize → i ∈ Pre.ids A j → j ∈ Pre.ids A i := fun i hi j hj hh =>
        mem_ids.2 (hA.pat j i hj hi (mem_ids.1 hh))
      refine (Pre.doPreprocess_runs ha.ok (ker := e.pre) true o.pre lvl hin (fun B _ => hk.for _ B) ⟨hr1, hr2⟩
        (fun a b => by rcases hps with c | c <;> contradiction) (fun c => by cases c) (fun m b hb _ => hamd m b hb)
        (fun m b hb hs => hrcm m b hb hs) (fun i hi j hj => ⟨hp i hi j hj, hp j hj i hi⟩) (fun _ => hp)).mono ?_
      rintro r ⟨hr, g1, g2, hs⟩
      exact ⟨⟨hr.mle, hr.ssz, hr.tsz, hr.spos, hr.tpos, g1, g2⟩, fun i hi => (hs rfl i hi).2.symm, fun i hi => (hs rfl i hi).1.symm⟩

theorem symmLevel_does_of {e : Env K R} {o : Level.Opts R} (he : EnvOK e) (x : SymmPar K R) (rowMajor : Bool) (lvl N m0 : Nat) {A : CS K} (hA : SymCS A)
    (hp : Runs (prepare e o true m0 lvl A A) (SymPrepared A.psize)) (hsz : SizesOK e A.psize) :
    Runs (symmLevel e o x rowMajor lvl N m0 A) fun out => LevelOut m0 o false rowMajor A out ∧
      ((postFlag out.m2 out.m).2 ≠ 0 → SymLevel (out.toPrec A.psize out.m).toLevel ∧ (∀ i, i < out.m → refuseOf x (out.d.get i) = false) ∧
        SymMat (A.psize - out.m) (mat rowMajor out.schur) ∧ (out.m < A.psize → SymCS out.schur)) := by
  refine (symmLevel_runs he o x rowMajor lvl N m0 hA.wf hA.sorted hA.sq hA.sym hp hsz).mono ?_
  rintro out ⟨hl, hs⟩
  refine ⟨hl, fun h0 => ?_⟩
  obtain ⟨a1, a2, a3⟩ := hs h0
  obtain ⟨-, k2, k3, k4, -⟩ := hl.kept h0 (fun hc => by cases hc)
  have hm0 := (postFlag_m h0).2
  have hP : out.toPrec A.psize out.m = Prec.mk out.m A.psize out.L out.d out.U out.E out.F out.s out.t out.p out.pinv out.q out.qinv .none := by
    unfold CroutOut.toPrec
    rw [if_pos hm0]
  refine ⟨?_, a2, a1.S, fun hlt => ?_⟩
  · rw [hP]
    exact ⟨a1.L, a1.E, a1.st, a1.pq⟩
  · obtain ⟨w1, w2, w3⟩ := k4 hlt
    refine ⟨w1, w2, w3, by omega, fun i j hi hj => ?_, a3 hA.pat hlt⟩
    have := a1.S i j (by omega) (by omega)
    unfold mat at this
    split at this
    · exact this
    · exact this.symm

theorem symmLevel_does {e : Env K R} {o : Level.Opts R} (hc : SymmContract e o) (x : SymmPar K R) (rowMajor : Bool) (lvl N : Nat) {A : CS K} (hA : SymCS A)
    (hsz : SizesOK e A.psize) :
    Runs (symmLevel e o x rowMajor lvl N A.psize A) fun out => LevelOut A.psize o false rowMajor A out ∧
      ((postFlag out.m2 out.m).2 ≠ 0 → SymLevel (out.toPrec A.psize out.m).toLevel ∧ (∀ i, i < out.m → refuseOf x (out.d.get i) = false) ∧
        SymMat (A.psize - out.m) (mat rowMajor out.schur) ∧ (out.m < A.psize → SymCS out.schur)) :=
  symmLevel_does_of hc.envOK x rowMajor lvl N A.psize hA (hc.prepared lvl hA) hsz

/-! ## C69 -/

/-- C69: for every valid symmetric matrix with symmetric pattern and all options covered by the contract, a symmetric level runs to the end without an
access out of range; if it is kept, it hands over a valid symmetric level whose pivots have the sign asked for by `spd`, and a valid symmetric matrix with
symmetric pattern for the next level, of dimension `n - m`. -/
theorem C69_level {e : Env K R} {o : Level.Opts R} (hc : SymmContract e o) (x : SymmPar K R) (rowMajor : Bool) (lvl N : Nat) (A : CS K) (hA : SymCS A)
    (hsz : SizesOK e A.psize) :
    ∃ out, symmLevel e o x rowMajor lvl N A.psize A = .ok out ∧ out.m ≤ out.m2 ∧ out.m2 ≤ A.psize ∧
      (out.m2 < 4 * out.m →
        (out.toPrec A.psize out.m).OK ∧ SymLevel (out.toPrec A.psize out.m).toLevel ∧
        (∀ i, i < out.m → (0 < x.spd → 0 < x.re (out.d.get i)) ∧ (x.spd < 0 → x.re (out.d.get i) < 0)) ∧
        out.schur.psize = A.psize - out.m ∧ out.schur.ssize = A.psize - out.m ∧ (out.m < A.psize → SymCS out.schur)) := by
  obtain ⟨out, eo, hl, hs⟩ := symmLevel_does hc x rowMajor lvl N hA hsz
  refine ⟨out, eo, hl.mle, hl.m2le, fun h4 => ?_⟩
  have h0 : (postFlag out.m2 out.m).2 ≠ 0 := by unfold postFlag; rw [if_neg (by omega)]; split <;> (show out.m ≠ 0; omega)
  obtain ⟨k1, k2, k3, k4, -⟩ := hl.kept h0 (fun hc => by cases hc)
  obtain ⟨a1, a2, -, a4⟩ := hs h0
  refine ⟨k1, a1, fun i hi => ?_, k2, k3, a4⟩
  have := a2 i hi
  unfold refuseOf at this
  simp only [Bool.or_eq_false_iff, Bool.and_eq_false_iff, decide_eq_false_iff_not, not_lt, not_le] at this
  exact ⟨fun h => this.1.resolve_left (by omega), fun h => this.2.resolve_left (by omega)⟩

/-- C69 (exact): with parameters that drop nothing the symmetric level and the matrix handed to the next level represent the input exactly: in the
final ordering and scaling it is `[[L D Lᵀ, Eᵀ], [E, L_E D L_Eᵀ + S]]`; hence solving with the level and with `S` solves with `A`, and `S` is nonsingular
if `A` is. -/
theorem C69_exact {e : Env K R} {o : Level.Opts R} (hc : SymmContract e o) (x : SymmPar K R) (rowMajor : Bool) (lvl N : Nat) (A : CS K) (hA : SymCS A)
    (hsz : SizesOK e A.psize) (hnd : NoDrop o A.psize) (out : CroutOut K)
    (ho : symmLevel e o x rowMajor lvl N A.psize A = .ok out) (h4 : out.m2 < 4 * out.m) :
    let v := (out.toPrec A.psize out.m).toLevel
    let S := mat rowMajor out.schur
    SymLevel v ∧ SymMat (A.psize - out.m) S ∧
    (∃ LE UF, ExactLevel v S (mat rowMajor A) LE UF) ∧
    (∀ x b z g : Nat → K,
      (∀ i, i < v.m → ldu v.m v.L v.d v.U (fun j => x (v.q j) / v.t (v.q j)) i +
        mulVec (v.n - v.m) v.F (fun j => x (v.q (v.m + j)) / v.t (v.q (v.m + j))) i = v.s (v.p i) * b (v.p i)) →
      (∀ i, i < v.m → ldu v.m v.L v.d v.U z i = v.s (v.p i) * b (v.p i)) →
      (∀ i, i < v.n - v.m → mulVec (v.n - v.m) S (fun j => x (v.q (v.m + j)) / v.t (v.q (v.m + j))) i = g i) →
      (∀ i, i < v.n - v.m → mulVec v.m v.E z i + g i = v.s (v.p (v.m + i)) * b (v.p (v.m + i))) →
      ∀ i, i < A.psize → mulVec A.psize (mat rowMajor A) x i = b i) ∧
    (Injective A.psize (mat rowMajor A) → Injective (A.psize - out.m) S) := by
  intro v S
  obtain ⟨out', eo, hl, hs⟩ := symmLevel_does hc x rowMajor lvl N hA hsz
  obtain rfl : out = out' := Except.ok.inj (ho.symm.trans eo)
  have h0 : (postFlag out.m2 out.m).2 ≠ 0 := by unfold postFlag; rw [if_neg (by omega)]; split <;> (show out.m ≠ 0; omega)
  obtain ⟨k1, -, -, -, k5⟩ := hl.kept h0 (fun hc => by cases hc)
  obtain ⟨a1, -, a3, -⟩ := hs h0
  obtain ⟨LE, UF, hx⟩ := k5 hnd
  obtain ⟨pm, pn, -⟩ := toPrec_m out A.psize out.m
  have hn : v.n = A.psize := pn
  have hm : v.m = out.m := pm
  refine ⟨a1, a3, ⟨LE, UF, hx⟩, fun x b z g h1 h2 h3 h4 => ?_, fun hi => ?_⟩
  · have := hx.solves h1 h2 h3 h4
    rwa [hn] at this
  · have := hx.injective (fun c => by
      obtain ⟨w, -, -, hw, -⟩ := Prec.solveLdu_runs k1 ⟨v.m, c⟩ (le_refl _)
      exact ⟨w.get, hw⟩) (by rw [hn]; exact hi)
    rwa [hn, hm] at this

/-- C69 (statistics): as for the other levels (`C62_stats`). -/
theorem C69_stats {e : Env K R} {o : Level.Opts R} (hc : SymmContract e o) (x : SymmPar K R) (rowMajor : Bool) (lvl N : Nat) (A : CS K) (hA : SymCS A)
    (hsz : SizesOK e A.psize) (out : CroutOut K) (ho : symmLevel e o x rowMajor lvl N A.psize A = .ok out) :
    (4 * out.m ≤ out.m2 → out.stats 0 = A.psize ∧ out.stats 1 = 0 ∧ out.stats 2 = 0 ∧ out.stats 3 = 0) ∧
    (out.m2 < 4 * out.m → out.stats 0 + out.m = A.psize ∧ out.stats 1 + out.m = out.m2 ∧ out.stats 2 + out.stats 3 = out.stats 1) := by
  obtain ⟨out', eo, hl, -⟩ := symmLevel_does hc x rowMajor lvl N hA hsz
  obtain rfl : out = out' := Except.ok.inj (ho.symm.trans eo)
  obtain ⟨s0, s1, s2⟩ := hl.stats
  have h1 := hl.mle
  have h2 := hl.m2le
  constructor
  · intro h4
    have hp : postFlag out.m2 out.m = (2, 0) := by unfold postFlag; rw [if_pos h4]
    rw [hp] at s0 s1 s2
    simp at s0 s1 s2
    exact ⟨s0, s1, s2.1, s2.2⟩
  · intro h4
    have hp : (postFlag out.m2 out.m).2 = out.m ∧ (postFlag out.m2 out.m).1 ≠ 2 := by
      unfold postFlag
      rw [if_neg (by omega)]
      split <;> exact ⟨rfl, by simp⟩
    rw [hp.1] at s0 s1
    rw [if_neg hp.2] at s2
    rw [if_pos (by omega)] at s1
    omega

/-! ## C70 -/

/-- What `factorize` leaves untouched. -/
theorem factorize_ready {junk : Nat → K} {ijunk : Nat → Int} {ker : Kernels K} {opts : FacOpts} {A : Input K} {h h' : HIF K} {m0 : Nat}
    (k : factorize junk ijunk ker opts A m0 h = (h', .ok ())) (hw : h.empty = true → h.work.size = 0) (hns : h.nsp = none) : Ready h' ∧ h'.nsp = none := by
  obtain ⟨ps, st, hfr⟩ := factorize_frame junk ijunk ker opts A m0 h
  rw [k] at hfr
  have hfr : h' = _ := hfr
  constructor
  · left
    rw [hfr]
    show (if h.empty then h.work else ⟨0, junk⟩ : Buf K).size = 0
    split
    · rename_i hc; exact hw hc
    · rfl
  · rw [hfr]; exact hns

theorem factorize_nspTran {junk : Nat → K} {ijunk : Nat → Int} {ker : Kernels K} {opts : FacOpts} {A : Input K} {h h' : HIF K} {m0 : Nat}
    (k : factorize junk ijunk ker opts A m0 h = (h', .ok ())) (hns : h.nspTran = none) : h'.nspTran = none := by
  obtain ⟨ps, st, hfr⟩ := factorize_frame junk ijunk ker opts A m0 h
  rw [k] at hfr
  have hfr : h' = _ := hfr
  rw [hfr]; exact hns

/-- A symmetric level whose pivots have the sign asked for by `spd`. -/
def SignedLevel (x : SymmPar K R) (v : Spec.Level K) : Prop := SymLevel v ∧ ∀ i, i < v.m → refuseOf x (v.d i) = false

theorem signed_zero (x : SymmPar K R) (out : CroutOut K) (n : Nat) : SignedLevel x (out.toPrec n 0).toLevel := by
  unfold CroutOut.toPrec
  rw [if_neg (not_not.mpr rfl)]
  exact ⟨⟨fun i j hi => absurd hi (Nat.not_lt_zero _), fun i j hi => absurd hi (Nat.not_lt_zero _), fun i _ => rfl, fun i _ => rfl⟩,
    fun i hi => absurd hi (Nat.not_lt_zero _)⟩

theorem SignedLevel.pos {x : SymmPar K R} {v : Spec.Level K} (h : SignedLevel x v) (h0 : 0 < x.spd) {i : Nat} (hi : i < v.m) : 0 < x.re (v.d i) := by
  have := h.2 i hi
  unfold refuseOf at this
  simp only [Bool.or_eq_false_iff, Bool.and_eq_false_iff, decide_eq_false_iff_not, not_lt, not_le] at this
  exact this.1.resolve_left (by omega)

theorem SignedLevel.neg {x : SymmPar K R} {v : Spec.Level K} (h : SignedLevel x v) (h0 : x.spd < 0) {i : Nat} (hi : i < v.m) : x.re (v.d i) < 0 := by
  have := h.2 i hi
  unfold refuseOf at this
  simp only [Bool.or_eq_false_iff, Bool.and_eq_false_iff, decide_eq_false_iff_not, not_lt, not_le] at this
  exact this.2.resolve_left (by omega)

/-- The symmetric dense solver solves and multiplies exactly with the `k × k` matrix `S`. -/
def SymDenseExact (rk k : Nat) (S : Nat → Nat → K) (D : DenseOps K) : Prop :=
  (∀ y : Buf K, y.size = k → ∃ x, D.solve y rk false = .ok x ∧ x.size = k ∧ ∀ i, i < k → mulVec k S x.get i = y.get i) ∧
  (∀ y : Buf K, y.size = k → ∃ x, D.multiply y rk false = .ok x ∧ x.size = k ∧ ∀ i, i < k → x.get i = mulVec k S y.get i)

theorem SymCS.symMat {S : CS K} (h : SymCS S) (rowMajor : Bool) : SymMat S.psize (mat rowMajor S) := by
  intro i j hi hj
  unfold mat
  split
  · exact h.sym i j hi hj
  · exact h.sym j i hj hi

theorem lastOK_symm [TrivialStar K] {rk : Nat} {S : CS K} (h : SymCS S) (rowMajor : Bool) {D : DenseOps K} (hD : SymDenseExact rk S.psize (mat rowMajor S) D) :
    Prec.LastOK rk S.psize (mat rowMajor S) (mkLast true D) :=
  ⟨fun i j hi hj => by unfold herm; rw [star_trivial]; exact h.symMat rowMajor j i hj hi, hD.1, hD.2⟩

theorem input_symCS {A : Input K} {ijunk : Nat → Int} {raw : RawCS} {n : Nat} (hA : ValidSquare A ijunk raw n)
    (hsym : SymMat n (mat A.rowMajor (raw.toCS n A.vals))) (hpat : (raw.toCS n A.vals).PatSym) : SymCS (raw.toCS n A.vals) := by
  obtain ⟨hw, hs⟩ := C09_valid_wf raw n hA.valid A.vals hA.vsize
  have hp : (raw.toCS n A.vals).psize = n := hA.dim
  refine ⟨hw, hA.tight, hs, by rw [hp]; rfl, fun i j hi hj => ?_, hpat⟩
  have := hsym i j (by omega) (by omega)
  unfold mat at this
  split at this
  · exact this
  · exact this.symm

section
variable (e : Env K R) (o : Level.Opts R) (he : EnvOK e) (x : SymmPar K R) (other : Kernels K) (junk : Nat → K) (ijunk : Nat → Int)
  (opts : FacOpts) (hsy : opts.isSymm = true) (A : Input K) (raw : RawCS) (n : Nat) (hA : ValidSquare A ijunk raw n)
  (hsym : SymMat n (mat A.rowMajor (raw.toCS n A.vals))) (hpat : (raw.toCS n A.vals).PatSym) (hsz : SizesOK e n)
include he hsy hA hsym hpat hsz

theorem symm_represents_of (G : CS K → Prop) (hp : ∀ lvl B, G B → Runs (prepare e o true B.psize lvl B B) (SymPrepared B.psize)) (hG : G (raw.toCS n A.vals)) (hGs : ∀ S, G S → SymCS S) (hd : DenseOK true other.dense G)
    (hnext : ∀ m0 B out, LevelOut m0 o false A.rowMajor B out → (postFlag out.m2 out.m).2 ≠ 0 → B.psize ≤ n → G B → out.m < B.psize → SymCS out.schur →
      SymLevel (out.toPrec B.psize out.m).toLevel → G out.schur)
    (h : HIF K) :
    (∃ h' S, factorize junk ijunk (allKernels e o x (opts.pivot == .auto) A.rowMajor other) opts A 0 h = (h', .ok ()) ∧
      Represents true o other.dense A.rowMajor G (SignedLevel x) (raw.toCS n A.vals) S h'.precs) ∨
    (∃ h' msg S, factorize junk ijunk (allKernels e o x (opts.pivot == .auto) A.rowMajor other) opts A 0 h = (h', .error (.hif msg)) ∧ 0 < S.psize ∧ S.psize ≤ n ∧
      IsBlock G S ∧ (other.dense true S).2 = some (.hif msg)) := by
  rw [factorize_of hA]
  obtain ⟨hw, hs⟩ := C09_valid_wf raw n hA.valid A.vals hA.vsize
  have hps : (raw.toCS n A.vals).psize = n := hA.dim
  have := factorizeKernel_gen o A.rowMajor (allKernels e o x (opts.pivot == .auto) A.rowMajor other) n opts (G := G) (Lv := SignedLevel x)
    (by rw [hsy]; exact hd) (signed_zero x) (fun mp lvl N B hl w t sr sq g hn => ?_) (2 * n + 2) (raw.toCS n A.vals) false
    { h with nrows := A.nrows, ncols := A.ncols, precs := [], work := if h.empty then h.work else ⟨0, junk⟩, stats := fun _ => 0 }
    hw hA.tight hs (by rw [hps]; rfl) hG (le_of_eq hps) rfl (by simp; omega)
  · rw [hsy] at this
    rcases this with ⟨h', S, new, k1, k2, k3⟩ | ⟨h', msg, S, k1, k2, k3, k4⟩
    · left
      refine ⟨h', S, k1, ?_⟩
      rw [k2]
      exact k3
    · right
      exact ⟨h', msg, S, k1, k2, by omega, k4⟩
  · have hkind : levelKind opts false mp = .symm := by
      unfold levelKind
      rw [hsy]
      simp
    rw [hkind]
    refine (symmLevel_does_of he x A.rowMajor lvl N B.psize (hGs B g) (hp lvl B g) (hsz.mono hn)).mono ?_
    rintro out ⟨h1, h2⟩
    refine ⟨h1, fun _ h0 => ?_⟩
    obtain ⟨a1, a2, a3, a4⟩ := h2 h0
    refine ⟨⟨a1, fun i hi => ?_⟩, fun hlt => hnext _ B out h1 h0 hn g hlt (a4 hlt) a1⟩
    have hm0 := (postFlag_m h0).2
    unfold CroutOut.toPrec at hi ⊢
    rw [if_pos hm0] at hi ⊢
    exact a2 i hi

/-- The symmetric factorization with nothing dropped, whenever the preprocessing succeeds on nonsingular symmetric matrices. -/
theorem symm_exact_of [TrivialStar K] (hpr : ∀ lvl B, SymCS B → Injective B.psize (mat A.rowMajor B) → Runs (prepare e o true B.psize lvl B B) (SymPrepared B.psize)) (hnd : NoDrop o n) (hinj : Injective n (mat A.rowMajor (raw.toCS n A.vals))) (rk : Nat)
    (hd : ∀ S : CS K, SymCS S → 0 < S.psize → S.psize ≤ n → Injective S.psize (mat A.rowMajor S) →
      (other.dense true S).2 = none ∧ SymDenseExact rk S.psize (mat A.rowMajor S) (other.dense true S).1)
    (h : HIF K) (hw : h.empty = true → h.work.size = 0) (hns : h.nsp = none) :
    ∃ h₁, factorize junk ijunk (allKernels e o x (opts.pivot == .auto) A.rowMajor other) opts A 0 h = (h₁, .ok ()) ∧
      ∀ b y₀ : Buf K, b.size = n → y₀.size = n → ∃ h₂ z, solve junk b y₀ false rk h₁ = (h₂, .ok z) ∧ z.size = n ∧
        ∀ i, i < n → mulVec n (mat A.rowMajor (raw.toCS n A.vals)) z.get i = b.get i := by
  have hp : (raw.toCS n A.vals).psize = n := hA.dim
  rcases symm_represents_of e o he x other junk ijunk opts hsy A raw n hA hsym hpat hsz
      (fun S => SymCS S ∧ S.psize ≤ n ∧ Injective S.psize (mat A.rowMajor S)) (fun lvl B g => hpr lvl B g.1 g.2.2) ⟨input_symCS hA hsym hpat, le_of_eq hp, by rw [hp]; exact hinj⟩ (fun _ h => h.1)
    (fun S _ _ _ d i => Or.inr (hd S i.1 d i.2.1 i.2.2).1) (fun _ B out hout hk hle hi hlt hs _ => by
      obtain ⟨hm, hne⟩ := postFlag_m hk
      obtain ⟨k1, k2, -, -, k5⟩ := hout.kept hk (fun hc => by cases hc)
      obtain ⟨LE, UF, hx⟩ := k5 (hnd.mono hle)
      obtain ⟨pm, pn, -⟩ := toPrec_m out B.psize out.m
      have hn : (out.toPrec B.psize out.m).toLevel.n = B.psize := pn
      have hm : (out.toPrec B.psize out.m).toLevel.m = out.m := pm
      have := hx.injective (fun c => by
        obtain ⟨w, -, -, hw, -⟩ := Prec.solveLdu_runs k1 ⟨(out.toPrec B.psize out.m).toLevel.m, c⟩ (le_refl _)
        exact ⟨w.get, hw⟩) (by rw [hn]; exact hi.2.2)
      rw [hn, hm] at this
      refine ⟨hs, by omega, ?_⟩
      rw [k2]
      exact this) h with ⟨h', S, k1, k2⟩ | ⟨h', msg, S, k1, k2, k3, k4, k5⟩
  · refine ⟨h', k1, fun b y₀ hb hy => ?_⟩
    have hgood := k2.good rk fun h0 => by
      obtain ⟨b, -⟩ := k2.block h0
      exact lastOK_symm b.good.1 A.rowMajor (hd S b.good.1 h0 b.good.2.1 b.good.2.2).2
    rw [hp] at hgood
    obtain ⟨hready, hns'⟩ := factorize_ready k1 hw hns
    obtain ⟨h₂, z, s1, s2, s3⟩ := C27_solve_spec junk h' rk _ _ n hgood hready false hns' rfl b y₀ hb hy
    refine ⟨h₂, z, s1, s2, ?_⟩
    have := k2.exact (by rw [hp]; exact hnd) z.get b.get (by rw [hp]; exact s3)
    rwa [hp] at this
  · exact absurd k5 (by rw [(hd S k4.good.1 k2 k4.good.2.1 k4.good.2.2).1]; simp)

end

section
variable (e : Env K R) (o : Level.Opts R) (hc : SymmContract e o) (x : SymmPar K R) (other : Kernels K) (junk : Nat → K) (ijunk : Nat → Int)
  (opts : FacOpts) (hsy : opts.isSymm = true) (A : Input K) (raw : RawCS) (n : Nat) (hA : ValidSquare A ijunk raw n)
  (hsym : SymMat n (mat A.rowMajor (raw.toCS n A.vals))) (hpat : (raw.toCS n A.vals).PatSym) (hsz : SizesOK e n)
include hc hsy hA hsym hpat hsz

theorem symm_represents (G : CS K → Prop) (hG : G (raw.toCS n A.vals)) (hGs : ∀ S, G S → SymCS S) (hd : DenseOK true other.dense G)
    (hnext : ∀ m0 B out, LevelOut m0 o false A.rowMajor B out → (postFlag out.m2 out.m).2 ≠ 0 → B.psize ≤ n → G B → out.m < B.psize → SymCS out.schur →
      SymLevel (out.toPrec B.psize out.m).toLevel → G out.schur)
    (h : HIF K) :
    (∃ h' S, factorize junk ijunk (allKernels e o x (opts.pivot == .auto) A.rowMajor other) opts A 0 h = (h', .ok ()) ∧
      Represents true o other.dense A.rowMajor G (SignedLevel x) (raw.toCS n A.vals) S h'.precs) ∨
    (∃ h' msg S, factorize junk ijunk (allKernels e o x (opts.pivot == .auto) A.rowMajor other) opts A 0 h = (h', .error (.hif msg)) ∧ 0 < S.psize ∧ S.psize ≤ n ∧
      IsBlock G S ∧ (other.dense true S).2 = some (.hif msg)) :=
  symm_represents_of e o hc.envOK x other junk ijunk opts hsy A raw n hA hsym hpat hsz G (fun lvl B g => hc.prepared lvl (hGs B g)) hG hGs hd hnext h

/-- C70: for every valid symmetric matrix with symmetric pattern, all dropping parameters and whatever the object held before, the symmetric `factorize` either
raises an exception, which is one of the dense factorization, or completes; then the stored levels are symmetric, their pivots have the sign asked for,
the block `S` left to the dense solver is symmetric, and the levels are valid — as required by C27, C28, C29, C30 — as soon as the
dense solver solves and multiplies exactly with `S`. -/
theorem C70_factorize [TrivialStar K] (hd : ∀ S : CS K, SymCS S → 0 < S.psize → (∃ msg, (other.dense true S).2 = some (.hif msg)) ∨ (other.dense true S).2 = none)
    (h : HIF K) :
    (∃ h' S, factorize junk ijunk (allKernels e o x (opts.pivot == .auto) A.rowMajor other) opts A 0 h = (h', .ok ()) ∧ S.psize ≤ n ∧
      (∀ P ∈ h'.precs, SymLevel P.toLevel ∧ ∀ i, i < P.m → (0 < x.spd → 0 < x.re (P.d.get i)) ∧ (x.spd < 0 → x.re (P.d.get i) < 0)) ∧
      (0 < S.psize → SymCS S ∧ (other.dense true S).2 = none) ∧
      ∀ rk, (0 < S.psize → SymDenseExact rk S.psize (mat A.rowMajor S) (other.dense true S).1) → Prec.Good rk (mat A.rowMajor S) S.psize h'.precs n) ∨
    (∃ h' msg S, factorize junk ijunk (allKernels e o x (opts.pivot == .auto) A.rowMajor other) opts A 0 h = (h', .error (.hif msg)) ∧ 0 < S.psize ∧ S.psize ≤ n ∧
      SymCS S ∧ (other.dense true S).2 = some (.hif msg)) := by
  have hp : (raw.toCS n A.vals).psize = n := hA.dim
  rcases symm_represents e o hc x other junk ijunk opts hsy A raw n hA hsym hpat hsz SymCS
    (input_symCS hA hsym hpat) (fun _ h => h)
    (fun S _ _ _ d g => hd S g d) (fun _ _ _ _ _ _ _ _ hs _ => hs) h with ⟨h', S, k1, k2⟩ | ⟨h', msg, S, k1, k2, k3, k4, k5⟩
  · left
    refine ⟨h', S, k1, by have := k2.size; omega, fun P hP => ?_, fun h0 => ?_, fun rk hx => ?_⟩
    · have := k2.lv P.toLevel (List.mem_map.2 ⟨P, hP, rfl⟩)
      exact ⟨this.1, fun i hi => ⟨fun h0 => this.pos h0 hi, fun h0 => this.neg h0 hi⟩⟩
    · obtain ⟨b, b2⟩ := k2.block h0
      exact ⟨b.good, b2⟩
    · have := k2.good rk fun h0 => lastOK_symm (k2.block h0).1.good A.rowMajor (hx h0)
      rwa [hp] at this
  · right
    exact ⟨h', msg, S, k1, k2, k3, k4.good, k5⟩

/-- C70 (exactness): if nothing is dropped, the symmetric matrix is nonsingular and the symmetric dense solver is exact on every nonsingular symmetric block,
then for every history of the object the symmetric `factorize` completes, and afterwards `solve` returns, for every right-hand side, the solution of `A x = b`. -/
theorem C70_exact [TrivialStar K] (hnd : NoDrop o n) (hinj : Injective n (mat A.rowMajor (raw.toCS n A.vals))) (rk : Nat)
    (hd : ∀ S : CS K, SymCS S → 0 < S.psize → S.psize ≤ n → Injective S.psize (mat A.rowMajor S) →
      (other.dense true S).2 = none ∧ SymDenseExact rk S.psize (mat A.rowMajor S) (other.dense true S).1)
    (h : HIF K) (hw : h.empty = true → h.work.size = 0) (hns : h.nsp = none) :
    ∃ h₁, factorize junk ijunk (allKernels e o x (opts.pivot == .auto) A.rowMajor other) opts A 0 h = (h₁, .ok ()) ∧
      ∀ b y₀ : Buf K, b.size = n → y₀.size = n → ∃ h₂ z, solve junk b y₀ false rk h₁ = (h₂, .ok z) ∧ z.size = n ∧
        ∀ i, i < n → mulVec n (mat A.rowMajor (raw.toCS n A.vals)) z.get i = b.get i :=
  symm_exact_of e o hc.envOK x other junk ijunk opts hsy A raw n hA hsym hpat hsz (fun lvl _ hB _ => hc.prepared lvl hB) hnd hinj rk hd h hw hns

/-- What a completed symmetric factorization left behind. -/
theorem symm_levels (hd : ∀ S : CS K, SymCS S → 0 < S.psize → (∃ msg, (other.dense true S).2 = some (.hif msg)) ∨ (other.dense true S).2 = none)
    (h h₁ : HIF K) (ho : factorize junk ijunk (allKernels e o x (opts.pivot == .auto) A.rowMajor other) opts A 0 h = (h₁, .ok ())) :
    ∀ v ∈ h₁.precs.map Prec.toLevel, SignedLevel x v := by
  rcases symm_represents e o hc x other junk ijunk opts hsy A raw n hA hsym hpat hsz SymCS (input_symCS hA hsym hpat) (fun _ h => h)
    (fun S _ _ _ d g => hd S g d) (fun _ _ _ _ _ _ _ _ hs _ => hs) h with ⟨h', S, k1, k2⟩ | ⟨h', msg, S, k1, k2, k3, k4, k5⟩
  · rw [ho] at k1
    obtain ⟨rfl, -⟩ := Prod.mk.inj k1
    exact k2.lv
  · rw [ho] at k1
    exact absurd (Prod.mk.inj k1).2 (by simp)

/-- C70 (symmetry): whatever is dropped and deferred, the preconditioner of a symmetric factorization is a symmetric operator: after a completed `factorize`, if the
stored levels are valid with a symmetric dense block `S` (`C70_factorize` gives one), then for all right-hand sides `b` and `c`,
`Σ c_i solve(b)_i = Σ solve(c)_i b_i`; and the solve with the transposed operator (`trans = true`) returns the same vector. -/
theorem C70_symmetric [TrivialStar K] (hd : ∀ S : CS K, SymCS S → 0 < S.psize → (∃ msg, (other.dense true S).2 = some (.hif msg)) ∨ (other.dense true S).2 = none)
    (h h₁ : HIF K) (hw : h.empty = true → h.work.size = 0) (hns : h.nsp = none) (hns' : h.nspTran = none)
    (ho : factorize junk ijunk (allKernels e o x (opts.pivot == .auto) A.rowMajor other) opts A 0 h = (h₁, .ok ()))
    (rk kf : Nat) (S : Nat → Nat → K) (hS : SymMat kf S) (hgood : Prec.Good rk S kf h₁.precs n) :
      (∀ b c y₀ z₀ : Buf K, b.size = n → c.size = n → y₀.size = n → z₀.size = n →
        ∃ h₂ u h₃ w, solve junk b y₀ false rk h₁ = (h₂, .ok u) ∧ solve junk c z₀ false rk h₂ = (h₃, .ok w) ∧ dot n c.get u.get = dot n w.get b.get) ∧
      (∀ b y₀ z₀ : Buf K, b.size = n → y₀.size = n → z₀.size = n →
        ∃ h₂ u h₃ w, solve junk b y₀ false rk h₁ = (h₂, .ok u) ∧ solve junk b z₀ true rk h₂ = (h₃, .ok w) ∧ ∀ i, i < n → w.get i = u.get i) := by
  have hlv := symm_levels e o hc x other junk ijunk opts hsy A raw n hA hsym hpat hsz hd h h₁ ho
  obtain ⟨hready, hn1⟩ := factorize_ready ho hw hns
  have hn2 := factorize_nspTran ho hns'
  have key : ∀ {u w b c : Nat → K}, Applies S (h₁.precs.map Prec.toLevel) n u b → Applies S (h₁.precs.map Prec.toLevel) n w c →
      dot n c u = dot n w b := fun a1 a2 => (Applies.symmetric hS hgood.chain (fun v hv => (hlv v hv).1) a1 a2).symm
  refine ⟨fun b c y₀ z₀ hb hcs hy hz => ?_, fun b y₀ z₀ hb hy hz => ?_⟩
  · obtain ⟨h₂, u, e1, ⟨w', hw', rfl⟩, s1, a1⟩ := solve_does (junk := junk) hgood hready false hn1 b y₀ hb hy
    obtain ⟨h₃, w, e2, -, s2, a2⟩ := solve_does (junk := junk) (h := { h₁ with work := w' }) hgood (Or.inr hw') false hn1 c z₀ hcs hz
    exact ⟨_, u, h₃, w, e1, e2, key a1 a2⟩
  · obtain ⟨h₂, u, e1, ⟨w', hw', rfl⟩, s1, a1⟩ := solve_does (junk := junk) hgood hready false hn1 b y₀ hb hy
    obtain ⟨h₃, w, e2, -, s2, a2⟩ := solve_does (junk := junk) (h := { h₁ with work := w' }) hgood (Or.inr hw') true hn2 b z₀ hb hz
    refine ⟨_, u, h₃, w, e1, e2, fun i hi => ?_⟩
    -- compare with the solution for the `i`-th unit vector
    obtain ⟨h₄, g, -, -, s4, a4⟩ := solve_does (junk := junk) (h := { h₁ with work := w' }) hgood (Or.inr hw') false hn1 ⟨n, fun j => if j = i then 1 else 0⟩ y₀ rfl hy
    have q1 := key a4 a1
    have q2 := Applies.adjoint hgood.chain (fun v _ => ⟨fun _ => star_trivial _, fun _ => star_trivial _⟩) a4 a2
    have unit : ∀ f : Nat → K, dot n f (fun j => if j = i then 1 else 0) = f i := fun f => by
      unfold dot
      rw [sum_eq_single_of_mem i (mem_range.2 hi) (fun j _ hj => by simp [hj])]
      simp
    have q2' : dot n w.get (fun j => if j = i then 1 else 0) = dot n b.get g.get := by
      have : ∀ f g : Nat → K, ip n f g = dot n f g := fun f g => by unfold ip dot; exact sum_congr rfl fun _ _ => by rw [star_trivial]
      rw [this, this] at q2
      exact q2
    have q1' : dot n b.get g.get = dot n u.get (fun j => if j = i then 1 else 0) := q1
    rw [q1', unit, unit] at q2'
    exact q2'

end

end

section definite
variable {R : Type} [Field R] [StarRing R] [TrivialStar R] [DecidableEq R] [Inhabited R] [LinearOrder R] [IsStrictOrderedRing R] [FloorSemiring R]

/-- C70 (definiteness): with `spd > 0` the preconditioner of a completed symmetric factorization is positive definite (`Σ b_i solve(b)_i > 0` for every `b ≠ 0`)
whatever is dropped and deferred, provided the dense block `S` with which the stored levels are valid is positive definite; with `spd < 0` likewise
negative definite. -/
theorem C70_definite (e : Env R R) (o : Level.Opts R) (hc : SymmContract e o) (spd : Int) (other : Kernels R) (junk : Nat → R) (ijunk : Nat → Int)
    (opts : FacOpts) (hsy : opts.isSymm = true) (A : Input R) (raw : RawCS) (n : Nat) (hA : ValidSquare A ijunk raw n)
    (hsym : SymMat n (mat A.rowMajor (raw.toCS n A.vals))) (hpat : (raw.toCS n A.vals).PatSym) (hsz : SizesOK e n)
    (hd : ∀ S : CS R, SymCS S → 0 < S.psize → (∃ msg, (other.dense true S).2 = some (.hif msg)) ∨ (other.dense true S).2 = none)
    (h h₁ : HIF R) (hw : h.empty = true → h.work.size = 0) (hns : h.nsp = none)
    (ho : factorize junk ijunk (allKernels e o ⟨fun a => a, spd⟩ (opts.pivot == .auto) A.rowMajor other) opts A 0 h = (h₁, .ok ()))
    (rk kf : Nat) (S : Nat → Nat → R) (hgood : Prec.Good rk S kf h₁.precs n)
    (b y₀ : Buf R) (hb : b.size = n) (hy : y₀.size = n) (hne : ∃ i, i < n ∧ b.get i ≠ 0) :
    ∃ h₂ u, solve junk b y₀ false rk h₁ = (h₂, .ok u) ∧
        (0 < spd → PosDef kf S → 0 < dot n b.get u.get) ∧
        (spd < 0 → PosDef kf (fun i j => -S i j) → dot n b.get u.get < 0) := by
  have hlv := symm_levels e o hc ⟨fun a => a, spd⟩ other junk ijunk opts hsy A raw n hA hsym hpat hsz hd h h₁ ho
  obtain ⟨hready, hn1⟩ := factorize_ready ho hw hns
  obtain ⟨h₂, u, s1, s2, s3⟩ := C27_solve_spec junk h₁ rk _ _ n hgood hready false hn1 rfl b y₀ hb hy
  have hu : ∃ i, i < n ∧ u.get i ≠ 0 := by
    by_contra hc0
    push Not at hc0
    obtain ⟨i, hi, hbi⟩ := hne
    exact hbi (Applies.unique_b hgood.chain s3 (Applies.zero hgood.chain) hc0 i hi)
  refine ⟨h₂, u, s1, fun h0 hS => ?_, fun h0 hS => ?_⟩
  · rw [dot_comm]
    exact Applies.pos hS hgood.chain (fun v hv => ⟨(hlv v hv).1, fun i hi => (hlv v hv).pos h0 hi⟩) s3 hu
  · rw [dot_comm]
    exact Applies.neg hS hgood.chain (fun v hv => ⟨(hlv v hv).1, fun i hi => (hlv v hv).neg h0 hi⟩) s3 hu

end definite
end Hif.Props
