import Verif.FactorRun
import Verif.Props.Pre
import Verif.Props.Valid

set_option linter.unusedSectionVars false
set_option linter.unusedVariables false

/-!
# C62: one level of the factorization; C63: the whole factorization
-/

namespace Hif.Props
open Hif Level Spec HIF HM Finset

section
variable {K R : Type} [Field K] [StarRing K] [DecidableEq K] [Inhabited K] [Field R] [LinearOrder R] [IsStrictOrderedRing R] [FloorSemiring R]

/-- What a level relies on outside the modelled code: a multiplicative embedding of the real scalars, non-negative magnitudes, a partial sort that
selects, a sort that rearranges; and either preprocessing is off, or matching and orderings keep their contracts (C58) for the options in use. -/
structure LevelContract (e : Env K R) (o : Level.Opts R) : Prop where
  one : e.a.emb 1 = 1
  mul : ∀ x y, e.a.emb (x * y) = e.a.emb x * e.a.emb y
  nrm : ∀ x, 0 ≤ e.a.nrm x
  nth : SV.NthSpec e.nth
  srt : ∀ f l, (e.srt f l).Perm l
  pre : o.noPre = true ∨ (ArithSpec e.a ∧ MatchingOK e.pre.mc64 ∧ OrderingOK e.pre.amd ∧ 0 ≤ o.pre.reorder ∧ o.pre.reorder ≤ 2 ∧
    (o.pre.preScale = 0 ∨ o.pre.preScale = 1) ∧ (o.pre.reorder = 1 → o.symmPreLvls = 0 ∨ OrderingOK e.pre.rcm))

theorem LevelContract.envOK {e : Env K R} {o : Level.Opts R} (h : LevelContract e o) : EnvOK e := ⟨⟨h.one, h.mul⟩, h.nrm, h.nth, h.srt⟩

theorem LevelContract.prepOK {e : Env K R} {o : Level.Opts R} (h : LevelContract e o) (G : Nat → (Nat → Nat → K) → Prop) : PrepOK e o G := by
  intro sym lvl n Accs Acrs h2 hG hl hs
  have hn : Acrs.psize = n := h2.pre.rp
  rcases h.pre with h0 | ⟨ha, hk, hamd, hr1, hr2, hps, hrcm⟩
  · have := prepare_noPre e o h0 sym n lvl Accs Acrs
    rwa [hn] at this
  · by_cases h0 : o.noPre = true
    · have := prepare_noPre e o h0 sym n lvl Accs Acrs
      rwa [hn] at this
    · unfold prepare
      rw [if_neg h0]
      refine (Pre.doPreprocess_runs_of ha.ok (ker := e.pre) sym o.pre lvl h2.pre (fun B _ => hk.for _ B) ⟨hr1, by omega⟩
        (fun a b => by rcases hps with c | c <;> contradiction) (fun _ c => by omega) (fun m b hb _ => hamd m b hb)
        (fun _ _ => True) (fun hc m b hb _ => ?_) (fun _ _ _ _ _ => trivial)).mono ?_
      · rcases hc with ⟨c1, c2⟩ | c
        · rcases hrcm c2 with c3 | c3
          · exact absurd c3 (hs c1)
          · exact c3 m b hb
        · omega
      · rintro r ⟨hr, g1, g2, -⟩
        exact ⟨hr.mle, hr.ssz, hr.tsz, hr.spos, hr.tpos, g1, g2⟩

/-- C62: for every valid square matrix and all options covered by the contract, a level runs to the end without an access out of range; if it is kept,
it hands over a valid level (triangular factors, nonzero pivots and scalings, mutually inverse permutations) and a valid matrix for the next level,
of dimension `n - m`. -/
theorem C62_level {e : Env K R} {o : Level.Opts R} (hc : LevelContract e o) (auto rowMajor : Bool) (lvl N : Nat) (hlvl : 0 < lvl) (A : CS K) (hA : A.WF)
    (ht : A.Tight) (hs : A.Sorted) (hsq : A.ssize = A.psize) (hsz : SizesOK e A.psize) :
    ∃ out, plainLevel e o auto rowMajor lvl N A.psize A = .ok out ∧ out.m ≤ out.m2 ∧ out.m2 ≤ A.psize ∧
      (out.m2 < 4 * out.m → (auto = true → 2 * out.m2 < 5 * out.m) →
        (out.toPrec A.psize out.m).OK ∧ out.schur.psize = A.psize - out.m ∧ out.schur.ssize = A.psize - out.m ∧
        (out.m < A.psize → out.schur.WF ∧ out.schur.Tight ∧ out.schur.Sorted)) := by
  obtain ⟨out, eo, ho⟩ := plainLevel_runs hc.envOK o (hc.prepOK fun _ _ => True) (fun _ _ _ _ _ => trivial) auto rowMajor lvl N hlvl hA ht hs hsq trivial hsz
  refine ⟨out, eo, ho.mle, ho.m2le, fun h4 h5 => ?_⟩
  obtain ⟨k1, k2, k3, k4, -⟩ := ho.kept (by unfold postFlag; rw [if_neg (by omega)]; split <;> (show out.m ≠ 0; omega))
    (fun ha => by have := h5 ha; unfold postFlag; rw [if_neg (by omega), if_neg (by omega)])
  exact ⟨k1, k2, k3, k4⟩

/-- C62 (exact): with parameters that drop nothing, the level and the matrix handed to the next level represent the input exactly: in the final
ordering and scaling it is `[[L D U, F], [E, L_E D U_F + S]]` with `E = L_E D U` and `F = L D U_F` (`Spec.ExactLevel`); hence solving with the level and
with `S` solves with `A`, and `S` is nonsingular if `A` is. -/
theorem C62_exact {e : Env K R} {o : Level.Opts R} (hc : LevelContract e o) (auto rowMajor : Bool) (lvl N : Nat) (hlvl : 0 < lvl) (A : CS K) (hA : A.WF)
    (ht : A.Tight) (hs : A.Sorted) (hsq : A.ssize = A.psize) (hsz : SizesOK e A.psize) (hnd : NoDrop o A.psize) (out : CroutOut K)
    (ho : plainLevel e o auto rowMajor lvl N A.psize A = .ok out) (h4 : out.m2 < 4 * out.m) (h5 : auto = true → 2 * out.m2 < 5 * out.m) :
    let v := (out.toPrec A.psize out.m).toLevel
    let S := mat rowMajor out.schur
    (∃ LE UF, ExactLevel v S (mat rowMajor A) LE UF) ∧
    (∀ x b z g : Nat → K,
      (∀ i, i < v.m → ldu v.m v.L v.d v.U (fun j => x (v.q j) / v.t (v.q j)) i +
        mulVec (v.n - v.m) v.F (fun j => x (v.q (v.m + j)) / v.t (v.q (v.m + j))) i = v.s (v.p i) * b (v.p i)) →
      (∀ i, i < v.m → ldu v.m v.L v.d v.U z i = v.s (v.p i) * b (v.p i)) →
      (∀ i, i < v.n - v.m → mulVec (v.n - v.m) S (fun j => x (v.q (v.m + j)) / v.t (v.q (v.m + j))) i = g i) →
      (∀ i, i < v.n - v.m → mulVec v.m v.E z i + g i = v.s (v.p (v.m + i)) * b (v.p (v.m + i))) →
      ∀ i, i < A.psize → mulVec A.psize (mat rowMajor A) x i = b i) ∧
    (Injective A.psize (mat rowMajor A) → Injective (A.psize - out.m) S) := by
  intro v S
  obtain ⟨out', eo, hl⟩ := plainLevel_runs hc.envOK o (hc.prepOK fun _ _ => True) (fun _ _ _ _ _ => trivial) auto rowMajor lvl N hlvl hA ht hs hsq trivial hsz
  obtain rfl : out = out' := Except.ok.inj (ho.symm.trans eo)
  obtain ⟨k1, -, -, -, k5⟩ := hl.kept (by unfold postFlag; rw [if_neg (by omega)]; split <;> (show out.m ≠ 0; omega))
    (fun ha => by have := h5 ha; unfold postFlag; rw [if_neg (by omega), if_neg (by omega)])
  obtain ⟨LE, UF, hx⟩ := k5 hnd
  obtain ⟨pm, pn, -⟩ := toPrec_m out A.psize out.m
  have hn : v.n = A.psize := pn
  have hm : v.m = out.m := pm
  refine ⟨⟨LE, UF, hx⟩, fun x b z g h1 h2 h3 h4 => ?_, fun hi => ?_⟩
  · have := hx.solves h1 h2 h3 h4
    rwa [hn] at this
  · have := hx.injective (fun c => by
      obtain ⟨w, -, -, hw, -⟩ := Prec.solveLdu_runs k1 ⟨v.m, c⟩ (le_refl _)
      exact ⟨w.get, hw⟩) (by rw [hn]; exact hi)
    rwa [hn, hm] at this

/-! ### reference sizes -/

/-- C62 (statistics): what a level adds to `stats(0..3)`: all rows that are not eliminated here, the rows deferred by the Crout phase (nothing if the level is
empty), and the two reasons of deferral, which add up to the deferred rows unless more than three quarters of the block were deferred. -/
theorem C62_stats {e : Env K R} {o : Level.Opts R} (hc : LevelContract e o) (auto rowMajor : Bool) (lvl N : Nat) (hlvl : 0 < lvl) (A : CS K) (hA : A.WF)
    (ht : A.Tight) (hs : A.Sorted) (hsq : A.ssize = A.psize) (hsz : SizesOK e A.psize) (out : CroutOut K)
    (ho : plainLevel e o auto rowMajor lvl N A.psize A = .ok out) :
    (4 * out.m ≤ out.m2 → out.stats 0 = A.psize ∧ out.stats 1 = 0 ∧ out.stats 2 = 0 ∧ out.stats 3 = 0) ∧
    (out.m2 < 4 * out.m → out.stats 0 + out.m = A.psize ∧ out.stats 1 + out.m = out.m2 ∧ out.stats 2 + out.stats 3 = out.stats 1) := by
  obtain ⟨out', eo, hl⟩ := plainLevel_runs hc.envOK o (hc.prepOK fun _ _ => True) (fun _ _ _ _ _ => trivial) auto rowMajor lvl N hlvl hA ht hs hsq trivial hsz
  obtain rfl : out = out' := Except.ok.inj (ho.symm.trans eo)
  obtain ⟨s0, s1, s2⟩ := hl.stats
  have h1 := hl.mle
  have h2 := hl.m2le
  constructor
  · intro h4
    have hp : postFlag out.m2 out.m = (2, 0) := by unfold postFlag; rw [if_pos h4]
    rw [hp] at s0 s1 s2
    simp at s0 s1 s2
    exact ⟨s0, s1, s2.1, s2.2⟩
  · intro h4
    have hp : (postFlag out.m2 out.m).2 = out.m ∧ (postFlag out.m2 out.m).1 ≠ 2 := by
      unfold postFlag
      rw [if_neg (by omega)]
      split <;> exact ⟨rfl, by simp⟩
    rw [hp.1] at s0 s1
    rw [if_neg hp.2] at s2
    rw [if_pos (by omega)] at s1
    omega

/-- C62 (reference sizes): for a valid matrix with at least one entry the initial reference sizes are positive, one for every line, … -/
theorem C62_initial_sizes (A : CS K) (hA : A.WF) (hn : 0 < A.psize) (hnz : 0 < A.start.get A.psize) :
    ∃ b, initSizes A (A.start.get A.psize) A.psize = .ok b ∧ b.size = A.psize ∧ ∀ i, i < A.psize → 0 < b.get i ∧ A.start.get (i + 1) - A.start.get i ≤ b.get i := by
  unfold initSizes
  have hss := hA.start_size
  set lower := (85 * A.start.get A.psize + (100 * A.psize - 1)) / (100 * A.psize) with hlow
  have hlo : 0 < lower := by
    rw [hlow]
    exact Nat.div_pos (by omega) (by omega)
  have : Runs (do
      let b ← forUp 0 A.psize (Buf.mk' A.psize 0) fun i b => do
        let x ← A.start.rd (i + 1)
        let y ← A.start.rd i
        b.wr i (x - y)
      forUp 0 A.psize b fun i b => do
        let x ← b.rd i
        if x < lower then b.wr i lower else pure b : M (Buf Nat)) fun b => b.size = A.psize ∧ ∀ i, i < A.psize → 0 < b.get i ∧ A.start.get (i + 1) - A.start.get i ≤ b.get i := by
    rw [runs_bind]
    refine forUp_runs' (fun i b => b.size = A.psize ∧ ∀ j, j < i → b.get j = A.start.get (j + 1) - A.start.get j) (Nat.zero_le _) ⟨rfl, fun j hj => by omega⟩ ?_ ?_
    · rintro i b _ hi ⟨b1, b2⟩
      simp only [runs_bind, runs_rd, runs_wr, Buf.set_size, Buf.set_get]
      refine ⟨by omega, by omega, by omega, b1, fun j hj => ?_⟩
      by_cases hji : j = i
      · subst hji; simp
      · rw [if_neg hji]; exact b2 j (by omega)
    · rintro b ⟨b1, b2⟩
      refine forUp_runs' (fun i c => c.size = A.psize ∧ (∀ j, j < i → 0 < c.get j ∧ b.get j ≤ c.get j) ∧ ∀ j, i ≤ j → c.get j = b.get j) (Nat.zero_le _)
        ⟨b1, fun j hj => by omega, fun _ _ => rfl⟩ ?_ ?_
      · rintro i c _ hi ⟨c1, c2, c3⟩
        rw [runs_bind, runs_rd]
        refine ⟨by omega, ?_⟩
        have hci := c3 i (le_refl _)
        split
        · rename_i hlt
          simp only [runs_wr, Buf.set_size, Buf.set_get]
          refine ⟨by omega, c1, fun j hj => ?_, fun j hj => ?_⟩
          · by_cases hji : j = i
            · subst hji; simp only [if_true]; omega
            · rw [if_neg hji]; exact c2 j (by omega)
          · rw [if_neg (by omega)]; exact c3 j (by omega)
        · rename_i hlt
          simp only [runs_pure]
          refine ⟨c1, fun j hj => ?_, fun j hj => c3 j (by omega)⟩
          by_cases hji : j = i
          · subst hji; omega
          · exact c2 j (by omega)
      · rintro c ⟨c1, c2, -⟩
        refine ⟨c1, fun i hi => ⟨(c2 i hi).1, ?_⟩⟩
        have := (c2 i hi).2
        rw [b2 i hi] at this
        exact this
  exact this

/-- … and those of the next level are the ones of the deferred lines, so they stay positive. -/
theorem C62_next_sizes (n m : Nat) (hm : m ≤ n) (sz p : Buf Nat) (hs : n ≤ sz.size) (hp : p.size = n) (hpp : Spec.IsPerm n p.get) :
    ∃ b, nextSizes n m sz p = .ok b ∧ b.size = sz.size ∧ (∀ i, i < n - m → b.get i = sz.get (p.get (m + i))) ∧
      ((∀ i, i < n → 0 < sz.get i) → ∀ i, i < n - m → 0 < b.get i) := by
  have : Runs (nextSizes n m sz p) fun b => b.size = sz.size ∧ ∀ i, i < n - m → b.get i = sz.get (p.get (m + i)) := by
    unfold nextSizes
    rw [runs_bind]
    refine forUp_runs' (fun i P => P.size = n * 2 ∧ ∀ j, m ≤ j → j < i → P.get j = sz.get (p.get j)) hm ⟨rfl, fun j hj hj' => by omega⟩ ?_ ?_
    · rintro i P hi hin ⟨b1, b2⟩
      have := hpp.1 i hin
      simp only [runs_bind, runs_rd, runs_wr, Buf.set_size, Buf.set_get]
      refine ⟨by omega, by omega, by omega, b1, fun j hj hj' => ?_⟩
      by_cases hji : j = i
      · subst hji; simp
      · rw [if_neg hji]; exact b2 j hj (by omega)
    · rintro P ⟨b1, b2⟩
      refine forUp_runs' (fun i c => c.size = sz.size ∧ ∀ j, j < i - m → c.get j = sz.get (p.get (m + j))) hm ⟨rfl, fun j hj => by omega⟩ ?_ ?_
      · rintro i c hi hin ⟨c1, c2⟩
        simp only [runs_bind, runs_rd, runs_wr, Buf.set_size, Buf.set_get]
        refine ⟨by omega, by omega, c1, fun j hj => ?_⟩
        by_cases hji : j = i - m
        · subst hji
          rw [if_pos rfl, b2 i hi hin]
          congr 2; omega
        · rw [if_neg hji]; exact c2 j (by omega)
      · rintro c h
        exact h
  obtain ⟨b, eb, b1, b2⟩ := this
  exact ⟨b, eb, b1, b2, fun h i hi => by rw [b2 i hi]; exact h _ (hpp.1 _ (by omega))⟩

/-! ## C63 -/

/-- A matrix given by the user: after the conversion to base 0 its arrays are `raw`, which describe a valid square matrix of dimension `n`, each array
having exactly the length it needs. -/
structure ValidSquare (A : Input K) (ijunk : Nat → Int) (raw : RawCS) (n : Nat) : Prop where
  zero : A.toZeroBased ijunk = .ok raw
  valid : ValidInput raw n
  dim : raw.psize = n
  dim' : A.raw.psize = n
  other : A.other = n
  start : raw.start.size = n + 1
  inds : (raw.inds.size : Int) = raw.start.get n
  vsize : A.vals.size = raw.vsize
  vals : (A.vals.size : Int) = raw.start.get n

theorem ValidSquare.tight {A : Input K} {ijunk : Nat → Int} {raw : RawCS} {n : Nat} (h : ValidSquare A ijunk raw n) : (raw.toCS n A.vals).Tight := by
  have h1 := h.start
  have h2 := h.inds
  have h3 := h.vals
  have h4 := h.dim
  subst h4
  refine ⟨h1, ?_, ?_⟩
  · simp only [RawCS.toCS]; omega
  · simp only [RawCS.toCS]; omega

/-- `factorize` from the beginning. -/
theorem factorize_of {A : Input K} {ijunk : Nat → Int} {raw : RawCS} {n : Nat} (h : ValidSquare A ijunk raw n) (junk : Nat → K) (ker : Kernels K) (opts : FacOpts)
    (m0 : Nat) (h0 : HIF K) : factorize junk ijunk ker opts A m0 h0 = factorizeKernel ker opts (2 * n + 2) (raw.toCS n A.vals) m0 false
      { h0 with nrows := A.nrows, ncols := A.ncols, precs := [], work := if h0.empty then h0.work else ⟨0, junk⟩, stats := fun _ => 0 } := by
  unfold factorize
  rw [bind_ok (h' := { h0 with nrows := A.nrows, ncols := A.ncols, precs := [], work := if h0.empty then h0.work else ⟨0, junk⟩, stats := fun _ => 0 }) (a := ()) rfl]
  rw [bind_ok (h' := { h0 with nrows := A.nrows, ncols := A.ncols, precs := [], work := if h0.empty then h0.work else ⟨0, junk⟩, stats := fun _ => 0 }) (a := raw)
    (by unfold HM.lift; rw [h.zero])]
  have hv : (if opts.check then raw.checkValidity A.other else pure () : M Unit) = .ok () := by
    split
    · rw [h.other]; exact C09_valid_accepted raw n h.valid (by rw [h.start, h.dim])
    · rfl
  rw [hv, bind_ok (h' := { h0 with nrows := A.nrows, ncols := A.ncols, precs := [], work := if h0.empty then h0.work else ⟨0, junk⟩, stats := fun _ => 0 }) (a := ()) rfl]
  rw [h.dim', h.other]

variable (e : Env K R) (o : Level.Opts R) (hc : LevelContract e o) (other : Kernels K) (junk : Nat → K) (ijunk : Nat → Int)
  (opts : FacOpts) (hsy : opts.isSymm = false) (A : Input K) (raw : RawCS) (n : Nat) (hA : ValidSquare A ijunk raw n) (hsz : SizesOK e n)
include hc hsy hA hsz

theorem factorize_represents (G : Nat → (Nat → Nat → K) → Prop) (hGc : ∀ n T T', (∀ i j, i < n → j < n → T i j = T' i j) → G n T → G n T')
    (hG : G n (mat A.rowMajor (raw.toCS n A.vals))) (hd : DenseOK false other.dense (onMat A.rowMajor G))
    (hnext : ∀ m0 B out, LevelOut m0 o false A.rowMajor B out → (postFlag out.m2 out.m).2 ≠ 0 → B.psize ≤ n → G B.psize (mat A.rowMajor B) →
      G (B.psize - out.m) (mat A.rowMajor out.schur)) (h : HIF K) :
    (∃ h' S, factorize junk ijunk (kernels e o (opts.pivot == .auto) A.rowMajor other) opts A 0 h = (h', .ok ()) ∧
      Represents false o other.dense A.rowMajor (onMat A.rowMajor G) (fun _ => True) (raw.toCS n A.vals) S h'.precs) ∨
    (∃ h' msg S, factorize junk ijunk (kernels e o (opts.pivot == .auto) A.rowMajor other) opts A 0 h = (h', .error (.hif msg)) ∧ 0 < S.psize ∧ S.psize ≤ n ∧
      IsBlock (onMat A.rowMajor G) S ∧ (other.dense false S).2 = some (.hif msg)) := by
  rw [factorize_of hA]
  obtain ⟨hw, hs⟩ := C09_valid_wf raw n hA.valid A.vals hA.vsize
  have hp : (raw.toCS n A.vals).psize = n := hA.dim
  rcases factorizeKernel_runs hc.envOK o (hc.prepOK G) hGc A.rowMajor other n hd hnext hsz opts hsy (2 * n + 2) (raw.toCS n A.vals) false
    { h with nrows := A.nrows, ncols := A.ncols, precs := [], work := if h.empty then h.work else ⟨0, junk⟩, stats := fun _ => 0 }
    hw hA.tight hs (by rw [hp]; rfl) (by rw [hp]; exact hG) (le_of_eq hp) rfl (by simp; omega) with ⟨h', S, new, k1, k2, k3⟩ | ⟨h', msg, S, k1, k2, k3, k4⟩
  · left
    refine ⟨h', S, k1, ?_⟩
    rw [k2]
    exact k3
  · right
    exact ⟨h', msg, S, k1, k2, by omega, k4⟩

/-- C63: for every valid square matrix (0- or 1-based, rows or columns), all dropping parameters and whatever the object held before, `factorize` without
pivoting, with pivoting or switching to pivoting when a level defers too much (`opts.pivot`) either raises an exception, which is one of the dense factorization, or completes; then the stored levels are valid — as required by C27, C28, C29,
C30 — as soon as the dense solver solves and multiplies exactly with the block `S` it was given. -/
theorem C63_factorize (hd : ∀ S : CS K, S.WF → S.Sorted → S.ssize = S.psize → 0 < S.psize → (∃ msg, (other.dense false S).2 = some (.hif msg)) ∨ (other.dense false S).2 = none)
    (h : HIF K) :
    (∃ h' S, factorize junk ijunk (kernels e o (opts.pivot == .auto) A.rowMajor other) opts A 0 h = (h', .ok ()) ∧ S.psize ≤ n ∧
      (0 < S.psize → S.WF ∧ S.Sorted ∧ S.ssize = S.psize ∧ (other.dense false S).2 = none) ∧
      ∀ rk, (0 < S.psize → Prec.DenseExact rk S.psize (mat A.rowMajor S) (other.dense false S).1) → Prec.Good rk (mat A.rowMajor S) S.psize h'.precs n) ∨
    (∃ h' msg S, factorize junk ijunk (kernels e o (opts.pivot == .auto) A.rowMajor other) opts A 0 h = (h', .error (.hif msg)) ∧ 0 < S.psize ∧ S.psize ≤ n ∧
      S.WF ∧ S.Sorted ∧ S.ssize = S.psize ∧ (other.dense false S).2 = some (.hif msg)) := by
  have hp : (raw.toCS n A.vals).psize = n := hA.dim
  rcases factorize_represents e o hc other junk ijunk opts hsy A raw n hA hsz (fun _ _ => True) (fun _ _ _ _ _ => trivial) trivial
    (fun S a b c d _ => hd S a b c d) (fun _ _ _ _ _ _ _ => trivial) h with ⟨h', S, k1, k2⟩ | ⟨h', msg, S, k1, k2, k3, k4, k5⟩
  · left
    refine ⟨h', S, k1, by have := k2.size; omega, fun h0 => ?_, fun rk hx => ?_⟩
    · obtain ⟨b, b2⟩ := k2.block h0
      exact ⟨b.wf, b.sorted, b.sq, b2⟩
    · have := k2.good rk hx
      rwa [hp] at this
  · right
    exact ⟨h', msg, S, k1, k2, k3, k4.wf, k4.sorted, k4.sq, k5⟩

/-- C63 (exactness): if nothing is dropped, the matrix is nonsingular and the dense solver is exact on every nonsingular block, then for every history of the
object `factorize` completes, and afterwards `solve` returns, for every right-hand side, the solution of `A x = b`. -/
theorem C63_exact (hnd : NoDrop o n) (hinj : Injective n (mat A.rowMajor (raw.toCS n A.vals))) (rk : Nat)
    (hd : ∀ S : CS K, S.WF → S.Sorted → S.ssize = S.psize → 0 < S.psize → S.psize ≤ n → Injective S.psize (mat A.rowMajor S) →
      (other.dense false S).2 = none ∧ Prec.DenseExact rk S.psize (mat A.rowMajor S) (other.dense false S).1)
    (h : HIF K) (hw : h.empty = true → h.work.size = 0) (hns : h.nsp = none) :
    ∃ h₁, factorize junk ijunk (kernels e o (opts.pivot == .auto) A.rowMajor other) opts A 0 h = (h₁, .ok ()) ∧
      ∀ b y₀ : Buf K, b.size = n → y₀.size = n → ∃ h₂ x, solve junk b y₀ false rk h₁ = (h₂, .ok x) ∧ x.size = n ∧
        ∀ i, i < n → mulVec n (mat A.rowMajor (raw.toCS n A.vals)) x.get i = b.get i := by
  have hp : (raw.toCS n A.vals).psize = n := hA.dim
  rcases factorize_represents e o hc other junk ijunk opts hsy A raw n hA hsz (fun k T => k ≤ n ∧ Injective k T)
      (fun k T T' hT hi => ⟨hi.1, fun x y hxy => hi.2 x y fun i hi' => by
        have := hxy i hi'
        unfold mulVec at *
        rw [sum_congr rfl fun j hj => by rw [hT i j hi' (mem_range.1 hj)], this]
        exact sum_congr rfl fun j hj => by rw [hT i j hi' (mem_range.1 hj)]⟩) ⟨le_refl _, hinj⟩
    (fun S a b c d i => Or.inr (hd S a b c d i.1 i.2).1) (fun _ B out hout hk hle hi => by
      obtain ⟨hm, hne⟩ := postFlag_m hk
      obtain ⟨k1, -, -, -, k5⟩ := hout.kept hk (fun hc => by cases hc)
      obtain ⟨LE, UF, hx⟩ := k5 (hnd.mono hle)
      obtain ⟨pm, pn, -⟩ := toPrec_m out B.psize out.m
      have hn : (out.toPrec B.psize out.m).toLevel.n = B.psize := pn
      have hm : (out.toPrec B.psize out.m).toLevel.m = out.m := pm
      have := hx.injective (fun c => by
        obtain ⟨w, -, -, hw, -⟩ := Prec.solveLdu_runs k1 ⟨(out.toPrec B.psize out.m).toLevel.m, c⟩ (le_refl _)
        exact ⟨w.get, hw⟩) (by rw [hn]; exact hi.2)
      rw [hn, hm] at this
      exact ⟨by omega, this⟩) h with ⟨h', S, k1, k2⟩ | ⟨h', msg, S, k1, k2, k3, k4, k5⟩
  · refine ⟨h', k1, fun b y₀ hb hy => ?_⟩
    have hgood := k2.good rk fun h0 => by
      obtain ⟨b, -⟩ := k2.block h0
      exact (hd S b.wf b.sorted b.sq h0 b.good.1 b.good.2).2
    rw [hp] at hgood
    obtain ⟨ps, st, hfr⟩ := factorize_frame junk ijunk (kernels e o (opts.pivot == .auto) A.rowMajor other) opts A 0 h
    rw [k1] at hfr
    have hfr : h' = _ := hfr
    have hready : Ready h' := by
      left
      rw [hfr]
      show (if h.empty then h.work else ⟨0, junk⟩ : Buf K).size = 0
      split
      · rename_i hc; exact hw hc
      · rfl
    have hns' : h'.nsp = none := by rw [hfr]; exact hns
    obtain ⟨h₂, x, s1, s2, s3⟩ := C27_solve_spec junk h' rk _ _ n hgood hready false hns' rfl b y₀ hb hy
    refine ⟨h₂, x, s1, s2, ?_⟩
    have := k2.exact (by rw [hp]; exact hnd) x.get b.get (by rw [hp]; exact s3)
    rwa [hp] at this
  · exact absurd k5 (by rw [(hd S k4.wf k4.sorted k4.sq k2 k4.good.1 k4.good.2).1]; simp)

end
end Hif.Props
