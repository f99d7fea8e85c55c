import Verif.Props.PLevel
import Verif.Props.Amd
import Verif.Has

set_option linter.unusedSectionVars false
set_option linter.unusedVariables false

/-!
# C62, C66 with the library's own matching, AMD and RCM

`LevelContract` assumes that matching and orderings keep contracts on every input.  Here the modelled kernels (`Mc64.compute`, `Amd.order`, `Rcm.runRcm`) are
used; what remains are conditions on the input matrix.
-/

namespace Hif.Props
open Hif Level Spec HIF HM Finset Mc64 Amd

/-- Position `(i, j)` of the matrix is stored. -/
def HasAt {K : Type} (rowMajor : Bool) (A : CS K) (i j : Nat) : Prop := if rowMajor then A.Has i j else A.Has j i

/-- What the weighted matching needs of the input matrix (see `MatchInput`): something is stored, no stored value is zero, and no row is (much) more than half full. -/
structure KernelInput {K R : Type} [Zero R] [LT R] (nrm : K → R) (rowMajor : Bool) (A : CS K) : Prop where
  nonempty : ∃ i j, i < A.psize ∧ j < A.psize ∧ HasAt rowMajor A i j
  nonzero : ∀ k, k < A.start.get A.psize → 0 < nrm (A.vals.get k)
  short : ∀ i, i < A.psize → min (Set.ncard {j | j < A.psize ∧ HasAt rowMajor A i j}) (A.psize - 1) ≤ A.psize - A.psize / 2

section
variable {K : Type}

theorem line_ncard {A : CS K} (h : A.WF) (hs : A.Sorted) {i : Nat} (hi : i < A.psize) : (A.line i).length = Set.ncard {j | j < A.ssize ∧ A.Has i j} := by
  have hnd : ((A.line i).map Prod.fst).Nodup := by
    have := Pre.ids_nodup hs hi
    rwa [Pre.ids_eq] at this
  have : {j | j < A.ssize ∧ A.Has i j} = (((A.line i).map Prod.fst).toFinset : Set Nat) := by
    ext j
    simp only [Set.mem_setOf_eq, List.coe_toFinset, List.mem_map, Prod.exists, exists_and_right, exists_eq_right]
    constructor
    · rintro ⟨-, h2⟩; exact CS.has_iff.1 h2
    · intro h2; exact ⟨CS.Has.lt h hi (CS.has_iff.2 h2), CS.has_iff.2 h2⟩
  rw [this, Set.ncard_coe_finset, List.toFinset_card_of_nodup hnd, List.length_map]

end

section
variable {K R : Type} [Field K] [StarRing K] [DecidableEq K] [Inhabited K] [Field R] [LinearOrder R] [IsStrictOrderedRing R] [FloorSemiring R]

/-- The row form of the matrix. -/
theorem KernelInput.row {nrm : K → R} {rowMajor : Bool} {A C : CS K} (h : KernelInput nrm rowMajor A) (hA : A.WF) (ht : A.Tight) (hs : A.Sorted)
    (hsq : A.ssize = A.psize) (c : CS.ConvSpec A C) :
    MatchInput nrm (if rowMajor then A else C) ∧ ∀ i j, i < A.psize → j < A.psize → ((if rowMajor then A else C).Has i j ↔ HasAt rowMajor A i j) := by
  obtain ⟨cw, ct⟩ := c.wf hA ht
  have cs := c.sorted hA ht hs
  have hvals : ∀ k, k < C.start.get C.psize → 0 < nrm (C.vals.get k) := by
    intro l hl
    have h1 : l < C.inds.size := by rw [ct.inds_size]; exact hl
    obtain ⟨j, j1, j2, j3⟩ := line_of_pos cw hl
    rw [c.psize] at j1
    rw [c.start j (by omega)] at j2
    rw [c.start (j + 1) (by omega)] at j3
    have : l ∈ Ico (A.base A.inds.size j) (A.base A.inds.size (j + 1)) := mem_Ico.2 ⟨j2, j3⟩
    rw [← A.pos_image] at this
    obtain ⟨k, hk, rfl⟩ := mem_image.1 this
    obtain ⟨hk1, -⟩ := mem_filter.1 hk
    obtain ⟨-, -, p3⟩ := c.ent k (mem_range.1 hk1)
    rw [p3]
    exact h.nonzero k (by rw [← ht.inds_size]; exact mem_range.1 hk1)
  have key : ∀ B : CS K, B.WF → B.Tight → B.Sorted → B.psize = A.psize → B.ssize = A.psize → (∀ k, k < B.start.get B.psize → 0 < nrm (B.vals.get k)) →
      (∀ i j, i < A.psize → j < A.psize → (B.Has i j ↔ HasAt rowMajor A i j)) → MatchInput nrm B := by
    intro B bw bt bs bp bss bv bh
    refine ⟨bw, by rw [bt.start_size], by rw [bp, bss], ?_, ?_, ?_, ?_⟩
    · obtain ⟨i, j, h1, h2, h3⟩ := h.nonempty
      refine ⟨i, by rw [bp]; exact h1, fun hn => ?_⟩
      obtain ⟨v, hv⟩ := CS.has_iff.1 ((bh i j h1 h2).2 h3)
      rw [hn] at hv
      cases hv
    · intro i hi
      have := Pre.ids_nodup bs hi
      rwa [Pre.ids_eq] at this
    · intro i hi x hx
      obtain ⟨k, k1, k2, rfl⟩ := CS.mem_seg.1 hx
      exact bv k (lt_of_lt_of_le k2 (bw.start_mono hi (le_refl _)))
    · intro i hi
      rw [line_ncard bw bs hi, bss, bp]
      rw [bp] at hi
      have e : {j | j < A.psize ∧ B.Has i j} = {j | j < A.psize ∧ HasAt rowMajor A i j} := by
        ext j
        simp only [Set.mem_setOf_eq]
        exact and_congr_right fun hj => bh i j hi hj
      rw [e]
      exact h.short i hi
  cases rowMajor with
  | true => exact ⟨key A hA ht hs rfl hsq h.nonzero (fun i j _ _ => Iff.rfl), fun i j _ _ => Iff.rfl⟩
  | false =>
    have hh : ∀ i j, i < A.psize → j < A.psize → (C.Has i j ↔ HasAt false A i j) := fun i j hi hj => c.has hA ht hj (by rw [hsq]; exact hi)
    exact ⟨key C cw ct cs (by rw [c.psize, hsq]) c.ssize hvals hh, hh⟩

/-- What a level relies on besides its own code: the arithmetic, partial sort and sort of the C++ library, logarithm and exponential. -/
structure KernelContract (e : Env K R) (T : Trans R) (junk : Nat → R) (junkI : Nat → Nat) (wbig dense : Int) (aggressive : Bool) (junkA : Nat → Int → Int) : Prop where
  arith : ArithSpec e.a
  nth : SV.NthSpec e.nth
  srt : ∀ f l, (e.srt f l).Perm l
  log : LogExp T
  kernels : e.pre = { mc64 := matchOf e.a.nrm T junk junkI, amd := runAmd wbig dense aggressive junkA, rcm := Rcm.runRcm }

variable {e : Env K R} {T : Trans R} {junk : Nat → R} {junkI : Nat → Nat} {wbig dense : Int} {aggressive : Bool} {junkA : Nat → Int → Int}

theorem KernelContract.envOK (h : KernelContract e T junk junkI wbig dense aggressive junkA) : EnvOK e :=
  ⟨⟨h.arith.one, h.arith.mul⟩, h.arith.mag.nonneg, h.nth, h.srt⟩

theorem KernelContract.prepare (hc : KernelContract e T junk junkI wbig dense aggressive junkA) (o : Level.Opts R) {rowMajor : Bool} (lvl : Nat) {A C : CS K}
    (hA : A.WF) (ht : A.Tight) (hs : A.Sorted) (hsq : A.ssize = A.psize) (c : CS.ConvSpec A C) (hin : KernelInput e.a.nrm rowMajor A) (sym : Bool)
    (hre : 0 ≤ o.pre.reorder ∧ o.pre.reorder ≤ 2)
    (hsym : sym = true → o.pre.reorder = 1 → A.PatSym)
    (hz : o.pre.preScale ≠ 0 → o.pre.preScale ≠ 1 → ∀ i, i < A.psize → (∃ j, j < A.psize ∧ HasAt rowMajor A i j) ∧ ∃ j, j < A.psize ∧ HasAt rowMajor A j i) :
    Runs (prepare e o sym A.psize lvl (if rowMajor then C else A) (if rowMajor then A else C)) (Prepared A.psize) := by
  by_cases h0 : o.noPre = true
  · have := prepare_noPre e o h0 sym A.psize lvl (if rowMajor then C else A) (if rowMajor then A else C)
    have hp : (if rowMajor then A else C).psize = A.psize := by cases rowMajor; exacts [by show C.psize = _; rw [c.psize, hsq], rfl]
    rwa [hp] at this
  · obtain ⟨h2, -⟩ := two_of hA ht hs hsq c rowMajor
    obtain ⟨hM, hst⟩ := hin.row hA ht hs hsq c
    have hp : (if rowMajor then A else C).psize = A.psize := h2.pre.rp
    have hmi : ∀ B, Pre.matchInput (if rowMajor then A else C) A.psize = .ok B → B = if rowMajor then A else C := by
      intro B eB
      unfold Pre.matchInput at eB
      rw [if_pos hp.symm] at eB
      cases eB
      rfl
    have hk : ∀ B, Pre.matchInput (if rowMajor then A else C) A.psize = .ok B → Pre.MatchFor e.a e.pre.mc64 B := by
      intro B eB
      rw [hmi B eB, hc.kernels]
      exact C71_contract hc.arith hc.log junk junkI hM
    have hamd : OrderingOK e.pre.amd := by rw [hc.kernels]; exact C74_contract wbig dense aggressive junkA
    have hrcm : SymOrderingOK e.pre.rcm := by rw [hc.kernels]; exact C45_contract
    have hbs : (if rowMajor then A else C).WF := h2.pre.rwf
    have hval : ∀ i j, i < A.psize → (if rowMajor then A else C).Has i j → ∃ x ∈ (if rowMajor then A else C).line i, x.1 = j ∧ e.a.nrm x.2 ≠ 0 := by
      intro i j hi hh
      obtain ⟨v, hv⟩ := CS.has_iff.1 hh
      exact ⟨_, hv, rfl, ne_of_gt (hM.nonzero i (by rw [hp]; exact hi) _ hv)⟩
    have hz' : o.pre.preScale ≠ 0 → o.pre.preScale ≠ 1 →
        (∀ i, i < A.psize → ∃ x ∈ (if rowMajor then A else C).line i, x.1 < A.psize ∧ e.a.nrm x.2 ≠ 0) ∧
        (sym = false → ∀ j, j < A.psize → ∃ i, i < A.psize ∧ ∃ x ∈ (if rowMajor then A else C).line i, x.1 = j ∧ e.a.nrm x.2 ≠ 0) := by
      intro a b
      refine ⟨fun i hi => ?_, fun _ j hj => ?_⟩
      · obtain ⟨j, j1, j2⟩ := (hz a b i hi).1
        obtain ⟨x, x1, x2, x3⟩ := hval i j hi ((hst i j hi j1).2 j2)
        exact ⟨x, x1, by rw [x2]; exact j1, x3⟩
      · obtain ⟨i, i1, i2⟩ := (hz a b j hj).2
        exact ⟨i, i1, hval i j i1 ((hst i j i1 hj).2 i2)⟩
    have hsame : ∀ i, i < A.psize → ∀ j, j < A.psize → ((∃ v, (i, v) ∈ (if rowMajor then C else A).line j) ↔ ∃ v, (j, v) ∈ (if rowMajor then A else C).line i) := by
      intro i hi j hj
      rw [← CS.has_iff, ← CS.has_iff]
      cases rowMajor with
      | true => exact c.has hA ht hi (by rw [hsq]; exact hj)
      | false => exact (c.has hA ht hj (by rw [hsq]; exact hi)).symm
    unfold Level.prepare
    rw [if_neg h0]
    by_cases hq : sym = true ∧ o.pre.reorder = 1
    · have hps := hsym hq.1 hq.2
      obtain ⟨r, er, hr, -⟩ := doPreprocess_of hc.arith hamd hrcm sym o.pre ⟨hre.1, by omega⟩ A.psize A.psize lvl _ _ h2.pre hk hsame (fun _ i hi j hj hh => by
        rw [← CS.has_iff] at hh ⊢
        cases rowMajor with
        | true =>
          have e1 := c.has hA ht hi (show j < A.ssize by rw [hsq]; exact hj)
          have e2 := c.has hA ht hj (show i < A.ssize by rw [hsq]; exact hi)
          exact e2.2 (hps i j hi hj (e1.1 hh))
        | false => exact hps j i hj hi hh) hz' (fun _ h3 => by omega)
      exact ⟨r, er, hr.lead, hr.ssz, hr.tsz, hr.spos, hr.tpos, ⟨hr.psz.1, hr.psz.2, hr.pinv⟩, ⟨hr.qsz.1, hr.qsz.2, hr.qinv⟩⟩
    · refine (Pre.doPreprocess_runs_of hc.arith.ok sym o.pre lvl h2.pre hk ⟨hre.1, by omega⟩ ?_ (fun _ h3 => by omega)
        (fun m b hb _ => hamd m b hb) (fun _ _ => True) (fun hcc => ?_) (fun _ _ _ _ _ => trivial)).mono ?_
      · intro a b B eB
        rw [hmi B eB]
        obtain ⟨z1, z2⟩ := hz' a b
        refine ⟨fun i hi => ?_, fun hs' j hj => ?_⟩
        · rw [hp] at hi
          obtain ⟨x, x1, x2, x3⟩ := z1 i hi
          exact ⟨x, x1, x3⟩
        · rw [hp] at hj ⊢
          exact z2 hs' j hj
      · rcases hcc with hcc | hcc
        · exact absurd hcc hq
        · omega
      · rintro r ⟨hr, g1, g2, -⟩
        exact ⟨hr.mle, hr.ssz, hr.tsz, hr.spos, hr.tpos, g1, g2⟩

/-- C62 with the library's matching, AMD and RCM: no assumption on a kernel is left.  For every valid square matrix whose stored values are nonzero and whose rows
are not much more than half full (`KernelInput`), and whose pattern is symmetric if symmetric preprocessing with RCM is chosen, a level runs to the end without an
access out of range; if it is kept, it hands over a valid level and a valid matrix for the next level, and with parameters that drop nothing both represent the
input exactly. -/
theorem C62_level_kernels (hc : KernelContract e T junk junkI wbig dense aggressive junkA) (o : Level.Opts R) (auto rowMajor : Bool) (lvl N : Nat) (A : CS K)
    (hA : A.WF) (ht : A.Tight) (hs : A.Sorted) (hsq : A.ssize = A.psize) (hsz : SizesOK e A.psize) (hin : KernelInput e.a.nrm rowMajor A)
    (hre : 0 ≤ o.pre.reorder ∧ o.pre.reorder ≤ 2) (hsym : o.pre.reorder = 1 → o.symmPreLvls ≠ 0 → A.PatSym)
    (hz : o.pre.preScale ≠ 0 → o.pre.preScale ≠ 1 → ∀ i, i < A.psize → (∃ j, j < A.psize ∧ HasAt rowMajor A i j) ∧ ∃ j, j < A.psize ∧ HasAt rowMajor A j i)
    (hlvl : 0 < lvl) :
    ∃ out, plainLevel e o auto rowMajor lvl N A.psize A = .ok out ∧ out.m ≤ out.m2 ∧ out.m2 ≤ A.psize ∧
      (out.m2 < 4 * out.m → (auto = true → 2 * out.m2 < 5 * out.m) →
        (out.toPrec A.psize out.m).OK ∧ out.schur.psize = A.psize - out.m ∧ out.schur.ssize = A.psize - out.m ∧
        (out.m < A.psize → out.schur.WF ∧ out.schur.Tight ∧ out.schur.Sorted) ∧
        (NoDrop o A.psize → ∃ LE UF, ExactLevel (out.toPrec A.psize out.m).toLevel (mat rowMajor out.schur) (mat rowMajor A) LE UF)) := by
  obtain ⟨out, eo, ho⟩ := plainLevel_runs_for hc.envOK o auto rowMajor lvl N A.psize hA ht hs hsq (fun C c => hc.prepare o lvl hA ht hs hsq c hin _ hre (fun h1 h2 =>
    hsym h2 fun h0 => by
      unfold symmPre at h1
      rw [h0] at h1
      simp at h1
      omega) hz) hsz
  exact ⟨out, eo, ho.mle, ho.m2le, fun h4 h5 => ho.kept (by unfold postFlag; rw [if_neg (by omega)]; split <;> (show out.m ≠ 0; omega))
    (fun ha => by have := h5 ha; unfold postFlag; rw [if_neg (by omega), if_neg (by omega)])⟩

/-- C66 with the library's matching, AMD and RCM: the same for a level with pivoting. -/
theorem C66_level_kernels (hc : KernelContract e T junk junkI wbig dense aggressive junkA) (o : Level.Opts R) (rowMajor : Bool) (lvl N : Nat) (A : CS K)
    (hA : A.WF) (ht : A.Tight) (hs : A.Sorted) (hsq : A.ssize = A.psize) (hsz : SizesOK e A.psize) (hin : KernelInput e.a.nrm rowMajor A)
    (hre : 0 ≤ o.pre.reorder ∧ o.pre.reorder ≤ 2) (hsym : o.pre.reorder = 1 → 0 < o.symmPreLvls → A.PatSym)
    (hz : o.pre.preScale ≠ 0 → o.pre.preScale ≠ 1 → ∀ i, i < A.psize → (∃ j, j < A.psize ∧ HasAt rowMajor A i j) ∧ ∃ j, j < A.psize ∧ HasAt rowMajor A j i)
    (hlvl : 0 < lvl) :
    ∃ out, pivotLevel e o rowMajor lvl N A.psize A = .ok out ∧ out.m ≤ out.m2 ∧ out.m2 ≤ A.psize ∧
      (out.m2 < 4 * out.m →
        (out.toPrec A.psize out.m).OK ∧ out.schur.psize = A.psize - out.m ∧ out.schur.ssize = A.psize - out.m ∧
        (out.m < A.psize → out.schur.WF ∧ out.schur.Tight ∧ out.schur.Sorted) ∧
        (NoDrop o A.psize → ∃ LE UF, ExactLevel (out.toPrec A.psize out.m).toLevel (mat rowMajor out.schur) (mat rowMajor A) LE UF)) := by
  obtain ⟨out, eo, ho⟩ := pivotLevel_runs_for hc.envOK o rowMajor lvl N A.psize hA ht hs hsq (fun C c => hc.prepare o lvl hA ht hs hsq c hin _ hre (fun h1 h2 =>
    hsym h2 (by
      by_contra h0
      unfold symmPrePivot at h1
      rw [if_pos (by omega)] at h1
      simp at h1
      omega)) hz) hsz
  exact ⟨out, eo, ho.mle, ho.m2le, fun h4 => ho.kept (by unfold postFlag; rw [if_neg (by omega)]; split <;> (show out.m ≠ 0; omega)) (fun ha => by cases ha)⟩

end

/-! ### Example -/

namespace ExKer

/-- `[[0,0,2],[0,1,0],[3,0,0]]`. -/
noncomputable def X3 : CS ℝ := Ex.mk 3 3 [0, 1, 2, 3] [2, 1, 0] [2, 1, 3]

open Classical in
noncomputable def nth (w : Nat → ℝ) (_ : Nat) (l : List Nat) : List Nat := l.insertionSort fun a b => w b ≤ w a

theorem nth_spec : SV.NthSpec nth := by
  refine fun w k l _ => ⟨List.perm_insertionSort _ _, ?_⟩
  have : Std.Total fun a b : Nat => w b ≤ w a := ⟨fun a b => le_total _ _⟩
  have : IsTrans Nat fun a b => w b ≤ w a := ⟨fun a b c h1 h2 => le_trans h2 h1⟩
  have hs := List.pairwise_insertionSort (fun a b : Nat => w b ≤ w a) l
  intro a ha b hb
  unfold nth at ha hb
  rw [← List.take_append_drop (k + 1) (l.insertionSort fun a b => w b ≤ w a), List.pairwise_append] at hs
  exact hs.2.2 a ha b hb

/-- Real arithmetic, the library's kernels. -/
noncomputable def env : Env ℝ ℝ :=
  { a := ⟨fun x => |x|, id, Real.sqrt, 1/1000, 1/1000⟩,
    pre := ⟨matchOf (fun x : ℝ => |x|) ⟨Real.log, Real.exp⟩ (fun _ => 0) (fun _ => 0), runAmd 1000 20 true (fun k i => 7 * k - i), Rcm.runRcm⟩,
    nth := nth, safeMin := 0, cbrt := id, patSymm := fun _ _ => false, rows := fun _ => Buf.mk' 100 1, cols := fun _ => Buf.mk' 100 1,
    junkK := fun _ => 99, junkN := fun _ => 77, srt := fun _ l => l }

/-- Preprocessing with equilibration, matching and AMD. -/
noncomputable def opts : Level.Opts ℝ :=
  { par := ⟨false, 1, 100, 0, 0, 200, 200⟩, pre := ⟨2, 1, -1⟩, noPre := false, symmPreLvls := 1, fatSchur1st := false, denseThres := 0, cD := 1, rho := 1, gamma := 1 }

theorem contract : KernelContract env ⟨Real.log, Real.exp⟩ (fun _ => 0) (fun _ => 0) 1000 20 true (fun k i => 7 * k - i) :=
  ⟨⟨⟨fun v => abs_nonneg v, fun v r h => by show |v * r| = |v| * r; rw [abs_mul, abs_of_nonneg h]⟩, rfl, fun _ _ => rfl,
    fun x hx => ⟨Real.sqrt_nonneg x, Real.mul_self_sqrt hx⟩, by show (0 : ℝ) ≤ 1 / 1000; norm_num⟩, nth_spec, fun _ l => List.Perm.refl l, ExMc.ok.2, rfl⟩

theorem input : KernelInput env.a.nrm true X3 := by
  refine ⟨⟨0, 2, by decide, by decide, ⟨0, by decide, by decide, rfl⟩⟩, fun k hk => ?_, fun i hi => ?_⟩
  · have hk' : k < 3 := hk
    have h3 : k = 0 ∨ k = 1 ∨ k = 2 := by omega
    show 0 < |X3.vals.get k|
    rcases h3 with rfl | rfl | rfl <;> simp [X3, Ex.mk, Buf.ofList]
  · refine le_trans (min_le_right _ _) ?_
    show 3 - 1 ≤ 3 - 3 / 2
    decide

end ExKer

open ExKer in
/-- Non-vacuity: `[[0,0,2],[0,1,0],[3,0,0]]` meets all hypotheses. -/
example : (∃ out, plainLevel env opts false true 1 3 3 X3 = .ok out) ∧ ∃ out, pivotLevel env opts true 1 3 3 X3 = .ok out := by
  have hw : X3.WF := by constructor <;> decide
  have ht : X3.Tight := ⟨rfl, rfl, rfl⟩
  have hs : X3.Sorted := ExPre.sorted_of_bounded (by decide)
  have hz : SizesOK env X3.psize := fun lvl => ⟨⟨by show 3 ≤ 100; omega, fun _ _ => by show 0 < 1; omega⟩, by show 3 ≤ 100; omega, fun _ _ => by show 0 < 1; omega⟩
  obtain ⟨o1, e1, -⟩ := C62_level_kernels contract opts false true 1 3 X3 hw ht hs rfl hz input (by decide) (fun h => by cases h) (fun _ h => absurd rfl h) (by decide)
  obtain ⟨o2, e2, -⟩ := C66_level_kernels contract opts true 1 3 X3 hw ht hs rfl hz input (by decide) (fun h => by cases h) (fun _ h => absurd rfl h) (by decide)
  exact ⟨⟨o1, e1⟩, o2, e2⟩

end Hif.Props
