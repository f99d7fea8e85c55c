import Verif.Mc64Drive
import Verif.Examples
import Verif.Props.Rcm
import Mathlib.Algebra.Order.BigOperators.Ring.Finset
import Mathlib.Analysis.SpecialFunctions.Log.Basic

set_option linter.unusedVariables false
set_option linter.unusedSectionVars false

/-!
# C71–C73: the weighted matching (`eql::Equilibrator`)

The matrix is given by its lines (the rows of the CRS that the library passes).  `o.perm i` is the (1-based, possibly negated) line matched to index
`i`, `o.t` scales the lines, `o.s` scales the indices within the lines.
-/

namespace Hif.Props

open Hif Mc64 Pre

section
variable {K R : Type} [Field R] [LinearOrder R] [IsStrictOrderedRing R] [Inhabited K]

/-- Input of the matching: a valid square matrix with at least one entry, no index repeated in a line, no stored zero, and no line so long that the
two lists kept in one work array can collide (see `C73_overlap_witness`). -/
structure MatchInput (nrm : K → R) (B : CS K) : Prop where
  wf : B.WF
  start : B.start.size = B.psize + 1
  square : B.ssize = B.psize
  nonempty : ∃ i, i < B.psize ∧ B.line i ≠ []
  distinct : ∀ i, i < B.psize → ((B.line i).map Prod.fst).Nodup
  nonzero : ∀ i, i < B.psize → ∀ e ∈ B.line i, 0 < nrm e.2
  short : ∀ i, i < B.psize → min (B.line i).length (B.psize - 1) ≤ B.psize - B.psize / 2

/-- Logarithm and exponential. -/
structure LogExp (T : Trans R) : Prop where
  exp_pos : ∀ x, 0 < T.exp x
  exp_add : ∀ x y, T.exp (x + y) = T.exp x * T.exp y
  exp_log : ∀ x, 0 < x → T.exp (T.log x) = x
  exp_mono : ∀ x y, x ≤ y → T.exp x ≤ T.exp y

theorem LogExp.ok {T : Trans R} (h : LogExp T) : TransOK T := ⟨h.exp_pos, h.exp_add, h.exp_log, h.exp_mono⟩

theorem start_mono {B : CS K} (h : B.WF) {i j : Nat} (hij : i ≤ j) (hj : j ≤ B.psize) : B.start.get i ≤ B.start.get j := by
  induction j with
  | zero => rw [show i = 0 by omega]
  | succ j ih =>
    rcases Nat.lt_or_ge i (j + 1) with g | g
    · exact le_trans (ih (by omega) (by omega)) (h.mono j (by omega))
    · rw [show i = j + 1 by omega]

theorem line_of_pos {B : CS K} (h : B.WF) {k : Nat} (hk : k < B.start.get B.psize) :
    ∃ i, i < B.psize ∧ B.start.get i ≤ k ∧ k < B.start.get (i + 1) := by
  have key : ∀ m, m ≤ B.psize → k < B.start.get m → ∃ i, i < m ∧ B.start.get i ≤ k ∧ k < B.start.get (i + 1) := by
    intro m
    induction m with
    | zero => intro _ h0; rw [h.start_zero] at h0; omega
    | succ m ih =>
      intro hm hkm
      rcases Nat.lt_or_ge k (B.start.get m) with g | g
      · obtain ⟨i, i1, i2⟩ := ih (by omega) g
        exact ⟨i, by omega, i2⟩
      · exact ⟨m, by omega, g, hkm⟩
  exact key _ (le_refl _) hk

theorem MatchInput.toIn {nrm : K → R} {B : CS K} (h : MatchInput nrm B) : In nrm B ∧ ShortLines B ∧ 0 < B.nnz := by
  have hin : In nrm B := by
    refine ⟨h.wf, h.start, h.square, ?_, ?_⟩
    · intro k hk
      obtain ⟨i, i1, i2, i3⟩ := line_of_pos h.wf hk
      exact h.nonzero i i1 (B.inds.get k, B.vals.get k) (CS.mem_seg.2 ⟨k, i2, i3, rfl⟩)
    · intro i hi k k' a b a' b' e
      have hd := h.distinct i hi
      unfold CS.line at hd
      rw [CS.seg_fst] at hd
      have h1 : k - B.start.get i < (B.inds.slice (B.start.get i) (B.start.get (i + 1))).length := by rw [Buf.slice_length]; omega
      have h2 : k' - B.start.get i < (B.inds.slice (B.start.get i) (B.start.get (i + 1))).length := by rw [Buf.slice_length]; omega
      have := (List.Nodup.getElem_inj_iff hd (hi := h1) (hj := h2)).1 (by
        rw [Buf.slice_getElem, Buf.slice_getElem, show B.start.get i + (k - B.start.get i) = k by omega,
          show B.start.get i + (k' - B.start.get i) = k' by omega]; exact e)
      omega
  refine ⟨hin, ?_, ?_⟩
  · intro i hi
    have := h.short i hi
    unfold CS.line at this
    rwa [CS.seg_length] at this
  · rw [hin.nnz]
    obtain ⟨i, i1, i2⟩ := h.nonempty
    have h3 : B.start.get i < B.start.get (i + 1) := by
      by_contra hc
      exact i2 (CS.seg_empty B (by omega))
    have := start_mono h.wf (i := i + 1) (j := B.psize) (by omega) (le_refl _)
    omega

/-- C71: on every such matrix the matching completes without an access outside its work arrays (whatever these contain at the start) and without
an infinite or undefined number; it returns flag 0 or 1, a permutation (up to signs), and positive scalings. -/
theorem C71_matching_partial {nrm : K → R} {T : Trans R} (hT : LogExp T) {B : CS K} (h : MatchInput nrm B) (junk : Nat → R) (junkI : Nat → Nat) :
    ∃ o, compute nrm T junk junkI B = .ok o ∧ (o.info = 0 ∨ o.info = 1) ∧ o.perm.size = B.psize ∧ o.s.size = B.psize ∧ o.t.size = B.psize ∧
      (∀ i, i < B.psize → 1 ≤ (o.perm.get i).natAbs ∧ (o.perm.get i).natAbs ≤ B.psize) ∧
      (∀ i j, i < B.psize → j < B.psize → (o.perm.get i).natAbs = (o.perm.get j).natAbs → i = j) ∧
      ∀ i, i < B.psize → 0 < o.s.get i ∧ 0 < o.t.get i := by
  obtain ⟨h1, h2, h3⟩ := h.toIn
  obtain ⟨o, e, ho⟩ := compute_runs hT.ok h1 h2 h3 junk junkI
  refine ⟨o, e, ho.info, ho.psz, ho.ssz, ho.tsz, ?_, ?_, ho.pos⟩
  · exact ho.rng
  · intro i j hi hj e
    exact ho.perm.2 i j hi hj (by show (o.perm.get i).natAbs - 1 = (o.perm.get j).natAbs - 1; rw [e])

/-- C71: a matrix without lines or without entries is reported by a negative flag (an exception for the caller). -/
theorem C71_degenerate (nrm : K → R) (T : Trans R) (junk : Nat → R) (junkI : Nat → Nat) (B : CS K) :
    (B.psize = 0 → ∃ o, compute nrm T junk junkI B = .ok o ∧ o.info = -2) ∧
    (B.psize ≠ 0 → B.nnz = 0 → ∃ o, compute nrm T junk junkI B = .ok o ∧ o.info = -3) := by
  unfold compute
  constructor
  · intro e
    rw [if_pos (by omega)]
    exact ⟨_, rfl, rfl⟩
  · intro e1 e2
    rw [if_neg (by omega), if_pos (by omega)]
    exact ⟨_, rfl, rfl⟩

/-- C72: if the flag is 0, then after scaling no entry exceeds 1 in magnitude and the matched entries, which the permutation brings to the diagonal,
have magnitude 1. -/
theorem C72_scaled_partial {nrm : K → R} {T : Trans R} (hT : LogExp T) {B : CS K} (h : MatchInput nrm B) {junk : Nat → R} {junkI : Nat → Nat}
    {o : MatchOut R} (e : compute nrm T junk junkI B = .ok o) (h0 : o.info = 0) :
    (∀ i, i < B.psize → ∀ x ∈ B.line i, nrm x.2 * o.t.get i * o.s.get x.1 ≤ 1) ∧
    ∀ i, i < B.psize → 0 < o.perm.get i ∧ ∃ x ∈ B.line ((o.perm.get i).natAbs - 1), x.1 = i ∧
      nrm x.2 * o.t.get ((o.perm.get i).natAbs - 1) * o.s.get i = 1 := by
  obtain ⟨h1, h2, h3⟩ := h.toIn
  obtain ⟨o', e', ho⟩ := compute_runs hT.ok h1 h2 h3 junk junkI
  obtain rfl : o' = o := by rw [e] at e'; cases e'; rfl
  refine ⟨?_, ?_⟩
  · intro i hi x hx
    obtain ⟨k, k1, k2, rfl⟩ := CS.mem_seg.1 hx
    exact ho.le h0 i k hi k1 k2
  · intro i hi
    have hp := ho.full h0 i hi
    obtain ⟨k, k1, k2, k3, k4⟩ := ho.ent i hi hp
    exact ⟨hp, _, CS.mem_seg.2 ⟨k, k1, k2, rfl⟩, k3, k4 h0⟩

/-- C72: if the flag is 0, the matched entries have the largest product of magnitudes among all matchings: for every permutation `σ` with an entry
`v i` at index `σ i` of every line `i`, the product of the `|v i|` is at most the product of the matched magnitudes. -/
theorem C72_optimal_partial {nrm : K → R} {T : Trans R} (hT : LogExp T) {B : CS K} (h : MatchInput nrm B) {junk : Nat → R} {junkI : Nat → Nat}
    {o : MatchOut R} (e : compute nrm T junk junkI B = .ok o) (h0 : o.info = 0)
    {σ : Nat → Nat} (hσ : Spec.IsPerm B.psize σ) {v w : Nat → K} (hv : ∀ i, i < B.psize → (σ i, v i) ∈ B.line i)
    (hw : ∀ i, i < B.psize → (i, w i) ∈ B.line ((o.perm.get i).natAbs - 1)) :
    ∏ i ∈ Finset.range B.psize, nrm (v i) ≤ ∏ i ∈ Finset.range B.psize, nrm (w i) := by
  obtain ⟨h1, h2, h3⟩ := h.toIn
  obtain ⟨o', e', ho⟩ := compute_runs hT.ok h1 h2 h3 junk junkI
  obtain rfl : o' = o := by rw [e] at e'; cases e'; rfl
  obtain ⟨a, b⟩ := C72_scaled_partial hT h e h0
  have hP : ∀ f : Nat → Nat, Spec.IsPerm B.psize f → ∀ g : Nat → R, ∏ i ∈ Finset.range B.psize, g (f i) = ∏ i ∈ Finset.range B.psize, g i := by
    intro f hf g
    refine Finset.prod_bij (fun i _ => f i) (fun i hi => ?_) (fun i hi j hj e => ?_) (fun j hj => ?_) (fun i hi => rfl)
    · rw [Finset.mem_range] at hi ⊢; exact hf.1 i hi
    · rw [Finset.mem_range] at hi hj; exact hf.2 i j hi hj e
    · rw [Finset.mem_range] at hj
      obtain ⟨i, i1, i2⟩ := Spec.isPerm_surj hf hj
      exact ⟨i, by rw [Finset.mem_range]; exact i1, i2⟩
  have hS : 0 < ∏ i ∈ Finset.range B.psize, o'.s.get i := Finset.prod_pos fun i hi => (ho.pos i (Finset.mem_range.1 hi)).1
  have hTt : 0 < ∏ i ∈ Finset.range B.psize, o'.t.get i := Finset.prod_pos fun i hi => (ho.pos i (Finset.mem_range.1 hi)).2
  have e1 : (∏ i ∈ Finset.range B.psize, nrm (v i)) * (∏ i ∈ Finset.range B.psize, o'.t.get i) * ∏ i ∈ Finset.range B.psize, o'.s.get i ≤ 1 := by
    rw [← hP σ hσ (fun i => o'.s.get i), ← Finset.prod_mul_distrib, ← Finset.prod_mul_distrib]
    refine Finset.prod_le_one (fun i hi => ?_) fun i hi => ?_
    · rw [Finset.mem_range] at hi
      have p1 := ho.pos i hi
      have p2 := ho.pos (σ i) (hσ.1 i hi)
      have p3 := h.nonzero i hi _ (hv i hi)
      exact le_of_lt (mul_pos (mul_pos p3 p1.2) p2.1)
    · rw [Finset.mem_range] at hi
      exact a i hi _ (hv i hi)
  have e2 : (∏ i ∈ Finset.range B.psize, nrm (w i)) * (∏ i ∈ Finset.range B.psize, o'.t.get i) * ∏ i ∈ Finset.range B.psize, o'.s.get i = 1 := by
    rw [← hP _ ho.perm (fun i => o'.t.get i), ← Finset.prod_mul_distrib, ← Finset.prod_mul_distrib]
    refine Finset.prod_eq_one fun i hi => ?_
    rw [Finset.mem_range] at hi
    obtain ⟨-, x, x1, x2, x3⟩ := b i hi
    have hl := ho.perm.1 i hi
    have hx : nrm x.2 = nrm (w i) := by
      obtain ⟨k, k1, k2, rfl⟩ := CS.mem_seg.1 x1
      obtain ⟨k', k1', k2', ek⟩ := CS.mem_seg.1 (hw i hi)
      have e3 : B.inds.get k' = i := (Prod.mk.inj ek).1
      have e4 : B.vals.get k' = w i := (Prod.mk.inj ek).2
      have := h1.inj _ hl k k' k1 k2 k1' k2' (by rw [e3]; exact x2)
      rw [← e4, ← this]
    rw [← hx]; exact x3
  rw [← e2] at e1
  exact le_of_mul_le_mul_right (le_of_mul_le_mul_right e1 hS) hTt

/-- C73: the number of matched indices (positive entries of the permutation) is the structural rank: each of them is matched to a stored entry, and
no set `X` of lines can be given distinct indices `f i`, with a stored entry in line `i` at index `f i`, if it has more members. -/
theorem C73_structural_rank_partial {nrm : K → R} {T : Trans R} (hT : LogExp T) {B : CS K} (h : MatchInput nrm B) {junk : Nat → R}
    {junkI : Nat → Nat} {o : MatchOut R} (e : compute nrm T junk junkI B = .ok o) :
    (∀ i, i < B.psize → 0 < o.perm.get i → ∃ x ∈ B.line ((o.perm.get i).natAbs - 1), x.1 = i) ∧
    ∀ (X : Finset Nat) (f : Nat → Nat), (∀ i ∈ X, i < B.psize ∧ ∃ x ∈ B.line i, x.1 = f i) → (∀ i ∈ X, ∀ i' ∈ X, f i = f i' → i = i') →
      X.card ≤ ((Finset.range B.psize).filter fun i => 0 < o.perm.get i).card := by
  obtain ⟨h1, h2, h3⟩ := h.toIn
  obtain ⟨o', e', ho⟩ := compute_runs hT.ok h1 h2 h3 junk junkI
  obtain rfl : o' = o := by rw [e] at e'; cases e'; rfl
  refine ⟨fun i hi hp => ?_, fun X f hX hf => ho.rank X f (fun i hi => ?_) hf⟩
  · obtain ⟨k, k1, k2, k3, -⟩ := ho.ent i hi hp
    exact ⟨_, CS.mem_seg.2 ⟨k, k1, k2, rfl⟩, k3⟩
  · obtain ⟨x1, x, x2, x3⟩ := hX i hi
    obtain ⟨k, k1, k2, rfl⟩ := CS.mem_seg.1 x2
    exact ⟨x1, k, k1, k2, x3⟩

/-- C73: the flag is 0 exactly if the matrix is structurally nonsingular. -/
theorem C73_flag_partial {nrm : K → R} {T : Trans R} (hT : LogExp T) {B : CS K} (h : MatchInput nrm B) {junk : Nat → R} {junkI : Nat → Nat}
    {o : MatchOut R} (e : compute nrm T junk junkI B = .ok o) :
    o.info = 0 ↔ ∃ σ, Spec.IsPerm B.psize σ ∧ ∀ i, i < B.psize → ∃ x ∈ B.line i, x.1 = σ i := by
  obtain ⟨h1, h2, h3⟩ := h.toIn
  obtain ⟨o', e', ho⟩ := compute_runs hT.ok h1 h2 h3 junk junkI
  obtain rfl : o' = o := by rw [e] at e'; cases e'; rfl
  rw [ho.sing]
  constructor
  · rintro ⟨σ, a, b⟩
    refine ⟨σ, a, fun i hi => ?_⟩
    obtain ⟨k, k1, k2, k3⟩ := b i hi
    exact ⟨_, CS.mem_seg.2 ⟨k, k1, k2, rfl⟩, k3⟩
  · rintro ⟨σ, a, b⟩
    refine ⟨σ, a, fun i hi => ?_⟩
    obtain ⟨x, x1, x2⟩ := b i hi
    obtain ⟨k, k1, k2, rfl⟩ := CS.mem_seg.1 x1
    exact ⟨k, k1, k2, x2⟩

end

/-! ### The preprocessing with the library's own matching and RCM -/

section
variable {K R : Type} [CommMonoid K] [Inhabited K] [Field R] [LinearOrder R] [IsStrictOrderedRing R]

omit [IsStrictOrderedRing R] in
theorem MatchInput.rescaled {a : Arith K R} (hs : ∀ v r, 0 ≤ r → a.nrm (v * a.emb r) = a.nrm v * r) {B C : CS K} (h : MatchInput a.nrm B) (hr : Rescaled a B C)
    [IsStrictOrderedRing R] : MatchInput a.nrm C := by
  obtain ⟨hL, s, t, hp, hl⟩ := hr
  have e1 := hL.1
  have hlen : ∀ i, i < B.psize → (C.line i).map Prod.fst = (B.line i).map Prod.fst := by
    intro i hi
    rw [hl i hi, List.map_map]; rfl
  refine ⟨hL.wf h.wf, by rw [hL.2.2.1, e1]; exact h.start, by rw [hL.2.1, e1]; exact h.square, ?_, ?_, ?_, ?_⟩
  · obtain ⟨i, i1, i2⟩ := h.nonempty
    refine ⟨i, by rw [e1]; exact i1, fun hc => i2 ?_⟩
    rw [hl i i1, List.map_eq_nil_iff] at hc; exact hc
  · intro i hi
    rw [e1] at hi
    rw [hlen i hi]; exact h.distinct i hi
  · intro i hi e he
    rw [e1] at hi
    rw [hl i hi, List.mem_map] at he
    obtain ⟨x, hx, rfl⟩ := he
    have hxl : x.1 < B.psize := by
      obtain ⟨k, k1, k2, rfl⟩ := CS.mem_seg.1 hx
      have := h.wf.line_lt (i := i) hi k2
      rw [h.square] at this; exact this
    show 0 < a.nrm (x.2 * a.emb (s i) * a.emb (t x.1))
    rw [hs _ _ (le_of_lt (hp x.1 hxl).2), hs _ _ (le_of_lt (hp i hi).1)]
    exact mul_pos (mul_pos (h.nonzero i hi x hx) (hp i hi).1) (hp x.1 hxl).2
  · intro i hi
    rw [e1] at hi
    rw [e1, hl i hi, List.length_map]; exact h.short i hi

theorem C71_contract {a : Arith K R} (ha : ArithSpec a) {T : Trans R} (hT : LogExp T) (junk : Nat → R) (junkI : Nat → Nat) {B : CS K}
    (h : MatchInput a.nrm B) : MatchFor a (matchOf a.nrm T junk junkI) B := by
  intro C hC _ _
  obtain ⟨o, e, h1, h2, h3, h4, h5, h6, h7⟩ := C71_matching_partial hT (h.rescaled ha.mag.scale hC) junk junkI
  have eo : matchOf a.nrm T junk junkI C = o := by unfold matchOf; rw [e]
  rw [eo]
  refine ⟨by rcases h1 with g | g <;> omega, h2, h3, h4, ⟨fun i hi => ?_, fun i j hi hj e => ?_⟩, h7⟩
  · have := h5 i hi
    show (o.perm.get i).natAbs - 1 < C.psize
    omega
  · have e' : (o.perm.get i).natAbs - 1 = (o.perm.get j).natAbs - 1 := e
    have := h5 i hi
    have := h5 j hj
    exact h6 i j hi hj (by omega)

/-- C58 with the library's own matching and RCM: `C58_preprocess_partial` without assumptions on these two; only AMD remains a contract.  The
leading block must have an entry, no stored zero and no line too long for the matching (see C73). -/
theorem C58_preprocess_mc64_partial {a : Arith K R} (ha : ArithSpec a) {T : Trans R} (hT : LogExp T) (junk : Nat → R) (junkI : Nat → Nat) {ker : Kernels K R}
    (hmc : ker.mc64 = matchOf a.nrm T junk junkI) (hamd : OrderingOK ker.amd) (hrcm : ker.rcm = Rcm.runRcm)
    (isSymm : Bool) (opts : Opts R) (hre : 0 ≤ opts.reorder ∧ opts.reorder < 4)
    (n m0 level : Nat) (Accs Acrs : CS K) (h : PreIn n m0 Accs Acrs) (hst : Acrs.start.size = n + 1)
    (hne : ∃ i, i < m0 ∧ ∃ e ∈ Acrs.line i, e.1 < m0)
    (hnz : ∀ i, i < m0 → ∀ e ∈ Acrs.line i, e.1 < m0 → 0 < a.nrm e.2)
    (hsh : ∀ i, i < m0 → min ((Acrs.line i).filter fun e => e.1 < m0).length (m0 - 1) ≤ m0 - m0 / 2)
    (hsame : ∀ i, i < n → ∀ j, j < n → ((∃ v, (i, v) ∈ Accs.line j) ↔ ∃ v, (j, v) ∈ Acrs.line i))
    (hsym : isSymm = true → ∀ i, i < m0 → ∀ j, j < m0 → (∃ v, (i, v) ∈ Accs.line j) → ∃ v, (j, v) ∈ Accs.line i)
    (hz : opts.preScale ≠ 0 → opts.preScale ≠ 1 →
      (∀ i, i < m0 → ∃ e ∈ Acrs.line i, e.1 < m0 ∧ a.nrm e.2 ≠ 0) ∧
      (isSymm = false → ∀ j, j < m0 → ∃ i, i < m0 ∧ ∃ e ∈ Acrs.line i, e.1 = j ∧ a.nrm e.2 ≠ 0))
    (hno : isSymm = false → opts.reorder = 3 → m0 = n ∧ ∀ C : CS K, C.psize = n → ∀ i, i < n →
      Dominant a.nrm a.eps Accs Acrs (((ker.mc64 C).perm.get i).natAbs - 1) i) :
    ∃ r, doPreprocess a ker isSymm opts m0 level Accs Acrs = .ok r ∧ Preprocessed a n m0 Accs Acrs r ∧
      (isSymm = true → ∀ i, i < n → r.p.p.get i = r.q.p.get i ∧ r.s.get i = r.t.get i) := by
  refine doPreprocess_of ha hamd (hrcm ▸ C45_contract) isSymm opts hre n m0 level Accs Acrs h (fun B eB => ?_) hsame hsym hz hno
  rw [hmc]
  refine C71_contract ha hT junk junkI ?_
  obtain ⟨B', eB', b1, b2, b3, b4⟩ := matchInput_runs h
  obtain rfl : B' = B := by rw [eB] at eB'; cases eB'; rfl
  have hsz : B'.start.size = m0 + 1 := by
    unfold matchInput at eB
    split at eB
    · rename_i e
      cases eB
      rw [hst, e, h.rp]
    · rename_i e
      have hle := h.mle
      have hrp := h.rp
      obtain ⟨B2, e2, -, t2, p2, -⟩ := CS.extractLeading_runs h.rwf h.rsorted m0 (by omega) (h.lead.resolve_left (by omega))
      obtain rfl : B2 = B' := by rw [eB] at e2; cases e2; rfl
      rw [t2.start_size, p2]
  refine ⟨b1, by rw [b2]; exact hsz, by rw [b2, b3], ?_, ?_, ?_, ?_⟩
  · obtain ⟨i, i1, e, e1, e2⟩ := hne
    refine ⟨i, by rw [b2]; exact i1, fun hc => ?_⟩
    rw [b4 i i1, List.filter_eq_nil_iff] at hc
    exact hc e e1 (by simpa using e2)
  · intro i hi
    rw [b2] at hi
    rw [b4 i hi]
    have hle := h.mle
    have hss := ids_nodup h.rsorted (i := i) (by rw [h.rp]; omega)
    rw [ids_eq] at hss
    refine List.Nodup.sublist (List.Sublist.map _ List.filter_sublist) ?_
    exact hss
  · intro i hi e he
    rw [b2] at hi
    rw [b4 i hi, List.mem_filter] at he
    exact hnz i hi e he.1 (by simpa using he.2)
  · intro i hi
    rw [b2] at hi
    rw [b2, b4 i hi]; exact hsh i hi

end

/-! ### The defect, and examples -/

namespace ExMc

/-- Powers of two and their logarithms, which are all that occurs in the examples. -/
def log2 (x : ℚ) : ℚ := if x = 1 then 0 else if x = 1 / 2 then -1 else if x = 2 then 1 else 2
def exp2 (x : ℚ) : ℚ := (2 : ℚ) ^ x.num
def T : Trans ℚ := ⟨log2, exp2⟩

/-- Lines 0–3 have entries at the indices 0 1 2, 0, 1, 2 3. -/
def B1 : CS ℚ := Ex.mk 4 4 [0, 3, 4, 5, 7] [0, 1, 2, 0, 1, 2, 3] [1, 1, 1 / 2, 1, 1, 1, 1]

/-- Lines 0–3 have entries at the indices 0 1 2 3, 0 3, 1 3, 2 3. -/
def B2 : CS ℚ := Ex.mk 4 4 [0, 4, 6, 8, 10] [0, 1, 2, 3, 0, 3, 1, 3, 2, 3] [1, 1, 1 / 2, 1 / 2, 1, 1 / 2, 1, 1 / 2, 1, 1]

/-- A matrix of four lines with two entries each, in cyclic arrangement. -/
def B3 : CS ℚ := Ex.mk 4 4 [0, 2, 4, 6, 8] [0, 1, 1, 2, 2, 3, 0, 3] [1, 5, 2, 7, 3, 1, 4, 1]

instance (B : CS ℚ) : Decidable (∀ i, i < B.psize → ∀ e ∈ B.line i, 0 < |e.2|) := inferInstance

end ExMc

/-- C73: the condition on the line lengths is needed.  For this valid matrix with magnitudes 1 and 1/2 (line 0 has 3 of 4 possible entries) the two lists
that the search keeps in one work array collide, and the matching reports a structurally nonsingular matrix as structurally singular (flag 1). -/
theorem C73_overlap_witness :
    (ExMc.B1.WF ∧ (∀ i, i < 4 → ((ExMc.B1.line i).map Prod.fst).Nodup) ∧ ∀ i, i < 4 → ∀ e ∈ ExMc.B1.line i, 0 < |e.2|) ∧
    (compute abs ExMc.T (fun _ => 0) (fun _ => 0) ExMc.B1).map (fun o => (o.info, o.perm.toList)) = .ok (1, [2, 3, 4, -1]) ∧
    ∃ σ, Spec.IsPerm 4 σ ∧ ∀ i, i < 4 → ∃ x ∈ ExMc.B1.line i, x.1 = σ i := by
  refine ⟨⟨⟨by decide, by decide, by decide, by decide, by decide, by decide⟩, by decide, by decide +kernel⟩, by decide +kernel,
    fun i => [2, 0, 1, 3].getD i 0, ⟨by decide, fun i j hi hj => ?_⟩, by decide +kernel⟩
  have : ∀ i, i < 4 → ∀ j, j < 4 → [2, 0, 1, 3].getD i 0 = [2, 0, 1, 3].getD j 0 → i = j := by decide
  exact this i hi j hj

/-- C72: it is needed for the scaling, too: here the flag is 0, but the entry of line 2 at index 3 has the scaled magnitude `1/2 · 4 · 1 = 2`. -/
theorem C72_overlap_witness :
    (ExMc.B2.WF ∧ (∀ i, i < 4 → ((ExMc.B2.line i).map Prod.fst).Nodup) ∧ ∀ i, i < 4 → ∀ e ∈ ExMc.B2.line i, 0 < |e.2|) ∧
    (compute abs ExMc.T (fun _ => 0) (fun _ => 0) ExMc.B2).map (fun o => (o.info, o.s.toList, o.t.toList)) =
      .ok (0, [1 / 2, 1 / 4, 1, 1], [2, 2, 4, 1]) ∧ (3, 1 / 2) ∈ ExMc.B2.line 2 := by
  refine ⟨⟨⟨by decide, by decide, by decide, by decide, by decide, by decide⟩, by decide, by decide +kernel⟩, by decide +kernel, by decide +kernel⟩

/-- C71: the exclusion of stored zeros is needed: for the `1 × 1` matrix with a stored zero the computation forms `∞ - ∞`. -/
theorem C71_stored_zero_witness :
    (compute abs ExMc.T (fun _ => 0) (fun _ => 0) (Ex.mk 1 1 [0, 1] [0] [0])).map (fun o => o.info) = .error (.ub "infinite operand") := by decide +kernel

/-- Non-vacuity: a matrix, with real logarithms, that meets all hypotheses. -/
theorem ExMc.ok : MatchInput (fun x : ℚ => ((|x| : ℚ) : ℝ)) ExMc.B3 ∧ LogExp (⟨Real.log, Real.exp⟩ : Trans ℝ) := by
  refine ⟨⟨⟨by decide, by decide, by decide, by decide, by decide, by decide⟩, by decide, by decide, ⟨0, by decide, by decide +kernel⟩, by decide, ?_, by decide⟩,
    Real.exp_pos, Real.exp_add, fun x hx => Real.exp_log hx, fun x y h => Real.exp_le_exp.2 h⟩
  intro i hi e he
  have : ∀ i, i < ExMc.B3.psize → ∀ e ∈ ExMc.B3.line i, 0 < |e.2| := by decide +kernel
  exact_mod_cast this i hi e he

example : ∃ o, compute (fun x : ℚ => ((|x| : ℚ) : ℝ)) ⟨Real.log, Real.exp⟩ (fun _ => 0) (fun _ => 0) ExMc.B3 = .ok o ∧ o.info = 0 := by
  obtain ⟨o, e, -⟩ := C71_matching_partial ExMc.ok.2 ExMc.ok.1 (fun _ => 0) (fun _ => 0)
  refine ⟨o, e, (C73_flag_partial ExMc.ok.2 ExMc.ok.1 e).2 ⟨id, ⟨fun i hi => hi, fun i j _ _ h => h⟩, ?_⟩⟩
  show ∀ i, i < 4 → _
  decide +kernel

/-- Non-vacuity of C58 with the library's matching and RCM: the matrix `[[0,0,2],[0,1,0],[3,0,0]]` meets all hypotheses. -/
example : ∃ r, doPreprocess (⟨fun x => |x|, id, Real.sqrt, 1/1000, 1/1000⟩ : Arith ℝ ℝ)
    ⟨matchOf (fun x : ℝ => |x|) ⟨Real.log, Real.exp⟩ (fun _ => 0) (fun _ => 0), fun m _ => .ok ⟨m, fun i => i⟩, Rcm.runRcm⟩ false ⟨1, 1, -1⟩ 3 1
    (Ex.mk 3 3 [0, 1, 2, 3] [2, 1, 0] [3, 1, 2]) (Ex.mk 3 3 [0, 1, 2, 3] [2, 1, 0] [2, 1, 3]) = .ok r := by
  have hl : ∀ i, i < 3 → ∀ e ∈ (Ex.mk 3 3 [0, 1, 2, 3] [2, 1, 0] [(2 : ℝ), 1, 3]).line i, 0 < |e.2| := by
    intro i hi e he
    have h3 : i = 0 ∨ i = 1 ∨ i = 2 := by omega
    rcases h3 with rfl | rfl | rfl <;>
    · simp [CS.line, CS.seg, Ex.mk, Buf.ofList] at he
      subst he
      norm_num
  have hm : ∀ i, i < 3 → ∀ j, j < 3 → ((∃ v : ℝ, (i, v) ∈ (Ex.mk 3 3 [0, 1, 2, 3] [2, 1, 0] [(3 : ℝ), 1, 2]).line j) ↔
      ∃ v : ℝ, (j, v) ∈ (Ex.mk 3 3 [0, 1, 2, 3] [2, 1, 0] [(2 : ℝ), 1, 3]).line i) := by
    intro i hi j hj
    have h3 : i = 0 ∨ i = 1 ∨ i = 2 := by omega
    have h4 : j = 0 ∨ j = 1 ∨ j = 2 := by omega
    rcases h3 with rfl | rfl | rfl <;> rcases h4 with rfl | rfl | rfl <;> simp [CS.line, CS.seg, Ex.mk, Buf.ofList]
  obtain ⟨r, e, -⟩ := C58_preprocess_mc64_partial (a := (⟨fun x => |x|, id, Real.sqrt, 1/1000, 1/1000⟩ : Arith ℝ ℝ))
    ⟨⟨fun v => abs_nonneg v, fun v r h => by show |v * r| = |v| * r; rw [abs_mul, abs_of_nonneg h]⟩, rfl, fun _ _ => rfl,
      fun x hx => ⟨Real.sqrt_nonneg x, Real.mul_self_sqrt hx⟩, by norm_num⟩ ExMc.ok.2 (fun _ => 0) (fun _ => 0)
    (ker := ⟨matchOf (fun x : ℝ => |x|) ⟨Real.log, Real.exp⟩ (fun _ => 0) (fun _ => 0), fun m _ => .ok ⟨m, fun i => i⟩, Rcm.runRcm⟩) rfl
    (fun m b _ => ⟨_, rfl, le_refl _, fun i hi => hi, fun i j _ _ e => e⟩) rfl false ⟨1, 1, -1⟩ (by decide) 3 3 1
    (Ex.mk 3 3 [0, 1, 2, 3] [2, 1, 0] [3, 1, 2]) (Ex.mk 3 3 [0, 1, 2, 3] [2, 1, 0] [2, 1, 3])
    ⟨by constructor <;> decide, ExPre.sorted_of_bounded (by decide), rfl, rfl, by constructor <;> decide, ExPre.sorted_of_bounded (by decide), rfl, rfl,
      le_refl _, Or.inl rfl⟩ rfl ⟨0, by decide, (2, 2), by simp [CS.line, CS.seg, Ex.mk, Buf.ofList], by decide⟩ (fun i hi e he _ => hl i hi e he)
    (by
      intro i hi
      refine le_trans (min_le_left _ _) (le_trans (List.length_filter_le _ _) ?_)
      have h3 : i = 0 ∨ i = 1 ∨ i = 2 := by omega
      rcases h3 with rfl | rfl | rfl <;> simp [CS.line, CS.seg, Ex.mk, Buf.ofList])
    hm (fun h => by cases h) (fun _ h => absurd rfl h) (fun _ h => by cases h)
  exact ⟨r, e⟩

end Hif.Props
