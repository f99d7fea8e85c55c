import Verif.PreLemmas

set_option linter.unusedSectionVars false
set_option linter.unusedVariables false

/-! # Proofs about the iterative scaling -/

namespace Hif
namespace Pre
variable {K R : Type} [CommMonoid K] [Field R] [LinearOrder R] [IsStrictOrderedRing R]

/-- What is needed of the conversion of scaling factors. -/
structure EmbSpec (emb : R → K) : Prop where
  one : emb 1 = 1
  mul : ∀ a b, emb (a * b) = emb a * emb b

/-- Every row (and, unless symmetric, every column) of the matrix contains a nonzero entry. -/
def NoZeroLine (nrm : K → R) (isSymm : Bool) (B : CS K) : Prop :=
  (∀ i, i < B.psize → ∃ e ∈ B.line i, nrm e.2 ≠ 0) ∧
  (isSymm = false → ∀ j, j < B.psize → ∃ i, i < B.psize ∧ ∃ e ∈ B.line i, e.1 = j ∧ nrm e.2 ≠ 0)

theorem isColMax_step {nrm : K → R} {B : CS K} {i j : Nat} {c : R} (h1 : 0 ≤ c) (h : IsColMax nrm B i j c) :
    (j = B.inds.get i → 0 ≤ max (nrm (B.vals.get i)) c ∧ IsColMax nrm B (i + 1) j (max (nrm (B.vals.get i)) c)) ∧
    (j ≠ B.inds.get i → 0 ≤ c ∧ IsColMax nrm B (i + 1) j c) := by
  obtain ⟨h2, h3⟩ := h
  constructor
  · rintro rfl
    refine ⟨le_trans h1 (le_max_right _ _), fun k hk e' => ?_, ?_⟩
    · rcases Nat.lt_or_ge k i with h4 | h4
      · exact le_trans (h2 k h4 e') (le_max_right _ _)
      · rw [show k = i by omega]; exact le_max_left _ _
    · rcases le_total (nrm (B.vals.get i)) c with h4 | h4
      · rw [max_eq_right h4]
        rcases h3 with h3 | ⟨k, k1, k2, k3⟩
        · exact Or.inl h3
        · exact Or.inr ⟨k, by omega, k2, k3⟩
      · rw [max_eq_left h4]
        exact Or.inr ⟨i, by omega, rfl, rfl⟩
  · intro e
    refine ⟨h1, fun k hk e' => ?_, ?_⟩
    · rcases Nat.lt_or_ge k i with h4 | h4
      · exact h2 k h4 e'
      · rw [show k = i by omega] at e'; exact absurd e'.symm e
    · rcases h3 with h3 | ⟨k, k1, k2, k3⟩
      · exact Or.inl h3
      · exact Or.inr ⟨k, by omega, k2, k3⟩

theorem iterMax_runs {nrm : K → R} (hn : ∀ v, 0 ≤ nrm v) {sqrt : R → R} (isSymm : Bool) {B : CS K} (hB : B.WF)
    (hsq : B.ssize = B.psize) (hz : NoZeroLine nrm isSymm B) :
    Runs (forUp 0 B.psize (Buf.mk' B.psize (0 : R), Buf.mk' B.psize (0 : R)) (iterMaxRow nrm sqrt isSymm B)) fun l =>
      l.1.size = B.psize ∧ l.2.size = B.psize ∧
      (∀ i, i < B.psize → ∃ mx, IsMaxMag nrm (B.line i) mx ∧ mx ≠ 0 ∧ l.1.get i = 1 / sqrt mx) ∧
      (isSymm = false → ∀ j, j < B.psize → 0 ≤ l.2.get j ∧ IsColMax nrm B (B.start.get B.psize) j (l.2.get j)) := by
  refine forUp_runs' (fun i (l : Buf R × Buf R) => l.1.size = B.psize ∧ l.2.size = B.psize ∧
      (∀ k, k < i → ∃ mx, IsMaxMag nrm (B.line k) mx ∧ mx ≠ 0 ∧ l.1.get k = 1 / sqrt mx) ∧
      (isSymm = false → ∀ j, j < B.psize → 0 ≤ l.2.get j ∧ IsColMax nrm B (B.start.get i) j (l.2.get j))) (Nat.zero_le _)
    ⟨rfl, rfl, fun k hk => by omega, fun _ j hj => ⟨le_refl _, fun k hk => by rw [hB.start_zero] at hk; omega, Or.inl rfl⟩⟩ ?_
    (fun _ h => h)
  rintro i ⟨lrs, lcs⟩ - hi ⟨l1, l2, l3, l4⟩
  simp only at l1 l2 l3 l4
  unfold iterMaxRow
  simp only [runs_bind]
  refine CS.forLine_runs hB hi (fun k (r : R × Buf R) => r.2.size = B.psize ∧ 0 ≤ r.1 ∧
    (∀ e ∈ B.seg (B.start.get i) k, nrm e.2 ≤ r.1) ∧ (B.seg (B.start.get i) k = [] ∧ r.1 = 0 ∨ ∃ e ∈ B.seg (B.start.get i) k, nrm e.2 = r.1) ∧
    (isSymm = false → ∀ j, j < B.psize → 0 ≤ r.2.get j ∧ IsColMax nrm B k j (r.2.get j)))
    ⟨l2, le_refl _, by rw [CS.seg_empty _ (le_refl _)]; simp, Or.inl ⟨CS.seg_empty _ (le_refl _), rfl⟩, l4⟩ ?_ ?_
  · rintro k ⟨t, lcs⟩ h1 h2 ⟨r1, r2, r3, r4, r5⟩
    simp only at r1 r2 r3 r4 r5
    have hj : B.inds.get k < B.psize := by have := hB.line_lt hi h2; omega
    have hseg : B.seg (B.start.get i) (k + 1) = B.seg (B.start.get i) k ++ [(B.inds.get k, B.vals.get k)] := CS.seg_succ B h1
    have hmx : (∀ e ∈ B.seg (B.start.get i) (k + 1), nrm e.2 ≤ max (nrm (B.vals.get k)) t) ∧
        (B.seg (B.start.get i) (k + 1) = [] ∧ max (nrm (B.vals.get k)) t = 0 ∨
          ∃ e ∈ B.seg (B.start.get i) (k + 1), nrm e.2 = max (nrm (B.vals.get k)) t) := by
      rw [hseg]
      simp only [List.mem_append, List.mem_singleton]
      constructor
      · rintro e (he | rfl)
        · exact le_trans (r3 e he) (le_max_right _ _)
        · exact le_max_left _ _
      · right
        rcases le_total (nrm (B.vals.get k)) t with h4 | h4
        · rw [max_eq_right h4]
          rcases r4 with ⟨-, h5⟩ | ⟨e, e1, e2⟩
          · refine ⟨_, Or.inr rfl, ?_⟩
            simp only
            have := hn (B.vals.get k)
            linarith
          · exact ⟨e, Or.inl e1, e2⟩
        · rw [max_eq_left h4]
          exact ⟨_, Or.inr rfl, rfl⟩
    simp only [runs_bind]
    unfold maxIntoIf
    cases isSymm with
    | true =>
      rw [if_pos rfl]
      simp only [runs_pure]
      exact ⟨r1, le_trans r2 (le_max_right _ _), hmx.1, hmx.2, fun h => by simp at h⟩
    | false =>
      rw [if_neg (by simp)]
      unfold maxInto
      simp only [runs_bind, runs_rd, runs_wr, runs_pure]
      refine ⟨by omega, by omega, r1, le_trans r2 (le_max_right _ _), hmx.1, hmx.2, fun _ j hjj => ?_⟩
      obtain ⟨h5, h6⟩ := r5 rfl j hjj
      obtain ⟨h7, h8⟩ := isColMax_step h5 h6 (nrm := nrm) (B := B) (i := k)
      simp only [Buf.set_get]
      by_cases e : j = B.inds.get k
      · rw [if_pos e]; subst e; exact h7 rfl
      · rw [if_neg e]; exact h8 e
  · rintro ⟨t, lcs'⟩ ⟨r1, r2, r3, r4, r5⟩
    simp only at r1 r2 r3 r4 r5
    have hne : t ≠ 0 := by
      obtain ⟨e, e1, e2⟩ := hz.1 i hi
      intro h0
      exact e2 (le_antisymm (by rw [← h0]; exact r3 e e1) (hn _))
    unfold rsqrt
    rw [if_neg hne]
    simp only [runs_pure, runs_wr]
    refine ⟨by omega, l1, r1, fun k hk => ?_, r5⟩
    simp only [Buf.set_get]
    by_cases e : k = i
    · subst e
      rw [if_pos rfl]
      exact ⟨t, ⟨r3, r4⟩, hne, rfl⟩
    · rw [if_neg e]; exact l3 k (by omega)

theorem mulInto_runs (n : Nat) (a b : Buf R) (ha : n ≤ a.size) (hb : n ≤ b.size) :
    Runs (mulInto n a b) fun c => c.size = a.size ∧ ∀ i, i < n → c.get i = a.get i * b.get i := by
  unfold mulInto
  refine forUp_runs' (fun i (c : Buf R) => c.size = a.size ∧ (∀ k, k < i → c.get k = a.get k * b.get k) ∧ ∀ k, i ≤ k → c.get k = a.get k)
    (Nat.zero_le _) ⟨rfl, fun k hk => by omega, fun _ _ => rfl⟩ ?_ (fun c h => ⟨h.1, h.2.1⟩)
  rintro i c - hi ⟨c1, c2, c3⟩
  simp only [runs_bind, runs_rd, runs_wr, Buf.set_size, Buf.set_get]
  refine ⟨by omega, by omega, by omega, c1, fun k hk => ?_, fun k hk => ?_⟩
  · by_cases e : k = i
    · rw [if_pos e, e, c3 i (le_refl _)]
    · rw [if_neg e]; exact c2 k (by omega)
  · rw [if_neg (by omega)]; exact c3 k (by omega)

theorem rsqrtAll_runs (sqrt : R → R) (n : Nat) (b : Buf R) (hb : n ≤ b.size) (hz : ∀ i, i < n → b.get i ≠ 0) :
    Runs (rsqrtAll sqrt n b) fun c => c.size = b.size ∧ ∀ i, i < n → c.get i = 1 / sqrt (b.get i) := by
  unfold rsqrtAll
  refine forUp_runs' (fun i (c : Buf R) => c.size = b.size ∧ (∀ k, k < i → c.get k = 1 / sqrt (b.get k)) ∧ ∀ k, i ≤ k → c.get k = b.get k)
    (Nat.zero_le _) ⟨rfl, fun k hk => by omega, fun _ _ => rfl⟩ ?_ (fun c h => ⟨h.1, h.2.1⟩)
  rintro i c - hi ⟨c1, c2, c3⟩
  unfold rsqrt
  simp only [runs_bind, runs_rd]
  refine ⟨by omega, ?_⟩
  rw [c3 i (le_refl _), if_neg (hz i hi)]
  simp only [runs_pure, runs_wr, Buf.set_size, Buf.set_get]
  refine ⟨by omega, c1, fun k hk => ?_, fun k hk => ?_⟩
  · by_cases e : k = i
    · rw [if_pos e, e]
    · rw [if_neg e]; exact c2 k (by omega)
  · rw [if_neg (by omega)]; exact c3 k (by omega)

theorem residual_runs (n : Nat) (b : Buf R) (hb : n ≤ b.size) : Runs (residual n b) fun _ => True := by
  unfold residual
  refine forUp_runs' (fun _ _ => True) (Nat.zero_le _) trivial ?_ (fun _ _ => trivial)
  rintro i t - hi -
  simp only [runs_bind, runs_rd, runs_pure]
  exact ⟨by omega, trivial⟩

theorem iterScaleRows_runs {nrm : K → R} {emb : R → K} (isSymm : Bool) {B : CS K} (hB : B.WF) (hsq : B.ssize = B.psize)
    (lrs f : Buf R) (hl : lrs.size = B.psize) (hf : f.size = B.psize) :
    Runs (forUp 0 B.psize (B.vals, Buf.mk' B.psize (0 : R), Buf.mk' B.psize (0 : R)) (iterScaleRow nrm emb isSymm lrs f B)) fun z =>
      z.1.size = B.vals.size ∧ z.2.1.size = B.psize ∧ z.2.2.size = B.psize ∧
      ∀ i, i < B.psize → ∀ k, B.start.get i ≤ k → k < B.start.get (i + 1) →
        z.1.get k = B.vals.get k * emb (lrs.get i) * emb (f.get (B.inds.get k)) := by
  have hss := hB.start_size
  refine forUp_runs' (fun i (z : Buf K × Buf R × Buf R) => z.1.size = B.vals.size ∧ z.2.1.size = B.psize ∧ z.2.2.size = B.psize ∧
      (∀ j, j < i → ∀ k, B.start.get j ≤ k → k < B.start.get (j + 1) →
        z.1.get k = B.vals.get k * emb (lrs.get j) * emb (f.get (B.inds.get k))) ∧
      ∀ k, B.start.get i ≤ k → z.1.get k = B.vals.get k) (Nat.zero_le _)
    ⟨rfl, rfl, rfl, fun j hj => by omega, fun _ _ => rfl⟩ ?_ (fun z h => ⟨h.1, h.2.1, h.2.2.1, h.2.2.2.1⟩)
  rintro i ⟨vals, rrs, rcs⟩ - hi ⟨z1, z2, z3, z4, z5⟩
  simp only at z1 z2 z3 z4 z5
  unfold iterScaleRow
  simp only [runs_bind, runs_rd]
  refine ⟨by omega, by omega, by omega, ?_⟩
  refine forUp_runs' (fun k (w : Buf K × R × Buf R) => w.1.size = B.vals.size ∧ w.2.2.size = B.psize ∧
    (∀ l, l < B.start.get i → w.1.get l = vals.get l) ∧
    (∀ l, B.start.get i ≤ l → l < k → w.1.get l = B.vals.get l * emb (lrs.get i) * emb (f.get (B.inds.get l))) ∧
    ∀ l, k ≤ l → w.1.get l = B.vals.get l) (hB.mono i hi) ⟨z1, z3, fun _ _ => rfl, fun l _ _ => by omega, z5⟩ ?_ ?_
  · rintro k ⟨v, t, rcs'⟩ h1 h2 ⟨w1, w2, w3, w4, w5⟩
    simp only at w1 w2 w3 w4 w5
    have hj : B.inds.get k < B.psize := by have := hB.line_lt hi h2; omega
    have hkv := hB.line_vals hi h2
    simp only [runs_bind, runs_rd, runs_wr]
    refine ⟨hB.line_inds hi h2, by omega, by omega, by omega, ?_⟩
    have hfin : ∀ (t' : R) (rc : Buf R), rc.size = B.psize →
        (v.set k (v.get k * emb (lrs.get i) * emb (f.get (B.inds.get k)))).size = B.vals.size ∧ rc.size = B.psize ∧
        (∀ l, l < B.start.get i → (v.set k (v.get k * emb (lrs.get i) * emb (f.get (B.inds.get k)))).get l = vals.get l) ∧
        (∀ l, B.start.get i ≤ l → l < k + 1 → (v.set k (v.get k * emb (lrs.get i) * emb (f.get (B.inds.get k)))).get l =
          B.vals.get l * emb (lrs.get i) * emb (f.get (B.inds.get l))) ∧
        ∀ l, k + 1 ≤ l → (v.set k (v.get k * emb (lrs.get i) * emb (f.get (B.inds.get k)))).get l = B.vals.get l := by
      intro t' rc hrc
      refine ⟨w1, hrc, fun l hl => ?_, fun l l1 l2 => ?_, fun l hl => ?_⟩
      · rw [Buf.set_get, if_neg (by omega)]; exact w3 l hl
      · rw [Buf.set_get]
        by_cases e : l = k
        · rw [if_pos e, e, w5 k (le_refl _)]
        · rw [if_neg e]; exact w4 l l1 (by omega)
      · rw [Buf.set_get, if_neg (by omega)]; exact w5 l (by omega)
    unfold maxIntoIf
    cases isSymm with
    | true =>
      rw [if_pos rfl]
      simp only [runs_pure]
      exact hfin 0 _ w2
    | false =>
      rw [if_neg (by simp)]
      unfold maxInto
      simp only [runs_bind, runs_rd, runs_wr, runs_pure]
      exact ⟨by omega, by omega, hfin 0 _ w2⟩
  · rintro ⟨v, t, rcs'⟩ ⟨w1, w2, w3, w4, w5⟩
    simp only at w1 w2 w3 w4 w5
    simp only [runs_wr, runs_pure]
    refine ⟨by omega, w1, z2, w2, fun j hj k k1 k2 => ?_, w5⟩
    by_cases e : j = i
    · subst e; exact w4 k k1 k2
    · have : B.start.get (j + 1) ≤ B.start.get i := hB.start_mono (by omega) (by omega)
      rw [w3 k (by omega)]
      exact z4 j (by omega) k k1 k2

/-- State of the iteration relative to the input matrix. -/
structure IterInv (nrm : K → R) (emb : R → K) (isSymm : Bool) (B0 : CS K) (s : IterSt K R) : Prop where
  lay : SameLayout B0 s.B
  rsz : B0.psize ≤ s.rs.size
  csz : B0.psize ≤ s.cs.size
  rpos : ∀ i, i < B0.psize → 0 < s.rs.get i
  cpos : isSymm = false → ∀ i, i < B0.psize → 0 < s.cs.get i
  vals : ∀ i, i < B0.psize → ∀ k, B0.start.get i ≤ k → k < B0.start.get (i + 1) → s.B.vals.get k =
    B0.vals.get k * emb (s.rs.get i) * emb (if isSymm then s.rs.get (B0.inds.get k) else s.cs.get (B0.inds.get k))

/-- All entries have magnitude at most one. -/
def EntriesLeOne (nrm : K → R) (B : CS K) : Prop := ∀ i, i < B.psize → ∀ e ∈ B.line i, nrm e.2 ≤ 1

theorem SameLayout.trans {A B C : CS K} (h1 : SameLayout A B) (h2 : SameLayout B C) : SameLayout A C := by
  obtain ⟨a1, a2, a3, a4, a5⟩ := h1
  obtain ⟨b1, b2, b3, b4, b5⟩ := h2
  exact ⟨b1.trans a1, b2.trans a2, b3.trans a3, b4.trans a4, b5.trans a5⟩

/-- Positive scaling keeps the nonzero structure. -/
theorem IterInv.noZero {nrm : K → R} {emb : R → K} (hm : MagSpec nrm emb) {isSymm : Bool} {B0 : CS K} (hB : B0.WF)
    (hsq : B0.ssize = B0.psize) (hz : NoZeroLine nrm isSymm B0) {s : IterSt K R} (h : IterInv nrm emb isSymm B0 s) :
    NoZeroLine nrm isSymm s.B := by
  obtain ⟨l1, l2, l3, l4, l5⟩ := h.lay
  have key : ∀ i, i < B0.psize → ∀ k, B0.start.get i ≤ k → k < B0.start.get (i + 1) → nrm (B0.vals.get k) ≠ 0 →
      nrm (s.B.vals.get k) ≠ 0 := by
    intro i hi k k1 k2 hne
    have hj : B0.inds.get k < B0.psize := by have := hB.line_lt hi k2; omega
    have hc : 0 < (if isSymm then s.rs.get (B0.inds.get k) else s.cs.get (B0.inds.get k)) := by
      cases isSymm with
      | true => rw [if_pos rfl]; exact h.rpos _ hj
      | false => rw [if_neg (by simp)]; exact h.cpos rfl _ hj
    rw [h.vals i hi k k1 k2, hm.scale _ _ (le_of_lt hc), hm.scale _ _ (le_of_lt (h.rpos i hi))]
    exact mul_ne_zero (mul_ne_zero hne (ne_of_gt (h.rpos i hi))) (ne_of_gt hc)
  refine ⟨fun i hi => ?_, fun hs j hj => ?_⟩
  · rw [l1] at hi
    obtain ⟨e, e1, e2⟩ := hz.1 i hi
    obtain ⟨k, k1, k2, rfl⟩ := CS.mem_seg.1 e1
    exact ⟨_, CS.mem_seg.2 ⟨k, by rw [l3]; exact k1, by rw [l3]; exact k2, rfl⟩, key i hi k k1 k2 e2⟩
  · rw [l1] at hj
    obtain ⟨i, hi, e, e1, e2, e3⟩ := hz.2 hs j hj
    obtain ⟨k, k1, k2, rfl⟩ := CS.mem_seg.1 e1
    exact ⟨i, by rw [l1]; exact hi, _, CS.mem_seg.2 ⟨k, by rw [l3]; exact k1, by rw [l3]; exact k2, rfl⟩, by rw [l4]; exact e2,
      key i hi k k1 k2 e3⟩

theorem iterStep_runs {nrm : K → R} {emb : R → K} (hm : MagSpec nrm emb) (he : EmbSpec emb) {sqrt : R → R} (hsr : SqrtSpec sqrt)
    (isSymm : Bool) {B0 : CS K} (hB : B0.WF) (hsq : B0.ssize = B0.psize) (hz : NoZeroLine nrm isSymm B0) (s : IterSt K R)
    (h : IterInv nrm emb isSymm B0 s) :
    Runs (iterStep nrm emb sqrt isSymm s) fun s' => IterInv nrm emb isSymm B0 s' ∧ s'.rs.size = s.rs.size ∧ s'.cs.size = s.cs.size ∧
      (isSymm = false → EntriesLeOne nrm s'.B) := by
  have hwf := h.lay.wf hB
  have hz' := h.noZero hm hB hsq hz
  have hlay := h.lay
  obtain ⟨l1, l2, l3, l4, l5⟩ := h.lay
  have hsq' : s.B.ssize = s.B.psize := by rw [l1, l2, hsq]
  have g1 := h.rsz
  have g2 := h.csz
  unfold iterStep
  simp only [runs_bind]
  refine (iterMax_runs hm.nonneg isSymm hwf hsq' hz').mono ?_
  rintro ⟨lrs, lcs⟩ ⟨a1, a2, a3, a4⟩
  simp only at a1 a2 a3 a4 ⊢
  have lrpos : ∀ i, i < B0.psize → 0 < lrs.get i := by
    intro i hi
    obtain ⟨mx, m1, m2, m3⟩ := a3 i (by omega)
    rw [m3]
    refine one_div_pos.2 (hsr.pos (lt_of_le_of_ne ?_ (Ne.symm m2)))
    rcases m1.2 with ⟨-, h⟩ | ⟨e, -, h⟩
    · rw [h]
    · rw [← h]; exact hm.nonneg _
  refine (mulInto_runs s.B.psize s.rs lrs (by omega) (by omega)).mono ?_
  rintro rs ⟨b1, b2⟩
  have hnorm : ∀ x (r c : R), 0 < r → 0 < c → nrm (x * emb r * emb c) = nrm x * r * c := by
    intro x r c hr hc
    rw [hm.scale _ _ (le_of_lt hc), hm.scale _ _ (le_of_lt hr)]
  -- common tail
  have htail : ∀ (c1 c2 : Buf R), c1.size = s.B.psize → s.B.psize ≤ c2.size → c2.size = s.cs.size →
      (∀ j, j < B0.psize → 0 < (if isSymm then lrs else c1).get j) →
      (isSymm = false → ∀ j, j < B0.psize → 0 < c2.get j ∧ c2.get j = s.cs.get j * c1.get j) →
      (isSymm = false → ∀ i, i < B0.psize → ∀ k, B0.start.get i ≤ k → k < B0.start.get (i + 1) →
        nrm (s.B.vals.get k) * lrs.get i * c1.get (B0.inds.get k) ≤ 1) →
      Runs (do
        let z ← forUp 0 s.B.psize (s.B.vals, Buf.mk' s.B.psize (0 : R), Buf.mk' s.B.psize (0 : R))
          (iterScaleRow nrm emb isSymm lrs (if isSymm then lrs else c1) s.B)
        let rr ← residual s.B.psize z.2.1
        let rc ← resC isSymm s.B.psize z.2.2 rr
        pure ({ B := { s.B with vals := z.1 }, rs := rs, cs := c2, resR := rr, resC := rc } : IterSt K R)) fun s' =>
          IterInv nrm emb isSymm B0 s' ∧ s'.rs.size = s.rs.size ∧ s'.cs.size = s.cs.size ∧ (isSymm = false → EntriesLeOne nrm s'.B) := by
    intro c1 c2 hc1 hc2 hc2' hpos hc hle
    simp only [runs_bind]
    refine (iterScaleRows_runs isSymm hwf hsq' lrs (if isSymm then lrs else c1) a1 (by cases isSymm <;> assumption)).mono ?_
    rintro ⟨v, rr, rc⟩ ⟨z1, z2, z3, z4⟩
    simp only at z1 z2 z3 z4 ⊢
    refine (residual_runs _ rr (by omega)).mono ?_
    intro r1 _
    have hres : Runs (resC isSymm s.B.psize rc r1) fun _ => True := by
      unfold resC
      cases isSymm with
      | true => rw [if_pos rfl, runs_pure]; trivial
      | false => rw [if_neg (by simp)]; exact residual_runs _ rc (by omega)
    refine hres.mono ?_
    intro r2 _
    rw [runs_pure]
    have hval : ∀ i, i < B0.psize → ∀ k, B0.start.get i ≤ k → k < B0.start.get (i + 1) →
        v.get k = s.B.vals.get k * emb (lrs.get i) * emb ((if isSymm then lrs else c1).get (B0.inds.get k)) := by
      intro i hi k k1 k2
      have := z4 i (by omega) k (by rw [l3]; exact k1) (by rw [l3]; exact k2)
      rw [l4] at this
      exact this
    refine ⟨⟨hlay.trans ⟨rfl, rfl, rfl, rfl, z1⟩, by simp only; omega, by simp only; omega, ?_, ?_, ?_⟩, b1, hc2', ?_⟩
    · intro i hi
      simp only
      rw [b2 i (by omega)]
      exact mul_pos (h.rpos i hi) (lrpos i hi)
    · intro hs i hi
      exact (hc hs i hi).1
    · intro i hi k k1 k2
      have hj : B0.inds.get k < B0.psize := by have := hB.line_lt hi k2; omega
      simp only
      rw [hval i hi k k1 k2, h.vals i hi k k1 k2, b2 i (by omega), he.mul]
      cases isSymm with
      | true =>
        simp only [if_true]
        rw [b2 _ (by omega), he.mul]
        simp only [mul_comm, mul_left_comm, mul_assoc]
      | false =>
        simp only [Bool.false_eq_true, if_false]
        rw [(hc rfl _ hj).2, he.mul]
        simp only [mul_comm, mul_left_comm, mul_assoc]
    · intro hs i hi e hee
      have hi' : i < B0.psize := by
        have : i < s.B.psize := hi
        omega
      obtain ⟨k, k1, k2, rfl⟩ := CS.mem_seg.1 hee
      simp only at k1 k2 ⊢
      rw [l3] at k1 k2
      have hj : B0.inds.get k < B0.psize := by have := hB.line_lt hi' k2; omega
      rw [hval i hi' k k1 k2]
      have hp := hpos _ hj
      subst hs
      simp only [Bool.false_eq_true, if_false] at hp ⊢
      rw [hnorm _ _ _ (lrpos i hi') hp]
      exact hle rfl i hi' k k1 k2
  unfold iterCols
  cases isSymm with
  | true =>
    simp only [if_true, runs_pure]
    have := htail lcs s.cs a2 (by omega) rfl (fun j hj => by simpa using lrpos j hj) (fun h => by simp at h) (fun h => by simp at h)
    simpa only [if_true, runs_bind, runs_pure] using this
  | false =>
    rw [if_neg (by simp)]
    have hcne : ∀ j, j < s.B.psize → 0 < lcs.get j := by
      intro j hj
      obtain ⟨c1, c2, c3⟩ := a4 rfl j hj
      obtain ⟨i, hi, e, e1, e2, e3⟩ := hz'.2 rfl j hj
      obtain ⟨k, k1, k2, rfl⟩ := CS.mem_seg.1 e1
      have := c2 k (hwf.lt_nnz hi k2) e2
      exact lt_of_lt_of_le (lt_of_le_of_ne (hm.nonneg _) (Ne.symm e3)) this
    simp only [runs_bind]
    refine (rsqrtAll_runs sqrt s.B.psize lcs (by omega) (fun j hj => ne_of_gt (hcne j hj))).mono ?_
    rintro c1 ⟨d1, d2⟩
    refine (mulInto_runs s.B.psize s.cs c1 (by omega) (by omega)).mono ?_
    rintro c2 ⟨d3, d4⟩
    rw [runs_pure]
    have hc1pos : ∀ j, j < B0.psize → 0 < c1.get j := by
      intro j hj
      rw [d2 j (by omega)]
      exact one_div_pos.2 (hsr.pos (hcne j (by omega)))
    have := htail c1 c2 (by omega) (by omega) d3 (fun j hj => by simpa using hc1pos j hj)
      (fun _ j hj => ⟨by rw [d4 j (by omega)]; exact mul_pos (h.cpos rfl j hj) (hc1pos j hj), d4 j (by omega)⟩) ?_
    · simpa only [runs_bind, runs_pure] using this
    · intro _ i hi k k1 k2
      have hj : B0.inds.get k < B0.psize := by have := hB.line_lt hi k2; omega
      obtain ⟨mx, m1, m2, m3⟩ := a3 i (by omega)
      have hx1 : nrm (s.B.vals.get k) ≤ mx :=
        m1.1 (s.B.inds.get k, s.B.vals.get k) (CS.mem_seg.2 ⟨k, by rw [l3]; exact k1, by rw [l3]; exact k2, rfl⟩)
      have hx2 : nrm (s.B.vals.get k) ≤ lcs.get (B0.inds.get k) :=
        (a4 rfl _ (by omega)).2.1 k (by rw [l3, l1]; exact hB.lt_nnz hi k2) (by rw [l4])
      have hx0 := hm.nonneg (s.B.vals.get k)
      have hmx : 0 < mx := lt_of_le_of_ne (le_trans hx0 hx1) (Ne.symm m2)
      have hcp := hcne (B0.inds.get k) (by omega)
      obtain ⟨q1, q2⟩ := hsr mx (le_of_lt hmx)
      obtain ⟨q3, q4⟩ := hsr _ (le_of_lt hcp)
      have p1 := hsr.pos hmx
      have p2 := hsr.pos hcp
      rw [m3, d2 _ (by omega), mul_one_div, mul_one_div, div_div, div_le_one (mul_pos p1 p2)]
      set x := nrm (s.B.vals.get k)
      set y := sqrt mx * sqrt (lcs.get (B0.inds.get k)) with hy
      have hyy : y * y = mx * lcs.get (B0.inds.get k) := by
        rw [hy, mul_mul_mul_comm, q2, q4]
      have hxx : x * x ≤ y * y := by
        rw [hyy]; exact mul_le_mul hx1 hx2 hx0 (le_of_lt hmx)
      by_contra hlt
      rw [not_le] at hlt
      have hy0 : 0 < y := mul_pos p1 p2
      nlinarith

theorem iterLoop_runs {nrm : K → R} {emb : R → K} (hm : MagSpec nrm emb) (he : EmbSpec emb) {sqrt : R → R} (hsr : SqrtSpec sqrt)
    (isSymm : Bool) (tol : R) {B0 : CS K} (hB : B0.WF) (hsq : B0.ssize = B0.psize) (hz : NoZeroLine nrm isSymm B0) :
    ∀ (k : Nat) (s : IterSt K R), IterInv nrm emb isSymm B0 s → (k = 0 → isSymm = false → EntriesLeOne nrm s.B) →
    Runs (iterLoop nrm emb sqrt isSymm tol k s) fun s' => IterInv nrm emb isSymm B0 s' ∧ s'.rs.size = s.rs.size ∧
      s'.cs.size = s.cs.size ∧ (isSymm = false → EntriesLeOne nrm s'.B) := by
  intro k
  induction k with
  | zero => intro s h h0; rw [iterLoop, runs_pure]; exact ⟨h, rfl, rfl, h0 rfl⟩
  | succ k ih =>
    intro s h _
    rw [iterLoop]
    simp only [runs_bind]
    refine (iterStep_runs hm he hsr isSymm hB hsq hz s h).mono ?_
    rintro s' ⟨h1, h2, h3, h4⟩
    simp only [runs_ite, runs_pure]
    split
    · refine (ih s' h1 (fun _ => h4)).mono ?_
      rintro s'' ⟨g1, g2, g3, g4⟩
      exact ⟨g1, g2.trans h2, g3.trans h3, g4⟩
    · exact ⟨h1, h2, h3, h4⟩

theorem fillOne_runs (n : Nat) (b : Buf R) (hb : n ≤ b.size) :
    Runs (fillOne n b) fun c => c.size = b.size ∧ ∀ i, i < n → c.get i = 1 := by
  unfold fillOne
  refine forUp_runs' (fun i (c : Buf R) => c.size = b.size ∧ ∀ k, k < i → c.get k = 1) (Nat.zero_le _) ⟨rfl, fun k hk => by omega⟩ ?_
    (fun _ h => h)
  rintro i c - hi ⟨c1, c2⟩
  simp only [runs_wr, Buf.set_size, Buf.set_get]
  refine ⟨by omega, c1, fun k hk => ?_⟩
  by_cases e : k = i
  · rw [if_pos e]
  · rw [if_neg e]; exact c2 k (by omega)

theorem copyInto_runs (n : Nat) (a b : Buf R) (ha : n ≤ a.size) (hb : n ≤ b.size) :
    Runs (copyInto n a b) fun c => c.size = b.size ∧ ∀ i, i < n → c.get i = a.get i := by
  unfold copyInto
  refine forUp_runs' (fun i (c : Buf R) => c.size = b.size ∧ ∀ k, k < i → c.get k = a.get k) (Nat.zero_le _) ⟨rfl, fun k hk => by omega⟩ ?_
    (fun _ h => h)
  rintro i c - hi ⟨c1, c2⟩
  simp only [runs_bind, runs_rd, runs_wr, Buf.set_size, Buf.set_get]
  refine ⟨by omega, by omega, c1, fun k hk => ?_⟩
  by_cases e : k = i
  · rw [if_pos e, e]
  · rw [if_neg e]; exact c2 k (by omega)

theorem iterScale_runs {nrm : K → R} {emb : R → K} (hm : MagSpec nrm emb) (he : EmbSpec emb) {sqrt : R → R} (hsr : SqrtSpec sqrt)
    (isSymm : Bool) (tol : R) (iters : Nat) (hit : 0 < iters) {B : CS K} (hB : B.WF) (hsq : B.ssize = B.psize)
    (hz : NoZeroLine nrm isSymm B) (rs cs : Buf R) (hrs : B.psize ≤ rs.size) (hcs : B.psize ≤ cs.size) :
    Runs (iterScale nrm emb sqrt isSymm tol iters B rs cs) fun r => SameLayout B r.1 ∧ r.2.1.size = rs.size ∧ r.2.2.size = cs.size ∧
      (∀ i, i < B.psize → 0 < r.2.1.get i ∧ 0 < r.2.2.get i) ∧
      (∀ i, i < B.psize → r.1.line i = (B.line i).map fun e => (e.1, e.2 * emb (r.2.1.get i) * emb (r.2.2.get e.1))) ∧
      (isSymm = true → ∀ i, i < B.psize → r.2.2.get i = r.2.1.get i) ∧
      (isSymm = false → EntriesLeOne nrm r.1) := by
  unfold iterScale
  simp only [runs_bind]
  refine (fillOne_runs B.psize rs hrs).mono ?_
  rintro rs1 ⟨a1, a2⟩
  have hcs1 : Runs (whenB (!isSymm) (fillOne B.psize cs) cs) fun c => c.size = cs.size ∧ (isSymm = false → ∀ i, i < B.psize → c.get i = 1) := by
    unfold whenB
    cases isSymm with
    | true => simp
    | false =>
      simp only [Bool.not_false, if_true]
      exact (fillOne_runs B.psize cs hcs).mono fun c hc => ⟨hc.1, fun _ => hc.2⟩
  refine hcs1.mono ?_
  rintro cs1 ⟨b1, b2⟩
  refine (iterLoop_runs hm he hsr isSymm tol hB hsq hz iters _ ⟨⟨rfl, rfl, rfl, rfl, rfl⟩, by simp only; omega, by simp only; omega,
    fun i hi => by simp only [a2 i hi]; exact one_pos, fun hs i hi => by simp only [b2 hs i hi]; exact one_pos, ?_⟩ (fun h => by omega)).mono ?_
  · intro i hi k k1 k2
    have hj : B.inds.get k < B.psize := by have := hB.line_lt hi k2; omega
    simp only
    rw [a2 i hi, he.one, mul_one]
    cases isSymm with
    | true => rw [if_pos rfl, a2 _ hj, he.one, mul_one]
    | false => rw [if_neg (by simp), b2 rfl _ hj, he.one, mul_one]
  rintro s ⟨hI, s1, s2, s3⟩
  simp only at s1 s2
  have g1 := hI.rsz
  have g2 := hI.csz
  have hfin : Runs (whenB isSymm (copyInto B.psize s.rs s.cs) s.cs) fun c => c.size = s.cs.size ∧
      ∀ i, i < B.psize → c.get i = if isSymm then s.rs.get i else s.cs.get i := by
    unfold whenB
    cases isSymm with
    | true =>
      simp only [if_true]
      exact copyInto_runs B.psize s.rs s.cs g1 g2
    | false => simp
  refine hfin.mono ?_
  rintro c ⟨c1, c2⟩
  rw [runs_pure]
  refine ⟨hI.lay, s1.trans a1, by simp only; omega, fun i hi => ⟨hI.rpos i hi, ?_⟩, fun i hi => ?_, fun hs i hi => ?_, s3⟩
  · simp only
    rw [c2 i hi]
    cases isSymm with
    | true => exact hI.rpos i hi
    | false => exact hI.cpos rfl i hi
  · obtain ⟨l1, l2, l3, l4, l5⟩ := hI.lay
    unfold CS.line CS.seg
    rw [l3, List.map_map]
    refine List.map_congr_left fun k hk => ?_
    rw [List.mem_range'_1] at hk
    have hmo := hB.mono i hi
    have hlt : k < B.start.get (i + 1) := by omega
    have hj : B.inds.get k < B.psize := by have := hB.line_lt hi hlt; omega
    simp only [Function.comp]
    rw [l4, hI.vals i hi k hk.1 hlt, c2 _ hj]
  · simp only
    rw [c2 i hi, hs, if_pos rfl]

end Pre
end Hif
