import Verif.PermLemmas

set_option linter.unusedSectionVars false
set_option linter.unusedVariables false
set_option linter.unusedSimpArgs false

/-!
# Coordinate to compressed storage; sparse to dense

Model of `convert_coo2cs` (src/hif/utils/coo2compress.hpp 55–112) and `DenseMatrix::copy_sparse`
(src/hif/ds/DenseMatrix.hpp 356–399).
-/

namespace Hif
namespace CS
variable {K : Type _}

/-- Counting loop (coo2compress.hpp 73). -/
def cooCount (pidx os : Buf Nat) : M (Buf Nat) :=
  forUp 0 pidx.size os fun i os => do
    let p ← pidx.rd i
    let c ← os.rd (p + 1)
    os.wr (p + 1) (c + 1)

/-- Scatter loop (lines 83–88). -/
def cooScatter (pidx sids : Buf Nat) (cv : Buf K) (s : Buf Nat × Buf Nat × Buf K) : M (Buf Nat × Buf Nat × Buf K) :=
  forUp 0 pidx.size s fun i s => do
    let p ← pidx.rd i
    let pos ← s.1.rd p
    let j ← sids.rd i
    let oi ← s.2.1.wr pos j
    let v ← cv.rd i
    let ov ← s.2.2.wr pos v
    let os ← s.1.wr p (pos + 1)
    pure (os, oi, ov)

/-- Reset of the start array (lines 91–92). -/
def cooReset (n : Nat) (os : Buf Nat) : M (Buf Nat) := do
  let os ← forDown n os fun i os => do
    let v ← os.rd i
    os.wr (i + 1) v
  os.wr 0 0

/-- `std::is_sorted(b+lo, b+hi)` (no early exit modelled; the result is the same). -/
def isSortedRange (b : Buf Nat) (lo hi : Nat) : M Bool :=
  forUp (lo + 1) hi true fun k acc => do
    let y ← b.rd k
    let x ← b.rd (k - 1)
    pure (acc && decide (x ≤ y))

/-- Body of the local sort (lines 97–110) for the line `[lo,hi)`.  `vbuf` is modelled as fresh for each line: every
element read has been written for the same line. -/
def cooSortLine [Inhabited K] (w lo hi : Nat) (inds : Buf Nat) (vals : Buf K) : M (Buf Nat × Buf K) := do
  let ok ← isSortedRange inds lo hi
  if ok then pure (inds, vals)
  else do
    let vbuf ← forUp lo hi (Buf.mk' w (default : K)) fun k vbuf => do
      let j ← inds.rd k
      let v ← vals.rd k
      vbuf.wr j v
    let inds ← sortRange inds lo hi
    let vals ← forUp lo hi vals fun k vals => do
      let j ← inds.rd k
      let v ← vbuf.rd j
      vals.wr k v
    pure (inds, vals)

/-- `convert_coo2cs` (lines 55–112), called from `read_mm` on an empty matrix object: with no entries `resize(0)` leaves
the fresh arrays in state `DATA_UNDEF`, and line 80 throws. -/
def cooToCS [Inhabited K] (m n : Nat) (pidx sids : Buf Nat) (cv : Buf K) : M (CS K) := do
  let os ← cooCount pidx (Buf.mk' (m + 1) 0)
  let os ← prefixSum m os
  if pidx.size = 0 then throw (.hif "memory allocation failed") else do
    let s ← cooScatter pidx sids cv (os, Buf.mk' pidx.size 0, Buf.mk' pidx.size default)
    let os ← cooReset m s.1
    let r ← forUp 0 m s.2 fun i (r : Buf Nat × Buf K) => do
      let lo ← os.rd i
      let hi ← os.rd (i + 1)
      cooSortLine n lo hi r.1 r.2
    pure { psize := m, ssize := n, start := os, inds := r.1, vals := r.2 }

/-- `DenseMatrix::copy_sparse` from CRS (DenseMatrix.hpp 356–372): column-major data of size `nrows*ncols`. -/
def denseFromCRS [Zero K] (A : CS K) : M (Buf K) :=
  forUp 0 A.psize (Buf.mk' (A.psize * A.ssize) 0) fun r d =>
    A.forLine r d fun c v d => d.wr (r + c * A.psize) v

/-- `DenseMatrix::copy_sparse` from CCS (lines 379–399). -/
def denseFromCCS [Zero K] (A : CS K) : M (Buf K) :=
  forUp 0 A.psize (Buf.mk' (A.ssize * A.psize) 0) fun c d =>
    A.forLine c d fun r v d => d.wr (c * A.ssize + r) v

/-! ### proofs -/

/-- Auxiliary view: the triples as one "line" keyed by the primary index, to reuse `cnt`, `base`, `pos`. -/
def cooView (pidx : Buf Nat) (cv : Buf K) : CS K :=
  { psize := 1, ssize := 0, start := Buf.mk' 0 0, inds := pidx, vals := cv }

theorem cooCount_runs (m : Nat) (pidx : Buf Nat) (cv : Buf K) (hb : ∀ k, k < pidx.size → pidx.get k < m) :
    Runs (cooCount pidx (Buf.mk' (m + 1) 0)) fun os' => os'.size = m + 1 ∧ os'.get 0 = 0 ∧
      ∀ j, os'.get (j + 1) = (cooView pidx cv).cnt j pidx.size :=
  convCount_runs (cooView pidx cv) m (Buf.mk' (m + 1) 0) rfl (fun _ => rfl) hb

theorem cooScatter_runs (m : Nat) (pidx sids : Buf Nat) (cv : Buf K) (hb : ∀ k, k < pidx.size → pidx.get k < m)
    (hs : sids.size = pidx.size) (hv : cv.size = pidx.size) (os oi : Buf Nat) (ov : Buf K)
    (h1 : os.size = m + 1) (h2 : oi.size = pidx.size) (h3 : ov.size = pidx.size)
    (h4 : ∀ j, j ≤ m → os.get j = (cooView pidx cv).base pidx.size j) :
    Runs (cooScatter pidx sids cv (os, oi, ov)) fun s =>
      s.1.size = m + 1 ∧ s.2.1.size = pidx.size ∧ s.2.2.size = pidx.size ∧
      (∀ j, j < m → s.1.get j = (cooView pidx cv).base pidx.size (j + 1)) ∧
      ∀ l, l < pidx.size → s.2.1.get ((cooView pidx cv).pos pidx.size l) = sids.get l ∧
        s.2.2.get ((cooView pidx cv).pos pidx.size l) = cv.get l := by
  set X := cooView pidx cv with hX
  have hXi : X.inds = pidx := rfl
  set n := pidx.size with hn
  unfold cooScatter
  refine forUp_runs' (fun k (s : Buf Nat × Buf Nat × Buf K) =>
      s.1.size = m + 1 ∧ s.2.1.size = n ∧ s.2.2.size = n ∧
      (∀ j, j < m → s.1.get j = X.base n j + X.cnt j k) ∧
      ∀ l, l < k → s.2.1.get (X.pos n l) = sids.get l ∧ s.2.2.get (X.pos n l) = cv.get l) (Nat.zero_le _) ?_ ?_ ?_
  · exact ⟨h1, h2, h3, fun j hj => by simp only; rw [h4 j (by omega), cnt_zero]; rfl, fun l hl => by omega⟩
  · rintro k s - hk ⟨s1, s2, s3, s4, s5⟩
    have hj := hb k hk
    have hpos : s.1.get (pidx.get k) = X.pos n k := s4 _ hj
    have hpl := X.pos_lt hb hk
    simp only [runs_bind, runs_rd, runs_wr, runs_pure, Buf.set_size]
    refine ⟨hk, by omega, by omega, by omega, by omega, by omega, by omega, s1, s2, s3, fun j hjm => ?_, fun l hl => ?_⟩
    · simp only [Buf.set_get, cnt_succ]
      by_cases hc : j = pidx.get k
      · subst hc; rw [if_pos rfl, if_pos (by rw [hXi]), s4 _ hj, Nat.add_assoc]
      · rw [if_neg hc, if_neg (by rw [hXi]; omega), s4 j hjm]; rfl
    · simp only [Buf.set_get, hpos]
      by_cases hlk : l = k
      · subst hlk; simp
      · have hne : X.pos n l ≠ X.pos n k := fun e => hlk (X.pos_inj (by omega) hk e)
        rw [if_neg hne, if_neg hne]
        exact s5 l (by omega)
  · rintro s ⟨s1, s2, s3, s4, s5⟩
    exact ⟨s1, s2, s3, fun j hj => by rw [s4 j hj, base_succ], s5⟩

theorem cooReset_runs (m : Nat) (os : Buf Nat) (f : Nat → Nat) (h1 : os.size = m + 1) (h0 : f 0 = 0)
    (h : ∀ j, j < m → os.get j = f (j + 1)) :
    Runs (cooReset m os) fun os' => os'.size = m + 1 ∧ ∀ j, j ≤ m → os'.get j = f j := by
  unfold cooReset
  simp only [runs_bind]
  refine forDown_runs' (fun i (o : Buf Nat) => o.size = m + 1 ∧ (∀ j, j < i → o.get j = os.get j) ∧
    ∀ j, i < j → j ≤ m → o.get j = f j) ⟨h1, fun _ _ => rfl, fun j a b => by omega⟩ ?_ ?_
  · rintro i o hi ⟨o1, o2, o3⟩
    simp only [runs_bind, runs_rd, runs_wr, Buf.set_size, Buf.set_get]
    refine ⟨by omega, by omega, o1, fun j hj => ?_, fun j hj hj' => ?_⟩
    · rw [if_neg (by omega)]; exact o2 j (by omega)
    · by_cases e : j = i + 1
      · subst e; rw [if_pos rfl, o2 i (by omega), h i hi]
      · rw [if_neg e]; exact o3 j (by omega) hj'
  · rintro o ⟨o1, o2, o3⟩
    simp only [runs_wr, Buf.set_size, Buf.set_get]
    refine ⟨by omega, o1, fun j hj => ?_⟩
    by_cases e : j = 0
    · subst e; rw [if_pos rfl, h0]
    · rw [if_neg e]; exact o3 j (by omega) hj

theorem isSortedRange_runs (b : Buf Nat) (lo hi : Nat) (hb : hi ≤ b.size) :
    Runs (isSortedRange b lo hi) fun r => r = true ↔ ∀ k, lo < k → k < hi → b.get (k - 1) ≤ b.get k := by
  unfold isSortedRange
  rcases Nat.lt_or_ge hi (lo + 1) with h | h
  · rw [forUp_empty _ _ (by omega)]
    simp only [runs_pure, true_iff]
    intro k h1 h2; omega
  refine forUp_runs' (fun t r => r = true ↔ ∀ k, lo < k → k < t → b.get (k - 1) ≤ b.get k) h ?_ ?_ (fun s h => h)
  · simp only [true_iff]; intro k h1 h2; omega
  · intro k r h1 h2 hr
    simp only [runs_bind, runs_rd, runs_pure, Bool.and_eq_true, decide_eq_true_eq, hr]
    refine ⟨by omega, by omega, ?_, ?_⟩
    · rintro ⟨a, c⟩ l l1 l2
      rcases Nat.lt_or_ge l k with h3 | h3
      · exact a l l1 h3
      · rw [show l = k by omega]; exact c
    · intro a
      exact ⟨fun l l1 l2 => a l l1 (by omega), a k (by omega) (by omega)⟩

/-- Pairs stored at positions `[lo,hi)` of an index and a value buffer. -/
def pairs (inds : Buf Nat) (vals : Buf K) (lo hi : Nat) : List (Nat × K) :=
  (List.range' lo (hi - lo)).map fun k => (inds.get k, vals.get k)

theorem pairs_fst (inds : Buf Nat) (vals : Buf K) (lo hi : Nat) :
    (pairs inds vals lo hi).map Prod.fst = inds.slice lo hi := by
  simp [pairs, Buf.slice, Function.comp_def]

theorem slice_sorted_of_adj (b : Buf Nat) (lo hi : Nat) (h : ∀ k, lo < k → k < hi → b.get (k - 1) ≤ b.get k) :
    (b.slice lo hi).Pairwise (· ≤ ·) := by
  have mono : ∀ d k, lo ≤ k → k + d < hi → b.get k ≤ b.get (k + d) := by
    intro d
    induction d with
    | zero => intro k _ _; exact le_refl _
    | succ d ih =>
      intro k h1 h2
      refine le_trans (ih k h1 (by omega)) ?_
      have := h (k + (d + 1)) (by omega) (by omega)
      rwa [show k + (d + 1) - 1 = k + d by omega] at this
  unfold Buf.slice
  rw [List.pairwise_map]
  refine List.Pairwise.imp_of_mem ?_ (List.pairwise_lt_range' (s := lo) (n := hi - lo) (step := 1) (by omega))
  intro k l hk hl hkl
  rw [List.mem_range'_1] at hk hl
  have := mono (l - k) k (by omega) (by omega)
  rwa [show k + (l - k) = l by omega] at this

theorem cooSortLine_runs [Inhabited K] (w lo hi : Nat) (inds : Buf Nat) (vals : Buf K) (hle : lo ≤ hi)
    (h1 : hi ≤ inds.size) (h2 : hi ≤ vals.size) (hb : ∀ k, lo ≤ k → k < hi → inds.get k < w)
    (hd : (inds.slice lo hi).Nodup ∨ (inds.slice lo hi).Pairwise (· ≤ ·)) :
    Runs (cooSortLine w lo hi inds vals) fun r =>
      r.1.size = inds.size ∧ r.2.size = vals.size ∧
      (∀ k, ¬ (lo ≤ k ∧ k < hi) → r.1.get k = inds.get k ∧ r.2.get k = vals.get k) ∧
      ((pairs r.1 r.2 lo hi).map Prod.fst).Pairwise (· ≤ ·) ∧
      (pairs r.1 r.2 lo hi).Perm (pairs inds vals lo hi) := by
  unfold cooSortLine
  simp only [runs_bind]
  refine (isSortedRange_runs inds lo hi h1).mono fun ok hok => ?_
  simp only [runs_ite, runs_pure]
  by_cases hs : ok = true
  · rw [if_pos hs]
    refine ⟨trivial, trivial, fun k _ => ⟨trivial, trivial⟩, ?_, List.Perm.refl _⟩
    rw [pairs_fst]
    exact slice_sorted_of_adj inds lo hi (hok.1 hs)
  rw [if_neg hs]
  have hnd : (inds.slice lo hi).Nodup := by
    rcases hd with h | h
    · exact h
    · exfalso; apply hs; rw [hok]
      intro k k1 k2
      rw [List.pairwise_iff_getElem] at h
      have := h (k - 1 - lo) (k - lo) (by rw [Buf.slice_length]; omega) (by rw [Buf.slice_length]; omega) (by omega)
      rw [Buf.slice_getElem, Buf.slice_getElem] at this
      rwa [show lo + (k - 1 - lo) = k - 1 by omega, show lo + (k - lo) = k by omega] at this
  have hinj : ∀ k l, lo ≤ k → k < l → l < hi → inds.get k ≠ inds.get l := by
    intro k l k1 k2 k3 e
    unfold List.Nodup at hnd
    rw [List.pairwise_iff_getElem] at hnd
    have := hnd (k - lo) (l - lo) (by rw [Buf.slice_length]; omega) (by rw [Buf.slice_length]; omega) (by omega)
    rw [Buf.slice_getElem, Buf.slice_getElem] at this
    rw [show lo + (k - lo) = k by omega, show lo + (l - lo) = l by omega] at this
    exact this e
  simp only [runs_bind]
  refine forUp_runs' (fun k (vb : Buf K) => vb.size = w ∧ ∀ l, lo ≤ l → l < k → vb.get (inds.get l) = vals.get l) hle
    ⟨rfl, fun l a b => by omega⟩ ?_ ?_
  · rintro k vb k1 k2 ⟨v1, v2⟩
    have := hb k k1 k2
    simp only [runs_bind, runs_rd, runs_wr, Buf.set_size, Buf.set_get]
    refine ⟨by omega, by omega, by omega, v1, fun l l1 l2 => ?_⟩
    by_cases e : l = k
    · subst e; rw [if_pos rfl]
    · rw [if_neg (hinj l k l1 (by omega) k2)]; exact v2 l l1 (by omega)
  rintro vb ⟨v1, v2⟩
  refine (sortRange_runs inds lo hi hle h1).mono ?_
  rintro oi ⟨o1, o2, o3⟩
  -- entries above `hi` are untouched as well
  have hperm : (oi.slice lo hi).Perm (inds.slice lo hi) := by rw [o3]; exact List.perm_insertionSort _ _
  have hmem : ∀ k, lo ≤ k → k < hi → ∃ l, lo ≤ l ∧ l < hi ∧ inds.get l = oi.get k := by
    intro k k1 k2
    have : oi.get k ∈ oi.slice lo hi := Buf.mem_slice.2 ⟨k, k1, k2, rfl⟩
    rw [hperm.mem_iff] at this
    exact Buf.mem_slice.1 this
  refine forUp_runs' (fun k (v : Buf K) => v.size = vals.size ∧
    (∀ l, ¬ (lo ≤ l ∧ l < hi) → v.get l = vals.get l) ∧
    ∀ l, lo ≤ l → l < k → v.get l = vb.get (oi.get l)) hle ⟨rfl, fun _ _ => rfl, fun l a b => by omega⟩ ?_ ?_
  · rintro k v k1 k2 ⟨u1, u2, u3⟩
    obtain ⟨l, l1, l2, l3⟩ := hmem k k1 k2
    have := hb l l1 l2
    simp only [runs_bind, runs_rd, runs_wr, Buf.set_size, Buf.set_get]
    refine ⟨by omega, by omega, by omega, u1, fun l hl => ?_, fun l a b => ?_⟩
    · rw [if_neg (by omega)]; exact u2 l hl
    · by_cases e : l = k
      · subst e; rw [if_pos rfl]
      · rw [if_neg e]; exact u3 l a (by omega)
  rintro ov ⟨u1, u2, u3⟩
  simp only [runs_pure]
  have hpr : pairs oi ov lo hi = (oi.slice lo hi).map fun j => (j, vb.get j) := by
    unfold pairs Buf.slice
    rw [List.map_map]
    refine List.map_congr_left fun k hk => ?_
    rw [List.mem_range'_1] at hk
    simp only [Function.comp]
    rw [u3 k (by omega) (by omega)]
  have hpr0 : pairs inds vals lo hi = (inds.slice lo hi).map fun j => (j, vb.get j) := by
    unfold pairs Buf.slice
    rw [List.map_map]
    refine List.map_congr_left fun k hk => ?_
    rw [List.mem_range'_1] at hk
    simp only [Function.comp]
    rw [v2 k (by omega) (by omega)]
  refine ⟨o1, u1, fun k hk => ⟨o2 k hk, u2 k hk⟩, ?_, ?_⟩
  · rw [pairs_fst, o3]; exact List.pairwise_insertionSort _ _
  · rw [hpr, hpr0]; exact hperm.map _

theorem cooToCS_runs [Inhabited K] [AddCommMonoid K] (m n : Nat) (pidx sids : Buf Nat) (cv : Buf K)
    (hn : 0 < pidx.size) (hs : sids.size = pidx.size) (hv : cv.size = pidx.size)
    (hb : ∀ k, k < pidx.size → pidx.get k < m) (hb2 : ∀ k, k < pidx.size → sids.get k < n)
    (hd : ∀ i, i < m → (∀ k l, k < l → l < pidx.size → pidx.get k = i → pidx.get l = i → sids.get k ≠ sids.get l) ∨
      (∀ k l, k < l → l < pidx.size → pidx.get k = i → pidx.get l = i → sids.get k ≤ sids.get l)) :
    Runs (cooToCS m n pidx sids cv) fun A => A.WF ∧ A.Tight ∧ A.psize = m ∧ A.ssize = n ∧
      A.inds.size = pidx.size ∧
      (∀ i, i < m → ((A.line i).map Prod.fst).Pairwise (· ≤ ·)) ∧
      (∀ i, i < m → ∀ j, A.entry i j =
        ∑ k ∈ Finset.range pidx.size, if pidx.get k = i ∧ sids.get k = j then cv.get k else 0) ∧
      (∀ i, i < m →
        (∀ k l, k < l → l < pidx.size → pidx.get k = i → pidx.get l = i → sids.get k ≠ sids.get l) →
        ((A.line i).map Prod.fst).Nodup) ∧
      ∀ i, i < m → ∀ p, p ∈ A.line i ↔ ∃ l, l < pidx.size ∧ pidx.get l = i ∧ (sids.get l, cv.get l) = p := by
  unfold cooToCS
  simp only [runs_bind]
  refine (cooCount_runs m pidx cv hb).mono ?_
  rintro os ⟨o1, o2, o3⟩
  refine (prefixSum_runs (cooView pidx cv) pidx.size m os o1 o2 o3).mono ?_
  rintro os1 ⟨p1, p2⟩
  simp only [runs_ite]
  rw [if_neg (by omega)]
  simp only [runs_bind]
  refine (cooScatter_runs m pidx sids cv hb hs hv os1 (Buf.mk' pidx.size 0) (Buf.mk' pidx.size default) p1 rfl rfl p2).mono ?_
  rintro ⟨os2, oi, ov⟩ ⟨s1, s2, s3, s4, s5⟩
  simp only at s1 s2 s3 s4 s5
  refine (cooReset_runs m os2 ((cooView pidx cv).base pidx.size) s1 (base_zero _ _) s4).mono ?_
  rintro os3 ⟨r1, r2⟩
  clear s4 p2 p1 o1 o2 o3 s1
  set X := cooView pidx cv with hX
  have hXi : X.inds = pidx := rfl
  set nn := pidx.size with hnn
  have htop : X.base nn m = nn := X.base_top nn m hb
  -- every position of a line comes from a triple
  have hsrc : ∀ i k, X.base nn i ≤ k → k < X.base nn (i + 1) → ∃ l, l < nn ∧ pidx.get l = i ∧ X.pos nn l = k := by
    intro i k k1 k2
    have : k ∈ Finset.Ico (X.base nn i) (X.base nn (i + 1)) := Finset.mem_Ico.2 ⟨k1, k2⟩
    rw [← X.pos_image nn i] at this
    obtain ⟨l, hl, rfl⟩ := Finset.mem_image.1 this
    obtain ⟨h1, h2⟩ := Finset.mem_filter.1 hl
    exact ⟨l, Finset.mem_range.1 h1, h2, rfl⟩
  have hbm : ∀ {i j : Nat}, i ≤ j → X.base nn i ≤ X.base nn j := fun h => X.base_mono nn h
  have hline0 : ∀ i, i < m →
      ((∀ k l, k < l → l < nn → pidx.get k = i → pidx.get l = i → sids.get k ≠ sids.get l) →
        (oi.slice (X.base nn i) (X.base nn (i + 1))).Nodup) ∧
      ((∀ k l, k < l → l < nn → pidx.get k = i → pidx.get l = i → sids.get k ≤ sids.get l) →
      (oi.slice (X.base nn i) (X.base nn (i + 1))).Pairwise (· ≤ ·)) := by
    intro i hi
    have key : ∀ a b, X.base nn i ≤ a → a < b → b < X.base nn (i + 1) →
        ∃ k l, k < l ∧ l < nn ∧ pidx.get k = i ∧ pidx.get l = i ∧ oi.get a = sids.get k ∧ oi.get b = sids.get l := by
      intro a b a1 a2 a3
      obtain ⟨k, k1, k2, k3⟩ := hsrc i a a1 (by omega)
      obtain ⟨l, l1, l2, l3⟩ := hsrc i b (by omega) a3
      have hlt : X.pos nn k < X.pos nn l := by omega
      rw [X.pos_lt_pos k1 l1] at hlt
      have hkl : k < l := by
        rcases hlt with h | h
        · rw [hXi] at h; omega
        · exact h.2
      exact ⟨k, l, hkl, l1, k2, l2, by rw [← k3]; exact (s5 k k1).1, by rw [← l3]; exact (s5 l l1).1⟩
    have pw : ∀ R : Nat → Nat → Prop, (∀ a b, X.base nn i ≤ a → a < b → b < X.base nn (i + 1) → R (oi.get a) (oi.get b)) →
        (oi.slice (X.base nn i) (X.base nn (i + 1))).Pairwise R := by
      intro R hR
      rw [List.pairwise_iff_getElem]
      intro s t s1 t1 st
      rw [Buf.slice_getElem, Buf.slice_getElem]
      rw [Buf.slice_length] at s1 t1
      exact hR _ _ (by omega) (by omega) (by omega)
    constructor <;> intro h
    · refine pw _ fun a b a1 a2 a3 => ?_
      obtain ⟨k, l, q1, q2, q3, q4, q5, q6⟩ := key a b a1 a2 a3
      rw [q5, q6]; exact h k l q1 q2 q3 q4
    · refine pw _ fun a b a1 a2 a3 => ?_
      obtain ⟨k, l, q1, q2, q3, q4, q5, q6⟩ := key a b a1 a2 a3
      rw [q5, q6]; exact h k l q1 q2 q3 q4
  have hline : ∀ i, i < m → (oi.slice (X.base nn i) (X.base nn (i + 1))).Nodup ∨
      (oi.slice (X.base nn i) (X.base nn (i + 1))).Pairwise (· ≤ ·) := fun i hi =>
    (hd i hi).imp (hline0 i hi).1 (hline0 i hi).2
  refine forUp_runs' (fun i (r : Buf Nat × Buf K) => r.1.size = nn ∧ r.2.size = nn ∧
      (∀ k, X.base nn i ≤ k → r.1.get k = oi.get k ∧ r.2.get k = ov.get k) ∧
      ∀ l, l < i → ((pairs r.1 r.2 (X.base nn l) (X.base nn (l + 1))).map Prod.fst).Pairwise (· ≤ ·) ∧
        (pairs r.1 r.2 (X.base nn l) (X.base nn (l + 1))).Perm (pairs oi ov (X.base nn l) (X.base nn (l + 1))))
    (Nat.zero_le _) ⟨s2, s3, fun _ _ => ⟨rfl, rfl⟩, fun l hl => by omega⟩ ?_ ?_
  · rintro i r - hi ⟨q1, q2, q3, q4⟩
    simp only [runs_bind, runs_rd]
    rw [r2 i (by omega), r2 (i + 1) (by omega)]
    refine ⟨by omega, by omega, ?_⟩
    have hb1 : X.base nn i ≤ X.base nn (i + 1) := hbm (by omega)
    have hb2' : X.base nn (i + 1) ≤ nn := by have := hbm (show i + 1 ≤ m from hi); omega
    have hsl : r.1.slice (X.base nn i) (X.base nn (i + 1)) = oi.slice (X.base nn i) (X.base nn (i + 1)) :=
      Buf.slice_congr fun k k1 _ => (q3 k k1).1
    refine (cooSortLine_runs n (X.base nn i) (X.base nn (i + 1)) r.1 r.2 hb1 (by omega) (by omega) ?_
      (by rw [hsl]; exact hline i hi)).mono ?_
    · intro k k1 k2
      obtain ⟨l, l1, l2, l3⟩ := hsrc i k k1 k2
      rw [(q3 k k1).1, ← l3, (s5 l l1).1]
      exact hb2 l l1
    rintro r' ⟨t1, t2, t3, t4, t5⟩
    have hpe : pairs r.1 r.2 (X.base nn i) (X.base nn (i + 1)) = pairs oi ov (X.base nn i) (X.base nn (i + 1)) := by
      unfold pairs
      refine List.map_congr_left fun k hk => ?_
      rw [List.mem_range'_1] at hk
      rw [(q3 k hk.1).1, (q3 k hk.1).2]
    refine ⟨by omega, by omega, fun k hk => ?_, fun l hl => ?_⟩
    · have := t3 k (by omega)
      have := q3 k (by omega)
      simp_all
    · by_cases e : l = i
      · subst e; rw [hpe] at t5; exact ⟨t4, t5⟩
      · have hlb : X.base nn (l + 1) ≤ X.base nn i := hbm (by omega)
        have : pairs r'.1 r'.2 (X.base nn l) (X.base nn (l + 1)) = pairs r.1 r.2 (X.base nn l) (X.base nn (l + 1)) := by
          unfold pairs
          refine List.map_congr_left fun k hk => ?_
          rw [List.mem_range'_1] at hk
          have := t3 k (by omega)
          rw [this.1, this.2]
        rw [this]; exact q4 l (by omega)
  · rintro r ⟨q1, q2, q3, q4⟩
    simp only [runs_pure]
    have hlp : ∀ i, i < m → (CS.mk m n os3 r.1 r.2).line i = pairs r.1 r.2 (X.base nn i) (X.base nn (i + 1)) := by
      intro i hi
      unfold line seg pairs
      simp only
      rw [r2 i (by omega), r2 (i + 1) (by omega)]
    refine ⟨⟨?_, ?_, ?_, ?_, ?_, ?_⟩, ⟨r1, ?_, ?_⟩, trivial, trivial, q1, ?_, ?_, ?_, ?_⟩
    · simp only; omega
    · simp only; rw [r2 0 (by omega), base_zero]
    · intro i hi
      simp only at hi ⊢
      rw [r2 i (by omega), r2 (i + 1) (by omega)]
      exact hbm (by omega)
    · simp only; rw [r2 m (le_refl _), htop]; omega
    · simp only; rw [r2 m (le_refl _), htop]; omega
    · intro k hk
      simp only at hk ⊢
      rw [r2 m (le_refl _), htop] at hk
      have hlt := hk
      rw [← htop] at hlt
      have hex : ∀ j, k < X.base nn j → ∃ i, i < j ∧ X.base nn i ≤ k ∧ k < X.base nn (i + 1) := by
        intro j
        induction j with
        | zero => intro h'; rw [base_zero] at h'; omega
        | succ j ih =>
          intro h'
          rcases Nat.lt_or_ge k (X.base nn j) with h1 | h1
          · obtain ⟨i, i1, i2⟩ := ih h1
            exact ⟨i, by omega, i2⟩
          · exact ⟨j, by omega, h1, h'⟩
      obtain ⟨i, i1, i2, i3⟩ := hex m hlt
      have hmem : (r.1.get k, r.2.get k) ∈ pairs r.1 r.2 (X.base nn i) (X.base nn (i + 1)) := by
        unfold pairs
        exact List.mem_map.2 ⟨k, List.mem_range'_1.2 ⟨i2, by omega⟩, rfl⟩
      rw [(q4 i i1).2.mem_iff] at hmem
      unfold pairs at hmem
      obtain ⟨k', hk', he⟩ := List.mem_map.1 hmem
      rw [List.mem_range'_1] at hk'
      obtain ⟨l, l1, l2, l3⟩ := hsrc i k' hk'.1 (by omega)
      have he1 : oi.get k' = r.1.get k := congrArg Prod.fst he
      rw [← he1, ← l3, (s5 l l1).1]
      exact hb2 l l1
    · simp only; rw [r2 m (le_refl _), htop]; exact q1
    · simp only; rw [r2 m (le_refl _), htop]; exact q2
    · intro i hi; rw [hlp i hi]; exact (q4 i hi).1
    · intro i hi j
      have hbi : X.base nn i ≤ X.base nn (i + 1) := hbm (by omega)
      rw [entry_eq_line _ _ _ (by simp only; rw [r2 i (by omega), r2 (i + 1) (by omega)]; exact hbi), hlp i hi]
      rw [((q4 i hi).2.map _).sum_eq]
      unfold pairs
      rw [List.map_map, list_sum_range', show X.base nn i + (X.base nn (i + 1) - X.base nn i) = X.base nn (i + 1) by omega]
      rw [← X.pos_image nn i, Finset.sum_image]
      · rw [Finset.sum_filter]
        refine Finset.sum_congr rfl fun l hl => ?_
        have := s5 l (Finset.mem_range.1 hl)
        simp only [Function.comp, this.1, this.2]
        rw [hXi]
        by_cases h1 : pidx.get l = i <;> by_cases h2 : sids.get l = j <;> simp [h1, h2]
      · intro k hk l hl e
        rw [Finset.mem_coe, Finset.mem_filter, Finset.mem_range] at hk hl
        exact X.pos_inj hk.1 hl.1 e
    · intro i hi hdist
      rw [hlp i hi, (((q4 i hi).2).map Prod.fst).nodup_iff, pairs_fst]
      exact (hline0 i hi).1 hdist
    · intro i hi p
      rw [hlp i hi, (q4 i hi).2.mem_iff]
      unfold pairs
      rw [List.mem_map]
      constructor
      · rintro ⟨k, hk, rfl⟩
        rw [List.mem_range'_1] at hk
        obtain ⟨l, l1, l2, l3⟩ := hsrc i k hk.1 (by omega)
        exact ⟨l, l1, l2, by rw [← l3, (s5 l l1).1, (s5 l l1).2]⟩
      · rintro ⟨l, l1, l2, rfl⟩
        have hmem : X.pos nn l ∈ Finset.Ico (X.base nn i) (X.base nn (i + 1)) := by
          rw [← X.pos_image nn i]
          exact Finset.mem_image.2 ⟨l, Finset.mem_filter.2 ⟨Finset.mem_range.2 l1, l2⟩, rfl⟩
        rw [Finset.mem_Ico] at hmem
        exact ⟨X.pos nn l, List.mem_range'_1.2 ⟨hmem.1, by omega⟩, by rw [(s5 l l1).1, (s5 l l1).2]⟩

/-- Strictly sorted lines when no position is repeated. -/
theorem cooToCS_strict [Inhabited K] [AddCommMonoid K] (m n : Nat) (pidx sids : Buf Nat) (cv : Buf K)
    (hn : 0 < pidx.size) (hs : sids.size = pidx.size) (hv : cv.size = pidx.size)
    (hb : ∀ k, k < pidx.size → pidx.get k < m) (hb2 : ∀ k, k < pidx.size → sids.get k < n)
    (hd : ∀ k l, k < l → l < pidx.size → ¬ (pidx.get k = pidx.get l ∧ sids.get k = sids.get l)) :
    Runs (cooToCS m n pidx sids cv) fun A => A.WF ∧ A.Sorted ∧
      (∀ i, i < m → ∀ j, A.entry i j =
        ∑ k ∈ Finset.range pidx.size, if pidx.get k = i ∧ sids.get k = j then cv.get k else 0) := by
  have hd' : ∀ i, i < m → ∀ k l, k < l → l < pidx.size → pidx.get k = i → pidx.get l = i → sids.get k ≠ sids.get l :=
    fun i hi k l kl l1 k2 l2 e => hd k l kl l1 ⟨by rw [k2, l2], e⟩
  refine (cooToCS_runs m n pidx sids cv hn hs hv hb hb2 (fun i hi => Or.inl (hd' i hi))).mono ?_
  rintro A ⟨a1, a2, a3, a4, a5, a6, a7, a8, -⟩
  refine ⟨a1, fun i hi k l hk hl hkl => ?_, a7⟩
  obtain ⟨hk1, hk2⟩ := hk
  obtain ⟨hl1, hl2⟩ := hl
  rw [a3] at hi
  have h1 := a6 i hi
  have h2 := a8 i hi (hd' i hi)
  have h3 := h1.and h2
  unfold line at h3
  rw [seg_fst, List.pairwise_iff_getElem] at h3
  have h := h3 (k - A.start.get i) (l - A.start.get i) (by rw [Buf.slice_length]; omega)
    (by rw [Buf.slice_length]; omega) (by omega)
  rw [Buf.slice_getElem, Buf.slice_getElem] at h
  rw [show A.start.get i + (k - A.start.get i) = k by omega,
    show A.start.get i + (l - A.start.get i) = l by omega] at h
  omega

/-! ### dense -/

theorem denseFromCRS_runs [AddCommMonoid K] {A : CS K} (h : A.WF)
    (hd : ∀ i, i < A.psize → ∀ k l, A.start.get i ≤ k → k < l → l < A.start.get (i + 1) → A.inds.get k ≠ A.inds.get l) :
    Runs A.denseFromCRS fun d => d.size = A.psize * A.ssize ∧
      ∀ i, i < A.psize → ∀ j, j < A.ssize → d.get (i + j * A.psize) = A.entry i j := by
  unfold denseFromCRS
  have hidx : ∀ i j, i < A.psize → j < A.ssize → i + j * A.psize < A.psize * A.ssize := by
    intro i j hi hj
    have : (j + 1) * A.psize ≤ A.ssize * A.psize := Nat.mul_le_mul_right _ hj
    rw [Nat.mul_comm A.psize]; rw [Nat.add_mul, Nat.one_mul] at this; omega
  have hinj : ∀ i j i' j', i < A.psize → i' < A.psize → i + j * A.psize = i' + j' * A.psize → i = i' ∧ j = j' := by
    intro i j i' j' hi hi' e
    have h1 : (i + j * A.psize) % A.psize = (i' + j' * A.psize) % A.psize := by rw [e]
    rw [Nat.add_mul_mod_self_right, Nat.add_mul_mod_self_right, Nat.mod_eq_of_lt hi, Nat.mod_eq_of_lt hi'] at h1
    subst h1
    exact ⟨rfl, Nat.eq_of_mul_eq_mul_right (by omega) (Nat.add_left_cancel e)⟩
  refine forUp_runs' (fun r (d : Buf K) => d.size = A.psize * A.ssize ∧
    (∀ i, i < r → ∀ j, j < A.ssize → d.get (i + j * A.psize) = A.entry i j) ∧
    (∀ i, r ≤ i → i < A.psize → ∀ j, d.get (i + j * A.psize) = 0)) (Nat.zero_le _)
    ⟨rfl, fun i hi => by omega, fun i _ _ j => rfl⟩ ?_ ?_
  · rintro r d - hr ⟨d1, d2, d3⟩
    refine forLine_runs h hr (fun k (d' : Buf K) => d'.size = A.psize * A.ssize ∧
      (∀ i, i < A.psize → i ≠ r → ∀ j, d'.get (i + j * A.psize) = d.get (i + j * A.psize)) ∧
      ∀ j, d'.get (r + j * A.psize) =
        ∑ l ∈ Finset.Ico (A.start.get r) k, if A.inds.get l = j then A.vals.get l else 0)
      ⟨d1, fun _ _ _ _ => rfl, fun j => by rw [d3 r (le_refl _) hr]; simp⟩ ?_ ?_
    · rintro k d' k1 k2 ⟨e1, e2, e3⟩
      have hj := h.line_lt hr k2
      simp only [runs_wr, Buf.set_size, Buf.set_get]
      refine ⟨by rw [e1]; exact hidx _ _ hr hj, e1, fun i hi hne j => ?_, fun j => ?_⟩
      · rw [if_neg (fun e => hne (hinj _ _ _ _ hi hr e).1)]; exact e2 i hi hne j
      · rw [Finset.sum_Ico_succ_top k1]
        by_cases e : A.inds.get k = j
        · subst e
          rw [if_pos rfl, if_pos rfl, Finset.sum_eq_zero, zero_add]
          intro l hl
          rw [Finset.mem_Ico] at hl
          rw [if_neg (hd r hr l k hl.1 hl.2 k2)]
        · rw [if_neg (fun e' => e (hinj _ _ _ _ hr hr e').2.symm), if_neg e, add_zero]; exact e3 j
    · rintro d' ⟨e1, e2, e3⟩
      refine ⟨e1, fun i hi j hj => ?_, fun i hi hi' j => ?_⟩
      · by_cases e : i = r
        · subst e; exact e3 j
        · rw [e2 i (by omega) e]; exact d2 i (by omega) j hj
      · rw [e2 i hi' (by omega)]; exact d3 i (by omega) hi' j
  · rintro d ⟨d1, d2, d3⟩
    exact ⟨d1, d2⟩

theorem denseFromCCS_runs [AddCommMonoid K] {A : CS K} (h : A.WF)
    (hd : ∀ i, i < A.psize → ∀ k l, A.start.get i ≤ k → k < l → l < A.start.get (i + 1) → A.inds.get k ≠ A.inds.get l) :
    Runs A.denseFromCCS fun d => d.size = A.ssize * A.psize ∧
      ∀ c, c < A.psize → ∀ i, i < A.ssize → d.get (i + c * A.ssize) = A.entry c i := by
  unfold denseFromCCS
  have hidx : ∀ c i, c < A.psize → i < A.ssize → c * A.ssize + i < A.ssize * A.psize := by
    intro c i hc hi
    have : (c + 1) * A.ssize ≤ A.psize * A.ssize := Nat.mul_le_mul_right _ hc
    rw [Nat.mul_comm A.ssize]; rw [Nat.add_mul, Nat.one_mul] at this; omega
  have hinj : ∀ c i c' i', i < A.ssize → i' < A.ssize → c * A.ssize + i = c' * A.ssize + i' → c = c' ∧ i = i' := by
    intro c i c' i' hi hi' e
    have h1 : (i + c * A.ssize) % A.ssize = (i' + c' * A.ssize) % A.ssize := by rw [Nat.add_comm i, Nat.add_comm i', e]
    rw [Nat.add_mul_mod_self_right, Nat.add_mul_mod_self_right, Nat.mod_eq_of_lt hi, Nat.mod_eq_of_lt hi'] at h1
    subst h1
    exact ⟨Nat.eq_of_mul_eq_mul_right (by omega) (Nat.add_right_cancel e), rfl⟩
  refine forUp_runs' (fun r (d : Buf K) => d.size = A.ssize * A.psize ∧
    (∀ c, c < r → ∀ i, i < A.ssize → d.get (c * A.ssize + i) = A.entry c i) ∧
    (∀ c, r ≤ c → ∀ i, i < A.ssize → d.get (c * A.ssize + i) = 0)) (Nat.zero_le _)
    ⟨rfl, fun i hi => by omega, fun i _ _ j => rfl⟩ ?_ ?_
  · rintro r d - hr ⟨d1, d2, d3⟩
    refine forLine_runs h hr (fun k (d' : Buf K) => d'.size = A.ssize * A.psize ∧
      (∀ c, c ≠ r → ∀ i, i < A.ssize → d'.get (c * A.ssize + i) = d.get (c * A.ssize + i)) ∧
      ∀ j, j < A.ssize → d'.get (r * A.ssize + j) =
        ∑ l ∈ Finset.Ico (A.start.get r) k, if A.inds.get l = j then A.vals.get l else 0)
      ⟨d1, fun _ _ _ _ => rfl, fun j hj => by rw [d3 r (le_refl _) j hj]; simp⟩ ?_ ?_
    · rintro k d' k1 k2 ⟨e1, e2, e3⟩
      have hj := h.line_lt hr k2
      simp only [runs_wr, Buf.set_size, Buf.set_get]
      refine ⟨by rw [e1]; exact hidx _ _ hr hj, e1, fun c hne i hi => ?_, fun j hjj => ?_⟩
      · rw [if_neg (fun e => hne (hinj _ _ _ _ hi hj e).1)]; exact e2 c hne i hi
      · rw [Finset.sum_Ico_succ_top k1]
        by_cases e : A.inds.get k = j
        · subst e
          rw [if_pos rfl, if_pos rfl, Finset.sum_eq_zero, zero_add]
          intro l hl
          rw [Finset.mem_Ico] at hl
          rw [if_neg (hd r hr l k hl.1 hl.2 k2)]
        · rw [if_neg (fun e' => e (hinj _ _ _ _ hjj hj e').2.symm), if_neg e, add_zero]; exact e3 j hjj
    · rintro d' ⟨e1, e2, e3⟩
      refine ⟨e1, fun i hi j hj => ?_, fun i hi j hj => ?_⟩
      · by_cases e : i = r
        · subst e; exact e3 j hj
        · rw [e2 i e j hj]; exact d2 i (by omega) j hj
      · rw [e2 i (by omega) j hj]; exact d3 i (by omega) j hj
  · rintro d ⟨d1, d2, d3⟩
    exact ⟨d1, fun c hc i hi => by rw [Nat.add_comm]; exact d2 c hc i hi⟩

end CS
end Hif
