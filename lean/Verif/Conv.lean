import Verif.CSLemmas
import Verif.Spec
import Mathlib.Data.Finset.Card

set_option linter.unusedSectionVars false
set_option linter.unusedVariables false

/-!
# Changing the storage order

Model of `internal::convert_storage` and of the constructors `CRS(const CCS&)`, `CCS(const CRS&)`
(src/hif/ds/CompressedStorage.hpp 752–812, 911–919, 1895–1905).
-/

namespace Hif
open Finset
namespace CS
variable {K : Type _}

/-- Output arrays of `convert_storage` during step 3. -/
structure ConvSt (K : Type _) where
  it : Nat
  os : Buf Nat
  oi : Buf Nat
  ov : Buf K

/-- Step 1 (lines 775–780): count the entries per secondary index into `o_ind_start[p+1]`. -/
def convCount (A : CS K) (os : Buf Nat) : M (Buf Nat) :=
  forUp 0 A.inds.size os fun k os => do
    let p ← A.inds.rd k
    let c ← os.rd (p + 1)
    os.wr (p + 1) (c + 1)

/-- Step 2 (line 783): prefix sums. -/
def prefixSum (n : Nat) (os : Buf Nat) : M (Buf Nat) :=
  forUp 0 n os fun i os => do
    let a ← os.rd i
    let b ← os.rd (i + 1)
    os.wr (i + 1) (b + a)

/-- Body of step 3 (lines 792–800) for the entry at position `k` of line `i`. -/
def convPut (A : CS K) (i k : Nat) (s : ConvSt K) : M (ConvSt K) := do
  let j ← A.inds.rd k
  let jj ← s.os.rd j
  let oi ← s.oi.wr jj i
  let v ← A.vals.rd k
  let ov ← s.ov.wr jj v
  let c ← s.os.rd j
  let os ← s.os.wr j (c + 1)
  pure { it := k + 1, os := os, oi := oi, ov := ov }

/-- Step 3 (lines 786–801): scatter. -/
def convScatter (A : CS K) (inn : Nat) (s : ConvSt K) : M (ConvSt K) :=
  forUp 0 inn s fun i s => do
    let b ← A.start.rd (i + 1)
    let a ← A.start.rd i
    forUp s.it (s.it + (b - a)) s fun k s => A.convPut i k s

/-- Final step (lines 805–806): shift the start array back. -/
def convShift (n : Nat) (os : Buf Nat) : M (Buf Nat) := do
  let r ← forUp 0 n ((0 : Nat), os) fun i r => do
    let v ← r.2.rd i
    let os ← r.2.wr i r.1
    pure (v, os)
  pure r.2

/-- `convert_storage` (lines 752–812). -/
def convertStorage (A : CS K) (os oi : Buf Nat) (ov : Buf K) : M (Buf Nat × Buf Nat × Buf K) := do
  let back ← A.start.rd (A.start.size - 1)
  if A.inds.size ≠ back then throw (.hif "nnz does not match that in start array")
  else if A.inds.size ≠ A.vals.size then throw (.hif "nnz sizes do not match between indices and vals")
  else if A.inds.size ≠ oi.size then throw (.hif "input nnz does not match of that the output")
  else if oi.size ≠ ov.size then throw (.hif "nnz sizes do not match between indices and vals")
  else do
    let os ← A.convCount os
    let os ← prefixSum (os.size - 1) os
    let s ← A.convScatter (A.start.size - 1) { it := 0, os := os, oi := oi, ov := ov }
    let os ← convShift (s.os.size - 1) s.os
    pure (os, s.oi, s.ov)

/-- `CRS(ccs)` / `CCS(crs)` constructors (lines 911–919, 1895–1905): allocate, zero the start array,
convert if there is anything to convert.  `junk` is the (unspecified) initial content of the
freshly allocated index/value arrays. -/
def convert [Inhabited K] (A : CS K) : M (CS K) := do
  let back ← A.start.rd (A.start.size - 1)
  let front ← A.start.rd 0
  let nnz := back - front
  let os : Buf Nat := Buf.mk' (A.ssize + 1) 0
  if nnz = 0 then
    pure { psize := A.ssize, ssize := A.psize, start := os, inds := Buf.mk' 0 0, vals := Buf.mk' 0 default }
  else do
    let r ← A.convertStorage os (Buf.mk' nnz 0) (Buf.mk' nnz default)
    pure { psize := A.ssize, ssize := A.psize, start := r.1, inds := r.2.1, vals := r.2.2 }

/-! ### proofs -/

/-- Number of entries among the first `k` whose secondary index satisfies `p`. -/
def cnt (A : CS K) (j k : Nat) : Nat := ((range k).filter fun l => A.inds.get l = j).card
/-- Number of entries (all `n`) whose secondary index is below `j`. -/
def base (A : CS K) (n j : Nat) : Nat := ((range n).filter fun l => A.inds.get l < j).card
/-- Where entry `k` goes. -/
def pos (A : CS K) (n k : Nat) : Nat := A.base n (A.inds.get k) + A.cnt (A.inds.get k) k

theorem cnt_zero (A : CS K) (j : Nat) : A.cnt j 0 = 0 := by simp [cnt]
theorem cnt_succ (A : CS K) (j k : Nat) :
    A.cnt j (k + 1) = A.cnt j k + if A.inds.get k = j then 1 else 0 := by
  unfold cnt
  rw [range_add_one, filter_insert]
  split
  · rw [card_insert_of_notMem (by simp)]
  · simp
theorem cnt_mono (A : CS K) (j : Nat) {k l : Nat} (h : k ≤ l) : A.cnt j k ≤ A.cnt j l :=
  card_le_card (filter_subset_filter _ (range_mono h))
theorem base_zero (A : CS K) (n : Nat) : A.base n 0 = 0 := by simp [base]
theorem base_succ (A : CS K) (n j : Nat) : A.base n (j + 1) = A.base n j + A.cnt j n := by
  unfold base cnt
  rw [← card_union_of_disjoint]
  · congr 1
    ext l
    simp only [mem_filter, mem_range, mem_union]
    omega
  · rw [disjoint_filter]
    intro l _ h1 h2; omega
theorem base_mono (A : CS K) (n : Nat) {i j : Nat} (h : i ≤ j) : A.base n i ≤ A.base n j := by
  refine card_le_card fun l hl => ?_
  simp only [mem_filter, mem_range] at *
  omega
theorem base_top (A : CS K) (n m : Nat) (h : ∀ k, k < n → A.inds.get k < m) : A.base n m = n := by
  unfold base
  rw [filter_true_of_mem, card_range]
  intro k hk; exact h k (mem_range.1 hk)

theorem cnt_lt (A : CS K) {j k l : Nat} (hk : A.inds.get k = j) (h : k < l) : A.cnt j k < A.cnt j l := by
  have := A.cnt_mono j (show k + 1 ≤ l from h)
  rw [cnt_succ, if_pos hk] at this
  omega

theorem pos_lt_base (A : CS K) {n k : Nat} (hk : k < n) : A.pos n k < A.base n (A.inds.get k + 1) := by
  rw [base_succ]; unfold pos
  have := A.cnt_lt (j := A.inds.get k) rfl hk
  omega
theorem base_le_pos (A : CS K) (n k : Nat) : A.base n (A.inds.get k) ≤ A.pos n k := by
  unfold pos; omega
theorem pos_lt (A : CS K) {n m k : Nat} (h : ∀ k, k < n → A.inds.get k < m) (hk : k < n) :
    A.pos n k < n := by
  have h1 := A.pos_lt_base hk
  have h2 := A.base_mono n (show A.inds.get k + 1 ≤ m from h k hk)
  rw [A.base_top n m h] at h2
  omega
theorem pos_inj (A : CS K) {n k l : Nat} (hk : k < n) (hl : l < n) (h : A.pos n k = A.pos n l) : k = l := by
  have a1 := A.pos_lt_base hk
  have a2 := A.base_le_pos n k
  have b1 := A.pos_lt_base hl
  have b2 := A.base_le_pos n l
  have : A.inds.get k = A.inds.get l := by
    rcases Nat.lt_trichotomy (A.inds.get k) (A.inds.get l) with h' | h' | h'
    · have := A.base_mono n (show A.inds.get k + 1 ≤ A.inds.get l from h'); omega
    · exact h'
    · have := A.base_mono n (show A.inds.get l + 1 ≤ A.inds.get k from h'); omega
  unfold pos at h
  rw [this] at h
  have h3 : A.cnt (A.inds.get l) k = A.cnt (A.inds.get l) l := by omega
  rcases Nat.lt_trichotomy k l with h' | h' | h'
  · have := A.cnt_lt this h'; omega
  · exact h'
  · have := A.cnt_lt (rfl : A.inds.get l = A.inds.get l) h'; omega

theorem convCount_runs (A : CS K) (m : Nat) (os : Buf Nat) (hos : os.size = m + 1)
    (h0 : ∀ i, os.get i = 0) (hb : ∀ k, k < A.inds.size → A.inds.get k < m) :
    Runs (A.convCount os) fun os' => os'.size = m + 1 ∧ os'.get 0 = 0 ∧
      ∀ j, os'.get (j + 1) = A.cnt j A.inds.size := by
  unfold convCount
  refine forUp_runs' (fun k (os' : Buf Nat) => os'.size = m + 1 ∧ os'.get 0 = 0 ∧
      ∀ j, os'.get (j + 1) = A.cnt j k) (Nat.zero_le _) ⟨hos, h0 0, fun j => by rw [h0, cnt_zero]⟩ ?_
      (fun s h => h)
  rintro k os' - hk ⟨h1, h2, h3⟩
  have := hb k hk
  simp only [runs_bind, runs_rd, runs_wr, Buf.set_size, Buf.set_get]
  refine ⟨hk, by omega, by omega, h1, by simp [h2], fun j => ?_⟩
  rw [cnt_succ]
  by_cases h : A.inds.get k = j
  · subst h; simp [h3]
  · have h' : ¬ (j = A.inds.get k) := fun e => h e.symm
    simp [h, h', h3]

theorem prefixSum_runs (A : CS K) (n m : Nat) (os : Buf Nat) (hos : os.size = m + 1)
    (h0 : os.get 0 = 0) (hc : ∀ j, os.get (j + 1) = A.cnt j n) :
    Runs (prefixSum m os) fun os' => os'.size = m + 1 ∧ ∀ j, j ≤ m → os'.get j = A.base n j := by
  unfold prefixSum
  refine forUp_runs' (fun i (os' : Buf Nat) => os'.size = m + 1 ∧ (∀ j, j ≤ i → os'.get j = A.base n j) ∧
    ∀ j, i < j → os'.get j = os.get j) (Nat.zero_le _)
    ⟨hos, fun j hj => by rw [show j = 0 by omega, h0, base_zero], fun _ _ => rfl⟩ ?_
    (fun s h => ⟨h.1, h.2.1⟩)
  rintro i os' - hi ⟨h1, h2, h3⟩
  simp only [runs_bind, runs_rd, runs_wr, Buf.set_size, Buf.set_get]
  refine ⟨by omega, by omega, by omega, h1, fun j hj => ?_, fun j hj => ?_⟩
  · by_cases h : j = i + 1
    · subst h
      rw [if_pos rfl, h3 _ (by omega), hc, h2 i (le_refl _), base_succ]; omega
    · rw [if_neg h]; exact h2 j (by omega)
  · rw [if_neg (by omega)]; exact h3 j (by omega)

/-- Line of entry `k`. -/
def InLine (A : CS K) (i k : Nat) : Prop := A.start.get i ≤ k ∧ k < A.start.get (i + 1)

theorem InLine.unique {A : CS K} (h : A.WF) {i j k : Nat} (hi : i < A.psize) (hj : j < A.psize)
    (h1 : A.InLine i k) (h2 : A.InLine j k) : i = j := by
  rcases Nat.lt_trichotomy i j with h' | h' | h'
  · have := h.start_mono (show i + 1 ≤ j from h') (by omega)
    obtain ⟨_, a⟩ := h1; obtain ⟨b, _⟩ := h2; omega
  · exact h'
  · have := h.start_mono (show j + 1 ≤ i from h') (by omega)
    obtain ⟨a, _⟩ := h1; obtain ⟨_, b⟩ := h2; omega

/-- Invariant of step 3 after the first `k` entries have been scattered. -/
structure ScatInv (A : CS K) (n m : Nat) (k : Nat) (s : ConvSt K) : Prop where
  it : s.it = k
  os_size : s.os.size = m + 1
  oi_size : s.oi.size = n
  ov_size : s.ov.size = n
  os_get : ∀ j, j < m → s.os.get j = A.base n j + A.cnt j k
  os_top : s.os.get m = n
  done : ∀ l, l < k → A.InLine (s.oi.get (A.pos n l)) l ∧ s.oi.get (A.pos n l) < A.psize ∧
    s.ov.get (A.pos n l) = A.vals.get l

/-- One scatter step preserves the invariant. -/
theorem ScatInv.put {A : CS K} {n m k i : Nat} {t : ConvSt K} (hi2 : ScatInv A n m k t) (hkn : k < n)
    (hb : ∀ k, k < n → A.inds.get k < m) (hin : A.InLine i k) (hi : i < A.psize) :
    ScatInv A n m (k + 1) (ConvSt.mk (k + 1) (t.os.set (A.inds.get k) (t.os.get (A.inds.get k) + 1))
      (t.oi.set (t.os.get (A.inds.get k)) i) (t.ov.set (t.os.get (A.inds.get k)) (A.vals.get k))) ∧
    t.os.get (A.inds.get k) < n := by
  have hj : A.inds.get k < m := hb k hkn
  have hpos : t.os.get (A.inds.get k) = A.pos n k := hi2.os_get _ hj
  have hpl := A.pos_lt hb hkn
  refine ⟨?_, by omega⟩
  constructor
  · rfl
  · simpa using hi2.os_size
  · simpa using hi2.oi_size
  · simpa using hi2.ov_size
  · intro j hjm
    simp only [Buf.set_get, cnt_succ]
    by_cases hc : j = A.inds.get k
    · subst hc; simp [hi2.os_get _ hj, Nat.add_assoc]
    · rw [if_neg hc, if_neg (fun e => hc e.symm), hi2.os_get j hjm]; rfl
  · simp only [Buf.set_get]
    rw [if_neg (by omega)]; exact hi2.os_top
  · intro l hl
    simp only [Buf.set_get, hpos]
    by_cases hlk : l = k
    · subst hlk
      simp only [if_true]
      exact ⟨hin, hi, trivial⟩
    · have hne : A.pos n l ≠ A.pos n k := fun e =>
        hlk (A.pos_inj (by omega) hkn e)
      simp only [hne, if_false]
      exact hi2.done l (by omega)

theorem convScatter_runs {A : CS K} (h : A.WF) (ht : A.Tight) (s : ConvSt K)
    (hs : ScatInv A A.inds.size A.ssize 0 s) :
    Runs (A.convScatter A.psize s) (ScatInv A A.inds.size A.ssize A.inds.size) := by
  unfold convScatter
  have hn : A.start.get A.psize = A.inds.size := ht.inds_size.symm
  have hb : ∀ k, k < A.inds.size → A.inds.get k < A.ssize := fun k hk => h.inds_lt k (by omega)
  refine forUp_runs' (fun i s => ScatInv A A.inds.size A.ssize (A.start.get i) s) (Nat.zero_le _)
    (by rw [h.start_zero]; exact hs) ?_ (fun s hs => by rw [← hn]; rw [hn] at hs ⊢; exact hs)
  rintro i s - hi hs
  have hss := h.start_size
  have hm := h.mono i hi
  simp only [runs_bind, runs_rd]
  refine ⟨by omega, by omega, ?_⟩
  have e : s.it + (A.start.get (i + 1) - A.start.get i) = A.start.get (i + 1) := by
    rw [hs.it]; omega
  rw [e]
  refine forUp_runs' (fun k s => ScatInv A A.inds.size A.ssize k s) (by rw [hs.it]; exact hm)
    (by rw [hs.it]; exact hs) ?_ (fun s hs => hs)
  intro k t hk1 hk2 hi2
  rw [hs.it] at hk1
  have hkn : k < A.inds.size := h.line_inds hi hk2
  have hj : A.inds.get k < A.ssize := hb k hkn
  have hkv : k < A.vals.size := h.line_vals hi hk2
  obtain ⟨hput, hpl⟩ := hi2.put hkn hb ⟨hk1, hk2⟩ hi
  unfold convPut
  simp only [runs_bind, runs_rd, runs_wr, runs_pure]
  have hos := hi2.os_size
  have hoi := hi2.oi_size
  have hov := hi2.ov_size
  exact ⟨hkn, by omega, by omega, hkv, by omega, by omega, by omega, hput⟩

theorem convShift_runs (n m : Nat) (f : Nat → Nat) (os : Buf Nat) (hos : os.size = m + 1)
    (hf0 : f 0 = 0) (hf : ∀ j, j < m → os.get j = f (j + 1)) (hm : os.get m = f m) :
    Runs (convShift m os) fun os' => os'.size = m + 1 ∧ ∀ j, j ≤ m → os'.get j = f j := by
  unfold convShift
  simp only [runs_bind, runs_pure]
  refine forUp_runs' (fun i (r : Nat × Buf Nat) => r.2.size = m + 1 ∧ r.1 = f i ∧
    (∀ j, j < i → r.2.get j = f j) ∧ ∀ j, i ≤ j → r.2.get j = os.get j) (Nat.zero_le _)
    ⟨hos, hf0.symm, by simp, by simp⟩ ?_ ?_
  · rintro i r - hi ⟨h1, h2, h3, h4⟩
    simp only [runs_bind, runs_rd, runs_wr, runs_pure, Buf.set_size, Buf.set_get]
    refine ⟨by omega, by omega, h1, by rw [h4 i (le_refl _), hf i hi], fun j hj => ?_, fun j hj => ?_⟩
    · by_cases hc : j = i
      · rw [if_pos hc, hc, h2]
      · rw [if_neg hc]; exact h3 j (by omega)
    · rw [if_neg (by omega)]; exact h4 j (by omega)
  · rintro r ⟨h1, h2, h3, h4⟩
    refine ⟨h1, fun j hj => ?_⟩
    by_cases hc : j = m
    · rw [hc, h4 m (le_refl _), hm]
    · exact h3 j (by omega)

/-- What the conversion produces, entry by entry. -/
structure ConvSpec (A B : CS K) : Prop where
  psize : B.psize = A.ssize
  ssize : B.ssize = A.psize
  start_size : B.start.size = A.ssize + 1
  inds_size : B.inds.size = A.inds.size
  vals_size : B.vals.size = A.inds.size
  start : ∀ j, j ≤ A.ssize → B.start.get j = A.base A.inds.size j
  ent : ∀ k, k < A.inds.size → A.InLine (B.inds.get (A.pos A.inds.size k)) k ∧
    B.inds.get (A.pos A.inds.size k) < A.psize ∧
    B.vals.get (A.pos A.inds.size k) = A.vals.get k

theorem convert_runs [Inhabited K] {A : CS K} (h : A.WF) (ht : A.Tight) :
    Runs A.convert (ConvSpec A) := by
  unfold convert
  have hs := ht.start_size
  have hn : A.start.get A.psize = A.inds.size := ht.inds_size.symm
  have hv : A.vals.size = A.inds.size := by rw [ht.vals_size, ht.inds_size]
  have hb : ∀ k, k < A.inds.size → A.inds.get k < A.ssize := fun k hk => h.inds_lt k (by omega)
  have hback : A.start.get (A.start.size - 1) = A.inds.size := by rw [hs]; exact hn
  simp only [runs_bind, runs_rd, hback, h.start_zero, runs_ite, runs_pure, Nat.sub_zero]
  refine ⟨by omega, by omega, ?_⟩
  split
  · rename_i hz
    constructor <;> simp [hz, base]
  unfold convertStorage
  simp only [runs_bind, runs_rd, hback, runs_ite, runs_throw, Buf.mk'_size, ne_eq, not_true_eq_false,
    if_false, hv]
  refine ⟨by omega, ?_⟩
  refine (A.convCount_runs A.ssize _ rfl (fun _ => rfl) hb).mono ?_
  rintro os1 ⟨c1, c2, c3⟩
  rw [c1, Nat.add_sub_cancel]
  refine (A.prefixSum_runs A.inds.size A.ssize os1 c1 c2 c3).mono ?_
  rintro os2 ⟨d1, d2⟩
  rw [hs, Nat.add_sub_cancel]
  refine (convScatter_runs h ht _ ?_).mono ?_
  · constructor
    · rfl
    · exact d1
    · rfl
    · rfl
    · intro j hj; show os2.get j = _; rw [d2 j (by omega), cnt_zero]; rfl
    · show os2.get _ = _; rw [d2 _ (le_refl _), A.base_top _ _ hb]
    · intro l hl; omega
  intro st hst
  rw [hst.os_size, Nat.add_sub_cancel]
  refine (convShift_runs A.inds.size A.ssize (A.base A.inds.size) st.os hst.os_size (base_zero _ _) ?_ ?_).mono ?_
  · intro j hj; rw [hst.os_get j hj, base_succ]
  · rw [hst.os_top, A.base_top _ _ hb]
  rintro os3 ⟨e1, e2⟩
  simp only [runs_pure]
  exact ⟨rfl, rfl, e1, hst.oi_size, hst.ov_size, e2, hst.done⟩

/-- Images of `pos` on the entries with secondary index `j`: exactly line `j` of the output. -/
theorem pos_image (A : CS K) (n j : Nat) :
    ((range n).filter fun k => A.inds.get k = j).image (A.pos n) = Ico (A.base n j) (A.base n (j + 1)) := by
  refine eq_of_subset_of_card_le ?_ ?_
  · intro l hl
    obtain ⟨k, hk, rfl⟩ := mem_image.1 hl
    obtain ⟨hk', rfl⟩ := mem_filter.1 hk
    exact mem_Ico.2 ⟨A.base_le_pos n k, A.pos_lt_base (mem_range.1 hk')⟩
  · rw [card_image_of_injOn, Nat.card_Ico, base_succ]
    · unfold cnt; omega
    · intro k hk l hl e
      have hk := (mem_filter.1 (mem_coe.1 hk)).1
      have hl := (mem_filter.1 (mem_coe.1 hl)).1
      exact A.pos_inj (mem_range.1 hk) (mem_range.1 hl) e

theorem exists_line {A : CS K} (h : A.WF) {k : Nat} (hk : k < A.start.get A.psize) :
    ∃ i, i < A.psize ∧ A.InLine i k := by
  have key : ∀ p, p ≤ A.psize → k < A.start.get p → ∃ i, i < p ∧ A.InLine i k := by
    intro p
    induction p with
    | zero => intro _ h'; rw [h.start_zero] at h'; omega
    | succ p ih =>
      intro hp h'
      rcases Nat.lt_or_ge k (A.start.get p) with h1 | h1
      · obtain ⟨i, h2, h3⟩ := ih (by omega) h1
        exact ⟨i, by omega, h3⟩
      · exact ⟨p, by omega, h1, h'⟩
  exact key A.psize (le_refl _) hk

theorem ConvSpec.wf {A B : CS K} (h : A.WF) (ht : A.Tight) (c : ConvSpec A B) : B.WF ∧ B.Tight := by
  have hn : A.start.get A.psize = A.inds.size := ht.inds_size.symm
  have hb : ∀ k, k < A.inds.size → A.inds.get k < A.ssize := fun k hk => h.inds_lt k (by omega)
  have htop : B.start.get B.psize = A.inds.size := by
    rw [c.psize, c.start _ (le_refl _), A.base_top _ _ hb]
  refine ⟨⟨?_, ?_, ?_, ?_, ?_, ?_⟩, ⟨?_, ?_, ?_⟩⟩
  · rw [c.start_size, c.psize]
  · rw [c.start 0 (Nat.zero_le _), base_zero]
  · intro i hi
    rw [c.psize] at hi
    rw [c.start i (by omega), c.start (i + 1) (by omega)]
    exact A.base_mono _ (by omega)
  · rw [htop, c.inds_size]
  · rw [htop, c.vals_size]
  · intro l hl
    rw [htop] at hl
    -- `l = pos k` for some `k`
    have : (range A.inds.size).image (A.pos A.inds.size) = range A.inds.size := by
      refine eq_of_subset_of_card_le ?_ ?_
      · intro x hx
        obtain ⟨k, hk, rfl⟩ := mem_image.1 hx
        exact mem_range.2 (A.pos_lt hb (mem_range.1 hk))
      · rw [card_image_of_injOn]
        intro k hk l hl e
        exact A.pos_inj (mem_range.1 (mem_coe.1 hk)) (mem_range.1 (mem_coe.1 hl)) e
    have hl' : l ∈ (range A.inds.size).image (A.pos A.inds.size) := by rw [this]; exact mem_range.2 hl
    obtain ⟨k, hk, rfl⟩ := mem_image.1 hl'
    rw [c.ssize]
    exact (c.ent k (mem_range.1 hk)).2.1
  · rw [c.start_size, c.psize]
  · rw [c.inds_size, htop]
  · rw [c.vals_size, htop]

theorem ConvSpec.entry [AddCommMonoid K] {A B : CS K} (h : A.WF) (ht : A.Tight) (c : ConvSpec A B)
    {i j : Nat} (hi : i < A.psize) (hj : j < A.ssize) : B.entry j i = A.entry i j := by
  have hn : A.start.get A.psize = A.inds.size := ht.inds_size.symm
  unfold CS.entry
  rw [c.start j (by omega), c.start (j + 1) (by omega), ← A.pos_image, sum_image, sum_filter]
  · have key : ∀ k ∈ range A.inds.size, (if A.inds.get k = j then
        (if B.inds.get (A.pos A.inds.size k) = i then B.vals.get (A.pos A.inds.size k) else 0) else 0) =
        if k ∈ Ico (A.start.get i) (A.start.get (i + 1)) then
          (if A.inds.get k = j then A.vals.get k else 0) else 0 := by
      intro k hk
      obtain ⟨h1, h2, h3⟩ := c.ent k (mem_range.1 hk)
      rw [h3]
      have : B.inds.get (A.pos A.inds.size k) = i ↔ k ∈ Ico (A.start.get i) (A.start.get (i + 1)) := by
        constructor
        · rintro rfl; exact mem_Ico.2 h1
        · intro hm; exact InLine.unique h h2 hi h1 (mem_Ico.1 hm)
      by_cases e1 : A.inds.get k = j <;> by_cases e2 : B.inds.get (A.pos A.inds.size k) = i
      · rw [if_pos e1, if_pos e2, if_pos (this.1 e2), if_pos e1]
      · rw [if_pos e1, if_neg e2, if_neg (fun e => e2 (this.2 e))]
      · rw [if_neg e1, if_pos (this.1 e2), if_neg e1]
      · rw [if_neg e1, if_neg (fun e => e2 (this.2 e))]
    rw [sum_congr rfl key, ← sum_filter]
    refine sum_congr ?_ (fun _ _ => rfl)
    ext k
    simp only [mem_filter, mem_range, mem_Ico]
    constructor
    · rintro ⟨_, h⟩; exact h
    · intro hm; exact ⟨h.line_inds hi hm.2, hm⟩
  · intro k hk l hl e
    have hk := (mem_filter.1 (mem_coe.1 hk)).1
    have hl := (mem_filter.1 (mem_coe.1 hl)).1
    exact A.pos_inj (mem_range.1 hk) (mem_range.1 hl) e

/-- Strictly increasing indices within each line. -/
def Sorted (A : CS K) : Prop :=
  ∀ i, i < A.psize → ∀ k l, A.InLine i k → A.InLine i l → k < l → A.inds.get k < A.inds.get l

theorem line_mono {A : CS K} (h : A.WF) {i j k l : Nat} (hi : i < A.psize) (hj : j < A.psize)
    (hk : A.InLine i k) (hl : A.InLine j l) (hkl : k ≤ l) : i ≤ j := by
  rcases Nat.lt_or_ge j i with h' | h'
  · have := h.start_mono (show j + 1 ≤ i from h') (by omega)
    obtain ⟨a, _⟩ := hk; obtain ⟨_, b⟩ := hl; omega
  · exact h'

theorem pos_lt_pos (A : CS K) {n k l : Nat} (hk : k < n) (hl : l < n) :
    A.pos n k < A.pos n l ↔ A.inds.get k < A.inds.get l ∨ (A.inds.get k = A.inds.get l ∧ k < l) := by
  have a1 := A.pos_lt_base hk
  have a2 := A.base_le_pos n k
  have b1 := A.pos_lt_base hl
  have b2 := A.base_le_pos n l
  rcases Nat.lt_trichotomy (A.inds.get k) (A.inds.get l) with h' | h' | h'
  · have := A.base_mono n (show A.inds.get k + 1 ≤ A.inds.get l from h')
    constructor
    · intro _; exact Or.inl h'
    · intro _; omega
  · have : A.pos n k < A.pos n l ↔ k < l := by
      unfold pos; rw [h']
      constructor
      · intro h
        rcases Nat.lt_or_ge k l with h2 | h2
        · exact h2
        · have := A.cnt_mono (A.inds.get l) h2; omega
      · intro h
        have := A.cnt_lt h' h; omega
    rw [this]; omega
  · have := A.base_mono n (show A.inds.get l + 1 ≤ A.inds.get k from h')
    constructor
    · intro h; omega
    · intro h; omega

/-- Distinct indices in every line are enough for sorted lines of the other format. -/
theorem ConvSpec.sorted_of_ne {A B : CS K} (h : A.WF) (ht : A.Tight) (c : ConvSpec A B)
    (hs : ∀ i, i < A.psize → ∀ k l, A.InLine i k → A.InLine i l → k < l → A.inds.get k ≠ A.inds.get l) :
    B.Sorted := by
  have hn : A.start.get A.psize = A.inds.size := ht.inds_size.symm
  intro j hj k l hk hl hkl
  rw [c.psize] at hj
  have get : ∀ k, B.InLine j k → ∃ k', k' < A.inds.size ∧ A.inds.get k' = j ∧ A.pos A.inds.size k' = k := by
    intro k hk
    unfold InLine at hk
    rw [c.start j (by omega), c.start (j + 1) (by omega), ← mem_Ico, ← A.pos_image] at hk
    obtain ⟨k', h1, h2⟩ := mem_image.1 hk
    obtain ⟨h3, h4⟩ := mem_filter.1 h1
    exact ⟨k', mem_range.1 h3, h4, h2⟩
  obtain ⟨k', k1, k2, rfl⟩ := get k hk
  obtain ⟨l', l1, l2, rfl⟩ := get l hl
  rw [A.pos_lt_pos k1 l1] at hkl
  have hkl' : k' < l' := by omega
  obtain ⟨p1, p2, -⟩ := c.ent k' k1
  obtain ⟨q1, q2, -⟩ := c.ent l' l1
  have hle := line_mono h p2 q2 p1 q1 (by omega)
  rcases Nat.lt_or_ge (B.inds.get (A.pos A.inds.size k')) (B.inds.get (A.pos A.inds.size l')) with h' | h'
  · exact h'
  · have e : B.inds.get (A.pos A.inds.size l') = B.inds.get (A.pos A.inds.size k') := by omega
    rw [e] at q1
    have := hs _ p2 k' l' p1 q1 hkl'
    omega

/-- Lines of the converted matrix are sorted (strictly when the input lines are). -/
theorem ConvSpec.sorted {A B : CS K} (h : A.WF) (ht : A.Tight) (c : ConvSpec A B) (hs : A.Sorted) :
    B.Sorted := c.sorted_of_ne h ht fun i hi k l hk hl hkl => Nat.ne_of_lt (hs i hi k l hk hl hkl)

/-- Converting twice returns the original arrays when lines are sorted. -/
theorem ConvSpec.roundtrip {A B C : CS K} (h : A.WF) (ht : A.Tight) (hs : A.Sorted) (c : ConvSpec A B)
    (d : ConvSpec B C) :
    C.psize = A.psize ∧ C.ssize = A.ssize ∧ (∀ i, i ≤ A.psize → C.start.get i = A.start.get i) ∧
    C.inds.size = A.inds.size ∧ C.vals.size = A.vals.size ∧
    ∀ k, k < A.inds.size → C.inds.get k = A.inds.get k ∧ C.vals.get k = A.vals.get k := by
  have hn : A.start.get A.psize = A.inds.size := ht.inds_size.symm
  have hb : ∀ k, k < A.inds.size → A.inds.get k < A.ssize := fun k hk => h.inds_lt k (by omega)
  obtain ⟨hB, hBt⟩ := c.wf h ht
  set n := A.inds.size with hnd
  have himg : (range n).image (A.pos n) = range n := by
    refine eq_of_subset_of_card_le ?_ ?_
    · intro x hx
      obtain ⟨k, hk, rfl⟩ := mem_image.1 hx
      exact mem_range.2 (A.pos_lt hb (mem_range.1 hk))
    · rw [card_image_of_injOn]
      intro k hk l hl e
      exact A.pos_inj (mem_range.1 (mem_coe.1 hk)) (mem_range.1 (mem_coe.1 hl)) e
  -- counting entries of `B` by counting entries of `A`
  have count : ∀ (P : Nat → Prop) [DecidablePred P], ((range n).filter P).card =
      ((range n).filter fun k => P (A.pos n k)).card := by
    intro P _
    have hP : (range n).filter P = ((range n).filter fun k => P (A.pos n k)).image (A.pos n) := by
      ext x
      simp only [mem_filter, mem_image]
      constructor
      · rintro ⟨hx, hp⟩
        rw [← himg] at hx
        obtain ⟨k, hk, rfl⟩ := mem_image.1 hx
        exact ⟨k, ⟨hk, hp⟩, rfl⟩
      · rintro ⟨k, ⟨hk, hp⟩, rfl⟩
        refine ⟨?_, hp⟩
        rw [← himg]; exact mem_image_of_mem _ hk
    rw [hP, card_image_of_injOn]
    intro k hk l hl e
    have hk := (mem_filter.1 (mem_coe.1 hk)).1
    have hl := (mem_filter.1 (mem_coe.1 hl)).1
    exact A.pos_inj (mem_range.1 hk) (mem_range.1 hl) e
  have hbase : ∀ i, i ≤ A.psize → B.base n i = A.start.get i := by
    intro i hi
    unfold base
    rw [count]
    have : ((range n).filter fun k => B.inds.get (A.pos n k) < i) = range (A.start.get i) := by
      ext k
      simp only [mem_filter, mem_range]
      constructor
      · rintro ⟨hk, hlt⟩
        obtain ⟨⟨_, p1⟩, p2, -⟩ := c.ent k hk
        have := h.start_mono (show B.inds.get (A.pos n k) + 1 ≤ i from hlt) hi
        exact lt_of_lt_of_le p1 this
      · intro hk
        have hkn : k < n := lt_of_lt_of_le hk (by rw [← hn]; exact h.start_mono hi (le_refl _))
        refine ⟨hkn, ?_⟩
        obtain ⟨⟨p0, _⟩, p2, -⟩ := c.ent k hkn
        rw [← hnd] at p0 p2
        rcases Nat.lt_or_ge (B.inds.get (A.pos n k)) i with h' | h'
        · exact h'
        · have := h.start_mono h' (by omega)
          exact absurd p0 (by
            have h5 : A.start.get (B.inds.get (A.pos n k)) ≤ k := p0
            omega)
    rw [this, card_range]
  have hpos : ∀ k, k < n → B.pos n (A.pos n k) = k := by
    intro k hk
    obtain ⟨p1, p2, -⟩ := c.ent k hk
    rw [← hnd] at p1 p2
    unfold pos
    change B.base n (B.inds.get (A.pos n k)) + B.cnt (B.inds.get (A.pos n k)) (A.pos n k) = k
    rw [hbase _ (by omega)]
    set i := B.inds.get (A.pos n k) with hi
    have : B.cnt i (A.pos n k) = k - A.start.get i := by
      unfold cnt
      have e1 : ((range (A.pos n k)).filter fun l => B.inds.get l = i) =
          (range n).filter fun l => l < A.pos n k ∧ B.inds.get l = i := by
        ext l
        simp only [mem_filter, mem_range]
        have := A.pos_lt hb hk
        constructor
        · rintro ⟨h1, h2⟩; exact ⟨by omega, h1, h2⟩
        · rintro ⟨_, h1, h2⟩; exact ⟨h1, h2⟩
      rw [e1, count]
      have e2 : ((range n).filter fun l => A.pos n l < A.pos n k ∧ B.inds.get (A.pos n l) = i) =
          Ico (A.start.get i) k := by
        ext l
        simp only [mem_filter, mem_range, mem_Ico]
        constructor
        · rintro ⟨hl, h1, h2⟩
          obtain ⟨q1, q2, -⟩ := c.ent l hl
          rw [h2] at q1
          rw [A.pos_lt_pos hl hk] at h1
          refine ⟨q1.1, ?_⟩
          rcases Nat.lt_trichotomy l k with h3 | h3 | h3
          · exact h3
          · subst h3; omega
          · have := hs i p2 k l p1 q1 h3
            omega
        · rintro ⟨h1, h2⟩
          have hl : l < n := by omega
          have hin : A.InLine i l := ⟨h1, lt_trans h2 p1.2⟩
          obtain ⟨q1, q2, -⟩ := c.ent l hl
          refine ⟨hl, ?_, InLine.unique h q2 p2 q1 hin⟩
          rw [A.pos_lt_pos hl hk]
          exact Or.inl (hs i p2 l k hin p1 h2)
      rw [e2, Nat.card_Ico]
    rw [this]
    have := p1.1
    omega
  have dn : B.inds.size = n := c.inds_size
  refine ⟨by rw [d.psize, c.ssize], by rw [d.ssize, c.psize], fun i hi => ?_, ?_, ?_, fun k hk => ?_⟩
  · rw [d.start i (by rw [c.ssize]; exact hi), dn, hbase i hi]
  · rw [d.inds_size, dn]
  · rw [d.vals_size, dn, ht.vals_size, hn]
  · have hpk := A.pos_lt hb hk
    have := d.ent (A.pos n k) (by rw [dn]; exact hpk)
    rw [dn, hpos k hk] at this
    obtain ⟨r1, r2, r3⟩ := this
    have hin : B.InLine (A.inds.get k) (A.pos n k) := by
      have hj := hb k hk
      unfold InLine
      rw [c.start _ (by omega), c.start _ (by omega)]
      exact ⟨A.base_le_pos n k, A.pos_lt_base hk⟩
    refine ⟨InLine.unique hB r2 (by rw [c.psize]; exact hb k hk) r1 hin, ?_⟩
    rw [r3]; exact (c.ent k hk).2.2

end CS
end Hif
