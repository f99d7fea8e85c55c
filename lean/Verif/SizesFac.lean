import Verif.SizesRun
import Verif.FillLevel
import Verif.Props.SymmLevel

set_option linter.unusedSectionVars false
set_option linter.unusedVariables false

/-!
# The reference sizes of a whole factorization
-/

namespace Hif
namespace Level
open Finset HIF HM Props

/-! ### the arrays -/

section
variable {K : Type _} [Field K] [Inhabited K]

/-- The initial sizes. -/
theorem initSizes_runs (A : CS K) (n nnz : Nat) (hs : n + 1 ≤ A.start.size) :
    Runs (initSizes A nnz n) fun b => b.size = n ∧ ∀ i, i < n →
      b.get i = max (A.start.get (i + 1) - A.start.get i) ((85 * nnz + (100 * n - 1)) / (100 * n)) := by
  unfold initSizes
  set lower := (85 * nnz + (100 * n - 1)) / (100 * n) with hlow
  simp only [runs_bind]
  refine forUp_runs' (fun i b => b.size = n ∧ ∀ j, j < i → b.get j = A.start.get (j + 1) - A.start.get j) (Nat.zero_le _) ⟨rfl, fun j hj => by omega⟩ ?_ ?_
  · rintro i b _ hi ⟨b1, b2⟩
    simp only [runs_bind, runs_rd, runs_wr, Buf.set_size, Buf.set_get]
    refine ⟨by omega, by omega, by omega, b1, fun j hj => ?_⟩
    by_cases hji : j = i
    · subst hji; simp
    · rw [if_neg hji]; exact b2 j (by omega)
  · rintro b ⟨b1, b2⟩
    refine forUp_runs' (fun i c => c.size = n ∧ (∀ j, j < i → c.get j = max (b.get j) lower) ∧ ∀ j, i ≤ j → c.get j = b.get j) (Nat.zero_le _)
      ⟨b1, fun j hj => by omega, fun _ _ => rfl⟩ ?_ ?_
    · rintro i c _ hi ⟨c1, c2, c3⟩
      rw [runs_bind, runs_rd]
      refine ⟨by omega, ?_⟩
      have hci := c3 i (le_refl _)
      split
      · rename_i hlt
        simp only [runs_wr, Buf.set_size, Buf.set_get]
        refine ⟨by omega, c1, fun j hj => ?_, fun j hj => ?_⟩
        · by_cases hji : j = i
          · subst hji; simp only [if_true]; omega
          · rw [if_neg hji]; exact c2 j (by omega)
        · rw [if_neg (by omega)]; exact c3 j (by omega)
      · rename_i hlt
        simp only [runs_pure]
        refine ⟨c1, fun j hj => ?_, fun j hj => c3 j (by omega)⟩
        by_cases hji : j = i
        · subst hji; omega
        · exact c2 j (by omega)
    · rintro c ⟨c1, c2, -⟩
      exact ⟨c1, fun i hi => by rw [c2 i hi, b2 i hi]⟩

/-- The sizes of the next level. -/
theorem nextSizes_runs (n m : Nat) (hm : m ≤ n) (sz p : Buf Nat) (hs : n ≤ sz.size) (hp : n ≤ p.size) (hpp : ∀ i, i < n → p.get i < n) :
    Runs (nextSizes n m sz p) fun b => b.size = sz.size ∧ ∀ i, b.get i = if i < n - m then sz.get (p.get (m + i)) else sz.get i := by
  unfold nextSizes
  rw [runs_bind]
  refine forUp_runs' (fun i P => P.size = n * 2 ∧ ∀ j, m ≤ j → j < i → P.get j = sz.get (p.get j)) hm ⟨rfl, fun j hj hj' => by omega⟩ ?_ ?_
  · rintro i P hi hin ⟨b1, b2⟩
    have := hpp i hin
    simp only [runs_bind, runs_rd, runs_wr, Buf.set_size, Buf.set_get]
    refine ⟨by omega, by omega, by omega, b1, fun j hj hj' => ?_⟩
    by_cases hji : j = i
    · subst hji; simp
    · rw [if_neg hji]; exact b2 j hj (by omega)
  · rintro P ⟨b1, b2⟩
    refine forUp_runs' (fun i c => c.size = sz.size ∧ ∀ j, c.get j = if j < i - m then sz.get (p.get (m + j)) else sz.get j) hm
      ⟨rfl, fun j => by rw [if_neg (by omega)]⟩ ?_ ?_
    · rintro i c hi hin ⟨c1, c2⟩
      simp only [runs_bind, runs_rd, runs_wr, Buf.set_size, Buf.set_get]
      refine ⟨by omega, by omega, c1, fun j => ?_⟩
      by_cases hji : j = i - m
      · subst hji
        rw [if_pos rfl, if_pos (by omega), b2 i hi hin]
        congr 2; omega
      · rw [if_neg hji, c2 j]
        by_cases h1 : j < i - m
        · rw [if_pos h1, if_pos (by omega)]
        · rw [if_neg h1, if_neg (by omega)]
    · rintro c h
      exact h

end

/-! ### the sum over the levels -/

/-- What is charged to the deferred lines of a level is charged to the lines of the next. -/
theorem chain_sum {K : Type _} {Q : Nat → Prec K → Prop} (cnt : Prec K → Nat) (perm : Prec K → Nat → Nat) (f : Nat → Nat) (g : Nat → Nat → Nat)
    (hQ : ∀ lvl P, Q lvl P → cnt P ≤ ∑ i ∈ range P.m, f (g lvl (perm P i)) ∧ Spec.IsPerm P.n (perm P)) {lvl n : Nat} {l : List (Prec K)} (h : Chain Q lvl n l)
    (hg : ∀ k P, l[k]? = some P → k + 1 < l.length → ∀ i, i < P.n - P.m → g (lvl + k + 1) i = g (lvl + k) (perm P (P.m + i))) :
    (l.map cnt).sum ≤ ∑ i ∈ range n, f (g lvl i) := by
  induction h with
  | nil lvl n => simp
  | @cons lvl P l h1 h2 h3 ih =>
    obtain ⟨q1, q2⟩ := hQ _ _ h1
    have hsum : ∑ i ∈ range P.n, f (g lvl (perm P i)) = ∑ i ∈ range P.n, f (g lvl i) := by
      have himg : (range P.n).image (perm P) = range P.n := by
        refine eq_of_subset_of_card_le (fun x hx => ?_) ?_
        · obtain ⟨i, hi, rfl⟩ := mem_image.1 hx
          exact mem_range.2 (q2.1 i (mem_range.1 hi))
        · rw [card_image_of_injOn fun a ha b hb e => q2.2 a b (by simpa using ha) (by simpa using hb) e]
      conv_rhs => rw [← himg]
      rw [sum_image fun a ha b hb e => q2.2 a b (mem_range.1 (by simpa using ha)) (mem_range.1 (by simpa using hb)) e]
    have hspl : ∑ i ∈ range P.n, f (g lvl (perm P i)) = ∑ i ∈ range P.m, f (g lvl (perm P i)) + ∑ i ∈ range (P.n - P.m), f (g lvl (perm P (P.m + i))) := by
      have := sum_range_add (fun i => f (g lvl (perm P i))) P.m (P.n - P.m)
      rw [show P.m + (P.n - P.m) = P.n by omega] at this
      exact this
    rw [List.map_cons, List.sum_cons, ← hsum, hspl]
    refine Nat.add_le_add q1 ?_
    rcases l with _ | ⟨P2, l⟩
    · simp
    have hi := ih fun k P' hk hlt i hi => by
      have := hg (k + 1) P' (by simpa using hk) (by simpa using hlt) i hi
      rw [show lvl + 1 + k + 1 = lvl + (k + 1) + 1 by omega, show lvl + 1 + k = lvl + (k + 1) by omega]
      exact this
    refine hi.trans (le_of_eq (sum_congr rfl fun i hi => ?_))
    have := hg 0 P (by simp) (by simp) i (mem_range.1 hi)
    rw [show lvl + 0 + 1 = lvl + 1 by omega, show lvl + 0 = lvl by omega] at this
    rw [this]

/-- The limits of the lines together. -/
theorem sum_lineLimit {R : Type _} [Field R] [LinearOrder R] [IsStrictOrderedRing R] [FloorSemiring R] (a : R) (ha : 0 < a) (n : Nat) (sz : Nat → Nat) :
    ((∑ i ∈ range n, lineLimit a (sz i) : Nat) : R) ≤ a * ((∑ i ∈ range n, sz i : Nat) : R) + n := by
  induction n with
  | zero => simp
  | succ n ih =>
    rw [sum_range_succ, sum_range_succ]
    push_cast at ih ⊢
    have h0 : (0 : R) ≤ a * (sz n : R) := mul_nonneg ha.le (Nat.cast_nonneg _)
    have h1 : ((lineLimit a (sz n) : Nat) : R) ≤ a * (sz n : R) + 1 := by
      unfold lineLimit
      rw [Nat.cast_max]
      refine max_le (by simpa using h0) ?_
      exact (Nat.ceil_lt_add_one h0).le
    rw [mul_add]
    linarith

/-- The initial sizes together. -/
theorem sum_initial {n nnz : Nat} (hn : 0 < n) (len sz : Nat → Nat) (hl : ∑ i ∈ range n, len i = nnz)
    (hs : ∀ i, i < n → sz i = max (len i) ((85 * nnz + (100 * n - 1)) / (100 * n))) : 100 * ∑ i ∈ range n, sz i ≤ 185 * nnz + 100 * n := by
  set lower := (85 * nnz + (100 * n - 1)) / (100 * n) with hlow
  have h1 : ∑ i ∈ range n, sz i ≤ ∑ i ∈ range n, (len i + lower) := sum_le_sum fun i hi => by
    rw [hs i (mem_range.1 hi)]
    exact max_le (Nat.le_add_right _ _) (Nat.le_add_left _ _)
  rw [sum_add_distrib, sum_const, card_range, smul_eq_mul, hl] at h1
  have h2 : (100 * n) * lower ≤ 85 * nnz + (100 * n - 1) := Nat.mul_div_le _ _
  have h3 : 100 * n * lower = 100 * (n * lower) := by ring
  omega

section
variable {K R : Type} [Field K] [StarRing K] [DecidableEq K] [Inhabited K] [Field R] [LinearOrder R] [IsStrictOrderedRing R] [FloorSemiring R]

/-- The environment in which level `l` has the sizes `Z l`. -/
def Env.atLevels (e : Env K R) (Z : Nat → Sizes) : Env K R := { e with rows := fun l => (Z l).rows, cols := fun l => (Z l).cols }

/-- Sizes of a nonsymmetric factorization. -/
def Sizes.Good (n : Nat) (z : Sizes) : Prop :=
  (n ≤ z.rows.size ∧ ∀ i, i < n → 0 < z.rows.get i) ∧ (n ≤ z.cols.size ∧ ∀ i, i < n → 0 < z.cols.get i)

/-- Sizes of a symmetric factorization. -/
def Sizes.GoodRows (n : Nat) (z : Sizes) : Prop := n ≤ z.rows.size ∧ ∀ i, i < n → 0 < z.rows.get i

/-- What the update of the sizes needs to know about a level. -/
def Fine (n : Nat) (P : Prec K) : Prop :=
  P.n ≤ n ∧ P.m ≤ P.n ∧ (P.n ≤ P.p.size ∧ Spec.IsPerm P.n P.p.get) ∧ (P.n ≤ P.q.size ∧ Spec.IsPerm P.n P.q.get)

theorem Fine.of {n : Nat} {P : Prec K} (h : P.OK) (hn : P.n ≤ n) : Fine n P :=
  ⟨hn, h.le, ⟨h.p_size, BiPerm.inverse_isPerm h.p_inv⟩, h.q_size, BiPerm.inverse_isPerm h.q_inv⟩

theorem next_buf {n : Nat} {b : Buf Nat} (hb : n ≤ b.size ∧ ∀ i, i < n → 0 < b.get i) {k m : Nat} {p : Buf Nat} (hk : k ≤ n) (hm : m ≤ k) (hp : k ≤ p.size)
    (hpp : Spec.IsPerm k p.get) : ∃ c, nextSizes k m b p = .ok c ∧ (n ≤ c.size ∧ ∀ i, i < n → 0 < c.get i) := by
  obtain ⟨c, c1, c2, c3⟩ := nextSizes_runs k m hm b p (by omega) hp hpp.1
  refine ⟨c, c1, by omega, fun i hi => ?_⟩
  rw [c3 i]
  split
  · exact hb.2 _ (by have := hpp.1 (m + i) (by omega); omega)
  · exact hb.2 _ hi

theorem next_good {n : Nat} (z : Sizes) (P : Prec K) (hz : z.Good n) (hP : Fine n P) : ∃ z', Sizes.next false z P = .ok z' ∧ z'.Good n := by
  obtain ⟨hn, hm, ⟨p1, p2⟩, q1, q2⟩ := hP
  obtain ⟨r, r1, r2⟩ := next_buf hz.1 hn hm p1 p2
  obtain ⟨c, c1, c2⟩ := next_buf hz.2 hn hm q1 q2
  refine ⟨⟨r, c⟩, ?_, r2, c2⟩
  unfold Sizes.next
  rw [r1]
  show (do let c ← nextSizes P.n P.m z.cols P.q; pure (⟨r, c⟩ : Sizes) : M Sizes) = _
  rw [c1]
  rfl

theorem next_goodRows {n : Nat} (z : Sizes) (P : Prec K) (hz : z.GoodRows n) (hP : Fine n P) : ∃ z', Sizes.next true z P = .ok z' ∧ z'.GoodRows n := by
  obtain ⟨hn, hm, ⟨p1, p2⟩, q1, q2⟩ := hP
  obtain ⟨r, r1, r2⟩ := next_buf hz hn hm p1 p2
  refine ⟨⟨r, z.cols⟩, ?_, r2⟩
  unfold Sizes.next
  rw [r1]
  rfl

/-- The line lengths of a matrix, raised to the average. -/
def Initial (A : CS K) (n nnz : Nat) (b : Buf Nat) : Prop :=
  b.size = n ∧ ∀ i, i < n → b.get i = max (A.line i).length ((85 * nnz + (100 * n - 1)) / (100 * n))

theorem initial_runs {A : CS K} {n nnz : Nat} (hs : A.start.size = n + 1) : Runs (initSizes A nnz n) (Initial A n nnz) :=
  (initSizes_runs A n nnz (by omega)).mono fun b h => ⟨h.1, fun i hi => by rw [h.2 i hi, Crout.line_length]⟩

theorem Initial.good {A : CS K} {n nnz : Nat} {b : Buf Nat} (h : Initial A n nnz b) (hnz : 0 < nnz) : n ≤ b.size ∧ ∀ i, i < n → 0 < b.get i := by
  refine ⟨by rw [h.1], fun i hi => ?_⟩
  rw [h.2 i hi]
  exact lt_of_lt_of_le (Nat.div_pos (by omega) (by omega)) (le_max_right _ _)

theorem init_runs_false (rowMajor : Bool) {A : CS K} (hA : A.WF) (ht : A.Tight) (hsq : A.ssize = A.psize) :
    Runs (Sizes.init false rowMajor A) fun z => ∃ C, A.convert = .ok C ∧
      Initial (if rowMajor then A else C) A.psize A.nnz z.rows ∧ Initial (if rowMajor then C else A) A.psize A.nnz z.cols := by
  unfold Sizes.init
  obtain ⟨C, hC, c⟩ := CS.convert_runs hA ht
  simp only [runs_bind]
  refine ⟨C, hC, ?_⟩
  have h1 := ht.start_size
  have h2 := c.start_size
  rw [← nnz_start hA ht]
  refine (initial_runs (A := if rowMajor then A else C) (by split <;> omega)).mono ?_
  intro r hr
  simp only [Bool.false_eq_true, if_false, runs_bind]
  refine (initial_runs (A := if rowMajor then C else A) (by split <;> omega)).mono ?_
  intro c hc
  exact ⟨⟨r, c⟩, rfl, C, hC, hr, hc⟩

theorem init_runs_true (rowMajor : Bool) {A : CS K} (hA : A.WF) (ht : A.Tight) (hsq : A.ssize = A.psize) :
    Runs (Sizes.init true rowMajor A) fun z => ∃ C, A.convert = .ok C ∧ Initial (if rowMajor then A else C) A.psize A.nnz z.rows := by
  unfold Sizes.init
  obtain ⟨C, hC, c⟩ := CS.convert_runs hA ht
  simp only [runs_bind]
  refine ⟨C, hC, ?_⟩
  have h1 := ht.start_size
  have h2 := c.start_size
  rw [← nnz_start hA ht]
  refine (initial_runs (A := if rowMajor then A else C) (by split <;> omega)).mono ?_
  intro r hr
  exact ⟨⟨r, Buf.mk' 0 0⟩, rfl, C, hC, hr⟩

/-- What a level that is not given up contributes. -/
theorem step_of {m0 : Nat} {o : Opts R} {auto rowMajor : Bool} {A : CS K} {out : CroutOut K} (h : LevelOut m0 o auto rowMajor A out)
    (hau : auto = true → (postFlag out.m2 out.m).1 = 0) (hA : A.WF ∧ A.Tight ∧ A.Sorted ∧ A.ssize = A.psize) :
    (out.toPrec A.psize (postFlag out.m2 out.m).2).OK ∧ (postFlag out.m2 out.m).2 ≤ A.psize ∧
      ((postFlag out.m2 out.m).2 < A.psize →
        ((out.rest A (postFlag out.m2 out.m).2).WF ∧ (out.rest A (postFlag out.m2 out.m).2).Tight ∧ (out.rest A (postFlag out.m2 out.m).2).Sorted ∧
          (out.rest A (postFlag out.m2 out.m).2).ssize = (out.rest A (postFlag out.m2 out.m).2).psize) ∧
        (out.rest A (postFlag out.m2 out.m).2).psize = A.psize - (postFlag out.m2 out.m).2) := by
  by_cases h0 : (postFlag out.m2 out.m).2 = 0
  · rw [h0]
    exact ⟨zero_ok out A.psize, Nat.zero_le _, fun _ => ⟨hA, rfl⟩⟩
  · obtain ⟨hm, hne⟩ := postFlag_m h0
    obtain ⟨k1, k2, k3, k4, -⟩ := h.kept h0 hau
    have h1 := h.mle
    have h2 := h.m2le
    rw [hm]
    refine ⟨k1, by omega, fun hlt => ?_⟩
    have : out.rest A out.m = out.schur := if_pos hne
    rw [this]
    obtain ⟨w, t, s⟩ := k4 hlt
    exact ⟨⟨w, t, s, by rw [k2, k3]⟩, k2⟩

/-- The blocks of a level are allocated exactly and have the shapes of the level. -/
structure TightLevel (P : Prec K) : Prop where
  L : P.L.Tight
  U : P.U.Tight
  E : P.E.WF ∧ P.E.Tight ∧ P.E.psize = P.m ∧ P.E.ssize = P.n - P.m
  F : P.F.WF ∧ P.F.Tight ∧ P.F.ssize = P.m

/-- A level that eliminates something is allocated exactly. -/
theorem tight_of {m0 : Nat} {o : Opts R} {auto rowMajor : Bool} {A : CS K} {out : CroutOut K} (h : LevelOut m0 o auto rowMajor A out)
    (hau : auto = true → (postFlag out.m2 out.m).1 = 0) (hk : (out.toPrec A.psize (postFlag out.m2 out.m).2).m ≠ 0) :
    TightLevel (out.toPrec A.psize (postFlag out.m2 out.m).2) := by
  by_cases h0 : (postFlag out.m2 out.m).2 = 0
  · rw [h0] at hk
    exact absurd rfl hk
  · obtain ⟨hm, hne⟩ := postFlag_m h0
    obtain ⟨k1, k2, k3, k4⟩ := h.tight h0 hau
    rw [hm]
    unfold CroutOut.toPrec
    rw [if_pos hne]
    exact ⟨k1, k2, k3, k4⟩

theorem limited_zero (aU aL : R) (rows cols : Buf Nat) (out : CroutOut K) (n : Nat) : Limited aU aL rows cols (out.toPrec n 0) := by
  have : (CS.zero 0 0 : CS K).nnz = 0 := rfl
  unfold Limited CroutOut.toPrec
  rw [if_neg (by simp)]
  simp only [this]
  simp

theorem Limited.mono {aU aL bU bL : R} (h1 : aU ≤ bU) (h2 : aL ≤ bL) {rows cols : Buf Nat} {P : Prec K} (h : Limited aU aL rows cols P) :
    Limited bU bL rows cols P :=
  ⟨h.1.trans (sum_le_sum fun _ _ => lineLimit_mono h1 _), h.2.trans (sum_le_sum fun _ _ => lineLimit_mono h2 _)⟩

end
end Level
end Hif
