import Verif.MatVec

set_option linter.unusedSectionVars false
set_option linter.unusedVariables false

/-! # Proofs about the triangular kernels (helpers for `Props/TriSolve.lean`) -/

namespace Hif
open Finset Spec
namespace CS
variable {K : Type _} [CommRing K]

theorem mulVec_congr {n : Nat} {T : Nat → Nat → K} {x y : Nat → K} {i : Nat}
    (h : ∀ c, c < n → T i c = 0 ∨ x c = y c) : mulVec n T x i = mulVec n T y i := by
  unfold mulVec
  refine sum_congr rfl fun c hc => ?_
  rcases h c (mem_range.1 hc) with h | h <;> simp [h]

section sweeps
variable {σ ι : Type _} (P : ι → Prop) (view : σ → ι → Nat → K) (V : σ → Prop)
  (n : Nat) (T : Nat → Nat → K)

/-- One row-oriented elimination step: `y_j -= Σ_c T_jc y_c`, other components unchanged. -/
def DotStep (f : Nat → σ → M σ) : Prop := ∀ j s, j < n → V s → Runs (f j s) fun s' => V s' ∧
  ∀ c, P c → ∀ i, i < n → view s' c i = if i = j then view s c j - mulVec n T (view s c) j else view s c i

/-- One column-oriented elimination step: `y_i -= T_ij y_j` for all `i`. -/
def AxpyStep (f : Nat → σ → M σ) : Prop := ∀ j s, j < n → V s → Runs (f j s) fun s' => V s' ∧
  ∀ c, P c → ∀ i, i < n → view s' c i = view s c i - T i j * view s c j

variable {P view V n T}

theorem fwdDot {f : Nat → σ → M σ} (hT : StrictLower n T) (hf : DotStep P view V n T f) (s : σ)
    (hs : V s) : Runs (forUp 1 n s f) fun s' => V s' ∧ ∀ c, P c → SolvesUnit n T (view s c) (view s' c) := by
  rcases Nat.lt_or_ge 0 n with hn | hn
  swap
  · rw [forUp_empty _ _ (by omega)]
    simp only [runs_pure]
    exact ⟨hs, fun c _ i hi => by omega⟩
  refine forUp_runs' (fun j s' => V s' ∧ ∀ c, P c →
    (∀ i, i < j → i < n → view s' c i + mulVec n T (view s' c) i = view s c i) ∧
    (∀ i, j ≤ i → i < n → view s' c i = view s c i)) hn ⟨hs, fun c hc => ⟨?_, by simp⟩⟩ ?_ ?_
  · intro i hi _
    have : i = 0 := by omega
    subst this
    have : mulVec n T (view s c) 0 = 0 := by
      unfold mulVec
      exact sum_eq_zero fun c _ => by simp [hT 0 hn c (mem_range.1 (by assumption)) (Nat.zero_le _)]
    simp [this]
  · rintro j s' h1 h2 ⟨hV, h3⟩
    refine (hf j s' h2 hV).mono ?_
    rintro s'' ⟨hV', h4⟩
    refine ⟨hV', fun c hc => ⟨fun i hi hin => ?_, fun i hi hin => ?_⟩⟩
    · obtain ⟨h5, h6⟩ := h3 c hc
      have hmv : mulVec n T (view s'' c) i = mulVec n T (view s' c) i := by
        refine mulVec_congr fun l hl => ?_
        rcases Nat.lt_or_ge l i with hli | hli
        · right; rw [h4 c hc l hl, if_neg (by omega)]
        · left; exact hT i hin l hl hli
      rw [hmv, h4 c hc i hin]
      by_cases hij : i = j
      · subst hij
        rw [if_pos rfl, ← h6 i (le_refl _) hin]; ring
      · rw [if_neg hij]; exact h5 i (by omega) hin
    · rw [h4 c hc i hin, if_neg (by omega)]
      exact (h3 c hc).2 i (by omega) hin
  · rintro s' ⟨hV, h⟩
    exact ⟨hV, fun c hc i hi => (h c hc).1 i hi hi⟩

theorem bwdDot {f : Nat → σ → M σ} (hT : StrictUpper n T) (hf : DotStep P view V n T f) (s : σ)
    (hs : V s) (hn : n ≠ 0) :
    Runs (forDownSkip n s f) fun s' => V s' ∧ ∀ c, P c → SolvesUnit n T (view s c) (view s' c) := by
  unfold forDownSkip
  rw [if_neg hn]
  refine forDown_runs' (fun j s' => V s' ∧ ∀ c, P c →
    (∀ i, j ≤ i → i < n → view s' c i + mulVec n T (view s' c) i = view s c i) ∧
    (∀ i, i < j → i < n → view s' c i = view s c i)) ⟨hs, fun c hc => ⟨?_, by simp⟩⟩ ?_ ?_
  · intro i hi hi2
    have : mulVec n T (view s c) i = 0 := by
      unfold mulVec
      refine sum_eq_zero fun c hc => ?_
      have := mem_range.1 hc
      simp [hT i (by omega) c (by omega) (by omega)]
    simp [this]
  · rintro j s' h2 ⟨hV, h3⟩
    refine (hf j s' (by omega) hV).mono ?_
    rintro s'' ⟨hV', h4⟩
    refine ⟨hV', fun c hc => ⟨fun i hi hin => ?_, fun i hi hin => ?_⟩⟩
    · obtain ⟨h5, h6⟩ := h3 c hc
      have hmv : mulVec n T (view s'' c) i = mulVec n T (view s' c) i := by
        refine mulVec_congr fun l hl => ?_
        rcases Nat.lt_or_ge i l with hli | hli
        · right; rw [h4 c hc l hl, if_neg (by omega)]
        · left; exact hT i hin l hl hli
      rw [hmv, h4 c hc i hin]
      by_cases hij : i = j
      · subst hij
        rw [if_pos rfl, ← h6 i (by omega) hin]; ring
      · rw [if_neg hij]; exact h5 i (by omega) hin
    · rw [h4 c hc i hin, if_neg (by omega)]
      exact (h3 c hc).2 i (by omega) hin
  · rintro s' ⟨hV, h⟩
    exact ⟨hV, fun c hc i hi => (h c hc).1 i (Nat.zero_le _) hi⟩

theorem fwdAxpy {f : Nat → σ → M σ} (hT : StrictLower n T) (hf : AxpyStep P view V n T f) (s : σ)
    (hs : V s) : Runs (forUp 0 n s f) fun s' => V s' ∧ ∀ c, P c → SolvesUnit n T (view s c) (view s' c) := by
  refine forUp_runs' (fun j s' => V s' ∧ ∀ c, P c → ∀ i, i < n →
    view s' c i + ∑ l ∈ range j, T i l * view s' c l = view s c i) (Nat.zero_le _)
    ⟨hs, by simp⟩ ?_ (fun s' h => h)
  rintro j s' - h2 ⟨hV, h3⟩
  refine (hf j s' h2 hV).mono ?_
  rintro s'' ⟨hV', h4⟩
  refine ⟨hV', fun c hc i hi => ?_⟩
  have hsame : ∀ l, l ≤ j → view s'' c l = view s' c l := fun l hl => by
    rw [h4 c hc l (by omega), hT l (by omega) j (by omega) hl]; ring
  rw [sum_range_succ, hsame j (le_refl _),
    sum_congr rfl (fun l hl => by rw [hsame l (by have := mem_range.1 hl; omega)]),
    ← h3 c hc i hi, h4 c hc i hi]
  ring

theorem bwdAxpy_aux {f : Nat → σ → M σ} (hT : StrictUpper n T) (hf : AxpyStep P view V n T f) (s : σ)
    (hs : V s) : Runs (forDown n s f) fun s' => V s' ∧ ∀ c, P c → SolvesUnit n T (view s c) (view s' c) := by
  refine forDown_runs' (fun j s' => V s' ∧ ∀ c, P c → ∀ i, i < n →
    view s' c i + ∑ l ∈ Ico j n, T i l * view s' c l = view s c i)
    ⟨hs, by simp⟩ ?_ ?_
  · rintro j s' h2 ⟨hV, h3⟩
    refine (hf j s' h2 hV).mono ?_
    rintro s'' ⟨hV', h4⟩
    refine ⟨hV', fun c hc i hi => ?_⟩
    have hsame : ∀ l, j ≤ l → l < n → view s'' c l = view s' c l := fun l hl hln => by
      rw [h4 c hc l (by omega), hT l (by omega) j (by omega) hl]; ring
    rw [sum_eq_sum_Ico_succ_bot h2, hsame j (le_refl _) h2,
      sum_congr rfl (fun l hl => by rw [hsame l (by have := mem_Ico.1 hl; omega)
        (by have := mem_Ico.1 hl; omega)]),
      ← h3 c hc i hi, h4 c hc i hi]
    ring
  · rintro s' ⟨hV, h⟩
    refine ⟨hV, fun c hc i hi => ?_⟩
    have := h c hc i hi
    rwa [Nat.Ico_zero_eq_range] at this

theorem bwdAxpyTo1 {f : Nat → σ → M σ} (hT : StrictUpper n T) (hf : AxpyStep P view V n T f) (s : σ)
    (hs : V s) (hn : n ≠ 0) :
    Runs (forDownTo1 n s f) fun s' => V s' ∧ ∀ c, P c → SolvesUnit n T (view s c) (view s' c) := by
  unfold forDownTo1
  rw [if_neg hn]
  refine forDown_runs' (fun j s' => V s' ∧ ∀ c, P c → ∀ i, i < n →
    view s' c i + ∑ l ∈ Ico (j + 1) n, T i l * view s' c l = view s c i)
    ⟨hs, fun c hc i hi => by simp [show n - 1 + 1 = n by omega]⟩ ?_ ?_
  · rintro j s' h2 ⟨hV, h3⟩
    refine (hf (j + 1) s' (by omega) hV).mono ?_
    rintro s'' ⟨hV', h4⟩
    refine ⟨hV', fun c hc i hi => ?_⟩
    have hsame : ∀ l, j + 1 ≤ l → l < n → view s'' c l = view s' c l := fun l hl hln => by
      rw [h4 c hc l (by omega), hT l (by omega) (j + 1) (by omega) hl]; ring
    rw [sum_eq_sum_Ico_succ_bot (show j + 1 < n by omega), hsame (j + 1) (le_refl _) (by omega),
      sum_congr rfl (fun l hl => by rw [hsame l (by have := mem_Ico.1 hl; omega)
        (by have := mem_Ico.1 hl; omega)]),
      ← h3 c hc i hi, h4 c hc i hi]
    ring
  · rintro s' ⟨hV, h⟩
    refine ⟨hV, fun c hc i hi => ?_⟩
    rw [← h c hc i hi]
    unfold mulVec
    rw [← Nat.Ico_zero_eq_range, sum_eq_sum_Ico_succ_bot (by omega), hT i hi 0 (by omega) (Nat.zero_le _)]
    simp

end sweeps

section single
variable [StarRing K] {A : CS K} {n : Nat}

/-- Views used for single right-hand sides. -/
def view1 (y : Buf K) (_ : Unit) (i : Nat) : K := y.get i

theorem dotStep1 (h : A.WF) (hp : A.psize = n) (hss : A.ssize = n) (N : Nat) (fr : Nat → K) (g : K → K → K)
    (T : Nat → Nat → K)
    (hg : ∀ j (x : Nat → K), j < n → ∑ k ∈ Ico (A.start.get j) (A.start.get (j + 1)),
      g (A.vals.get k) (x (A.inds.get k)) = mulVec n T x j) :
    DotStep (fun _ => True) view1 (fun y : Buf K => y.size = N ∧ n ≤ N ∧ ∀ i, n ≤ i → y.get i = fr i) n T (fun j y => do
      let tmp ← A.forLine j (0 : K) fun c v tmp => do
        let yc ← y.rd c
        pure (tmp + g v yc)
      let yj ← y.rd j
      y.wr j (yj - tmp)) := by
  rintro j y hj ⟨hy, hN, hfr⟩
  simp only [runs_bind]
  refine (dotLine_runs h (by omega) y (by omega) g).mono ?_
  rintro tmp rfl
  simp only [runs_rd, runs_wr, Buf.set_size]
  refine ⟨by omega, by omega, ⟨hy, hN, fun i hi => by rw [Buf.set_get, if_neg (by omega)]; exact hfr i hi⟩, fun _ _ i hi => ?_⟩
  rw [hg j y.get hj]
  rfl

theorem axpyStep1 (h : A.WF) (hp : A.psize = n) (hss : A.ssize = n) (N : Nat) (fr : Nat → K) (g : K → K)
    (T : Nat → Nat → K)
    (hg : ∀ j i t, j < n → (∑ k ∈ Ico (A.start.get j) (A.start.get (j + 1)),
      if A.inds.get k = i then g (A.vals.get k) * t else 0) = T i j * t) :
    AxpyStep (fun _ => True) view1 (fun y : Buf K => y.size = N ∧ n ≤ N ∧ ∀ i, n ≤ i → y.get i = fr i) n T (fun j y => do
      let yj ← y.rd j
      A.forLine j y fun c v y => do
        let yc ← y.rd c
        y.wr c (yc - g v * yj)) := by
  rintro j y hj ⟨hy, hN, hfr⟩
  simp only [runs_bind, runs_rd]
  refine ⟨by omega, ?_⟩
  refine (axpyLine_runs h (by omega) y (by omega) (fun v => g v * (- y.get j)) _
    (fun a v => by ring)).mono ?_
  rintro y' ⟨h1, h2⟩
  refine ⟨⟨by omega, hN, fun i hi => ?_⟩, fun _ _ i hi => ?_⟩
  · rw [h2, hfr i hi, sum_eq_zero, add_zero]
    intro k hk
    rw [mem_Ico] at hk
    rw [if_neg]
    have := h.line_lt (by omega : j < A.psize) hk.2
    omega
  show y'.get i = y.get i - T i j * y.get j
  rw [h2, hg j i _ hj]; ring

theorem axpyStepRev1 (h : A.WF) (hp : A.psize = n) (hss : A.ssize = n) (N : Nat) (fr : Nat → K) (g : K → K)
    (T : Nat → Nat → K)
    (hg : ∀ j i t, j < n → (∑ k ∈ Ico (A.start.get j) (A.start.get (j + 1)),
      if A.inds.get k = i then g (A.vals.get k) * t else 0) = T i j * t) :
    AxpyStep (fun _ => True) view1 (fun y : Buf K => y.size = N ∧ n ≤ N ∧ ∀ i, n ≤ i → y.get i = fr i) n T (fun j y => do
      let yj ← y.rd j
      A.forLineRev j y fun c v y => do
        let yc ← y.rd c
        y.wr c (yc - g v * yj)) := by
  rintro j y hj ⟨hy, hN, hfr⟩
  simp only [runs_bind, runs_rd]
  refine ⟨by omega, ?_⟩
  refine (axpyLineRev_runs h (by omega) y (by omega) (fun v => g v * (- y.get j)) _
    (fun a v => by ring)).mono ?_
  rintro y' ⟨h1, h2⟩
  refine ⟨⟨by omega, hN, fun i hi => ?_⟩, fun _ _ i hi => ?_⟩
  · rw [h2, hfr i hi, sum_eq_zero, add_zero]
    intro k hk
    rw [mem_Ico] at hk
    rw [if_neg]
    have := h.line_lt (by omega : j < A.psize) hk.2
    omega
  show y'.get i = y.get i - T i j * y.get j
  rw [h2, hg j i _ hj]; ring

theorem herm_lower {T : Nat → Nat → K} (h : StrictLower n T) : StrictUpper n (herm T) :=
  fun i hi j hj hij => by simp [herm, h j hj i hi hij]
theorem herm_upper {T : Nat → Nat → K} (h : StrictUpper n T) : StrictLower n (herm T) :=
  fun i hi j hj hij => by simp [herm, h j hj i hi hij]

end single

section multi
variable [StarRing K] {A : CS K} {n : Nat}

/-- Views used for `N` right-hand sides. -/
def viewN (N : Nat) (y : Buf K) (c : Nat) (i : Nat) : K := y.get (i * N + c)

theorem accRow_runs (N m : Nat) (a : K) (y : Buf K) (c : Nat) (hc : c < m) (hy : m * N ≤ y.size)
    (t : Buf K) (ht : N ≤ t.size) :
    Runs (accRow N a y c t) fun t' => t'.size = t.size ∧ ∀ k, k < N → t'.get k = t.get k + a * y.get (c * N + k) := by
  refine updTmp_runs N t ht _ (fun k old => old + a * y.get (c * N + k)) ?_
  intro k t hk ht
  simp only [runs_bind, runs_rd, runs_wr]
  exact ⟨by omega, lt_of_lt_of_le (flat_lt hc hk) hy, by omega, trivial⟩

theorem subRow_runs (N m : Nat) (tmp : Buf K) (j : Nat) (y : Buf K) (hj : j < m) (hy : m * N ≤ y.size)
    (ht : N ≤ tmp.size) :
    Runs (subRow N tmp j y) fun y' => y'.size = y.size ∧ ∀ i k, k < N → y'.get (i * N + k) =
      if i = j then y.get (i * N + k) - tmp.get k else y.get (i * N + k) := by
  refine updRow_runs N m y j hj hy _ (fun k old => old - tmp.get k) ?_
  intro k y' hk hy'
  simp only [runs_bind, runs_rd, runs_wr]
  have := flat_lt hj hk
  exact ⟨by omega, by omega, by omega, trivial⟩

theorem axpyRow_runs (N m : Nat) (a : K) (tmp : Buf K) (c : Nat) (y : Buf K) (hc : c < m)
    (hy : m * N ≤ y.size) (ht : N ≤ tmp.size) :
    Runs (axpyRow N a tmp c y) fun y' => y'.size = y.size ∧ ∀ i k, k < N → y'.get (i * N + k) =
      if i = c then y.get (i * N + k) + a * (- tmp.get k) else y.get (i * N + k) := by
  refine updRow_runs N m y c hc hy _ (fun k old => old + a * (- tmp.get k)) ?_
  intro k y' hk hy'
  simp only [runs_bind, runs_rd, runs_wr]
  have := flat_lt hc hk
  exact ⟨by omega, by omega, by omega, by congr 1; ring⟩

theorem loadRow_runs (N m : Nat) (y : Buf K) (j : Nat) (hj : j < m) (hy : m * N ≤ y.size) :
    Runs (loadRow N y j) fun t => t.size = N ∧ ∀ k, k < N → t.get k = y.get (j * N + k) := by
  refine (updTmp_runs N _ (by simp) _ (fun k _ => y.get (j * N + k)) ?_).mono ?_
  · intro k t hk ht
    simp only [runs_bind, runs_rd, runs_wr]
    exact ⟨lt_of_lt_of_le (flat_lt hj hk) hy, by omega, trivial⟩
  · rintro t ⟨h1, h2⟩
    exact ⟨by simpa using h1, h2⟩

theorem dotStepN (h : A.WF) (hp : A.psize = n) (hss : A.ssize = n) (N sz : Nat) (g : K → K)
    (T : Nat → Nat → K)
    (hg : ∀ j (x : Nat → K), j < n → ∑ k ∈ Ico (A.start.get j) (A.start.get (j + 1)),
      g (A.vals.get k) * (x (A.inds.get k)) = mulVec n T x j) :
    DotStep (fun c => c < N) (viewN N) (fun y : Buf K => y.size = sz ∧ n * N ≤ sz) n T (fun j y => do
      let tmp ← A.forLine j (Buf.mk' N (0 : K)) fun c v tmp => accRow N (g v) y c tmp
      subRow N tmp j y) := by
  rintro j y hj ⟨hy, hN⟩
  simp only [runs_bind]
  refine (dotRow_runs h (by omega) N y (by rw [hss]; omega) (fun v t => g v * t) _ ?_).mono ?_
  · intro c v t hc ht
    exact accRow_runs N n (g v) y c (by omega) (by omega) t ht
  rintro tmp ⟨h1, h2⟩
  refine (subRow_runs N n tmp j y hj (by omega) (by omega)).mono ?_
  rintro y' ⟨h3, h4⟩
  refine ⟨⟨by omega, hN⟩, fun c hc i hi => ?_⟩
  show y'.get _ = if i = j then y.get _ - _ else y.get _
  rw [h4 i c hc]
  by_cases hij : i = j
  · subst hij
    rw [if_pos rfl, if_pos rfl, h2 c hc, hg i _ hj]; rfl
  · rw [if_neg hij, if_neg hij]

theorem axpyStepN (h : A.WF) (hp : A.psize = n) (hss : A.ssize = n) (N sz : Nat) (g : K → K)
    (T : Nat → Nat → K)
    (hg : ∀ j i t, j < n → (∑ k ∈ Ico (A.start.get j) (A.start.get (j + 1)),
      if A.inds.get k = i then g (A.vals.get k) * t else 0) = T i j * t) :
    AxpyStep (fun c => c < N) (viewN N) (fun y : Buf K => y.size = sz ∧ n * N ≤ sz) n T (fun j y => do
      let tmp ← loadRow N y j
      A.forLine j y fun c v y => axpyRow N (g v) tmp c y) := by
  rintro j y hj ⟨hy, hN⟩
  simp only [runs_bind]
  refine (loadRow_runs N n y j hj (by omega)).mono ?_
  rintro tmp ⟨h1, h2⟩
  refine (axpyRows_runs h (by omega) N y (by rw [hss]; omega) (fun k v => g v * (- tmp.get k)) _ ?_).mono ?_
  · intro c v y hc hy
    exact axpyRow_runs N A.ssize (g v) tmp c y hc hy (by omega)
  rintro y' ⟨h3, h4⟩
  refine ⟨⟨by omega, hN⟩, fun c hc i hi => ?_⟩
  show y'.get _ = y.get _ - T i j * y.get _
  rw [h4 i c hc, hg j i _ hj, h2 c hc]; ring

theorem axpyStepRevN (h : A.WF) (hp : A.psize = n) (hss : A.ssize = n) (N sz : Nat) (g : K → K)
    (T : Nat → Nat → K)
    (hg : ∀ j i t, j < n → (∑ k ∈ Ico (A.start.get j) (A.start.get (j + 1)),
      if A.inds.get k = i then g (A.vals.get k) * t else 0) = T i j * t) :
    AxpyStep (fun c => c < N) (viewN N) (fun y : Buf K => y.size = sz ∧ n * N ≤ sz) n T (fun j y => do
      let tmp ← loadRow N y j
      A.forLineRev j y fun c v y => axpyRow N (g v) tmp c y) := by
  rintro j y hj ⟨hy, hN⟩
  simp only [runs_bind]
  refine (loadRow_runs N n y j hj (by omega)).mono ?_
  rintro tmp ⟨h1, h2⟩
  refine (axpyRowsRev_runs h (by omega) N y (by rw [hss]; omega) (fun k v => g v * (- tmp.get k)) _ ?_).mono ?_
  · intro c v y hc hy
    exact axpyRow_runs N A.ssize (g v) tmp c y hc hy (by omega)
  rintro y' ⟨h3, h4⟩
  refine ⟨⟨by omega, hN⟩, fun c hc i hi => ?_⟩
  show y'.get _ = y.get _ - T i j * y.get _
  rw [h4 i c hc, hg j i _ hj, h2 c hc]; ring

end multi
end CS
end Hif
