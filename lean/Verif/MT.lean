import Verif.MatVec

/-!
# Threaded matrix-vector product

Model of src/hif/utils/mt.hpp (`uniform_partition`) and src/hif/utils/mt_mv.hpp (`multiply_nt`,
`multiply_nt_low`).  Atomic step of a thread = one row of its range: everything the row computation
reads (the matrix and `x`) is never written in the region and the accumulator is thread-local, so the
only shared effect of a row is its single store `y[i] = tmp`.
-/

namespace Hif
open Finset Spec
namespace MT

/-- `uniform_partition(n, threads, thread)` (mt.hpp 91–104): `[start, end)` of one thread. -/
def uniformPartition (n threads thread : Nat) : Nat × Nat :=
  let B := n / threads
  let offsets := n - B * threads
  let start := B * thread
  if offsets ≠ 0 then
    let shift := threads - offsets
    if shift ≤ thread then
      let start := start + (thread - shift)
      (start, B + 1 + start)
    else (start, B + start)
  else (start, B + start)

variable {K : Type _} [CommRing K]

/-- Shared state of the parallel region (mt_mv.hpp 66–72): the program counter (next row) of each
thread and the output vector. -/
structure St (K : Type _) where
  pc : Nat → Nat
  y : Buf K

/-- One atomic step of thread `t`: compute and store its next row, if any is left. -/
def step (A : CS K) (x : Buf K) (threads t : Nat) (s : St K) : M (St K) :=
  if s.pc t < (uniformPartition A.psize threads t).2 then do
    let y ← A.crsMulRange x (s.pc t) 1 s.y
    pure { pc := fun u => if u = t then s.pc t + 1 else s.pc u, y := y }
  else pure s

/-- Entering the region: every thread starts at the beginning of its part. -/
def init (A : CS K) (threads : Nat) (y : Buf K) : St K :=
  { pc := fun t => (uniformPartition A.psize threads t).1, y := y }

/-- Run a schedule: a list of thread identifiers, each entry one step of that thread.  Only threads of the
team (`t < team`) exist. -/
def run (A : CS K) (x : Buf K) (threads team : Nat) : List Nat → St K → M (St K)
  | [], s => pure s
  | t :: ts, s =>
    if t < team then step A x threads t s >>= run A x threads team ts
    else run A x threads team ts s

/-- All threads of the team have left their loop (the implicit barrier at the end of the region). -/
def Finished (A : CS K) (threads team : Nat) (s : St K) : Prop :=
  ∀ t, t < team → s.pc t = (uniformPartition A.psize threads t).2

/-! ### proofs -/

theorem part_eq (n T t : Nat) : uniformPartition n T t =
    if n % T ≠ 0 then if T - n % T ≤ t then (n / T * t + (t - (T - n % T)),
      n / T + 1 + (n / T * t + (t - (T - n % T)))) else (n / T * t, n / T + n / T * t)
    else (n / T * t, n / T + n / T * t) := by
  have h1 : n - n / T * T = n % T := by
    have := Nat.div_add_mod n T
    rw [Nat.mul_comm] at this; omega
  unfold uniformPartition
  dsimp only
  rw [h1]

/-- The parts are consecutive: part `t+1` starts where part `t` ends. -/
theorem part_next (n T t : Nat) (hT : 0 < T) :
    (uniformPartition n T (t + 1)).1 = (uniformPartition n T t).2 := by
  simp only [part_eq]
  have h2 : n / T * (t + 1) = n / T * t + n / T := by ring
  by_cases h : n % T = 0
  · simp [h, h2]; omega
  · have := Nat.mod_lt n hT
    simp only [ne_eq, h, not_false_iff, if_true]
    split <;> split <;> simp <;> omega

theorem part_zero (n T : Nat) (hT : 0 < T) : (uniformPartition n T 0).1 = 0 := by
  simp only [part_eq]
  have := Nat.mod_lt n hT
  by_cases h : n % T = 0
  · simp [h]
  · simp only [ne_eq, h, not_false_iff, if_true]
    split <;> simp

theorem part_last (n T : Nat) (hT : 0 < T) : (uniformPartition n T (T - 1)).2 = n := by
  rw [← part_next n T (T - 1) hT, show T - 1 + 1 = T by omega]
  have h0 := Nat.div_add_mod n T
  simp only [part_eq]
  have := Nat.mod_lt n hT
  have h3 : T * (n / T) = n / T * T := Nat.mul_comm _ _
  by_cases h : n % T = 0
  · simp [h]; omega
  · simp only [ne_eq, h, not_false_iff, if_true]
    split <;> simp <;> omega

theorem part_le (n T t : Nat) : (uniformPartition n T t).1 ≤ (uniformPartition n T t).2 := by
  unfold uniformPartition
  dsimp only
  split
  · split <;> simp
  · simp

theorem part_end_mono (n T : Nat) (hT : 0 < T) {s t : Nat} (h : s ≤ t) :
    (uniformPartition n T s).2 ≤ (uniformPartition n T t).2 := by
  induction t with
  | zero => simp_all
  | succ t ih =>
    rcases Nat.lt_or_ge s (t + 1) with h1 | h1
    · refine le_trans (ih (by omega)) ?_
      rw [← part_next n T t hT]; exact part_le _ _ _
    · rw [show s = t + 1 by omega]

theorem part_bound (n T t : Nat) (ht : t < T) : (uniformPartition n T t).2 ≤ n := by
  rw [← part_last n T (by omega)]
  rw [part_last n T (by omega), ← part_last n T (by omega : 0 < T)]
  have := part_end_mono n T (by omega) (show t ≤ T - 1 by omega)
  rw [part_last n T (by omega)] at this ⊢
  exact this

/-- Every row belongs to exactly one thread. -/
theorem part_unique (n T i : Nat) (hT : 0 < T) (hi : i < n) :
    ∃ t, t < T ∧ ((uniformPartition n T t).1 ≤ i ∧ i < (uniformPartition n T t).2) ∧
      ∀ u, u < T → (uniformPartition n T u).1 ≤ i → i < (uniformPartition n T u).2 → u = t := by
  have key : ∀ s, i < (uniformPartition n T s).2 → ∃ t, t ≤ s ∧
      (uniformPartition n T t).1 ≤ i ∧ i < (uniformPartition n T t).2 := by
    intro s
    induction s with
    | zero => intro h; exact ⟨0, le_refl _, by simp [part_zero n T hT], h⟩
    | succ s ih =>
      intro h
      rcases Nat.lt_or_ge i (uniformPartition n T s).2 with h1 | h1
      · obtain ⟨t, h2, h3⟩ := ih h1
        exact ⟨t, by omega, h3⟩
      · exact ⟨s + 1, le_refl _, by rw [part_next n T s hT]; exact h1, h⟩
  obtain ⟨t, h1, h2, h3⟩ := key (T - 1) (by rw [part_last n T hT]; exact hi)
  refine ⟨t, by omega, ⟨h2, h3⟩, fun u _ h4 h5 => ?_⟩
  rcases Nat.lt_trichotomy u t with h | h | h
  · have a := part_end_mono n T hT (show u ≤ t - 1 by omega)
    have b := part_next n T (t - 1) hT
    rw [show t - 1 + 1 = t by omega] at b
    omega
  · exact h
  · have a := part_end_mono n T hT (show t ≤ u - 1 by omega)
    have b := part_next n T (u - 1) hT
    rw [show u - 1 + 1 = u by omega] at b
    omega

/-- Invariant of the parallel region. -/
def Inv (A : CS K) (x : Buf K) (threads team ysz : Nat) (s : St K) : Prop :=
  s.y.size = ysz ∧ ∀ t, t < team →
    (uniformPartition A.psize threads t).1 ≤ s.pc t ∧ s.pc t ≤ (uniformPartition A.psize threads t).2 ∧
    ∀ i, (uniformPartition A.psize threads t).1 ≤ i → i < s.pc t →
      s.y.get i = mulVec A.ssize A.crs x.get i

theorem step_inv {A : CS K} (hA : A.WF) (x : Buf K) (hx : A.ssize ≤ x.size) {threads team ysz : Nat}
    (hteam : team ≤ threads) (hy : A.psize ≤ ysz) {t : Nat} (ht : t < team) (s : St K)
    (hs : Inv A x threads team ysz s) :
    Runs (step A x threads t s) (Inv A x threads team ysz) := by
  unfold step
  simp only [runs_ite, runs_bind, runs_pure]
  split
  · rename_i hlt
    have hb := part_bound A.psize threads t (by omega)
    obtain ⟨hsz, hs⟩ := hs
    refine (CS.crsMulRange_runs hA x s.y (s.pc t) 1 (by omega) hx (by omega)).mono ?_
    rintro y' ⟨h1, h2⟩
    refine ⟨by simp; omega, fun u hu => ?_⟩
    obtain ⟨h3, h4, h5⟩ := hs u hu
    by_cases hut : u = t
    · subst hut
      refine ⟨by simp; omega, by simp; omega, fun i hi hi' => ?_⟩
      simp only [if_true] at hi'
      show y'.get i = _
      rw [h2]
      by_cases hc : s.pc u ≤ i ∧ i < s.pc u + 1
      · rw [if_pos hc]
      · rw [if_neg hc]; exact h5 i hi (by omega)
    · refine ⟨by simpa [hut] using h3, by simpa [hut] using h4, fun i hi hi' => ?_⟩
      simp only [hut, if_false] at hi'
      show y'.get i = _
      rw [h2]
      by_cases hc : s.pc t ≤ i ∧ i < s.pc t + 1
      · rw [if_pos hc]
      · rw [if_neg hc]; exact h5 i hi hi'
  · exact hs

theorem run_inv {A : CS K} (hA : A.WF) (x : Buf K) (hx : A.ssize ≤ x.size) {threads team ysz : Nat}
    (hteam : team ≤ threads) (hy : A.psize ≤ ysz) (sched : List Nat) (s : St K)
    (hs : Inv A x threads team ysz s) :
    Runs (run A x threads team sched s) (Inv A x threads team ysz) := by
  induction sched generalizing s with
  | nil => simpa [run] using hs
  | cons t ts ih =>
    unfold run
    split
    · rename_i ht
      rw [runs_bind]
      exact (step_inv hA x hx hteam hy ht s hs).mono fun s' h => ih s' h
    · exact ih s hs

end MT
end Hif
