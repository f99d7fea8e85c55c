import Verif.QrcpRun

set_option linter.unusedSectionVars false
set_option linter.unusedVariables false

/-!
# QRCP: several right-hand sides

Each step of a call changes only the `n` values of its right-hand side, by a function of these values (`Local`).
-/

namespace Hif
namespace Qrcp
open Finset Spec

variable {K : Type} [Field K] [StarRing K] [DecidableEq K]

/-- The operation changes the `n` values at its offset by a function of them, and nothing else. -/
def Local (n : Nat) (op : Nat → Buf K → M (Buf K)) : Prop :=
  ∃ F : (Nat → K) → Nat → K, (∀ c c' : Nat → K, (∀ i, i < n → c i = c' i) → ∀ i, i < n → F c i = F c' i) ∧
    ∀ off b, off + n ≤ b.size → Runs (op off b) fun x => Upd off n b x (F fun i => b.get (off + i))

theorem Local.bind {n : Nat} {p q : Nat → Buf K → M (Buf K)} (hp : Local n p) (hq : Local n q) : Local n (fun off b => p off b >>= fun x => q off x) := by
  obtain ⟨F, f1, f2⟩ := hp
  obtain ⟨G, g1, g2⟩ := hq
  refine ⟨fun c => G (F c), fun c c' hc => g1 _ _ (f1 _ _ hc), fun off b hb => ?_⟩
  rw [runs_bind]
  refine (f2 off b hb).mono ?_
  rintro x ⟨x1, x2, x3⟩
  refine (g2 off x (by omega)).mono ?_
  rintro y ⟨y1, y2, y3⟩
  exact ⟨by omega, fun i hi => by rw [y2 i hi]; exact g1 _ _ x2 i hi, fun i hi => by rw [y3 i hi, x3 i hi]⟩

variable {n : Nat} {A : Nat → Nat → K} {s : St K}

theorem ormqr_local (tran : Bool) {k : Nat} (hk : k ≤ n) {mat tau : Buf K} (hm : mat.size = n * n) (ht : tau.size = n) : Local n (ormqr tran n k mat tau) := by
  refine ⟨(if tran then applyQH else applyQ) n mat.get tau.get k, fun c c' hc i hi => ?_, fun off b hb => ormqr_runs tran hk hm ht off b hb⟩
  cases tran
  · exact applyQ_congr n _ _ k hc i hi
  · exact applyQH_congr n _ _ k hc i hi

theorem backSub_congr (k : Nat) (T : Nat → Nat → K) {y y' : Nat → K} (h : ∀ i, i < k → y i = y' i) : ∀ t, t ≤ k → ∀ i, i < k → backSub k T y t i = backSub k T y' t i := by
  intro t
  induction t with
  | zero => exact fun _ => h
  | succ t ih =>
    intro ht i hi
    rw [backSub, backSub]
    beta_reduce
    rw [ih (by omega) i hi, h i hi]
    rw [sum_congr rfl fun j hj => by rw [ih (by omega) j (mem_Ico.1 hj).2]]

theorem fwdSub_congr (k : Nat) (T : Nat → Nat → K) {y y' : Nat → K} (h : ∀ i, i < k → y i = y' i) : ∀ t, t ≤ k → ∀ i, i < k → fwdSub T y t i = fwdSub T y' t i := by
  intro t
  induction t with
  | zero => exact fun _ => h
  | succ t ih =>
    intro ht i hi
    rw [fwdSub, fwdSub]
    beta_reduce
    rw [ih (by omega) i hi, h i hi]
    rw [sum_congr rfl fun j hj => by rw [ih (by omega) j (by have := mem_range.1 hj; omega)]]

/-- A change of the first `k` values is a change of the `n` values. -/
theorem Upd.extend {off k n : Nat} (hk : k ≤ n) {b x : Buf K} {f : Nat → K} (h : Upd off k b x f) : Upd off n b x fun i => if i < k then f i else b.get (off + i) := by
  refine ⟨h.1, fun i hi => ?_, fun i hi => h.2.2 i (by omega)⟩
  beta_reduce
  split
  · exact h.2.1 i ‹_›
  · exact h.2.2 _ (by omega)

theorem trsv_local (tran : Bool) {k : Nat} (hk : k ≤ n) {mat : Buf K} (hm : mat.size = n * n) (hR : ∀ i, i < k → upper n mat.get i i ≠ 0) :
    Local n (trsv tran n k mat) := by
  refine ⟨fun c i => if i < k then (if tran then fwdSub (upper n mat.get) c k else backSub k (upper n mat.get) c k) i else c i, fun c c' hc i hi => ?_,
    fun off b hb => (trsv_runs tran hk hm off b hb hR).mono fun x hx => hx.extend hk⟩
  beta_reduce
  split
  · cases tran
    · exact backSub_congr k _ (fun j hj => hc j (by omega)) k (le_refl _) i ‹_›
    · exact fwdSub_congr k _ (fun j hj => hc j (by omega)) k (le_refl _) i ‹_›
  · exact hc i hi

theorem trmv_local (tran : Bool) {k : Nat} (hk : k ≤ n) {mat : Buf K} (hm : mat.size = n * n) : Local n (trmv tran n k mat) := by
  refine ⟨fun c i => if i < k then ∑ j ∈ range k, (if tran then star (upper n mat.get j i) else upper n mat.get i j) * c j else c i, fun c c' hc i hi => ?_,
    fun off b hb => (trmv_runs tran hk hm off b hb).mono fun x hx => hx.extend hk⟩
  beta_reduce
  split
  · exact sum_congr rfl fun j hj => by rw [hc j (by have := mem_range.1 hj; omega)]
  · exact hc i hi

theorem gather_local (h : Fac n A s) {k : Nat} (hk : k ≤ n) : Local n (gather s k) := by
  refine ⟨fun c i => if i < k then c (s.jpvt.get i - 1) else 0, fun c c' hc i hi => ?_, fun off b hb => gather_runs h hk off b hb⟩
  beta_reduce
  rw [hc _ (h.jperm.1 i hi)]

theorem scatter_local (h : Fac n A s) {k : Nat} (hk : k ≤ n) : Local n (scatter s k) := by
  classical
  obtain ⟨q, hq⟩ : ∃ q : Nat → Nat, ∀ i, i < n → q i < n ∧ s.jpvt.get (q i) - 1 = i := by
    refine ⟨fun i => if hi : i < n then (isPerm_surj h.jperm hi).choose else 0, fun i hi => ?_⟩
    simp only [dif_pos hi]
    exact (isPerm_surj h.jperm hi).choose_spec
  refine ⟨fun c i => if q i < k then c (q i) else 0, fun c c' hc i hi => ?_, fun off b hb => (scatter_runs h hk off b hb).mono ?_⟩
  · beta_reduce
    rw [hc _ (hq i hi).1]
  · rintro x ⟨x1, x2, x3, x4⟩
    refine ⟨x1, fun i hi => ?_, x4⟩
    obtain ⟨q1, q2⟩ := hq i hi
    beta_reduce
    split
    · rw [← x2 _ ‹_›, q2]
    · rw [← x3 (q i) (by omega) q1, q2]

theorem solveNt_local (h : Fac n A s) {k : Nat} (hk : k ≤ n) (hR : PivotsOK n s k) : Local n (solveNt s k) := by
  have h1 := (ormqr_local true hk h.msz h.tsz).bind ((trsv_local false hk h.msz hR).bind (scatter_local h hk))
  rw [← h.nr] at h1
  rw [← h.nr]
  exact h1

theorem solveT_local (h : Fac n A s) {k : Nat} (hk : k ≤ n) (hR : PivotsOK n s k) : Local n (solveT s k) := by
  have h1 := (gather_local h hk).bind ((trsv_local true hk h.msz hR).bind (ormqr_local false hk h.msz h.tsz))
  rw [← h.nr] at h1
  rw [← h.nr]
  exact h1

theorem multNt_local (h : Fac n A s) {k : Nat} (hk : k ≤ n) : Local n (multNt s k) := by
  have h1 := (gather_local h hk).bind ((trmv_local false hk h.msz).bind (ormqr_local false hk h.msz h.tsz))
  rw [← h.nr] at h1
  rw [← h.nr]
  exact h1

theorem multT_local (h : Fac n A s) {k : Nat} (hk : k ≤ n) : Local n (multT s k) := by
  have h1 := (ormqr_local true hk h.msz h.tsz).bind ((trmv_local true hk h.msz).bind (scatter_local h hk))
  rw [← h.nr] at h1
  rw [← h.nr]
  exact h1

/-! ### copies -/

theorem copyIn_runs (n N : Nat) (x m : Buf K) (hx : x.size = n * N) (hm : m.size = n * N) :
    Runs (SyEig.copyIn n N x m) fun r => r.size = n * N ∧ ∀ j, j < N → ∀ i, i < n → r.get (j * n + i) = x.get (i * N + j) := by
  unfold SyEig.copyIn
  refine forUp_runs' (fun j r => r.size = n * N ∧ ∀ l, l < j → ∀ i, i < n → r.get (l * n + i) = x.get (i * N + l)) (Nat.zero_le _)
    ⟨hm, fun l hl => by omega⟩ ?_ fun r h => h
  rintro j r _ hj ⟨r1, r2⟩
  refine forUp_runs' (fun a r => r.size = n * N ∧ (∀ l, l < j → ∀ i, i < n → r.get (l * n + i) = x.get (i * N + l)) ∧
    ∀ i, i < a → r.get (j * n + i) = x.get (i * N + j)) (Nat.zero_le _) ⟨r1, r2, fun i hi => by omega⟩ ?_ ?_
  · rintro a r _ ha ⟨r1, r2, r3⟩
    simp only [runs_bind, runs_rd, runs_wr]
    have b1 : (a + 1) * N ≤ n * N := Nat.mul_le_mul_right _ ha
    have b2 : (j + 1) * n ≤ N * n := Nat.mul_le_mul_right _ hj
    rw [Nat.add_mul, Nat.one_mul] at b1 b2
    rw [Nat.mul_comm N n] at b2
    refine ⟨by omega, by omega, r1, fun l hl i hi => ?_, fun i hi => ?_⟩
    · have : (l + 1) * n ≤ j * n := Nat.mul_le_mul_right _ hl
      rw [Nat.add_mul, Nat.one_mul] at this
      rw [Buf.set_get, if_neg (by omega)]
      exact r2 l hl i hi
    · rw [Buf.set_get]
      by_cases hia : i = a
      · subst hia; rw [if_pos rfl]
      · rw [if_neg (by omega)]; exact r3 i (by omega)
  · rintro r ⟨r1, r2, r3⟩
    refine ⟨r1, fun l hl => ?_⟩
    rcases Nat.lt_succ_iff_lt_or_eq.1 hl with h | rfl
    · exact r2 l h
    · exact r3

theorem idx_inj {N i j i' j' : Nat} (hj : j < N) (hj' : j' < N) (h : i * N + j = i' * N + j') : i = i' ∧ j = j' := by
  have hi : i = i' := by
    rcases Nat.lt_trichotomy i i' with h1 | h1 | h1
    · have : (i + 1) * N ≤ i' * N := Nat.mul_le_mul_right _ h1
      rw [Nat.add_mul, Nat.one_mul] at this; omega
    · exact h1
    · have : (i' + 1) * N ≤ i * N := Nat.mul_le_mul_right _ h1
      rw [Nat.add_mul, Nat.one_mul] at this; omega
  subst hi
  exact ⟨rfl, by omega⟩

theorem copyOut_runs (n N : Nat) (m x : Buf K) (hx : x.size = n * N) (hm : m.size = n * N) :
    Runs (SyEig.copyOut n N m x) fun r => r.size = n * N ∧ ∀ j, j < N → ∀ i, i < n → r.get (i * N + j) = m.get (j * n + i) := by
  unfold SyEig.copyOut
  refine forUp_runs' (fun j r => r.size = n * N ∧ ∀ l, l < j → ∀ i, i < n → r.get (i * N + l) = m.get (l * n + i)) (Nat.zero_le _)
    ⟨hx, fun l hl => by omega⟩ ?_ fun r h => h
  rintro j r _ hj ⟨r1, r2⟩
  refine forUp_runs' (fun a r => r.size = n * N ∧ (∀ l, l < j → ∀ i, i < n → r.get (i * N + l) = m.get (l * n + i)) ∧
    ∀ i, i < a → r.get (i * N + j) = m.get (j * n + i)) (Nat.zero_le _) ⟨r1, r2, fun i hi => by omega⟩ ?_ ?_
  · rintro a r _ ha ⟨r1, r2, r3⟩
    simp only [runs_bind, runs_rd, runs_wr]
    have b1 : (a + 1) * N ≤ n * N := Nat.mul_le_mul_right _ ha
    have b2 : (j + 1) * n ≤ N * n := Nat.mul_le_mul_right _ hj
    rw [Nat.add_mul, Nat.one_mul] at b1 b2
    rw [Nat.mul_comm N n] at b2
    refine ⟨by omega, by omega, r1, fun l hl i hi => ?_, fun i hi => ?_⟩
    · rw [Buf.set_get, if_neg (fun e => by have := (idx_inj (by omega) hj e).2; omega)]
      exact r2 l hl i hi
    · rw [Buf.set_get]
      by_cases hia : i = a
      · subst hia; rw [if_pos rfl]
      · rw [if_neg (fun e => hia (idx_inj hj hj e).1)]; exact r3 i (by omega)
  · rintro r ⟨r1, r2, r3⟩
    refine ⟨r1, fun l hl => ?_⟩
    rcases Nat.lt_succ_iff_lt_or_eq.1 hl with h | rfl
    · exact r2 l h
    · exact r3

/-- All right-hand sides: column `j` of the result is the result for column `j` alone. -/
theorem mrhs_runs {op : Nat → Buf K → M (Buf K)} (h : Local n op) (N : Nat) (x : Buf K) (hx : x.size = n * N) :
    Runs (do
      let m ← SyEig.copyIn n N x (Buf.mk' (n * N) 0)
      let m ← forUp 0 N m fun i m => op (i * n) m
      SyEig.copyOut n N m x) fun r => r.size = n * N ∧ ∀ j, j < N → Runs (op 0 ⟨n, fun i => x.get (i * N + j)⟩) fun y => ∀ i, i < n → r.get (i * N + j) = y.get i := by
  obtain ⟨F, f1, f2⟩ := h
  rw [runs_bind]
  refine (copyIn_runs n N x _ hx rfl).mono ?_
  rintro m ⟨m1, m2⟩
  rw [runs_bind]
  refine forUp_runs' (fun j (r : Buf K) => r.size = n * N ∧ (∀ l, l < j → ∀ i, i < n → r.get (l * n + i) = F (fun i => x.get (i * N + l)) i) ∧
    ∀ l, j ≤ l → l < N → ∀ i, i < n → r.get (l * n + i) = x.get (i * N + l)) (Nat.zero_le _) ⟨m1, fun l hl => by omega, fun l _ hl => m2 l hl⟩ ?_ ?_
  · rintro j r _ hj ⟨r1, r2, r3⟩
    have b2 : (j + 1) * n ≤ N * n := Nat.mul_le_mul_right _ hj
    rw [Nat.add_mul, Nat.one_mul, Nat.mul_comm N n] at b2
    refine (f2 (j * n) r (by omega)).mono ?_
    rintro z ⟨z1, z2, z3⟩
    refine ⟨by omega, fun l hl i hi => ?_, fun l hl hl' i hi => ?_⟩
    · by_cases hlj : l = j
      · subst hlj
        rw [z2 i hi]
        exact f1 _ _ (fun i hi => r3 l (le_refl _) hj i hi) i hi
      · have : (l + 1) * n ≤ j * n := Nat.mul_le_mul_right _ (by omega)
        rw [Nat.add_mul, Nat.one_mul] at this
        rw [z3 _ (by omega)]
        exact r2 l (by omega) i hi
    · have : (j + 1) * n ≤ l * n := Nat.mul_le_mul_right _ hl
      rw [Nat.add_mul, Nat.one_mul] at this
      rw [z3 _ (by omega)]
      exact r3 l (by omega) hl' i hi
  rintro m ⟨m1, m2, -⟩
  refine (copyOut_runs n N m x hx m1).mono ?_
  rintro r ⟨r1, r2⟩
  refine ⟨r1, fun j hj => (f2 0 ⟨n, fun i => x.get (i * N + j)⟩ (by show 0 + n ≤ n; omega)).mono ?_⟩
  rintro y ⟨-, y2, -⟩
  intro i hi
  have := y2 i hi
  simp only [Nat.zero_add] at this
  rw [r2 j hj i hi, m2 j hj i hi, this]

end Qrcp
end Hif
