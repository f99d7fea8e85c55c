import Verif.PrecTran
import Verif.History
import Mathlib.Tactic.LinearCombination

set_option linter.unusedSectionVars false
set_option linter.unusedVariables false
set_option linter.unusedSimpArgs false

/-!
# The preconditioner as a fixed linear operator (helpers for `Props/PrecFixed.lean`)

The last block need not be invertible here: the dense solver is any operation that multiplies by a fixed matrix `T` (for a truncated rank, `T` is singular).
-/

namespace Hif.Spec
open Finset
section alg
variable {K : Type _} [Field K]

/-- As `Applies` (`x` results from `b`), but the last block multiplies by `T` instead of solving with a matrix. -/
def Gives (T : Nat → Nat → K) : List (Level K) → Nat → (Nat → K) → (Nat → K) → Prop
  | [], k, x, b => ∀ i, i < k → x i = mulVec k T b i
  | v :: rest, _, x, b =>
    (∀ i, i < v.m → ldu v.m v.L v.d v.U (fun j => x (v.q j) / v.t (v.q j)) i +
      mulVec (v.n - v.m) v.F (fun j => x (v.q (v.m + j)) / v.t (v.q (v.m + j))) i = v.s (v.p i) * b (v.p i)) ∧
    ∃ z g, (∀ i, i < v.m → ldu v.m v.L v.d v.U z i = v.s (v.p i) * b (v.p i)) ∧
      Gives T rest (v.n - v.m) (fun j => x (v.q (v.m + j)) / v.t (v.q (v.m + j))) g ∧
      ∀ i, i < v.n - v.m → mulVec v.m v.E z i + g i = v.s (v.p (v.m + i)) * b (v.p (v.m + i))

theorem Gives.congr {T : Nat → Nat → K} {kf : Nat} : ∀ {lvs : List (Level K)} {k : Nat}, Chain lvs k kf →
    ∀ {x x' b b' : Nat → K}, Gives T lvs k x b → (∀ i, i < k → x i = x' i) → (∀ i, i < k → b i = b' i) →
    Gives T lvs k x' b'
  | [], k, _, x, x', b, b', h, hx, hb => fun i hi => by
    rw [← hx i hi, h i hi]; subst_vars; exact mulVec_congr' hb i
  | v :: rest, k, ⟨hn, ok, hc⟩, x, x', b, b', ⟨h1, z, g, h2, h3, h4⟩, hx, hb => by
    subst hn
    have hle := ok.le
    have ex : ∀ j, j < v.n → x (v.q j) / v.t (v.q j) = x' (v.q j) / v.t (v.q j) := fun j hj => by
      rw [hx _ (ok.q_perm.1 j hj)]
    have eb : ∀ j, j < v.n → v.s (v.p j) * b (v.p j) = v.s (v.p j) * b' (v.p j) := fun j hj => by
      rw [hb _ (ok.p_perm.1 j hj)]
    refine ⟨fun i hi => ?_, z, g, fun i hi => ?_, ?_, fun i hi => ?_⟩
    · rw [← eb i (by omega), ← h1 i hi]
      congr 1
      · exact ldu_congr (fun c hc => (ex c (by omega)).symm) hi
      · exact mulVec_congr' (fun c hc => (ex (v.m + c) (by omega)).symm) i
    · rw [← eb i (by omega)]; exact h2 i hi
    · exact Gives.congr hc h3 (fun i hi => ex (v.m + i) (by omega)) (fun _ _ => rfl)
    · rw [← eb _ (by omega)]; exact h4 i hi

/-- Solutions are determined by the right-hand side. -/
theorem Gives.unique_x {T : Nat → Nat → K} {kf : Nat} : ∀ {lvs : List (Level K)} {k : Nat},
    Chain lvs k kf → ∀ {x x' b b' : Nat → K}, Gives T lvs k x b → Gives T lvs k x' b' → (∀ i, i < k → b i = b' i) →
    ∀ i, i < k → x i = x' i
  | [], k, hk, x, x', b, b', h, h', hb => by
    have hk : k = kf := hk
    subst hk
    exact fun i hi => by rw [h i hi, h' i hi]; exact mulVec_congr' hb i
  | v :: rest, k, ⟨hn, ok, hc⟩, x, x', b, b', ⟨h1, z, g, h2, h3, h4⟩, ⟨h1', z', g', h2', h3', h4'⟩, hb => by
    subst hn
    have hle := ok.le
    have eb : ∀ j, j < v.n → v.s (v.p j) * b (v.p j) = v.s (v.p j) * b' (v.p j) := fun j hj => by
      rw [hb _ (ok.p_perm.1 j hj)]
    have ez : ∀ i, i < v.m → z i = z' i := ldu_inj ok.lower ok.upper ok.d_ne fun i hi => by
      rw [h2 i hi, h2' i hi, eb i (by omega)]
    have eg : ∀ i, i < v.n - v.m → g i = g' i := fun i hi => by
      have a := h4 i hi
      have b := h4' i hi
      rw [← eb _ (by omega), ← a, mulVec_congr' ez i] at b
      exact (add_left_cancel b).symm
    have e2 := Gives.unique_x hc h3 h3' eg
    have e1 : ∀ i, i < v.m → x (v.q i) / v.t (v.q i) = x' (v.q i) / v.t (v.q i) :=
      ldu_inj (x := fun i => x (v.q i) / v.t (v.q i)) (y := fun i => x' (v.q i) / v.t (v.q i)) ok.lower ok.upper ok.d_ne
        fun i hi => by
          have a := h1 i hi
          have b := h1' i hi
          rw [← eb i (by omega), ← a, mulVec_congr' e2 i] at b
          exact (add_right_cancel b).symm
    intro i hi
    obtain ⟨j, hj, rfl⟩ := isPerm_surj ok.q_perm hi
    have e : x (v.q j) / v.t (v.q j) = x' (v.q j) / v.t (v.q j) := by
      rcases Nat.lt_or_ge j v.m with c | c
      · exact e1 j c
      · have := e2 (j - v.m) (by omega)
        rwa [show v.m + (j - v.m) = j by omega] at this
    exact (div_left_inj' (ok.t_ne _ hi)).1 e

/-! ### linearity -/

theorem mulVec_lin (n : Nat) (T : Nat → Nat → K) (a c : K) (x y : Nat → K) (i : Nat) :
    mulVec n T (fun j => a * x j + c * y j) i = a * mulVec n T x i + c * mulVec n T y i := by
  unfold mulVec
  rw [mul_sum, mul_sum, ← sum_add_distrib]
  exact sum_congr rfl fun j _ => by ring

theorem ldu_lin (m : Nat) (L : Nat → Nat → K) (d : Nat → K) (U : Nat → Nat → K) (a c : K) (x y : Nat → K) (i : Nat) :
    ldu m L d U (fun j => a * x j + c * y j) i = a * ldu m L d U x i + c * ldu m L d U y i := by
  unfold ldu
  simp only [mulVec_lin]
  rw [show (fun j => d j * (a * x j + c * y j + (a * mulVec m U x j + c * mulVec m U y j))) =
    fun j => a * (d j * (x j + mulVec m U x j)) + c * (d j * (y j + mulVec m U y j)) from funext fun j => by ring, mulVec_lin]
  ring

/-- The operator is linear. -/
theorem Gives.lin {T : Nat → Nat → K} (a c : K) : ∀ {lvs : List (Level K)} {k : Nat} {x x' b b' : Nat → K},
    Gives T lvs k x b → Gives T lvs k x' b' → Gives T lvs k (fun j => a * x j + c * x' j) (fun j => a * b j + c * b' j)
  | [], k, x, x', b, b', h, h' => fun i hi => by
    beta_reduce
    rw [mulVec_lin, h i hi, h' i hi]
  | v :: rest, k, x, x', b, b', ⟨h1, z, g, h2, h3, h4⟩, ⟨h1', z', g', h2', h3', h4'⟩ => by
    have hx : ∀ j, (a * x j + c * x' j) / v.t j = a * (x j / v.t j) + c * (x' j / v.t j) := fun j => by ring
    refine ⟨fun i hi => ?_, fun j => a * z j + c * z' j, fun j => a * g j + c * g' j, fun i hi => ?_, ?_, fun i hi => ?_⟩
    · simp only [hx]
      rw [ldu_lin _ _ _ _ a c (fun j => x (v.q j) / v.t (v.q j)) (fun j => x' (v.q j) / v.t (v.q j)) i,
        mulVec_lin _ _ a c (fun j => x (v.q (v.m + j)) / v.t (v.q (v.m + j))) (fun j => x' (v.q (v.m + j)) / v.t (v.q (v.m + j))) i]
      linear_combination a * h1 i hi + c * h1' i hi
    · rw [ldu_lin]
      linear_combination a * h2 i hi + c * h2' i hi
    · simp only [hx]
      exact Gives.lin a c h3 h3'
    · rw [mulVec_lin]
      linear_combination a * h4 i hi + c * h4' i hi

theorem Gives.zero {T : Nat → Nat → K} : ∀ {lvs : List (Level K)} {k : Nat}, Gives T lvs k (fun _ => 0) (fun _ => 0)
  | [], k => fun i hi => by simp [mulVec]
  | v :: rest, k => by
    refine ⟨fun i hi => by simp [mulVec, ldu], fun _ => 0, fun _ => 0, fun i hi => by simp [mulVec, ldu], ?_, fun i hi => by simp [mulVec]⟩
    simp only [zero_div]
    exact Gives.zero

/-- If every right-hand side has a result, the results are the products with one matrix. -/
theorem Gives.matrix {T : Nat → Nat → K} {kf k : Nat} {lvs : List (Level K)} (hc : Chain lvs k kf)
    (he : ∀ b : Nat → K, ∃ x, Gives T lvs k x b) :
    ∃ W : Nat → Nat → K, ∀ x b, Gives T lvs k x b → ∀ i, i < k → x i = mulVec k W b i := by
  choose f hf using fun l : Nat => he fun j => if j = l then 1 else 0
  refine ⟨fun i l => f l i, fun x b h => ?_⟩
  have part : ∀ t, Gives T lvs k (fun i => ∑ l ∈ range t, b l * f l i) (fun j => ∑ l ∈ range t, b l * if j = l then 1 else 0) := by
    intro t
    induction t with
    | zero => simpa using Gives.zero
    | succ t ih =>
      have := ih.lin 1 (b t) (hf t)
      simp only [one_mul] at this
      simpa only [sum_range_succ] using this
  intro i hi
  have := Gives.unique_x hc h (part k) (fun j hj => ?_) i hi
  · rw [this]
    unfold mulVec
    exact sum_congr rfl fun l _ => mul_comm _ _
  · rw [sum_eq_single_of_mem j (mem_range.2 hj)]
    · simp
    · intro l _ hl
      rw [if_neg (Ne.symm hl), mul_zero]

end alg
section adj
variable {K : Type _} [Field K] [StarRing K]

/-- Adjointness: if `M x = b` and `M^H z = c` then `⟨z, b⟩ = ⟨c, x⟩`. -/
theorem Gives.adjoint {T : Nat → Nat → K} {kf : Nat} : ∀ {lvs : List (Level K)} {k : Nat},
    Chain lvs k kf → (∀ v ∈ lvs, (∀ i, star (v.s i) = v.s i) ∧ ∀ i, star (v.t i) = v.t i) →
    ∀ {x b z c : Nat → K}, Gives T lvs k x b → Gives (herm T) (lvs.map Level.adj) k z c →
    ip k z b = ip k c x
  | [], k, _, _, x, b, z, c, h, h' => by
    rw [ip_congr h' fun _ _ => rfl, ip_congr (u := c) (fun _ _ => rfl) h, ip_mulVec k k T c b]
  | v :: rest, k, ⟨hn, ok, hc⟩, hr, x, b, z, c, ⟨h1, u, g, h2, h3, h4⟩, ⟨h1', w, h, h2', h3', h4'⟩ => by
    subst hn
    have hle := ok.le
    simp only [Level.adj] at h1' h2' h3' h4'
    obtain ⟨hrs, hrt⟩ := hr v (by simp)
    rw [ip_perm ok.p_perm ok.s_ne hrs, ip_perm (u := c) (v := x) ok.q_perm (s := fun i => (v.t i)⁻¹)
      (fun i hi => inv_ne_zero (ok.t_ne i hi)) (fun i => by rw [star_inv₀, hrt])]
    simp only [div_inv_eq_mul, inv_mul_eq_div, mul_comm (c _)]
    have ih := Gives.adjoint hc (fun v hv => hr v (by simp [hv])) h3 h3'
    set xh := fun j => x (v.q j) / v.t (v.q j) with hxh
    set zh := fun j => z (v.p j) / v.s (v.p j) with hzh
    set bh := fun j => v.s (v.p j) * b (v.p j) with hbh
    set ch := fun j => v.t (v.q j) * c (v.q j) with hch
    set x2 := fun j => xh (v.m + j) with hx2
    set z2 := fun j => zh (v.m + j) with hz2
    rw [ip_split v.m v.n hle zh bh, ip_split v.m v.n hle ch xh]
    have A1 : ip v.m zh bh = ip v.m zh (ldu v.m v.L v.d v.U xh) + ip v.m zh (mulVec (v.n - v.m) v.F x2) := by
      rw [← ip_add_right]
      exact ip_congr (fun _ _ => rfl) fun i hi => (h1 i hi).symm
    have A2 : ip (v.n - v.m) z2 (fun i => bh (v.m + i)) = ip (v.n - v.m) z2 (mulVec v.m v.E u) + ip (v.n - v.m) z2 g := by
      rw [← ip_add_right]
      exact ip_congr (fun _ _ => rfl) fun i hi => (h4 i hi).symm
    have B1 : ip v.m ch xh = ip v.m (ldu v.m (herm v.U) (fun i => star (v.d i)) (herm v.L) zh) xh +
        ip v.m (mulVec (v.n - v.m) (herm v.E) z2) xh := by
      rw [← ip_add_left]
      exact ip_congr (fun i hi => (h1' i hi).symm) fun _ _ => rfl
    have B2 : ip (v.n - v.m) (fun i => ch (v.m + i)) x2 = ip (v.n - v.m) (mulVec v.m (herm v.F) w) x2 +
        ip (v.n - v.m) h x2 := by
      rw [← ip_add_left]
      exact ip_congr (fun i hi => (h4' i hi).symm) fun _ _ => rfl
    -- `B u = B x̂₁ + F x̂₂` and `B^H w = B^H ẑ₁ + E^H ẑ₂`
    have C1 : ∀ y, ip v.m y (ldu v.m v.L v.d v.U u) =
        ip v.m y (ldu v.m v.L v.d v.U xh) + ip v.m y (mulVec (v.n - v.m) v.F x2) := fun y => by
      rw [← ip_add_right]
      exact ip_congr (fun _ _ => rfl) fun i hi => (h2 i hi).trans (h1 i hi).symm
    have C2 : ∀ y, ip v.m (ldu v.m (herm v.U) (fun i => star (v.d i)) (herm v.L) w) y =
        ip v.m (ldu v.m (herm v.U) (fun i => star (v.d i)) (herm v.L) zh) y +
          ip v.m (mulVec (v.n - v.m) (herm v.E) z2) y := fun y => by
      rw [← ip_add_left]
      exact ip_congr (fun i hi => (h2' i hi).trans (h1' i hi).symm) fun _ _ => rfl
    have D1 := C1 zh
    have D2 := C1 w
    have D3 := C2 xh
    have D4 := C2 u
    simp only [← ip_ldu] at D3 D4 B1
    rw [A1, A2, B1, B2, ih, ip_mulVec _ _ v.E]
    rw [ip_mulVec _ _ v.F] at D2
    linear_combination D2 + D3 - D1 - D4
/-- Two relations that are defined everywhere and adjoint to each other multiply by a matrix and by its conjugate transpose. -/
theorem adjoint_pair {k : Nat} {R R' : (Nat → K) → (Nat → K) → Prop} (h : ∀ b, ∃ x, R x b) (h' : ∀ c, ∃ z, R' z c)
    (adj : ∀ x b z c, R x b → R' z c → ip k z b = ip k c x) :
    ∃ W : Nat → Nat → K, (∀ x b, R x b → ∀ i, i < k → x i = mulVec k W b i) ∧ ∀ z c, R' z c → ∀ i, i < k → z i = mulVec k (herm W) c i := by
  have e : ∀ i, i < k → ∀ u : Nat → K, ip k u (fun j => if j = i then 1 else 0) = star (u i) := fun i hi u => by
    unfold ip
    rw [sum_eq_single_of_mem i (mem_range.2 hi)]
    · simp
    · intro j _ hj
      beta_reduce
      rw [if_neg hj, mul_zero]
  have e' : ∀ i, i < k → ∀ u : Nat → K, ip k (fun j => if j = i then 1 else 0) u = u i := fun i hi u => by
    unfold ip
    rw [sum_eq_single_of_mem i (mem_range.2 hi)]
    · simp
    · intro j _ hj
      beta_reduce
      rw [if_neg hj, star_zero, zero_mul]
  choose f hf using fun i : Nat => h' fun j => if j = i then 1 else 0
  have hW : ∀ x b, R x b → ∀ i, i < k → x i = mulVec k (fun i l => star (f i l)) b i := fun x b hx i hi => by
    have := adj x b _ _ hx (hf i)
    rw [e' i hi] at this
    exact this.symm
  refine ⟨_, hW, fun z c hz i hi => ?_⟩
  obtain ⟨x, hx⟩ := h fun j => if j = i then 1 else 0
  have h1 := adj _ _ _ _ hx hz
  rw [ip_congr (u := c) (fun _ _ => rfl) (hW _ _ hx), ip_mulVec, e i hi, e i hi] at h1
  exact star_injective h1

end adj
end Hif.Spec

namespace Hif
open Finset Spec
variable {K : Type _} [Field K] [StarRing K]
namespace Prec

/-- What is asked of the dense solver of the last block, called with rank `r`: solving multiplies by the matrix `T`, solving with the transpose flag by its conjugate
transpose.  Nothing is asked of the matrix it was built from. -/
structure DenseFixed (r k : Nat) (T : Nat → Nat → K) (D : DenseOps K) : Prop where
  solve : ∀ y : Buf K, y.size = k → Runs (D.solve y r false) fun x => x.size = k ∧ ∀ i, i < k → x.get i = mulVec k T y.get i
  solveT : ∀ y : Buf K, y.size = k → Runs (D.solve y r true) fun x => x.size = k ∧ ∀ i, i < k → x.get i = mulVec k (herm T) y.get i

/-- The same for whichever dense solver is set. -/
def LastFix (r k : Nat) (T : Nat → Nat → K) : Last K → Prop
  | .none => k = 0
  | .dense D => DenseFixed r k T D
  | .symm D => (∀ i j, i < k → j < k → herm T i j = T i j) ∧
      ∀ y : Buf K, y.size = k → Runs (D.solve y r false) fun x => x.size = k ∧ ∀ i, i < k → x.get i = mulVec k T y.get i

/-- A complete preconditioner of dimension `k` with consistent invertible levels, whose final dense solver is fixed. -/
def Usable (r : Nat) (T : Nat → Nat → K) (kf : Nat) : List (Prec K) → Nat → Prop
  | [], _ => False
  | P :: rest, k => P.n = k ∧ P.OK ∧
      if P.isLast then rest = [] ∧ P.n - P.m = kf ∧ LastFix r kf T P.last else Usable r T kf rest (P.n - P.m)

theorem Usable.chain {r : Nat} {T : Nat → Nat → K} {kf : Nat} : ∀ {precs : List (Prec K)} {k : Nat},
    Usable r T kf precs k → Chain (precs.map toLevel) k kf
  | [], _, h => h.elim
  | P :: rest, k, ⟨h1, h2, h3⟩ => by
    refine ⟨h1, h2.level, ?_⟩
    split at h3
    · obtain ⟨rfl, h4, -⟩ := h3
      exact h4
    · exact Usable.chain h3

theorem last_fix {r kf : Nat} {T : Nat → Nat → K} {l : Last K} (h : LastFix r kf T l) (tran : Bool) (y : Buf K)
    (hy : y.size = kf) (hk : kf ≠ 0) :
    Runs (l.solve y r tran) fun x => x.size = kf ∧ ∀ i, i < kf → x.get i = mulVec kf (if tran then herm T else T) y.get i := by
  cases l with
  | none => exact absurd h hk
  | dense D =>
    cases tran with
    | false => exact h.solve y hy
    | true => exact h.solveT y hy
  | symm D =>
    refine (h.2 y hy).mono ?_
    rintro v ⟨h1, h2⟩
    refine ⟨h1, fun i hi => ?_⟩
    rw [h2 i hi]
    cases tran with
    | false => rfl
    | true =>
      unfold mulVec
      exact sum_congr rfl fun j hj => by
        have := h.1 i j hi (mem_range.1 hj)
        simp only [if_true, this]

theorem lastFix_runs {P : Prec K} (ok : P.OK) {r kf : Nat} {T : Nat → Nat → K} (hk : P.n - P.m = kf)
    (h : LastFix r kf T P.last) (tran : Bool) (y : Buf K) (hy : y.size = P.n) :
    Runs (P.lastSolve r tran y) fun x => x.size = P.n ∧
      ∀ i, i < kf → x.get (P.m + i) = mulVec kf (if tran then herm T else T) (fun j => y.get (P.m + j)) i := by
  unfold lastSolve
  have hle := ok.le
  simp only [runs_ite, runs_pure]
  split
  swap
  · rename_i h0
    exact ⟨hy, fun i hi => by omega⟩
  simp only [runs_bind, Buf.runs_win]
  refine ⟨by omega, ?_⟩
  have fin : ∀ v : Buf K, v.size = kf → ∀ i, i < kf → (y.put P.m v).get (P.m + i) = v.get i := fun v hv i hi => by
    rw [Buf.put_get, if_pos (by omega)]; congr 1; omega
  refine (last_fix h tran (Buf.mk (P.n - P.m) fun i => y.get (P.m + i)) hk (by omega)).mono ?_
  rintro v ⟨h1, h2⟩
  simp only [runs_pure]
  exact ⟨hy, fun i hi => by rw [fin v h1 i hi]; exact h2 i hi⟩

/-- Main lemma for `prec_solve`. -/
theorem solveFix_runs {r : Nat} {T : Nat → Nat → K} {kf : Nat} : ∀ {precs : List (Prec K)} {k : Nat}, Usable r T kf precs k →
    ∀ (b y work : Buf K), k ≤ b.size → y.size = k → workSpace precs ≤ work.size →
    Runs (solve r precs b y work) fun o => o.1.size = k ∧ o.2.size = work.size ∧
      Gives T (precs.map toLevel) k o.1.get b.get
  | [], _, h => h.elim
  | P :: rest, k, ⟨hk, ok, h3⟩ => by
    intro b y work hb hy hw
    subst hk
    have hle := ok.le
    have hwn : P.n + workSpace rest ≤ work.size := hw
    rw [solve]
    simp only [runs_bind]
    refine (fillRange_runs (Nat.zero_le _) (by omega) (fun i => P.s.get (P.p.get i) * b.get (P.p.get i)) ?_).mono ?_
    · intro i _ hi
      have hp := (ok.p_inv.1 i (by omega)).1
      exact mulAt_runs (lt_of_lt_of_le (by omega) ok.p_size) (lt_of_lt_of_le hp ok.s_size) (by omega)
    rintro w1 ⟨s1, l1⟩
    have hw1 : ∀ i, i < P.m → w1.get i = P.s.get (P.p.get i) * b.get (P.p.get i) := fun i hi => by
      rw [l1, if_pos (by omega)]
    refine (solveE_runs ok b y w1 hb (by omega) (by omega) hw1).mono ?_
    rintro ⟨w2, y2⟩ ⟨a1, a2, a3, a4, a5⟩
    simp only at a1 a2 a3 a4 a5
    -- the middle stage: solve with the Schur complement
    have mid : Runs (P.schurStage (P.lastSolve r false) (solve r rest) y2 w2) fun o => o.1.size = work.size ∧ o.2.size = P.n ∧
        (P.m = P.n → ∀ i, i < P.m → o.1.get i = w2.get i) ∧
        Gives T (rest.map toLevel) (P.n - P.m) (fun j => o.2.get (P.m + j)) (fun j => y2.get (P.m + j)) := by
      unfold schurStage
      simp only [runs_ite]
      split
      · rename_i hlast
        rw [if_pos hlast] at h3
        obtain ⟨rfl, hkf, hL⟩ := h3
        simp only [runs_bind, runs_pure]
        refine (lastFix_runs ok hkf hL false y2 (by omega)).mono ?_
        rintro y3 ⟨q1, q2⟩
        refine ⟨by omega, q1, fun _ _ _ => by tt, fun i hi => ?_⟩
        have := q2 i (by omega)
        rw [hkf]; exact this
      · rename_i hlast
        rw [if_neg hlast] at h3
        simp only [runs_bind, Buf.runs_win, Buf.runs_winTail]
        refine ⟨by omega, ?_⟩
        refine (fillRange_runs hle (by omega) y2.get ?_).mono ?_
        · intro i hi1 hi2
          simp only [runs_rd]
          exact ⟨by omega, by congr 1; omega⟩
        rintro w3 ⟨q1, q2⟩
        refine ⟨by omega, by omega, ?_⟩
        refine (solveFix_runs h3 _ _ _ (le_refl _) rfl (by show workSpace rest ≤ w3.size - P.n; omega)).mono ?_
        rintro ⟨x, w4⟩ ⟨r1, r2, r3⟩
        simp only [runs_pure, Buf.put_size]
        refine ⟨by omega, by omega, fun c i hi => ?_, ?_⟩
        · rw [Buf.put_get, if_neg (by omega), q2, if_neg (by omega)]
        · refine Gives.congr (Usable.chain h3) r3 (fun i hi => ?_) fun i hi => ?_
          · have r1 : x.size = P.n - P.m := r1
            simp only
            rw [Buf.put_get, if_pos (by omega)]; congr 1; omega
          · simp only
            rw [q2, if_pos (by omega)]
    refine mid.mono ?_
    rintro ⟨w3, y3⟩ ⟨c1, c2, c3, c4⟩
    simp only at c1 c2 c3 c4
    refine (solveF_runs ok b y3 w3 hb c2 (by omega) (fun e i hi => by rw [c3 e i hi, a4 e, hw1 i hi])).mono ?_
    rintro w4 ⟨d1, d2, d3⟩
    refine (fillRange_runs (Nat.zero_le _) (by show P.n ≤ y3.size; omega) (fun i => P.t.get i * w4.get (P.qinv.get i)) ?_).mono ?_
    · intro i _ hi
      have hq := (ok.q_inv.2 i hi).1
      have := ok.qinv_size
      have := ok.t_size
      simp only [runs_bind, runs_rd, runs_pure]
      exact ⟨by omega, by omega, by omega, by tt⟩
    rintro y4 ⟨e1, e2⟩
    simp only [runs_pure]
    refine ⟨e1.trans c2, by omega, ?_⟩
    -- the permuted and scaled solution is the final work vector
    have hx : ∀ j, j < P.n → y4.get (P.q.get j) / P.t.get (P.q.get j) = w4.get j := fun j hj => by
      have hq := ok.q_inv.1 j hj
      rw [e2, if_pos ⟨Nat.zero_le _, hq.1⟩, hq.2, mul_div_cancel_left₀ _ (ok.t_ne _ hq.1)]
    have hx2 : ∀ j, j < P.n - P.m → y4.get (P.q.get (P.m + j)) / P.t.get (P.q.get (P.m + j)) = y3.get (P.m + j) := fun j hj => by
      rw [hx _ (by omega), d3 j hj]
    have key1 : ∀ i, i < P.m → ldu P.m P.L.ccs P.d.get P.U.ccs (fun j => y4.get (P.q.get j) / P.t.get (P.q.get j)) i +
        mulVec (P.n - P.m) P.F.ccs (fun j => y4.get (P.q.get (P.m + j)) / P.t.get (P.q.get (P.m + j))) i =
        P.s.get (P.p.get i) * b.get (P.p.get i) := by
      intro i hi
      rw [ldu_congr (fun c hc => hx c (by omega)) hi, mulVec_congr' hx2 i]
      exact d2 i hi
    have chain : Chain (rest.map toLevel) (P.n - P.m) kf := by
      split at h3
      · obtain ⟨rfl, h4, -⟩ := h3
        exact h4
      · exact Usable.chain h3
    have key3 : Gives T (rest.map toLevel) (P.n - P.m)
        (fun j => y4.get (P.q.get (P.m + j)) / P.t.get (P.q.get (P.m + j))) (fun j => y2.get (P.m + j)) :=
      Gives.congr chain c4 (fun i hi => (hx2 i hi).symm) (fun _ _ => rfl)
    rcases Nat.lt_or_ge P.m P.n with hmn | hmn
    · exact ⟨key1, w2.get, _, (a5 hmn).1, key3, (a5 hmn).2⟩
    · refine ⟨key1, w4.get, _, fun i hi => ?_, key3, fun i hi => ?_⟩
      · have := d2 i hi
        rw [show P.n - P.m = 0 by omega] at this
        simp only [mulVec, range_zero, sum_empty, add_zero] at this
        exact this
      · have : i < P.n - P.m := hi
        omega

/-- Main lemma for `prec_solve_tran`. -/
theorem solveTFix_runs {r : Nat} {T : Nat → Nat → K} {kf : Nat} : ∀ {precs : List (Prec K)} {k : Nat}, Usable r T kf precs k →
    ∀ (b y work : Buf K), k ≤ b.size → y.size = k → workSpace precs ≤ work.size →
    Runs (solveT r precs b y work) fun o => o.1.size = k ∧ o.2.size = work.size ∧
      Gives (herm T) ((precs.map toLevel).map Level.adj) k o.1.get b.get
  | [], _, h => h.elim
  | P :: rest, k, ⟨hk, ok, h3⟩ => by
    intro b y work hb hy hw
    subst hk
    have hle := ok.le
    have hwn : P.n + workSpace rest ≤ work.size := hw
    rw [solveT]
    simp only [runs_bind]
    refine (fillRange_runs (Nat.zero_le _) (by omega) (fun i => P.t.get (P.q.get i) * b.get (P.q.get i)) ?_).mono ?_
    · intro i _ hi
      have hp := (ok.q_inv.1 i (by omega)).1
      exact mulAt_runs (lt_of_lt_of_le (by omega) ok.q_size) (lt_of_lt_of_le hp ok.t_size) (by omega)
    rintro w1 ⟨s1, l1⟩
    have hw1 : ∀ i, i < P.m → w1.get i = P.t.get (P.q.get i) * b.get (P.q.get i) := fun i hi => by
      rw [l1, if_pos (by omega)]
    refine (solveTF_runs ok b y w1 hb (by omega) (by omega) hw1).mono ?_
    rintro ⟨w2, y2⟩ ⟨a1, a2, a5⟩
    simp only at a1 a2 a5
    -- the middle stage: solve with the Schur complement
    have mid : Runs (P.schurStage (P.lastSolve r true) (solveT r rest) y2 w2) fun o => o.1.size = work.size ∧ o.2.size = P.n ∧
        Gives (herm T) ((rest.map toLevel).map Level.adj) (P.n - P.m) (fun j => o.2.get (P.m + j))
          (fun j => y2.get (P.m + j)) := by
      unfold schurStage
      simp only [runs_ite]
      split
      · rename_i hlast
        rw [if_pos hlast] at h3
        obtain ⟨rfl, hkf, hL⟩ := h3
        simp only [runs_bind, runs_pure]
        refine (lastFix_runs ok hkf hL true y2 (by omega)).mono ?_
        rintro y3 ⟨q1, q2⟩
        refine ⟨by omega, q1, fun i hi => ?_⟩
        have := q2 i (by omega)
        rw [hkf]; exact this
      · rename_i hlast
        rw [if_neg hlast] at h3
        simp only [runs_bind, Buf.runs_win, Buf.runs_winTail]
        refine ⟨by omega, ?_⟩
        refine (fillRange_runs hle (by omega) y2.get ?_).mono ?_
        · intro i hi1 hi2
          simp only [runs_rd]
          exact ⟨by omega, by congr 1; omega⟩
        rintro w3 ⟨q1, q2⟩
        refine ⟨by omega, by omega, ?_⟩
        refine (solveTFix_runs h3 _ _ _ (le_refl _) rfl (by show workSpace rest ≤ w3.size - P.n; omega)).mono ?_
        rintro ⟨x, w4⟩ ⟨r1, r2, r3⟩
        simp only [runs_pure, Buf.put_size]
        refine ⟨by omega, by omega, ?_⟩
        · refine Gives.congr (adj_chain (Usable.chain h3)) r3 (fun i hi => ?_) fun i hi => ?_
          · have r1 : x.size = P.n - P.m := r1
            simp only
            rw [Buf.put_get, if_pos (by omega)]; congr 1; omega
          · simp only
            rw [q2, if_pos (by omega)]
    refine mid.mono ?_
    rintro ⟨w3, y3⟩ ⟨c1, c2, c4⟩
    simp only at c1 c2 c4
    refine (solveTE_runs ok b y3 w3 hb c2 (by omega)).mono ?_
    rintro w4 ⟨d1, d2, d3⟩
    refine (fillRange_runs (Nat.zero_le _) (by show P.n ≤ y3.size; omega) (fun i => P.s.get i * w4.get (P.pinv.get i)) ?_).mono ?_
    · intro i _ hi
      have hq := (ok.p_inv.2 i hi).1
      have := ok.pinv_size
      have := ok.s_size
      simp only [runs_bind, runs_rd, runs_pure]
      exact ⟨by omega, by omega, by omega, by tt⟩
    rintro y4 ⟨e1, e2⟩
    simp only [runs_pure]
    refine ⟨e1.trans c2, by omega, ?_⟩
    -- the permuted and scaled solution is the final work vector
    have hx : ∀ j, j < P.n → y4.get (P.p.get j) / P.s.get (P.p.get j) = w4.get j := fun j hj => by
      have hq := ok.p_inv.1 j hj
      rw [e2, if_pos ⟨Nat.zero_le _, hq.1⟩, hq.2, mul_div_cancel_left₀ _ (ok.s_ne _ hq.1)]
    have hx2 : ∀ j, j < P.n - P.m → y4.get (P.p.get (P.m + j)) / P.s.get (P.p.get (P.m + j)) = y3.get (P.m + j) := fun j hj => by
      rw [hx _ (by omega), d3 j hj]
    have key1 : ∀ i, i < P.m → ldu P.m (herm P.U.ccs) (fun i => star (P.d.get i)) (herm P.L.ccs)
          (fun j => y4.get (P.p.get j) / P.s.get (P.p.get j)) i +
        mulVec (P.n - P.m) (herm P.E.ccs) (fun j => y4.get (P.p.get (P.m + j)) / P.s.get (P.p.get (P.m + j))) i =
        P.t.get (P.q.get i) * b.get (P.q.get i) := by
      intro i hi
      rw [ldu_congr (fun c hc => hx c (by omega)) hi, mulVec_congr' hx2 i]
      exact d2 i hi
    have chain : Chain (rest.map toLevel) (P.n - P.m) kf := by
      split at h3
      · obtain ⟨rfl, h4, -⟩ := h3
        exact h4
      · exact Usable.chain h3
    have key3 : Gives (herm T) ((rest.map toLevel).map Level.adj) (P.n - P.m)
        (fun j => y4.get (P.p.get (P.m + j)) / P.s.get (P.p.get (P.m + j))) (fun j => y2.get (P.m + j)) :=
      Gives.congr (adj_chain chain) c4 (fun i hi => (hx2 i hi).symm) (fun _ _ => rfl)
    rcases Nat.lt_or_ge P.m P.n with hmn | hmn
    · exact ⟨key1, w2.get, _, (a5 hmn).1, key3, (a5 hmn).2⟩
    · refine ⟨key1, w4.get, _, fun i hi => ?_, key3, fun i hi => ?_⟩
      · have := d2 i hi
        rw [show P.n - P.m = 0 by omega] at this
        simp only [mulVec, range_zero, sum_empty, add_zero] at this
        exact this
      · have : i < P.n - P.m := hi
        omega

end Prec

namespace HIF
open HM

/-- The calls that apply the preconditioner: everything but setup and changing the filters. -/
def Call.applies : Call K → Prop
  | .factorize .. | .clear | .setFilters .. => False
  | .solveMrhs N .. => 1 ≤ N
  | _ => True

/-- An invariant that does not look at the work space. -/
def IgnoresWork (I : HIF K → Prop) : Prop := ∀ h w, I h → I { h with work := w }

section keeps
variable {I : HIF K → Prop} (hI : IgnoresWork I) (junk : Nat → K)
include hI

theorem same_ensureWork (W : Nat) : Keeps I (ensureWork junk W) := by
  intro h hi
  unfold ensureWork
  split
  · exact hI h _ hi
  · exact hi

theorem same_withWork {α : Type _} (f : Buf K → M (α × Buf K)) (w : Buf K) : Keeps I (withWork f w) := by
  intro h hi
  unfold withWork
  split
  · exact hI h _ hi
  · exact hi

theorem same_solve (b x : Buf K) (t : Bool) (r : Nat) : Keeps I (solve junk b x t r) := by
  unfold solve
  exact keeps_bind keeps_read fun h => keeps_ite (keeps_fail _) (keeps_ite (keeps_fail _)
    (keeps_bind (same_ensureWork hI junk _) fun w => keeps_bind (same_withWork hI _ w) fun y => keeps_lift _))

theorem same_mmultiply (b x : Buf K) (t : Bool) (r : Nat) : Keeps I (mmultiply junk b x t r) := by
  unfold mmultiply
  exact keeps_bind keeps_read fun h => keeps_ite (keeps_fail _) (keeps_ite (keeps_fail _)
    (keeps_bind (same_ensureWork hI junk _) fun w => same_withWork hI _ w))

theorem same_solveMrhs (N : Nat) (b x : Buf K) (r : Nat) : Keeps I (solveMrhs junk N b x r) := by
  unfold solveMrhs
  exact keeps_bind keeps_read fun h => keeps_ite (keeps_fail _) (keeps_ite (keeps_fail _) (keeps_ite (keeps_fail _)
    (keeps_bind (same_ensureWork hI junk _) fun w => same_withWork hI _ w)))

theorem same_hifir (A : Operator K) (b : Buf K) (n : Nat) (x : Buf K) (t : Bool) (r : Nat) : Keeps I (hifir junk A b n x t r) := by
  unfold hifir
  refine keeps_ite (same_solve hI _ _ _ _ _) (keeps_bind keeps_read fun h => keeps_ite (keeps_fail _) ?_)
  refine keeps_bind (keeps_lift _) fun x => keeps_bind (keeps_loop (fun i s => ?_) _ _ _) fun s => keeps_pure _
  unfold irStep
  exact keeps_bind (keeps_lift _) fun _ => keeps_bind (keeps_lift _) fun _ => keeps_bind (same_solve hI _ _ _ _ _) fun _ =>
    keeps_bind (keeps_lift _) fun _ => keeps_pure _

theorem same_irbUpdate (b : Buf K) (t : Bool) (r : Nat) (s : Buf K × Buf K × Buf K) : Keeps I (irbUpdate junk b t r s) := by
  unfold irbUpdate
  exact keeps_bind (same_solve hI _ _ _ _ _) fun _ => keeps_bind (keeps_lift _) fun _ => keeps_pure _

theorem same_irbLoop {R : Type _} [LinearOrder R] [Zero R] [Div R] (A : Operator K) (b : Buf K) (norm : Buf K → R) (bnorm β₀ β₁ : R)
    (t : Bool) (r : Nat) : ∀ fuel it s, Keeps I (irbLoop junk A b norm bnorm β₀ β₁ t r fuel it s)
  | 0, it, s => by
    unfold irbLoop
    exact keeps_bind (same_irbUpdate hI _ _ _ _ _) fun _ => keeps_pure _
  | fuel + 1, it, s => by
    unfold irbLoop
    exact keeps_bind (same_irbUpdate hI _ _ _ _ _) fun _ => keeps_bind (keeps_lift _) fun _ => keeps_ite (keeps_pure _)
      (keeps_ite (keeps_pure _) (same_irbLoop _ _ _ _ _ _ _ _ _ _ _))

theorem same_hifirBounded {R : Type _} [LinearOrder R] [Zero R] [Div R] (A : Operator K) (norm : Buf K → R) (b : Buf K) (n : Nat)
    (β₀ β₁ : R) (x : Buf K) (t : Bool) (r : Nat) : Keeps I (hifirBounded junk A norm b n β₀ β₁ x t r) := by
  unfold hifirBounded
  refine keeps_ite (keeps_bind (same_solve hI _ _ _ _ _) fun _ => keeps_pure _)
    (keeps_ite (keeps_bind (keeps_lift _) fun _ => keeps_pure _) (keeps_bind keeps_read fun h => keeps_ite (keeps_fail _) ?_))
  exact keeps_bind (keeps_lift _) fun _ => keeps_bind (keeps_lift _) fun _ => same_irbLoop hI _ _ _ _ _ _ _ _ _ _ _ _

theorem same_exec (c : Call K) (hc : c.applies) (h : HIF K) (hh : I h) : I (c.exec junk h) := by
  cases c with
  | factorize => exact hc.elim
  | clear => exact hc.elim
  | setFilters => exact hc.elim
  | solve b x t r => exact same_solve hI junk b x t r h hh
  | mmultiply x y t r => exact same_mmultiply hI junk x y t r h hh
  | hifir A b n x t r => exact same_hifir hI junk A b n x t r h hh
  | hifirBounded A nm b n b0 b1 x t r => exact same_hifirBounded hI junk A nm b n b0 b1 x t r h hh
  | solveMrhs n b x r => exact same_solveMrhs hI junk n b x r h hh

theorem same_run : ∀ (cs : List (Call K)), (∀ c ∈ cs, c.applies) → ∀ h : HIF K, I h → I (run junk h cs)
  | [], _, h, hh => hh
  | c :: cs, hc, h, hh => same_run cs (fun c' h' => hc c' (by simp [h'])) _ (same_exec hI junk c (hc c (by simp)) h hh)
end keeps

theorem usable_ne_nil {r : Nat} {T : Nat → Nat → K} {kf : Nat} {precs : List (Prec K)} {k : Nat}
    (h : Prec.Usable r T kf precs k) : precs ≠ [] := by
  rintro rfl; exact h

/-- What `solve` does without a filter, whatever the last block. -/
theorem solveFix_does {junk : Nat → K} {h : HIF K} {r : Nat} {T : Nat → Nat → K} {kf k : Nat} (hg : Prec.Usable r T kf h.precs k)
    (hr : Ready h) (trans : Bool) (hn : (if trans then h.nspTran else h.nsp) = none) (b x : Buf K)
    (hb : b.size = k) (hx : x.size = k) :
    Does (solve junk b x trans r) h fun h' y => (∃ w, Prec.workSpace h.precs ≤ w.size ∧ h' = { h with work := w }) ∧
      y.size = k ∧ if trans then Gives (herm T) ((h.precs.map Prec.toLevel).map Level.adj) k y.get b.get
        else Gives T (h.precs.map Prec.toLevel) k y.get b.get := by
  unfold solve
  rw [does_bind, does_read]
  have he : h.empty = false := by
    unfold empty
    cases hp : h.precs with
    | nil => exact absurd hp (usable_ne_nil hg)
    | cons => rfl
  simp only [he, Bool.false_eq_true, if_false]
  rw [if_neg (by omega), does_bind]
  refine ensureWork_does junk h hr fun w hw => ?_
  rw [does_bind]
  refine withWork_does _ _ _ ?_
  have run : Runs (if trans = true then Prec.solveT r h.precs b x w else Prec.solve r h.precs b x w) fun o =>
      o.1.size = k ∧ o.2.size = w.size ∧
      if trans then Gives (herm T) ((h.precs.map Prec.toLevel).map Level.adj) k o.1.get b.get
        else Gives T (h.precs.map Prec.toLevel) k o.1.get b.get := by
    cases trans with
    | false => exact Prec.solveFix_runs hg b x w (by omega) hx hw
    | true => exact Prec.solveTFix_runs hg b x w (by omega) hx hw
  refine run.mono ?_
  rintro ⟨y, w'⟩ ⟨h1, h2, h3⟩
  have hf : h.applyFilter trans y = .ok y := by
    unfold applyFilter
    cases trans
    · have : h.nsp = none := hn
      simp [this]; rfl
    · have : h.nspTran = none := hn
      simp [this]; rfl
  rw [does_lift, hf, runs_ok]
  have h2 : w'.size = w.size := h2
  exact ⟨⟨⟨w.size, w'.get⟩, hw, rfl⟩, h1, h3⟩

end HIF
end Hif
