import Verif.Props.TriSolve
import Mathlib.Algebra.Field.Basic
import Mathlib.Algebra.Star.BigOperators
import Mathlib.Tactic.LinearCombination
import Mathlib.Tactic.FieldSimp

set_option linter.unusedSectionVars false
set_option linter.unusedVariables false

/-!
# Specification of the multilevel operator, and its algebra

One level with leading block size `m`, system size `n` stands for the matrix `M` with
`(diag(s) M diag(t))` permuted by `p`, `q` equal to the block matrix

    [ B      F           ]        B = (I+L) D (I+U)
    [ E   E B⁻¹ F + S    ]

where `S` is the operator of the next level (or the dense matrix after the last level).
-/

namespace Hif.Spec
open Finset
variable {K : Type _}

/-- The data of one level as mathematical objects. -/
structure Level (K : Type _) where
  m : Nat
  n : Nat
  L : Nat → Nat → K
  U : Nat → Nat → K
  E : Nat → Nat → K
  F : Nat → Nat → K
  d : Nat → K
  s : Nat → K
  t : Nat → K
  p : Nat → Nat
  q : Nat → Nat

/-- `((I+L) D (I+U) v)_i`. -/
def ldu [CommRing K] (m : Nat) (L : Nat → Nat → K) (d : Nat → K) (U : Nat → Nat → K) (v : Nat → K) (i : Nat) : K :=
  d i * (v i + mulVec m U v i) + mulVec m L (fun j => d j * (v j + mulVec m U v j)) i

/-- `M x = b` for the operator of the given levels (dimension `k`), with dense matrix `S` after the last level. -/
def Applies [Field K] (S : Nat → Nat → K) : List (Level K) → Nat → (Nat → K) → (Nat → K) → Prop
  | [], k, x, b => ∀ i, i < k → mulVec k S x i = b i
  | v :: rest, _, x, b =>
    (∀ i, i < v.m → ldu v.m v.L v.d v.U (fun j => x (v.q j) / v.t (v.q j)) i +
      mulVec (v.n - v.m) v.F (fun j => x (v.q (v.m + j)) / v.t (v.q (v.m + j))) i = v.s (v.p i) * b (v.p i)) ∧
    ∃ z g, (∀ i, i < v.m → ldu v.m v.L v.d v.U z i = v.s (v.p i) * b (v.p i)) ∧
      Applies S rest (v.n - v.m) (fun j => x (v.q (v.m + j)) / v.t (v.q (v.m + j))) g ∧
      ∀ i, i < v.n - v.m → mulVec v.m v.E z i + g i = v.s (v.p (v.m + i)) * b (v.p (v.m + i))

/-- What makes a level's operator meaningful and invertible. -/
structure LevelOK [Field K] (v : Level K) : Prop where
  le : v.m ≤ v.n
  lower : StrictLower v.m v.L
  upper : StrictUpper v.m v.U
  d_ne : ∀ i, i < v.m → v.d i ≠ 0
  s_ne : ∀ i, i < v.n → v.s i ≠ 0
  t_ne : ∀ i, i < v.n → v.t i ≠ 0
  p_perm : IsPerm v.n v.p
  q_perm : IsPerm v.n v.q

/-- Levels fit together: each level's size is the size of the previous level's Schur complement; `kf` is the size of the
final dense block. -/
def Chain [Field K] : List (Level K) → Nat → Nat → Prop
  | [], k, kf => k = kf
  | v :: rest, k, kf => v.n = k ∧ LevelOK v ∧ Chain rest (v.n - v.m) kf

/-- The `k × k` matrix `S` is injective. -/
def Injective [Field K] (k : Nat) (S : Nat → Nat → K) : Prop :=
  ∀ x y : Nat → K, (∀ i, i < k → mulVec k S x i = mulVec k S y i) → ∀ i, i < k → x i = y i

/-! ### algebra -/

section alg
variable [Field K]

theorem mulVec_congr' {n : Nat} {T : Nat → Nat → K} {x y : Nat → K} (h : ∀ c, c < n → x c = y c) (i : Nat) :
    mulVec n T x i = mulVec n T y i := CS.mulVec_congr fun c hc => Or.inr (h c hc)

theorem ldu_congr {m : Nat} {L U : Nat → Nat → K} {d : Nat → K} {x y : Nat → K} (h : ∀ c, c < m → x c = y c)
    {i : Nat} (hi : i < m) : ldu m L d U x i = ldu m L d U y i := by
  unfold ldu
  rw [h i hi, mulVec_congr' h i]
  congr 1
  exact mulVec_congr' (fun c hc => by rw [h c hc, mulVec_congr' h c]) i

theorem ldu_inj {m : Nat} {L U : Nat → Nat → K} {d : Nat → K} (hL : StrictLower m L) (hU : StrictUpper m U)
    (hd : ∀ i, i < m → d i ≠ 0) {x y : Nat → K} (h : ∀ i, i < m → ldu m L d U x i = ldu m L d U y i) :
    ∀ i, i < m → x i = y i := by
  have h1 : ∀ i, i < m → d i * (x i + mulVec m U x i) = d i * (y i + mulVec m U y i) :=
    Props.solvesUnit_lower_unique (K := K) (n := m) (T := L) (b := ldu m L d U x) hL (fun i hi => rfl)
      (fun i hi => by rw [h i hi]; rfl)
  have h2 : ∀ i, i < m → x i + mulVec m U x i = y i + mulVec m U y i := fun i hi => mul_left_cancel₀ (hd i hi) (h1 i hi)
  exact Props.solvesUnit_upper_unique (K := K) (n := m) (T := U) (b := fun i => x i + mulVec m U x i) hU (fun i hi => rfl)
    (fun i hi => (h2 i hi).symm)

theorem isPerm_surj {n : Nat} {f : Nat → Nat} (h : IsPerm n f) {j : Nat} (hj : j < n) : ∃ i, i < n ∧ f i = j := by
  have hinj : Set.InjOn f (range n) := fun a ha b hb hab => by
    have ha' := mem_range.1 (mem_coe.1 ha)
    have hb' := mem_range.1 (mem_coe.1 hb)
    exact h.2 a b ha' hb' hab
  have hmap : ∀ a ∈ range n, f a ∈ range n := fun a ha => mem_range.2 (h.1 a (mem_range.1 ha))
  obtain ⟨i, hi, e⟩ := surj_on_of_inj_on_of_card_le (s := range n) (t := range n) (fun a _ => f a) hmap
    (fun a b ha hb e => hinj (mem_coe.2 ha) (mem_coe.2 hb) e) (le_refl _) j (mem_range.2 hj)
  exact ⟨i, mem_range.1 hi, e.symm⟩

theorem sum_isPerm {n : Nat} {f : Nat → Nat} (h : IsPerm n f) (g : Nat → K) :
    ∑ i ∈ range n, g (f i) = ∑ i ∈ range n, g i := by
  refine sum_bij (fun a _ => f a) (fun a ha => mem_range.2 (h.1 a (mem_range.1 ha))) ?_ ?_ (fun _ _ => rfl)
  · exact fun a ha b hb e => h.2 a b (mem_range.1 ha) (mem_range.1 hb) e
  · intro b hb
    obtain ⟨i, hi, e⟩ := isPerm_surj h (mem_range.1 hb)
    exact ⟨i, mem_range.2 hi, e⟩

/-- The operator relation only looks at the first `k` components. -/
theorem Applies.congr {S : Nat → Nat → K} {kf : Nat} : ∀ {lvs : List (Level K)} {k : Nat}, Chain lvs k kf →
    ∀ {x x' b b' : Nat → K}, Applies S lvs k x b → (∀ i, i < k → x i = x' i) → (∀ i, i < k → b i = b' i) →
    Applies S lvs k x' b'
  | [], k, _, x, x', b, b', h, hx, hb => fun i hi => by
    rw [← hb i hi, ← h i hi]; exact mulVec_congr' (fun c hc => (hx c hc).symm) i
  | v :: rest, k, ⟨hn, ok, hc⟩, x, x', b, b', ⟨h1, z, g, h2, h3, h4⟩, hx, hb => by
    subst hn
    have hle := ok.le
    have ex : ∀ j, j < v.n → x (v.q j) / v.t (v.q j) = x' (v.q j) / v.t (v.q j) := fun j hj => by
      rw [hx _ (ok.q_perm.1 j hj)]
    have eb : ∀ j, j < v.n → v.s (v.p j) * b (v.p j) = v.s (v.p j) * b' (v.p j) := fun j hj => by
      rw [hb _ (ok.p_perm.1 j hj)]
    refine ⟨fun i hi => ?_, z, g, fun i hi => ?_, ?_, fun i hi => ?_⟩
    · rw [← eb i (by omega), ← h1 i hi]
      congr 1
      · exact ldu_congr (fun c hc => (ex c (by omega)).symm) hi
      · exact mulVec_congr' (fun c hc => (ex (v.m + c) (by omega)).symm) i
    · rw [← eb i (by omega)]; exact h2 i hi
    · exact Applies.congr hc h3 (fun i hi => ex (v.m + i) (by omega)) (fun _ _ => rfl)
    · rw [← eb _ (by omega)]; exact h4 i hi

/-- Solutions are determined by the right-hand side. -/
theorem Applies.unique_x {S : Nat → Nat → K} {kf : Nat} (hS : Injective kf S) : ∀ {lvs : List (Level K)} {k : Nat},
    Chain lvs k kf → ∀ {x x' b b' : Nat → K}, Applies S lvs k x b → Applies S lvs k x' b' → (∀ i, i < k → b i = b' i) →
    ∀ i, i < k → x i = x' i
  | [], k, hk, x, x', b, b', h, h', hb => by
    have hk : k = kf := hk
    subst hk
    exact hS x x' fun i hi => by rw [h i hi, h' i hi, hb i hi]
  | v :: rest, k, ⟨hn, ok, hc⟩, x, x', b, b', ⟨h1, z, g, h2, h3, h4⟩, ⟨h1', z', g', h2', h3', h4'⟩, hb => by
    subst hn
    have hle := ok.le
    have eb : ∀ j, j < v.n → v.s (v.p j) * b (v.p j) = v.s (v.p j) * b' (v.p j) := fun j hj => by
      rw [hb _ (ok.p_perm.1 j hj)]
    have ez : ∀ i, i < v.m → z i = z' i := ldu_inj ok.lower ok.upper ok.d_ne fun i hi => by
      rw [h2 i hi, h2' i hi, eb i (by omega)]
    have eg : ∀ i, i < v.n - v.m → g i = g' i := fun i hi => by
      have a := h4 i hi
      have b := h4' i hi
      rw [← eb _ (by omega), ← a, mulVec_congr' ez i] at b
      exact (add_left_cancel b).symm
    have e2 := Applies.unique_x hS hc h3 h3' eg
    have e1 : ∀ i, i < v.m → x (v.q i) / v.t (v.q i) = x' (v.q i) / v.t (v.q i) :=
      ldu_inj (x := fun i => x (v.q i) / v.t (v.q i)) (y := fun i => x' (v.q i) / v.t (v.q i)) ok.lower ok.upper ok.d_ne
        fun i hi => by
          have a := h1 i hi
          have b := h1' i hi
          rw [← eb i (by omega), ← a, mulVec_congr' e2 i] at b
          exact (add_right_cancel b).symm
    intro i hi
    obtain ⟨j, hj, rfl⟩ := isPerm_surj ok.q_perm hi
    have e : x (v.q j) / v.t (v.q j) = x' (v.q j) / v.t (v.q j) := by
      rcases Nat.lt_or_ge j v.m with c | c
      · exact e1 j c
      · have := e2 (j - v.m) (by omega)
        rwa [show v.m + (j - v.m) = j by omega] at this
    exact (div_left_inj' (ok.t_ne _ hi)).1 e

/-- Right-hand sides are determined by the solution. -/
theorem Applies.unique_b {S : Nat → Nat → K} {kf : Nat} : ∀ {lvs : List (Level K)} {k : Nat},
    Chain lvs k kf → ∀ {x x' b b' : Nat → K}, Applies S lvs k x b → Applies S lvs k x' b' → (∀ i, i < k → x i = x' i) →
    ∀ i, i < k → b i = b' i
  | [], k, hk, x, x', b, b', h, h', hx => fun i hi => by
    rw [← h i hi, ← h' i hi]; exact mulVec_congr' hx i
  | v :: rest, k, ⟨hn, ok, hc⟩, x, x', b, b', ⟨h1, z, g, h2, h3, h4⟩, ⟨h1', z', g', h2', h3', h4'⟩, hx => by
    subst hn
    have hle := ok.le
    have ex : ∀ j, j < v.n → x (v.q j) / v.t (v.q j) = x' (v.q j) / v.t (v.q j) := fun j hj => by
      rw [hx _ (ok.q_perm.1 j hj)]
    have e1 : ∀ i, i < v.m → v.s (v.p i) * b (v.p i) = v.s (v.p i) * b' (v.p i) := fun i hi => by
      rw [← h1 i hi, ← h1' i hi]
      congr 1
      · exact ldu_congr (fun c hc => ex c (by omega)) hi
      · exact mulVec_congr' (fun c hc => ex (v.m + c) (by omega)) i
    have ez : ∀ i, i < v.m → z i = z' i := ldu_inj ok.lower ok.upper ok.d_ne fun i hi => by
      rw [h2 i hi, h2' i hi, e1 i hi]
    have eg := Applies.unique_b hc h3 h3' (fun i hi => ex (v.m + i) (by omega))
    intro i hi
    obtain ⟨j, hj, rfl⟩ := isPerm_surj ok.p_perm hi
    have e : v.s (v.p j) * b (v.p j) = v.s (v.p j) * b' (v.p j) := by
      rcases Nat.lt_or_ge j v.m with c | c
      · exact e1 j c
      · have a := h4 (j - v.m) (by omega)
        have b := h4' (j - v.m) (by omega)
        rw [show v.m + (j - v.m) = j by omega] at a b
        rw [← a, ← b, eg _ (by omega), mulVec_congr' ez]
    exact mul_left_cancel₀ (ok.s_ne _ hi) e

end alg

section adj
variable [Field K] [StarRing K]

/-- `⟨u, v⟩ = Σ conj(u_i) v_i`. -/
def ip (k : Nat) (u v : Nat → K) : K := ∑ i ∈ range k, star (u i) * v i

/-- The conjugate-transposed level. -/
def Level.adj (v : Level K) : Level K :=
  { m := v.m, n := v.n, L := herm v.U, U := herm v.L, E := herm v.F, F := herm v.E, d := fun i => star (v.d i),
    s := v.t, t := v.s, p := v.q, q := v.p }

theorem ip_mulVec (k l : Nat) (A : Nat → Nat → K) (u v : Nat → K) :
    ip k u (mulVec l A v) = ip l (mulVec k (herm A) u) v := by
  unfold ip mulVec herm
  simp only [star_sum, star_mul', star_star, mul_sum, sum_mul]
  rw [sum_comm]
  refine sum_congr rfl fun j _ => sum_congr rfl fun i _ => by ring

theorem ip_add_right (k : Nat) (u v w : Nat → K) : ip k u (fun i => v i + w i) = ip k u v + ip k u w := by
  unfold ip; rw [← sum_add_distrib]; exact sum_congr rfl fun i _ => by ring
theorem ip_add_left (k : Nat) (u v w : Nat → K) : ip k (fun i => u i + v i) w = ip k u w + ip k v w := by
  unfold ip; rw [← sum_add_distrib]; exact sum_congr rfl fun i _ => by rw [star_add]; ring
theorem ip_congr {k : Nat} {u u' v v' : Nat → K} (h1 : ∀ i, i < k → u i = u' i) (h2 : ∀ i, i < k → v i = v' i) :
    ip k u v = ip k u' v' := by
  unfold ip
  exact sum_congr rfl fun i hi => by rw [h1 i (mem_range.1 hi), h2 i (mem_range.1 hi)]
theorem ip_diag (k : Nat) (d u v : Nat → K) : ip k u (fun i => d i * v i) = ip k (fun i => star (d i) * u i) v := by
  unfold ip
  exact sum_congr rfl fun i _ => by rw [star_mul', star_star]; ring

theorem herm_herm (A : Nat → Nat → K) : herm (herm A) = A := by funext i j; simp [herm]

theorem ip_ldu (m : Nat) (L U : Nat → Nat → K) (d u v : Nat → K) :
    ip m u (ldu m L d U v) = ip m (ldu m (herm U) (fun i => star (d i)) (herm L) u) v := by
  unfold ldu
  rw [ip_add_right, ip_diag, ip_mulVec, ip_diag, ip_add_right, ip_add_right, ip_mulVec, ip_mulVec, ip_add_left]
  have e1 : (fun i => star (d i) * (u i + mulVec m (herm L) u i)) =
      fun i => star (d i) * u i + star (d i) * mulVec m (herm L) u i := by funext i; ring
  have e2 : mulVec m (herm U) (fun j => star (d j) * u j + star (d j) * mulVec m (herm L) u j) =
      fun i => mulVec m (herm U) (fun j => star (d j) * u j) i +
        mulVec m (herm U) (fun j => star (d j) * mulVec m (herm L) u j) i := by
    funext i
    unfold mulVec
    rw [← sum_add_distrib]
    exact sum_congr rfl fun _ _ => by ring
  rw [e1, ip_add_left, e2, ip_add_left]
  ring

theorem ip_sub_left (k : Nat) (u v w : Nat → K) : ip k (fun i => u i - v i) w = ip k u w - ip k v w := by
  unfold ip; rw [← sum_sub_distrib]; exact sum_congr rfl fun i _ => by rw [star_sub]; ring

theorem ip_split (m n : Nat) (h : m ≤ n) (u v : Nat → K) :
    ip n u v = ip m u v + ip (n - m) (fun i => u (m + i)) (fun i => v (m + i)) := by
  unfold ip
  rw [← sum_range_add_sum_Ico _ h, sum_Ico_eq_sum_range]

theorem ip_perm {n : Nat} {p : Nat → Nat} (hp : IsPerm n p) {s : Nat → K} (hs : ∀ i, i < n → s i ≠ 0)
    (hr : ∀ i, star (s i) = s i) (u v : Nat → K) :
    ip n u v = ip n (fun i => u (p i) / s (p i)) (fun i => s (p i) * v (p i)) := by
  unfold ip
  rw [← sum_isPerm hp (fun i => star (u i) * v i)]
  refine sum_congr rfl fun i hi => ?_
  have := hs _ (hp.1 i (mem_range.1 hi))
  rw [star_div₀, hr]
  field_simp

/-- Adjointness: if `M x = b` and `M^H z = c` then `⟨z, b⟩ = ⟨c, x⟩`. -/
theorem Applies.adjoint {S : Nat → Nat → K} {kf : Nat} : ∀ {lvs : List (Level K)} {k : Nat},
    Chain lvs k kf → (∀ v ∈ lvs, (∀ i, star (v.s i) = v.s i) ∧ ∀ i, star (v.t i) = v.t i) →
    ∀ {x b z c : Nat → K}, Applies S lvs k x b → Applies (herm S) (lvs.map Level.adj) k z c →
    ip k z b = ip k c x
  | [], k, _, _, x, b, z, c, h, h' => by
    rw [ip_congr (fun _ _ => rfl) (fun i hi => (h i hi).symm), ip_mulVec]
    exact ip_congr h' fun _ _ => rfl
  | v :: rest, k, ⟨hn, ok, hc⟩, hr, x, b, z, c, ⟨h1, u, g, h2, h3, h4⟩, ⟨h1', w, h, h2', h3', h4'⟩ => by
    subst hn
    have hle := ok.le
    simp only [Level.adj] at h1' h2' h3' h4'
    obtain ⟨hrs, hrt⟩ := hr v (by simp)
    rw [ip_perm ok.p_perm ok.s_ne hrs, ip_perm (u := c) (v := x) ok.q_perm (s := fun i => (v.t i)⁻¹)
      (fun i hi => inv_ne_zero (ok.t_ne i hi)) (fun i => by rw [star_inv₀, hrt])]
    simp only [div_inv_eq_mul, inv_mul_eq_div, mul_comm (c _)]
    have ih := Applies.adjoint hc (fun v hv => hr v (by simp [hv])) h3 h3'
    set xh := fun j => x (v.q j) / v.t (v.q j) with hxh
    set zh := fun j => z (v.p j) / v.s (v.p j) with hzh
    set bh := fun j => v.s (v.p j) * b (v.p j) with hbh
    set ch := fun j => v.t (v.q j) * c (v.q j) with hch
    set x2 := fun j => xh (v.m + j) with hx2
    set z2 := fun j => zh (v.m + j) with hz2
    rw [ip_split v.m v.n hle zh bh, ip_split v.m v.n hle ch xh]
    have A1 : ip v.m zh bh = ip v.m zh (ldu v.m v.L v.d v.U xh) + ip v.m zh (mulVec (v.n - v.m) v.F x2) := by
      rw [← ip_add_right]
      exact ip_congr (fun _ _ => rfl) fun i hi => (h1 i hi).symm
    have A2 : ip (v.n - v.m) z2 (fun i => bh (v.m + i)) = ip (v.n - v.m) z2 (mulVec v.m v.E u) + ip (v.n - v.m) z2 g := by
      rw [← ip_add_right]
      exact ip_congr (fun _ _ => rfl) fun i hi => (h4 i hi).symm
    have B1 : ip v.m ch xh = ip v.m (ldu v.m (herm v.U) (fun i => star (v.d i)) (herm v.L) zh) xh +
        ip v.m (mulVec (v.n - v.m) (herm v.E) z2) xh := by
      rw [← ip_add_left]
      exact ip_congr (fun i hi => (h1' i hi).symm) fun _ _ => rfl
    have B2 : ip (v.n - v.m) (fun i => ch (v.m + i)) x2 = ip (v.n - v.m) (mulVec v.m (herm v.F) w) x2 +
        ip (v.n - v.m) h x2 := by
      rw [← ip_add_left]
      exact ip_congr (fun i hi => (h4' i hi).symm) fun _ _ => rfl
    -- `B u = B x̂₁ + F x̂₂` and `B^H w = B^H ẑ₁ + E^H ẑ₂`
    have C1 : ∀ y, ip v.m y (ldu v.m v.L v.d v.U u) =
        ip v.m y (ldu v.m v.L v.d v.U xh) + ip v.m y (mulVec (v.n - v.m) v.F x2) := fun y => by
      rw [← ip_add_right]
      exact ip_congr (fun _ _ => rfl) fun i hi => (h2 i hi).trans (h1 i hi).symm
    have C2 : ∀ y, ip v.m (ldu v.m (herm v.U) (fun i => star (v.d i)) (herm v.L) w) y =
        ip v.m (ldu v.m (herm v.U) (fun i => star (v.d i)) (herm v.L) zh) y +
          ip v.m (mulVec (v.n - v.m) (herm v.E) z2) y := fun y => by
      rw [← ip_add_left]
      exact ip_congr (fun i hi => (h2' i hi).trans (h1' i hi).symm) fun _ _ => rfl
    have D1 := C1 zh
    have D2 := C1 w
    have D3 := C2 xh
    have D4 := C2 u
    simp only [← ip_ldu] at D3 D4 B1
    rw [A1, A2, B1, B2, ih, ip_mulVec _ _ v.E]
    rw [ip_mulVec _ _ v.F] at D2
    linear_combination D2 + D3 - D1 - D4
end adj

end Hif.Spec
