import Verif.PrecLemmas

set_option linter.unusedSectionVars false
set_option linter.unusedVariables false

/-!
# Algebra of an exact level

If the scaled and reordered matrix of a level is `[[L D U, F], [E, L_E D U_F + S]]` with `E = L_E D U` and `F = L D U_F`, then the
operator of the level with `S` as the next operator is the matrix of the level, and `S` is injective if the matrix is.
-/

namespace Hif.Spec
open Finset
variable {K : Type _} [Field K]

/-- A triangular matrix with unit diagonal. -/
def unit (T : Nat → Nat → K) (i j : Nat) : K := if i = j then 1 else T i j

/-- The scaled matrix in the final ordering. -/
def scaled (v : Level K) (A : Nat → Nat → K) (i j : Nat) : K := v.s (v.p i) * A (v.p i) (v.q j) * v.t (v.q j)

/-- The blocks of a level in which nothing was dropped. -/
structure ExactLevel (v : Level K) (S A LE UF : Nat → Nat → K) : Prop where
  ok : LevelOK v
  B : ∀ i j, i < v.m → j < v.m → ∑ b ∈ range v.m, unit v.L i b * v.d b * unit v.U b j = scaled v A i j
  F : ∀ i j, i < v.m → j < v.n - v.m → v.F i j = scaled v A i (v.m + j)
  E : ∀ i j, i < v.n - v.m → j < v.m → v.E i j = scaled v A (v.m + i) j
  LU : ∀ i j, i < v.m → j < v.n - v.m → ∑ b ∈ range v.m, unit v.L i b * v.d b * UF b j = scaled v A i (v.m + j)
  EU : ∀ i j, i < v.n - v.m → j < v.m → ∑ b ∈ range v.m, LE i b * v.d b * unit v.U b j = scaled v A (v.m + i) j
  C : ∀ i j, i < v.n - v.m → j < v.n - v.m → ∑ b ∈ range v.m, LE i b * v.d b * UF b j + S i j = scaled v A (v.m + i) (v.m + j)

theorem unit_sum {m : Nat} {T : Nat → Nat → K} (i : Nat) (hi : i < m) (hT : T i i = 0) (w : Nat → K) :
    ∑ b ∈ range m, unit T i b * w b = w i + mulVec m T w i := by
  unfold mulVec
  have : ∀ b ∈ range m, unit T i b * w b = (if i = b then w b else 0) + T i b * w b := by
    intro b _
    unfold unit
    split
    · rename_i h; subst h; rw [hT]; ring
    · ring
  rw [sum_congr rfl this, sum_add_distrib, sum_ite_eq, if_pos (mem_range.2 hi)]

/-- Product of three factors applied to a vector. -/
theorem triple_sum {m k : Nat} (P Q : Nat → Nat → K) (d : Nat → K) (w : Nat → K) (i : Nat) :
    ∑ j ∈ range k, (∑ b ∈ range m, P i b * d b * Q b j) * w j = ∑ b ∈ range m, P i b * (d b * ∑ j ∈ range k, Q b j * w j) := by
  simp only [sum_mul, mul_sum]
  rw [sum_comm]
  exact sum_congr rfl fun b _ => sum_congr rfl fun j _ => by ring

theorem ldu_eq {m : Nat} {L U : Nat → Nat → K} {d : Nat → K} (hL : ∀ i, i < m → L i i = 0) (hU : ∀ i, i < m → U i i = 0) (w : Nat → K) {i : Nat} (hi : i < m) :
    ldu m L d U w i = ∑ b ∈ range m, unit L i b * (d b * ∑ j ∈ range m, unit U b j * w j) := by
  rw [unit_sum i hi (hL i hi)]
  unfold ldu
  rw [unit_sum i hi (hU i hi)]
  congr 1
  exact mulVec_congr' (fun c hc => by rw [unit_sum c hc (hU c hc)]) i

theorem scaled_mulVec {v : Level K} (ok : LevelOK v) (A : Nat → Nat → K) (x : Nat → K) {i : Nat} (hi : i < v.n) :
    ∑ j ∈ range v.n, scaled v A i j * (x (v.q j) / v.t (v.q j)) = v.s (v.p i) * mulVec v.n A x (v.p i) := by
  have : ∀ j ∈ range v.n, scaled v A i j * (x (v.q j) / v.t (v.q j)) = v.s (v.p i) * (A (v.p i) (v.q j) * x (v.q j)) := by
    intro j hj
    have := ok.t_ne _ (ok.q_perm.1 j (mem_range.1 hj))
    unfold scaled
    field_simp
  rw [sum_congr rfl this, ← mul_sum, sum_isPerm ok.q_perm (fun c => A (v.p i) c * x c)]
  rfl

/-- The equations of a level with next operator `S` say that `A x = b`. -/
theorem ExactLevel.solves {v : Level K} {S A LE UF : Nat → Nat → K} (h : ExactLevel v S A LE UF) {x b z g : Nat → K}
    (h1 : ∀ i, i < v.m → ldu v.m v.L v.d v.U (fun j => x (v.q j) / v.t (v.q j)) i +
      mulVec (v.n - v.m) v.F (fun j => x (v.q (v.m + j)) / v.t (v.q (v.m + j))) i = v.s (v.p i) * b (v.p i))
    (h2 : ∀ i, i < v.m → ldu v.m v.L v.d v.U z i = v.s (v.p i) * b (v.p i))
    (h3 : ∀ i, i < v.n - v.m → mulVec (v.n - v.m) S (fun j => x (v.q (v.m + j)) / v.t (v.q (v.m + j))) i = g i)
    (h4 : ∀ i, i < v.n - v.m → mulVec v.m v.E z i + g i = v.s (v.p (v.m + i)) * b (v.p (v.m + i))) :
    ∀ i, i < v.n → mulVec v.n A x i = b i := by
  have ok := h.ok
  have hle := ok.le
  have hL : ∀ i, i < v.m → v.L i i = 0 := fun i hi => ok.lower i hi i hi (le_refl _)
  have hU : ∀ i, i < v.m → v.U i i = 0 := fun i hi => ok.upper i hi i hi (le_refl _)
  generalize hX : (fun j => x (v.q j) / v.t (v.q j)) = X at *
  have hY : (fun j => x (v.q (v.m + j)) / v.t (v.q (v.m + j))) = fun j => X (v.m + j) := by rw [← hX]
  rw [hY] at h1 h3
  -- the residual of the upper factor
  have hlow : ∀ i, i < v.m → v.d i * (∑ j ∈ range v.m, unit v.U i j * z j) =
      v.d i * (∑ j ∈ range v.m, unit v.U i j * X j + ∑ j ∈ range (v.n - v.m), UF i j * X (v.m + j)) := by
    refine Props.solvesUnit_lower_unique (K := K) (n := v.m) (T := v.L) (b := fun i => v.s (v.p i) * b (v.p i)) ok.lower ?_ ?_
    · intro i hi
      rw [← unit_sum i hi (hL i hi) (fun i => v.d i * (∑ j ∈ range v.m, unit v.U i j * z j)), ← ldu_eq hL hU z hi]
      exact h2 i hi
    · intro i hi
      rw [← unit_sum i hi (hL i hi) (fun i => v.d i * (∑ j ∈ range v.m, unit v.U i j * X j + ∑ j ∈ range (v.n - v.m), UF i j * X (v.m + j)))]
      beta_reduce
      rw [← h1 i hi, ldu_eq hL hU X hi]
      have e : mulVec (v.n - v.m) v.F (fun j => X (v.m + j)) i =
          ∑ b ∈ range v.m, unit v.L i b * (v.d b * ∑ j ∈ range (v.n - v.m), UF b j * X (v.m + j)) := by
        rw [← triple_sum]
        exact sum_congr rfl fun j hj => by rw [h.F i j hi (mem_range.1 hj), h.LU i j hi (mem_range.1 hj)]
      rw [e, ← sum_add_distrib]
      exact sum_congr rfl fun c _ => by ring
  -- scaled system
  have hsys : ∀ i, i < v.n → ∑ j ∈ range v.n, scaled v A i j * X j = v.s (v.p i) * b (v.p i) := by
    intro i hi
    have hsp : ∑ j ∈ range v.n, scaled v A i j * X j =
        ∑ j ∈ range v.m, scaled v A i j * X j + ∑ j ∈ range (v.n - v.m), scaled v A i (v.m + j) * X (v.m + j) := by
      conv_lhs => rw [show v.n = v.m + (v.n - v.m) by omega]
      rw [sum_range_add]
    rw [hsp]
    by_cases him : i < v.m
    · rw [← h1 i him, ldu_eq hL hU X him, ← triple_sum]
      congr 1
      · exact sum_congr rfl fun j hj => by rw [h.B i j him (mem_range.1 hj)]
      · exact sum_congr rfl fun j hj => by rw [h.F i j him (mem_range.1 hj)]
    · obtain ⟨i', rfl⟩ := Nat.exists_eq_add_of_le (not_lt.1 him)
      have hi' : i' < v.n - v.m := by omega
      rw [← h4 i' hi', ← h3 i' hi']
      have e1 : ∑ j ∈ range v.m, scaled v A (v.m + i') j * X j =
          ∑ c ∈ range v.m, LE i' c * (v.d c * ∑ j ∈ range v.m, unit v.U c j * X j) := by
        rw [← triple_sum]
        exact sum_congr rfl fun j hj => by rw [h.EU i' j hi' (mem_range.1 hj)]
      have e2 : mulVec v.m v.E z i' = ∑ c ∈ range v.m, LE i' c * (v.d c * ∑ j ∈ range v.m, unit v.U c j * z j) := by
        rw [← triple_sum]
        exact sum_congr rfl fun j hj => by rw [h.E i' j hi' (mem_range.1 hj), h.EU i' j hi' (mem_range.1 hj)]
      have e3 : ∑ j ∈ range (v.n - v.m), scaled v A (v.m + i') (v.m + j) * X (v.m + j) =
          ∑ c ∈ range v.m, LE i' c * (v.d c * ∑ j ∈ range (v.n - v.m), UF c j * X (v.m + j)) +
          mulVec (v.n - v.m) S (fun j => X (v.m + j)) i' := by
        rw [← triple_sum]
        unfold mulVec
        rw [← sum_add_distrib]
        exact sum_congr rfl fun j hj => by rw [← h.C i' j hi' (mem_range.1 hj)]; ring
      rw [e1, e2, e3, ← add_assoc, ← sum_add_distrib]
      congr 1
      exact sum_congr rfl fun c hc => by rw [hlow c (mem_range.1 hc)]; ring
  intro i hi
  obtain ⟨c, hc, rfl⟩ := isPerm_surj ok.p_perm hi
  have e := scaled_mulVec ok A x hc
  rw [← hX] at hsys
  rw [hsys c hc] at e
  exact (mul_left_cancel₀ (ok.s_ne _ (ok.p_perm.1 c hc)) e).symm

/-- Every vector is the trailing part of a vector with zero leading residual; there the matrix of the level acts as the Schur complement. -/
theorem ExactLevel.extend {v : Level K} {S A LE UF : Nat → Nat → K} (h : ExactLevel v S A LE UF)
    (hex : ∀ c : Nat → K, ∃ w : Nat → K, ∀ i, i < v.m → ldu v.m v.L v.d v.U w i = c i) (y : Nat → K) :
    ∃ x : Nat → K, (∀ j, j < v.n - v.m → x (v.q (v.m + j)) / v.t (v.q (v.m + j)) = y j) ∧
      (∀ j, j < v.n → v.s (v.p j) * mulVec v.n A x (v.p j) = if j < v.m then 0 else mulVec (v.n - v.m) S y (j - v.m)) ∧
      ∀ i, i < v.m → ldu v.m v.L v.d v.U (fun j => x (v.q j) / v.t (v.q j)) i +
        mulVec (v.n - v.m) v.F (fun j => x (v.q (v.m + j)) / v.t (v.q (v.m + j))) i = 0 := by
  have ok := h.ok
  have hle := ok.le
  obtain ⟨qi, hqi⟩ : ∃ qi : Nat → Nat, ∀ j, j < v.n → qi (v.q j) = j := by
    classical
    refine ⟨fun y => if e : ∃ j, j < v.n ∧ v.q j = y then e.choose else 0, fun j hj => ?_⟩
    have e : ∃ j', j' < v.n ∧ v.q j' = v.q j := ⟨j, hj, rfl⟩
    simp only [e, dif_pos]
    exact ok.q_perm.2 _ _ e.choose_spec.1 hj e.choose_spec.2
  obtain ⟨pi, hpi⟩ : ∃ pi : Nat → Nat, ∀ j, j < v.n → pi (v.p j) = j := by
    classical
    refine ⟨fun y => if e : ∃ j, j < v.n ∧ v.p j = y then e.choose else 0, fun j hj => ?_⟩
    have e : ∃ j', j' < v.n ∧ v.p j' = v.p j := ⟨j, hj, rfl⟩
    simp only [e, dif_pos]
    exact ok.p_perm.2 _ _ e.choose_spec.1 hj e.choose_spec.2
  obtain ⟨w, hw⟩ := hex (fun i => - mulVec (v.n - v.m) v.F y i)
  let x : Nat → K := fun c => (if qi c < v.m then w (qi c) else y (qi c - v.m)) * v.t c
  have hx : ∀ j, j < v.n → x (v.q j) / v.t (v.q j) = if j < v.m then w j else y (j - v.m) := by
    intro j hj
    show (if qi (v.q j) < v.m then w (qi (v.q j)) else y (qi (v.q j) - v.m)) * v.t (v.q j) / v.t (v.q j) = _
    rw [hqi j hj, mul_div_cancel_right₀ _ (ok.t_ne _ (ok.q_perm.1 j hj))]
  have hx1 : ∀ j, j < v.m → x (v.q j) / v.t (v.q j) = w j := fun j hj => by rw [hx j (by omega), if_pos hj]
  have hx2 : ∀ j, j < v.n - v.m → x (v.q (v.m + j)) / v.t (v.q (v.m + j)) = y j := fun j hj => by
    rw [hx _ (by omega), if_neg (by omega), Nat.add_sub_cancel_left]
  have hlead : ∀ i, i < v.m → ldu v.m v.L v.d v.U (fun j => x (v.q j) / v.t (v.q j)) i +
        mulVec (v.n - v.m) v.F (fun j => x (v.q (v.m + j)) / v.t (v.q (v.m + j))) i = 0 := by
    intro i hi
    rw [ldu_congr hx1 hi, mulVec_congr' hx2 i, hw i hi]
    ring
  refine ⟨x, hx2, ?_, hlead⟩
  have hb : ∀ j, j < v.n → v.s (v.p j) * ((if pi (v.p j) < v.m then 0 else mulVec (v.n - v.m) S y (pi (v.p j) - v.m)) / v.s (v.p j)) =
      if j < v.m then 0 else mulVec (v.n - v.m) S y (j - v.m) := by
    intro j hj
    rw [hpi j hj, mul_div_cancel₀ _ (ok.s_ne _ (ok.p_perm.1 j hj))]
  have hsol := h.solves (x := x) (z := fun _ => 0) (g := fun i => mulVec (v.n - v.m) S y i)
    (b := fun i => (if pi i < v.m then 0 else mulVec (v.n - v.m) S y (pi i - v.m)) / v.s i) ?_ ?_ ?_ ?_
  · intro j hj
    rw [hsol _ (ok.p_perm.1 j hj)]
    exact hb j hj
  · intro i hi
    rw [hb i (by omega), if_pos hi]
    exact hlead i hi
  · intro i hi
    rw [hb i (by omega), if_pos hi]
    unfold ldu mulVec
    simp
  · intro i hi
    exact mulVec_congr' hx2 i
  · intro i hi
    rw [hb _ (by omega), if_neg (by omega), Nat.add_sub_cancel_left]
    unfold mulVec
    simp

/-- The Schur complement of an injective matrix is injective. -/
theorem ExactLevel.injective {v : Level K} {S A LE UF : Nat → Nat → K} (h : ExactLevel v S A LE UF)
    (hex : ∀ c : Nat → K, ∃ w : Nat → K, ∀ i, i < v.m → ldu v.m v.L v.d v.U w i = c i) (hA : Injective v.n A) :
    Injective (v.n - v.m) S := by
  have ok := h.ok
  have hle := ok.le
  intro y y' hyy i hi
  obtain ⟨x, x1, x2, -⟩ := h.extend hex y
  obtain ⟨x', x1', x2', -⟩ := h.extend hex y'
  have := hA x x' (fun c hc => by
    obtain ⟨j, hj, rfl⟩ := isPerm_surj ok.p_perm hc
    have e := x2 j hj
    have e' := x2' j hj
    have : v.s (v.p j) * mulVec v.n A x (v.p j) = v.s (v.p j) * mulVec v.n A x' (v.p j) := by
      rw [e, e']
      split
      · rfl
      · rw [hyy _ (by omega)]
    exact mul_left_cancel₀ (ok.s_ne _ (ok.p_perm.1 j hj)) this) (v.q (v.m + i)) (ok.q_perm.1 _ (by omega))
  rw [← x1 i hi, ← x1' i hi, this]

end Hif.Spec
