import Verif.Valid
import Verif.Examples

/-!
# Property C09: input validation
-/

namespace Hif.Props
open Hif

/-- Specification: what a valid compressed matrix is. -/
structure ValidInput (A : RawCS) (other : Nat) : Prop where
  start_len : A.psize + 1 ≤ A.start.size
  start_zero : A.start.get 0 = 0
  mono : ∀ i, i < A.psize → A.start.get i ≤ A.start.get (i + 1)
  inds_len : A.start.get A.psize ≤ A.inds.size
  vals_len : A.start.get A.psize ≤ A.vsize
  increasing : ∀ i, i < A.psize → ∀ k : Nat, A.start.get i < k → (k : Int) < A.start.get (i + 1) →
    A.inds.get (k - 1) < A.inds.get k
  in_range : ∀ i, i < A.psize → ∀ k : Nat, A.start.get i ≤ k → (k : Int) < A.start.get (i + 1) →
    0 ≤ A.inds.get k ∧ A.inds.get k < other

theorem ValidInput.start_mono {A : RawCS} {other : Nat} (h : ValidInput A other) {i j : Nat} (hij : i ≤ j)
    (hj : j ≤ A.psize) : A.start.get i ≤ A.start.get j := by
  induction j with
  | zero => obtain rfl : i = 0 := by omega
            exact le_refl _
  | succ j ih =>
    rcases Nat.lt_or_ge i (j + 1) with h1 | h1
    · exact le_trans (ih (by omega) (by omega)) (h.mono j (by omega))
    · rw [show i = j + 1 by omega]

theorem checkLine_ok_iff (inds : Buf Int) (other : Nat) (lo hi : Int) (h0 : 0 ≤ lo) :
    RawCS.checkLine inds other lo hi = .ok () ↔ lo ≤ hi ∧ (lo < hi → hi ≤ inds.size) ∧
      (∀ k : Nat, lo < k → (k : Int) < hi → inds.get (k - 1) < inds.get k) ∧
      (∀ k : Nat, lo ≤ k → (k : Int) < hi → 0 ≤ inds.get k ∧ inds.get k < other) := by
  -- a unit loop succeeds iff every step does
  have loopOk : ∀ (f : Nat → Unit → M Unit) (n i : Nat), loop f n i () = .ok () ↔
      ∀ k, i ≤ k → k < i + n → f k () = .ok () := by
    intro f n
    induction n with
    | zero => intro i; simp only [loop]; exact ⟨fun _ k h1 h2 => by omega, fun _ => rfl⟩
    | succ n ih =>
      intro i
      simp only [loop]
      constructor
      · intro h k h1 h2
        cases hf : f i () with
        | error e => rw [hf] at h; simp [bind, Except.bind] at h
        | ok u =>
          rw [hf] at h
          simp only [bind, Except.bind] at h
          rcases Nat.lt_or_ge i k with h3 | h3
          · exact (ih (i + 1)).1 h k h3 (by omega)
          · rw [show k = i by omega, hf]
      · intro h
        rw [h i (le_refl _) (by omega)]
        simp only [bind, Except.bind]
        exact (ih (i + 1)).2 (fun k h1 h2 => h k (by omega) (by omega))
  have upOk : ∀ (f : Nat → Unit → M Unit) (a b : Nat), forUp a b () f = .ok () ↔
      ∀ k, a ≤ k → k < b → f k () = .ok () := by
    intro f a b
    unfold forUp
    rw [loopOk]
    constructor
    · intro h k h1 h2; exact h k h1 (by omega)
    · intro h k h1 h2; exact h k h1 (by omega)
  unfold RawCS.checkLine
  by_cases h1 : hi < lo
  · rw [if_pos h1]; constructor
    · intro h; cases h
    · intro h; omega
  rw [if_neg h1]
  by_cases h2 : lo = hi
  · rw [if_pos h2]
    constructor
    · intro _; exact ⟨by omega, fun h => by omega, fun k _ _ => by omega, fun k _ _ => by omega⟩
    · intro _; rfl
  rw [if_neg h2, if_neg (by omega)]
  obtain ⟨l, rfl⟩ := Int.eq_ofNat_of_zero_le h0
  obtain ⟨h, rfl⟩ := Int.eq_ofNat_of_zero_le (show 0 ≤ hi by omega)
  simp only [Int.toNat_natCast] at *
  have seq : ∀ (a b : M Unit), (a >>= fun _ => b) = .ok () ↔ a = .ok () ∧ b = .ok () := by
    intro a b
    cases a with
    | error e => simp [bind, Except.bind]
    | ok u => simp [bind, Except.bind]
  rw [seq, upOk, upOk]
  have step1 : ∀ k, (do let b ← inds.rd k; let a ← inds.rd (k - 1)
                        if b ≤ a then throw (Err.hif "not sorted") else pure () : M Unit) = .ok () ↔
      k < inds.size ∧ inds.get (k - 1) < inds.get k := by
    intro k
    unfold Buf.rd
    by_cases c1 : k < inds.size
    · rw [if_pos c1, if_pos (by omega)]
      simp only [pure, Except.pure, bind, Except.bind]
      by_cases c2 : inds.get k ≤ inds.get (k - 1)
      · rw [if_pos c2]; constructor
        · intro h; cases h
        · intro h; omega
      · rw [if_neg c2]; constructor
        · intro _; exact ⟨c1, by omega⟩
        · intro _; rfl
    · rw [if_neg c1]; constructor
      · intro h; cases h
      · intro h; omega
  have step2 : ∀ k, (do let j ← inds.rd k
                        if j < 0 ∨ (other : Int) ≤ j then throw (Err.hif "exceeds bound") else pure () : M Unit) =
      .ok () ↔ k < inds.size ∧ 0 ≤ inds.get k ∧ inds.get k < other := by
    intro k
    unfold Buf.rd
    by_cases c1 : k < inds.size
    · rw [if_pos c1]
      simp only [pure, Except.pure, bind, Except.bind]
      by_cases c2 : inds.get k < 0 ∨ (other : Int) ≤ inds.get k
      · rw [if_pos c2]; constructor
        · intro h; cases h
        · intro h; omega
      · rw [if_neg c2]; constructor
        · intro _; exact ⟨c1, by omega, by omega⟩
        · intro _; rfl
    · rw [if_neg c1]; constructor
      · intro h; cases h
      · intro h; omega
  constructor
  · rintro ⟨a, b⟩
    refine ⟨by omega, fun _ => ?_, fun k k1 k2 => ?_, fun k k1 k2 => ?_⟩
    · have := ((step2 _).1 (b (h - 1) (by omega) (by omega))).1
      omega
    · exact ((step1 k).1 (a k (by omega) (by omega))).2
    · exact ((step2 k).1 (b k (by omega) (by omega))).2
  · rintro ⟨a, b, c, d⟩
    have hb := b (by omega)
    exact ⟨fun k k1 k2 => (step1 k).2 ⟨by omega, c k (by omega) (by omega)⟩,
      fun k k1 k2 => (step2 k).2 ⟨by omega, d k (by omega) (by omega)⟩⟩

/-- C09, first half: every valid matrix whose pointer array has length `psize + 1` is accepted (no error, no
undefined behaviour). -/
theorem C09_valid_accepted (A : RawCS) (other : Nat) (h : ValidInput A other)
    (hlen : A.start.size = A.psize + 1) : A.checkValidity other = .ok () := by
  have h0 : ∀ i, i ≤ A.psize → 0 ≤ A.start.get i := fun i hi => by
    have := h.start_mono (Nat.zero_le i) hi
    rw [h.start_zero] at this; exact this
  have : Runs (A.checkValidity other) fun _ => True := by
    unfold RawCS.checkValidity
    simp only [runs_ite, runs_pure, runs_throw, runs_bind, runs_rd, h.start_zero]
    by_cases hu : A.undef = true
    · rw [if_pos hu]; trivial
    rw [if_neg hu, if_neg (by omega)]
    refine ⟨by omega, ?_⟩
    rw [if_neg (by simp)]
    refine ⟨by omega, ?_⟩
    rw [hlen, Nat.add_sub_cancel, if_neg (by
      have h1 := h0 A.psize (le_refl _)
      have h2 := h.inds_len
      have h3 := h.vals_len
      omega)]
    refine forUp_runs' (fun _ _ => True) (Nat.zero_le _) trivial ?_ (fun _ _ => trivial)
    intro i _ _ hi _
    simp only [runs_bind, runs_rd]
    refine ⟨by omega, by omega, ?_⟩
    have hok := (checkLine_ok_iff A.inds other (A.start.get i) (A.start.get (i + 1)) (h0 i (by omega))).2
      ⟨h.mono i hi, fun _ => le_trans (h.start_mono (show i + 1 ≤ A.psize from hi) (le_refl _)) h.inds_len,
       h.increasing i hi, h.in_range i hi⟩
    exact ⟨(), hok, trivial⟩
  obtain ⟨_, h1, -⟩ := this
  exact h1

/-- C09, second half (partial: allocated index array and pointer array of length exactly `psize + 1`): acceptance
implies validity. -/
theorem C09_accepted_valid_partial (A : RawCS) (other : Nat) (hu : A.undef = false)
    (hlen : A.start.size = A.psize + 1) (hok : A.checkValidity other = .ok ()) : ValidInput A other := by
  unfold RawCS.checkValidity at hok
  rw [if_neg (by simp [hu]), if_neg (by omega)] at hok
  unfold Buf.rd at hok
  rw [if_pos (by omega)] at hok
  simp only [pure, Except.pure, bind, Except.bind] at hok
  by_cases hf : A.start.get 0 ≠ 0
  · rw [if_pos hf] at hok; cases hok
  rw [if_neg hf, if_pos (by omega)] at hok
  have hz : A.start.get 0 = 0 := by omega
  rw [hlen, Nat.add_sub_cancel, hz] at hok
  simp only at hok
  split at hok
  · cases hok
  rename_i hnn
  -- the loop
  have key : ∀ (n i : Nat), i + n = A.psize → 0 ≤ A.start.get i →
      loop (fun i (_ : Unit) => (do
        let lo ← A.start.rd i
        let hi ← A.start.rd (i + 1)
        RawCS.checkLine A.inds other lo hi : M Unit)) n i () = .ok () →
      ∀ l, i ≤ l → l < A.psize → RawCS.checkLine A.inds other (A.start.get l) (A.start.get (l + 1)) = .ok () ∧
        0 ≤ A.start.get l := by
    intro n
    induction n with
    | zero => intro i hi _ _ l h1 h2; omega
    | succ n ih =>
      intro i hi h0 hl l h1 h2
      simp only [loop] at hl
      unfold Buf.rd at hl
      rw [if_pos (by omega), if_pos (by omega)] at hl
      simp only [pure, Except.pure, bind, Except.bind] at hl
      cases hc : RawCS.checkLine A.inds other (A.start.get i) (A.start.get (i + 1)) with
      | error e => rw [hc] at hl; cases hl
      | ok u =>
        rw [hc] at hl
        simp only at hl
        rcases Nat.lt_or_ge i l with h3 | h3
        · have hm := ((checkLine_ok_iff _ _ _ _ h0).1 hc).1
          refine ih (i + 1) (by omega) (by omega) ?_ l h3 h2
          simp only [pure, Except.pure, bind, Except.bind, Buf.rd]
          exact hl
        · rw [show l = i by omega]; exact ⟨hc, h0⟩
  have hl := key A.psize 0 (by omega) (by omega) (by
    simp only [pure, Except.pure, bind, Except.bind, Buf.rd]
    simpa [forUp, hlen] using hok)
  have hline : ∀ i, i < A.psize → _ := fun i hi =>
    (checkLine_ok_iff _ _ _ _ (hl i (Nat.zero_le _) hi).2).1 (hl i (Nat.zero_le _) hi).1
  exact ⟨by omega, hz, fun i hi => (hline i hi).1, by omega, by omega, fun i hi => (hline i hi).2.2.1,
    fun i hi => (hline i hi).2.2.2⟩

/-- C09: a valid matrix is well formed and sorted in the sense all the kernel theorems need, so after
acceptance no kernel indexes out of range. -/
theorem C09_valid_wf {K : Type _} (A : RawCS) (other : Nat) (h : ValidInput A other) (vals : Buf K)
    (hv : vals.size = A.vsize) : (A.toCS other vals).WF ∧ (A.toCS other vals).Sorted := by
  have h0 : ∀ i, i ≤ A.psize → 0 ≤ A.start.get i := fun i hi => by
    have := h.start_mono (Nat.zero_le i) hi
    rw [h.start_zero] at this; exact this
  have h2 := h0 A.psize (le_refl _)
  have h3 := h.inds_len
  have h4 := h.vals_len
  have hW : (A.toCS other vals).WF := by
    refine ⟨h.start_len, by simp [RawCS.toCS, h.start_zero], ?_, ?_, ?_, ?_⟩
    · intro i hi; have := h.mono i hi; simp only [RawCS.toCS]; omega
    · simp only [RawCS.toCS]; omega
    · simp only [RawCS.toCS]; omega
    · intro k hk
      simp only [RawCS.toCS] at hk ⊢
      have hex : ∀ j, j ≤ A.psize → (k : Int) < A.start.get j →
          ∃ i, i < j ∧ A.start.get i ≤ k ∧ (k : Int) < A.start.get (i + 1) := by
        intro j
        induction j with
        | zero => intro _ h'; rw [h.start_zero] at h'; omega
        | succ j ih =>
          intro hj h'
          rcases lt_or_ge (k : Int) (A.start.get j) with h1 | h1
          · obtain ⟨i, i1, i2⟩ := ih (by omega) h1
            exact ⟨i, by omega, i2⟩
          · exact ⟨j, by omega, h1, h'⟩
      obtain ⟨i, i1, i2, i3⟩ := hex A.psize (le_refl _) (by omega)
      have := h.in_range i i1 k i2 i3
      omega
  refine ⟨hW, ?_⟩
  intro i hi k l hk hl hkl
  have hi' : i < A.psize := hi
  have n1 := h0 i (by omega)
  have n2 := h0 (i + 1) (by omega)
  obtain ⟨k1, k2⟩ := hk
  obtain ⟨l1, l2⟩ := hl
  simp only [RawCS.toCS] at k1 k2 l1 l2 ⊢
  -- induction on the distance
  have key : ∀ d, ∀ l, l = k + 1 + d → (l : Int) < A.start.get (i + 1) → A.inds.get k < A.inds.get l := by
    intro d
    induction d with
    | zero =>
      intro l e hl
      have := h.increasing i hi' l (by omega) hl
      rw [show l - 1 = k by omega] at this; exact this
    | succ d ih =>
      intro l e hl
      have a := ih (l - 1) (by omega) (by omega)
      have b := h.increasing i hi' l (by omega) hl
      omega
  have a := key (l - k - 1) l (by omega) (by omega)
  have b := h.in_range i hi' k (by omega) (by omega)
  have c := h.in_range i hi' l (by omega) (by omega)
  omega

/-- C09 violated (1): an unallocated index array is accepted whatever the pointer array says; the product then reads
out of range. -/
theorem C09_undef_witness :
    RawCS.checkValidity (RawCS.mk true 1 (Buf.ofList [0, 5]) (Buf.ofList []) 0) 1
      = .ok () ∧
    (CS.crsMultiplyNt (RawCS.toCS (RawCS.mk true 1 (Buf.ofList [0, 5]) (Buf.ofList []) 0) 1 (Buf.ofList ([] : List ℤ))) (Buf.ofList [1]) (Buf.ofList [0])).map (fun _ => ()) =
      .error .oob := by decide

/-- C09 violated (2): a pointer array longer than `psize + 1` hides an inconsistent last pointer (the check uses
`back()`); the matrix is accepted and the product reads past the value array. -/
theorem C09_long_start_witness :
    RawCS.checkValidity (RawCS.mk false 1 (Buf.ofList [0, 2, 0]) (Buf.ofList [0, 1]) 0) 2 = .ok () ∧
    (CS.crsMultiplyNt (RawCS.toCS (RawCS.mk false 1 (Buf.ofList [0, 2, 0]) (Buf.ofList [0, 1]) 0) 2 (Buf.ofList ([] : List ℤ))) (Buf.ofList [1, 1])
      (Buf.ofList [0])).map (fun _ => ()) = .error .oob := by decide

/-- C09 violated (3): for a non-monotone pointer array validation itself reads out of range (or never meets the end
of a reversed range) instead of reporting an error. -/
theorem C09_validation_ub_witness :
    RawCS.checkValidity (RawCS.mk false 2 (Buf.ofList [0, 7, 2]) (Buf.ofList [0, 1]) 2) 8 = .error .oob ∧
    RawCS.checkValidity (RawCS.mk false 3 (Buf.ofList [0, 2, 1, 2]) (Buf.ofList [0, 1]) 2) 8 = .error (.ub "reversed range") := by decide

/-- Non-vacuity: `[[1,0,2],[0,3,0]]` is valid and accepted. -/
example : ValidInput (RawCS.mk false 2 (Buf.ofList [0, 2, 3]) (Buf.ofList [0, 2, 1]) 3) 3 := by
  refine C09_accepted_valid_partial _ _ rfl rfl (by decide)

/-- Unsorted, duplicate, and out-of-range indices are rejected with an error. -/
example : RawCS.checkValidity (RawCS.mk false 1 (Buf.ofList [0, 2]) (Buf.ofList [1, 1]) 2) 3 = .error (.hif "not sorted") ∧
    RawCS.checkValidity (RawCS.mk false 1 (Buf.ofList [0, 2]) (Buf.ofList [-1, 3]) 2) 3 = .error (.hif "exceeds bound") := by decide

end Hif.Props
