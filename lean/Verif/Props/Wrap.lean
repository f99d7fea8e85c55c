import Verif.Wrap
import Verif.Props.Valid

set_option linter.unusedVariables false

/-!
# C82: wrapping a user's arrays
-/

namespace Hif.Props
open Hif

theorem unitLoop_ok (f : Nat → Unit → M Unit) (n : Nat) : ∀ i, loop f n i () = .ok () ↔ ∀ k, i ≤ k → k < i + n → f k () = .ok () := by
  induction n with
  | zero => intro i; simp only [loop]; exact ⟨fun _ k h1 h2 => by omega, fun _ => rfl⟩
  | succ n ih =>
    intro i
    simp only [loop]
    constructor
    · intro h k h1 h2
      cases hf : f i () with
      | error e => rw [hf] at h; simp [bind, Except.bind] at h
      | ok u =>
        rw [hf] at h
        simp only [bind, Except.bind] at h
        rcases Nat.lt_or_ge i k with h3 | h3
        · exact (ih (i + 1)).1 h k h3 (by omega)
        · rw [show k = i by omega, hf]
    · intro h
      rw [h i (le_refl _) (by omega)]
      simp only [bind, Except.bind]
      exact (ih (i + 1)).2 (fun k h1 h2 => h k (by omega) (by omega))

theorem unitFor_ok (f : Nat → Unit → M Unit) (a b : Nat) : forUp a b () f = .ok () ↔ ∀ k, a ≤ k → k < b → f k () = .ok () := by
  unfold forUp
  rw [unitLoop_ok]
  constructor
  · intro h k h1 h2; exact h k h1 (by omega)
  · intro h k h1 h2; exact h k h1 (by omega)

theorem wrapLine_ok_iff (inds : Buf Int) (other : Nat) (lo hi : Int) (h0 : 0 ≤ lo) (hne : hi ≠ lo) :
    RawCS.wrapLine inds other lo hi = .ok () ↔ lo ≤ hi ∧ hi ≤ inds.size ∧
      (∀ k : Nat, lo < k → (k : Int) < hi → inds.get (k - 1) < inds.get k) ∧ 0 ≤ inds.get (hi.toNat - 1) ∧ inds.get (hi.toNat - 1) < other := by
  unfold RawCS.wrapLine
  by_cases h1 : hi < lo
  · rw [if_pos h1]; constructor
    · intro h; cases h
    · intro h; omega
  rw [if_neg h1, if_neg (by omega)]
  obtain ⟨l, rfl⟩ := Int.eq_ofNat_of_zero_le h0
  obtain ⟨h, rfl⟩ := Int.eq_ofNat_of_zero_le (show 0 ≤ hi by omega)
  simp only [Int.toNat_natCast] at *
  have seq : ∀ (a b : M Unit), (a >>= fun _ => b) = .ok () ↔ a = .ok () ∧ b = .ok () := by
    intro a b
    cases a with
    | error e => simp [bind, Except.bind]
    | ok u => simp [bind, Except.bind]
  have step1 : ∀ k, (do let b ← inds.rd k; let a ← inds.rd (k - 1)
                        if b ≤ a then throw (Err.hif "not sorted") else pure () : M Unit) = .ok () ↔
      k < inds.size ∧ inds.get (k - 1) < inds.get k := by
    intro k
    unfold Buf.rd
    by_cases c1 : k < inds.size
    · rw [if_pos c1, if_pos (by omega)]
      simp only [pure, Except.pure, bind, Except.bind]
      by_cases c2 : inds.get k ≤ inds.get (k - 1)
      · rw [if_pos c2]; constructor
        · intro h; cases h
        · intro h; omega
      · rw [if_neg c2]; constructor
        · intro _; exact ⟨c1, by omega⟩
        · intro _; rfl
    · rw [if_neg c1]; constructor
      · intro h; cases h
      · intro h; omega
  have step2 : ∀ k, (do let j ← inds.rd k
                        if j < 0 ∨ (other : Int) ≤ j then throw (Err.hif "exceeds bound") else pure () : M Unit) =
      .ok () ↔ k < inds.size ∧ 0 ≤ inds.get k ∧ inds.get k < other := by
    intro k
    unfold Buf.rd
    by_cases c1 : k < inds.size
    · rw [if_pos c1]
      simp only [pure, Except.pure, bind, Except.bind]
      by_cases c2 : inds.get k < 0 ∨ (other : Int) ≤ inds.get k
      · rw [if_pos c2]; constructor
        · intro h; cases h
        · intro h; omega
      · rw [if_neg c2]; constructor
        · intro _; exact ⟨c1, by omega, by omega⟩
        · intro _; rfl
    · rw [if_neg c1]; constructor
      · intro h; cases h
      · intro h; omega
  rw [seq, unitFor_ok, step2]
  constructor
  · rintro ⟨a, b1, b2, b3⟩
    exact ⟨by omega, by omega, fun k k1 k2 => ((step1 k).1 (a k (by omega) (by omega))).2, b2, b3⟩
  · rintro ⟨a1, a2, a3, a4, a5⟩
    exact ⟨fun k k1 k2 => (step1 k).2 ⟨by omega, a3 k (by omega) (by omega)⟩, by omega, a4, a5⟩

/-- Specification: the user's arrays describe a valid matrix with `p` lines and indices below `other`: pointers from 0, never decreasing, both arrays long enough (and no more than `2^64`
entries), in every line the indices increase and lie in range. -/
structure UserValid (p other : Nat) (start inds : Buf Int) : Prop where
  start_len : p + 1 ≤ start.size
  start_zero : start.get 0 = 0
  mono : ∀ i, i < p → start.get i ≤ start.get (i + 1)
  inds_len : start.get p ≤ inds.size
  increasing : ∀ i, i < p → ∀ k : Nat, start.get i < k → (k : Int) < start.get (i + 1) → inds.get (k - 1) < inds.get k
  in_range : ∀ i, i < p → ∀ k : Nat, start.get i ≤ k → (k : Int) < start.get (i + 1) → 0 ≤ inds.get k ∧ inds.get k < other

theorem wrapConst_ok_iff (rowMajor : Bool) (nrows ncols : Nat) (start inds : Buf Int) (p other : Nat) (hp : p = if rowMajor then nrows else ncols)
    (ho : other = if rowMajor then ncols else nrows) :
    (∃ mat, RawCS.wrapConst rowMajor nrows ncols start inds true = .ok mat) ↔ p < start.size ∧ 0 < start.size ∧ start.get 0 = 0 ∧
      ∀ i, i < nrows → i + 1 < start.size ∧ (start.get (i + 1) ≠ start.get i → RawCS.wrapLine inds other (start.get i) (start.get (i + 1)) = .ok ()) := by
  unfold RawCS.wrapConst
  simp only [← hp, ← ho, if_true]
  by_cases c1 : p < start.size
  · have e1 : start.rd p = .ok (start.get p) := by unfold Buf.rd; rw [if_pos c1]; rfl
    have e2 : start.rd 0 = .ok (start.get 0) := by unfold Buf.rd; rw [if_pos (by omega)]; rfl
    rw [e1, e2]
    dsimp only [bind, Except.bind]
    by_cases c2 : start.get 0 = 0
    · rw [if_neg (by simp [c2])]
      have body : ∀ i, (do let lo ← start.rd i
                           let hi ← start.rd (i + 1)
                           if hi = lo then pure () else RawCS.wrapLine inds other lo hi : M Unit) = .ok () ↔
          i + 1 < start.size ∧ (start.get (i + 1) ≠ start.get i → RawCS.wrapLine inds other (start.get i) (start.get (i + 1)) = .ok ()) := by
        intro i
        unfold Buf.rd
        by_cases d1 : i + 1 < start.size
        · rw [if_pos (by omega), if_pos d1]
          dsimp only [pure, Except.pure, bind, Except.bind]
          by_cases d2 : start.get (i + 1) = start.get i
          · rw [if_pos d2]; exact ⟨fun _ => ⟨d1, fun h => absurd d2 h⟩, fun _ => rfl⟩
          · rw [if_neg d2]; exact ⟨fun h => ⟨d1, fun _ => h⟩, fun h => h.2 d2⟩
        · rw [if_neg d1]
          constructor
          · intro h
            by_cases d3 : i < start.size
            · rw [if_pos d3] at h; cases h
            · rw [if_neg d3] at h; cases h
          · intro h; omega
      constructor
      · rintro ⟨mat, hm⟩
        refine ⟨c1, by omega, c2, fun i hi => ?_⟩
        split at hm
        · cases hm
        · rename_i hloop
          exact (body i).1 ((unitFor_ok _ 0 nrows).1 hloop i (by omega) hi)
      · rintro ⟨-, -, -, h⟩
        rw [(unitFor_ok _ 0 nrows).2 fun i _ hi => (body i).2 (h i hi)]
        exact ⟨_, rfl⟩
    · rw [if_pos c2]
      constructor
      · rintro ⟨mat, hm⟩; cases hm
      · rintro ⟨-, -, h, -⟩; exact absurd h c2
  · have e1 : start.rd p = .error .oob := by unfold Buf.rd; rw [if_neg c1]; rfl
    rw [e1]
    constructor
    · rintro ⟨mat, hm⟩; cases hm
    · rintro ⟨h, -⟩; exact absurd h c1

theorem accepts_iff {p other : Nat} {start inds : Buf Int} (hnn : ∀ k, k < inds.size → 0 ≤ inds.get k) :
    (p < start.size ∧ 0 < start.size ∧ start.get 0 = 0 ∧
      ∀ i, i < p → i + 1 < start.size ∧ (start.get (i + 1) ≠ start.get i → RawCS.wrapLine inds other (start.get i) (start.get (i + 1)) = .ok ())) ↔ UserValid p other start inds := by
  constructor
  · rintro ⟨h1, h2, h3, h4⟩
    have hnon : ∀ i, i ≤ p → 0 ≤ start.get i := by
      intro i
      induction i with
      | zero => intro _; omega
      | succ i ih =>
        intro hi
        have h0 := ih (by omega)
        by_cases hne : start.get (i + 1) = start.get i
        · omega
        · have := ((wrapLine_ok_iff inds other _ _ h0 hne).1 ((h4 i (by omega)).2 hne)).1
          omega
    have key := fun i (hi : i < p) (hne : start.get (i + 1) ≠ start.get i) => (wrapLine_ok_iff inds other _ _ (hnon i (by omega)) hne).1 ((h4 i hi).2 hne)
    have mono : ∀ i, i < p → start.get i ≤ start.get (i + 1) := by
      intro i hi
      by_cases hne : start.get (i + 1) = start.get i
      · omega
      · exact (key i hi hne).1
    have len : ∀ i, i ≤ p → start.get i ≤ inds.size := by
      intro i
      induction i with
      | zero => intro _; omega
      | succ i ih =>
        intro hi
        have h0 := ih (by omega)
        by_cases hne : start.get (i + 1) = start.get i
        · omega
        · exact (key i (by omega) hne).2.1
    refine ⟨by omega, h3, mono, len p (le_refl _), fun i hi k k1 k2 => ?_, fun i hi k k1 k2 => ?_⟩
    · exact (key i hi (by omega)).2.2.1 k k1 k2
    · have hl := len (i + 1) (by omega)
      obtain ⟨-, -, a3, a4, a5⟩ := key i hi (by omega)
      refine ⟨hnn k (by omega), ?_⟩
      have : ∀ d : Nat, ((k + d : Nat) : Int) < start.get (i + 1) → inds.get k ≤ inds.get (k + d) := by
        intro d
        induction d with
        | zero => intro _; exact le_refl _
        | succ d ih =>
          intro hd
          have := a3 (k + (d + 1)) (by omega) hd
          rw [show k + (d + 1) - 1 = k + d by omega] at this
          have := ih (by omega)
          omega
      have := this ((start.get (i + 1)).toNat - 1 - k) (by omega)
      rw [show k + ((start.get (i + 1)).toNat - 1 - k) = (start.get (i + 1)).toNat - 1 by omega] at this
      omega
  · intro h
    have hm : ∀ i j, i ≤ j → j ≤ p → start.get i ≤ start.get j := by
      intro i j hij
      induction j with
      | zero => intro _; rw [show i = 0 by omega]
      | succ j ih =>
        intro hj
        rcases Nat.lt_or_ge i (j + 1) with h1 | h1
        · exact le_trans (ih (by omega) (by omega)) (h.mono j (by omega))
        · rw [show i = j + 1 by omega]
    have hs := h.start_len
    refine ⟨by omega, by omega, h.start_zero, fun i hi => ⟨by omega, fun hne => ?_⟩⟩
    have h0 := hm 0 i (by omega) (by omega)
    rw [h.start_zero] at h0
    have h1 := hm (i + 1) p (by omega) (le_refl _)
    have h2 := h.inds_len
    have h3 := h.mono i hi
    refine (wrapLine_ok_iff inds other _ _ h0 hne).2 ⟨h3, by omega, h.increasing i hi, ?_⟩
    exact h.in_range i hi _ (by omega) (by omega)

/-- C82 (CRS): if no index is negative, wrapping with the check succeeds exactly for valid matrices; everything else is an exception (or an access outside the user's arrays, if these are
shorter than the pointers say). -/
theorem C82_crs_partial (nrows ncols : Nat) (start inds : Buf Int) (hnn : ∀ k, k < inds.size → 0 ≤ inds.get k) :
    (∃ mat, RawCS.wrapConst true nrows ncols start inds true = .ok mat) ↔ UserValid nrows ncols start inds := by
  rw [wrapConst_ok_iff true nrows ncols start inds nrows ncols rfl rfl]
  exact accepts_iff hnn

/-- C82 (CCS): the same for square matrices. -/
theorem C82_ccs_partial (n : Nat) (start inds : Buf Int) (hnn : ∀ k, k < inds.size → 0 ≤ inds.get k) :
    (∃ mat, RawCS.wrapConst false n n start inds true = .ok mat) ↔ UserValid n n start inds := by
  rw [wrapConst_ok_iff false n n start inds n n rfl rfl]
  exact accepts_iff hnn

/-- C82: what is accepted is wrapped as it is: the matrix has the user's pointers and indices, arrays of exactly the right lengths, and passes the library's own validation. -/
theorem C82_wrapped (rowMajor check : Bool) (nrows ncols : Nat) (start inds : Buf Int) (p other : Nat) (hp : p = if rowMajor then nrows else ncols)
    (ho : other = if rowMajor then ncols else nrows) (h : UserValid p other start inds) (hl : inds.size < 2 ^ 64) (mat : RawCS)
    (hw : RawCS.wrapConst rowMajor nrows ncols start inds check = .ok mat) :
    mat.psize = p ∧ mat.start.size = p + 1 ∧ (∀ i, i ≤ p → mat.start.get i = start.get i) ∧ (mat.inds.size : Int) = start.get p ∧ (mat.vsize : Int) = start.get p ∧
      (∀ k, mat.inds.get k = inds.get k) ∧ mat.checkValidity other = .ok () := by
  have hs := h.start_len
  have e1 : start.rd p = .ok (start.get p) := by unfold Buf.rd; rw [if_pos (by omega)]; rfl
  have e2 : start.rd 0 = .ok (start.get 0) := by unfold Buf.rd; rw [if_pos (by omega)]; rfl
  have h0 : 0 ≤ start.get p := by
    have : ∀ j, j ≤ p → 0 ≤ start.get j := by
      intro j
      induction j with
      | zero => intro _; rw [h.start_zero]
      | succ j ih => intro hj; exact le_trans (ih (by omega)) (h.mono j (by omega))
    exact this p (le_refl _)
  have hnz : ((start.get p - start.get 0) % (2 : Int) ^ 64).toNat = (start.get p).toNat := by
    rw [h.start_zero]
    have := h.inds_len
    omega
  have hm : mat = { undef := false, psize := p, start := { size := p + 1, get := start.get }, inds := { size := (start.get p).toNat, get := inds.get }, vsize := (start.get p).toNat } := by
    unfold RawCS.wrapConst at hw
    simp only [← hp, ← ho] at hw
    rw [e1, e2] at hw
    dsimp only [bind, Except.bind] at hw
    rw [hnz] at hw
    split at hw
    · split at hw
      · cases hw
      · split at hw
        · cases hw
        · cases hw; rfl
    · cases hw; rfl
  subst hm
  refine ⟨rfl, rfl, fun _ _ => rfl, Int.toNat_of_nonneg h0, Int.toNat_of_nonneg h0, fun _ => rfl, ?_⟩
  refine C09_valid_accepted _ other ⟨le_refl _, h.start_zero, h.mono, ?_, ?_, h.increasing, h.in_range⟩ rfl
  · show start.get p ≤ ((start.get p).toNat : Int); omega
  · show start.get p ≤ ((start.get p).toNat : Int); omega

/-- C82, what is missing: a negative index is accepted unless it is the last of its line (`[[*,1]]` with a first index `-1`). -/
theorem C82_negative_witness : ∃ (start inds : Buf Int), (∃ mat, RawCS.wrapConst true 1 2 start inds true = .ok mat) ∧ ¬ UserValid 1 2 start inds := by
  refine ⟨Buf.ofList [0, 2], Buf.ofList [-1, 1], ⟨_, rfl⟩, fun h => ?_⟩
  have := (h.in_range 0 (by omega) 0 (by decide) (by decide)).1
  exact absurd this (by decide)

/-- C82, what is missing: for CCS the loop runs over the rows: with fewer rows than columns an invalid column is accepted … -/
theorem C82_wide_ccs_witness : ∃ (start inds : Buf Int), (∃ mat, RawCS.wrapConst false 1 2 start inds true = .ok mat) ∧ ¬ UserValid 2 1 start inds ∧ ∀ k, k < inds.size → 0 ≤ inds.get k := by
  refine ⟨Buf.ofList [0, 1, 2], Buf.ofList [0, 7], ⟨_, rfl⟩, fun h => ?_, by decide⟩
  have := (h.in_range 1 (by omega) 1 (by decide) (by decide)).2
  exact absurd this (by decide)

/-- … and with more rows than columns the check of a valid matrix reads past the end of the pointer array. -/
theorem C82_tall_ccs_witness : ∃ (start inds : Buf Int), UserValid 1 2 start inds ∧ RawCS.wrapConst false 2 1 start inds true = .error .oob := by
  refine ⟨Buf.ofList [0, 2], Buf.ofList [0, 1], ⟨by decide, rfl, by decide, by decide, ?_, ?_⟩, rfl⟩
  · intro i hi k k1 k2
    obtain rfl : i = 0 := by omega
    have k1' : (0 : Int) < k := k1
    have k2' : (k : Int) < 2 := k2
    obtain rfl : k = 1 := by omega
    decide
  · intro i hi k k1 k2
    obtain rfl : i = 0 := by omega
    have k2' : (k : Int) < 2 := k2
    have : k = 0 ∨ k = 1 := by omega
    rcases this with rfl | rfl <;> decide

/-- Non-vacuity: `[[1,0,2],[0,3,0]]` is valid and accepted. -/
example : (∃ mat, RawCS.wrapConst true 2 3 (Buf.ofList [0, 2, 3]) (Buf.ofList [0, 2, 1]) true = .ok mat) ∧ UserValid 2 3 (Buf.ofList [0, 2, 3]) (Buf.ofList [0, 2, 1]) := by
  have h : ∃ mat, RawCS.wrapConst true 2 3 (Buf.ofList [0, 2, 3]) (Buf.ofList [0, 2, 1]) true = .ok mat := ⟨_, rfl⟩
  exact ⟨h, (C82_crs_partial 2 3 _ _ (by decide)).1 h⟩

end Hif.Props
