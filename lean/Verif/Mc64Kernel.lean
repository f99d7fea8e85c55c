import Verif.Mc64Run

set_option linter.unusedVariables false
set_option linter.unusedSectionVars false

/-!
# The weighted matching: results of the kernel
-/

namespace Hif
namespace Mc64
variable {R : Type} [Field R] [LinearOrder R] [IsStrictOrderedRing R]

/-- Number of zeros before `i`. -/
def zc (p : Buf Nat) (i : Nat) : Nat := ((Finset.Ico 1 i).filter fun x => p.get x = 0).card

theorem zc_one (p : Buf Nat) : zc p 1 = 0 := by simp [zc]

theorem zc_succ {p : Buf Nat} {i : Nat} (h : 1 ≤ i) : zc p (i + 1) = zc p i + if p.get i = 0 then 1 else 0 := by
  unfold zc
  have : Finset.Ico 1 (i + 1) = insert i (Finset.Ico 1 i) := by
    ext x; simp only [Finset.mem_insert, Finset.mem_Ico]; omega
  rw [this, Finset.filter_insert]
  split
  · rw [Finset.card_insert_of_notMem (by simp)]
  · rfl

theorem zc_end (p : Buf Nat) (n : Nat) : zc p (n + 1) + cnt n p = n := by
  unfold zc cnt
  have : Finset.Ico 1 (n + 1) = Finset.Icc 1 n := by
    ext x; simp only [Finset.mem_Icc, Finset.mem_Ico]; omega
  rw [this, Finset.card_filter_add_card_filter_not (s := Finset.Icc 1 n) (p := fun x => p.get x = 0)]
  simp

theorem zc_mono (p : Buf Nat) {i j : Nat} (h : i ≤ j) : zc p i ≤ zc p j := by
  unfold zc
  refine Finset.card_le_card ?_
  intro x; simp only [Finset.mem_filter, Finset.mem_Ico]
  rintro ⟨a, b⟩; exact ⟨by omega, b⟩

/-- Column values and row values after `dualBody`. -/
theorem dual_runs {A : Mat R} {ne : Nat} (hA : A.OK ne) {v : Nat → R} {c : St R} (h : Core A ne v c) :
    Runs (forUp 1 (A.n + 1) c fun j c => dualBody A j c) fun c' => c'.iperm = c.iperm ∧ c'.out = c.out ∧ c'.num = c.num ∧ c'.u.size = A.n + 1 ∧
      c'.d.size = A.n + 1 ∧
      (∀ i, 1 ≤ i → i ≤ A.n → c'.u.get i = if c.iperm.get i = 0 then ((0 : R) : D R) else ((v i : R) : D R)) ∧
      ∀ j, 1 ≤ j → j ≤ A.n → c'.d.get j = if c.jperm.get j = 0 then ((0 : R) : D R) else ((rc A v (c.jperm.get j) : R) : D R) := by
  have e1 := hA.irsz
  have e2 := hA.asz
  have e3 := h.usz
  have e4 := h.mt.isz
  have e4' := h.mt.jsz
  have e5 := h.dsz
  have hv : ∀ i, 1 ≤ i → i ≤ A.n → c.iperm.get i ≠ 0 → c.u.get i = ((v i : R) : D R) := by
    intro i a b e
    have r := h.mt.row i a b e
    have k := h.mt.col _ r.1 r.2.1 r.2.2.1
    have g := hA.col_rng r.1 r.2.1 k.1
    have := h.u _ g.1 g.2
    rwa [r.2.2.2] at this
  refine forUp_runs' (fun x c' => c'.iperm = c.iperm ∧ c'.jperm = c.jperm ∧ c'.out = c.out ∧ c'.num = c.num ∧ c'.u.size = A.n + 1 ∧ c'.d.size = A.n + 1 ∧
      (∀ i, 1 ≤ i → i ≤ A.n → c.iperm.get i ≠ 0 → c'.u.get i = ((v i : R) : D R)) ∧
      (∀ i, 1 ≤ i → i < x → c.iperm.get i = 0 → c'.u.get i = ((0 : R) : D R)) ∧
      ∀ j, 1 ≤ j → j < x → c'.d.get j = if c.jperm.get j = 0 then ((0 : R) : D R) else ((rc A v (c.jperm.get j) : R) : D R)) (by omega) ?_ ?_ ?_
  · exact ⟨rfl, rfl, rfl, rfl, e3, e5, hv, fun i a b => by omega, fun i a b => by omega⟩
  · rintro j c' a b ⟨k1, k2, k3, k4, k5, k6, k7, k8, k9⟩
    have fin : ∀ y : D R, y = (if c.jperm.get j = 0 then ((0 : R) : D R) else ((rc A v (c.jperm.get j) : R) : D R)) →
        Runs (do
          let d ← wr1 c'.d j y
          let pj ← rd1 c'.iperm j
          let u ← (if pj = 0 then wr1 c'.u j ((0 : R) : D R) else pure c'.u)
          pure { c' with d := d, u := u }) fun c' => c'.iperm = c.iperm ∧ c'.jperm = c.jperm ∧ c'.out = c.out ∧ c'.num = c.num ∧ c'.u.size = A.n + 1 ∧
            c'.d.size = A.n + 1 ∧
            (∀ i, 1 ≤ i → i ≤ A.n → c.iperm.get i ≠ 0 → c'.u.get i = ((v i : R) : D R)) ∧
            (∀ i, 1 ≤ i → i < j + 1 → c.iperm.get i = 0 → c'.u.get i = ((0 : R) : D R)) ∧
            ∀ x, 1 ≤ x → x < j + 1 → c'.d.get x = if c.jperm.get x = 0 then ((0 : R) : D R) else ((rc A v (c.jperm.get x) : R) : D R) := by
      intro y hy
      have hd : ∀ x, 1 ≤ x → x < j + 1 → (c'.d.set j y).get x = if c.jperm.get x = 0 then ((0 : R) : D R) else ((rc A v (c.jperm.get x) : R) : D R) := by
        intro x a1 a2
        simp only [Buf.set_get]
        by_cases e : x = j
        · rw [if_pos e, e]; exact hy
        · rw [if_neg e]; exact k9 x a1 (by omega)
      simp only [runs_bind, runs_wr1, runs_rd1]
      rw [k1]
      refine ⟨by omega, by omega, by omega, by omega, ?_⟩
      split
      · rename_i hz
        simp only [runs_wr1, runs_pure]
        refine ⟨by omega, by omega, by trivial, k2, k3, k4, k5, k6, ?_, ?_, hd⟩
        · intro i a1 a2 a3
          show (c'.u.set j _).get i = _
          simp only [Buf.set_get]; rw [if_neg]
          · exact k7 i a1 a2 a3
          · intro e; rw [e] at a3; exact a3 hz
        · intro i a1 a2 a3
          show (c'.u.set j _).get i = _
          simp only [Buf.set_get]
          by_cases e : i = j
          · rw [if_pos e]
          · rw [if_neg e]; exact k8 i a1 (by omega) a3
      · rename_i hz
        simp only [runs_pure]
        refine ⟨by trivial, k2, k3, k4, k5, k6, k7, ?_, hd⟩
        intro i a1 a2 a3
        by_cases e : i = j
        · rw [e] at a3; exact absurd a3 hz
        · exact k8 i a1 (by omega) a3
    have hk2 : c'.jperm.get j = c.jperm.get j := by rw [k2]
    have hk3 : c'.jperm.size = c.jperm.size := by rw [k2]
    unfold dualBody
    simp only [runs_bind, runs_rd1]
    rw [hk2, hk3]
    refine ⟨by omega, by omega, ?_⟩
    by_cases hz : c.jperm.get j = 0
    · rw [if_neg (not_not.2 hz)]
      have := fin ((0 : R) : D R) (by rw [if_pos hz])
      simp only [runs_bind, runs_pure, runs_rd1] at this ⊢
      exact this
    · rw [if_pos hz]
      have m := h.mt.col j a (by omega) hz
      have g := hA.col_rng a (by omega) m.1
      have r := hA.col_row a (by omega) m.1
      simp only [runs_bind, runs_rd1]
      refine ⟨by omega, by omega, by omega, by omega, by omega, by omega, ?_⟩
      rw [k7 _ r.1 r.2 (by rw [m.2]; omega), hA.cost g.1 g.2, fsub_coe]
      simp only [runs_pure]
      have := fin ((rc A v (c.jperm.get j) : R) : D R) (by rw [if_neg hz])
      simp only [runs_bind, runs_pure, runs_rd1] at this ⊢
      exact this
  · rintro c' ⟨k1, k2, k3, k4, k5, k6, k7, k8, k9⟩
    refine ⟨k1, k3, k4, k5, k6, ?_, fun j a b => k9 j a (by omega)⟩
    intro i a b
    split
    · exact k8 i a (by omega) ‹_›
    · exact k7 i a b ‹_›

/-- The permutation is completed. -/
theorem complete_runs {A : Mat R} {ne : Nat} (hA : A.OK ne) {c : St R} {iperm jperm : Buf Nat} (hm : Match A iperm jperm) (hi : c.iperm = iperm)
    (ho : c.out.size = A.n + 1) :
    Runs (complete A.n c ⟨iperm.size, fun i => (iperm.get i : Int)⟩) fun p => p.size = A.n + 1 ∧
      (∀ i, 1 ≤ i → i ≤ A.n → iperm.get i ≠ 0 → p.get i = (iperm.get i : Int)) ∧
      (∀ i, 1 ≤ i → i ≤ A.n → iperm.get i = 0 → ∃ j, 1 ≤ j ∧ j ≤ A.n ∧ jperm.get j = 0 ∧ p.get i = -(j : Int)) ∧
      ∀ i i', 1 ≤ i → i < i' → i' ≤ A.n → iperm.get i = 0 → iperm.get i' = 0 → p.get i ≠ p.get i' := by
  have e4 := hm.isz
  have hz : zc iperm (A.n + 1) = zc jperm (A.n + 1) := by
    have a := zc_end iperm A.n
    have b := zc_end jperm A.n
    have := hm.cols hA
    omega
  unfold complete
  rw [hi]
  rw [runs_bind]
  refine forUp_runs' (fun i (r : Buf Nat × Buf Nat × Nat) => r.1.size = A.n + 1 ∧ r.2.1.size = A.n + 1 ∧ r.2.2 = zc iperm i ∧
      (∀ j, 1 ≤ j → j ≤ A.n → r.1.get j ≠ 0 → ∃ i, 1 ≤ i ∧ i ≤ A.n ∧ iperm.get i = j) ∧
      (∀ x, 1 ≤ x → x < i → iperm.get x ≠ 0 → r.1.get (iperm.get x) ≠ 0) ∧
      (∀ x, 1 ≤ x → x < i → iperm.get x = 0 → r.2.1.get (zc iperm (x + 1)) = x) ∧
      (∀ p, 1 ≤ p → p ≤ r.2.2 → ∃ x, 1 ≤ x ∧ x < i ∧ iperm.get x = 0 ∧ zc iperm (x + 1) = p)) (by omega) ?_ ?_ ?_
  · refine ⟨rfl, ho, (zc_one _).symm, ?_, fun x a b => by omega, fun x a b => by omega, fun p a b => ?_⟩
    · intro j a b e; exact absurd (by simp [Buf.mk']) e
    · have b : p ≤ 0 := b; omega
  · rintro i ⟨jp, out, k⟩ a b ⟨k1, k2, k3, k4, k5, k6, k7⟩
    simp only at k1 k2 k3 k4 k5 k6 k7
    have hzs := zc_succ (p := iperm) a
    have hzn := zc_mono iperm (i := i + 1) (j := A.n + 1) (by omega)
    have hze := zc_end iperm A.n
    simp only [runs_bind, runs_rd1]
    refine ⟨by omega, by omega, ?_⟩
    split
    · rename_i hzz
      rw [if_pos hzz] at hzs
      simp only [runs_bind, runs_wr1, runs_pure]
      refine ⟨by omega, by omega, k1, k2, by omega, k4, ?_, ?_, ?_⟩
      · intro x a1 a2 a3
        refine k5 x a1 ?_ a3
        rcases Nat.lt_or_ge x i with g | g
        · exact g
        · have : x = i := by omega
          rw [this] at a3; exact absurd hzz a3
      · intro x a1 a2 a3
        simp only [Buf.set_get]
        by_cases e : x = i
        · rw [e, hzs, k3, if_pos rfl]
        · have := zc_mono iperm (i := x + 1) (j := i) (by omega)
          rw [if_neg (by omega)]; exact k6 x a1 (by omega) a3
      · intro p a1 a2
        by_cases e : p = k + 1
        · exact ⟨i, a, by omega, hzz, by omega⟩
        · obtain ⟨x, x1, x2, x3⟩ := k7 p a1 (by omega)
          exact ⟨x, x1, by omega, x3⟩
    · rename_i hzz
      rw [if_neg hzz] at hzs
      have r := hm.row i a (by omega) hzz
      simp only [runs_bind, runs_wr1, runs_pure]
      refine ⟨by omega, by omega, k1, k2, by omega, ?_, ?_, ?_, ?_⟩
      · intro j a1 a2 a3
        simp only [Buf.set_get] at a3
        by_cases e : j = iperm.get i
        · exact ⟨i, a, by omega, e.symm⟩
        · rw [if_neg e] at a3; exact k4 j a1 a2 a3
      · intro x a1 a2 a3
        simp only [Buf.set_get]
        split
        · omega
        · rename_i e
          refine k5 x a1 ?_ a3
          rcases Nat.lt_or_ge x i with g | g
          · exact g
          · have : x = i := by omega
            rw [this] at e; exact absurd rfl e
      · intro x a1 a2 a3
        refine k6 x a1 ?_ a3
        rcases Nat.lt_or_ge x i with g | g
        · exact g
        · have : x = i := by omega
          rw [this] at a3; exact absurd a3 hzz
      · intro p a1 a2
        obtain ⟨x, x1, x2, x3⟩ := k7 p a1 a2
        exact ⟨x, x1, by omega, x3⟩
  · rintro ⟨jp, out, K⟩ ⟨k1, k2, k3, k4, k5, k6, k7⟩
    simp only at k1 k2 k3 k4 k5 k6 k7
    have hjp : ∀ j, 1 ≤ j → j ≤ A.n → (jp.get j = 0 ↔ jperm.get j = 0) := by
      intro j a b
      constructor
      · intro e
        by_contra hc
        have m := hm.col j a b hc
        have r := hA.col_row a b m.1
        have := k5 _ r.1 (by omega) (by rw [m.2]; omega)
        rw [m.2] at this; exact this e
      · intro e
        by_contra hc
        obtain ⟨i, i1, i2, i3⟩ := k4 j a b hc
        have := hm.row i i1 i2 (by rw [i3]; omega)
        rw [i3] at this; exact this.2.2.1 e
    rw [runs_bind]
    refine forUp_runs' (fun j (s : Buf Int × Nat) => s.1.size = A.n + 1 ∧ s.2 = zc jperm j ∧
      (∀ i, 1 ≤ i → i ≤ A.n → iperm.get i ≠ 0 → s.1.get i = (iperm.get i : Int)) ∧
      (∀ i, 1 ≤ i → i ≤ A.n → iperm.get i = 0 → zc iperm (i + 1) ≤ s.2 → ∃ x, 1 ≤ x ∧ x < j ∧ jperm.get x = 0 ∧ zc jperm (x + 1) = zc iperm (i + 1) ∧
        s.1.get i = -(x : Int))) (by omega) ?_ ?_ ?_
    · refine ⟨e4, (zc_one _).symm, fun _ _ _ _ => rfl, ?_⟩
      intro i a b e g
      have g : zc iperm (i + 1) ≤ 0 := g
      rw [zc_succ a, if_pos e] at g; omega
    · rintro j ⟨ip, m⟩ a b ⟨m1, m2, m3, m4⟩
      simp only at m1 m2 m3 m4
      have hzs := zc_succ (p := jperm) a
      have hzn := zc_mono jperm (i := j + 1) (j := A.n + 1) (by omega)
      simp only [runs_bind, runs_rd1]
      refine ⟨by omega, by omega, ?_⟩
      by_cases e : jp.get j = 0
      · rw [if_neg (not_not.2 e)]
        have e' := (hjp j a (by omega)).1 e
        rw [if_pos e'] at hzs
        obtain ⟨i, i1, i2, i3, i4⟩ := k7 (m + 1) (by omega) (by omega)
        have hout := k6 i i1 i2 i3
        rw [i4] at hout
        have hze := zc_end jperm A.n
        simp only [runs_bind, runs_rd1, runs_wr1, runs_pure]
        rw [hout]
        refine ⟨by omega, by omega, by omega, by omega, m1, by omega, ?_, ?_⟩
        · intro x a1 a2 a3
          simp only [Buf.set_get]; rw [if_neg]
          · exact m3 x a1 a2 a3
          · intro g; rw [g] at a3; exact a3 i3
        · intro x a1 a2 a3 a4
          simp only [Buf.set_get]
          by_cases g : x = i
          · rw [if_pos g]
            exact ⟨j, a, by omega, e', by rw [g, i4]; omega, rfl⟩
          · rw [if_neg g]
            have hx := k6 x a1 (by omega) a3
            have hne : zc iperm (x + 1) ≠ m + 1 := by
              intro g'; rw [g', hout] at hx; exact g hx.symm
            obtain ⟨y, y1, y2, y3⟩ := m4 x a1 a2 a3 (by omega)
            exact ⟨y, y1, by omega, y3⟩
      · rw [if_pos e]
        have e' : jperm.get j ≠ 0 := fun g => e ((hjp j a (by omega)).2 g)
        rw [if_neg e'] at hzs
        simp only [runs_pure]
        refine ⟨m1, by omega, m3, ?_⟩
        intro x a1 a2 a3 a4
        obtain ⟨y, y1, y2, y3⟩ := m4 x a1 a2 a3 a4
        exact ⟨y, y1, by omega, y3⟩
    · rintro ⟨ip, m⟩ ⟨m1, m2, m3, m4⟩
      simp only at m1 m2 m3 m4
      simp only [runs_pure]
      refine ⟨m1, m3, ?_, ?_⟩
      · intro i a b e
        obtain ⟨x, x1, x2, x3, _, x5⟩ := m4 i a b e (by have := zc_mono iperm (i := i + 1) (j := A.n + 1) (by omega); omega)
        exact ⟨x, x1, by omega, x3, x5⟩
      · intro i i' a b c e e' g
        obtain ⟨x, x1, x2, x3, x4, x5⟩ := m4 i a (by omega) e (by have := zc_mono iperm (i := i + 1) (j := A.n + 1) (by omega); omega)
        obtain ⟨y, y1, y2, y3, y4, y5⟩ := m4 i' (by omega) c e' (by have := zc_mono iperm (i := i' + 1) (j := A.n + 1) (by omega); omega)
        have hxy : x = y := by rw [x5, y5] at g; omega
        have h1 := zc_mono iperm (i := i + 1) (j := i') (by omega)
        have h2 := zc_succ (p := iperm) (i := i') (by omega)
        rw [if_pos e'] at h2
        rw [hxy] at x4; omega

/-- What `kernel` returns for a matrix: a permutation up to sign, finite values, the assigned entries tight, the other entries of assigned rows and
columns dominated. -/
structure KOut (A : Mat R) (o : Out R) : Prop where
  psz : o.perm.size = A.n + 1
  usz : o.u.size = A.n + 1
  dsz : o.d.size = A.n + 1
  rng : ∀ i, 1 ≤ i → i ≤ A.n → 1 ≤ (o.perm.get i).natAbs ∧ (o.perm.get i).natAbs ≤ A.n
  inj : ∀ i i', 1 ≤ i → i ≤ A.n → 1 ≤ i' → i' ≤ A.n → (o.perm.get i).natAbs = (o.perm.get i').natAbs → i = i'
  ufin : ∀ i, 1 ≤ i → i ≤ A.n → o.u.get i ≠ ⊤
  dfin : ∀ j, 1 ≤ j → j ≤ A.n → o.d.get j ≠ ⊤
  num : o.num = ((Finset.Icc 1 A.n).filter fun i => 0 < o.perm.get i).card
  ent : ∀ i, 1 ≤ i → i ≤ A.n → 0 < o.perm.get i → ∃ k, A.col (o.perm.get i).natAbs k ∧ A.irn.get k = i ∧
    val o.u i + val o.d (o.perm.get i).natAbs = val A.a k
  feas : ∀ i j k, 1 ≤ i → i ≤ A.n → 0 < o.perm.get i → 1 ≤ j → j ≤ A.n → (∃ i', 1 ≤ i' ∧ i' ≤ A.n ∧ o.perm.get i' = (j : Int)) → A.col j k → A.irn.get k = i →
    val o.u i + val o.d j ≤ val A.a k

theorem cleanup_runs {A : Mat R} {ne : Nat} (hA : A.OK ne) {v : Nat → R} {c : St R} (h : Core A ne v c) :
    Runs (cleanup A c) fun o => KOut A o ∧ o.num = c.num := by
  unfold cleanup
  simp only [runs_bind]
  refine (dual_runs hA h).mono ?_
  rintro c' ⟨k1, k2, k3, k4, k5, k6, k7⟩
  -- the part that does not depend on the completion
  have key : ∀ p : Buf Int, p.size = A.n + 1 → (∀ i, 1 ≤ i → i ≤ A.n → c.iperm.get i ≠ 0 → p.get i = (c.iperm.get i : Int)) →
      (∀ i, 1 ≤ i → i ≤ A.n → c.iperm.get i = 0 → ∃ j, 1 ≤ j ∧ j ≤ A.n ∧ c.jperm.get j = 0 ∧ p.get i = -(j : Int)) →
      (∀ i i', 1 ≤ i → i < i' → i' ≤ A.n → c.iperm.get i = 0 → c.iperm.get i' = 0 → p.get i ≠ p.get i') →
      KOut A ⟨p, c'.u, c'.d, c'.num⟩ ∧ c'.num = c.num := by
    intro p p1 p2 p3 p4
    have hpos : ∀ i, 1 ≤ i → i ≤ A.n → (0 < p.get i ↔ c.iperm.get i ≠ 0) := by
      intro i a b
      constructor
      · intro g e
        obtain ⟨j, j1, j2, j3, j4⟩ := p3 i a b e
        omega
      · intro e; rw [p2 i a b e]; omega
    have hrow : ∀ i, 1 ≤ i → i ≤ A.n → 0 < p.get i → c.iperm.get i ≠ 0 ∧ (p.get i).natAbs = c.iperm.get i := by
      intro i a b g
      have e := (hpos i a b).1 g
      exact ⟨e, by rw [p2 i a b e]; exact Int.natAbs_natCast _⟩
    have hu : ∀ i, 1 ≤ i → i ≤ A.n → c.iperm.get i ≠ 0 → val c'.u i = v i := by
      intro i a b e
      unfold val; rw [k6 i a b, if_neg e]; rfl
    have hd : ∀ j, 1 ≤ j → j ≤ A.n → c.jperm.get j ≠ 0 → val c'.d j = rc A v (c.jperm.get j) := by
      intro j a b e
      unfold val; rw [k7 j a b, if_neg e]; rfl
    refine ⟨⟨p1, k4, k5, ?_, ?_, ?_, ?_, ?_, ?_, ?_⟩, k3⟩
    · intro i a b
      show 1 ≤ (p.get i).natAbs ∧ (p.get i).natAbs ≤ A.n
      by_cases e : c.iperm.get i = 0
      · obtain ⟨j, j1, j2, j3, j4⟩ := p3 i a b e
        rw [j4, Int.natAbs_neg, Int.natAbs_natCast]; exact ⟨j1, j2⟩
      · rw [p2 i a b e, Int.natAbs_natCast]
        have := h.mt.row i a b e
        exact ⟨this.1, this.2.1⟩
    · have sym : ∀ i i', 1 ≤ i → i < i' → i' ≤ A.n → (p.get i).natAbs ≠ (p.get i').natAbs := by
        intro i i' a b c' g
        by_cases e : c.iperm.get i = 0 <;> by_cases e' : c.iperm.get i' = 0
        · obtain ⟨j, j1, j2, j3, j4⟩ := p3 i a (by omega) e
          obtain ⟨j', j1', j2', j3', j4'⟩ := p3 i' (by omega) c' e'
          have := p4 i i' a b c' e e'
          omega
        · obtain ⟨j, j1, j2, j3, j4⟩ := p3 i a (by omega) e
          have r := h.mt.row i' (by omega) c' e'
          rw [j4, Int.natAbs_neg, Int.natAbs_natCast, p2 i' (by omega) c' e', Int.natAbs_natCast] at g
          rw [← g] at r; exact r.2.2.1 j3
        · obtain ⟨j, j1, j2, j3, j4⟩ := p3 i' (by omega) c' e'
          have r := h.mt.row i a (by omega) e
          rw [j4, Int.natAbs_neg, Int.natAbs_natCast, p2 i a (by omega) e, Int.natAbs_natCast] at g
          rw [g] at r; exact r.2.2.1 j3
        · have r := h.mt.row i a (by omega) e
          have r' := h.mt.row i' (by omega) c' e'
          rw [p2 i a (by omega) e, p2 i' (by omega) c' e', Int.natAbs_natCast, Int.natAbs_natCast] at g
          rw [g, r'.2.2.2] at r; omega
      intro i i' a b a' b' g
      rcases Nat.lt_trichotomy i i' with q | q | q
      · exact absurd g (sym i i' a q b')
      · exact q
      · exact absurd g.symm (sym i' i a' q b)
    · intro i a b
      show c'.u.get i ≠ ⊤
      rw [k6 i a b]; split <;> exact WithTop.coe_ne_top
    · intro i a b
      show c'.d.get i ≠ ⊤
      rw [k7 i a b]; split <;> exact WithTop.coe_ne_top
    · show c'.num = _
      rw [k3, h.num]
      unfold cnt
      congr 1
      ext i
      simp only [Finset.mem_filter, Finset.mem_Icc]
      constructor
      · rintro ⟨a, b⟩; exact ⟨a, (hpos i a.1 a.2).2 b⟩
      · rintro ⟨a, b⟩; exact ⟨a, (hpos i a.1 a.2).1 b⟩
    · intro i a b g
      obtain ⟨e, e'⟩ := hrow i a b g
      have r := h.mt.row i a b e
      have m := h.mt.col _ r.1 r.2.1 r.2.2.1
      show ∃ k, A.col (p.get i).natAbs k ∧ A.irn.get k = i ∧ val c'.u i + val c'.d (p.get i).natAbs = val A.a k
      rw [e']
      refine ⟨c.jperm.get (c.iperm.get i), m.1, r.2.2.2, ?_⟩
      rw [hu i a b e, hd _ r.1 r.2.1 r.2.2.1]
      unfold rc; rw [r.2.2.2]; linarith
    · intro i j k a b g j1 j2 hj hk hki
      obtain ⟨e, e'⟩ := hrow i a b g
      obtain ⟨i', i1, i2, i3⟩ := hj
      obtain ⟨f, f'⟩ := hrow i' i1 i2 (by show 0 < p.get i'; rw [show p.get i' = (j : Int) from i3]; omega)
      rw [show p.get i' = (j : Int) from i3, Int.natAbs_natCast] at f'
      have r := h.mt.row i' i1 i2 f
      rw [← f'] at r
      show val c'.u i + val c'.d j ≤ val A.a k
      rw [hu i a b e, hd j j1 j2 r.2.2.1]
      have := h.tight j j1 j2 r.2.2.1 k hk
      unfold rc at this ⊢; rw [hki] at this; linarith
  have hsz : c'.iperm.size = A.n + 1 := by rw [k1]; exact h.mt.isz
  split
  · rename_i hn
    simp only [runs_pure]
    have hfull : ∀ i, 1 ≤ i → i ≤ A.n → c.iperm.get i ≠ 0 := cnt_eq_n (by rw [← h.num, ← k3]; exact hn)
    exact key _ hsz (fun i a b e => by show ((c'.iperm.get i : Nat) : Int) = _; rw [k1]) (fun i a b e => absurd e (hfull i a b))
      (fun i i' a b g e => absurd e (hfull i a (by omega)))
  · simp only [runs_bind]
    have := complete_runs hA (c := c') h.mt k1 (by rw [k2]; exact h.osz)
    rw [← k1] at this
    refine this.mono ?_
    rintro p ⟨q1, q2, q3, q4⟩
    rw [k1] at q2 q3 q4
    simp only [runs_pure]
    exact key p q1 q2 q3 q4

theorem prepMain_runs {A : Mat R} {ne : Nat} {v : Nat → R} {c : St R} (h : Core A ne v c) :
    Runs (prepMain A c) fun c' => Idle A ne v c' ∧ c'.jperm = c.jperm := by
  have e5 := h.dsz
  have e7 := h.lsz
  unfold prepMain
  refine forUp_runs' (fun i c' => OnlyDL c c' ∧ ∀ x, 1 ≤ x → x < i → c'.d.get x = ⊤ ∧ c'.l.get x = 0) (by omega) ?_ ?_ ?_
  · exact ⟨⟨rfl, rfl, rfl, rfl, rfl, rfl, rfl, rfl, rfl⟩, fun x a b => by omega⟩
  · rintro i c' a b ⟨o, k⟩
    have a1 := o.dsz
    have a2 := o.lsz
    simp only [runs_bind, runs_wr1, runs_pure]
    refine ⟨by omega, by omega, by omega, by omega, ⟨o.ip, o.jp, o.out, o.pr, o.q, o.u, o.num, a1, a2⟩, ?_⟩
    intro x b1 b2
    show (c'.d.set _ _).get x = ⊤ ∧ (c'.l.set _ _).get x = 0
    simp only [Buf.set_get]
    by_cases e : x = i
    · rw [if_pos e, if_pos e]; exact ⟨rfl, rfl⟩
    · rw [if_neg e, if_neg e]; exact k x b1 (by omega)
  · rintro c' ⟨o, k⟩
    exact ⟨⟨h.dl o, fun i a b => (k i a (by omega)).1, fun i a b => (k i a (by omega)).2⟩, o.jp⟩

/-- No matching of the pattern has more than `num` columns. -/
def MaxM (A : Mat R) (num : Nat) : Prop :=
  ∀ (X : Finset Nat) (f : Nat → Nat), (∀ j ∈ X, 1 ≤ j ∧ j ≤ A.n ∧ ∃ k, A.col j k ∧ A.irn.get k = f j) →
    (∀ j ∈ X, ∀ j' ∈ X, f j = f j' → j = j') → X.card ≤ num

/-- Before column `j` of the main loop: the columns that could not be assigned lie in a set that has entries in too few rows. -/
structure Hall (A : Mat R) (iperm jperm : Buf Nat) (j : Nat) (J F : Finset Nat) : Prop where
  cl : Closed A J F
  un : ∀ x, (x ∈ J ∧ jperm.get x = 0) ↔ (1 ≤ x ∧ x < j ∧ jperm.get x = 0)
  full : ∀ i ∈ F, 1 ≤ i ∧ i ≤ A.n ∧ iperm.get i ≠ 0 ∧ iperm.get i ∈ J

/-- The assigned columns of a closed set with assigned rows. -/
theorem Hall.card {A : Mat R} {ne : Nat} (hA : A.OK ne) {iperm jperm : Buf Nat} (hm : Match A iperm jperm) {J F : Finset Nat} (cl : Closed A J F)
    (full : ∀ i ∈ F, 1 ≤ i ∧ i ≤ A.n ∧ iperm.get i ≠ 0 ∧ iperm.get i ∈ J) : (J.filter fun x => jperm.get x ≠ 0).card = F.card := by
  apply Nat.le_antisymm
  · refine Finset.card_le_card_of_injOn (fun x => A.irn.get (jperm.get x)) ?_ ?_
    · intro x hx
      rw [Finset.mem_coe, Finset.mem_filter] at hx
      have hr := cl.1 x hx.1
      exact cl.2 x hx.1 _ (hm.col x hr.1 hr.2 hx.2).1
    · intro x hx y hy e
      rw [Finset.mem_coe, Finset.mem_filter] at hx hy
      have hr := cl.1 x hx.1
      have hs := cl.1 y hy.1
      rw [← (hm.col x hr.1 hr.2 hx.2).2, ← (hm.col y hs.1 hs.2 hy.2).2]
      exact congrArg _ e
  · refine Finset.card_le_card_of_injOn (fun i => iperm.get i) ?_ ?_
    · intro i hi
      have := full i hi
      rw [Finset.mem_coe, Finset.mem_filter]
      exact ⟨this.2.2.2, (hm.row i this.1 this.2.1 this.2.2.1).2.2.1⟩
    · intro i hi i' hi' e
      have h1 := full i hi
      have h2 := full i' hi'
      rw [← (hm.row i h1.1 h1.2.1 h1.2.2.1).2.2.2, ← (hm.row i' h2.1 h2.2.1 h2.2.2.1).2.2.2]
      rw [show iperm.get i = iperm.get i' from e]

/-- A closed set whose columns stay assigned keeps its rows. -/
theorem Hall.keep {A : Mat R} {ne : Nat} (hA : A.OK ne) {ip jp ip' jp' : Buf Nat} (hm : Match A ip jp) (hm' : Match A ip' jp') {J F : Finset Nat}
    (cl : Closed A J F) (full : ∀ i ∈ F, 1 ≤ i ∧ i ≤ A.n ∧ ip.get i ≠ 0 ∧ ip.get i ∈ J) (hk : ∀ x ∈ J, jp'.get x ≠ 0 ↔ jp.get x ≠ 0) :
    ∀ i ∈ F, 1 ≤ i ∧ i ≤ A.n ∧ ip'.get i ≠ 0 ∧ ip'.get i ∈ J := by
  have hc := Hall.card hA hm cl full
  have he : (J.filter fun x => jp'.get x ≠ 0) = J.filter fun x => jp.get x ≠ 0 := Finset.filter_congr hk
  rw [← he] at hc
  have hinj : Set.InjOn (fun x => A.irn.get (jp'.get x)) (J.filter fun x => jp'.get x ≠ 0) := by
    intro x hx y hy e
    rw [Finset.mem_coe, Finset.mem_filter] at hx hy
    have hr := cl.1 x hx.1
    have hs := cl.1 y hy.1
    rw [← (hm'.col x hr.1 hr.2 hx.2).2, ← (hm'.col y hs.1 hs.2 hy.2).2]
    exact congrArg _ e
  have himg : (J.filter fun x => jp'.get x ≠ 0).image (fun x => A.irn.get (jp'.get x)) = F := by
    apply Finset.eq_of_subset_of_card_le
    · intro i hi
      rw [Finset.mem_image] at hi
      obtain ⟨x, hx, e⟩ := hi
      rw [Finset.mem_filter] at hx
      have hr := cl.1 x hx.1
      rw [← e]; exact cl.2 x hx.1 _ (hm'.col x hr.1 hr.2 hx.2).1
    · rw [Finset.card_image_of_injOn hinj, hc]
  intro i hi
  have hi' := hi
  rw [← himg, Finset.mem_image] at hi'
  obtain ⟨x, hx, e⟩ := hi'
  rw [Finset.mem_filter] at hx
  have hr := cl.1 x hx.1
  have hcx := (hm'.col x hr.1 hr.2 hx.2).2
  have e' : A.irn.get (jp'.get x) = i := e
  rw [e'] at hcx
  have hfu := full i hi
  exact ⟨hfu.1, hfu.2.1, by rw [hcx]; omega, by rw [hcx]; exact hx.1⟩

/-- One column of the main loop. -/
theorem Hall.step {A : Mat R} {ne : Nat} (hA : A.OK ne) {ip jp ip' jp' : Buf Nat} (hm : Match A ip jp) (hm' : Match A ip' jp') {j : Nat}
    (j1 : 1 ≤ j) (j2 : j ≤ A.n) {J F : Finset Nat} (h : Hall A ip jp j J F)
    (hk : ∀ x, 1 ≤ x → x ≤ A.n → (jp'.get x ≠ 0 ↔ jp.get x ≠ 0 ∨ x = j ∧ jp'.get j ≠ 0)) (hf : jp'.get j ≠ 0 ∨ Failed A ip' jp' j) :
    ∃ J' F', Hall A ip' jp' (j + 1) J' F' := by
  have hkJ : ∀ x ∈ J, jp'.get x ≠ 0 ↔ jp.get x ≠ 0 := by
    intro x hx
    have hr := h.cl.1 x hx
    rw [hk x hr.1 hr.2]
    refine ⟨fun e => e.elim id fun e => ?_, Or.inl⟩
    intro hz
    have := (h.un x).1 ⟨hx, hz⟩
    omega
  have hkeep := Hall.keep hA hm hm' h.cl h.full hkJ
  have hlt : ∀ x, 1 ≤ x → x < j → (jp'.get x = 0 ↔ jp.get x = 0) := by
    intro x a b
    have := hk x a (by omega)
    constructor
    · intro e; by_contra e2; exact (this.2 (Or.inl e2)) e
    · intro e; by_contra e2
      rcases this.1 e2 with g | g
      · exact g e
      · omega
  by_cases hz : jp'.get j = 0
  · obtain ⟨J', F', k1, k2, k3, k4⟩ := hf.resolve_left (not_not.2 hz)
    refine ⟨J ∪ J', F ∪ F', ⟨?_, ?_⟩, ?_, ?_⟩
    · intro x hx
      rcases Finset.mem_union.1 hx with g | g
      · exact h.cl.1 x g
      · exact k1.1 x g
    · intro x hx k hk'
      rcases Finset.mem_union.1 hx with g | g
      · exact Finset.mem_union_left _ (h.cl.2 x g k hk')
      · exact Finset.mem_union_right _ (k1.2 x g k hk')
    · intro x
      constructor
      · rintro ⟨hx, hx0⟩
        rcases Finset.mem_union.1 hx with g | g
        · have := (h.un x).1 ⟨g, by
            by_contra e; exact (hkJ x g).2 e hx0⟩
          exact ⟨this.1, by omega, hx0⟩
        · by_cases e : x = j
          · exact ⟨by omega, by omega, hx0⟩
          · exact absurd hx0 (k3 x g e)
      · rintro ⟨a, b, c⟩
        refine ⟨?_, c⟩
        by_cases e : x = j
        · rw [e]; exact Finset.mem_union_right _ k2
        · exact Finset.mem_union_left _ ((h.un x).2 ⟨a, by omega, (hlt x a (by omega)).1 c⟩).1
    · intro i hi
      rcases Finset.mem_union.1 hi with g | g
      · have := hkeep i g
        exact ⟨this.1, this.2.1, this.2.2.1, Finset.mem_union_left _ this.2.2.2⟩
      · have := k4 i g
        exact ⟨this.1, this.2.1, this.2.2.1, Finset.mem_union_right _ this.2.2.2⟩
  · refine ⟨J, F, h.cl, ?_, hkeep⟩
    intro x
    constructor
    · rintro ⟨hx, hx0⟩
      have := (h.un x).1 ⟨hx, by by_contra e; exact (hkJ x hx).2 e hx0⟩
      exact ⟨this.1, by omega, hx0⟩
    · rintro ⟨a, b, c⟩
      by_cases e : x = j
      · rw [e] at c; exact absurd c hz
      · exact ⟨((h.un x).2 ⟨a, by omega, (hlt x a (by omega)).1 c⟩).1, c⟩

/-- Counting: a closed set bounds every matching. -/
theorem Hall.max {A : Mat R} {ne : Nat} (hA : A.OK ne) {ip jp : Buf Nat} (hm : Match A ip jp) {J F : Finset Nat} (h : Hall A ip jp (A.n + 1) J F) :
    MaxM A (cnt A.n jp) := by
  intro X f hX hf
  have hc := Hall.card hA hm h.cl h.full
  have h1 : (X ∩ J).card ≤ F.card := by
    refine Finset.card_le_card_of_injOn f ?_ ?_
    · intro x hx
      rw [Finset.mem_coe, Finset.mem_inter] at hx
      obtain ⟨-, -, k, k1, k2⟩ := hX x hx.1
      rw [← k2]; exact h.cl.2 x hx.2 k k1
    · intro x hx y hy e
      rw [Finset.mem_coe, Finset.mem_inter] at hx hy
      exact hf x hx.1 y hy.1 e
  have hJ : J ⊆ Finset.Icc 1 A.n := fun x hx => Finset.mem_Icc.2 (h.cl.1 x hx)
  have hsub : (X \ J) ∪ (J.filter fun x => jp.get x ≠ 0) ⊆ (Finset.Icc 1 A.n).filter fun x => jp.get x ≠ 0 := by
    intro x hx
    rw [Finset.mem_filter]
    rcases Finset.mem_union.1 hx with g | g
    · rw [Finset.mem_sdiff] at g
      obtain ⟨a, b, -⟩ := hX x g.1
      refine ⟨Finset.mem_Icc.2 ⟨a, b⟩, fun e => g.2 ((h.un x).2 ⟨a, by omega, e⟩).1⟩
    · rw [Finset.mem_filter] at g
      exact ⟨hJ g.1, g.2⟩
  have hdis : Disjoint (X \ J) (J.filter fun x => jp.get x ≠ 0) := by
    rw [Finset.disjoint_left]
    intro x a b
    exact (Finset.mem_sdiff.1 a).2 (Finset.mem_filter.1 b).1
  have h2 := Finset.card_le_card hsub
  rw [Finset.card_union_of_disjoint hdis, hc] at h2
  have h3 := Finset.card_sdiff_add_card_inter X J
  unfold cnt
  omega

theorem MaxM.all {A : Mat R} : MaxM A A.n := by
  intro X f hX _
  have : X ⊆ Finset.Icc 1 A.n := fun x hx => Finset.mem_Icc.2 ⟨(hX x hx).1, (hX x hx).2.1⟩
  have := Finset.card_le_card this
  simpa using this

/-- **The matching kernel**: it stays inside its arrays, returns a permutation with tight values, and assigns as many columns as any matching. -/
theorem kernel_runs {A : Mat R} {ne : Nat} (hA : A.OK ne) (hS : Short A) (junk : Nat → Nat) :
    Runs (kernel A junk) fun o => KOut A o ∧ MaxM A o.num := by
  unfold kernel
  simp only [runs_bind]
  refine (start_runs hA junk).mono ?_
  intro c0 h0
  refine (initU_runs hA h0.1).mono ?_
  intro c1 h1
  refine (cheap_runs hA h1.1 (by rw [h1.2.1]; exact h0.2.1) (by rw [h1.2.2.1]; exact h0.2.2.1) (by rw [h1.2.2.2.2.1]; exact h0.2.2.2.1)
    (by rw [h1.2.2.2.2.2.1]; exact h0.2.2.2.2.1) (by rw [h1.2.2.2.2.2.2]; exact h0.2.2.2.2.2.1) (by rw [h1.2.2.2.1]; exact h0.2.2.2.2.2.2.1)
    (fun j a b => by rw [h1.2.2.2.1]; exact h0.2.2.2.2.2.2.2 j a b)).mono ?_
  intro c2 h2
  split
  · rename_i hn
    exact (cleanup_runs hA h2.toCore).mono fun o ho => ⟨ho.1, by rw [ho.2, hn]; exact MaxM.all⟩
  · simp only [runs_bind]
    refine (scanCols_runs hA h2).mono ?_
    rintro c3 ⟨h3, _⟩
    split
    · rename_i hn
      exact (cleanup_runs hA h3.toCore).mono fun o ho => ⟨ho.1, by rw [ho.2, hn]; exact MaxM.all⟩
    · simp only [runs_bind]
      refine (prepMain_runs h3.toCore).mono ?_
      rintro c4 ⟨h4, _⟩
      refine forUp_runs' (fun j c => ∃ v', Idle A ne v' c ∧ ∃ J F, Hall A c.iperm c.jperm j J F) (by omega)
        ⟨_, h4, ∅, ∅, ⟨fun j hj => by simp at hj, fun j hj => by simp at hj⟩, fun x => ⟨fun e => by simp at e, fun e => by omega⟩, fun i hi => by simp at hi⟩ ?_ ?_
      · rintro j c a b ⟨v', k1, J, F, k2⟩
        refine (mainBody_runs hA hS a (by omega) k1).mono ?_
        rintro c' ⟨v'', m1, m2, m3⟩
        exact ⟨v'', m1, Hall.step hA k1.mt m1.mt a (by omega) k2 m2 m3⟩
      · rintro c ⟨v', k1, J, F, k2⟩
        refine (cleanup_runs hA k1.toCore).mono ?_
        rintro o ⟨o1, o2⟩
        refine ⟨o1, ?_⟩
        rw [o2, k1.num, k1.mt.cols hA]
        exact Hall.max hA k1.mt k2

/-- A perfect matching of the pattern. -/
def Perfect (A : Mat R) (f : Nat → Nat) : Prop :=
  (∀ j, 1 ≤ j → j ≤ A.n → ∃ k, A.col j k ∧ A.irn.get k = f j) ∧ ∀ j j', 1 ≤ j → j ≤ A.n → 1 ≤ j' → j' ≤ A.n → f j = f j' → j = j'

theorem Perfect.le {A : Mat R} {f : Nat → Nat} (h : Perfect A f) {num : Nat} (hm : MaxM A num) : A.n ≤ num := by
  have := hm (Finset.Icc 1 A.n) f (fun j hj => by
    rw [Finset.mem_Icc] at hj; exact ⟨hj.1, hj.2, h.1 j hj.1 hj.2⟩) (fun j hj j' hj' e => by
    rw [Finset.mem_Icc] at hj hj'; exact h.2 j j' hj.1 hj.2 hj'.1 hj'.2 e)
  simpa using this

end Mc64
end Hif
