import Verif.SyEig
import Mathlib.Data.List.Perm.Basic

set_option linter.unusedVariables false

/-! # The symmetric dense solver: lemmas -/

namespace Hif
namespace SyEig
open Finset

section order
variable {R : Type _} [Field R] [LinearOrder R]

theorem maxAbs_spec (w : Buf R) : ∀ (n i best : Nat), best < i →
    (maxAbs w n i best = best ∨ (i ≤ maxAbs w n i best ∧ maxAbs w n i best < i + n)) ∧ |w.get best| ≤ |w.get (maxAbs w n i best)| ∧
      ∀ t, i ≤ t → t < i + n → |w.get t| ≤ |w.get (maxAbs w n i best)|
  | 0, i, best, _ => ⟨Or.inl rfl, le_refl _, fun t h1 h2 => by omega⟩
  | n + 1, i, best, hb => by
    rw [maxAbs]
    split
    · rename_i h
      obtain ⟨h1, h2, h3⟩ := maxAbs_spec w n (i + 1) i (by omega)
      refine ⟨?_, h.le.trans h2, fun t t1 t2 => ?_⟩
      · right
        rcases h1 with h1 | h1 <;> omega
      · by_cases e : t = i
        · rw [e]; exact h2
        · exact h3 t (by omega) (by omega)
    · rename_i h
      obtain ⟨h1, h2, h3⟩ := maxAbs_spec w n (i + 1) best (by omega)
      refine ⟨?_, h2, fun t t1 t2 => ?_⟩
      · rcases h1 with h1 | h1
        · exact Or.inl h1
        · right; omega
      · by_cases e : t = i
        · rw [e]; exact (not_lt.mp h).trans h2
        · exact h3 t (by omega) (by omega)

/-- The position found is that of an eigenvalue of largest magnitude. -/
theorem maxAbs_max (w : Buf R) {n : Nat} (hn : 0 < n) : maxAbs w (n - 1) 1 0 < n ∧ ∀ t, t < n → |w.get t| ≤ |w.get (maxAbs w (n - 1) 1 0)| := by
  obtain ⟨h1, h2, h3⟩ := maxAbs_spec w (n - 1) 1 0 (by omega)
  refine ⟨by omega, fun t ht => ?_⟩
  by_cases e : t = 0
  · rw [e]; exact h2
  · exact h3 t (by omega) (by omega)

theorem dropBack_runs (w : Buf R) (refuse : R → Bool) (idx : Buf Nat) : ∀ i, i ≤ idx.size → (∀ t, t < i → idx.get t < w.size) →
    Runs (dropBack w refuse idx i) fun r => r ≤ i ∧ (∀ t, r ≤ t → t < i → refuse (w.get (idx.get t)) = true) ∧ (0 < r → refuse (w.get (idx.get (r - 1))) = false)
  | 0, _, _ => by
    rw [dropBack, runs_pure]
    exact ⟨le_refl _, fun t h1 h2 => by omega, fun h => by omega⟩
  | i + 1, hi, hw => by
    rw [dropBack]
    simp only [runs_bind, runs_rd]
    refine ⟨by omega, hw i (by omega), ?_⟩
    split
    · rename_i h
      refine (dropBack_runs w refuse idx i (by omega) (fun t ht => hw t (by omega))).mono ?_
      rintro r ⟨r1, r2, r3⟩
      refine ⟨by omega, fun t t1 t2 => ?_, r3⟩
      by_cases e : t = i
      · rw [e]; exact h
      · exact r2 t t1 (by omega)
    · rename_i h
      rw [runs_pure]
      refine ⟨le_refl _, fun t t1 t2 => by omega, fun _ => ?_⟩
      simpa using h

theorem dropFront_runs (w : Buf R) (refuse : R → Bool) : ∀ k i, i + k = w.size →
    Runs (dropFront w refuse k i) fun r => r ≤ k ∧ (∀ t, i ≤ t → t < i + k - r → refuse (w.get t) = true) ∧ (0 < r → refuse (w.get (i + k - r)) = false)
  | 0, i, _ => by
    rw [dropFront, runs_pure]
    exact ⟨le_refl _, fun t h1 h2 => by omega, fun h => by omega⟩
  | k + 1, i, hw => by
    rw [dropFront]
    simp only [runs_bind, runs_rd]
    refine ⟨by omega, ?_⟩
    split
    · rename_i h
      refine (dropFront_runs w refuse k (i + 1) (by omega)).mono ?_
      rintro r ⟨r1, r2, r3⟩
      refine ⟨by omega, fun t t1 t2 => ?_, fun hr => ?_⟩
      · by_cases e : t = i
        · rw [e]; exact h
        · exact r2 t (by omega) (by omega)
      · have := r3 hr
        rwa [show i + 1 + k - r = i + (k + 1) - r by omega] at this
    · rename_i h
      rw [runs_pure]
      refine ⟨le_refl _, fun t t1 t2 => by omega, fun _ => ?_⟩
      rw [show i + (k + 1) - (k + 1) = i by omega]
      simpa using h

end order

/-- `o` lists `0,…,n-1` in some order. -/
def IsOrder (n : Nat) (o : Buf Nat) : Prop := o.size = n ∧ (∀ t, t < n → o.get t < n) ∧ ∀ s, s < n → ∀ t, t < n → o.get s = o.get t → s = t

theorem IsOrder.surj {n : Nat} {o : Buf Nat} (h : IsOrder n o) {i : Nat} (hi : i < n) : ∃ t, t < n ∧ o.get t = i := by
  have hinj : Set.InjOn o.get (range n : Finset Nat) := fun s hs t ht e => h.2.2 s (by simpa using hs) t (by simpa using ht) e
  have hm : ∀ t ∈ range n, o.get t ∈ range n := fun t ht => by
    rw [mem_range] at ht ⊢; exact h.2.1 t ht
  have := Finset.surj_on_of_inj_on_of_card_le (s := range n) (t := range n) (fun t _ => o.get t) hm
    (fun s t hs ht e => hinj hs ht e) (le_refl _) i (by simpa using hi)
  obtain ⟨t, ht, e⟩ := this
  exact ⟨t, by simpa using ht, e.symm⟩

theorem iota_isOrder (n : Nat) : IsOrder n (iota n) := ⟨rfl, fun t ht => ht, fun s _ t _ e => e⟩

theorem reverse_isOrder (n : Nat) : IsOrder n (reverse (iota n)) :=
  ⟨rfl, fun t ht => by show n - 1 - t < n; omega, fun s hs t ht e => by
    have e : n - 1 - s = n - 1 - t := e
    omega⟩

section solve
variable {R : Type _} [Field R] [LinearOrder R] {V : Type _} [Field V] [StarRing V] {c : R → V}

theorem gemvC_runs {n : Nat} {q x y : Buf V} {off : Nat} (h1 : off + n ≤ x.size) (h2 : n * n ≤ q.size) (h3 : n ≤ y.size) :
    Runs (gemvC n q x off y) fun r => r.size = y.size ∧ ∀ i, i < n → r.get i = ∑ j ∈ range n, star (q.get (i * n + j)) * x.get (off + j) := by
  unfold gemvC
  rw [if_pos ⟨h1, h2, h3⟩, runs_pure]
  refine ⟨rfl, fun i hi => ?_⟩
  simp only
  rw [if_pos hi]

theorem gemvN_runs {n : Nat} {q y x : Buf V} {off : Nat} (h1 : off + n ≤ x.size) (h2 : n * n ≤ q.size) (h3 : n ≤ y.size) :
    Runs (gemvN n q y x off) fun r => r.size = x.size ∧ (∀ i, i < n → r.get (off + i) = ∑ j ∈ range n, q.get (j * n + i) * y.get j) ∧
      ∀ i, ¬ (off ≤ i ∧ i < off + n) → r.get i = x.get i := by
  unfold gemvN
  rw [if_pos ⟨h1, h2, h3⟩, runs_pure]
  refine ⟨rfl, fun i hi => ?_, fun i hi => ?_⟩
  · simp only
    rw [if_pos ⟨by omega, by omega⟩, Nat.add_sub_cancel_left]
  · simp only
    rw [if_neg hi]

/-- Position of an index in the order is below `rk`. -/
def Kept (o : Buf Nat) (rk i : Nat) : Prop := ∃ t, t < rk ∧ o.get t = i

open Classical in
/-- The two loops. -/
theorem loops_runs {at' : (R → V) → Buf R → Buf Nat → Nat → Buf V → M (Buf V)} {op : V → R → V} {ok : R → Prop} {w : Buf R} {o : Buf Nat} {n rk : Nat}
    (hat : ∀ i (y : Buf V), i < o.size → o.get i < y.size → o.get i < w.size → ok (w.get (o.get i)) →
      Runs (at' c w o i y) fun r => r.size = y.size ∧ ∀ t, r.get t = if t = o.get i then op (y.get t) (w.get t) else y.get t)
    (ho : IsOrder n o) (hw : w.size = n) (hrk : rk ≤ n) (hok : ∀ t, t < rk → ok (w.get (o.get t))) (y : Buf V) (hy : n ≤ y.size) :
    Runs (do let y ← forUp 0 rk y (at' c w o); forUp rk n y (zeroAt o)) fun r => r.size = y.size ∧
      ∀ i, i < n → r.get i = if Kept o rk i then op (y.get i) (w.get i) else 0 := by
  rw [runs_bind]
  refine forUp_runs' (I := fun k r => r.size = y.size ∧ ∀ i, i < n → r.get i = if Kept o k i then op (y.get i) (w.get i) else y.get i) (by omega) ?_ ?_ ?_
  · refine ⟨rfl, fun i hi => ?_⟩
    rw [if_neg]
    rintro ⟨t, ht, -⟩; omega
  · rintro k r _ hk ⟨r1, r2⟩
    have hok' := ho.2.1 k (by omega)
    refine (hat k r (by rw [ho.1]; omega) (by rw [r1]; omega) (by rw [hw]; exact hok') (hok k hk)).mono ?_
    rintro r' ⟨s1, s2⟩
    refine ⟨s1.trans r1, fun i hi => ?_⟩
    rw [s2, r2 i hi]
    by_cases e : i = o.get k
    · have hnk : ¬ Kept o k i := by
        rintro ⟨t, ht, e'⟩
        have := ho.2.2 t (by omega) k (by omega) (e'.trans e)
        omega
      rw [if_pos e, if_neg hnk, if_pos ⟨k, by omega, e.symm⟩]
    · rw [if_neg e]
      have : Kept o (k + 1) i ↔ Kept o k i := by
        constructor
        · rintro ⟨t, ht, e'⟩
          refine ⟨t, ?_, e'⟩
          by_contra hge
          have : t = k := by omega
          rw [this] at e'; exact e e'.symm
        · rintro ⟨t, ht, e'⟩; exact ⟨t, by omega, e'⟩
      simp only [this]
  · rintro r ⟨r1, r2⟩
    refine forUp_runs' (I := fun k r' => r'.size = y.size ∧ ∀ i, i < n → r'.get i = if Kept o rk i then op (y.get i) (w.get i) else if Kept o k i then 0 else y.get i)
      (by omega) ?_ ?_ ?_
    · refine ⟨r1, fun i hi => ?_⟩
      rw [r2 i hi]
      by_cases h : Kept o rk i
      · rw [if_pos h, if_pos h]
      · rw [if_neg h, if_neg h, if_neg h]
    · rintro k r' hk1 hk ⟨s1, s2⟩
      unfold zeroAt
      simp only [runs_bind, runs_rd, runs_wr, Buf.set_size, Buf.set_get]
      have hok' := ho.2.1 k (by omega)
      refine ⟨by rw [ho.1]; omega, by rw [s1]; omega, s1, fun i hi => ?_⟩
      by_cases e : i = o.get k
      · have hnk : ¬ Kept o rk i := by
          rintro ⟨t, ht, e'⟩
          have := ho.2.2 t (by omega) k (by omega) (e'.trans e)
          omega
        rw [if_pos e, if_neg hnk, if_pos ⟨k, by omega, e.symm⟩]
      · rw [if_neg e, s2 i hi]
        have : Kept o (k + 1) i ↔ Kept o k i := by
          constructor
          · rintro ⟨t, ht, e'⟩
            refine ⟨t, ?_, e'⟩
            by_contra hge
            have : t = k := by omega
            rw [this] at e'; exact e e'.symm
          · rintro ⟨t, ht, e'⟩; exact ⟨t, by omega, e'⟩
        simp only [this]
    · rintro r' ⟨s1, s2⟩
      refine ⟨s1, fun i hi => ?_⟩
      rw [s2 i hi]
      by_cases h : Kept o rk i
      · rw [if_pos h, if_pos h]
      · obtain ⟨t, ht, e⟩ := ho.surj hi
        rw [if_neg h, if_neg h, if_pos ⟨t, ht, e⟩]

theorem divAt_runs {w : Buf R} {o : Buf Nat} (i : Nat) (y : Buf V) (h1 : i < o.size) (h2 : o.get i < y.size) (h3 : o.get i < w.size) (h4 : w.get (o.get i) ≠ 0) :
    Runs (divAt c w o i y) fun r => r.size = y.size ∧ ∀ t, r.get t = if t = o.get i then y.get t / c (w.get t) else y.get t := by
  unfold divAt
  simp only [runs_bind, runs_rd]
  refine ⟨h1, h2, h3, ?_⟩
  rw [if_neg h4, runs_wr]
  refine ⟨h2, by simp, fun t => ?_⟩
  simp only [Buf.set_get]
  by_cases e : t = o.get i
  · rw [if_pos e, if_pos e, e]
  · rw [if_neg e, if_neg e]

theorem mulAt_runs {w : Buf R} {o : Buf Nat} (i : Nat) (y : Buf V) (h1 : i < o.size) (h2 : o.get i < y.size) (h3 : o.get i < w.size) :
    Runs (mulAt c w o i y) fun r => r.size = y.size ∧ ∀ t, r.get t = if t = o.get i then y.get t * c (w.get t) else y.get t := by
  unfold mulAt
  simp only [runs_bind, runs_rd, runs_wr]
  refine ⟨h1, h2, h3, h2, by simp, fun t => ?_⟩
  simp only [Buf.set_get]
  by_cases e : t = o.get i
  · rw [if_pos e, if_pos e, e]
  · rw [if_neg e, if_neg e]

/-- A state after `factorize`. -/
structure Ready (n : Nat) (s : St R V) : Prop where
  pos : 0 < n
  rows : s.nrows = n
  mat : s.mat.size = n * n
  w : s.w.size = n
  work : n ≤ s.work.size
  order : IsOrder n s.order
  rank : s.rank ≤ n

theorem Ready.eff_le {n : Nat} {s : St R V} (h : Ready n s) (rank : Nat) : effRank s n rank ≤ n := by
  have := h.rank
  unfold effRank
  repeat' split
  all_goals omega

open Classical in
theorem apply_runs {at' : (R → V) → Buf R → Buf Nat → Nat → Buf V → M (Buf V)} {op : V → R → V} {ok : R → Prop} {n : Nat} {s : St R V} (h : Ready n s)
    (hat : ∀ i (y : Buf V), i < s.order.size → s.order.get i < y.size → s.order.get i < s.w.size → ok (s.w.get (s.order.get i)) →
      Runs (at' c s.w s.order i y) fun r => r.size = y.size ∧ ∀ t, r.get t = if t = s.order.get i then op (y.get t) (s.w.get t) else y.get t)
    {rk off : Nat} (hrk : rk ≤ n) (hok : ∀ t, t < rk → ok (s.w.get (s.order.get t))) (x work : Buf V) (hx : off + n ≤ x.size) (hwk : n ≤ work.size) :
    Runs (apply at' c s n rk off x work) fun r => r.1.size = x.size ∧ r.2.size = work.size ∧
      (∀ i, i < n → r.1.get (off + i) = ∑ l ∈ range n, s.mat.get (l * n + i) *
        (if Kept s.order rk l then op (∑ j ∈ range n, star (s.mat.get (l * n + j)) * x.get (off + j)) (s.w.get l) else 0)) ∧
      ∀ i, ¬ (off ≤ i ∧ i < off + n) → r.1.get i = x.get i := by
  unfold apply
  rw [runs_bind]
  refine (gemvC_runs hx (by rw [h.mat]) hwk).mono ?_
  rintro y ⟨y1, y2⟩
  have := loops_runs (c := c) (at' := at') (op := op) (ok := ok) hat h.order h.w hrk hok y (by rw [y1]; exact hwk)
  rw [runs_bind] at this
  rw [runs_bind]
  refine this.mono fun z hz => ?_
  rw [runs_bind]
  refine hz.mono ?_
  rintro u ⟨u1, u2⟩
  rw [runs_bind]
  refine (gemvN_runs hx (by rw [h.mat]) (by rw [u1, y1]; exact hwk)).mono ?_
  rintro v ⟨v1, v2, v3⟩
  rw [runs_pure]
  refine ⟨v1, u1.trans y1, fun i hi => ?_, v3⟩
  rw [v2 i hi]
  refine Finset.sum_congr rfl fun l hl => ?_
  rw [u2 l (by simpa using hl), y2 l (by simpa using hl)]

end solve
end SyEig
end Hif
