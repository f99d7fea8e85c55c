import Verif.AmdPost

set_option linter.unusedVariables false

/-! # From the assembly tree to the permutation (amd.hpp 741–797) -/

namespace Hif
namespace Amd

/-- What the elimination leaves: `par x = flip (pe x)` is the node with which `x` was eliminated or the element by which it was absorbed, `-1` for roots and dense nodes;
`nv x` nodes are eliminated together with the element `x`, `0` for a node eliminated with another; `rep x` is the element of `x`, `-1` for a dense node; `rk` grows along
the paths. -/
structure Elim (n : Nat) (par nv : Int → Int) (rep : Int → Int) (rk : Int → Nat) : Prop where
  nn : ∀ x : Int, 0 ≤ x → x < n → 0 ≤ nv x
  rng : ∀ x : Int, 0 ≤ x → x < n → par x ≠ -1 → 0 ≤ par x ∧ par x < n
  rk : ∀ x : Int, 0 ≤ x → x < n → par x ≠ -1 → rk x < rk (par x)
  elem : ∀ x : Int, 0 ≤ x → x < n → 0 < nv x → par x ≠ -1 → 0 < nv (par x)
  dead : ∀ x : Int, 0 ≤ x → x < n → nv x = 0 → par x ≠ -1 → (0 < nv (par x) ∨ par (par x) ≠ -1) ∧ rep x = rep (par x)
  dense : ∀ x : Int, 0 ≤ x → x < n → nv x = 0 → par x = -1 → rep x = -1
  self : ∀ x : Int, 0 ≤ x → x < n → 0 < nv x → rep x = x
  cnt : ∀ y : Int, 0 ≤ y → y < n → nv y = ((nodes n).filter fun x => rep x = y).card

/-- Paths may be shortened. -/
structure Short (n : Nat) (par nv : Int → Int) (rep : Int → Int) (rk : Int → Nat) (pe : Int → Int) : Prop where
  live : ∀ x : Int, 0 ≤ x → x < n → 0 < nv x → pe x = par x
  dens : ∀ x : Int, 0 ≤ x → x < n → (pe x = -1 ↔ par x = -1)
  rng : ∀ x : Int, 0 ≤ x → x < n → pe x ≠ -1 → 0 ≤ pe x ∧ pe x < n
  rk : ∀ x : Int, 0 ≤ x → x < n → pe x ≠ -1 → rk x < rk (pe x)
  dead : ∀ x : Int, 0 ≤ x → x < n → nv x = 0 → pe x ≠ -1 → (0 < nv (pe x) ∨ pe (pe x) ≠ -1) ∧ rep x = rep (pe x)

section
variable {n : Nat} {par : Int → Int} {nv : Arr} {rep : Int → Int} {rk : Int → Nat}

theorem card_rk_lt {x y : Int} (hy : 0 ≤ y ∧ y < n) (h : rk x < rk y) :
    ((nodes n).filter fun z => rk y < rk z).card < ((nodes n).filter fun z => rk x < rk z).card := by
  refine Finset.card_lt_card (Finset.ssubset_iff_subset_ne.2 ⟨fun z hz => ?_, fun e => ?_⟩)
  · rw [Finset.mem_filter] at hz ⊢; exact ⟨hz.1, by omega⟩
  · have : y ∈ (nodes n).filter fun z => rk x < rk z := Finset.mem_filter.2 ⟨mem_nodes.2 hy, h⟩
    rw [← e, Finset.mem_filter] at this
    omega

theorem findRep_runs (hE : Elim n par nv.get rep rk) {pe : Arr} (hS : Short n par nv.get rep rk pe.get) (hv : nv.size = n) (hp : pe.size = n) :
    ∀ (f : Nat) (j : Int), 0 ≤ j → j < n → (0 < nv.get j ∨ pe.get j ≠ -1) → ((nodes n).filter fun z => rk j < rk z).card < f →
      Runs (findRep pe nv f j) fun e => e = rep j ∧ (0 ≤ e ∧ e < n) ∧ 0 < nv.get e ∧ rk j ≤ rk e := by
  intro f
  induction f with
  | zero => intro j _ _ _ h; omega
  | succ f ih =>
    intro j h1 h2 h3 h4
    unfold findRep
    simp only [runs_bind, runs_rdZ]
    refine ⟨⟨h1, by omega⟩, ?_⟩
    by_cases hz : nv.get j = 0
    · rw [if_pos hz, runs_bind, runs_rdZ]
      refine ⟨⟨h1, by omega⟩, ?_⟩
      have hpe : pe.get j ≠ -1 := h3.resolve_left (by omega)
      have hr := hS.rng j h1 h2 hpe
      have hk := hS.rk j h1 h2 hpe
      have hd := hS.dead j h1 h2 hz hpe
      have := card_rk_lt (n := n) hr hk
      refine Runs.mono (ih (pe.get j) hr.1 hr.2 hd.1 (by omega)) fun e he => ⟨by rw [hd.2]; exact he.1, he.2.1, he.2.2.1, by omega⟩
    · rw [if_neg hz, runs_pure]
      have := hE.nn j h1 h2
      exact ⟨(hE.self j h1 h2 (by omega)).symm, ⟨h1, h2⟩, by omega, le_refl _⟩

theorem shorten_runs (hE : Elim n par nv.get rep rk) (hv : nv.size = n) {e : Int} (he : (0 ≤ e ∧ e < n) ∧ 0 < nv.get e) :
    ∀ (f : Nat) (j : Int) (pe : Arr), Short n par nv.get rep rk pe.get → pe.size = n → 0 ≤ j → j < n → (0 < nv.get j ∨ pe.get j ≠ -1) → rep j = e → rk j ≤ rk e →
      (nv.get j = 0 → rk j < rk e) → ((nodes n).filter fun z => rk j < rk z).card < f →
      Runs (shorten nv e f j pe) fun pe' => pe'.size = n ∧ Short n par nv.get rep rk pe'.get ∧ (nv.get j = 0 → pe'.get j = e) ∧
        ∀ x, nv.get x = 0 → pe.get x = rep x → pe'.get x = rep x := by
  intro f
  induction f with
  | zero => intro j pe _ _ _ _ _ _ _ _ h; omega
  | succ f ih =>
    intro j pe hS hp h1 h2 h3 hre hle hlt h4
    unfold shorten
    simp only [runs_bind, runs_rdZ]
    refine ⟨⟨h1, by omega⟩, ?_⟩
    by_cases hz : nv.get j = 0
    · rw [if_pos hz]
      simp only [runs_bind, runs_rdZ, runs_wrZ]
      refine ⟨⟨h1, by omega⟩, ⟨h1, by omega⟩, ?_⟩
      have hpe : pe.get j ≠ -1 := h3.resolve_left (by omega)
      have hr := hS.rng j h1 h2 hpe
      have hk := hS.rk j h1 h2 hpe
      have hd := hS.dead j h1 h2 hz hpe
      have hrp : rep (pe.get j) = e := by rw [← hd.2]; exact hre
      have hjp : pe.get j ≠ j := fun h => by rw [h] at hk; omega
      have hS' : Short n par nv.get rep rk (pe.set j e).get := by
        refine ⟨fun x a b c => ?_, fun x a b => ?_, fun x a b c => ?_, fun x a b c => ?_, fun x a b c d => ?_⟩
        · rw [Arr.set_ne _ _ (by rintro rfl; omega)]; exact hS.live x a b c
        · rw [Arr.set_get]
          split
          · rename_i hx
            rw [hx, ← hS.dens j h1 h2]
            exact ⟨fun h => by omega, fun h => absurd h hpe⟩
          · exact hS.dens x a b
        · rw [Arr.set_get] at c ⊢
          split
          · exact he.1
          · rename_i hx; rw [if_neg hx] at c; exact hS.rng x a b c
        · rw [Arr.set_get] at c ⊢
          split
          · rename_i hx; rw [hx]; exact hlt hz
          · rename_i hx; rw [if_neg hx] at c; exact hS.rk x a b c
        · rw [Arr.set_get] at d
          have hpp : ∀ y, (pe.set j e).get y ≠ -1 ↔ pe.get y ≠ -1 := fun y => by
            rw [Arr.set_get]
            split
            · rename_i hx
              rw [hx]
              exact ⟨fun _ => hpe, fun _ => by omega⟩
            · exact Iff.rfl
          rw [hpp]
          by_cases hx : x = j
          · rw [hx, Arr.set_same]
            exact ⟨Or.inl he.2, by rw [hre, hE.self e he.1.1 he.1.2 he.2]⟩
          · rw [if_neg hx] at d
            rw [Arr.set_ne _ _ hx]
            exact hS.dead x a b c d
      have := card_rk_lt (n := n) hr hk
      have hrank : rk (pe.get j) ≤ rk e ∧ (nv.get (pe.get j) = 0 → rk (pe.get j) < rk e) := by
        obtain ⟨e', h5, h6⟩ := findRep_runs hE hS hv hp _ (pe.get j) hr.1 hr.2 hd.1 (Nat.lt_succ_self _)
        have h7 : e' = e := by rw [h6.1]; exact hrp
        rw [h7] at h6
        refine ⟨h6.2.2.2, fun hz' => ?_⟩
        have hp2 : pe.get (pe.get j) ≠ -1 := hd.1.resolve_left (by omega)
        have hr2 := hS.rng _ hr.1 hr.2 hp2
        have hk2 := hS.rk _ hr.1 hr.2 hp2
        have hd2 := hS.dead _ hr.1 hr.2 hz' hp2
        obtain ⟨e'', h8, h9⟩ := findRep_runs hE hS hv hp _ _ hr2.1 hr2.2 hd2.1 (Nat.lt_succ_self _)
        have h10 : e'' = e := by rw [h9.1, ← hd2.2]; exact hrp
        rw [h10] at h9
        have := h9.2.2.2
        omega
      refine Runs.mono (ih (pe.get j) _ hS' hp hr.1 hr.2 ?_ hrp hrank.1 hrank.2 (by omega)) fun pe' ⟨k1, k2, k3, k4⟩ => ⟨k1, k2, fun _ => ?_, fun x hx hx2 => k4 x hx ?_⟩
      · rw [Arr.set_ne _ _ hjp]; exact hd.1
      · rw [k4 j hz (by rw [Arr.set_same, hre]), hre]
      · rw [Arr.set_get]
        split
        · rename_i h; rw [h, hre]
        · exact hx2
    · rw [if_neg hz, runs_pure]
      exact ⟨hp, hS, fun h => absurd h hz, fun x _ h => h⟩

theorem compress_runs (hE : Elim n par nv.get rep rk) (hv : nv.size = n) {pe : Arr} (hp : pe.size = n) (hpar : ∀ x : Int, 0 ≤ x → x < n → pe.get x = par x) :
    Runs (forZ 0 n pe fun i pe => compress n nv i pe) fun pe' => pe'.size = n ∧ (∀ x : Int, 0 ≤ x → x < n → 0 < nv.get x → pe'.get x = par x) ∧
      ∀ x : Int, 0 ≤ x → x < n → nv.get x = 0 → pe'.get x = rep x := by
  refine forZ_runs (fun i (pe : Arr) => pe.size = n ∧ Short n par nv.get rep rk pe.get ∧ ∀ x : Int, 0 ≤ x → x < i → nv.get x = 0 → pe.get x = rep x) (by omega)
    ⟨hp, ⟨fun x a b _ => hpar x a b, fun x a b => by rw [hpar x a b], fun x a b c => ?_, fun x a b c => ?_, fun x a b c d => ?_⟩, fun x h1 h2 => by omega⟩ ?_ ?_
  · rw [hpar x a b] at c ⊢; exact hE.rng x a b c
  · rw [hpar x a b] at c ⊢; exact hE.rk x a b c
  · rw [hpar x a b] at d ⊢
    have := hE.rng x a b d
    rw [hpar _ this.1 this.2]
    exact hE.dead x a b c d
  · rintro i pe h1 h2 ⟨hp, hS, hd⟩
    unfold compress
    simp only [runs_bind, runs_rdZ]
    refine ⟨⟨h1, by omega⟩, ?_⟩
    by_cases hz : nv.get i = 0
    · rw [if_pos hz, runs_bind, runs_rdZ]
      refine ⟨⟨h1, by omega⟩, ?_⟩
      by_cases hj : pe.get i = -1
      · rw [if_pos hj, runs_pure]
        refine ⟨hp, hS, fun x h3 h4 h5 => ?_⟩
        by_cases hx : x = i
        · rw [hx, hj, hE.dense i h1 h2 hz ((hS.dens i h1 h2).1 hj)]
        · exact hd x h3 (by omega) h5
      · rw [if_neg hj, runs_bind]
        have hr := hS.rng i h1 h2 hj
        have hk := hS.rk i h1 h2 hj
        have hd2 := hS.dead i h1 h2 hz hj
        have hc := Finset.card_filter_le (nodes n) fun z => rk (pe.get i) < rk z
        have hc' := Finset.card_filter_le (nodes n) fun z => rk i < rk z
        rw [card_nodes] at hc hc'
        refine Runs.mono (findRep_runs hE hS hv hp (n + 1) (pe.get i) hr.1 hr.2 hd2.1 (by omega)) fun e ⟨g1, g2, g3, g4⟩ => ?_
        refine Runs.mono (shorten_runs hE hv ⟨g2, g3⟩ (n + 1) i pe hS hp h1 h2 (Or.inr hj) (by rw [hd2.2, g1]) (by omega) (fun _ => by omega) (by omega))
          fun pe' ⟨k1, k2, k3, k4⟩ => ⟨k1, k2, fun x h3 h4 h5 => ?_⟩
        by_cases hx : x = i
        · rw [hx, k3 hz, hd2.2, g1]
        · exact k4 x h5 (hd x h3 (by omega) h5)
    · rw [if_neg hz, runs_pure]
      refine ⟨hp, hS, fun x h3 h4 h5 => ?_⟩
      have hx : x ≠ i := by rintro rfl; exact hz h5
      exact hd x h3 (by omega) h5
  · rintro pe ⟨h1, h2, h3⟩
    exact ⟨h1, h2.live, fun x a b c => h3 x a b c⟩

/-- Number of nodes before the element with the number `t`. -/
def off (n : Nat) (nv o : Int → Int) (t : Int) : Int := ∑ e ∈ (nodes n).filter fun e => 0 < nv e ∧ o e < t, nv e

/-- Number of the nodes below `i` that are eliminated with `e`. -/
def cnt (n : Nat) (nv rep : Int → Int) (e i : Int) : Nat := ((nodes n).filter fun y => y < i ∧ nv y = 0 ∧ rep y = e).card

section
variable {nvf o : Int → Int}

theorem off_mono {s t : Int} (h : s ≤ t) : off n nvf o s ≤ off n nvf o t := by
  unfold off
  refine Finset.sum_le_sum_of_subset_of_nonneg (fun e he => ?_) fun e he _ => ?_
  · rw [Finset.mem_filter] at he ⊢; exact ⟨he.1, he.2.1, by omega⟩
  · rw [Finset.mem_filter] at he; omega

theorem off_nonneg (t : Int) : 0 ≤ off n nvf o t := by
  unfold off
  refine Finset.sum_nonneg fun e he => ?_
  rw [Finset.mem_filter] at he; omega

theorem off_succ {e : Int} (h1 : 0 ≤ e) (h2 : e < n) (h3 : 0 < nvf e) (hinj : ∀ y : Int, 0 ≤ y → y < n → 0 < nvf y → o y = o e → y = e) :
    off n nvf o (o e + 1) = off n nvf o (o e) + nvf e := by
  unfold off
  have : (nodes n).filter (fun y => 0 < nvf y ∧ o y < o e + 1) = insert e ((nodes n).filter fun y => 0 < nvf y ∧ o y < o e) := by
    ext y
    simp only [Finset.mem_insert, Finset.mem_filter, mem_nodes]
    constructor
    · rintro ⟨a, b, c⟩
      by_cases h : o y = o e
      · exact Or.inl (hinj y a.1 a.2 b h)
      · exact Or.inr ⟨a, b, by omega⟩
    · rintro (rfl | ⟨a, b, c⟩)
      · exact ⟨⟨h1, h2⟩, h3, by omega⟩
      · exact ⟨a, b, by omega⟩
  rw [this, Finset.sum_insert (by simp), add_comm]

theorem cnt_succ (e i : Int) (h1 : 0 ≤ i) (h2 : i < n) : cnt n nvf rep e (i + 1) = cnt n nvf rep e i + (if nvf i = 0 ∧ rep i = e then 1 else 0) := by
  unfold cnt
  split
  · rename_i h
    have : (nodes n).filter (fun y => y < i + 1 ∧ nvf y = 0 ∧ rep y = e) = insert i ((nodes n).filter fun y => y < i ∧ nvf y = 0 ∧ rep y = e) := by
      ext y
      simp only [Finset.mem_insert, Finset.mem_filter, mem_nodes]
      constructor
      · rintro ⟨a, b, c⟩
        by_cases hy : y = i
        · exact Or.inl hy
        · exact Or.inr ⟨a, by omega, c⟩
      · rintro (rfl | ⟨a, b, c⟩)
        · exact ⟨⟨h1, h2⟩, by omega, h⟩
        · exact ⟨a, by omega, c⟩
    rw [this, Finset.card_insert_of_notMem (by simp)]
  · rename_i h
    rw [add_zero]
    congr 1
    ext y
    simp only [Finset.mem_filter, mem_nodes]
    constructor
    · rintro ⟨a, b, c⟩
      have hy : y ≠ i := by rintro rfl; exact h c
      exact ⟨a, by omega, c⟩
    · rintro ⟨a, b, c⟩
      exact ⟨a, by omega, c⟩

theorem cnt_mono (e : Int) {i j : Int} (h : i ≤ j) : cnt n nvf rep e i ≤ cnt n nvf rep e j :=
  Finset.card_le_card fun y hy => by
    rw [Finset.mem_filter] at hy ⊢; exact ⟨hy.1, by omega, hy.2.2⟩

end

theorem PostOK.kle {parf nvf : Int → Int} {o : Arr} {k : Int} (h : PostOK n parf nvf o k) : k ≤ n := by
  have : nodes k.toNat ⊆ (nodes n).image o.get := fun t ht => by
    rw [mem_nodes] at ht
    have hk := h.kpos
    obtain ⟨x, h1, -, h2⟩ := h.all t ht.1 (by omega)
    exact Finset.mem_image.2 ⟨x, mem_nodes.2 h1, h2⟩
  have h1 := Finset.card_le_card this
  have h2 := Finset.card_image_le (s := nodes n) (f := o.get)
  rw [card_nodes] at h1 h2
  omega

theorem starts_runs {parf : Int → Int} {o head : Arr} {kk : Int} (hv : nv.size = n) (hP : PostOK n parf nv.get o kk) (hh : head.size = n)
    (h1 : ∀ e : Int, 0 ≤ e → e < n → 0 < nv.get e → head.get (o.get e) = e) (h2 : ∀ t : Int, kk ≤ t → t < n → head.get t = -1) :
    ∀ (f : Nat) (k nel : Int) (next : Arr), k + f = n → 0 ≤ k → k ≤ kk → nel = off n nv.get o.get k → next.size = n →
      (∀ e : Int, 0 ≤ e → e < n → 0 < nv.get e → o.get e < k → next.get e = off n nv.get o.get (o.get e)) →
      Runs (starts head nv f k nel next) fun r => r.1 = off n nv.get o.get kk ∧ r.2.size = n ∧
        ∀ e : Int, 0 ≤ e → e < n → 0 < nv.get e → r.2.get e = off n nv.get o.get (o.get e) := by
  intro f
  induction f with
  | zero =>
    intro k nel next hf h3 h4 h5 h6 h7
    have hkk := hP.kle
    unfold starts
    rw [runs_pure]
    have hk : k = kk := by push_cast at hf; omega
    exact ⟨by rw [h5, hk], h6, fun e a b c => h7 e a b c (by rw [hk]; exact (hP.rng e a b c).2)⟩
  | succ f ih =>
    intro k nel next hf h3 h4 h5 h6 h7
    unfold starts
    push_cast at hf
    simp only [runs_bind, runs_rdZ]
    refine ⟨⟨h3, by omega⟩, ?_⟩
    by_cases hk : k = kk
    · rw [if_pos (by rw [hk]; exact h2 kk (le_refl _) (by omega)), runs_pure]
      exact ⟨by rw [h5, hk], h6, fun e a b c => h7 e a b c (by rw [hk]; exact (hP.rng e a b c).2)⟩
    · obtain ⟨e, he, hve, hoe⟩ := hP.all k h3 (by omega)
      have hhe : head.get k = e := by rw [← hoe]; exact h1 e he.1 he.2 hve
      rw [hhe, if_neg (show ¬ e = -1 by omega)]
      simp only [runs_bind, runs_rdZ, runs_wrZ]
      refine ⟨⟨he.1, by omega⟩, ⟨he.1, by omega⟩, ?_⟩
      refine ih (k + 1) _ _ (by omega) (by omega) (by omega) ?_ h6 fun y a b c d => ?_
      · rw [h5, ← hoe, off_succ he.1 he.2 hve fun y a b c d => hP.inj y a b e he.1 he.2 c d]
      · rw [Arr.set_get]
        split
        · rename_i hy; rw [hy, hoe, h5]
        · rename_i hy
          refine h7 y a b c ?_
          have : o.get y ≠ o.get e := fun h => hy (hP.inj y a b e he.1 he.2 c h)
          omega

theorem place_runs {o : Int → Int} {pe : Arr} {T : Int} (hE : Elim n par nv.get rep rk) (hv : nv.size = n) (hp : pe.size = n)
    (hpe : ∀ x : Int, 0 ≤ x → x < n → nv.get x = 0 → pe.get x = rep x) (hrep : ∀ x : Int, 0 ≤ x → x < n → rep x ≠ -1 → (0 ≤ rep x ∧ rep x < n) ∧ 0 < nv.get (rep x))
    {s : Int × Arr} (h1 : s.1 = T) (h2 : s.2.size = n) (h3 : ∀ e : Int, 0 ≤ e → e < n → 0 < nv.get e → s.2.get e = off n nv.get o (o e)) :
    Runs (forZ 0 n s fun i s => place pe nv i s) fun r => r.2.size = n ∧
      (∀ e : Int, 0 ≤ e → e < n → 0 < nv.get e → r.2.get e = off n nv.get o (o e) + cnt n nv.get rep e n) ∧
      ∀ x : Int, 0 ≤ x → x < n → nv.get x = 0 → r.2.get x = (if rep x = -1 then T else off n nv.get o (o (rep x))) + cnt n nv.get rep (rep x) x := by
  refine forZ_runs (fun i (r : Int × Arr) => r.1 = T + cnt n nv.get rep (-1) i ∧ r.2.size = n ∧
      (∀ e : Int, 0 ≤ e → e < n → 0 < nv.get e → r.2.get e = off n nv.get o (o e) + cnt n nv.get rep e i) ∧
      ∀ x : Int, 0 ≤ x → x < i → nv.get x = 0 → r.2.get x = (if rep x = -1 then T else off n nv.get o (o (rep x))) + cnt n nv.get rep (rep x) x)
    (by omega) ?_ ?_ ?_
  · have hc : ∀ e, cnt n nv.get rep e 0 = 0 := fun e => by
      unfold cnt
      rw [Finset.card_eq_zero, Finset.filter_eq_empty_iff]
      intro y hy h
      rw [mem_nodes] at hy; omega
    exact ⟨by rw [hc, h1]; simp, h2, fun e a b c => by rw [h3 e a b c, hc]; simp, fun x a b => by omega⟩
  · rintro i ⟨nel, next⟩ g1 g2 ⟨k1, k2, k3, k4⟩
    simp only at k1 k2 k3 k4
    unfold place
    simp only [runs_bind, runs_rdZ]
    refine ⟨⟨g1, by omega⟩, ?_⟩
    by_cases hz : nv.get i = 0
    · rw [if_pos hz, runs_bind, runs_rdZ]
      refine ⟨⟨g1, by omega⟩, ?_⟩
      rw [hpe i g1 g2 hz]
      by_cases hr : rep i ≠ -1
      · obtain ⟨he, hve⟩ := hrep i g1 g2 hr
        have hne : rep i ≠ i := fun h => by rw [h] at hve; omega
        rw [if_pos hr]
        simp only [runs_bind, runs_rdZ, runs_wrZ, runs_pure, Arr.set_size]
        refine ⟨⟨he.1, by omega⟩, ⟨g1, by omega⟩, ⟨he.1, by omega⟩, ⟨he.1, by omega⟩, ?_, k2, fun e a b c => ?_, fun x a b c => ?_⟩
        · rw [k1, cnt_succ _ _ g1 g2, if_neg fun h => hr h.2]; simp
        · have hei : e ≠ i := by rintro rfl; omega
          rw [cnt_succ _ _ g1 g2, Arr.set_get]
          by_cases h : e = rep i
          · rw [if_pos h, if_pos ⟨hz, h.symm⟩, Arr.set_ne _ _ hne, ← h, k3 e a b c]; push_cast; ring
          · rw [if_neg h, if_neg fun h' => h h'.2.symm, Arr.set_ne _ _ hei, k3 e a b c]; simp
        · have hxe : x ≠ rep i := by rintro rfl; omega
          rw [Arr.set_ne _ _ hxe, Arr.set_get]
          by_cases h : x = i
          · rw [if_pos h, h, if_neg hr]; exact k3 _ he.1 he.2 hve
          · rw [if_neg h]; exact k4 x a (by omega) c
      · have hr' : rep i = -1 := not_not.1 hr
        rw [if_neg hr]
        simp only [runs_bind, runs_wrZ, runs_pure]
        refine ⟨⟨g1, by omega⟩, ?_, k2, fun e a b c => ?_, fun x a b c => ?_⟩
        · rw [k1, cnt_succ _ _ g1 g2, if_pos ⟨hz, hr'⟩]; push_cast; ring
        · have hei : e ≠ i := by rintro rfl; omega
          rw [cnt_succ _ _ g1 g2, Arr.set_ne _ _ hei, if_neg fun h' => by omega, k3 e a b c]; simp
        · rw [Arr.set_get]
          by_cases h : x = i
          · rw [if_pos h, h, if_pos hr', hr']; exact k1
          · rw [if_neg h]; exact k4 x a (by omega) c
    · rw [if_neg hz, runs_pure]
      refine ⟨?_, k2, fun e a b c => ?_, fun x a b c => ?_⟩
      · rw [k1, cnt_succ _ _ g1 g2, if_neg fun h => hz h.1]; simp
      · rw [k3 e a b c, cnt_succ _ _ g1 g2, if_neg fun h => hz h.1]; simp
      · have h : x ≠ i := by rintro rfl; exact hz c
        exact k4 x a (by omega) c
  · rintro ⟨nel, next⟩ ⟨-, k2, k3, k4⟩
    exact ⟨k2, k3, k4⟩

theorem rep_rng (hE : Elim n par nv.get rep rk) : ∀ (d : Nat) (x : Int), 0 ≤ x → x < n → ((nodes n).filter fun z => rk x < rk z).card ≤ d →
    rep x ≠ -1 → (0 ≤ rep x ∧ rep x < n) ∧ 0 < nv.get (rep x) := by
  intro d
  induction d with
  | zero =>
    intro x h1 h2 hd h3
    by_cases hz : nv.get x = 0
    · by_cases hp : par x = -1
      · exact absurd (hE.dense x h1 h2 hz hp) h3
      · have := card_rk_lt (n := n) (rk := rk) (hE.rng x h1 h2 hp) (hE.rk x h1 h2 hp)
        omega
    · have := hE.nn x h1 h2
      rw [hE.self x h1 h2 (by omega)]; exact ⟨⟨h1, h2⟩, by omega⟩
  | succ d ih =>
    intro x h1 h2 hd h3
    by_cases hz : nv.get x = 0
    · by_cases hp : par x = -1
      · exact absurd (hE.dense x h1 h2 hz hp) h3
      · have := card_rk_lt (n := n) (rk := rk) (hE.rng x h1 h2 hp) (hE.rk x h1 h2 hp)
        have hr := hE.rng x h1 h2 hp
        have hdd := (hE.dead x h1 h2 hz hp).2
        rw [hdd] at h3 ⊢
        exact ih (par x) hr.1 hr.2 (by omega) h3
    · have := hE.nn x h1 h2
      rw [hE.self x h1 h2 (by omega)]; exact ⟨⟨h1, h2⟩, by omega⟩

/-- The position of a node. -/
def pos (n : Nat) (nv rep o : Int → Int) (T x : Int) : Int :=
  (if rep x = -1 then T else off n nv o (o (rep x))) + (if nv x = 0 then (cnt n nv rep (rep x) x : Int) else nv x - 1)

theorem cnt_full (hE : Elim n par nv.get rep rk) (hrep : ∀ x : Int, 0 ≤ x → x < n → rep x ≠ -1 → (0 ≤ rep x ∧ rep x < n) ∧ 0 < nv.get (rep x)) {e : Int}
    (h1 : 0 ≤ e) (h2 : e < n) (h3 : 0 < nv.get e) : (cnt n nv.get rep e n : Int) = nv.get e - 1 := by
  have hc := hE.cnt e h1 h2
  have : (nodes n).filter (fun x => rep x = e) = insert e ((nodes n).filter fun y : Int => y < (n : Int) ∧ nv.get y = 0 ∧ rep y = e) := by
    ext y
    simp only [Finset.mem_insert, Finset.mem_filter, mem_nodes]
    constructor
    · rintro ⟨a, b⟩
      by_cases hy : nv.get y = 0
      · exact Or.inr ⟨a, a.2, hy, b⟩
      · left
        have := hE.nn y a.1 a.2
        rw [← b, hE.self y a.1 a.2 (by omega)]
    · rintro (rfl | ⟨a, b, c, d⟩)
      · exact ⟨⟨h1, h2⟩, hE.self _ h1 h2 h3⟩
      · exact ⟨a, d⟩
  rw [this, Finset.card_insert_of_notMem (by simp; omega)] at hc
  unfold cnt
  push_cast at hc
  omega

theorem pos_perm {parf : Int → Int} {o : Arr} {kk : Int} (hE : Elim n par nv.get rep rk) (hP : PostOK n parf nv.get o kk) :
    (∀ x : Int, 0 ≤ x → x < n → 0 ≤ pos n nv.get rep o.get (off n nv.get o.get kk) x ∧ pos n nv.get rep o.get (off n nv.get o.get kk) x < n) ∧
    ∀ x : Int, 0 ≤ x → x < n → ∀ y : Int, 0 ≤ y → y < n → pos n nv.get rep o.get (off n nv.get o.get kk) x = pos n nv.get rep o.get (off n nv.get o.get kk) y → x = y := by
  have hrep : ∀ x : Int, 0 ≤ x → x < n → rep x ≠ -1 → (0 ≤ rep x ∧ rep x < n) ∧ 0 < nv.get (rep x) := fun x a b => rep_rng hE _ x a b (le_refl _)
  -- in an element
  have hloc : ∀ x : Int, 0 ≤ x → x < n → rep x ≠ -1 → 0 ≤ (if nv.get x = 0 then (cnt n nv.get rep (rep x) x : Int) else nv.get x - 1) ∧
      (if nv.get x = 0 then (cnt n nv.get rep (rep x) x : Int) + 1 else nv.get x - 1) ≤ nv.get (rep x) - 1 := fun x a b c => by
    obtain ⟨h1, h2⟩ := hrep x a b c
    have hf := cnt_full hE hrep h1.1 h1.2 h2
    by_cases hz : nv.get x = 0
    · rw [if_pos hz, if_pos hz]
      have e1 := cnt_succ (nvf := nv.get) (rep := rep) (rep x) x a b
      rw [if_pos ⟨hz, rfl⟩] at e1
      have e2 := cnt_mono (n := n) (nvf := nv.get) (rep := rep) (rep x) (show x + 1 ≤ (n : Int) by omega)
      omega
    · rw [if_neg hz, if_neg hz]
      have := hE.nn x a b
      rw [hE.self x a b (by omega)]; omega
  have hblk : ∀ e : Int, 0 ≤ e → e < n → 0 < nv.get e → off n nv.get o.get (o.get e) + nv.get e = off n nv.get o.get (o.get e + 1) := fun e a b c =>
    (off_succ a b c fun y a' b' c' d' => hP.inj y a' b' e a b c' d').symm
  have hT : off n nv.get o.get kk + cnt n nv.get rep (-1) n = n := by
    have e1 : off n nv.get o.get kk = ∑ e ∈ nodes n, nv.get e := by
      unfold off
      refine Finset.sum_subset (Finset.filter_subset _ _) fun e he hne => ?_
      rw [Finset.mem_filter, not_and, not_and] at hne
      have he' := mem_nodes.1 he
      have := hE.nn e he'.1 he'.2
      by_contra h
      exact hne he (by omega) (hP.rng e he'.1 he'.2 (by omega)).2
    have e2 : ∑ e ∈ nodes n, nv.get e = (((nodes n).filter fun x => rep x ≠ -1).card : Int) := by
      have : ((nodes n).filter fun x => rep x ≠ -1).card = ∑ e ∈ nodes n, (((nodes n).filter fun x => rep x ≠ -1).filter fun x => rep x = e).card :=
        Finset.card_eq_sum_card_fiberwise fun x hx => by
          rw [Finset.mem_coe, Finset.mem_filter] at hx
          have hx' := mem_nodes.1 hx.1
          exact mem_nodes.2 (hrep x hx'.1 hx'.2 hx.2).1
      rw [this]
      push_cast
      refine Finset.sum_congr rfl fun e he => ?_
      have he' := mem_nodes.1 he
      rw [hE.cnt e he'.1 he'.2, Finset.filter_filter]
      congr 2
      ext y
      simp only [Finset.mem_filter]
      constructor
      · rintro ⟨a, b⟩; exact ⟨a, by omega, b⟩
      · rintro ⟨a, -, b⟩; exact ⟨a, b⟩
    have e3 : cnt n nv.get rep (-1) n = ((nodes n).filter fun x => ¬ rep x ≠ -1).card := by
      unfold cnt
      congr 1
      ext y
      simp only [Finset.mem_filter, not_not]
      constructor
      · rintro ⟨a, b⟩; exact ⟨a, b.2.2⟩
      · rintro ⟨a, b⟩
        have a' := mem_nodes.1 a
        refine ⟨a, a'.2, ?_, b⟩
        by_contra hz
        have := hE.nn y a'.1 a'.2
        have := hE.self y a'.1 a'.2 (by omega)
        omega
    have e4 := Finset.card_filter_add_card_filter_not (s := nodes n) (fun x => rep x ≠ -1)
    rw [card_nodes] at e4
    rw [e1, e2, e3]
    exact_mod_cast e4
  have hz1 : ∀ x : Int, 0 ≤ x → x < n → rep x = -1 → nv.get x = 0 := fun x a b c => by
    by_contra hz
    have := hE.nn x a b
    have := hE.self x a b (by omega)
    omega
  have hdl : ∀ x : Int, 0 ≤ x → x < n → rep x = -1 → (cnt n nv.get rep (-1) x : Int) + 1 ≤ cnt n nv.get rep (-1) n := fun x a b c => by
    have e1 := cnt_succ (nvf := nv.get) (rep := rep) (-1) x a b
    rw [if_pos ⟨hz1 x a b c, c⟩] at e1
    have e2 := cnt_mono (n := n) (nvf := nv.get) (rep := rep) (-1) (show x + 1 ≤ (n : Int) by omega)
    omega
  have hnn : ∀ t, 0 ≤ off n nv.get o.get t := fun t => off_nonneg t
  -- block of a node
  have hb : ∀ x : Int, 0 ≤ x → x < n → rep x ≠ -1 → off n nv.get o.get (o.get (rep x)) ≤ pos n nv.get rep o.get (off n nv.get o.get kk) x ∧
      pos n nv.get rep o.get (off n nv.get o.get kk) x < off n nv.get o.get (o.get (rep x) + 1) := fun x a b c => by
    obtain ⟨h1, h2⟩ := hrep x a b c
    rw [← hblk _ h1.1 h1.2 h2]
    have := hloc x a b c
    unfold pos
    rw [if_neg c]
    by_cases hz : nv.get x = 0
    · rw [if_pos hz, if_pos hz] at this; rw [if_pos hz]; omega
    · rw [if_neg hz, if_neg hz] at this; rw [if_neg hz]; omega
  have hd : ∀ x : Int, 0 ≤ x → x < n → rep x = -1 → pos n nv.get rep o.get (off n nv.get o.get kk) x = off n nv.get o.get kk + cnt n nv.get rep (-1) x := fun x a b c => by
    unfold pos
    rw [if_pos c, if_pos (hz1 x a b c), c]
  have hle : ∀ x : Int, 0 ≤ x → x < n → rep x ≠ -1 → off n nv.get o.get (o.get (rep x) + 1) ≤ off n nv.get o.get kk := fun x a b c => by
    obtain ⟨h1, h2⟩ := hrep x a b c
    have := hP.rng _ h1.1 h1.2 h2
    exact off_mono (by omega)
  refine ⟨fun x a b => ?_, fun x a b y a' b' he => ?_⟩
  · by_cases c : rep x = -1
    · rw [hd x a b c]
      have := hdl x a b c
      have := hnn kk
      omega
    · have := hb x a b c
      have := hle x a b c
      have := hnn (o.get (rep x))
      omega
  · by_cases c : rep x = -1
    · by_cases c' : rep y = -1
      · rw [hd x a b c, hd y a' b' c'] at he
        by_contra hxy
        rcases lt_or_gt_of_ne hxy with h | h
        · have e1 := cnt_succ (nvf := nv.get) (rep := rep) (-1) x a b
          rw [if_pos ⟨hz1 x a b c, c⟩] at e1
          have e2 := cnt_mono (n := n) (nvf := nv.get) (rep := rep) (-1) (show x + 1 ≤ y by omega)
          omega
        · have e1 := cnt_succ (nvf := nv.get) (rep := rep) (-1) y a' b'
          rw [if_pos ⟨hz1 y a' b' c', c'⟩] at e1
          have e2 := cnt_mono (n := n) (nvf := nv.get) (rep := rep) (-1) (show y + 1 ≤ x by omega)
          omega
      · exfalso
        have h1 := hb y a' b' c'
        have h2 := hle y a' b' c'
        rw [← he, hd x a b c] at h1
        omega
    · by_cases c' : rep y = -1
      · exfalso
        have h1 := hb x a b c
        have h2 := hle x a b c
        rw [he, hd y a' b' c'] at h1
        omega
      · have h1 := hb x a b c
        have h2 := hb y a' b' c'
        obtain ⟨r1, r2⟩ := hrep x a b c
        obtain ⟨r3, r4⟩ := hrep y a' b' c'
        have hoo : o.get (rep x) = o.get (rep y) := by
          by_contra hne
          rcases lt_or_gt_of_ne hne with h | h
          · have := off_mono (n := n) (nvf := nv.get) (o := o.get) (show o.get (rep x) + 1 ≤ o.get (rep y) by omega)
            omega
          · have := off_mono (n := n) (nvf := nv.get) (o := o.get) (show o.get (rep y) + 1 ≤ o.get (rep x) by omega)
            omega
        have hrr : rep x = rep y := hP.inj _ r1.1 r1.2 _ r3.1 r3.2 r2 hoo
        have l1 := hloc x a b c
        have l2 := hloc y a' b' c'
        have nx := hE.nn x a b
        have ny := hE.nn y a' b'
        unfold pos at he
        rw [if_neg c, if_neg c', hrr] at he
        rw [hrr] at l1
        by_cases z1 : nv.get x = 0
        · by_cases z2 : nv.get y = 0
          · rw [if_pos z1, if_pos z2] at he
            by_contra hxy
            rcases lt_or_gt_of_ne hxy with h | h
            · have e1 := cnt_succ (nvf := nv.get) (rep := rep) (rep y) x a b
              rw [if_pos ⟨z1, hrr⟩] at e1
              have e2 := cnt_mono (n := n) (nvf := nv.get) (rep := rep) (rep y) (show x + 1 ≤ y by omega)
              omega
            · have e1 := cnt_succ (nvf := nv.get) (rep := rep) (rep y) y a' b'
              rw [if_pos ⟨z2, rfl⟩] at e1
              have e2 := cnt_mono (n := n) (nvf := nv.get) (rep := rep) (rep y) (show y + 1 ≤ x by omega)
              omega
          · exfalso
            have hs := hE.self y a' b' (by omega)
            rw [if_pos z1, if_pos z1] at l1
            rw [if_pos z1, if_neg z2] at he
            rw [hs] at l1 he
            omega
        · by_cases z2 : nv.get y = 0
          · exfalso
            have hs := hE.self x a b (by omega)
            rw [if_pos z2, if_pos z2] at l2
            rw [if_neg z1, if_pos z2] at he
            rw [← hrr, hs] at l2 he
            omega
          · rw [← hE.self x a b (by omega), ← hE.self y a' b' (by omega), hrr]

end

/-- The inverse of the positions (794–797). -/
theorem lastLoop_runs {n : Nat} {q l0 : Arr} (h6 : q.size = n) (h7 : l0.size = n) (hr1 : ∀ x : Int, 0 ≤ x → x < n → 0 ≤ q.get x ∧ q.get x < n)
    (hr2 : ∀ x : Int, 0 ≤ x → x < n → ∀ y : Int, 0 ≤ y → y < n → q.get x = q.get y → x = y) :
    Runs (forZ 0 n l0 fun i last => do
      let k ← q.rd i
      last.wr k i) fun P => P.size = n ∧ (∀ i : Int, 0 ≤ i → i < n → 0 ≤ P.get i ∧ P.get i < n) ∧
      ∀ i : Int, 0 ≤ i → i < n → ∀ j : Int, 0 ≤ j → j < n → P.get i = P.get j → i = j := by
  refine forZ_runs (fun k (l : Arr) => l.size = n ∧ ∀ x : Int, 0 ≤ x → x < k → l.get (q.get x) = x) (by omega) ⟨h7, fun x a b => by omega⟩ ?_ ?_
  · rintro k l a b ⟨u1, u2⟩
    have := hr1 k a b
    simp only [runs_bind, runs_rdZ, runs_wrZ]
    refine ⟨⟨a, by omega⟩, ⟨this.1, by omega⟩, u1, fun x y z => ?_⟩
    rw [Arr.set_get]
    split
    · rename_i h
      exact (hr2 x y (by omega) k a b h).symm
    · rename_i h
      refine u2 x y ?_
      have : x ≠ k := by rintro rfl; exact h rfl
      omega
  · rintro l ⟨u1, u2⟩
    have himg : (nodes n).image q.get = nodes n := by
      refine Finset.eq_of_subset_of_card_le (fun t ht => ?_) ?_
      · obtain ⟨x, hx, rfl⟩ := Finset.mem_image.1 ht
        have hx' := mem_nodes.1 hx
        rw [mem_nodes]; exact hr1 x hx'.1 hx'.2
      · rw [Finset.card_image_of_injOn]
        intro x hx y hy h
        have hx' := mem_nodes.1 hx
        have hy' := mem_nodes.1 hy
        exact hr2 x hx'.1 hx'.2 y hy'.1 hy'.2 h
    have hsur : ∀ t : Int, 0 ≤ t → t < n → ∃ x : Int, (0 ≤ x ∧ x < n) ∧ q.get x = t := fun t a b => by
      have : t ∈ (nodes n).image q.get := by rw [himg]; exact mem_nodes.2 ⟨a, b⟩
      obtain ⟨x, hx, e⟩ := Finset.mem_image.1 this
      exact ⟨x, mem_nodes.1 hx, e⟩
    refine ⟨u1, fun i a b => ?_, fun i a b j a' b' h => ?_⟩
    · obtain ⟨x, hx, e⟩ := hsur i a b
      rw [← e, u2 x hx.1 hx.2]; exact hx
    · obtain ⟨x, hx, e⟩ := hsur i a b
      obtain ⟨y, hy, e'⟩ := hsur j a' b'
      rw [← e, ← e', u2 x hx.1 hx.2, u2 y hy.1 hy.2] at h
      rw [← e, ← e', h]

/-- **From the assembly tree to the permutation** (741–797): every node gets one place. -/
theorem finish_runs {n : Nat} {c : St} {rep : Int → Int} {rk : Int → Nat} (hE : Elim n (fun x => flip (c.pe.get x)) c.nv.get rep rk)
    (hel : ∀ x : Int, 0 ≤ x → x < n → 0 < c.nv.get x → c.elen.get x ≤ -1)
    (h1 : c.pe.size = n) (h2 : c.nv.size = n) (h3 : c.elen.size = n) (h4 : c.w.size = n) (h5 : c.head.size = n) (h6 : c.next.size = n) (h7 : c.last.size = n) :
    Runs (finish n c) fun P => P.size = n ∧ (∀ i : Int, 0 ≤ i → i < n → 0 ≤ P.get i ∧ P.get i < n) ∧
      ∀ i : Int, 0 ≤ i → i < n → ∀ j : Int, 0 ≤ j → j < n → P.get i = P.get j → i = j := by
  unfold finish
  rw [runs_bind]
  refine forZ_runs (fun k (pe : Arr) => pe.size = n ∧ (∀ x : Int, 0 ≤ x → x < k → pe.get x = flip (c.pe.get x)) ∧ ∀ x : Int, k ≤ x → pe.get x = c.pe.get x) (by omega)
    ⟨h1, fun x a b => by omega, fun x a => rfl⟩ ?_ ?_
  · rintro k pe a b ⟨g1, g2, g3⟩
    simp only [runs_bind, runs_rdZ, runs_wrZ]
    refine ⟨⟨a, by omega⟩, ⟨a, by omega⟩, g1, fun x c d => ?_, fun x c => ?_⟩
    · rw [Arr.set_get]
      split
      · rename_i h; rw [h, g3 k (le_refl _)]
      · exact g2 x c (by omega)
    · rw [Arr.set_ne _ _ (by omega)]; exact g3 x (by omega)
  rintro pe ⟨p1, p2, -⟩
  rw [runs_bind]
  refine forZ_runs (fun k (el : Arr) => el.size = n ∧ (∀ x : Int, 0 ≤ x → x < k → el.get x = flip (c.elen.get x)) ∧ ∀ x : Int, k ≤ x → el.get x = c.elen.get x) (by omega)
    ⟨h3, fun x a b => by omega, fun x a => rfl⟩ ?_ ?_
  · rintro k pe a b ⟨g1, g2, g3⟩
    simp only [runs_bind, runs_rdZ, runs_wrZ]
    refine ⟨⟨a, by omega⟩, ⟨a, by omega⟩, g1, fun x c d => ?_, fun x c => ?_⟩
    · rw [Arr.set_get]
      split
      · rename_i h; rw [h, g3 k (le_refl _)]
      · exact g2 x c (by omega)
    · rw [Arr.set_ne _ _ (by omega)]; exact g3 x (by omega)
  rintro el ⟨l1, l2, -⟩
  rw [runs_bind]
  refine Runs.mono (compress_runs hE h2 p1 p2) fun pe ⟨q1, q2, q3⟩ => ?_
  rw [runs_bind]
  have hF : Forest n pe.get c.nv.get rk := ⟨fun x a b v hp => by
    rw [q2 x a b v] at hp ⊢
    exact ⟨hE.rng x a b hp, hE.elem x a b v hp, hE.rk x a b hp⟩⟩
  refine Runs.mono (postorder_runs hF q1 h2 l1 h4 h5 h6 h7 fun x a b v => by
    have := hel x a b v; rw [l2 x a b]; unfold flip; omega) fun o ⟨kk, hP⟩ => ?_
  rw [runs_bind]
  refine forZ_runs (fun k (r : Arr × Arr) => r.1.size = n ∧ r.2.size = n ∧ ∀ x : Int, 0 ≤ x → x < k → r.1.get x = -1) (by omega) ⟨h5, h6, fun x a b => by omega⟩ ?_ ?_
  · rintro k ⟨h, x⟩ a b ⟨g1, g2, g3⟩
    simp only at g1 g2 g3
    simp only [runs_bind, runs_wrZ, runs_pure, Arr.set_size]
    refine ⟨⟨a, by omega⟩, ⟨a, by omega⟩, g1, g2, fun x c d => ?_⟩
    rw [Arr.set_get]
    split
    · rfl
    · exact g3 x c (by omega)
  rintro ⟨h, nx⟩ ⟨g1, g2, g3⟩
  simp only at g1 g2 g3
  rw [runs_bind]
  have hkn := hP.kle
  refine forZ_runs (fun k (h : Arr) => h.size = n ∧ (∀ e : Int, 0 ≤ e → e < k → 0 < c.nv.get e → h.get (o.get e) = e) ∧
    ∀ t : Int, 0 ≤ t → t < n → (∀ e : Int, 0 ≤ e → e < k → o.get e ≠ t) → h.get t = -1) (by omega) ⟨g1, fun e a b => by omega, fun t a b _ => g3 t a b⟩ ?_ ?_
  · rintro k hh a b ⟨f1, f2, f3⟩
    simp only [runs_bind, runs_rdZ]
    refine ⟨⟨a, by rw [hP.size]; exact b⟩, ?_⟩
    by_cases hk : o.get k ≠ -1
    · have hvk : 0 < c.nv.get k := by
        by_contra hz
        exact hk (hP.out k a b (by omega))
      have hr := hP.rng k a b hvk
      rw [if_pos hk, runs_wrZ]
      refine ⟨⟨hr.1, by omega⟩, f1, fun e x y z => ?_, fun t x y z => ?_⟩
      · rw [Arr.set_get]
        split
        · rename_i h; exact (hP.inj e x (by omega) k a b z h).symm
        · rename_i h
          refine f2 e x ?_ z
          have : e ≠ k := by rintro rfl; exact h rfl
          omega
      · rw [Arr.set_ne _ _ (fun h => z k a (by omega) h.symm)]
        exact f3 t x y fun e u v => z e u (by omega)
    · rw [if_neg hk, runs_pure]
      refine ⟨f1, fun e x y z => f2 e x ?_ z, fun t x y z => f3 t x y fun e u v => z e u (by omega)⟩
      have : e ≠ k := by rintro rfl; have := (hP.rng e a b z).1; omega
      omega
  rintro hh ⟨f1, f2, f3⟩
  rw [runs_bind]
  refine Runs.mono (starts_runs h2 hP f1 f2 (fun t a b => f3 t (by have := hP.kpos; omega) b fun e u v he => ?_) n 0 0 nx (by omega) (le_refl _) hP.kpos ?_ g2
    fun e a b v d => ?_) fun s ⟨s1, s2, s3⟩ => ?_
  · by_cases hv : 0 < c.nv.get e
    · have := (hP.rng e u v hv).2; omega
    · have := hP.out e u v (by omega); have := hP.kpos; omega
  · unfold off
    rw [Finset.filter_false_of_mem, Finset.sum_empty]
    rintro e he ⟨u, v⟩
    have he' := mem_nodes.1 he
    have := (hP.rng e he'.1 he'.2 u).1
    omega
  · have := (hP.rng e a b v).1; omega
  have hrep : ∀ x : Int, 0 ≤ x → x < n → rep x ≠ -1 → (0 ≤ rep x ∧ rep x < n) ∧ 0 < c.nv.get (rep x) := fun x a b => rep_rng hE _ x a b (le_refl _)
  rw [runs_bind]
  refine Runs.mono (place_runs hE h2 q1 q3 hrep s1 s2 s3) fun r ⟨r1, r2, r3⟩ => ?_
  have hpos : ∀ x : Int, 0 ≤ x → x < n → r.2.get x = pos n c.nv.get rep o.get (off n c.nv.get o.get kk) x := fun x a b => by
    unfold pos
    by_cases hz : c.nv.get x = 0
    · rw [if_pos hz, r3 x a b hz]
    · have := hE.nn x a b
      have hs := hE.self x a b (by omega)
      rw [if_neg hz, r2 x a b (by omega), hs, if_neg (by omega), cnt_full hE hrep a b (by omega)]
  obtain ⟨hr1, hr2⟩ := pos_perm hE hP
  exact lastLoop_runs r1 h7 (fun x a b => by rw [hpos x a b]; exact hr1 x a b)
    fun x a b y a' b' h => hr2 x a b y a' b' (by rw [← hpos x a b, ← hpos y a' b']; exact h)

end Amd
end Hif
