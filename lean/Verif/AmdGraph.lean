import Verif.AmdFinish
import Verif.AmdLists

set_option linter.unusedVariables false

/-! # The quotient graph of the elimination

`V` are the nodes that are not eliminated, `X` the elements that are not absorbed.  A node `x` of `V` has the elements `E x` and the neighbours `A x`; an element `x` has
the nodes `A x`.  Nothing here refers to the program. -/

namespace Hif
namespace Amd

/-- What is known about the elimination beyond the arrays. -/
structure Gh where
  V : Finset Int
  X : Finset Int
  E : Int → List Int
  A : Int → List Int
  wt : Int → Int
  rep : Int → Int
  rk : Int → Nat
  D : Nat

/-- Invariant of the quotient graph; `deg` are the degrees of the elements, `pe` the pointers of the eliminated nodes and absorbed elements. -/
structure Gr (n : Nat) (g : Gh) (deg pe : Int → Int) (nel : Int) : Prop where
  vn : ∀ x ∈ g.V, 0 ≤ x ∧ x < n
  xn : ∀ x ∈ g.X, 0 ≤ x ∧ x < n
  vx : ∀ x ∈ g.V, x ∉ g.X
  wv : ∀ x ∈ g.V, 0 < g.wt x
  wx : ∀ x ∈ g.X, 0 < g.wt x
  wn : ∀ x : Int, 0 ≤ x → x < n → 0 ≤ g.wt x
  en : ∀ x ∈ g.V, (g.E x).Nodup
  ex : ∀ x ∈ g.V, ∀ e ∈ g.E x, e ∈ g.X
  av : ∀ x ∈ g.V, ∀ y ∈ g.A x, (0 ≤ y ∧ y < n) ∧ (y ∈ g.V ∨ g.wt y = 0)
  ax : ∀ x ∈ g.X, ∀ y ∈ g.A x, (0 ≤ y ∧ y < n) ∧ (y ∈ g.V ∨ g.wt y = 0)
  sym : ∀ x ∈ g.V, ∀ y ∈ g.V, y ∈ g.A x → x ∈ g.A y
  es1 : ∀ e ∈ g.X, ∀ x ∈ g.V, x ∈ g.A e → e ∈ g.E x
  es2 : ∀ e ∈ g.X, ∀ x ∈ g.V, e ∈ g.E x → x ∈ g.A e
  dg : ∀ e ∈ g.X, deg e = ∑ x ∈ g.V.filter fun x => e ∈ g.E x, g.wt x
  nel : nel + ∑ x ∈ g.V, g.wt x = n
  cnt : ∀ y : Int, 0 ≤ y → y < n → g.wt y = ((nodes n).filter fun x => g.rep x = y).card
  self : ∀ x : Int, 0 ≤ x → x < n → g.wt x ≠ 0 → g.rep x = x
  rkD : ∀ x : Int, 0 ≤ x → x < n → x ∉ g.V → x ∉ g.X → g.rk x < g.D
  tree : ∀ x : Int, 0 ≤ x → x < n → x ∉ g.V → x ∉ g.X → (pe x = -1 ∧ (g.wt x = 0 → g.rep x = -1)) ∨
    ∃ y : Int, (0 ≤ y ∧ y < n) ∧ pe x = flip y ∧ (y ∈ g.V ∨ y ∈ g.X ∨ g.rk x < g.rk y) ∧ (g.wt x ≠ 0 → g.wt y ≠ 0 ∧ y ∉ g.V) ∧
      (g.wt x = 0 → (g.wt y ≠ 0 ∨ pe y ≠ -1) ∧ g.rep x = g.rep y)

@[simp] theorem flip_flip (x : Int) : flip (flip x) = x := by unfold flip; ring

theorem flip_ne {y : Int} (h : 0 ≤ y) : flip y ≠ -1 := by unfold flip; omega

/-- After the elimination. -/
theorem Gr.elim {n : Nat} {g : Gh} {deg pe : Int → Int} {nel : Int} {nv : Int → Int} (h : Gr n g deg pe nel) (hnel : (n : Int) ≤ nel)
    (hdp : ∀ e ∈ g.X, 0 < deg e) (hnv : ∀ x : Int, 0 ≤ x → x < n → nv x = g.wt x) : Elim n (fun x => flip (pe x)) nv g.rep g.rk := by
  have hV : g.V = ∅ := by
    rw [Finset.eq_empty_iff_forall_notMem]
    intro x hx
    have h1 := h.nel
    have h2 := Finset.single_le_sum (f := g.wt) (fun y hy => (h.wv y hy).le) hx
    have h3 := h.wv x hx
    omega
  have hX : g.X = ∅ := by
    rw [Finset.eq_empty_iff_forall_notMem]
    intro e he
    have h1 := h.dg e he
    have h2 := hdp e he
    rw [hV, Finset.filter_empty, Finset.sum_empty] at h1
    omega
  have hnV : ∀ x, x ∉ g.V := fun x => by rw [hV]; simp
  have hnX : ∀ x, x ∉ g.X := fun x => by rw [hX]; simp
  have ht := fun x a b => h.tree x a b (hnV x) (hnX x)
  have hcase : ∀ x : Int, 0 ≤ x → x < n → flip (pe x) ≠ -1 → ∃ y : Int, (0 ≤ y ∧ y < n) ∧ flip (pe x) = y ∧ g.rk x < g.rk y ∧ (g.wt x ≠ 0 → g.wt y ≠ 0) ∧
      (g.wt x = 0 → (g.wt y ≠ 0 ∨ pe y ≠ -1) ∧ g.rep x = g.rep y) := fun x a b c => by
    rcases ht x a b with ⟨h1, -⟩ | ⟨y, h1, h2, h3, h4, h5⟩
    · rw [h1] at c; exact absurd rfl c
    · exact ⟨y, h1, by rw [h2, flip_flip], (h3.resolve_left (hnV y)).resolve_left (hnX y), fun u => (h4 u).1, h5⟩
  refine ⟨fun x a b => by rw [hnv x a b]; exact h.wn x a b, fun x a b c => ?_, fun x a b c => ?_, fun x a b c d => ?_, fun x a b c d => ?_, fun x a b c d => ?_, fun x a b c => ?_,
    fun y a b => by rw [hnv y a b]; exact h.cnt y a b⟩
  · obtain ⟨y, h1, h2, -⟩ := hcase x a b c
    rw [h2]; exact h1
  · obtain ⟨y, h1, h2, h3, -⟩ := hcase x a b c
    rw [h2]; exact h3
  · obtain ⟨y, h1, h2, h3, h4, -⟩ := hcase x a b d
    rw [hnv x a b] at c
    rw [h2, hnv y h1.1 h1.2]
    have := h.wn y h1.1 h1.2
    have := h4 (by omega)
    omega
  · obtain ⟨y, h1, h2, h3, h4, h5⟩ := hcase x a b d
    rw [hnv x a b] at c
    obtain ⟨h6, h7⟩ := h5 c
    rw [h2, hnv y h1.1 h1.2]
    refine ⟨h6.imp (fun u => ?_) fun u => ?_, h7⟩
    · have := h.wn y h1.1 h1.2; omega
    · intro e; apply u; unfold flip at e; omega
  · rw [hnv x a b] at c
    rcases ht x a b with ⟨h1, h2⟩ | ⟨y, h1, h2, -⟩
    · exact h2 c
    · rw [h2, flip_flip] at d; omega
  · rw [hnv x a b] at c
    exact h.self x a b (by omega)

/-- Two nodes become one. -/
def Gh.merge (g : Gh) (i j : Int) : Gh :=
  { g with
    V := g.V.erase j
    wt := fun x => if x = j then 0 else if x = i then g.wt i + g.wt j else g.wt x
    rep := fun x => if g.rep x = j then i else g.rep x
    rk := fun x => if x = j then g.D else g.rk x
    D := g.D + 1 }

/-- **Indistinguishable nodes** can be merged. -/
theorem Gr.merge {n : Nat} {g : Gh} {deg pe : Int → Int} {nel : Int} (h : Gr n g deg pe nel) {i j : Int} (hi : i ∈ g.V) (hj : j ∈ g.V) (hij : i ≠ j)
    (hE : ∀ e, e ∈ g.E i ↔ e ∈ g.E j) {pe' : Int → Int} (hp1 : pe' j = flip i) (hp2 : ∀ x, x ≠ j → pe' x = pe x) : Gr n (g.merge i j) deg pe' nel := by
  have hwi := h.wv i hi
  have hwj := h.wv j hj
  have hin := h.vn i hi
  have hjn := h.vn j hj
  have hrj : g.rep j = j := h.self j hjn.1 hjn.2 (by omega)
  have hwt : ∀ x, x ≠ j → x ≠ i → (g.merge i j).wt x = g.wt x := fun x a b => by simp [Gh.merge, a, b]
  have hwtj : (g.merge i j).wt j = 0 := by simp [Gh.merge]
  have hwti : (g.merge i j).wt i = g.wt i + g.wt j := by simp [Gh.merge, hij]
  have hV : ∀ x, x ∈ (g.merge i j).V ↔ x ≠ j ∧ x ∈ g.V := fun x => by simp [Gh.merge]
  have hwt0 : ∀ y : Int, 0 ≤ y → y < n → ((g.merge i j).wt y = 0 ↔ y = j ∨ g.wt y = 0) := fun y a b => by
    by_cases hy : y = j
    · rw [hy, hwtj]; simp
    · by_cases hyi : y = i
      · rw [hyi, hwti]; constructor
        · intro; omega
        · rintro (u | u) <;> omega
      · rw [hwt y hy hyi]; simp [hy]
  have hav : ∀ y : Int, (0 ≤ y ∧ y < n) ∧ (y ∈ g.V ∨ g.wt y = 0) → (0 ≤ y ∧ y < n) ∧ (y ∈ (g.merge i j).V ∨ (g.merge i j).wt y = 0) := fun y ⟨a, b⟩ => ⟨a, by
    rw [hV, hwt0 y a.1 a.2]
    by_cases hy : y = j
    · exact Or.inr (Or.inl hy)
    · exact b.imp (fun u => ⟨hy, u⟩) fun u => Or.inr u⟩
  have hsumV : ∑ x ∈ g.V.erase j, (g.merge i j).wt x = ∑ x ∈ g.V, g.wt x := by
    rw [← Finset.add_sum_erase _ _ hj]
    have hie : i ∈ g.V.erase j := Finset.mem_erase.2 ⟨hij, hi⟩
    rw [← Finset.add_sum_erase _ _ hie, ← Finset.add_sum_erase (g.V.erase j) g.wt hie, hwti]
    have : ∑ x ∈ (g.V.erase j).erase i, (g.merge i j).wt x = ∑ x ∈ (g.V.erase j).erase i, g.wt x := Finset.sum_congr rfl fun x hx => by
      rw [Finset.mem_erase, Finset.mem_erase] at hx
      exact hwt x hx.2.1 hx.1
    rw [this]; ring
  refine ⟨fun x hx => h.vn x ((hV x).1 hx).2, h.xn, fun x hx => h.vx x ((hV x).1 hx).2, fun x hx => ?_, fun x hx => ?_, fun x a b => ?_, fun x hx => h.en x ((hV x).1 hx).2,
    fun x hx => h.ex x ((hV x).1 hx).2, fun x hx y hy => hav y (h.av x ((hV x).1 hx).2 y hy), fun x hx y hy => hav y (h.ax x hx y hy),
    fun x hx y hy => h.sym x ((hV x).1 hx).2 y ((hV y).1 hy).2, fun e he x hx => h.es1 e he x ((hV x).1 hx).2, fun e he x hx => h.es2 e he x ((hV x).1 hx).2, fun e he => ?_, ?_, fun y a b => ?_,
    fun x a b c => ?_, fun x a b c d => ?_, fun x a b c d => ?_⟩
  · obtain ⟨h1, h2⟩ := (hV x).1 hx
    by_cases hxi : x = i
    · rw [hxi, hwti]; omega
    · rw [hwt x h1 hxi]; exact h.wv x h2
  · have hxj : x ≠ j := fun e => h.vx j hj (e ▸ hx)
    have hxi : x ≠ i := fun e => h.vx i hi (e ▸ hx)
    rw [hwt x hxj hxi]; exact h.wx x hx
  · by_cases hxj : x = j
    · rw [hxj, hwtj]
    · by_cases hxi : x = i
      · rw [hxi, hwti]; omega
      · rw [hwt x hxj hxi]; exact h.wn x a b
  · rw [h.dg e he]
    show _ = ∑ x ∈ (g.V.erase j).filter fun x => e ∈ g.E x, (g.merge i j).wt x
    by_cases hei : e ∈ g.E i
    · have hej := (hE e).1 hei
      have m1 : j ∈ g.V.filter fun x => e ∈ g.E x := Finset.mem_filter.2 ⟨hj, hej⟩
      have hfe : (g.V.erase j).filter (fun x => e ∈ g.E x) = (g.V.filter fun x => e ∈ g.E x).erase j := by
        ext x; simp only [Finset.mem_filter, Finset.mem_erase]; exact ⟨fun u => ⟨u.1.1, u.1.2, u.2⟩, fun u => ⟨⟨u.1, u.2.1⟩, u.2.2⟩⟩
      have m2 : i ∈ (g.V.filter fun x => e ∈ g.E x).erase j := Finset.mem_erase.2 ⟨hij, Finset.mem_filter.2 ⟨hi, hei⟩⟩
      rw [hfe, ← Finset.add_sum_erase _ _ m1, ← Finset.add_sum_erase _ _ m2, ← Finset.add_sum_erase _ (g.merge i j).wt m2, hwti]
      have : ∑ x ∈ ((g.V.filter fun x => e ∈ g.E x).erase j).erase i, (g.merge i j).wt x = ∑ x ∈ ((g.V.filter fun x => e ∈ g.E x).erase j).erase i, g.wt x :=
        Finset.sum_congr rfl fun x hx => by
          rw [Finset.mem_erase, Finset.mem_erase] at hx
          exact hwt x hx.2.1 hx.1
      rw [this]; ring
    · have hej : e ∉ g.E j := fun u => hei ((hE e).2 u)
      refine Finset.sum_congr ?_ fun x hx => ?_
      · ext x
        simp only [Finset.mem_filter, Finset.mem_erase]
        constructor
        · rintro ⟨u, v⟩; exact ⟨⟨fun w => hej (w ▸ v), u⟩, v⟩
        · rintro ⟨⟨_, u⟩, v⟩; exact ⟨u, v⟩
      · rw [Finset.mem_filter, Finset.mem_erase] at hx
        exact (hwt x hx.1.1 fun w => hei (w ▸ hx.2)).symm
  · show nel + ∑ x ∈ g.V.erase j, (g.merge i j).wt x = n
    rw [hsumV]; exact h.nel
  · show _ = (((nodes n).filter fun x => (if g.rep x = j then i else g.rep x) = y).card : Int)
    by_cases hyj : y = j
    · rw [hyj, hwtj]
      rw [Finset.filter_false_of_mem]
      · simp
      · intro x _
        split
        · exact hij
        · assumption
    · by_cases hyi : y = i
      · rw [hyi, hwti, h.cnt i hin.1 hin.2, h.cnt j hjn.1 hjn.2, ← Nat.cast_add, ← Finset.card_union_of_disjoint]
        · congr 2
          ext x
          simp only [Finset.mem_union, Finset.mem_filter]
          constructor
          · rintro (⟨u, v⟩ | ⟨u, v⟩)
            · exact ⟨u, by rw [if_neg (by rw [v]; exact hij)]; exact v⟩
            · exact ⟨u, by rw [if_pos v]⟩
          · rintro ⟨u, v⟩
            by_cases w : g.rep x = j
            · exact Or.inr ⟨u, w⟩
            · rw [if_neg w] at v; exact Or.inl ⟨u, v⟩
        · rw [Finset.disjoint_left]
          intro x hx hx2
          rw [Finset.mem_filter] at hx hx2
          exact hij (hx.2.symm.trans hx2.2)
      · rw [hwt y hyj hyi, h.cnt y a b]
        congr 2
        ext x
        simp only [Finset.mem_filter]
        refine and_congr_right fun _ => ?_
        by_cases w : g.rep x = j
        · rw [if_pos w, w]
          exact ⟨fun u => absurd u.symm hyj, fun u => absurd u.symm hyi⟩
        · rw [if_neg w]
  · have hxj : x ≠ j := fun e => c (by rw [e]; exact hwtj)
    have hx0 : g.wt x ≠ 0 := fun e => c ((hwt0 x a b).2 (Or.inr e))
    have := h.self x a b hx0
    show (if g.rep x = j then i else g.rep x) = x
    rw [this, if_neg hxj]
  · show (if x = j then g.D else g.rk x) < g.D + 1
    split
    · omega
    · rename_i hxj
      have := h.rkD x a b (fun u => c ((hV x).2 ⟨hxj, u⟩)) d
      omega
  · by_cases hxj : x = j
    · right
      refine ⟨i, hin, by rw [hxj]; exact hp1, Or.inl ((hV i).2 ⟨hij, hi⟩), fun u => absurd (by rw [hxj]; exact hwtj) u, fun _ => ⟨Or.inl (by rw [hwti]; omega), ?_⟩⟩
      show (if g.rep x = j then i else g.rep x) = if g.rep i = j then i else g.rep i
      have hri := h.self i hin.1 hin.2 (by omega)
      rw [hxj, hrj, if_pos rfl, hri, if_neg hij]
    · have hxV : x ∉ g.V := fun u => c ((hV x).2 ⟨hxj, u⟩)
      have hxX : x ∉ g.X := d
      have hxi : x ≠ i := fun e => hxV (e ▸ hi)
      have hrkx := h.rkD x a b hxV hxX
      rw [hwt x hxj hxi]
      rw [hp2 x hxj]
      rcases h.tree x a b hxV hxX with ⟨h1, h2⟩ | ⟨y, h1, h2, h3, h4, h5⟩
      · left
        refine ⟨h1, fun u => ?_⟩
        show (if g.rep x = j then i else g.rep x) = -1
        have := h2 u
        rw [this, if_neg (by omega)]
      · right
        refine ⟨y, h1, h2, ?_, fun u => ?_, fun u => ?_⟩
        · show y ∈ (g.merge i j).V ∨ y ∈ g.X ∨ (if x = j then g.D else g.rk x) < if y = j then g.D else g.rk y
          rw [if_neg hxj]
          by_cases hyj : y = j
          · rw [if_pos hyj]; exact Or.inr (Or.inr hrkx)
          · rw [if_neg hyj]
            exact h3.imp (fun u => (hV y).2 ⟨hyj, u⟩) id
        · obtain ⟨h6, h7⟩ := h4 u
          have hyj : y ≠ j := fun e => h7 (e ▸ hj)
          have hyi : y ≠ i := fun e => h7 (e ▸ hi)
          rw [hwt y hyj hyi]
          exact ⟨h6, fun w => h7 ((hV y).1 w).2⟩
        · obtain ⟨h6, h7⟩ := h5 u
          refine ⟨?_, ?_⟩
          · by_cases hyj : y = j
            · right; rw [hyj, hp1]; exact flip_ne hin.1
            · rw [hp2 y hyj]
              refine h6.imp (fun w => ?_) id
              exact fun w2 => ((hwt0 y h1.1 h1.2).1 w2).elim hyj w
          · show (if g.rep x = j then i else g.rep x) = if g.rep y = j then i else g.rep y
            rw [h7]

/-- An element without nodes becomes a root. -/
theorem Gr.root {n : Nat} {g : Gh} {deg pe : Int → Int} {nel : Int} (h : Gr n g deg pe nel) {e : Int} (he : e ∈ g.X) (hno : ∀ x ∈ g.V, e ∉ g.E x)
    {pe' : Int → Int} (hp1 : pe' e = -1) (hp2 : ∀ x, x ≠ e → pe' x = pe x) :
    Gr n { g with X := g.X.erase e, rk := fun x => if x = e then g.D else g.rk x, D := g.D + 1 } deg pe' nel := by
  have hen := h.xn e he
  have hwe := h.wx e he
  have heV : e ∉ g.V := fun u => h.vx e u he
  have hX : ∀ x, x ∈ g.X.erase e ↔ x ≠ e ∧ x ∈ g.X := fun x => Finset.mem_erase
  refine ⟨h.vn, fun x hx => h.xn x ((hX x).1 hx).2, fun x hx u => h.vx x hx ((hX x).1 u).2, h.wv, fun x hx => h.wx x ((hX x).1 hx).2, h.wn, h.en,
    fun x hx y hy => (hX y).2 ⟨fun w => hno x hx (w ▸ hy), h.ex x hx y hy⟩, h.av, fun x hx => h.ax x ((hX x).1 hx).2, h.sym, fun y hy => h.es1 y ((hX y).1 hy).2,
    fun y hy => h.es2 y ((hX y).1 hy).2, fun y hy => h.dg y ((hX y).1 hy).2, h.nel, h.cnt, h.self, fun x a b c d => ?_, fun x a b c d => ?_⟩
  · show (if x = e then g.D else g.rk x) < g.D + 1
    split
    · omega
    · rename_i hx
      have := h.rkD x a b c fun u => d ((hX x).2 ⟨hx, u⟩)
      omega
  · by_cases hx : x = e
    · left
      rw [hx]
      exact ⟨hp1, fun u => by simp only at u; omega⟩
    · have hxX : x ∉ g.X := fun u => d ((hX x).2 ⟨hx, u⟩)
      rw [hp2 x hx]
      rcases h.tree x a b c hxX with h1 | ⟨y, h1, h2, h3, h4, h5⟩
      · exact Or.inl h1
      · right
        have hrkx := h.rkD x a b c hxX
        refine ⟨y, h1, h2, ?_, h4, fun u => ?_⟩
        · show y ∈ g.V ∨ y ∈ g.X.erase e ∨ (if x = e then g.D else g.rk x) < if y = e then g.D else g.rk y
          rw [if_neg hx]
          by_cases hy : y = e
          · rw [if_pos hy]; exact Or.inr (Or.inr hrkx)
          · rw [if_neg hy]
            exact h3.imp id (Or.imp (fun u => (hX y).2 ⟨hy, u⟩) id)
        · obtain ⟨h6, h7⟩ := h5 u
          refine ⟨?_, h7⟩
          by_cases hy : y = e
          · left; rw [hy]; show g.wt e ≠ 0; omega
          · rw [hp2 y hy]; exact h6

end Amd
end Hif
