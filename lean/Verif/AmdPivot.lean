import Verif.AmdGraph
import Mathlib.Algebra.BigOperators.Fin

set_option linter.unusedVariables false

/-! # Elimination of a pivot in the quotient graph -/

namespace Hif
namespace Amd

/-- The pivot `me` and the nodes in `K` are eliminated, the elements of `me` and those in `Z` are absorbed. -/
def Gh.pivot (g : Gh) (me : Int) (K Z : Finset Int) (E' A' : Int → List Int) : Gh where
  V := g.V.filter fun x => x ≠ me ∧ x ∉ K
  X := insert me (g.X.filter fun x => x ∉ g.E me ∧ x ∉ Z)
  E := E'
  A := A'
  wt := fun x => if x ∈ K then 0 else if x = me then g.wt me + ∑ y ∈ K, g.wt y else g.wt x
  rep := fun x => if g.rep x ∈ K then me else g.rep x
  rk := fun x => if x ∈ g.E me ∨ x ∈ Z ∨ x ∈ K then g.D else g.rk x
  D := g.D + 1

/-- What a step does to the lists; `M` are the nodes of the new element. -/
structure Step (g : Gh) (me : Int) (M K Z : Finset Int) (E' A' : Int → List Int) : Prop where
  mv : me ∈ g.V
  m : ∀ x, x ∈ M ↔ x ∈ g.V ∧ x ≠ me ∧ (x ∈ g.A me ∨ ∃ e ∈ g.E me, x ∈ g.A e)
  k : ∀ x ∈ K, x ∈ M ∧ ∀ e ∈ g.E x, e ∈ g.E me ∨ e ∈ Z
  zx : ∀ z ∈ Z, z ∈ g.X
  z : ∀ z ∈ Z, ∀ x ∈ g.V, x ≠ me → z ∈ g.E x → x ∈ M
  en : ∀ x ∈ M, x ∉ K → (E' x).Nodup
  e1 : ∀ x ∈ M, x ∉ K → ∀ e, e ∈ E' x ↔ e = me ∨ (e ∈ g.E x ∧ e ∉ g.E me ∧ e ∉ Z)
  a1 : ∀ x ∈ M, x ∉ K → ∀ y, y ∈ A' x ↔ y ∈ g.A x ∧ y ∈ g.V ∧ y ≠ me ∧ y ∉ M
  e2 : ∀ x ∈ g.V, x ≠ me → x ∉ M → E' x = g.E x
  a2 : ∀ x, x ∈ g.V ∨ x ∈ g.X → x ≠ me → x ∉ M → A' x = g.A x
  am : ∀ y, y ∈ A' me → y ∈ M
  ma : ∀ y ∈ M, y ∉ K → y ∈ A' me

/-- **A pivot** is eliminated. -/
theorem Gr.pivot {n : Nat} {g : Gh} {deg pe : Int → Int} {nel : Int} (h : Gr n g deg pe nel) {me : Int} {M K Z : Finset Int} {E' A' : Int → List Int}
    (S : Step g me M K Z E' A') {deg' pe' : Int → Int}
    (hd1 : deg' me = ∑ x ∈ M.filter fun x => x ∉ K, g.wt x) (hd2 : ∀ e ∈ g.X, e ∉ g.E me → e ∉ Z → deg' e = deg e)
    (hp1 : ∀ x, x ∈ g.E me ∨ x ∈ Z ∨ x ∈ K → pe' x = flip me) (hp2 : ∀ x, x ∉ g.V → x ∉ g.X → pe' x = pe x) :
    Gr n (g.pivot me K Z E' A') deg' pe' (nel + g.wt me + ∑ x ∈ K, g.wt x) := by
  have hme := S.mv
  have hmen := h.vn me hme
  have hmeX : me ∉ g.X := h.vx me hme
  have hwme := h.wv me hme
  have hMV : ∀ x ∈ M, x ∈ g.V ∧ x ≠ me := fun x hx => ⟨((S.m x).1 hx).1, ((S.m x).1 hx).2.1⟩
  have hKM : ∀ x ∈ K, x ∈ M := fun x hx => (S.k x hx).1
  have hmeK : me ∉ K := fun u => (hMV me (hKM me u)).2 rfl
  have hKV : ∀ x ∈ K, x ∈ g.V := fun x hx => (hMV x (hKM x hx)).1
  have hsK : 0 ≤ ∑ y ∈ K, g.wt y := Finset.sum_nonneg fun y hy => (h.wv y (hKV y hy)).le
  have hEX : ∀ e ∈ g.E me, e ∈ g.X := h.ex me hme
  set g' := g.pivot me K Z E' A' with hg'
  have hV : ∀ x, x ∈ g'.V ↔ x ∈ g.V ∧ x ≠ me ∧ x ∉ K := fun x => by show x ∈ Finset.filter _ _ ↔ _; rw [Finset.mem_filter]
  have hX : ∀ x, x ∈ g'.X ↔ x = me ∨ (x ∈ g.X ∧ x ∉ g.E me ∧ x ∉ Z) := fun x => by show x ∈ insert _ (Finset.filter _ _) ↔ _; rw [Finset.mem_insert, Finset.mem_filter]
  have hwK : ∀ x ∈ K, g'.wt x = 0 := fun x hx => by show (if _ then _ else _) = _; rw [if_pos hx]
  have hwM : g'.wt me = g.wt me + ∑ y ∈ K, g.wt y := by show (if _ then _ else _) = _; rw [if_neg hmeK, if_pos rfl]
  have hw : ∀ x, x ≠ me → x ∉ K → g'.wt x = g.wt x := fun x a b => by show (if _ then _ else _) = _; rw [if_neg b, if_neg a]
  have hwM0 : 0 < g'.wt me := by rw [hwM]; omega
  have hwV : ∀ x ∈ g'.V, g'.wt x = g.wt x := fun x hx => hw x ((hV x).1 hx).2.1 ((hV x).1 hx).2.2
  have hXK : ∀ x ∈ g.X, x ∉ K := fun x hx u => h.vx x (hKV x u) hx
  have hXm : ∀ x ∈ g.X, x ≠ me := fun x hx e => hmeX (e ▸ hx)
  have hXM : ∀ x ∈ g.X, x ∉ M := fun x hx u => h.vx x (hMV x u).1 hx
  -- elements of nodes outside the new element survive
  have hout : ∀ x ∈ g.V, x ≠ me → x ∉ M → ∀ e ∈ g.E x, e ∉ g.E me ∧ e ∉ Z := fun x hx hxm hxM e he =>
    ⟨fun u => hxM ((S.m x).2 ⟨hx, hxm, Or.inr ⟨e, u, h.es2 e (hEX e u) x hx he⟩⟩), fun u => hxM (S.z e u x hx hxm he)⟩
  have hE : ∀ x ∈ g'.V, ∀ e, e ∈ E' x ↔ (e = me ∧ x ∈ M) ∨ (e ∈ g.E x ∧ e ∉ g.E me ∧ e ∉ Z) := fun x hx e => by
    obtain ⟨a, b, c⟩ := (hV x).1 hx
    by_cases hxM : x ∈ M
    · rw [S.e1 x hxM c e]
      exact ⟨fun u => u.imp (fun v => ⟨v, hxM⟩) id, fun u => u.imp (fun v => v.1) id⟩
    · rw [S.e2 x a b hxM]
      exact ⟨fun u => Or.inr ⟨u, hout x a b hxM e u⟩, fun u => u.elim (fun v => absurd v.2 hxM) fun v => v.1⟩
  -- entries remain nodes or eliminated
  have hav : ∀ y : Int, (0 ≤ y ∧ y < n) ∧ (y ∈ g.V ∨ g.wt y = 0) → y ≠ me → (0 ≤ y ∧ y < n) ∧ (y ∈ g'.V ∨ g'.wt y = 0) := fun y ⟨a, b⟩ hy => ⟨a, by
    by_cases hyK : y ∈ K
    · exact Or.inr (hwK y hyK)
    · rw [hw y hy hyK]
      exact b.imp (fun u => (hV y).2 ⟨u, hy, hyK⟩) id⟩
  have hMn : ∀ y : Int, y ∈ M → (0 ≤ y ∧ y < n) ∧ (y ∈ g'.V ∨ g'.wt y = 0) := fun y hy => hav y ⟨h.vn y (hMV y hy).1, Or.inl (hMV y hy).1⟩ (hMV y hy).2
  refine ⟨fun x hx => h.vn x ((hV x).1 hx).1, fun x hx => ?_, fun x hx u => ?_, fun x hx => ?_, fun x hx => ?_, fun x a b => ?_, fun x hx => ?_, fun x hx e he => ?_, fun x hx y hy => ?_,
    fun x hx y hy => ?_, fun x hx y hy hxy => ?_, fun e he x hx hxe => ?_, fun e he x hx hxe => ?_, fun e he => ?_, ?_, fun y a b => ?_, fun x a b c => ?_, fun x a b c d => ?_,
    fun x a b c d => ?_⟩
  · rcases (hX x).1 hx with e | e
    · rw [e]; exact hmen
    · exact h.xn x e.1
  · obtain ⟨a, b, c⟩ := (hV x).1 hx
    rcases (hX x).1 u with e | e
    · exact b e
    · exact h.vx x a e.1
  · rw [hwV x hx]; exact h.wv x ((hV x).1 hx).1
  · rcases (hX x).1 hx with e | e
    · rw [e]; exact hwM0
    · rw [hw x (hXm x e.1) (hXK x e.1)]; exact h.wx x e.1
  · by_cases hxK : x ∈ K
    · rw [hwK x hxK]
    · by_cases hxm : x = me
      · rw [hxm]; omega
      · rw [hw x hxm hxK]; exact h.wn x a b
  · obtain ⟨a, b, c⟩ := (hV x).1 hx
    by_cases hxM : x ∈ M
    · exact S.en x hxM c
    · show (E' x).Nodup
      rw [S.e2 x a b hxM]; exact h.en x a
  · obtain ⟨a, b, c⟩ := (hV x).1 hx
    rw [hX]
    rcases (hE x hx e).1 he with ⟨u, -⟩ | ⟨u, v⟩
    · exact Or.inl u
    · exact Or.inr ⟨h.ex x a e u, v⟩
  · obtain ⟨a, b, c⟩ := (hV x).1 hx
    by_cases hxM : x ∈ M
    · obtain ⟨h1, h2, h3, h4⟩ := (S.a1 x hxM c y).1 hy
      exact hav y (h.av x a y h1) h3
    · have hy' : y ∈ g.A x := by rw [← S.a2 x (Or.inl a) b hxM]; exact hy
      refine hav y (h.av x a y hy') fun e => hxM ((S.m x).2 ⟨a, b, Or.inl (h.sym x a me hme (e ▸ hy'))⟩)
  · rcases (hX x).1 hx with e | ⟨e1, e2, e3⟩
    · subst e; exact hMn y (S.am y hy)
    · have hy' : y ∈ g.A x := by rw [← S.a2 x (Or.inr e1) (hXm x e1) (hXM x e1)]; exact hy
      exact hav y (h.ax x e1 y hy') fun e => e2 (h.es1 x e1 me hme (e ▸ hy'))
  · obtain ⟨a1, a2, a3⟩ := (hV x).1 hx
    obtain ⟨b1, b2, b3⟩ := (hV y).1 hy
    show x ∈ A' y
    have hxy : y ∈ A' x := hxy
    have h1 : y ∈ g.A x := by
      by_cases hxM : x ∈ M
      · exact ((S.a1 x hxM a3 y).1 hxy).1
      · rw [← S.a2 x (Or.inl a1) a2 hxM]; exact hxy
    have h2 := h.sym x a1 y b1 h1
    by_cases hyM : y ∈ M
    · rw [S.a1 y hyM b3]
      refine ⟨h2, a1, a2, fun hxM => ?_⟩
      exact ((S.a1 x hxM a3 y).1 hxy).2.2.2 hyM
    · rw [S.a2 y (Or.inl b1) b2 hyM]; exact h2
  · show e ∈ E' x
    have hxe : x ∈ A' e := hxe
    rw [hE x hx]
    rcases (hX e).1 he with u | ⟨u1, u2, u3⟩
    · subst u; exact Or.inl ⟨rfl, S.am x hxe⟩
    · rw [S.a2 e (Or.inr u1) (hXm e u1) (hXM e u1)] at hxe
      exact Or.inr ⟨h.es1 e u1 x ((hV x).1 hx).1 hxe, u2, u3⟩
  · show x ∈ A' e
    rcases (hE x hx e).1 hxe with ⟨u, v⟩ | ⟨u1, u2, u3⟩
    · rw [u]; exact S.ma x v ((hV x).1 hx).2.2
    · have u0 := h.ex x ((hV x).1 hx).1 e u1
      rw [S.a2 e (Or.inr u0) (hXm e u0) (hXM e u0)]
      exact h.es2 e u0 x ((hV x).1 hx).1 u1
  · show _ = ∑ x ∈ g'.V.filter fun x => e ∈ E' x, g'.wt x
    rcases (hX e).1 he with u | ⟨u1, u2, u3⟩
    · subst u
      rw [hd1]
      refine Finset.sum_congr ?_ fun x hx => ?_
      · ext x
        rw [Finset.mem_filter, Finset.mem_filter]
        constructor
        · rintro ⟨a, b⟩
          have hxV : x ∈ g'.V := (hV x).2 ⟨(hMV x a).1, (hMV x a).2, b⟩
          exact ⟨hxV, (hE x hxV e).2 (Or.inl ⟨rfl, a⟩)⟩
        · rintro ⟨a, b⟩
          refine ⟨?_, ((hV x).1 a).2.2⟩
          rcases (hE x a e).1 b with u | u
          · exact u.2
          · exact absurd (h.ex x ((hV x).1 a).1 e u.1) hmeX
      · rw [Finset.mem_filter] at hx
        exact (hwV x hx.1).symm
    · rw [hd2 e u1 u2 u3, h.dg e u1]
      refine Finset.sum_congr ?_ fun x hx => ?_
      · ext x
        rw [Finset.mem_filter, Finset.mem_filter]
        constructor
        · rintro ⟨a, b⟩
          have hxm : x ≠ me := fun w => u2 (w ▸ b)
          have hxK : x ∉ K := fun w => ((S.k x w).2 e b).elim u2 u3
          have hxV : x ∈ g'.V := (hV x).2 ⟨a, hxm, hxK⟩
          exact ⟨hxV, (hE x hxV e).2 (Or.inr ⟨b, u2, u3⟩)⟩
        · rintro ⟨a, b⟩
          refine ⟨((hV x).1 a).1, ?_⟩
          rcases (hE x a e).1 b with u | u
          · exact absurd u1 (u.1 ▸ hmeX)
          · exact u.1
      · rw [Finset.mem_filter] at hx
        exact (hwV x hx.1).symm
  · have h1 := h.nel
    have h2 : ∑ x ∈ g.V, g.wt x = ∑ x ∈ g'.V, g'.wt x + (g.wt me + ∑ x ∈ K, g.wt x) := by
      have : ∑ x ∈ g'.V, g'.wt x = ∑ x ∈ g'.V, g.wt x := Finset.sum_congr rfl hwV
      rw [this, ← Finset.sum_insert hmeK, ← Finset.sum_filter_add_sum_filter_not g.V (fun x => x ≠ me ∧ x ∉ K)]
      congr 1
      refine Finset.sum_congr ?_ fun _ _ => rfl
      ext x
      rw [Finset.mem_filter, Finset.mem_insert]
      constructor
      · rintro ⟨a, b⟩
        by_cases hxm : x = me
        · exact Or.inl hxm
        · exact Or.inr (by_contra fun w => b ⟨hxm, w⟩)
      · rintro (a | a)
        · exact ⟨a ▸ hme, fun u => u.1 a⟩
        · exact ⟨hKV x a, fun u => u.2 a⟩
    omega
  · show _ = (((nodes n).filter fun x => (if g.rep x ∈ K then me else g.rep x) = y).card : Int)
    by_cases hyK : y ∈ K
    · rw [hwK y hyK, Finset.filter_false_of_mem]
      · simp
      · intro x _
        split
        · exact fun e => hmeK (e ▸ hyK)
        · rename_i hx; exact fun e => hx (e ▸ hyK)
    · by_cases hym : y = me
      · subst hym
        have : (nodes n).filter (fun x => (if g.rep x ∈ K then y else g.rep x) = y) = (nodes n).filter fun x => g.rep x ∈ insert y K := by
          ext x
          rw [Finset.mem_filter, Finset.mem_filter, Finset.mem_insert]
          refine and_congr_right fun _ => ?_
          by_cases w : g.rep x ∈ K
          · rw [if_pos w]; exact ⟨fun _ => Or.inr w, fun _ => rfl⟩
          · rw [if_neg w]; exact ⟨Or.inl, fun u => u.resolve_right w⟩
        rw [this, hwM, Finset.card_eq_sum_card_fiberwise (f := g.rep) (t := insert y K) fun x hx => by
          have := Finset.mem_coe.1 hx; exact Finset.mem_coe.2 (Finset.mem_filter.1 this).2, ← Finset.sum_insert hmeK, Nat.cast_sum]
        refine Finset.sum_congr rfl fun z hz => ?_
        have hzn : z ∈ g.V := by
          rcases Finset.mem_insert.1 hz with e | e
          · rw [e]; exact hme
          · exact hKV z e
        rw [h.cnt z (h.vn z hzn).1 (h.vn z hzn).2]
        congr 2
        ext x
        rw [Finset.mem_filter, Finset.mem_filter, Finset.mem_filter]
        exact ⟨fun u => ⟨⟨u.1, u.2 ▸ hz⟩, u.2⟩, fun u => ⟨u.1.1, u.2⟩⟩
      · rw [hw y hym hyK, h.cnt y a b]
        congr 2
        ext x
        rw [Finset.mem_filter, Finset.mem_filter]
        refine and_congr_right fun _ => ?_
        by_cases w : g.rep x ∈ K
        · rw [if_pos w]
          exact ⟨fun u => absurd (u ▸ w) hyK, fun u => absurd u.symm hym⟩
        · rw [if_neg w]
  · have hxK : x ∉ K := fun e => c (hwK x e)
    show (if g.rep x ∈ K then me else g.rep x) = x
    have hx0 : g.wt x ≠ 0 := by
      by_cases hxm : x = me
      · rw [hxm]; omega
      · rw [← hw x hxm hxK]; exact c
    rw [h.self x a b hx0, if_neg hxK]
  · show (if x ∈ g.E me ∨ x ∈ Z ∨ x ∈ K then g.D else g.rk x) < g.D + 1
    split
    · omega
    · rename_i hx
      have hxm : x ≠ me := fun e => d ((hX x).2 (Or.inl e))
      have := h.rkD x a b (fun u => c ((hV x).2 ⟨u, hxm, fun w => hx (Or.inr (Or.inr w))⟩)) fun u =>
        d ((hX x).2 (Or.inr ⟨u, fun w => hx (Or.inl w), fun w => hx (Or.inr (Or.inl w))⟩))
      omega
  · have hxm : x ≠ me := fun e => d ((hX x).2 (Or.inl e))
    have hrme : g.rep me = me := h.self me hmen.1 hmen.2 (by omega)
    have hrme' : g'.rep me = me := by show (if g.rep me ∈ K then me else g.rep me) = me; rw [hrme, if_neg hmeK]
    have hmeV' : me ∉ g'.V := fun u => ((hV me).1 u).2.1 rfl
    by_cases hnew : x ∈ g.E me ∨ x ∈ Z ∨ x ∈ K
    · right
      refine ⟨me, hmen, hp1 x hnew, Or.inr (Or.inl ((hX me).2 (Or.inl rfl))), fun _ => ⟨by omega, hmeV'⟩, fun u => ⟨Or.inl (by omega), ?_⟩⟩
      have hxK : x ∈ K := by
        by_contra hxK
        rw [hw x hxm hxK] at u
        rcases hnew with w | w | w
        · have := h.wx x (hEX x w); omega
        · have := h.wx x (S.zx x w); omega
        · exact hxK w
      have hwx := h.wv x (hKV x hxK)
      rw [hrme']
      show (if g.rep x ∈ K then me else g.rep x) = me
      rw [h.self x a b (by omega), if_pos hxK]
    · have hxK : x ∉ K := fun w => hnew (Or.inr (Or.inr w))
      have hxV : x ∉ g.V := fun u => c ((hV x).2 ⟨u, hxm, hxK⟩)
      have hxX : x ∉ g.X := fun u => d ((hX x).2 (Or.inr ⟨u, fun w => hnew (Or.inl w), fun w => hnew (Or.inr (Or.inl w))⟩))
      have hrkx := h.rkD x a b hxV hxX
      rw [hw x hxm hxK, hp2 x hxV hxX]
      have hrkx' : g'.rk x = g.rk x := by show (if _ then _ else _) = _; rw [if_neg hnew]
      have hmeKr : (-1 : Int) ∉ K := fun u => by have := h.vn _ (hKV _ u); omega
      rcases h.tree x a b hxV hxX with ⟨h1, h2⟩ | ⟨y, h1, h2, h3, h4, h5⟩
      · left
        refine ⟨h1, fun u => ?_⟩
        show (if g.rep x ∈ K then me else g.rep x) = -1
        rw [h2 u, if_neg hmeKr]
      · right
        refine ⟨y, h1, h2, ?_, fun u => ?_, fun u => ?_⟩
        · rw [hrkx']
          by_cases hym : y = me
          · exact Or.inr (Or.inl ((hX y).2 (Or.inl hym)))
          · by_cases hy : y ∈ g.E me ∨ y ∈ Z ∨ y ∈ K
            · refine Or.inr (Or.inr ?_)
              show g.rk x < if _ then _ else _
              rw [if_pos hy]; exact hrkx
            · have hyr : g'.rk y = g.rk y := by show (if _ then _ else _) = _; rw [if_neg hy]
              rw [hyr]
              rcases h3 with u | u | u
              · exact Or.inl ((hV y).2 ⟨u, hym, fun w => hy (Or.inr (Or.inr w))⟩)
              · exact Or.inr (Or.inl ((hX y).2 (Or.inr ⟨u, fun w => hy (Or.inl w), fun w => hy (Or.inr (Or.inl w))⟩)))
              · exact Or.inr (Or.inr u)
        · obtain ⟨h6, h7⟩ := h4 u
          have hym : y ≠ me := fun e => h7 (e ▸ hme)
          have hyK : y ∉ K := fun e => h7 (hKV y e)
          rw [hw y hym hyK]
          exact ⟨h6, fun w => h7 ((hV y).1 w).1⟩
        · obtain ⟨h6, h7⟩ := h5 u
          refine ⟨?_, ?_⟩
          · by_cases hym : y = me
            · left; rw [hym]; omega
            · by_cases hy : y ∈ g.E me ∨ y ∈ Z ∨ y ∈ K
              · right; rw [hp1 y hy]; exact flip_ne hmen.1
              · have hyK : y ∉ K := fun w => hy (Or.inr (Or.inr w))
                rw [hw y hym hyK]
                by_cases hy0 : g.wt y = 0
                · have hyV : y ∉ g.V := fun w => by have := h.wv y w; omega
                  have hyX : y ∉ g.X := fun w => by have := h.wx y w; omega
                  rw [hp2 y hyV hyX]; exact h6
                · exact Or.inl hy0
          · show (if g.rep x ∈ K then me else g.rep x) = if g.rep y ∈ K then me else g.rep y
            rw [h7]

end Amd
end Hif
