import Verif.AmdInit
import Mathlib.Data.List.Nodup

set_option linter.unusedVariables false

/-! # The pattern of `A + Aᵀ`: every pair is met exactly once -/

namespace Hif
namespace Amd

/-- A compressed pattern with sorted columns. -/
structure Csc (n : Nat) (ap ai : Arr) : Prop where
  ps : ap.size = n + 1
  p0 : ∀ j : Int, 0 ≤ j → j < n → 0 ≤ ap.get j
  mono : ∀ j : Int, 0 ≤ j → j < n → ap.get j ≤ ap.get (j + 1)
  is : ∀ j : Int, 0 ≤ j → j < n → ap.get (j + 1) ≤ ai.size
  rng : ∀ j : Int, 0 ≤ j → j < n → ∀ q : Int, ap.get j ≤ q → q < ap.get (j + 1) → 0 ≤ ai.get q ∧ ai.get q < n
  inc : ∀ j : Int, 0 ≤ j → j < n → ∀ q r : Int, ap.get j ≤ q → q < r → r < ap.get (j + 1) → ai.get q < ai.get r

/-- Row `r` is an entry of column `j`. -/
def In (ap ai : Arr) (j r : Int) : Prop := ∃ q : Int, ap.get j ≤ q ∧ q < ap.get (j + 1) ∧ ai.get q = r

/-- Position `p` separates the rows of column `j` smaller than `t` from the others. -/
def Sep (ap ai : Arr) (j t p : Int) : Prop :=
  (ap.get j ≤ p ∧ p ≤ ap.get (j + 1)) ∧ (∀ q : Int, ap.get j ≤ q → q < p → ai.get q < t) ∧ ∀ q : Int, p ≤ q → q < ap.get (j + 1) → t ≤ ai.get q

/-- A pair without direction. -/
def und (e : Int × Int) : Int × Int := (min e.1 e.2, max e.1 e.2)

/-- The pairs of `G` are those for which `D` holds, every one once. -/
def Rep (n : Nat) (G : List (Int × Int)) (D : Int → Int → Prop) : Prop :=
  (G.map und).Nodup ∧ ∀ a b : Int, (a, b) ∈ G.map und ↔ (0 ≤ a ∧ a < b ∧ b < n) ∧ D a b

/-- Distinct pairs of the pattern. -/
def Sub (n : Nat) (ap ai : Arr) (G : List (Int × Int)) : Prop :=
  (G.map und).Nodup ∧ ∀ e ∈ G, (0 ≤ e.1 ∧ e.1 < n) ∧ (0 ≤ e.2 ∧ e.2 < n) ∧ e.1 ≠ e.2 ∧ (In ap ai e.1 e.2 ∨ In ap ai e.2 e.1)

theorem Rep.congr {n : Nat} {G : List (Int × Int)} {D D' : Int → Int → Prop} (h : Rep n G D) (e : ∀ a b : Int, 0 ≤ a → a < b → b < n → (D' a b ↔ D a b)) : Rep n G D' :=
  ⟨h.1, fun a b => (h.2 a b).trans (and_congr_right fun u => (e a b u.1 u.2.1 u.2.2).symm)⟩

theorem Rep.add {n : Nat} {G : List (Int × Int)} {D : Int → Int → Prop} (h : Rep n G D) {a b : Int} (ha : 0 ≤ a ∧ a < n) (hb : 0 ≤ b ∧ b < n) (hab : a ≠ b) (hD : ¬ D (min a b) (max a b)) :
    Rep n (G ++ [(a, b)]) fun x y => D x y ∨ (x = min a b ∧ y = max a b) := by
  refine ⟨?_, fun x y => ?_⟩
  · rw [List.map_append, List.map_cons, List.map_nil, List.nodup_append]
    refine ⟨h.1, List.nodup_singleton _, fun u hu v hv e => ?_⟩
    rw [List.mem_singleton] at hv
    rw [hv] at e
    rw [e] at hu
    exact hD ((h.2 _ _).1 hu).2
  · rw [List.map_append, List.map_cons, List.map_nil, List.mem_append, List.mem_singleton, h.2]
    unfold und
    rw [Prod.mk.injEq]
    show _ ∨ (x = min a b ∧ y = max a b) ↔ _
    constructor
    · rintro (u | u)
      · exact ⟨u.1, Or.inl u.2⟩
      · refine ⟨?_, Or.inr u⟩
        rw [u.1, u.2]; omega
    · rintro ⟨u, v | v⟩
      · exact Or.inl ⟨u, v⟩
      · exact Or.inr v

theorem Rep.sub {n : Nat} {ap ai : Arr} {G : List (Int × Int)} {D : Int → Int → Prop} (h : Rep n G D) (hD : ∀ a b : Int, D a b → In ap ai a b ∨ In ap ai b a) : Sub n ap ai G := by
  refine ⟨h.1, fun e he => ?_⟩
  have hm : und e ∈ G.map und := List.mem_map_of_mem he
  obtain ⟨⟨h0, h1, h2⟩, h3⟩ := (h.2 (min e.1 e.2) (max e.1 e.2)).1 hm
  have h4 := hD _ _ h3
  rcases le_total e.1 e.2 with u | u
  · rw [min_eq_left u, max_eq_right u] at *
    exact ⟨⟨h0, by omega⟩, ⟨by omega, h2⟩, by omega, h4⟩
  · rw [min_eq_right u, max_eq_left u] at *
    exact ⟨⟨by omega, h2⟩, ⟨h0, by omega⟩, by omega, h4.symm⟩

section
variable {n : Nat} {ap ai : Arr} {σ : Type} {edge : Int → Int → σ → Hif.M σ} {J : List (Int × Int) → σ → Prop}

/-- What is needed of the action for an edge. -/
def EdgeOK (n : Nat) (ap ai : Arr) (edge : Int → Int → σ → Hif.M σ) (J : List (Int × Int) → σ → Prop) : Prop :=
  ∀ (G : List (Int × Int)) (a b : Int) (s : σ), J G s → Sub n ap ai (G ++ [(a, b)]) → Runs (edge a b s) fun s' => J (G ++ [(a, b)]) s'

theorem Sep.next (C : Csc n ap ai) {j t p : Int} (h0 : 0 ≤ j) (h1 : j < n) (h : Sep ap ai j t p) (hp : p < ap.get (j + 1)) : t ≤ ai.get p ∧ Sep ap ai j (ai.get p + 1) (p + 1) := by
  refine ⟨h.2.2 p (le_refl _) hp, ⟨⟨by have := h.1.1; omega, by omega⟩, fun q a b => ?_, fun q a b => ?_⟩⟩
  · by_cases e : q = p
    · rw [e]; omega
    · have := C.inc j h0 h1 q p a (by omega) hp; omega
  · have := C.inc j h0 h1 p q h.1.1 (by omega) b; omega

theorem Sep.up {j t p t' : Int} (h : Sep ap ai j t p) (ht : t ≤ t') (hn : ∀ q : Int, p ≤ q → q < ap.get (j + 1) → t' ≤ ai.get q) : Sep ap ai j t' p :=
  ⟨h.1, fun q a b => by have := h.2.1 q a b; omega, hn⟩

/-- The pairs met before and within the scan of a column. -/
def Dw (ap ai : Arr) (base : Int → Int → Prop) (j u : Int) (a b : Int) : Prop := base a b ∨ (a = j ∧ In ap ai j b ∧ b < u)

theorem Sep.lt (C : Csc n ap ai) {j t p b : Int} (h : Sep ap ai j t p) (hb : In ap ai j b) (hlt : b < t) : ∃ q : Int, ap.get j ≤ q ∧ q < p ∧ ai.get q = b := by
  obtain ⟨q, a1, a2, a3⟩ := hb
  refine ⟨q, a1, ?_, a3⟩
  by_contra hh
  have := h.2.2 q (by omega) a2
  omega

/-- The next entry is the only one between two thresholds. -/
theorem Sep.only (C : Csc n ap ai) {j t p b : Int} (h0 : 0 ≤ j) (h1 : j < n) (h : Sep ap ai j t p) (hp : p < ap.get (j + 1)) (hb : In ap ai j b) : b < ai.get p + 1 ↔ b < t ∨ b = ai.get p := by
  obtain ⟨q, a1, a2, a3⟩ := hb
  have ht := h.2.2 p (le_refl _) hp
  rw [← a3]
  constructor
  · intro hh
    by_cases e : q = p
    · right; rw [e]
    · by_cases e2 : q < p
      · exact Or.inl (h.2.1 q a1 e2)
      · have := C.inc j h0 h1 p q h.1.1 (by omega) a2; omega
  · rintro (u | u) <;> omega

theorem walkCol_runs (C : Csc n ap ai) (hE : EdgeOK n ap ai edge J) {base : Int → Int → Prop} {j k : Int} (h0 : 0 ≤ j) (h1 : j < k) (h2 : k < n) (hb : ∀ a b : Int, base a b → In ap ai a b ∨ In ap ai b a) {u0 : Int}
    (hX : ∀ b : Int, u0 ≤ b → b < k → In ap ai j b → ¬ base j b) (hjk : base j k) : ∀ (f : Nat) (u pj : Int) (G : List (Int × Int)) (s : σ), u0 ≤ u → j < u → u ≤ k → Sep ap ai j u pj →
      ap.get (j + 1) - pj = f → J G s → Rep n G (Dw ap ai base j u) →
      Runs (walkCol ap ai edge k j f pj s) fun r => Sep ap ai j (k + 1) r.1 ∧ ∃ G', J G' r.2 ∧ Rep n G' (Dw ap ai base j (k + 1)) := by
  have hjn : j < n := by omega
  have hDs : ∀ u a b, Dw ap ai base j u a b → In ap ai a b ∨ In ap ai b a := fun u a b h => by
    rcases h with h | ⟨h, h', -⟩
    · exact hb a b h
    · rw [h]; exact Or.inl h'
  -- no entry between `u` and `k`
  have hend : ∀ {u : Int} {G : List (Int × Int)}, u ≤ k → Rep n G (Dw ap ai base j u) → (∀ b, In ap ai j b → b < k → b < u) → Rep n G (Dw ap ai base j (k + 1)) := fun hu hR h => by
    refine hR.congr fun a b _ _ _ => or_congr_right' fun _ => Iff.rfl |>.trans ?_
    constructor
    · rintro ⟨e1, e2, e3⟩
      refine ⟨e1, e2, ?_⟩
      by_cases e : b = k
      · rename_i hn; exact absurd (by rw [e1, e]; exact hjk) hn
      · exact h b e2 (by omega)
    · rintro ⟨e1, e2, e3⟩; exact ⟨e1, e2, by omega⟩
  intro f
  induction f with
  | zero =>
    intro u pj G s hu hju huk hA hf hJ hR
    unfold walkCol
    rw [runs_pure]
    push_cast at hf
    refine ⟨hA.up (by omega) fun q a b => by omega, G, hJ, hend huk hR fun b ⟨q, a1, a2, a3⟩ _ => ?_⟩
    rw [← a3]; exact hA.2.1 q a1 (by omega)
  | succ f ih =>
    intro u pj G s hu hju huk hA hf hJ hR
    push_cast at hf
    have hpj : pj < ap.get (j + 1) := by omega
    have hp0 := C.p0 j h0 hjn
    have hAb := hA.1.1
    have hr := C.rng j h0 hjn pj hAb hpj
    obtain ⟨ht, hA'⟩ := hA.next C h0 hjn hpj
    have hin : In ap ai j (ai.get pj) := ⟨pj, hAb, hpj, rfl⟩
    unfold walkCol
    rw [runs_bind, runs_rdZ]
    refine ⟨⟨by omega, by have := C.is j h0 hjn; omega⟩, ?_⟩
    by_cases hlt : ai.get pj < k
    · rw [if_pos hlt, runs_bind]
      have hR' : Rep n (G ++ [(ai.get pj, j)]) (Dw ap ai base j (ai.get pj + 1)) := by
        refine (hR.add hr ⟨h0, hjn⟩ (by omega) ?_).congr fun a b _ _ _ => ?_
        · rw [min_eq_right (by omega), max_eq_left (by omega)]
          rintro (v | v)
          · exact hX _ (by omega) hlt hin v
          · omega
        · rw [min_eq_right (by omega), max_eq_left (by omega)]
          constructor
          · rintro (v | ⟨v1, v2, v3⟩)
            · exact Or.inl (Or.inl v)
            · rcases (hA.only C h0 hjn hpj v2).1 v3 with w | w
              · exact Or.inl (Or.inr ⟨v1, v2, w⟩)
              · exact Or.inr ⟨v1, w⟩
          · rintro ((v | ⟨v1, v2, v3⟩) | ⟨v1, v2⟩)
            · exact Or.inl v
            · exact Or.inr ⟨v1, v2, by omega⟩
            · exact Or.inr ⟨v1, by rw [v2]; exact hin, by omega⟩
      refine (hE G _ j s hJ (hR'.sub (hDs _))).mono fun s' hs' => ?_
      exact ih _ _ _ s' (by omega) (by omega) (by omega) hA' (by omega) hs' hR'
    · rw [if_neg hlt]
      have hno : ∀ b, In ap ai j b → b < k → b < u := fun b hb' hbk => by
        rcases (hA.only C h0 hjn hpj hb').1 (by omega) with w | w
        · exact w
        · omega
      by_cases he : ai.get pj = k
      · rw [if_pos he, runs_pure]
        rw [he] at hA'
        exact ⟨hA', G, hJ, hend huk hR hno⟩
      · rw [if_neg he, runs_pure]
        refine ⟨hA.up (by omega) fun q a b => ?_, G, hJ, hend huk hR hno⟩
        by_cases e : q = pj
        · rw [e]; omega
        · have := C.inc j h0 hjn pj q hAb (by omega) b; omega

/-- Pairs met after the columns before `k` and the rows before `t` of column `k`. -/
def Dn (ap ai : Arr) (k t : Int) (T : Int → Int) (a b : Int) : Prop := (b < k ∧ In ap ai b a) ∨ (In ap ai a b ∧ b < T a) ∨ (b = k ∧ In ap ai k a ∧ a < t)

theorem Dn.sub {k t : Int} {T : Int → Int} {a b : Int} (h : Dn ap ai k t T a b) : In ap ai a b ∨ In ap ai b a := by
  rcases h with h | h | h
  · exact Or.inr h.2
  · exact Or.inl h.1
  · rw [h.1]; exact Or.inr h.2.1

/-- The pointers of the columns before `k`; rows before `t` of column `k` are done. -/
structure Ptr (n : Nat) (ap ai : Arr) (k t : Int) (tp : Arr) (T : Int → Int) : Prop where
  sz : tp.size = n
  at' : ∀ i : Int, 0 ≤ i → i < k → Sep ap ai i (T i) (tp.get i)
  lo : ∀ i : Int, 0 ≤ i → i < k → i < T i
  x : ∀ i : Int, 0 ≤ i → ∀ j : Int, i < j → j < k → In ap ai j i → In ap ai i j → j < T i
  new : ∀ i : Int, 0 ≤ i → i < k → (In ap ai k i ∧ i < t → T i = k + 1) ∧ (¬ (In ap ai k i ∧ i < t) → T i ≤ k)
  out : ∀ i : Int, k ≤ i → T i ≤ i

theorem walkRow_runs (C : Csc n ap ai) (hE : EdgeOK n ap ai edge J) {k : Int} (h0 : 0 ≤ k) (h1 : k < n) : ∀ (f : Nat) (t p : Int) (tp : Arr) (T : Int → Int) (G : List (Int × Int)) (s : σ), t ≤ k → Sep ap ai k t p →
      ap.get (k + 1) - p = f → Ptr n ap ai k t tp T → J G s → Rep n G (Dn ap ai k t T) →
      Runs (walkRow ap ai edge k f p tp s) fun r => Sep ap ai k (k + 1) r.1 ∧ ∃ T' G', Ptr n ap ai k k r.2.1 T' ∧ J G' r.2.2 ∧ Rep n G' (Dn ap ai k k T') := by
  have hend : ∀ {t : Int} {tp : Arr} {T : Int → Int} {G : List (Int × Int)}, t ≤ k → Ptr n ap ai k t tp T → Rep n G (Dn ap ai k t T) → (∀ b, In ap ai k b → b < k → b < t) →
      Ptr n ap ai k k tp T ∧ Rep n G (Dn ap ai k k T) := fun ht hP hR h => by
    have hiff : ∀ b, (In ap ai k b ∧ b < k) ↔ (In ap ai k b ∧ b < _) := fun b => ⟨fun u => ⟨u.1, h b u.1 u.2⟩, fun u => ⟨u.1, lt_of_lt_of_le u.2 ht⟩⟩
    refine ⟨⟨hP.sz, hP.at', hP.lo, hP.x, fun i a b => by rw [hiff]; exact hP.new i a b, hP.out⟩, hR.congr fun a b _ _ _ => ?_⟩
    unfold Dn; rw [hiff]
  intro f
  induction f with
  | zero =>
    intro t p tp T G s ht hA hf hP hJ hR
    unfold walkRow
    rw [runs_pure]
    push_cast at hf
    obtain ⟨e1, e2⟩ := hend ht hP hR fun b ⟨q, a1, a2, a3⟩ _ => by rw [← a3]; exact hA.2.1 q a1 (by omega)
    exact ⟨hA.up (by omega) fun q a b => by omega, T, G, e1, hJ, e2⟩
  | succ f ih =>
    intro t p tp T G s ht hA hf hP hJ hR
    push_cast at hf
    have hp : p < ap.get (k + 1) := by omega
    have hp0 := C.p0 k h0 h1
    have hAb := hA.1.1
    have hr := C.rng k h0 h1 p hAb hp
    obtain ⟨htp, hA'⟩ := hA.next C h0 h1 hp
    have hin : In ap ai k (ai.get p) := ⟨p, hAb, hp, rfl⟩
    unfold walkRow
    rw [runs_bind, runs_rdZ]
    refine ⟨⟨by omega, by have := C.is k h0 h1; omega⟩, ?_⟩
    by_cases hlt : ai.get p < k
    · rw [if_pos hlt]
      obtain ⟨j, hj⟩ : ∃ j, ai.get p = j := ⟨_, rfl⟩
      rw [hj] at hr htp hA' hin hlt ⊢
      have hTj := hP.lo j hr.1 hlt
      have hTk : T j ≤ k := (hP.new j hr.1 hlt).2 fun u => by omega
      -- the base of the scan
      have hbase : Rep n (G ++ [(j, k)]) (Dw ap ai (fun a b => Dn ap ai k (j + 1) T a b) j (T j)) := by
        refine (hR.add hr ⟨h0, h1⟩ (by omega) ?_).congr fun a b _ _ _ => ?_
        · rw [min_eq_left (by omega), max_eq_right (by omega)]
          rintro (v | v | v)
          · omega
          · omega
          · omega
        · rw [min_eq_left (by omega), max_eq_right (by omega)]
          constructor
          · rintro ((v | v | ⟨v1, v2, v3⟩) | ⟨v1, v2, v3⟩)
            · exact Or.inl (Or.inl v)
            · exact Or.inl (Or.inr (Or.inl v))
            · rcases (hA.only C h0 h1 hp v2).1 (by omega) with w | w
              · exact Or.inl (Or.inr (Or.inr ⟨v1, v2, w⟩))
              · exact Or.inr ⟨by omega, v1⟩
            · exact Or.inl (Or.inr (Or.inl (by rw [v1]; exact ⟨v2, v3⟩)))
          · rintro ((v | v | ⟨v1, v2, v3⟩) | ⟨v1, v2⟩)
            · exact Or.inl (Or.inl v)
            · exact Or.inl (Or.inr (Or.inl v))
            · exact Or.inl (Or.inr (Or.inr ⟨v1, v2, by omega⟩))
            · exact Or.inl (Or.inr (Or.inr ⟨v2, by rw [v1]; exact hin, by omega⟩))
      rw [runs_bind]
      have hsub : ∀ a b, Dw ap ai (fun a b => Dn ap ai k (j + 1) T a b) j (T j) a b → In ap ai a b ∨ In ap ai b a := fun a b h => by
        rcases h with h | ⟨h, h', -⟩
        · exact h.sub
        · rw [h]; exact Or.inl h'
      refine (hE G j k s hJ (hbase.sub hsub)).mono fun s' hs' => ?_
      have hjn : j < n := by omega
      simp only [runs_bind, runs_rdZ]
      refine ⟨⟨by omega, by rw [C.ps]; omega⟩, ⟨hr.1, by rw [hP.sz]; exact hjn⟩, ?_⟩
      have hAj := hP.at' j hr.1 hlt
      refine (walkCol_runs C hE hr.1 hlt h1 (fun a b h => h.sub) (u0 := T j) (fun b u1 u2 u3 u4 => ?_) (Or.inr (Or.inr ⟨rfl, hin, by omega⟩)) _ (T j) (tp.get j) _ s' (le_refl _) hTj hTk hAj
        (by have := hAj.1.2; omega) hs' hbase).mono fun r ⟨r1, G', r2, r3⟩ => ?_
      · rcases u4 with v | v | v
        · have := hP.x j hr.1 b (by omega) v.1 v.2 u3; omega
        · omega
        · omega
      simp only [runs_wrZ]
      refine ⟨⟨hr.1, by rw [hP.sz]; exact hjn⟩, ?_⟩
      refine ih (j + 1) (p + 1) _ (fun i => if i = j then k + 1 else T i) G' r.2 (by omega) hA' (by omega) ?_ r2 (r3.congr fun a b _ _ _ => ?_)
      · refine ⟨hP.sz, fun i a b => ?_, fun i a b => ?_, fun i a j' b c d e => ?_, fun i a b => ?_, fun i a => by show (if i = j then k + 1 else T i) ≤ i; rw [if_neg (by omega)]; exact hP.out i a⟩
        · by_cases e : i = j
          · subst e; rw [if_pos rfl, Arr.set_same]; exact r1
          · rw [if_neg e, Arr.set_ne _ _ e]; exact hP.at' i a b
        · show i < if i = j then k + 1 else T i
          by_cases e : i = j
          · rw [if_pos e]; omega
          · rw [if_neg e]; exact hP.lo i a b
        · show j' < if i = j then k + 1 else T i
          by_cases e' : i = j
          · rw [if_pos e']; omega
          · rw [if_neg e']; exact hP.x i a j' b c d e
        · show (_ → (if i = j then k + 1 else T i) = k + 1) ∧ (_ → (if i = j then k + 1 else T i) ≤ k)
          by_cases e : i = j
          · rw [if_pos e]
            exact ⟨fun _ => rfl, fun u => absurd ⟨e ▸ hin, by omega⟩ u⟩
          · rw [if_neg e]
            have hiff : (In ap ai k i ∧ i < j + 1) ↔ (In ap ai k i ∧ i < t) := by
              refine ⟨fun u => ⟨u.1, ?_⟩, fun u => ⟨u.1, by omega⟩⟩
              rcases (hA.only C h0 h1 hp u.1).1 (by omega) with w | w
              · exact w
              · omega
            rw [hiff]; exact hP.new i a b
      · unfold Dw Dn
        by_cases e : a = j
        · simp only [e, if_true]
          constructor
          · rintro (v | v | v)
            · exact Or.inl (Or.inl v)
            · exact Or.inr ⟨trivial, v⟩
            · exact Or.inl (Or.inr (Or.inr v))
          · rintro ((v | v | v) | v)
            · exact Or.inl v
            · exact Or.inr (Or.inl ⟨v.1, by omega⟩)
            · exact Or.inr (Or.inr v)
            · exact Or.inr (Or.inl v.2)
        · simp only [e, if_false, false_and, or_false]
    · rw [if_neg hlt]
      have hno : ∀ b, In ap ai k b → b < k → b < t := fun b hb' hbk => by
        rcases (hA.only C h0 h1 hp hb').1 (by omega) with w | w
        · exact w
        · omega
      obtain ⟨e1, e2⟩ := hend ht hP hR hno
      by_cases he : ai.get p = k
      · rw [if_pos he, runs_pure]
        rw [he] at hA'
        exact ⟨hA', T, G, e1, hJ, e2⟩
      · rw [if_neg he, runs_pure]
        refine ⟨hA.up (by omega) fun q a b => ?_, T, G, e1, hJ, e2⟩
        by_cases e : q = p
        · rw [e]; omega
        · have := C.inc k h0 h1 p q hAb (by omega) b; omega

/-- **Every pair of the pattern of `A + Aᵀ` is met exactly once.** -/
theorem walk_runs (C : Csc n ap ai) (hE : EdgeOK n ap ai edge J) {tp : Arr} (htp : tp.size = n) {s : σ} (hJ : J [] s) :
    Runs (walk n ap ai edge tp s) fun s' => ∃ G, J G s' ∧ Rep n G fun a b => In ap ai a b ∨ In ap ai b a := by
  unfold walk
  rw [runs_bind]
  have key : Runs (forZ 0 n (tp, s) fun k r => do
      let p1 ← ap.rd k
      let p2 ← ap.rd (k + 1)
      let x ← walkRow ap ai edge k (p2 - p1).toNat p1 r.1 r.2
      let tp ← x.2.1.wr k x.1
      pure (tp, x.2.2)) fun r => ∃ T G, Ptr n ap ai n 0 r.1 T ∧ J G r.2 ∧ Rep n G (Dn ap ai n 0 T) := by
    refine forZ_runs (fun k r => 0 ≤ k ∧ ∃ T G, Ptr n ap ai k 0 r.1 T ∧ J G r.2 ∧ Rep n G (Dn ap ai k 0 T)) (by omega) ⟨le_refl _, fun _ => 0, [], ⟨htp, fun i a b => by omega, fun i a b => by omega, fun i a j b c => by omega,
      fun i a b => by omega, fun i a => a⟩, hJ, List.nodup_nil, fun a b => ?_⟩ (fun k r _ hk ⟨hk0, T, G, hP, hJ', hR⟩ => ?_) (fun r hr => hr.2)
    · constructor
      · intro h; simp at h
      · rintro ⟨u, v | v | v⟩
        · omega
        · have : b < 0 := v.2
          omega
        · omega
    · simp only [runs_bind, runs_rdZ]
      refine ⟨⟨hk0, by rw [C.ps]; omega⟩, ⟨by omega, by rw [C.ps]; omega⟩, ?_⟩
      have hm := C.mono k hk0 hk
      have hA : Sep ap ai k 0 (ap.get k) := ⟨⟨le_refl _, hm⟩, fun q a b => by omega, fun q a b => (C.rng k hk0 hk q a b).1⟩
      refine (walkRow_runs C hE hk0 hk _ 0 (ap.get k) r.1 T G r.2 hk0 hA (by omega) hP hJ' hR).mono fun x ⟨x1, T', G', x2, x3, x4⟩ => ?_
      simp only [runs_wrZ, runs_pure]
      refine ⟨⟨hk0, by rw [x2.sz]; exact hk⟩, by omega, fun i => if i = k then k + 1 else T' i, G', ⟨x2.sz, fun i a b => ?_, fun i a b => ?_, fun i a j b c d e => ?_, fun i a b => ?_, fun i a => by show (if i = k then k + 1 else T' i) ≤ i; rw [if_neg (by omega)]; exact x2.out i (by omega)⟩, x3, x4.congr fun a b u1 u2 u3 => ?_⟩
      · by_cases e : i = k
        · subst e; rw [if_pos rfl, Arr.set_same]; exact x1
        · rw [if_neg e, Arr.set_ne _ _ e]; exact x2.at' i a (by omega)
      · show i < if i = k then k + 1 else T' i
        by_cases e : i = k
        · rw [if_pos e]; omega
        · rw [if_neg e]; exact x2.lo i a (by omega)
      · show j < if i = k then k + 1 else T' i
        by_cases e' : i = k
        · omega
        · rw [if_neg e']
          by_cases e2 : j = k
          · subst e2
            rw [(x2.new i a b).1 ⟨d, b⟩]; omega
          · exact x2.x i a j b (by omega) d e
      · refine ⟨fun u => by omega, fun _ => ?_⟩
        show (if i = k then k + 1 else T' i) ≤ k + 1
        by_cases e : i = k
        · rw [if_pos e]
        · rw [if_neg e]
          by_cases hh : In ap ai k i ∧ i < k
          · rw [(x2.new i a (by omega)).1 hh]
          · have := (x2.new i a (by omega)).2 hh; omega
      · unfold Dn
        by_cases e : a = k
        · simp only [e, if_true]
          constructor
          · rintro (v | v | v) <;> omega
          · rintro (v | v | v)
            · omega
            · exact absurd (show b < k + 1 by
                have := v.2
                have := x2.out k (le_refl _)
                omega) (by omega)
            · omega
        · simp only [e, if_false]
          constructor
          · rintro (v | v | v)
            · by_cases e2 : b = k
              · exact Or.inr (Or.inr ⟨e2, e2 ▸ v.2, by omega⟩)
              · exact Or.inl ⟨by omega, v.2⟩
            · exact Or.inr (Or.inl v)
            · omega
          · rintro (v | v | v)
            · exact Or.inl ⟨by omega, v.2⟩
            · exact Or.inr (Or.inl v)
            · exact Or.inl ⟨by omega, by rw [v.1]; exact v.2.1⟩
  refine key.mono fun r ⟨T, G, hP, hJ', hR⟩ => ?_
  refine forZ_runs (fun j s => 0 ≤ j ∧ ∃ G, J G s ∧ Rep n G fun a b => In ap ai b a ∨ (In ap ai a b ∧ (a < j ∨ b < T a))) (by omega) ⟨le_refl _, G, hJ', hR.congr fun a b u1 u2 u3 => ?_⟩
    (fun j s _ hj ⟨hj0, G, hJ', hR⟩ => ?_) (fun s ⟨_, G, hJ', hR⟩ => ⟨G, hJ', hR.congr fun a b u1 u2 u3 => ?_⟩)
  · unfold Dn
    constructor
    · rintro (v | v)
      · exact Or.inl ⟨u3, v⟩
      · exact Or.inr (Or.inl ⟨v.1, by omega⟩)
    · rintro (v | v | v)
      · exact Or.inl v.2
      · exact Or.inr ⟨v.1, Or.inr v.2⟩
      · omega
  · simp only [runs_bind, runs_rdZ]
    refine ⟨⟨hj0, by rw [hP.sz]; exact hj⟩, ⟨by omega, by rw [C.ps]; omega⟩, ?_⟩
    have hA := hP.at' j hj0 hj
    have hTj := hP.lo j hj0 hj
    refine forZ_runs (fun pj s => r.1.get j ≤ pj ∧ ∃ u G, (T j ≤ u ∧ u ≤ n) ∧ Sep ap ai j u pj ∧ J G s ∧ Rep n G fun a b => In ap ai b a ∨ (In ap ai a b ∧ (a < j ∨ b < T a)) ∨ (a = j ∧ In ap ai j b ∧ b < u)) hA.1.2
      ⟨le_refl _, T j, G, ⟨le_refl _, ?_⟩, hA, hJ', hR.congr fun a b u1 u2 u3 => ?_⟩ (fun pj s hpj1 hpj2 ⟨hpj3, u, G, hu, hA', hJ', hR⟩ => ?_) (fun s ⟨_, u, G, hu, hA', hJ', hR⟩ => ⟨by omega, G, hJ', hR.congr fun a b u1 u2 u3 => ?_⟩)
    · exact (hP.new j hj0 hj).2 fun v => by omega
    · constructor
      · rintro (v | v | v)
        · exact Or.inl v
        · exact Or.inr v
        · exact Or.inr ⟨by rw [v.1]; exact v.2.1, Or.inr (by rw [v.1]; exact v.2.2)⟩
      · rintro (v | v)
        · exact Or.inl v
        · exact Or.inr (Or.inl v)
    · have hr := C.rng j hj0 hj pj (by have := hA.1.1; omega) hpj2
      have hp0 := C.p0 j hj0 hj
      have hAb := hA'.1.1
      obtain ⟨ht, hA2⟩ := hA'.next C hj0 hj hpj2
      have hin : In ap ai j (ai.get pj) := ⟨pj, hAb, hpj2, rfl⟩
      rw [runs_bind, runs_rdZ]
      refine ⟨⟨by omega, by have := C.is j hj0 hj; omega⟩, ?_⟩
      have hR' : Rep n (G ++ [(ai.get pj, j)]) fun a b => In ap ai b a ∨ (In ap ai a b ∧ (a < j ∨ b < T a)) ∨ (a = j ∧ In ap ai j b ∧ b < ai.get pj + 1) := by
        refine (hR.add hr ⟨hj0, hj⟩ (by omega) ?_).congr fun a b _ _ _ => ?_
        · rw [min_eq_right (by omega), max_eq_left (by omega)]
          rintro (v | v | v)
          · have := hP.x j hj0 (ai.get pj) (by omega) hr.2 v hin; omega
          · omega
          · omega
        · rw [min_eq_right (by omega), max_eq_left (by omega)]
          constructor
          · rintro (v | v | ⟨v1, v2, v3⟩)
            · exact Or.inl (Or.inl v)
            · exact Or.inl (Or.inr (Or.inl v))
            · rcases (hA'.only C hj0 hj hpj2 v2).1 v3 with w | w
              · exact Or.inl (Or.inr (Or.inr ⟨v1, v2, w⟩))
              · exact Or.inr ⟨v1, w⟩
          · rintro ((v | v | ⟨v1, v2, v3⟩) | ⟨v1, v2⟩)
            · exact Or.inl v
            · exact Or.inr (Or.inl v)
            · exact Or.inr (Or.inr ⟨v1, v2, by omega⟩)
            · exact Or.inr (Or.inr ⟨v1, by rw [v2]; exact hin, by omega⟩)
      refine (hE G _ j s hJ' (hR'.sub fun a b h => ?_)).mono fun s' hs' => ⟨by omega, _, _, ⟨by omega, by omega⟩, hA2, hs', hR'⟩
      rcases h with v | v | v
      · exact Or.inr v
      · exact Or.inl v.1
      · rw [v.1]; exact Or.inl v.2.1
    · constructor
      · rintro (v | ⟨v1, v2⟩)
        · exact Or.inl v
        · by_cases e : a = j
          · subst e
            refine Or.inr (Or.inr ⟨rfl, v1, ?_⟩)
            obtain ⟨q, q1, q2, q3⟩ := v1
            rw [← q3]; exact hA'.2.1 q q1 q2
          · exact Or.inr (Or.inl ⟨v1, by omega⟩)
      · rintro (v | v | ⟨v1, v2, v3⟩)
        · exact Or.inl v
        · exact Or.inr ⟨v.1, by omega⟩
        · exact Or.inr ⟨by rw [v1]; exact v2, Or.inl (by omega)⟩
  · constructor
    · rintro (v | v)
      · exact Or.inr ⟨v, Or.inl (by omega)⟩
      · exact Or.inl v
    · rintro (v | v)
      · exact Or.inr v
      · exact Or.inl v.1

end

end Amd
end Hif
