import Verif.PCrout
import Verif.AugPush

set_option linter.unusedVariables false
set_option linter.unusedSectionVars false
set_option linter.unusedSimpArgs false

/-!
# Pivoting Crout update: one factor in augmented storage (proofs)
-/

namespace Hif.PCrout
open Finset Crout
variable {K : Type _}

/-! ### Lines -/

theorem line_pairwise {m : Nat} {A : Aug K} (h : Aug.Store m A) {r : Nat} (hr : r < m) : (A.cs.line r).Pairwise fun a b => a.1 < b.1 := by
  rw [List.pairwise_iff_getElem]
  intro i j hi hj hij
  rw [line_getElem, line_getElem]
  rw [line_length] at hi hj
  exact h.sorted r hr _ _ (by omega) (by omega) (by omega)

theorem pairwise_nodup {l : List (Nat × K)} (h : l.Pairwise fun a b => a.1 < b.1) : l.Nodup :=
  h.imp fun h e => by rw [e] at h; exact lt_irrefl _ h

/-- Renaming of all indices. -/
def mapF (f : Nat → Nat) (e : Nat × K) : Nat × K := (f e.1, e.2)

/-- If the nodes keep rows and values and their columns are renamed, so are the lines. -/
theorem line_perm {m : Nat} {A A' : Aug K} (h : Aug.Store m A) (h' : Aug.Store m A') (hn : A'.ninds = A.ninds) {f : Nat → Nat} (hf : Function.Injective f)
    (hc : ∀ n, n < A.ninds.size → A'.colOf n = f (A.colOf n)) (hv : ∀ n, n < A.ninds.size → A'.valOf n = A.valOf n) {r : Nat} (hr : r < m) :
    (A'.cs.line r).Perm ((A.cs.line r).map (mapF f)) := by
  have hinj : Function.Injective (mapF (K := K) f) := by
    rintro ⟨a, b⟩ ⟨c, d⟩ e
    simp only [mapF, Prod.mk.injEq] at e
    rw [hf e.1, e.2]
  rw [List.perm_ext_iff_of_nodup (pairwise_nodup (line_pairwise h' hr)) ((pairwise_nodup (line_pairwise h hr)).map hinj)]
  rintro ⟨j, v⟩
  rw [h'.mem_line hr, List.mem_map, hn]
  constructor
  · rintro ⟨n, n1, n2, n3, n4⟩
    exact ⟨(A.colOf n, A.valOf n), (h.mem_line hr _ _).2 ⟨n, n1, n2, rfl, rfl⟩, by
      show (f _, _) = _; rw [← hc n n1, ← hv n n1, n3, n4]⟩
  · rintro ⟨⟨a, b⟩, hm, e⟩
    obtain ⟨n, n1, n2, n3, n4⟩ := (h.mem_line hr _ _).1 hm
    simp only [mapF, Prod.mk.injEq] at e
    exact ⟨n, n1, n2, by rw [hc n n1, n3, e.1], by rw [hv n n1, n4, e.2]⟩

theorem ent_mapF [AddCommMonoid K] {f : Nat → Nat} (hf : Function.Injective f) (l : List (Nat × K)) (j : Nat) : ent (l.map (mapF f)) (f j) = ent l j := by
  induction l with
  | nil => rfl
  | cons e l ih =>
    rw [List.map_cons, ent_cons, ent_cons, ih]
    congr 1
    show (if f e.1 = f j then e.2 else 0) = _
    by_cases c : e.1 = j
    · rw [if_pos c, if_pos (by rw [c])]
    · rw [if_neg c, if_neg (fun h => c (hf h))]

/-- In a sorted list the entries below `k` come first. -/
theorem sorted_split {l : List (Nat × K)} (h : l.Pairwise fun a b => a.1 < b.1) (k : Nat) :
    (∀ e ∈ l.take (l.countP fun e => decide (e.1 < k)), e.1 < k) ∧ ∀ e ∈ l.drop (l.countP fun e => decide (e.1 < k)), k ≤ e.1 := by
  induction l with
  | nil => simp
  | cons a l ih =>
    obtain ⟨h1, h2⟩ := List.pairwise_cons.1 h
    by_cases c : a.1 < k
    · rw [List.countP_cons_of_pos (by simpa using c), List.take_succ_cons, List.drop_succ_cons]
      refine ⟨fun e he => ?_, (ih h2).2⟩
      rcases List.mem_cons.1 he with rfl | he
      · exact c
      · exact (ih h2).1 e he
    · have hz : (a :: l).countP (fun e => decide (e.1 < k)) = 0 := by
        rw [List.countP_eq_zero]
        intro e he
        rcases List.mem_cons.1 he with rfl | he
        · simpa using c
        · have := h1 e he; simp; omega
      rw [hz]
      refine ⟨fun e he => by simp at he, fun e he => ?_⟩
      rcases List.mem_cons.1 he with rfl | he
      · omega
      · have := h1 e he; omega

/-- A line with its current position, in terms of membership. -/
theorem lineOK_iff {k ds hi i : Nat} (hk : k ≤ ds) {l : List (Nat × K)} {st : Nat} : LineOK k ds hi i l st ↔
    (l.Pairwise fun a b => a.1 < b.1) ∧ (∀ e ∈ l, (i < e.1 ∧ e.1 < k) ∨ (ds ≤ e.1 ∧ e.1 < hi)) ∧ st = l.countP fun e => decide (e.1 < k) := by
  constructor
  · intro h
    refine ⟨h.sorted, fun e he => ?_, ?_⟩
    · rw [← List.take_append_drop st l, List.mem_append] at he
      exact he.imp (h.before e) (h.after e)
    · conv_rhs => rw [← List.take_append_drop st l, List.countP_append]
      rw [List.countP_eq_length.2 (fun e he => by have := h.before e he; simpa using this.2),
        List.countP_eq_zero.2 (fun e he => by have := h.after e he; simp; omega), List.length_take, min_eq_left h.st_le]
      rfl
  · rintro ⟨h1, h2, rfl⟩
    obtain ⟨s1, s2⟩ := sorted_split h1 k
    refine ⟨h1, List.countP_le_length, fun e he => ?_, fun e he => ?_⟩
    · rcases h2 e (List.mem_of_mem_take he) with h | h
      · exact h
      · have := s1 e he; omega
    · rcases h2 e (List.mem_of_mem_drop he) with h | h
      · have := s2 e he; omega
      · exact h

theorem mem_lineOK {k ds hi i : Nat} {l : List (Nat × K)} {st : Nat} (h : LineOK k ds hi i l st) {e : Nat × K} (he : e ∈ l) :
    (i < e.1 ∧ e.1 < k) ∨ (ds ≤ e.1 ∧ e.1 < hi) := by
  rw [← List.take_append_drop st l, List.mem_append] at he
  exact he.imp (h.before e) (h.after e)

/-- Renaming positions that are not yet eliminated. -/
theorem lineOK_perm {k ds hi ds' hi' i : Nat} {l l' : List (Nat × K)} {st : Nat} (h : LineOK k ds hi i l st) (hk : k ≤ ds) (hk' : k ≤ ds')
    (hs : l'.Pairwise fun a b => a.1 < b.1) {f : Nat → Nat} (hp : l'.Perm (l.map (mapF f))) (hlow : ∀ j, j < k → f j = j)
    (hhigh : ∀ j, ds ≤ j → j < hi → ds' ≤ f j ∧ f j < hi') : LineOK k ds' hi' i l' st := by
  obtain ⟨h1, h2, h3⟩ := (lineOK_iff hk).1 h
  refine (lineOK_iff hk').2 ⟨hs, fun e he => ?_, ?_⟩
  · rw [hp.mem_iff, List.mem_map] at he
    obtain ⟨e, he, rfl⟩ := he
    show (i < f e.1 ∧ f e.1 < k) ∨ _
    rcases h2 e he with c | c
    · rw [hlow _ c.2]; exact Or.inl c
    · exact Or.inr (hhigh _ c.1 c.2)
  · rw [h3, hp.countP_eq, List.countP_map]
    refine List.countP_congr fun e he => ?_
    have e2 : f e.1 < k ↔ e.1 < k := by
      rcases h2 e he with c | c
      · rw [hlow _ c.2]
      · have := hhigh _ c.1 c.2; omega
    show decide (e.1 < k) = true ↔ decide (f e.1 < k) = true
    rw [decide_eq_true_eq, decide_eq_true_eq, e2]

theorem head_of_mem {k ds hi i : Nat} {l : List (Nat × K)} {st : Nat} (h : LineOK k ds hi i l st) (hk : k ≤ ds) {v : K} (hm : (ds, v) ∈ l) :
    (l.drop st).head?.map Prod.fst = some ds := by
  by_contra hc
  exact h.no_ds hk hc _ hm rfl

/-- The entry at the current position becomes final. -/
theorem lineOK_keep {k δ hi i : Nat} {l : List (Nat × K)} {st : Nat} (h : LineOK k (k + δ) hi i l st) (hik : i < k) :
    (∀ v, (k + δ, v) ∈ l → LineOK (k + 1) (k + 1 + δ) hi i (l.map (ren (k + δ) k)) (st + 1)) ∧
    ((∀ e ∈ l, e.1 ≠ k + δ) → LineOK (k + 1) (k + 1 + δ) hi i (l.map (ren (k + δ) k)) st) := by
  constructor
  · intro v hm
    obtain ⟨v, r, e1, e2, e3, e4⟩ := h.head_split (head_of_mem h (by omega) hm)
    have hr := h.rest_gt e1
    have hmap : l.map (ren (k + δ) k) = l.take st ++ (k, v) :: r := by
      conv_lhs => rw [e1]
      rw [List.map_append, List.map_cons, map_ren_of_ne (fun e he => by have := h.before e he; omega),
        map_ren_of_ne (fun e he => by have := hr e he; omega)]
      simp [ren]
    have hlen : (l.take st).length = st := by rw [List.length_take]; exact min_eq_left h.st_le
    rw [hmap]
    refine ⟨?_, ?_, fun e he => ?_, fun e he => ?_⟩
    · have hs := h.sorted
      rw [e1, List.pairwise_append] at hs
      rw [List.pairwise_append]
      refine ⟨hs.1, List.pairwise_cons.2 ⟨fun x hx => by have := hr x hx; show k < x.1; omega, (List.pairwise_cons.1 hs.2.1).2⟩, fun a ha b hb => ?_⟩
      rcases List.mem_cons.1 hb with rfl | hb
      · exact (h.before a ha).2
      · exact hs.2.2 a ha b (by simp [hb])
    · simp [hlen]
    · rw [show l.take st ++ (k, v) :: r = (l.take st ++ [(k, v)]) ++ r by simp, List.take_left' (by simp [hlen]), List.mem_append,
        List.mem_singleton] at he
      rcases he with he | rfl
      · have := h.before e he; omega
      · exact ⟨hik, Nat.lt_succ_self k⟩
    · rw [show l.take st ++ (k, v) :: r = (l.take st ++ [(k, v)]) ++ r by simp, List.drop_left' (by simp [hlen])] at he
      have := hr e he; omega
  · intro hne
    rw [map_ren_of_ne hne]
    refine ⟨h.sorted, h.st_le, fun e he => by have := h.before e he; omega, fun e he => ?_⟩
    have h1 := h.after e he
    have h2 := hne e (List.mem_of_mem_drop he)
    omega

/-! ### One factor -/

theorem lists_mono {V V' : Nat → Prop} {A : Aug K} {L : Nat → List Nat} (h : Aug.Lists V A L) (hv : ∀ j, V' j → V j) : Aug.Lists V' A L :=
  ⟨fun j hj => h.vl j (hv j hj), h.ss, h.se, h.sc, fun j hj => h.chain j (hv j hj), fun j hj => h.mem j (hv j hj), fun j hj => h.asc j (hv j hj),
    fun j hj => h.last j (hv j hj), fun j hj => h.cnt j (hv j hj)⟩

/-- Columns whose lists are kept up to date. -/
def Up (n ds : Nat) (j : Nat) : Prop := ds ≤ j ∧ j < 2 * n

/-- Invariant of a factor at step `k` with `δ` deferrals so far. -/
structure PSideOK (n m2 k δ : Nat) (S : PSide K) : Prop where
  kle : k + δ ≤ m2
  mle : m2 ≤ n
  aug : ∃ Lst, Aug.Inv (Up n (k + δ)) k S.A Lst
  psz : S.A.cs.psize = m2
  ssz : S.A.cs.ssize = 2 * n
  stz : S.start.size = m2
  lines : ∀ i, i < k → LineOK k (k + δ) (n + δ) i (S.A.cs.line i) (S.start.get i)

variable {n m2 k δ : Nat} {S : PSide K}

theorem PSideOK.store (h : PSideOK n m2 k δ S) : Aug.Store k S.A := by
  obtain ⟨L, hL⟩ := h.aug; exact hL.store

theorem PSideOK.core (h : PSideOK n m2 k δ S) : Core n m2 k δ S.fac :=
  ⟨h.kle, h.mle, h.store.asm, h.psz, h.ssz, h.stz, h.lines⟩

/-- Nodes lie below the end of the deferred block. -/
theorem PSideOK.node (h : PSideOK n m2 k δ S) {x : Nat} (hx : x < S.A.ninds.size) :
    S.A.ninds.get x < k ∧ ((S.A.colOf x < k) ∨ (k + δ ≤ S.A.colOf x ∧ S.A.colOf x < n + δ)) := by
  have hr := (h.store.row x hx).1
  refine ⟨hr, ?_⟩
  have := mem_lineOK (h.lines _ hr) ((h.store.mem_line hr (S.A.colOf x) (S.A.valOf x)).2 ⟨x, hx, rfl, rfl, rfl⟩)
  exact this.imp (fun c => c.2) id

/-- What a list of the augmented storage contains. -/
structure Nodes [AddCommMonoid K] (k : Nat) (T : CS K) (j : Nat) (c : List (Nat × K)) : Prop where
  nodup : (c.map Prod.fst).Nodup
  mem : ∀ e ∈ c, e.1 < k ∧ e.2 = ent (T.line e.1) j ∧ ∃ v, (j, v) ∈ T.line e.1
  zero : ∀ i, i < k → i ∉ c.map Prod.fst → ∀ e ∈ T.line i, e.1 ≠ j

theorem ent_of_mem [AddCommMonoid K] {l : List (Nat × K)} (hs : l.Pairwise fun a b => a.1 < b.1) {j : Nat} {v : K} (hm : (j, v) ∈ l) : ent l j = v := by
  induction l with
  | nil => simp at hm
  | cons a l ih =>
    obtain ⟨h1, h2⟩ := List.pairwise_cons.1 hs
    rw [ent_cons]
    rcases List.mem_cons.1 hm with rfl | hm
    · rw [if_pos rfl, ent_zero, add_zero]
      intro e he; have := h1 e he; simp only at this; omega
    · have := h1 _ hm
      simp only at this
      rw [if_neg (by omega), zero_add, ih h2 hm]

theorem walk_nodes [AddCommMonoid K] {V : Nat → Prop} {A : Aug K} {L : Nat → List Nat} (h : Aug.Inv V k A L) {j : Nat} (hj : V j) :
    ∃ c, A.walk j = .ok c ∧ Nodes k A.cs j c := by
  refine ⟨_, Aug.walk_eq h hj, ?_, ?_, ?_⟩
  · rw [List.map_map]
    have := h.lists.asc j hj
    rw [List.Nodup, List.pairwise_map]
    exact this.imp fun h => Nat.ne_of_lt h
  · intro e he
    obtain ⟨x, hx, rfl⟩ := List.mem_map.1 he
    obtain ⟨x1, x2⟩ := (h.lists.mem j hj x).1 hx
    have hr := (h.store.row x x1).1
    have hm := (h.store.mem_line hr j (A.valOf x)).2 ⟨x, x1, rfl, x2, rfl⟩
    exact ⟨hr, (ent_of_mem (line_pairwise h.store hr) hm).symm, _, hm⟩
  · intro i hi hn e he hej
    obtain ⟨a, b⟩ := e
    simp only at hej
    subst hej
    obtain ⟨x, x1, x2, x3, x4⟩ := (h.store.mem_line hi a b).1 he
    refine hn ?_
    rw [List.map_map, List.mem_map]
    exact ⟨x, (h.lists.mem a hj x).2 ⟨x1, x3⟩, x2⟩

theorem Nodes.sum {K' : Type _} [AddCommMonoid K'] [AddCommMonoid K] {T : CS K} {j : Nat} {c : List (Nat × K)} (h : Nodes k T j c) (g : Nat → K → K')
    (h0 : ∀ i, i < k → g i 0 = 0) : (c.map fun e => g e.1 e.2).sum = ∑ i ∈ range k, g i (ent (T.line i) j) := by
  have e1 : c.map (fun e => g e.1 e.2) = (c.map Prod.fst).map fun i => g i (ent (T.line i) j) := by
    rw [List.map_map]
    refine List.map_congr_left fun e he => ?_
    simp only [Function.comp]
    rw [← (h.mem e he).2.1]
  rw [e1, sum_nodes h.nodup (fun i hi => ?_)]
  · intro i hi hn
    rw [ent_zero (h.zero i hi hn), h0 i hi]
  · obtain ⟨e, he, rfl⟩ := List.mem_map.1 hi
    exact (h.mem e he).1

theorem forL_runs {α σ : Type _} {f : α → σ → M σ} {Q : σ → Prop} (c : List α) (I : List α → σ → Prop) (s : σ) (h0 : I [] s)
    (hstep : ∀ a i b s, c = a ++ i :: b → I a s → Runs (f i s) fun r => I (a ++ [i]) r) (hQ : ∀ s, I c s → Q s) : Runs (forL c s f) Q := by
  suffices H : ∀ (b a : List α) (s : σ), c = a ++ b → I a s → Runs (forL b s f) Q from H c [] s rfl h0
  intro b
  induction b with
  | nil => intro a s hab hI; rw [forL, runs_pure]; rw [List.append_nil] at hab; exact hQ s (hab ▸ hI)
  | cons i b ih =>
    intro a s hab hI
    rw [forL, runs_bind]
    exact (hstep a i b s hab hI).mono fun r hr => ih (a ++ [i]) r (by rw [hab]; simp) hr

/-- Renaming of live positions: exchange and deferral. -/
theorem PSideOK.renamed (h : PSideOK n m2 k δ S) {δ' : Nat} (hδ : δ ≤ δ') (hle : k + δ' ≤ m2) {A' : Aug K} {f : Nat → Nat} (hf : Function.Injective f)
    (haug : ∃ L, Aug.Inv (Up n (k + δ)) k A' L) (h1 : A'.cs.ssize = S.A.cs.ssize) (h2 : A'.cs.psize = S.A.cs.psize) (h3 : A'.ninds = S.A.ninds)
    (hc : ∀ x, x < S.A.ninds.size → A'.colOf x = f (S.A.colOf x)) (hv : ∀ x, x < S.A.ninds.size → A'.valOf x = S.A.valOf x)
    (hlow : ∀ j, j < k → f j = j) (hhigh : ∀ j, k + δ ≤ j → j < n + δ → k + δ' ≤ f j ∧ f j < n + δ') :
    PSideOK n m2 k δ' { S with A := A' } ∧ ∀ i, i < k → (A'.cs.line i).Perm ((S.A.cs.line i).map (mapF f)) := by
  obtain ⟨L, hL⟩ := haug
  have hp : ∀ i, i < k → (A'.cs.line i).Perm ((S.A.cs.line i).map (mapF f)) := fun i hi => line_perm h.store hL.store h3 hf hc hv hi
  refine ⟨⟨hle, h.mle, ⟨L, hL.store, lists_mono hL.lists fun j hj => ⟨by have := hj.1; omega, hj.2⟩⟩, by rw [← h.psz]; exact h2, by rw [← h.ssz]; exact h1, h.stz,
    fun i hi => lineOK_perm (h.lines i hi) (by omega) (by omega) (line_pairwise hL.store hi) (hp i hi) hlow hhigh⟩, hp⟩

theorem sideInterchange_runs (h : PSideOK n m2 k δ S) {pv : Nat} (h1 : k + δ ≤ pv) (h2 : pv < m2) :
    Runs (S.A.interchange (k + δ) pv) fun A' => PSideOK n m2 k δ { S with A := A' } ∧
      ∀ i, i < k → (A'.cs.line i).Perm ((S.A.cs.line i).map (mapF (Equiv.swap (k + δ) pv))) := by
  obtain ⟨L, hL⟩ := h.aug
  have hmle := h.mle
  refine (Aug.interchange_runs hL (i := k + δ) (k := pv) ⟨le_refl _, by omega⟩ ⟨h1, by omega⟩).mono ?_
  rintro A' ⟨a1, a2, a3, a4, a5, a6⟩
  refine h.renamed (le_refl _) h.kle (Equiv.injective _) ⟨_, a1⟩ a2 a3 a4 a5 a6 (fun j hj => Equiv.swap_apply_of_ne_of_ne (by omega) (by omega)) fun j j1 j2 => ?_
  rw [Equiv.swap_apply_def]
  split
  · omega
  · split <;> omega

theorem sideDefer_runs (h : PSideOK n m2 k δ S) (hlt : k + δ < m2) :
    Runs (S.A.defer (k + δ) (n + δ)) fun A' => PSideOK n m2 k (δ + 1) { S with A := A' } ∧
      ∀ i, i < k → (A'.cs.line i).Perm ((S.A.cs.line i).map (mapF (Equiv.swap (k + δ) (n + δ)))) := by
  obtain ⟨L, hL⟩ := h.aug
  have hmle := h.mle
  have hemp : L (n + δ) = [] := by
    rw [List.eq_nil_iff_forall_not_mem]
    intro x hx
    obtain ⟨x1, x2⟩ := (hL.lists.mem (n + δ) ⟨by omega, by omega⟩ x).1 hx
    have := (h.node x1).2
    omega
  refine (Aug.defer_runs hL (src := k + δ) (dst := n + δ) ⟨le_refl _, by omega⟩ ⟨by omega, by omega⟩ (by omega) hemp ?_).mono ?_
  · intro a ha x hx _
    have := (h.node hx).2
    omega
  rintro A' ⟨a1, a2, a3, a4, a5, a6⟩
  refine h.renamed (Nat.le_succ _) (by omega) (Equiv.injective _) ⟨_, a1⟩ a2 a3 a4 a5 a6 (fun j hj => Equiv.swap_apply_of_ne_of_ne (by omega) (by omega)) fun j j1 j2 => ?_
  rw [Equiv.swap_apply_def]
  split
  · omega
  · split <;> omega

/-- The entry of the current position is where the loops look for it. -/
theorem PSideOK.head [AddCommMonoid K] (h : PSideOK n m2 k δ S) {i : Nat} (hi : i < k) :
    S.A.cs.start.get i + S.start.get i ≤ S.A.cs.start.get (i + 1) ∧
    ((∃ v, (k + δ, v) ∈ S.A.cs.line i) → S.A.cs.start.get i + S.start.get i < S.A.cs.start.get (i + 1) ∧
      S.A.cs.inds.get (S.A.cs.start.get i + S.start.get i) = k + δ) ∧
    (S.A.cs.start.get i + S.start.get i < S.A.cs.start.get (i + 1) → S.A.cs.inds.get (S.A.cs.start.get i + S.start.get i) = k + δ →
      S.A.cs.vals.get (S.A.cs.start.get i + S.start.get i) = ent (S.A.cs.line i) (k + δ)) ∧
    (¬ (S.A.cs.start.get i + S.start.get i < S.A.cs.start.get (i + 1) ∧ S.A.cs.inds.get (S.A.cs.start.get i + S.start.get i) = k + δ) →
      ent (S.A.cs.line i) (k + δ) = 0) := by
  have hl := h.lines i hi
  have hst := hl.st_le
  have hmono := h.store.asm.mono i hi
  rw [line_length] at hst
  have key : (∃ v, (k + δ, v) ∈ S.A.cs.line i) → S.A.cs.start.get i + S.start.get i < S.A.cs.start.get (i + 1) ∧
      S.A.cs.inds.get (S.A.cs.start.get i + S.start.get i) = k + δ := by
    rintro ⟨v, hm⟩
    obtain ⟨v, r, e1, e2, e3, e4⟩ := hl.head_split (head_of_mem hl (by omega) hm)
    rw [List.getElem?_eq_getElem e2, line_getElem] at e3
    simp only [Option.some.injEq, Prod.mk.injEq] at e3
    rw [line_length] at e2
    exact ⟨by omega, e3.1⟩
  refine ⟨by omega, key, fun hlt hd => ?_, fun hn => ?_⟩
  · have hltl : S.start.get i < (S.A.cs.line i).length := by rw [line_length]; omega
    have hg := line_getElem S.A.cs i _ hltl
    rw [hd] at hg
    exact (ent_of_mem hl.sorted (hg ▸ List.getElem_mem hltl)).symm
  · refine ent_zero fun e he hd => hn (key ⟨e.2, ?_⟩)
    rw [← hd]; exact he

end Hif.PCrout
