import Verif.Crout

set_option linter.unusedSectionVars false
set_option linter.unusedVariables false
set_option linter.unusedSimpArgs false

/-! # Crout phase: linked lists and the lines of a factor (proofs) -/

namespace Hif.Crout
variable {K : Type _}

/-! ### Chains -/

/-- Following `nx` from `h` visits exactly the nodes of `c`, in order. -/
def Chain (nx : Nat → Option Nat) (h : Option Nat) (c : List Nat) : Prop :=
  h = c.head? ∧ ∀ a i b, c = a ++ i :: b → nx i = b.head?

theorem Chain.congr {nx nx' : Nat → Option Nat} {h : Option Nat} {c : List Nat} (hc : Chain nx h c)
    (e : ∀ i ∈ c, nx' i = nx i) : Chain nx' h c :=
  ⟨hc.1, fun a i b hab => by rw [e i (by rw [hab]; simp)]; exact hc.2 a i b hab⟩

theorem Chain.cons {nx : Nat → Option Nat} {h : Option Nat} {c : List Nat} (hc : Chain nx h c) {i : Nat}
    (hi : nx i = h) : Chain nx (some i) (i :: c) := by
  refine ⟨rfl, fun a x b hab => ?_⟩
  cases a with
  | nil =>
    simp only [List.nil_append, List.cons.injEq] at hab
    obtain ⟨rfl, rfl⟩ := hab
    rw [hi, hc.1]
  | cons y a =>
    simp only [List.cons_append, List.cons.injEq] at hab
    exact hc.2 a x b hab.2

theorem Chain.nil (nx : Nat → Option Nat) : Chain nx none [] := ⟨rfl, fun a i b h => by simp at h⟩

/-- Rule for `while (idx != nil)`. -/
theorem chase_runs {σ : Type _} {body : Nat → σ → M (Option Nat × σ)} {Q : σ → Prop} (c : List Nat)
    (I : List Nat → σ → Prop) (fuel : Nat) (hf : c.length ≤ fuel) (h : Option Nat) (hh : h = c.head?) (s : σ)
    (h0 : I [] s)
    (hstep : ∀ a i b s, c = a ++ i :: b → I a s → Runs (body i s) fun r => r.1 = b.head? ∧ I (a ++ [i]) r.2)
    (hQ : ∀ s, I c s → Q s) : Runs (chase body fuel h s) Q := by
  suffices H : ∀ (b a : List Nat) (fuel : Nat) (s : σ), c = a ++ b → b.length ≤ fuel → I a s →
      Runs (chase body fuel b.head? s) Q by
    rw [hh]; exact H c [] fuel s (by simp) hf h0
  intro b
  induction b with
  | nil =>
    intro a fuel s hab _ hI
    rw [List.append_nil] at hab
    cases fuel <;> (simp only [List.head?_nil, chase, runs_pure]; exact hQ s (by rw [hab]; exact hI))
  | cons i b ih =>
    intro a fuel s hab hf hI
    cases fuel with
    | zero => simp at hf
    | succ fuel =>
      simp only [List.head?_cons, chase, runs_bind]
      refine (hstep a i b s hab hI).mono ?_
      rintro ⟨nx, s'⟩ ⟨r1, r2⟩
      simp only at r1 r2
      subst r1
      exact ih (a ++ [i]) fuel s' (by simp [hab]) (by simpa using hf) r2

/-- For every `j` in `[lo,hi)` the list starting at slot `j` enumerates the lines below `k` whose head is `j`. -/
def Links (lo hi k : Nat) (list : Buf (Option Nat)) (head : Nat → Option Nat) : Prop :=
  ∀ j, lo ≤ j → j < hi → ∃ c, Chain list.get (list.get j) c ∧ c.Nodup ∧ ∀ i, i ∈ c ↔ i < k ∧ head i = some j

theorem Links.congr {lo hi k : Nat} {list : Buf (Option Nat)} {h1 h2 : Nat → Option Nat} (h : Links lo hi k list h1)
    (e : ∀ i, i < k → h2 i = h1 i) : Links lo hi k list h2 := by
  intro j h1 h2
  obtain ⟨c, c1, c2, c3⟩ := h j h1 h2
  refine ⟨c, c1, c2, fun i => (c3 i).trans ?_⟩
  constructor
  · rintro ⟨a, b⟩; exact ⟨a, by rw [e i a]; exact b⟩
  · rintro ⟨a, b⟩; exact ⟨a, by rw [← e i a]; exact b⟩

theorem Links.mono {lo lo' hi k : Nat} {list : Buf (Option Nat)} {head : Nat → Option Nat} (h : Links lo hi k list head)
    (hl : lo ≤ lo') : Links lo' hi k list head := fun j h1 h2 => h j (by omega) h2

/-- A slot below the heads that belongs to no list may be overwritten. -/
theorem Links.set_free {lo hi k : Nat} {list : Buf (Option Nat)} {head : Nat → Option Nat} (h : Links lo hi k list head)
    {x : Nat} (hx : x < lo) (hfree : ∀ j, lo ≤ j → j < hi → x < k → head x ≠ some j) (v : Option Nat) :
    Links lo hi k (list.set x v) head := by
  intro j h1 h2
  obtain ⟨c, c1, c2, c3⟩ := h j h1 h2
  refine ⟨c, ?_, c2, c3⟩
  rw [Buf.set_get_ne _ _ (show j ≠ x by omega)]
  refine c1.congr fun i hi => Buf.set_get_ne _ _ ?_
  rintro rfl
  exact hfree j h1 h2 ((c3 i).1 hi).1 ((c3 i).1 hi).2

/-- A node that is in no list is put in front of list `j`. -/
theorem Links.push {lo hi k : Nat} {list : Buf (Option Nat)} {head : Nat → Option Nat} (h : Links lo hi k list head)
    (hk : k ≤ lo) {x j : Nat} (hx : x < k) (hj : lo ≤ j) (hj' : j < hi)
    (hfree : ∀ j, lo ≤ j → j < hi → head x ≠ some j) :
    Links lo hi k ((list.set x (list.get j)).set j (some x)) (fun i => if i = x then some j else head i) := by
  intro j' h1 h2
  obtain ⟨c, c1, c2, c3⟩ := h j' h1 h2
  have hxc : x ∉ c := fun hc => hfree j' h1 h2 ((c3 x).1 hc).2
  have hget : ∀ i ∈ c, ((list.set x (list.get j)).set j (some x)).get i = list.get i := by
    intro i hi
    have := ((c3 i).1 hi).1
    rw [Buf.set_get_ne _ _ (by omega), Buf.set_get_ne _ _ (by rintro rfl; exact hxc hi)]
  by_cases e : j' = j
  · subst e
    refine ⟨x :: c, ?_, List.nodup_cons.2 ⟨hxc, c2⟩, fun i => ?_⟩
    · rw [Buf.set_get_self]
      refine (c1.congr hget).cons ?_
      rw [Buf.set_get_ne _ _ (by omega), Buf.set_get_self]
    · rw [List.mem_cons]
      by_cases ei : i = x
      · subst ei; simp [hx]
      · simp only [ei, false_or, if_false]; exact c3 i
  · refine ⟨c, ?_, c2, fun i => ?_⟩
    · rw [Buf.set_get_ne _ _ e, Buf.set_get_ne _ _ (by omega)]
      exact c1.congr hget
    · by_cases ei : i = x
      · subst ei
        simp only [if_true, Option.some.injEq]
        constructor
        · intro hc; exact absurd hc hxc
        · rintro ⟨-, h⟩; exact absurd h.symm e
      · simp only [ei, if_false]; exact c3 i

/-- A node leaves all lists. -/
theorem Links.drop {lo hi k : Nat} {list : Buf (Option Nat)} {head : Nat → Option Nat} (h : Links lo hi k list head)
    {x : Nat} (hx : x < lo) (hfree : ∀ j, lo ≤ j → j < hi → head x ≠ some j) (v : Option Nat) :
    Links lo hi k (list.set x v) (fun i => if i = x then none else head i) := by
  intro j h1 h2
  obtain ⟨c, c1, c2, c3⟩ := h.set_free hx (fun j a b _ => hfree j a b) v j h1 h2
  refine ⟨c, c1, c2, fun i => ?_⟩
  by_cases ei : i = x
  · subst ei
    have := hfree j h1 h2
    simp only [if_true]
    rw [c3 i]
    constructor
    · rintro ⟨_, e⟩; exact absurd e this
    · rintro ⟨_, e⟩; simp at e
  · simp only [ei, if_false]; exact c3 i

/-- Raising the number of lines when the new line has no head. -/
theorem Links.succ {lo hi k : Nat} {list : Buf (Option Nat)} {head : Nat → Option Nat} (h : Links lo hi k list head)
    (hn : head k = none) : Links lo hi (k + 1) list head := by
  intro j h1 h2
  obtain ⟨c, c1, c2, c3⟩ := h j h1 h2
  refine ⟨c, c1, c2, fun i => (c3 i).trans ?_⟩
  constructor
  · rintro ⟨a, b⟩; exact ⟨by omega, b⟩
  · rintro ⟨a, b⟩
    refine ⟨?_, b⟩
    rcases Nat.lt_or_ge i k with hlt | hge
    · exact hlt
    · rw [show i = k by omega, hn] at b; cases b

/-! ### Lines under assembly -/

/-- `T` has `k` complete lines. -/
structure Asm (k : Nat) (T : CS K) : Prop where
  ssz : T.start.size = k + 1
  zero : T.start.get 0 = 0
  mono : ∀ i, i < k → T.start.get i ≤ T.start.get (i + 1)
  isz : T.inds.size = T.start.get k
  vsz : T.vals.size = T.start.get k

theorem Asm.le {k : Nat} {T : CS K} (h : Asm k T) {i j : Nat} (hij : i ≤ j) (hj : j ≤ k) :
    T.start.get i ≤ T.start.get j := by
  induction j with
  | zero => rw [show i = 0 by omega]
  | succ j ih =>
    rcases Nat.lt_or_ge i (j + 1) with h1 | h1
    · exact le_trans (ih (by omega) (by omega)) (h.mono j (by omega))
    · rw [show i = j + 1 by omega]

theorem line_length (T : CS K) (i : Nat) : (T.line i).length = T.start.get (i + 1) - T.start.get i := by
  unfold CS.line; rw [CS.seg_length]

theorem line_getElem (T : CS K) (i t : Nat) (h : t < (T.line i).length) :
    (T.line i)[t] = (T.inds.get (T.start.get i + t), T.vals.get (T.start.get i + t)) := by
  simp [CS.line, CS.seg]

theorem line_eq_of {T T' : CS K} {i : Nat} (h1 : T'.start.get i = T.start.get i) (h2 : T'.start.get (i + 1) = T.start.get (i + 1))
    (h3 : ∀ k, T.start.get i ≤ k → k < T.start.get (i + 1) → T'.inds.get k = T.inds.get k ∧ T'.vals.get k = T.vals.get k) :
    T'.line i = T.line i := by
  unfold CS.line CS.seg
  rw [h1, h2]
  refine List.map_congr_left fun k hk => ?_
  rw [List.mem_range'_1] at hk
  obtain ⟨a, b⟩ := h3 k (by omega) (by omega)
  rw [a, b]

/-- Positions of different lines are different. -/
theorem Asm.disj {k : Nat} {T : CS K} (h : Asm k T) {i i' x y : Nat} (hi : i < k) (hi' : i' < k) (hne : i ≠ i')
    (hx : T.start.get i ≤ x) (hx' : x < T.start.get (i + 1)) (hy : T.start.get i' ≤ y) (hy' : y < T.start.get (i' + 1)) : x ≠ y := by
  rcases Nat.lt_or_ge i i' with hlt | hge
  · have := h.le (show i + 1 ≤ i' by omega) (by omega); omega
  · have := h.le (show i' + 1 ≤ i by omega) (by omega); omega

theorem Asm.lt_size {k : Nat} {T : CS K} (h : Asm k T) {i x : Nat} (hi : i < k) (hx' : x < T.start.get (i + 1)) :
    x < T.inds.size ∧ x < T.vals.size := by
  have := h.le (show i + 1 ≤ k by omega) (le_refl _)
  rw [h.isz, h.vsz]; omega

/-- Appending a line. -/
theorem pushLine_runs {k : Nat} {T : CS K} (h : Asm k T) (l : List Nat) (v : Buf K) (hl : ∀ j ∈ l, j < v.size) :
    Runs (T.pushLine l v) fun T' => Asm (k + 1) T' ∧ T'.psize = T.psize ∧ T'.ssize = T.ssize ∧
      (∀ i, i ≤ k → T'.start.get i = T.start.get i) ∧
      (∀ i, i < k → T'.line i = T.line i) ∧ T'.line k = l.map fun j => (j, v.get j) := by
  have hs := h.ssz
  have hback : T.start.back = .ok (T.start.get k) := by
    unfold Buf.back Buf.rd
    rw [if_neg (by omega), if_pos (by omega), hs]; rfl
  unfold CS.pushLine
  simp only [runs_bind]
  refine (CS.pushRange_runs v l hl (T.inds, T.vals) (by rw [h.isz, h.vsz])).mono ?_
  rintro ⟨oi, ov⟩ ⟨r1, r2, r3, r4⟩
  simp only at r1 r2 r3 r4
  rw [hback]
  simp only [runs_ok, runs_pure]
  have hst : ∀ i, i ≤ k → (T.start.push (T.start.get k + l.length)).get i = T.start.get i := fun i hi => by
    simp only [Buf.push]; rw [if_neg (by omega)]
  have hst' : (T.start.push (T.start.get k + l.length)).get (k + 1) = T.start.get k + l.length := by
    simp only [Buf.push]; rw [if_pos hs.symm]
  refine ⟨⟨?_, ?_, ?_, ?_, ?_⟩, trivial, trivial, hst, ?_, ?_⟩
  · simp [Buf.push, hs]
  · simp only []; rw [hst 0 (by omega)]; exact h.zero
  · intro i hi
    simp only []
    by_cases e : i = k
    · subst e; rw [hst i (by omega), hst']; omega
    · rw [hst i (by omega), hst (i + 1) (by omega)]; exact h.mono i (by omega)
  · simp only []; rw [hst', r1, h.isz]
  · simp only []; rw [hst', r2, h.isz]
  · intro i hi
    refine line_eq_of (hst i (by omega)) (hst (i + 1) (by omega)) fun x h1 h2 => ?_
    exact r3 x (h.lt_size hi h2).1
  · refine List.ext_getElem ?_ fun t t1 t2 => ?_
    · rw [line_length]; simp only []; rw [hst k (by omega), hst', List.length_map]; omega
    · rw [line_getElem]
      simp only []
      rw [hst k (by omega), List.getElem_map]
      rw [List.length_map] at t2
      have := r4 t t2
      rw [h.isz] at this
      rw [this.1, this.2]

/-- Value of a line at an index. -/
def ent [AddCommMonoid K] (l : List (Nat × K)) (v : Nat) : K := (l.map fun e => if e.1 = v then e.2 else 0).sum

/-- Renaming of an index. -/
def ren (a b : Nat) (e : Nat × K) : Nat × K := if e.1 = a then (b, e.2) else e

section entl
variable [AddCommMonoid K]

theorem ent_nil (v : Nat) : ent ([] : List (Nat × K)) v = 0 := rfl
theorem ent_cons (e : Nat × K) (l : List (Nat × K)) (v : Nat) : ent (e :: l) v = (if e.1 = v then e.2 else 0) + ent l v := by
  simp [ent]
theorem ent_append (l l' : List (Nat × K)) (v : Nat) : ent (l ++ l') v = ent l v + ent l' v := by simp [ent]
theorem ent_perm {l l' : List (Nat × K)} (h : l.Perm l') (v : Nat) : ent l v = ent l' v := (h.map _).sum_eq
theorem ent_zero {l : List (Nat × K)} {v : Nat} (h : ∀ e ∈ l, e.1 ≠ v) : ent l v = 0 := by
  induction l with
  | nil => rfl
  | cons e l ih =>
    rw [ent_cons, if_neg (h e (by simp)), ih (fun x hx => h x (by simp [hx])), zero_add]

theorem ent_ren {l : List (Nat × K)} {a b : Nat} (hb : ∀ e ∈ l, e.1 = b → a = b) (v : Nat) :
    ent (l.map (ren a b)) v = if v = b then ent l a else if v = a then 0 else ent l v := by
  induction l with
  | nil => simp [ent_nil]
  | cons e l ih =>
    rw [List.map_cons, ent_cons, ih (fun x hx => hb x (by simp [hx]))]
    have he := hb e (by simp)
    unfold ren
    by_cases h1 : e.1 = a
    · rw [if_pos h1]
      by_cases h2 : v = b
      · rw [if_pos h2, if_pos h2, ent_cons, if_pos h1, if_pos h2.symm]
      · rw [if_neg h2, if_neg h2, if_neg (Ne.symm h2), zero_add]
        by_cases h3 : v = a
        · rw [if_pos h3, if_pos h3]
        · rw [if_neg h3, if_neg h3, ent_cons, if_neg (by rw [h1]; exact Ne.symm h3), zero_add]
    · rw [if_neg h1]
      by_cases h2 : v = b
      · rw [if_pos h2, if_pos h2, ent_cons, if_neg h1, zero_add]
        rw [if_neg, zero_add]
        intro e2
        exact h1 (by rw [he (by rw [e2, h2]), e2, h2])
      · rw [if_neg h2, if_neg h2]
        by_cases h3 : v = a
        · rw [if_pos h3, if_pos h3, add_zero, if_neg (by rw [h3]; exact h1)]
        · rw [if_neg h3, if_neg h3, ent_cons]

end entl

/-! ### Invariant of one factor -/

/-- A line: sorted; the entries before the current position carry final indices below `k`, the rest positions in `[ds,hi)`. -/
structure LineOK (k ds hi i : Nat) (l : List (Nat × K)) (st : Nat) : Prop where
  sorted : l.Pairwise fun a b => a.1 < b.1
  st_le : st ≤ l.length
  before : ∀ e ∈ l.take st, i < e.1 ∧ e.1 < k
  after : ∀ e ∈ l.drop st, ds ≤ e.1 ∧ e.1 < hi

/-- Index of the entry at the current position of line `i`. -/
def headOf (F : FacSide K) (i : Nat) : Option Nat := ((F.T.line i).drop (F.start.get i)).head?.map Prod.fst

/-- Invariant of a factor at step `k` with `δ` deferrals so far (`n` the system size, `m2` the initial leading size). -/
structure Side (n m2 k δ : Nat) (F : FacSide K) : Prop where
  kle : k + δ ≤ m2
  mle : m2 ≤ n
  asm : Asm k F.T
  psz : F.T.psize = m2
  ssz : F.T.ssize = 2 * n
  lsz : F.list.size = 2 * n
  stz : F.start.size = m2
  lines : ∀ i, i < k → LineOK k (k + δ) (n + δ) i (F.T.line i) (F.start.get i)
  links : Links (k + δ) (2 * n) k F.list (headOf F)

/-- The part of `Side` that does not speak of the linked lists. -/
structure Core (n m2 k δ : Nat) (F : FacSide K) : Prop where
  kle : k + δ ≤ m2
  mle : m2 ≤ n
  asm : Asm k F.T
  psz : F.T.psize = m2
  ssz : F.T.ssize = 2 * n
  stz : F.start.size = m2
  lines : ∀ i, i < k → LineOK k (k + δ) (n + δ) i (F.T.line i) (F.start.get i)

theorem Side.core {n m2 k δ : Nat} {F : FacSide K} (h : Side n m2 k δ F) : Core n m2 k δ F :=
  ⟨h.kle, h.mle, h.asm, h.psz, h.ssz, h.stz, h.lines⟩

theorem LineOK.head_split {k ds hi i : Nat} {l : List (Nat × K)} {st : Nat} (h : LineOK k ds hi i l st) {j : Nat}
    (hj : (l.drop st).head?.map Prod.fst = some j) :
    ∃ v r, l = l.take st ++ (j, v) :: r ∧ st < l.length ∧ l[st]? = some (j, v) ∧ l.drop (st + 1) = r := by
  rcases e : l.drop st with _ | ⟨⟨a, b⟩, r⟩
  · rw [e] at hj; simp at hj
  · rw [e] at hj
    simp only [List.head?_cons, Option.map_some, Option.some.injEq] at hj
    subst hj
    have hlt : st < l.length := by
      by_contra hc
      rw [List.drop_of_length_le (by omega)] at e; cases e
    refine ⟨b, r, ?_, hlt, ?_, ?_⟩
    · conv_lhs => rw [← List.take_append_drop st l, e]
    · rw [List.drop_eq_getElem_cons hlt] at e
      rw [List.getElem?_eq_getElem hlt]
      simp only [List.cons.injEq] at e
      rw [e.1]
    · rw [List.drop_eq_getElem_cons hlt] at e
      simp only [List.cons.injEq] at e
      exact e.2

/-- A line whose head is not `ds` has no entry at `ds`. -/
theorem LineOK.no_ds {k ds hi i : Nat} {l : List (Nat × K)} {st : Nat} (h : LineOK k ds hi i l st) (hk : k ≤ ds)
    (hj : (l.drop st).head?.map Prod.fst ≠ some ds) : ∀ e ∈ l, e.1 ≠ ds := by
  intro e he
  rw [← List.take_append_drop st l, List.mem_append] at he
  rcases he with he | he
  · have := h.before e he; omega
  · have hs : (l.drop st).Pairwise fun a b => a.1 < b.1 := h.sorted.sublist (List.drop_sublist _ _)
    have ha := h.after
    rcases e2 : l.drop st with _ | ⟨a, r⟩
    · rw [e2] at he; cases he
    · rw [e2] at he hs hj ha
      have h1 := ha a (by simp)
      simp only [List.head?_cons, Option.map_some, ne_eq, Option.some.injEq] at hj
      rcases List.mem_cons.1 he with rfl | he
      · exact hj
      · have := (List.pairwise_cons.1 hs).1 e he
        omega

/-- Entries behind the head lie strictly beyond it. -/
theorem LineOK.rest_gt {k ds hi i : Nat} {l : List (Nat × K)} {st j : Nat} {v : K} {r : List (Nat × K)}
    (h : LineOK k ds hi i l st) (e : l = l.take st ++ (j, v) :: r) : ∀ x ∈ r, j < x.1 ∧ x.1 < hi := by
  intro x hx
  have hs := h.sorted
  rw [e, List.pairwise_append] at hs
  have h1 := (List.pairwise_cons.1 hs.2.1).1 x hx
  refine ⟨h1, ?_⟩
  have hx' : x ∈ l.drop st := by
    have hst : (l.take st).length = st := by rw [List.length_take]; exact min_eq_left h.st_le
    have : l.drop st = (j, v) :: r := by
      conv_lhs => rw [e]
      rw [List.drop_append_of_le_length (by omega), List.drop_of_length_le (by omega)]; rfl
    rw [this]; simp [hx]
  exact (h.after x hx').2

theorem LineOK.ent_ds [AddCommMonoid K] {k ds hi i : Nat} {l : List (Nat × K)} {st : Nat} {v : K} {r : List (Nat × K)}
    (h : LineOK k ds hi i l st) (hk : k ≤ ds) (e : l = l.take st ++ (ds, v) :: r) : ent l ds = v := by
  have hr := h.rest_gt e
  have hb := h.before
  rw [e, ent_append, ent_cons, if_pos rfl, ent_zero, ent_zero, zero_add, add_zero]
  · intro x hx; have := hr x hx; omega
  · intro x hx; have := hb x hx; omega

end Hif.Crout
