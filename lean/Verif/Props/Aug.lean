import Verif.AugPush
import Verif.Props.Pre

set_option linter.unusedVariables false

/-!
# C19: augmented compressed storage

Histories of the operations of `AugCRS` (for `AugCCS`: exchange the words row and column).  The specification is a matrix of optional values: `f r j` is the value
stored in row `r` and column `j`, `none` if the position is not stored.
-/

namespace Hif
namespace Spec

variable {K : Type _}

/-- What a history stands for: `n` columns, `m` rows so far, the stored entries. -/
structure AugMat (K : Type _) where
  n : Nat
  m : Nat
  f : Nat → Nat → Option K

/-- Operations of a user of the storage. -/
inductive AugOp (K : Type _) where
  /-- `begin_assemble_rows` -/
  | start
  /-- `build_aug` from a compressed matrix -/
  | build (B : CS K)
  /-- `push_back_row`, indices and dense value array -/
  | push (l : List Nat) (v : Buf K)
  /-- `push_back_row` with two ranges -/
  | push2 (l1 : List Nat) (v1 : Buf K) (l2 : List Nat) (v2 : Buf K)
  /-- `interchange_cols` -/
  | interchange (i k : Nat)
  /-- `defer_col` -/
  | defer (src dst : Nat)

/-- Stored value of a compressed matrix. -/
def storedIn (B : CS K) (r j : Nat) : Option K := ((B.line r).find? fun e => e.1 = j).map Prod.snd

namespace AugOp

/-- Meaning. -/
def eff : AugOp K → AugMat K → AugMat K
  | start, s => { s with m := 0, f := fun _ _ => none }
  | build B, _ => { n := B.ssize, m := B.psize, f := storedIn B }
  | push l v, s => { s with m := s.m + 1, f := fun r j => if r = s.m then (if j ∈ l then some (v.get j) else none) else s.f r j }
  | push2 l1 v1 l2 v2, s =>
    { s with m := s.m + 1, f := fun r j => if r = s.m then (if j ∈ l1 then some (v1.get j) else if j ∈ l2 then some (v2.get j) else none) else s.f r j }
  | interchange i k, s => { s with f := fun r j => s.f r (if j = i then k else if j = k then i else j) }
  | defer src dst, s => { s with f := fun r j => if j = dst then s.f r src else if j = src then none else s.f r j }

/-- What the caller has to respect. -/
def Ok : AugOp K → AugMat K → Prop
  | start, _ => True
  | build B, _ => B.WF ∧ B.Tight ∧ B.Sorted
  | push l v, s => l.Pairwise (· < ·) ∧ ∀ j ∈ l, j < s.n ∧ j < v.size
  | push2 l1 v1 l2 v2, s => (l1 ++ l2).Pairwise (· < ·) ∧ (∀ j ∈ l1, j < s.n ∧ j < v1.size) ∧ ∀ j ∈ l2, j < s.n ∧ j < v2.size
  | interchange i k, s => i < s.n ∧ k < s.n
  | defer src dst, s => src < dst ∧ dst < s.n ∧ (∀ r, r < s.m → s.f r dst = none) ∧
      ∀ r, r < s.m → s.f r src ≠ none → ∀ j, s.f r j ≠ none → j < dst

/-- The code. -/
def run [Inhabited K] : AugOp K → Nat → Aug K → M (Aug K)
  | start, _, A => pure A.begin
  | build B, _, A => A.buildAug B
  | push l v, m, A => A.pushLine m l v
  | push2 l1 v1 l2 v2, m, A => A.pushLine2 m l1 v1 l2 v2
  | interchange i k, _, A => A.interchange i k
  | defer src dst, _, A => A.defer src dst

end AugOp

/-- A history of permitted operations. -/
def AugLegal : List (AugOp K) → AugMat K → Prop
  | [], _ => True
  | o :: l, s => o.Ok s ∧ AugLegal l (o.eff s)

def augEff : List (AugOp K) → AugMat K → AugMat K
  | [], s => s
  | o :: l, s => augEff l (o.eff s)

/-- The code executes a history; the row number of a push is the number of rows so far. -/
def augRun [Inhabited K] : List (AugOp K) → AugMat K → Aug K → M (Aug K)
  | [], _, A => pure A
  | o :: l, s, A => do
    let A ← o.run s.m A
    augRun l (o.eff s) A

/-- What can be observed: rows through the compressed arrays, columns through the linked lists. -/
structure AugShows (A : Aug K) (s : AugMat K) : Prop where
  cols : A.cs.ssize = s.n
  rows : A.cs.start.size = s.m + 1
  /-- a row is stored with ascending column indices … -/
  sorted : ∀ r, r < s.m → ((A.cs.line r).map Prod.fst).Pairwise (· < ·)
  /-- … and contains exactly the stored entries -/
  line : ∀ r, r < s.m → ∀ j v, (j, v) ∈ A.cs.line r ↔ s.f r j = some v
  /-- no other column is stored -/
  dom : ∀ r, r < s.m → ∀ j, s.f r j ≠ none → j < s.n
  /-- the list of a column enumerates exactly its stored entries, rows ascending, and the column counter is their number -/
  walk : ∀ j, j < s.n → ∃ l, A.walk j = .ok l ∧ (l.map Prod.fst).Pairwise (· < ·) ∧ (∀ r v, (r, v) ∈ l ↔ r < s.m ∧ s.f r j = some v) ∧ A.counts.rd j = .ok l.length

end Spec

namespace Props
open Spec Aug
variable {K : Type _}

namespace C19

/-- The invariant behind the observations. -/
structure Rep (A : Aug K) (s : AugMat K) : Prop where
  cols : A.cs.ssize = s.n
  inv : ∃ L, Aug.Inv (· < s.n) s.m A L
  line : ∀ r, r < s.m → ∀ j v, (j, v) ∈ A.cs.line r ↔ s.f r j = some v

theorem line_sorted {m : Nat} {A : Aug K} (h : Store m A) {r : Nat} (hr : r < m) : ((A.cs.line r).map Prod.fst).Pairwise (· < ·) := by
  unfold CS.line
  rw [CS.seg_fst, List.pairwise_iff_getElem]
  intro a b ha hb hab
  rw [Buf.slice_getElem, Buf.slice_getElem]
  rw [Buf.slice_length] at ha hb
  exact h.sorted r hr _ _ (by omega) (by omega) (by omega)

theorem Rep.shows {A : Aug K} {s : AugMat K} (h : Rep A s) : AugShows A s := by
  obtain ⟨L, hI⟩ := h.inv
  have st := hI.store
  refine ⟨h.cols, st.asm.ssz, fun r hr => line_sorted st hr, h.line, fun r hr j hne => ?_, fun j hj => ?_⟩
  · obtain ⟨v, hv⟩ := Option.ne_none_iff_exists'.mp hne
    obtain ⟨n, n1, n2, n3, n4⟩ := (st.mem_line hr j v).mp ((h.line r hr j v).mpr hv)
    rw [← n3, ← h.cols]
    exact st.lt _ (st.pi n n1).1
  · have hj' : j < A.cs.ssize := by rw [h.cols]; exact hj
    have hl := hI.lists
    refine ⟨_, walk_eq hI hj, ?_, fun r v => ?_, ?_⟩
    · rw [List.map_map]
      exact List.pairwise_map.mpr (hl.asc j hj)
    · rw [List.mem_map]
      constructor
      · rintro ⟨n, hn, e⟩
        obtain ⟨n1, n2⟩ := (hl.mem j hj n).mp hn
        have hr : A.ninds.get n = r := congrArg Prod.fst e
        have hv : A.valOf n = v := congrArg Prod.snd e
        have hrm : r < s.m := by rw [← hr]; exact (st.row n n1).1
        exact ⟨hrm, (h.line r hrm j v).mp ((st.mem_line hrm j v).mpr ⟨n, n1, hr, n2, hv⟩)⟩
      · rintro ⟨hr, hv⟩
        obtain ⟨n, n1, n2, n3, n4⟩ := (st.mem_line hr j v).mp ((h.line r hr j v).mpr hv)
        exact ⟨n, (hl.mem j hj n).mpr ⟨n1, n3⟩, by rw [n2, n4]⟩
    · unfold Buf.rd
      rw [if_pos (by rw [hl.sc]; exact hj'), hl.cnt j hj, List.length_map]
      rfl

/-- Renaming of the columns of all nodes. -/
theorem rep_swap {A A' : Aug K} {s : AugMat K} {L L' : Nat → List Nat} (h : Rep A s) {V V' : Nat → Prop} (hA : Aug.Inv V s.m A L) (hA' : Aug.Inv V' s.m A' L') {i k : Nat}
    (hn : A'.ninds = A.ninds) (hc : ∀ n, n < A.ninds.size → A'.colOf n = Equiv.swap i k (A.colOf n)) (hv : ∀ n, n < A.ninds.size → A'.valOf n = A.valOf n)
    (r : Nat) (hr : r < s.m) (j : Nat) (v : K) : (j, v) ∈ A'.cs.line r ↔ s.f r (Equiv.swap i k j) = some v := by
  rw [← h.line r hr, hA'.store.mem_line hr, hA.store.mem_line hr, hn]
  refine exists_congr fun n => and_congr_right fun n1 => and_congr_right fun n2 => ?_
  rw [hc n n1, hv n n1]
  refine and_congr ⟨fun e => ?_, fun e => ?_⟩ Iff.rfl
  · rw [← e, Equiv.swap_apply_self]
  · rw [e, Equiv.swap_apply_self]

theorem storedIn_eq {B : CS K} {r : Nat} (hs : ((B.line r).map Prod.fst).Pairwise (· < ·)) (j : Nat) (v : K) : (j, v) ∈ B.line r ↔ storedIn B r j = some v := by
  unfold storedIn
  rw [Option.map_eq_some_iff]
  constructor
  · intro h
    refine ⟨(j, v), ?_, rfl⟩
    generalize B.line r = l at hs h
    induction l with
    | nil => simp at h
    | cons e l ih =>
      rw [List.map_cons, List.pairwise_cons] at hs
      rw [List.find?_cons]
      rcases List.mem_cons.mp h with e' | h'
      · rw [← e']; simp
      · have := hs.1 j (List.mem_map.mpr ⟨_, h', rfl⟩)
        have : ¬ e.1 = j := by omega
        simp only [this, decide_false]
        exact ih hs.2 h'
  · rintro ⟨e, h1, rfl⟩
    have h2 := List.find?_some h1
    have h3 := List.mem_of_find?_eq_some h1
    simp only [decide_eq_true_eq] at h2
    rw [← h2]; exact h3

/-- One operation. -/
theorem step [Inhabited K] {A : Aug K} {s : AugMat K} (h : Rep A s) (o : AugOp K) (ho : o.Ok s) : Runs (o.run s.m A) fun A' => Rep A' (o.eff s) := by
  obtain ⟨L, hI⟩ := h.inv
  cases o with
  | start =>
    show Runs (pure A.begin) _
    rw [runs_pure]
    exact ⟨h.cols, by have := begin_inv A; rw [h.cols] at this; exact this, fun r hr => absurd hr (Nat.not_lt_zero _)⟩
  | build B =>
    obtain ⟨wf, ti, so⟩ := ho
    have asm : Crout.Asm B.psize B := ⟨ti.start_size, wf.start_zero, wf.mono, ti.inds_size, ti.vals_size⟩
    refine (buildAug_runs A rfl asm (fun r hr x y hx hxy hy => so r hr x y ⟨hx, by omega⟩ ⟨by omega, hy⟩ hxy) (fun p hp => wf.inds_lt p (by rw [← ti.inds_size]; exact hp))).mono ?_
    rintro A' ⟨⟨L', h'⟩, c⟩
    refine ⟨by rw [c]; rfl, ⟨L', h'⟩, fun r hr j v => ?_⟩
    have := line_sorted h'.store hr
    rw [c] at this ⊢
    exact storedIn_eq this j v
  | push l v =>
    refine (pushLine_runs ⟨L, hI⟩ l v (fun j hj => (ho.2 j hj).2) ho.1 (fun j hj => (ho.2 j hj).1)).mono ?_
    rintro A' ⟨h1, h2, h3, h4, h5⟩
    refine ⟨h3.trans h.cols, h1, fun r hr j x => ?_⟩
    change r < s.m + 1 at hr
    show _ ↔ (if r = s.m then (if j ∈ l then some (v.get j) else none) else s.f r j) = some x
    by_cases e : r = s.m
    · rw [if_pos e, e, h5, List.mem_map]
      constructor
      · rintro ⟨a, ha, e'⟩
        have e1 : a = j := congrArg Prod.fst e'
        have e2 : v.get a = x := congrArg Prod.snd e'
        rw [← e1, if_pos ha, e2]
      · intro hx
        by_cases hj : j ∈ l
        · rw [if_pos hj] at hx
          exact ⟨j, hj, by rw [Option.some.inj hx]⟩
        · rw [if_neg hj] at hx; simp at hx
    · rw [if_neg e, h4 r (by omega)]; exact h.line r (by omega) j x
  | push2 l1 v1 l2 v2 =>
    obtain ⟨o1, o2, o3⟩ := ho
    refine (pushLine2_runs ⟨L, hI⟩ l1 v1 l2 v2 (fun j hj => (o2 j hj).2) (fun j hj => (o3 j hj).2) o1 (fun j hj => by
      rcases List.mem_append.mp hj with hj | hj
      · exact (o2 j hj).1
      · exact (o3 j hj).1)).mono ?_
    rintro A' ⟨h1, h2, h3, h4, h5⟩
    refine ⟨h3.trans h.cols, h1, fun r hr j x => ?_⟩
    change r < s.m + 1 at hr
    show _ ↔ (if r = s.m then (if j ∈ l1 then some (v1.get j) else if j ∈ l2 then some (v2.get j) else none) else s.f r j) = some x
    by_cases e : r = s.m
    · rw [if_pos e, e, h5, List.mem_append, List.mem_map, List.mem_map]
      rw [List.pairwise_append] at o1
      constructor
      · rintro (⟨a, ha, e'⟩ | ⟨a, ha, e'⟩)
        · have e1 : a = j := congrArg Prod.fst e'
          have e2 : v1.get a = x := congrArg Prod.snd e'
          rw [← e1, if_pos ha, e2]
        · have e1 : a = j := congrArg Prod.fst e'
          have e2 : v2.get a = x := congrArg Prod.snd e'
          have hn : a ∉ l1 := fun h => lt_irrefl _ (o1.2.2 a h a ha)
          rw [← e1, if_neg hn, if_pos ha, e2]
      · intro hx
        by_cases hj : j ∈ l1
        · rw [if_pos hj] at hx
          exact Or.inl ⟨j, hj, by rw [Option.some.inj hx]⟩
        · rw [if_neg hj] at hx
          by_cases hj2 : j ∈ l2
          · rw [if_pos hj2] at hx
            exact Or.inr ⟨j, hj2, by rw [Option.some.inj hx]⟩
          · rw [if_neg hj2] at hx; simp at hx
    · rw [if_neg e, h4 r (by omega)]; exact h.line r (by omega) j x
  | interchange i k =>
    refine (interchange_runs hI ho.1 ho.2).mono ?_
    rintro A' ⟨h1, h2, h3, h4, h5, h6⟩
    refine ⟨h2.trans h.cols, ⟨_, h1⟩, fun r hr j v => ?_⟩
    rw [rep_swap h hI h1 h4 h5 h6 r hr j v, Equiv.swap_apply_def]
    exact Iff.rfl
  | defer src dst =>
    obtain ⟨o1, o2, o3, o4⟩ := ho
    have hs : src < s.n := by omega
    have hd : dst < s.n := o2
    have stored : ∀ n, n < A.ninds.size → s.f (A.ninds.get n) (A.colOf n) = some (A.valOf n) := fun n hn => by
      have hr := (hI.store.row n hn).1
      exact (h.line _ hr _ _).mp ((hI.store.mem_line hr _ _).mpr ⟨n, hn, rfl, rfl, rfl⟩)
    have hempty : L dst = [] := by
      by_contra hne
      obtain ⟨n, hn⟩ := List.exists_mem_of_ne_nil _ hne
      obtain ⟨n1, n2⟩ := (hI.lists.mem dst hd n).mp hn
      have := stored n n1
      rw [n2, o3 _ (hI.store.row n n1).1] at this
      simp at this
    refine (defer_runs hI hs hd (by omega) hempty ?_).mono ?_
    · intro a ha n hn he
      obtain ⟨a1, a2⟩ := (hI.lists.mem src hs a).mp ha
      refine o4 (A.ninds.get n) (hI.store.row n hn).1 ?_ _ (by rw [stored n hn]; simp)
      have := stored a a1
      rw [a2, ← he] at this
      rw [this]; simp
    · rintro A' ⟨h1, h2, h3, h4, h5, h6⟩
      refine ⟨h2.trans h.cols, ⟨_, h1⟩, fun r hr j v => ?_⟩
      rw [rep_swap h hI h1 h4 h5 h6 r hr j v]
      show _ ↔ (if j = dst then s.f r src else if j = src then none else s.f r j) = some v
      rw [Equiv.swap_apply_def]
      by_cases e1 : j = dst
      · rw [if_pos e1, if_neg (by omega), if_pos e1]
      · rw [if_neg e1]
        by_cases e2 : j = src
        · rw [if_pos e2, if_neg e1, if_pos e2, o3 r hr]
        · rw [if_neg e2, if_neg e1, if_neg e2]

theorem history [Inhabited K] : ∀ (l : List (AugOp K)) (s : AugMat K) (A : Aug K), Rep A s → AugLegal l s → Runs (augRun l s A) fun A' => Rep A' (augEff l s)
  | [], s, A, h, _ => by rw [augRun, runs_pure]; exact h
  | o :: l, s, A, h, hl => by
    rw [augRun, runs_bind]
    exact (step h o hl.1).mono fun A' h' => history l _ A' h' hl.2

end C19

/-- **C19, histories.**  Start with an empty matrix of `n` columns (whatever the object contained before) and execute any permitted history of assembly,
`build_aug`, interchanges and deferrals: no step fails, reads or writes out of bounds or loops for ever, and at the end (hence, a prefix of a permitted history
being one, after every step) the rows are sorted and contain exactly the entries of the matrix the history stands for, the column lists enumerate exactly the
entries of the columns in ascending row order, and the column counters are right. -/
theorem C19_history_shows [Inhabited K] (A : Aug K) (l : List (AugOp K))
    (hl : AugLegal l { n := A.cs.ssize, m := 0, f := fun _ _ => none }) :
    ∃ A', augRun (.start :: l) { n := A.cs.ssize, m := 0, f := fun _ _ => none } A = .ok A' ∧ AugShows A' (augEff l { n := A.cs.ssize, m := 0, f := fun _ _ => none }) := by
  have h0 : C19.Rep (A.begin) ({ n := A.cs.ssize, m := 0, f := fun _ _ => none } : AugMat K) := ⟨rfl, begin_inv A, fun r hr => absurd hr (Nat.not_lt_zero _)⟩
  obtain ⟨A', e, h⟩ := C19.history l _ _ h0 hl
  exact ⟨A', e, h.shows⟩

/-- **C19, `build_aug` and interchanges.**  From a compressed matrix with sorted lines: after `build_aug` and any sequence of column interchanges, row `r` has value
`v` in column `j` exactly if the input had it in the column obtained by undoing the interchanges, and the column lists enumerate exactly the entries. -/
theorem C19_build_interchanges [Inhabited K] (A : Aug K) (B : CS K) (hw : B.WF) (ht : B.Tight) (hs : B.Sorted) (w : List (Nat × Nat))
    (hij : ∀ x ∈ w, x.1 < B.ssize ∧ x.2 < B.ssize) :
    ∃ A', augRun (.start :: .build B :: w.map fun x => .interchange x.1 x.2) { n := A.cs.ssize, m := 0, f := fun _ _ => none } A = .ok A' ∧
      AugShows A' { n := B.ssize, m := B.psize, f := fun r j => storedIn B r ((w.map fun x => Equiv.swap x.1 x.2).prod j) } := by
  have key : ∀ (w : List (Nat × Nat)) (s : AugMat K), (∀ x ∈ w, x.1 < s.n ∧ x.2 < s.n) → AugLegal (w.map fun x => (.interchange x.1 x.2 : AugOp K)) s ∧
      augEff (w.map fun x => (.interchange x.1 x.2 : AugOp K)) s = { s with f := fun r j => s.f r ((w.map fun x => Equiv.swap x.1 x.2).prod j) } := by
    intro w
    induction w with
    | nil => intro s _; exact ⟨trivial, rfl⟩
    | cons x w ih =>
      intro s hx
      obtain ⟨i1, i2⟩ := ih ((AugOp.interchange x.1 x.2 : AugOp K).eff s) (fun y hy => hx y (List.mem_cons_of_mem _ hy))
      refine ⟨⟨hx x List.mem_cons_self, i1⟩, ?_⟩
      show augEff (w.map fun x => (.interchange x.1 x.2 : AugOp K)) ((AugOp.interchange x.1 x.2 : AugOp K).eff s) = _
      rw [i2]
      simp only [List.map_cons, List.prod_cons, Equiv.Perm.mul_apply, AugOp.eff, Equiv.swap_apply_def]
  obtain ⟨k1, k2⟩ := key w ((AugOp.build B : AugOp K).eff { n := A.cs.ssize, m := 0, f := fun _ _ => none }) hij
  obtain ⟨A', e, h⟩ := C19_history_shows A (.build B :: w.map fun x => .interchange x.1 x.2) ⟨⟨hw, ht, hs⟩, k1⟩
  refine ⟨A', e, ?_⟩
  have e2 : augEff (.build B :: w.map fun x => (.interchange x.1 x.2 : AugOp K)) { n := A.cs.ssize, m := 0, f := fun _ _ => none } =
      { n := B.ssize, m := B.psize, f := fun r j => storedIn B r ((w.map fun x => Equiv.swap x.1 x.2).prod j) } := k2
  rw [e2] at h
  exact h

/-- **C19**: an interchange done twice gives back a matrix with the same observations. -/
theorem C19_interchange_involutive [Inhabited K] (A : Aug K) (l : List (AugOp K)) (i k : Nat)
    (hl : AugLegal l { n := A.cs.ssize, m := 0, f := fun _ _ => none })
    (hik : i < (augEff l { n := A.cs.ssize, m := 0, f := fun _ _ => none }).n ∧ k < (augEff l { n := A.cs.ssize, m := 0, f := fun _ _ => none }).n) :
    ∃ A1 A2, augRun (.start :: l) { n := A.cs.ssize, m := 0, f := fun _ _ => none } A = .ok A1 ∧ (A1.interchange i k).bind (·.interchange i k) = .ok A2 ∧
      AugShows A2 (augEff l { n := A.cs.ssize, m := 0, f := fun _ _ => none }) := by
  have h0 : C19.Rep (A.begin) ({ n := A.cs.ssize, m := 0, f := fun _ _ => none } : AugMat K) := ⟨rfl, begin_inv A, fun r hr => absurd hr (Nat.not_lt_zero _)⟩
  obtain ⟨A1, e1, h1⟩ := C19.history l _ _ h0 hl
  obtain ⟨A', e', h'⟩ := C19.step h1 (.interchange i k) hik
  obtain ⟨A2, e2, h2⟩ := C19.step h' (.interchange i k) hik
  refine ⟨A1, A2, e1, ?_, ?_⟩
  · have e' : A1.interchange i k = .ok A' := e'
    rw [e']; exact e2
  · have := h2.shows
    have e : (AugOp.interchange i k : AugOp K).eff ((AugOp.interchange i k : AugOp K).eff (augEff l { n := A.cs.ssize, m := 0, f := fun _ _ => none })) =
        augEff l { n := A.cs.ssize, m := 0, f := fun _ _ => none } := by
      simp only [AugOp.eff]
      congr 1
      funext r j
      congr 1
      split
      · split
        · omega
        · rw [if_pos rfl]; omega
      · split
        · rw [if_pos rfl]; omega
        · rfl
    rw [e] at this
    exact this

/-! ### Non-vacuity -/

namespace ExAug

/-- An empty matrix with 6 columns. -/
def A0 : Aug ℚ := { cs := CS.mk 0 6 (Buf.mk' 1 0) (Buf.mk' 0 0) (Buf.mk' 0 0), ninds := Buf.mk' 0 0, nstart := Buf.mk' 0 none, nnext := Buf.mk' 0 none,
                    nend := Buf.mk' 0 none, vpos := Buf.mk' 0 0, vinv := Buf.mk' 0 0, counts := Buf.mk' 0 0 }

def s0 : AugMat ℚ := { n := 6, m := 0, f := fun _ _ => none }
def v1 : Buf ℚ := Buf.ofList [1, 2, 3, 4, 5, 6]
def v2 : Buf ℚ := Buf.ofList [10, 20, 30, 40, 50, 60]

/-- Rows `{0,1,2}`, `{1,3}`, `{0,3}`; columns 0 and 3 exchanged, column 1 deferred to position 4, another row, columns 2 and 4 exchanged. -/
def ops : List (AugOp ℚ) := [.push [0, 1, 2] v1, .push2 [1] v1 [3] v2, .push [0, 3] v2, .interchange 0 3, .defer 1 4, .push [0, 2, 5] v1, .interchange 2 4]

theorem legal : AugLegal ops s0 := by
  refine ⟨⟨by decide, by decide⟩, ⟨by decide, by decide, by decide⟩, ⟨by decide, by decide⟩, ⟨by decide, by decide⟩, ⟨by decide, by decide, ?_, ?_⟩, ⟨by decide, by decide⟩,
    ⟨by decide, by decide⟩, trivial⟩
  · intro r hr
    have : r = 0 ∨ r = 1 ∨ r = 2 := by
      have : r < 3 := hr
      omega
    rcases this with rfl | rfl | rfl <;> decide +kernel
  · intro r hr h j
    have : r = 0 ∨ r = 1 ∨ r = 2 := by
      have : r < 3 := hr
      omega
    by_cases hj : j < 4
    · exact fun _ => hj
    · intro hne
      exfalso
      apply hne
      rcases this with rfl | rfl | rfl <;>
        simp only [AugOp.eff, s0, List.mem_cons, List.not_mem_nil, or_false] <;> repeat' split
      all_goals first | rfl | omega

end ExAug

/-- Non-vacuity of the history theorem: a permitted history and its outcome (column 2 and the deferred column 4 exchanged last). -/
example : AugLegal ExAug.ops { n := ExAug.A0.cs.ssize, m := 0, f := fun _ _ => none } ∧
    (augRun (.start :: ExAug.ops) ExAug.s0 ExAug.A0).map (fun A => (List.range 4).map A.cs.line) = .ok
      [[(2, 2), (3, 1), (4, 3)], [(0, 40), (2, 2)], [(0, 40), (3, 10)], [(0, 1), (4, 3), (5, 6)]] ∧
    (augRun (.start :: ExAug.ops) ExAug.s0 ExAug.A0).bind (fun A => (List.range 6).mapM A.walk) = .ok
      [[(1, 40), (2, 40), (3, 1)], [], [(0, 2), (1, 2)], [(0, 1), (2, 10)], [(0, 3), (3, 3)], [(3, 6)]] ∧
    (augRun (.start :: ExAug.ops) ExAug.s0 ExAug.A0).map (fun A => A.counts.toList) = .ok [3, 0, 2, 2, 2, 1] := by
  refine ⟨ExAug.legal, ?_, ?_, ?_⟩ <;> decide +kernel

/-- Non-vacuity of the `build_aug` theorem, on the matrix of `Props/Pre.lean`. -/
example : ExPre.A4r.WF ∧ ExPre.A4r.Tight ∧ ExPre.A4r.Sorted ∧
    (augRun (.start :: .build ExPre.A4r :: [(0, 2), (1, 3)].map fun x => .interchange x.1 x.2) ExAug.s0 ExAug.A0).map
      (fun A => ((List.range 4).map A.cs.line, (List.range 4).map A.walk)) = .ok
      ([[(3, 1)], [(0, 2), (3, 5)], [(0, 7), (3, 2)], [(1, 4), (2, 3)]],
       [.ok [(1, 2), (2, 7)], .ok [(3, 4)], .ok [(3, 3)], .ok [(0, 1), (1, 5), (2, 2)]]) := by
  refine ⟨ExPre.A4r_wf, ⟨by decide, by decide, by decide⟩, ExPre.A4r_sorted, ?_⟩
  decide +kernel

/-- Witness that the conditions on `defer_col` are needed: a column deferred to a position that is not behind all entries of its rows leaves an unsorted row. -/
theorem C19_defer_unsorted_witness :
    (augRun [.start, .push [0, 3] ExAug.v1, .defer 0 2] ExAug.s0 ExAug.A0).map (fun A => A.cs.line 0) = .ok [(3, 4), (2, 1)] := by
  decide +kernel

/-- Witness: a column deferred to one that is not empty gives a row with two entries of the same column, and loses the exchange in the list of the other. -/
theorem C19_defer_nonempty_witness :
    (augRun [.start, .push [0, 3] ExAug.v1, .defer 0 3] ExAug.s0 ExAug.A0).map (fun A => (A.cs.line 0, A.walk 0, A.walk 3)) =
      .ok ([(3, 4), (3, 1)], .ok [(0, 4)], .ok [(0, 1)]) := by
  decide +kernel

end Props
end Hif
