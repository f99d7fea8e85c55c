import Verif.AugLemmas

set_option linter.unusedVariables false

/-! # Augmented storage: the lists -/

namespace Hif
namespace Aug
variable {K : Type _}

/-- The nodes reached from `s`. -/
def Chain (next : Nat → Option Nat) : Option Nat → List Nat → Prop
  | none, [] => True
  | some a, b :: l => a = b ∧ Chain next (next a) l
  | none, _ :: _ => False
  | some _, [] => False

theorem Chain.congr {f g : Nat → Option Nat} : ∀ {l : List Nat} {s : Option Nat}, (∀ x ∈ l, f x = g x) → Chain f s l → Chain g s l
  | [], none, _, h => h
  | [], some _, _, h => h.elim
  | _ :: _, none, _, h => h.elim
  | b :: l, some a, hf, h => by
    obtain ⟨rfl, h2⟩ := h
    refine ⟨rfl, ?_⟩
    rw [← hf a (List.mem_cons_self)]
    exact Chain.congr (fun x hx => hf x (List.mem_cons_of_mem _ hx)) h2

/-- Appending a node. -/
theorem Chain.snoc {f g : Nat → Option Nat} {i : Nat} (hi : g i = none) : ∀ {l : List Nat} {s : Option Nat}, l.Nodup →
    (∀ x ∈ l, some x ≠ l.getLast? → g x = f x) → (∀ e, l.getLast? = some e → g e = some i) → Chain f s l →
    Chain g (if s = none then some i else s) (l ++ [i])
  | [], none, _, _, _, _ => by rw [if_pos rfl]; exact ⟨rfl, by rw [hi]; trivial⟩
  | [], some _, _, _, _, h => h.elim
  | _ :: _, none, _, _, _, h => h.elim
  | b :: l, some a, hd, hf, he, h => by
    obtain ⟨rfl, h2⟩ := h
    rw [if_neg (by simp)]
    refine ⟨rfl, ?_⟩
    rw [List.nodup_cons] at hd
    rcases l with _ | ⟨c, l⟩
    · rw [he a rfl]
      exact ⟨rfl, by rw [hi]; trivial⟩
    · have hl : (a :: c :: l).getLast? = (c :: l).getLast? := List.getLast?_cons_cons
      have hga : g a = f a := hf a List.mem_cons_self fun e => hd.1 (by
        rw [hl] at e
        exact List.mem_of_getLast? e.symm)
      rw [hga]
      have := Chain.snoc hi hd.2 (fun x hx hne => hf x (List.mem_cons_of_mem _ hx) (by rw [hl]; exact hne)) (fun e h => he e (by rw [hl]; exact h)) h2
      rcases hfa : f a with _ | y
      · rw [hfa] at h2; exact h2.elim
      · rw [hfa, if_neg (by simp)] at this; exact this

/-- The secondary lists `L` of the columns in `V`.  (In `AugCRS` itself `V` is every column; the pivoting factorization leaves the heads of passed columns
behind.) -/
structure Lists (V : Nat → Prop) (A : Aug K) (L : Nat → List Nat) : Prop where
  vl : ∀ j, V j → j < A.cs.ssize
  ss : A.nstart.size = A.cs.ssize
  se : A.nend.size = A.cs.ssize
  sc : A.counts.size = A.cs.ssize
  chain : ∀ j, V j → Chain A.nnext.get (A.nstart.get j) (L j)
  mem : ∀ j, V j → ∀ n, n ∈ L j ↔ n < A.ninds.size ∧ A.colOf n = j
  asc : ∀ j, V j → (L j).Pairwise fun a b => A.ninds.get a < A.ninds.get b
  last : ∀ j, V j → A.nend.get j = (L j).getLast?
  cnt : ∀ j, V j → A.counts.get j = (L j).length

/-- Invariant of a complete structure with `m` lines. -/
structure Inv (V : Nat → Prop) (m : Nat) (A : Aug K) (L : Nat → List Nat) : Prop where
  store : Store m A
  lists : Lists V A L

theorem asc_nodup {A : Aug K} {l : List Nat} (h : l.Pairwise fun a b => A.ninds.get a < A.ninds.get b) : l.Nodup :=
  h.imp fun h e => by rw [e] at h; exact lt_irrefl _ h

/-! ## Exchange -/

/-- State of the loop of `interchange` after the nodes `da`, `db`. -/
structure Inter (m i k : Nat) (A0 A : Aug K) (da db : List Nat) : Prop where
  store : Store m A
  same : Same A0 A
  col : ∀ n, n < A0.ninds.size → A.colOf n = if n ∈ da then k else if n ∈ db then i else A0.colOf n
  val : ∀ n, n < A0.ninds.size → A.valOf n = A0.valOf n

/-- Result of the loop. -/
structure Exch (m i k : Nat) (A0 A : Aug K) : Prop where
  store : Store m A
  same : Same A0 A
  col : ∀ n, n < A0.ninds.size → A.colOf n = Equiv.swap i k (A0.colOf n)
  val : ∀ n, n < A0.ninds.size → A.valOf n = A0.valOf n

section
variable {V : Nat → Prop} {m i k : Nat} {A0 : Aug K} {L : Nat → List Nat}

/-- One entry of list `i` moves to list `k`, whose current node is farther. -/
theorem inter_left (h0 : Inv V m A0 L) (hi : V i) (hk : V k) (hik : i ≠ k) {A : Aug K} {da ra db rb : List Nat} {a : Nat}
    (hI : Inter m i k A0 A da db) (hla : L i = da ++ a :: ra) (hlb : L k = db ++ rb) (hrb : ∀ y ∈ rb, A0.ninds.get a < A0.ninds.get y) :
    Runs (moveTo A (A.ninds.get a) (A.vpos.get a) k) fun A' => Inter m i k A0 A' (da ++ [a]) db := by
  have ha := (h0.lists.mem i hi a).mp (by rw [hla]; simp)
  have hn : A.ninds = A0.ninds := hI.same.ninds
  have hasc := h0.lists.asc i hi
  rw [hla, List.pairwise_append] at hasc
  have hdb : ∀ n, n ∈ db → A0.colOf n = k := fun n hn => ((h0.lists.mem k hk n).mp (by rw [hlb]; simp [hn])).2
  refine (moveTo_runs hI.store (by rw [hn]; exact ha.1) rfl (by rw [hI.same.ssize]; exact h0.lists.vl _ hk) ?_).mono fun A' hM => ?_
  · intro n hn1 hn2 he
    rw [hn] at hn1 hn2
    rw [hI.col n hn1] at he
    by_cases h1 : n ∈ da
    · have := hasc.2.2 n h1 a List.mem_cons_self
      omega
    · rw [if_neg h1] at he
      by_cases h2 : n ∈ db
      · rw [if_pos h2] at he; exact hik he
      · rw [if_neg h2] at he
        have : n ∈ L k := (h0.lists.mem k hk n).mpr ⟨hn1, he⟩
        rw [hlb, List.mem_append] at this
        have := hrb n (this.resolve_left h2)
        omega
  · refine ⟨hM.store, hI.same.trans hM.same, fun n hn1 => ?_, fun n hn1 => ?_⟩
    · rw [hM.col n (by rw [hn]; exact hn1), hI.col n hn1]
      by_cases e : n = a
      · rw [if_pos e, if_pos (by simp [e])]
      · rw [if_neg e]
        simp only [List.mem_append, List.mem_singleton, e, or_false]
    · rw [hM.val n (by rw [hn]; exact hn1), hI.val n hn1]

/-- One entry of list `k` moves to list `i`. -/
theorem inter_right (h0 : Inv V m A0 L) (hi : V i) (hk : V k) (hik : i ≠ k) {A : Aug K} {da ra db rb : List Nat} {b : Nat}
    (hI : Inter m i k A0 A da db) (hla : L i = da ++ ra) (hlb : L k = db ++ b :: rb) (hra : ∀ y ∈ ra, A0.ninds.get b < A0.ninds.get y) :
    Runs (moveTo A (A.ninds.get b) (A.vpos.get b) i) fun A' => Inter m i k A0 A' da (db ++ [b]) := by
  have hb := (h0.lists.mem k hk b).mp (by rw [hlb]; simp)
  have hn : A.ninds = A0.ninds := hI.same.ninds
  have hasc := h0.lists.asc k hk
  rw [hlb, List.pairwise_append] at hasc
  have hda : ∀ n, n ∈ da → A0.colOf n = i := fun n hn => ((h0.lists.mem i hi n).mp (by rw [hla]; simp [hn])).2
  refine (moveTo_runs hI.store (by rw [hn]; exact hb.1) rfl (by rw [hI.same.ssize]; exact h0.lists.vl _ hi) ?_).mono fun A' hM => ?_
  · intro n hn1 hn2 he
    rw [hn] at hn1 hn2
    rw [hI.col n hn1] at he
    by_cases h1 : n ∈ da
    · rw [if_pos h1] at he; exact hik he.symm
    · rw [if_neg h1] at he
      by_cases h2 : n ∈ db
      · have := hasc.2.2 n h2 b List.mem_cons_self
        omega
      · rw [if_neg h2] at he
        have : n ∈ L i := (h0.lists.mem i hi n).mpr ⟨hn1, he⟩
        rw [hla, List.mem_append] at this
        have := hra n (this.resolve_left h1)
        omega
  · refine ⟨hM.store, hI.same.trans hM.same, fun n hn1 => ?_, fun n hn1 => ?_⟩
    · rw [hM.col n (by rw [hn]; exact hn1), hI.col n hn1]
      by_cases e : n = b
      · have : b ∉ da := fun h => hik (by rw [← hda b h, hb.2])
        rw [if_pos e, e, if_neg this, if_pos (by simp)]
      · rw [if_neg e]
        simp only [List.mem_append, List.mem_singleton, e, or_false]
    · rw [hM.val n (by rw [hn]; exact hn1), hI.val n hn1]

/-- Both lists have an entry in the line. -/
theorem inter_both (h0 : Inv V m A0 L) (hi : V i) (hk : V k) (hik : i ≠ k) {A : Aug K} {da ra db rb : List Nat} {a b : Nat}
    (hI : Inter m i k A0 A da db) (hla : L i = da ++ a :: ra) (hlb : L k = db ++ b :: rb) (hab : A0.ninds.get a = A0.ninds.get b) :
    Runs (swapBoth A (A.vpos.get a) (A.vpos.get b)) fun A' => Inter m i k A0 A' (da ++ [a]) (db ++ [b]) := by
  have ha := (h0.lists.mem i hi a).mp (by rw [hla]; simp)
  have hb := (h0.lists.mem k hk b).mp (by rw [hlb]; simp)
  have hn : A.ninds = A0.ninds := hI.same.ninds
  have hda : ∀ n, n ∈ da → A0.colOf n = i := fun n hn => ((h0.lists.mem i hi n).mp (by rw [hla]; simp [hn])).2
  have hdb : ∀ n, n ∈ db → A0.colOf n = k := fun n hn => ((h0.lists.mem k hk n).mp (by rw [hlb]; simp [hn])).2
  have nd := asc_nodup (h0.lists.asc i hi)
  have nd' := asc_nodup (h0.lists.asc k hk)
  rw [hla, List.nodup_append] at nd
  rw [hlb, List.nodup_append] at nd'
  have a1 : a ∉ da := fun h => nd.2.2 a h a List.mem_cons_self rfl
  have b1 : b ∉ db := fun h => nd'.2.2 b h b List.mem_cons_self rfl
  have a2 : a ∉ db := fun h => hik (by rw [← ha.2, hdb a h])
  have b2 : b ∉ da := fun h => hik (by rw [← hda b h, hb.2])
  have ca : A.colOf a = i := by rw [hI.col a ha.1, if_neg a1, if_neg a2, ha.2]
  have cb : A.colOf b = k := by rw [hI.col b hb.1, if_neg b2, if_neg b1, hb.2]
  have hne : a ≠ b := fun e => hik (by rw [← ha.2, e, hb.2])
  refine (swapBoth_runs hI.store (by rw [hn]; exact ha.1) (by rw [hn]; exact hb.1) (by rw [hn]; exact hab)).mono fun A' hM => ?_
  refine ⟨hM.store, hI.same.trans hM.same, fun n hn1 => ?_, fun n hn1 => ?_⟩
  · rw [hM.col n (by rw [hn]; exact hn1), ca, cb, hI.col n hn1]
    by_cases e : n = a
    · rw [if_pos e, if_pos (by simp [e])]
    · by_cases e' : n = b
      · rw [if_neg e, if_pos e', e', if_neg (by simp [b2, hne.symm]), if_pos (by simp)]
      · rw [if_neg e, if_neg e']
        simp only [List.mem_append, List.mem_singleton, e, e', or_false]
  · rw [hM.val n (by rw [hn]; exact hn1), hI.val n hn1]

theorem chain_some {f : Nat → Option Nat} {a : Nat} {l : List Nat} (h : Chain f (some a) l) : ∃ l', l = a :: l' ∧ Chain f (f a) l' := by
  cases l with
  | nil => exact h.elim
  | cons b l => obtain ⟨rfl, h2⟩ := h; exact ⟨l, rfl, h2⟩

theorem chain_none {f : Nat → Option Nat} {l : List Nat} (h : Chain f none l) : l = [] := by
  cases l with
  | nil => rfl
  | cons b l => exact h.elim

/-- The loop. -/
theorem interLoop_runs (h0 : Inv V m A0 L) (hi : V i) (hk : V k) (hik : i ≠ k) : ∀ (fuel : Nat) (a b : Option Nat) (A : Aug K)
    (da ra db rb : List Nat), Inter m i k A0 A da db → L i = da ++ ra → L k = db ++ rb → Chain A0.nnext.get a ra → Chain A0.nnext.get b rb →
    ra.length + rb.length < fuel → Runs (interLoop i k fuel a b A) fun A' => Exch m i k A0 A' := by
  intro fuel
  induction fuel with
  | zero => intro _ _ _ _ _ _ _ _ _ _ _ _ hf; omega
  | succ fuel ih =>
    intro a b A da ra db rb hI hla hlb hca hcb hf
    have hn : A.ninds = A0.ninds := hI.same.ninds
    have hnx : A.nnext = A0.nnext := hI.same.nnext
    have hlt : ∀ x ∈ L i, x < A0.ninds.size := fun x hx => ((h0.lists.mem i hi x).mp hx).1
    have hlt' : ∀ x ∈ L k, x < A0.ninds.size := fun x hx => ((h0.lists.mem k hk x).mp hx).1
    have asci := h0.lists.asc i hi
    have asck := h0.lists.asc k hk
    have szp : A.vpos.size = A0.ninds.size := by rw [hI.store.szp, hn]
    have szn : A0.nnext.size = A0.ninds.size := h0.store.szn
    cases a with
    | none =>
      obtain rfl := chain_none hca
      cases b with
      | none =>
        obtain rfl := chain_none hcb
        rw [interLoop, runs_pure]
        refine ⟨hI.store, hI.same, fun n hn1 => ?_, hI.val⟩
        rw [List.append_nil] at hla hlb
        rw [hI.col n hn1]
        have e1 : n ∈ da ↔ A0.colOf n = i := by rw [← hla, h0.lists.mem i hi n]; simp [hn1]
        have e2 : n ∈ db ↔ A0.colOf n = k := by rw [← hlb, h0.lists.mem k hk n]; simp [hn1]
        rw [Equiv.swap_apply_def]
        simp only [e1, e2]
      | some b =>
        obtain ⟨rb, rfl, hcb'⟩ := chain_some hcb
        have hbl := hlt' b (by rw [hlb]; simp)
        rw [interLoop]
        simp only [runs_bind, runs_rd]
        refine ⟨by rw [hn]; exact hbl, by rw [szp]; exact hbl, ?_⟩
        refine (inter_right h0 hi hk hik hI hla hlb (by simp)).mono fun A' hI' => ?_
        have hnx' : A'.nnext = A0.nnext := hI'.same.nnext
        refine ⟨by rw [hnx', szn]; exact hbl, ?_⟩
        rw [hnx']
        exact ih none _ A' da [] (db ++ [b]) rb hI' hla (by simpa using hlb) hca hcb' (by simp only [List.length_cons] at hf; simp only [List.length_nil] at hf ⊢; omega)
    | some a =>
      obtain ⟨ra, rfl, hca'⟩ := chain_some hca
      have hal := hlt a (by rw [hla]; simp)
      cases b with
      | none =>
        obtain rfl := chain_none hcb
        rw [interLoop]
        simp only [runs_bind, runs_rd]
        refine ⟨by rw [hn]; exact hal, by rw [szp]; exact hal, ?_⟩
        refine (inter_left h0 hi hk hik hI hla hlb (by simp)).mono fun A' hI' => ?_
        have hnx' : A'.nnext = A0.nnext := hI'.same.nnext
        refine ⟨by rw [hnx', szn]; exact hal, ?_⟩
        rw [hnx']
        exact ih _ none A' (da ++ [a]) ra db [] hI' (by simpa using hla) hlb hca' hcb (by simp only [List.length_cons] at hf; simp only [List.length_nil] at hf ⊢; omega)
      | some b =>
        obtain ⟨rb, rfl, hcb'⟩ := chain_some hcb
        have hbl := hlt' b (by rw [hlb]; simp)
        rw [hla, List.pairwise_append, List.pairwise_cons] at asci
        rw [hlb, List.pairwise_append, List.pairwise_cons] at asck
        rw [interLoop]
        simp only [runs_bind, runs_rd]
        refine ⟨by rw [hn]; exact hal, by rw [hn]; exact hbl, by rw [szp]; exact hal, by rw [szp]; exact hbl, ?_⟩
        simp only [List.length_cons] at hf
        split
        · rename_i heq
          simp only [runs_bind]
          refine (inter_both h0 hi hk hik hI hla hlb (by rw [← hn]; exact heq)).mono fun A' hI' => ?_
          have hnx' : A'.nnext = A0.nnext := hI'.same.nnext
          simp only [runs_rd]
          refine ⟨by rw [hnx', szn]; exact hal, by rw [hnx', szn]; exact hbl, ?_⟩
          rw [hnx']
          exact ih _ _ A' (da ++ [a]) ra (db ++ [b]) rb hI' (by simpa using hla) (by simpa using hlb) hca' hcb' (by omega)
        · split
          · rename_i hlt1
            simp only [runs_bind]
            rw [hn] at hlt1
            refine (inter_left h0 hi hk hik hI hla hlb ?_).mono fun A' hI' => ?_
            · intro y hy
              rcases List.mem_cons.mp hy with rfl | hy
              · exact hlt1
              · exact hlt1.trans (asck.2.1.1 y hy)
            have hnx' : A'.nnext = A0.nnext := hI'.same.nnext
            simp only [runs_rd]
            refine ⟨by rw [hnx', szn]; exact hal, ?_⟩
            rw [hnx']
            exact ih _ _ A' (da ++ [a]) ra db (b :: rb) hI' (by simpa using hla) hlb hca' hcb (by simp only [List.length_cons]; omega)
          · rename_i hne hge
            simp only [runs_bind]
            rw [hn] at hne hge
            have hlt1 : A0.ninds.get b < A0.ninds.get a := by omega
            refine (inter_right h0 hi hk hik hI hla hlb ?_).mono fun A' hI' => ?_
            · intro y hy
              rcases List.mem_cons.mp hy with rfl | hy
              · exact hlt1
              · exact hlt1.trans (asci.2.1.1 y hy)
            have hnx' : A'.nnext = A0.nnext := hI'.same.nnext
            simp only [runs_rd]
            refine ⟨by rw [hnx', szn]; exact hbl, ?_⟩
            rw [hnx']
            exact ih _ _ A' da (a :: ra) (db ++ [b]) rb hI' hla (by simpa using hlb) hca hcb' (by simp only [List.length_cons]; omega)

theorem swap_V {j : Nat} (hi : V i) (hk : V k) (hj : V j) : V (Equiv.swap i k j) := by
  rw [Equiv.swap_apply_def]
  repeat' split
  all_goals assumption

/-- What `swapHeads` leaves alone. -/
structure Heads (A A' : Aug K) : Prop where
  cs : A'.cs = A.cs
  ninds : A'.ninds = A.ninds
  vpos : A'.vpos = A.vpos
  vinv : A'.vinv = A.vinv
  nnext : A'.nnext = A.nnext

/-- Exchange of the heads: the lists change places. -/
theorem swapHeads_runs (h0 : Inv V m A0 L) (hi : V i) (hk : V k) {A : Aug K} (hE : Exch m i k A0 A) :
    Runs (swapHeads A i k) fun A' => Heads A A' ∧ Inv V m A' fun j => L (Equiv.swap i k j) := by
  have hl := h0.lists
  unfold swapHeads
  simp only [runs_bind]
  refine (swapBuf_runs _ (by rw [hE.same.nstart, hl.ss]; exact hl.vl _ hi) (by rw [hE.same.nstart, hl.ss]; exact hl.vl _ hk)).mono ?_
  rintro s ⟨s1, s2⟩
  refine (swapBuf_runs _ (by rw [hE.same.nend, hl.se]; exact hl.vl _ hi) (by rw [hE.same.nend, hl.se]; exact hl.vl _ hk)).mono ?_
  rintro e ⟨e1, e2⟩
  refine (swapBuf_runs _ (by rw [hE.same.counts, hl.sc]; exact hl.vl _ hi) (by rw [hE.same.counts, hl.sc]; exact hl.vl _ hk)).mono ?_
  rintro c ⟨c1, c2⟩
  rw [runs_pure]
  have st := hE.store
  refine ⟨⟨rfl, rfl, rfl, rfl, rfl⟩, ⟨st.asm, st.szi, st.szp, st.szv, st.szn, st.pi, st.ip, st.row, st.sorted, st.lt⟩, ?_⟩
  refine ⟨fun j hj => ?_, ?_, ?_, ?_, fun j hj => ?_, fun j hj n => ?_, fun j hj => ?_, fun j hj => ?_, fun j hj => ?_⟩ <;> simp only at * <;> try rw [hE.same.ssize]
  · exact hl.vl _ hj
  · rw [s1, hE.same.nstart, hl.ss]
  · rw [e1, hE.same.nend, hl.se]
  · rw [c1, hE.same.counts, hl.sc]
  · rw [s2, hE.same.nstart, hE.same.nnext]; exact hl.chain _ (swap_V hi hk hj)
  · rw [hl.mem _ (swap_V hi hk hj), hE.same.ninds]
    refine and_congr_right fun hn => ?_
    have := hE.col n hn
    unfold colOf at this ⊢
    rw [this]
    constructor
    · intro h; rw [h, Equiv.swap_apply_self]
    · intro h; rw [← h, Equiv.swap_apply_self]
  · rw [hE.same.ninds]; exact hl.asc _ (swap_V hi hk hj)
  · rw [e2, hE.same.nend]; exact hl.last _ (swap_V hi hk hj)
  · rw [c2, hE.same.counts]; exact hl.cnt _ (swap_V hi hk hj)

/-- The number of nodes in a list. -/
theorem Inv.len_le (h0 : Inv V m A0 L) {j : Nat} (hj : V j) : (L j).length ≤ A0.ninds.size := by
  have nd := asc_nodup (h0.lists.asc j hj)
  have : L j ⊆ List.range A0.ninds.size := fun n hn => List.mem_range.mpr ((h0.lists.mem j hj n).mp hn).1
  simpa using (List.Nodup.subperm nd this).length_le

/-- What the operation does, in terms of nodes. -/
theorem interchange_runs (h0 : Inv V m A0 L) (hi : V i) (hk : V k) :
    Runs (interchange A0 i k) fun A' => (Inv V m A' fun j => L (Equiv.swap i k j)) ∧ A'.cs.ssize = A0.cs.ssize ∧ A'.cs.psize = A0.cs.psize ∧ A'.ninds = A0.ninds ∧
      (∀ n, n < A0.ninds.size → A'.colOf n = Equiv.swap i k (A0.colOf n)) ∧ ∀ n, n < A0.ninds.size → A'.valOf n = A0.valOf n := by
  unfold interchange
  split
  · rename_i e
    subst e
    rw [runs_pure]
    simp only [Equiv.swap_self, Equiv.refl_apply]
    exact ⟨h0, trivial, trivial, trivial, fun _ _ => trivial, fun _ _ => trivial⟩
  · rename_i hik
    have hl := h0.lists
    simp only [runs_bind, runs_rd]
    refine ⟨by rw [hl.ss]; exact hl.vl _ hi, by rw [hl.ss]; exact hl.vl _ hk, ?_⟩
    have := h0.len_le hi
    have := h0.len_le hk
    refine (interLoop_runs h0 hi hk hik _ _ _ A0 [] (L i) [] (L k) ⟨h0.store, Same.refl _, fun n _ => by simp, fun _ _ => rfl⟩ rfl rfl (hl.chain i hi) (hl.chain k hk)
      (by omega)).mono fun A hE => ?_
    refine (swapHeads_runs h0 hi hk hE).mono ?_
    rintro A' ⟨hH, hI⟩
    refine ⟨hI, by rw [hH.cs, hE.same.ssize], by rw [hH.cs, hE.same.psize], by rw [hH.ninds, hE.same.ninds], fun n hn => ?_, fun n hn => ?_⟩
    · unfold colOf; rw [hH.cs, hH.vpos]; exact hE.col n hn
    · unfold valOf; rw [hH.cs, hH.vpos]; exact hE.val n hn

/-! ## Deferring -/

theorem deferLoop_runs {src dst : Nat} (h0 : Inv V m A0 L) (hs : V src) (hd : V dst) (hsd : src ≠ dst)
    (hmax : ∀ a, a ∈ L src → ∀ n, n < A0.ninds.size → A0.ninds.get n = A0.ninds.get a → A0.colOf n < dst) : ∀ (fuel : Nat) (a : Option Nat) (A : Aug K)
    (da ra : List Nat), Inter m src dst A0 A da [] → L src = da ++ ra → Chain A0.nnext.get a ra →
    ra.length < fuel → Runs (deferLoop dst fuel a A) fun A' => Inter m src dst A0 A' (L src) [] := by
  intro fuel
  induction fuel with
  | zero => intro _ _ _ _ _ _ _ hf; omega
  | succ fuel ih =>
    intro a A da ra hI hla hca hf
    have hn : A.ninds = A0.ninds := hI.same.ninds
    have szp : A.vpos.size = A0.ninds.size := by rw [hI.store.szp, hn]
    have szn : A0.nnext.size = A0.ninds.size := h0.store.szn
    cases a with
    | none =>
      obtain rfl := chain_none hca
      rw [deferLoop, runs_pure]
      rw [List.append_nil] at hla
      rw [hla]; exact hI
    | some a =>
      obtain ⟨ra, rfl, hca'⟩ := chain_some hca
      have hal : a ∈ L src := by rw [hla]; simp
      have ha := (h0.lists.mem src hs a).mp hal
      obtain ⟨r1, r2, r3⟩ := hI.store.row a (by rw [hn]; exact ha.1)
      have hle := hI.store.line_le r1
      have hssz := hI.store.asm.ssz
      rw [deferLoop]
      simp only [runs_bind, runs_rd, runs_wr]
      refine ⟨by rw [hn]; exact ha.1, by rw [szp]; exact ha.1, by rw [hI.store.szi]; omega, by omega, ?_⟩
      refine (moveEnd_runs hI.store (by rw [hn]; exact ha.1) rfl (by rw [hI.same.ssize]; exact h0.lists.vl _ hd) ?_).mono fun A' hM => ?_
      · intro n hn1 hn2 hne
        rw [hn] at hn1 hn2
        have := hmax a hal n hn1 hn2
        rw [hI.col n hn1]
        by_cases h1 : n ∈ da
        · exfalso
          have hc : A0.colOf n = A0.colOf a := by
            rw [ha.2]; exact ((h0.lists.mem src hs n).mp (by rw [hla]; simp [h1])).2
          exact hne (h0.store.inj hn1 ha.1 hn2 hc)
        · rw [if_neg h1, if_neg (by simp)]; exact this
      have hI' : Inter m src dst A0 A' (da ++ [a]) [] := by
        refine ⟨hM.store, hI.same.trans hM.same, fun n hn1 => ?_, fun n hn1 => ?_⟩
        · rw [hM.col n (by rw [hn]; exact hn1), hI.col n hn1]
          by_cases e : n = a
          · rw [if_pos e, if_pos (by simp [e])]
          · rw [if_neg e]
            simp only [List.mem_append, List.mem_singleton, e, or_false]
        · rw [hM.val n (by rw [hn]; exact hn1), hI.val n hn1]
      have hnx' : A'.nnext = A0.nnext := hI'.same.nnext
      refine ⟨by rw [hnx', szn]; exact ha.1, ?_⟩
      rw [hnx']
      exact ih _ A' (da ++ [a]) ra hI' (by simpa using hla) hca' (by simp only [List.length_cons] at hf; omega)

/-- Deferring list `src` to the empty list `dst` behind all entries of the lines concerned. -/
theorem defer_runs {src dst : Nat} (h0 : Inv V m A0 L) (hs : V src) (hd : V dst) (hsd : src ≠ dst) (hempty : L dst = [])
    (hmax : ∀ a, a ∈ L src → ∀ n, n < A0.ninds.size → A0.ninds.get n = A0.ninds.get a → A0.colOf n < dst) :
    Runs (defer A0 src dst) fun A' => (Inv V m A' fun j => L (Equiv.swap src dst j)) ∧ A'.cs.ssize = A0.cs.ssize ∧ A'.cs.psize = A0.cs.psize ∧ A'.ninds = A0.ninds ∧
      (∀ n, n < A0.ninds.size → A'.colOf n = Equiv.swap src dst (A0.colOf n)) ∧ ∀ n, n < A0.ninds.size → A'.valOf n = A0.valOf n := by
  unfold defer
  have hl := h0.lists
  simp only [runs_bind, runs_rd]
  refine ⟨by rw [hl.ss]; exact hl.vl _ hs, ?_⟩
  have := h0.len_le hs
  refine (deferLoop_runs h0 hs hd hsd hmax _ _ A0 [] (L src) ⟨h0.store, Same.refl _, fun n _ => by simp, fun _ _ => rfl⟩ rfl (hl.chain src hs) (by omega)).mono fun A hI => ?_
  have hE : Exch m src dst A0 A := by
    refine ⟨hI.store, hI.same, fun n hn => ?_, hI.val⟩
    rw [hI.col n hn, if_neg (by simp : n ∉ ([] : List Nat))]
    have e1 : n ∈ L src ↔ A0.colOf n = src := by rw [h0.lists.mem src hs n]; simp [hn]
    have e2 : A0.colOf n ≠ dst := fun e => by
      have : n ∈ L dst := (h0.lists.mem dst hd n).mpr ⟨hn, e⟩
      rw [hempty] at this; simp at this
    rw [Equiv.swap_apply_def, if_neg e2]
    simp only [e1]
  refine (swapHeads_runs h0 hs hd hE).mono ?_
  rintro A' ⟨hH, hI⟩
  refine ⟨hI, by rw [hH.cs, hE.same.ssize], by rw [hH.cs, hE.same.psize], by rw [hH.ninds, hE.same.ninds], fun n hn => ?_, fun n hn => ?_⟩
  · unfold colOf; rw [hH.cs, hH.vpos]; exact hE.col n hn
  · unfold valOf; rw [hH.cs, hH.vpos]; exact hE.val n hn

end
end Aug
end Hif
