import Verif.Amd
import Mathlib.Data.List.Nodup
import Mathlib.Data.Finset.Card
import Mathlib.Algebra.BigOperators.Group.Finset.Basic
import Mathlib.Algebra.Order.BigOperators.Group.Finset
import Mathlib.Algebra.Order.Ring.Int
import Mathlib.Tactic.Ring
import Mathlib.Algebra.Ring.CharZero
import Mathlib.Tactic.Linarith

set_option linter.unusedVariables false

/-! # Tools for the proofs about the approximate minimum degree ordering -/

namespace Hif
namespace Amd

theorem runs_rdZ {a : Arr} {i : Int} {Q : Int → Prop} : Runs (a.rd i) Q ↔ (0 ≤ i ∧ i < a.size) ∧ Q (a.get i) := by
  unfold Arr.rd
  by_cases h : 0 ≤ i ∧ i < a.size
  · rw [if_pos h]; simp [h]
  · rw [if_neg h]; simp [h]

theorem runs_wrZ {a : Arr} {i v : Int} {Q : Arr → Prop} : Runs (a.wr i v) Q ↔ (0 ≤ i ∧ i < a.size) ∧ Q (a.set i v) := by
  unfold Arr.wr
  by_cases h : 0 ≤ i ∧ i < a.size
  · rw [if_pos h]; simp [h]
  · rw [if_neg h]; simp [h]

@[simp] theorem Arr.set_size (a : Arr) (i v : Int) : (a.set i v).size = a.size := rfl

theorem Arr.set_get (a : Arr) (i v k : Int) : (a.set i v).get k = if k = i then v else a.get k := rfl

@[simp] theorem Arr.set_same (a : Arr) (i v : Int) : (a.set i v).get i = v := by simp [Arr.set_get]

theorem Arr.set_ne (a : Arr) {i k : Int} (v : Int) (h : k ≠ i) : (a.set i v).get k = a.get k := by simp [Arr.set_get, h]

theorem forZ_runs {σ : Type _} {lo hi : Int} {s : σ} {f : Int → σ → M σ} {Q : σ → Prop} (I : Int → σ → Prop) (hle : lo ≤ hi) (h0 : I lo s)
    (hstep : ∀ k s, lo ≤ k → k < hi → I k s → Runs (f k s) (I (k + 1))) (hQ : ∀ s, I hi s → Q s) : Runs (forZ lo hi s f) Q := by
  unfold forZ
  refine Runs.mono (loop_runs _ (fun k s => I (lo + k) s) (hi - lo).toNat 0 s (by simpa using h0) fun k s h1 h2 hI => ?_) fun s hs => hQ s ?_
  · refine Runs.mono (hstep (lo + k) s (by omega) (by omega) hI) fun t ht => ?_
    rw [show lo + ((k + 1 : Nat) : Int) = lo + k + 1 by push_cast; ring]
    exact ht
  · rw [show lo + ((0 + (hi - lo).toNat : Nat) : Int) = hi by omega] at hs
    exact hs

/-- A loop with no pass. -/
theorem forZ_empty {σ : Type _} {lo hi : Int} {s : σ} {f : Int → σ → M σ} (h : hi ≤ lo) : forZ lo hi s f = pure s := by
  unfold forZ
  rw [show (hi - lo).toNat = 0 by omega]
  rfl

/-- First entry of a list of nodes, `e` for the empty list. -/
def hd : List Int → Int → Int
  | [], e => e
  | x :: _, _ => x

@[simp] theorem hd_nil (e : Int) : hd [] e = e := rfl
@[simp] theorem hd_cons (x e : Int) (l : List Int) : hd (x :: l) e = x := rfl

theorem hd_append (a b : List Int) (e : Int) : hd (a ++ b) e = hd a (hd b e) := by cases a <;> rfl

theorem hd_eq_neg {l : List Int} (h : ∀ x ∈ l, 0 ≤ x) : hd l (-1) = -1 ↔ l = [] := by
  cases l with
  | nil => simp
  | cons x l => have := h x (by simp); simp; omega

theorem hd_mem {l : List Int} (e : Int) (h : l ≠ []) : hd l e ∈ l := by
  cases l with
  | nil => exact absurd rfl h
  | cons x l => simp

/-- Last entry of a list, `e` for the empty list. -/
def lst : List Int → Int → Int
  | [], e => e
  | x :: l, _ => lst l x

@[simp] theorem lst_nil (e : Int) : lst [] e = e := rfl
@[simp] theorem lst_cons (x e : Int) (l : List Int) : lst (x :: l) e = lst l x := rfl

theorem lst_append (a b : List Int) (e : Int) : lst (a ++ b) e = lst b (lst a e) := by
  induction a generalizing e with
  | nil => rfl
  | cons x a ih => exact ih x

@[simp] theorem lst_concat (a : List Int) (x e : Int) : lst (a ++ [x]) e = x := by rw [lst_append]; rfl

theorem lst_mem {l : List Int} {e : Int} (h : l ≠ []) : lst l e ∈ l := by
  induction l generalizing e with
  | nil => exact absurd rfl h
  | cons x l ih =>
    cases l with
    | nil => simp
    | cons y l => exact List.mem_cons_of_mem _ (ih (e := x) (by simp))

/-- The nodes of the list follow each other in `nxt`, the last is followed by `e`. -/
def Chain (nxt : Int → Int) : List Int → Int → Prop
  | [], _ => True
  | x :: l, e => nxt x = hd l e ∧ Chain nxt l e

/-- `prv` holds the predecessors, `p` before the first. -/
def Back (prv : Int → Int) : Int → List Int → Prop
  | _, [] => True
  | p, x :: l => prv x = p ∧ Back prv x l

theorem Chain.congr {f g : Int → Int} {e : Int} : ∀ {l : List Int}, Chain f l e → (∀ x ∈ l, g x = f x) → Chain g l e
  | [], _, _ => trivial
  | x :: l, h, k => ⟨(k x (by simp)).trans h.1, Chain.congr h.2 fun y hy => k y (by simp [hy])⟩

theorem Back.congr {f g : Int → Int} : ∀ {l : List Int} {p : Int}, Back f p l → (∀ x ∈ l, g x = f x) → Back g p l
  | [], _, _, _ => trivial
  | x :: l, _, h, e => ⟨(e x (by simp)).trans h.1, Back.congr h.2 fun y hy => e y (by simp [hy])⟩

theorem chain_append {f : Int → Int} {b : List Int} {e : Int} : ∀ {a : List Int}, Chain f (a ++ b) e ↔ Chain f a (hd b e) ∧ Chain f b e
  | [] => by simp [Chain]
  | x :: a => by
    rw [List.cons_append]
    show (_ ∧ Chain f (a ++ b) e) ↔ ((_ ∧ _) ∧ _)
    rw [chain_append, hd_append, and_assoc]

theorem back_append {f : Int → Int} {b : List Int} : ∀ {a : List Int} {p : Int}, Back f p (a ++ b) ↔ Back f p a ∧ Back f (lst a p) b
  | [], p => by simp [Back]
  | x :: a, p => by
    rw [List.cons_append]
    show (_ ∧ Back f x (a ++ b)) ↔ ((_ ∧ _) ∧ _)
    rw [back_append, and_assoc]; rfl

/-- Another successor for the last node. -/
theorem Chain.setLast {a : Arr} {e v p : Int} {l : List Int} (hl : l ≠ []) (h : Chain a.get l e) (hn : l.Nodup) :
    Chain (a.set (lst l p) v).get l v := by
  induction l generalizing p with
  | nil => exact absurd rfl hl
  | cons x l ih =>
    cases l with
    | nil => exact ⟨by simp, trivial⟩
    | cons y l =>
      have hx : x ∉ y :: l := (List.nodup_cons.1 hn).1
      refine ⟨?_, ih (p := x) (by simp) h.2 (List.nodup_cons.1 hn).2⟩
      rw [Arr.set_ne]
      · exact h.1
      · intro hh
        have hm : lst (y :: l) x ∈ y :: l := lst_mem (by simp)
        exact hx (by rw [hh]; exact hm)

/-- Another predecessor for the first node. -/
theorem Back.setFirst {a : Arr} {p q e : Int} {l : List Int} (h : Back a.get p l) (hn : l.Nodup) :
    Back (a.set (hd l e) q).get q l := by
  cases l with
  | nil => trivial
  | cons x l =>
    refine ⟨by simp, h.2.congr fun y hy => Arr.set_ne _ _ ?_⟩
    rintro rfl
    exact (List.nodup_cons.1 hn).1 hy

/-- Nodes of the graph. -/
def nodes (n : Nat) : Finset Int := (Finset.range n).map Nat.castEmbedding

@[simp] theorem mem_nodes {n : Nat} {x : Int} : x ∈ nodes n ↔ 0 ≤ x ∧ x < n := by
  unfold nodes
  simp only [Finset.mem_map, Finset.mem_range, Nat.castEmbedding_apply]
  constructor
  · rintro ⟨k, hk, rfl⟩; omega
  · intro h; exact ⟨x.toNat, by omega, by omega⟩

@[simp] theorem card_nodes (n : Nat) : (nodes n).card = n := by unfold nodes; simp

/-- A list of different nodes is no longer than the number of nodes. -/
theorem length_le_of_nodup {n : Nat} {l : List Int} (hn : l.Nodup) (h : ∀ x ∈ l, 0 ≤ x ∧ x < n) : l.length ≤ n := by
  have : l.toFinset ⊆ nodes n := fun x hx => by rw [mem_nodes]; exact h x (List.mem_toFinset.1 hx)
  have := Finset.card_le_card this
  rwa [List.toFinset_card_of_nodup hn, card_nodes] at this

end Amd
end Hif
