import Verif.AmdTree

set_option linter.unusedVariables false

/-! # The traversal of the assembly tree (amd.hpp 257–288, 333–347) -/

namespace Hif
namespace Amd

theorem countSib_runs {n : Nat} {sib : Arr} (hs : sib.size = n) : ∀ (k : Nat) (l : List Int) (h : Int), l.length ≤ k → Chain sib.get l (-1) →
    (∀ x ∈ l, 0 ≤ x ∧ x < n) → Runs (countSib sib k (hd l (-1)) h) fun r => r = h + l.length := by
  intro k
  induction k with
  | zero =>
    intro l h hk hc hr
    obtain rfl : l = [] := List.length_eq_zero_iff.1 (by omega)
    simp [countSib]
  | succ k ih =>
    intro l h hk hc hr
    cases l with
    | nil => simp [countSib]
    | cons x l =>
      have hx := hr x (by simp)
      unfold countSib
      rw [if_neg (show ¬ hd (x :: l) (-1) = -1 by show ¬ x = -1; omega), runs_bind, runs_rdZ]
      simp only [hd_cons]
      refine ⟨⟨hx.1, by omega⟩, ?_⟩
      rw [hc.1]
      refine Runs.mono (ih l (h + 1) (by simpa using hk) hc.2 fun y hy => hr y (by simp [hy])) fun r e => ?_
      rw [e]; simp; ring

/-- The stack holds the list, the first on top. -/
def Stk (st : Int → Int) : List Int → Prop
  | [] => True
  | x :: l => st l.length = x ∧ Stk st l

theorem Stk.congr {f g : Int → Int} : ∀ {l : List Int}, Stk f l → (∀ k : Int, 0 ≤ k → k < l.length → g k = f k) → Stk g l
  | [], _, _ => trivial
  | x :: l, h, e => ⟨(e _ (by omega) (by simp)).trans h.1, Stk.congr h.2 fun k h1 h2 => e k h1 (by simp; omega)⟩

theorem pushSib_runs {n : Nat} {sib : Arr} (hs : sib.size = n) : ∀ (k : Nat) (l S : List Int) (st : Arr), l.length ≤ k → Chain sib.get l (-1) →
    (∀ x ∈ l, 0 ≤ x ∧ x < n) → st.size = n → l.length + S.length ≤ n → Stk st.get S →
    Runs (pushSib sib k (hd l (-1)) (l.length + S.length - 1) st) fun st' => st'.size = n ∧ Stk st'.get (l ++ S) ∧
      ∀ q : Int, l.length + S.length ≤ q → st'.get q = st.get q := by
  intro k
  induction k with
  | zero =>
    intro l S st hk hc hr hz hn hS
    obtain rfl : l = [] := List.length_eq_zero_iff.1 (by omega)
    simpa [pushSib] using ⟨hz, hS⟩
  | succ k ih =>
    intro l S st hk hc hr hz hn hS
    cases l with
    | nil => simpa [pushSib] using ⟨hz, hS⟩
    | cons x l =>
      have hx := hr x (by simp)
      simp only [List.length_cons] at hk hn
      unfold pushSib
      rw [if_neg (show ¬ hd (x :: l) (-1) = -1 by show ¬ x = -1; omega)]
      simp only [hd_cons, List.length_cons]
      simp only [runs_bind, runs_rdZ, runs_wrZ]
      refine ⟨⟨by push_cast; omega, by push_cast; omega⟩, ⟨hx.1, by omega⟩, ?_⟩
      rw [hc.1]
      have hS' : Stk (st.set (((l.length + 1 : Nat) : Int) + S.length - 1) x).get S := hS.congr fun q h1 h2 => Arr.set_ne _ _ (by push_cast; omega)
      have := ih l S _ (by omega) hc.2 (fun y hy => hr y (by simp [hy])) (show (st.set _ x).size = n from hz) (by omega) hS'
      rw [show (((l.length + 1 : Nat) : Int) + S.length - 1 - 1) = (l.length : Int) + S.length - 1 by push_cast; ring]
      refine Runs.mono this fun st' hst => ⟨hst.1, ⟨?_, hst.2.1⟩, fun q hq => ?_⟩
      · show st'.get ((l ++ S).length : Nat) = x
        rw [List.length_append, hst.2.2 _ (by push_cast; omega), Arr.set_get, if_pos (by push_cast; ring)]
      · push_cast at hq
        rw [hst.2.2 q (by omega), Arr.set_ne _ _ (by push_cast; omega)]

/-- State of the traversal: `S` is the stack. -/
structure PTI (n : Nat) (par nv : Int → Int) (ch : Int → List Int) (S : List Int) (s : PT) : Prop where
  csz : s.child.size = n
  osz : s.order.size = n
  ssz : s.stack.size = n
  head : s.head = S.length - 1
  stk : Stk s.stack.get S
  nd : S.Nodup
  rng : ∀ x ∈ S, (0 ≤ x ∧ x < n) ∧ 0 < nv x
  open' : ∀ x : Int, 0 ≤ x → x < n → 0 < nv x → par x ≠ -1 → (s.child.get (par x) = -1 ↔ x ∈ S ∨ s.order.get x ≠ -1)
  notord : ∀ x ∈ S, s.order.get x = -1
  kid : ∀ x : Int, 0 ≤ x → x < n → s.child.get x = -1 ∨ s.child.get x = hd (ch x) (-1)
  done : ∀ x : Int, 0 ≤ x → x < n → s.order.get x ≠ -1 → s.child.get x = -1 ∧ 0 < nv x ∧ 0 ≤ s.order.get x ∧ s.order.get x < s.k
  inj : ∀ x : Int, 0 ≤ x → x < n → ∀ y : Int, 0 ≤ y → y < n → s.order.get x ≠ -1 → s.order.get x = s.order.get y → x = y
  all : ∀ t : Int, 0 ≤ t → t < s.k → ∃ x : Int, (0 ≤ x ∧ x < n) ∧ s.order.get x = t
  kpos : 0 ≤ s.k
  post : ∀ x : Int, 0 ≤ x → x < n → 0 < nv x → par x ≠ -1 → s.order.get (par x) ≠ -1 → s.order.get x ≠ -1 ∧ s.order.get x < s.order.get (par x)
  up : ∀ x ∈ S, par x ≠ -1 → par x ∈ S
  low : S.Pairwise fun x y => par y ≠ x

/-- Number of passes left. -/
def PT.left (n : Nat) (s : PT) : Nat := ((nodes n).filter fun x => s.child.get x ≠ -1).card + ((nodes n).filter fun x => s.order.get x = -1).card

section
variable {n : Nat} {par : Int → Int} {nv : Int → Int} {rk : Int → Nat} {ch : Int → List Int} {sib : Arr}

theorem ptBody_runs (hF : Forest n par nv rk) (hs : sib.size = n)
    (hln : ∀ i : Int, 0 ≤ i → i < n → Chain sib.get (ch i) (-1)) (hnd : ∀ i : Int, 0 ≤ i → i < n → (ch i).Nodup)
    (hmem : ∀ i : Int, 0 ≤ i → i < n → ∀ x, x ∈ ch i ↔ (0 ≤ x ∧ x < n) ∧ 0 < nv x ∧ par x = i)
    {i : Int} {S : List Int} {s : PT} (I : PTI n par nv ch (i :: S) s) :
    Runs (ptBody n sib s) fun s' => ∃ S', PTI n par nv ch S' s' ∧ s'.left n < s.left n ∧
      (∀ x, par x = -1 → (x ∈ S' ∨ s'.order.get x ≠ -1) → x ∈ i :: S ∨ s.order.get x ≠ -1) ∧
      ∀ x, (x ∈ i :: S ∨ s.order.get x ≠ -1) → x ∈ S' ∨ s'.order.get x ≠ -1 := by
  obtain ⟨hi, hvi⟩ := I.rng i (by simp)
  have hnod := List.nodup_cons.1 I.nd
  have hlow := List.pairwise_cons.1 I.low
  have hoi := I.notord i (by simp)
  have hhead : s.head = S.length := by rw [I.head]; simp
  have hSn : (i :: S).length ≤ n := length_le_of_nodup I.nd fun x hx => (I.rng x hx).1
  simp only [List.length_cons] at hSn
  have htop : s.stack.get s.head = i := by rw [hhead]; exact I.stk.1
  unfold ptBody
  simp only [runs_bind, runs_rdZ, htop]
  refine ⟨⟨by omega, by rw [I.ssz]; omega⟩, ⟨hi.1, by rw [I.csz]; exact hi.2⟩, ?_⟩
  by_cases hc : s.child.get i ≠ -1
  · rw [if_pos hc, runs_bind]
    have hci : s.child.get i = hd (ch i) (-1) := (I.kid i hi.1 hi.2).resolve_left hc
    have hm := hmem i hi.1 hi.2
    have hnew : ∀ x ∈ ch i, x ∉ i :: S ∧ s.order.get x = -1 := fun x hx => by
      obtain ⟨h1, h2, h3⟩ := (hm x).1 hx
      have := (I.open' x h1.1 h1.2 h2 (by omega)).not
      rw [h3] at this
      have := this.1 hc
      exact ⟨fun h => this (Or.inl h), by by_contra h; exact this (Or.inr h)⟩
    have hdisj : (ch i ++ i :: S).Nodup := List.nodup_append.2 ⟨hnd i hi.1 hi.2, I.nd, fun x hx y hy e => (hnew x hx).1 (e ▸ hy)⟩
    have hrng : ∀ x ∈ ch i ++ i :: S, (0 ≤ x ∧ x < n) ∧ 0 < nv x := fun x hx => by
      rcases List.mem_append.1 hx with h | h
      · exact ⟨((hm x).1 h).1, ((hm x).1 h).2.1⟩
      · exact I.rng x h
    have hlen := length_le_of_nodup hdisj fun x hx => (hrng x hx).1
    rw [List.length_append] at hlen
    have hkn : (ch i).length ≤ n := by omega
    rw [hci]
    refine Runs.mono (countSib_runs hs n (ch i) s.head hkn (hln i hi.1 hi.2) fun x hx => ((hm x).1 hx).1) fun h' eh => ?_
    rw [runs_bind]
    have e2 : h' = ((ch i).length : Int) + ((i :: S).length : Nat) - 1 := by rw [eh, hhead]; simp; ring
    rw [e2]
    refine Runs.mono (pushSib_runs hs n (ch i) (i :: S) s.stack hkn (hln i hi.1 hi.2) (fun x hx => ((hm x).1 hx).1) I.ssz hlen I.stk) fun st' hst => ?_
    simp only [runs_bind, runs_wrZ, runs_pure]
    refine ⟨⟨hi.1, by rw [I.csz]; exact hi.2⟩, ch i ++ i :: S, ?_, ?_, ?_, fun x hx => hx.imp_left fun h => List.mem_append_right _ h⟩
    · refine ⟨I.csz, I.osz, hst.1, ?_, hst.2.1, hdisj, hrng, fun x h1 h2 h3 h4 => ?_, fun x hx => ?_, fun x h1 h2 => ?_, fun x h1 h2 h3 => ?_, I.inj, I.all,
        I.kpos, I.post, fun x hx hpx => ?_, ?_⟩
      · simp only [List.length_append]; push_cast; ring
      · simp only [Arr.set_get]
        by_cases hpi : par x = i
        · rw [if_pos hpi]
          exact ⟨fun _ => Or.inl (List.mem_append_left _ ((hm x).2 ⟨⟨h1, h2⟩, h3, hpi⟩)), fun _ => rfl⟩
        · rw [if_neg hpi, I.open' x h1 h2 h3 h4, List.mem_append]
          constructor
          · rintro (h | h)
            · exact Or.inl (Or.inr h)
            · exact Or.inr h
          · rintro ((h | h) | h)
            · exact absurd ((hm x).1 h).2.2 hpi
            · exact Or.inl h
            · exact Or.inr h
      · rcases List.mem_append.1 hx with h | h
        · exact (hnew x h).2
        · exact I.notord x h
      · simp only [Arr.set_get]
        by_cases hxi : x = i
        · rw [if_pos hxi]; exact Or.inl rfl
        · rw [if_neg hxi]; exact I.kid x h1 h2
      · have := I.done x h1 h2 h3
        refine ⟨?_, this.2⟩
        simp only [Arr.set_get]
        split
        · rfl
        · exact this.1
      · rcases List.mem_append.1 hx with h | h
        · rw [((hm x).1 h).2.2]; simp
        · exact List.mem_append_right _ (I.up x h hpx)
      · refine List.pairwise_append.2 ⟨?_, I.low, fun x hx y hy e => ?_⟩
        · refine List.pairwise_iff_forall_sublist.2 fun {x y} hxy e => ?_
          have hx : x ∈ ch i := hxy.subset (by simp)
          have hy : y ∈ ch i := hxy.subset (by simp)
          rw [((hm y).1 hy).2.2] at e
          exact (hnew x hx).1 (by rw [← e]; simp)
        · refine (hnew x hx).1 ?_
          have hx1 := ((hm x).1 hx).1.1
          rw [← e]; exact I.up y hy (by rw [e]; omega)
    · unfold PT.left
      simp only
      have : (nodes n).filter (fun x => (s.child.set i (-1)).get x ≠ -1) ⊂ (nodes n).filter fun x => s.child.get x ≠ -1 := by
        refine Finset.ssubset_iff_subset_ne.2 ⟨fun x hx => ?_, fun e => ?_⟩
        · rw [Finset.mem_filter] at hx ⊢
          refine ⟨hx.1, ?_⟩
          have h2 := hx.2
          rw [Arr.set_get] at h2
          split at h2
          · exact absurd rfl h2
          · exact h2
        · have : i ∈ (nodes n).filter fun x => s.child.get x ≠ -1 := Finset.mem_filter.2 ⟨mem_nodes.2 hi, hc⟩
          rw [← e, Finset.mem_filter, Arr.set_same] at this
          exact this.2 rfl
      have := Finset.card_lt_card this
      omega
    · rintro x hpx (h | h)
      · rcases List.mem_append.1 h with h | h
        · have := ((hm x).1 h).2.2
          omega
        · exact Or.inl h
      · exact Or.inr h
  · rw [if_neg hc]
    have hc' : s.child.get i = -1 := not_not.1 hc
    simp only [runs_bind, runs_wrZ, runs_pure]
    have hk := I.kpos
    have ho : ∀ x, (s.order.set i s.k).get x = if x = i then s.k else s.order.get x := fun x => rfl
    have hordk : ∀ x : Int, 0 ≤ x → x < n → s.order.get x ≠ s.k := fun x h1 h2 e => by
      have := I.done x h1 h2 (by omega); omega
    have hkids : ∀ x : Int, 0 ≤ x → x < n → 0 < nv x → par x = i → s.order.get x ≠ -1 := fun x h1 h2 h3 h4 => by
      have := (I.open' x h1 h2 h3 (by omega)).1 (by rw [h4]; exact hc')
      rcases this with h | h
      · rcases List.mem_cons.1 h with h | h
        · have := (hF.up x h1 h2 h3 (by omega)).2.2
          rw [h4, h] at this; omega
        · exact absurd h4 (hlow.1 x h)
      · exact h
    refine ⟨⟨hi.1, by rw [I.osz]; exact hi.2⟩, S, ?_, ?_, ?_, ?_⟩
    · refine ⟨I.csz, I.osz, I.ssz, by simp only [hhead], I.stk.2, hnod.2, fun x hx => I.rng x (by simp [hx]), fun x h1 h2 h3 h4 => ?_, fun x hx => ?_, I.kid,
        fun x h1 h2 h3 => ?_, fun x h1 h2 y h3 h4 h5 h6 => ?_, fun t h1 h2 => ?_, by simp only; omega, fun x h1 h2 h3 h4 h5 => ?_, fun x hx hpx => ?_, hlow.2⟩
      · rw [I.open' x h1 h2 h3 h4]
        simp only [ho]
        by_cases hxi : x = i
        · rw [if_pos hxi]; simp [hxi]; omega
        · rw [if_neg hxi]; simp [hxi]
      · simp only [ho]
        have hxi : x ≠ i := by rintro rfl; exact hnod.1 hx
        rw [if_neg hxi]; exact I.notord x (by simp [hx])
      · simp only [ho] at h3 ⊢
        by_cases hxi : x = i
        · rw [if_pos hxi, hxi]; exact ⟨hc', hvi, hk, by omega⟩
        · rw [if_neg hxi] at h3 ⊢
          have := I.done x h1 h2 h3
          exact ⟨this.1, this.2.1, this.2.2.1, by omega⟩
      · simp only [ho] at h5 h6
        by_cases hxi : x = i
        · by_cases hyi : y = i
          · rw [hxi, hyi]
          · rw [if_pos hxi, if_neg hyi] at h6
            exact absurd h6.symm (hordk y h3 h4)
        · rw [if_neg hxi] at h5
          by_cases hyi : y = i
          · rw [if_neg hxi, if_pos hyi] at h6
            exact absurd h6 (hordk x h1 h2)
          · rw [if_neg hxi, if_neg hyi] at h6
            exact I.inj x h1 h2 y h3 h4 h5 h6
      · simp only [ho] at h2 ⊢
        by_cases ht : t = s.k
        · exact ⟨i, hi, by rw [if_pos rfl, ht]⟩
        · obtain ⟨x, h3, h4⟩ := I.all t h1 (by omega)
          refine ⟨x, h3, ?_⟩
          rw [if_neg, h4]
          rintro rfl
          omega
      · simp only [ho] at h5 ⊢
        by_cases hpi : par x = i
        · have hox := hkids x h1 h2 h3 hpi
          have hxi : x ≠ i := by rintro rfl; exact hox hoi
          rw [if_neg hxi, if_pos hpi]
          exact ⟨hox, (I.done x h1 h2 hox).2.2.2⟩
        · rw [if_neg hpi] at h5 ⊢
          have := I.post x h1 h2 h3 h4 h5
          have hxi : x ≠ i := by rintro rfl; exact this.1 hoi
          rw [if_neg hxi]; exact this
      · have := I.up x (by simp [hx]) hpx
        rcases List.mem_cons.1 this with h | h
        · exact absurd h (hlow.1 x hx)
        · exact h
    · unfold PT.left
      simp only
      have : (nodes n).filter (fun x => (s.order.set i s.k).get x = -1) ⊂ (nodes n).filter fun x => s.order.get x = -1 := by
        refine Finset.ssubset_iff_subset_ne.2 ⟨fun x hx => ?_, fun e => ?_⟩
        · rw [Finset.mem_filter] at hx ⊢
          refine ⟨hx.1, ?_⟩
          have h2 := hx.2
          rw [Arr.set_get] at h2
          split at h2
          · omega
          · exact h2
        · have : i ∈ (nodes n).filter fun x => s.order.get x = -1 := Finset.mem_filter.2 ⟨mem_nodes.2 hi, hoi⟩
          rw [← e, Finset.mem_filter, Arr.set_same] at this
          omega
      have := Finset.card_lt_card this
      omega
    · rintro x hpx (h | h)
      · exact Or.inl (by simp [h])
      · simp only [ho] at h
        by_cases hxi : x = i
        · exact Or.inl (by simp [hxi])
        · rw [if_neg hxi] at h; exact Or.inr h
    · rintro x h
      simp only [ho]
      by_cases hxi : x = i
      · right; rw [if_pos hxi]; omega
      · rw [if_neg hxi]
        rcases h with h | h
        · exact Or.inl (by simpa [hxi] using h)
        · exact Or.inr h

theorem ptLoop_runs (hF : Forest n par nv rk) (hs : sib.size = n)
    (hln : ∀ i : Int, 0 ≤ i → i < n → Chain sib.get (ch i) (-1)) (hnd : ∀ i : Int, 0 ≤ i → i < n → (ch i).Nodup)
    (hmem : ∀ i : Int, 0 ≤ i → i < n → ∀ x, x ∈ ch i ↔ (0 ≤ x ∧ x < n) ∧ 0 < nv x ∧ par x = i) :
    ∀ (f : Nat) (S : List Int) (s : PT), PTI n par nv ch S s → s.left n ≤ f →
    Runs (ptLoop n sib f s) fun s' => PTI n par nv ch [] s' ∧
      (∀ x, par x = -1 → s'.order.get x ≠ -1 → x ∈ S ∨ s.order.get x ≠ -1) ∧ ∀ x, (x ∈ S ∨ s.order.get x ≠ -1) → s'.order.get x ≠ -1 := by
  intro f
  induction f with
  | zero =>
    intro S s I hf
    cases S with
    | nil =>
      unfold ptLoop
      rw [if_pos (by rw [I.head]; simp), runs_pure]
      exact ⟨I, fun x _ h => Or.inr h, fun x h => by simpa using h⟩
    | cons i S =>
      exfalso
      have : i ∈ (nodes n).filter fun x => s.order.get x = -1 := Finset.mem_filter.2 ⟨mem_nodes.2 (I.rng i (by simp)).1, I.notord i (by simp)⟩
      have := Finset.card_pos.2 ⟨i, this⟩
      unfold PT.left at hf
      omega
  | succ f ih =>
    intro S s I hf
    unfold ptLoop
    cases S with
    | nil =>
      rw [if_pos (by rw [I.head]; simp), runs_pure]
      exact ⟨I, fun x _ h => Or.inr h, fun x h => by simpa using h⟩
    | cons i S =>
      rw [if_neg (by rw [I.head]; simp), runs_bind]
      refine Runs.mono (ptBody_runs hF hs hln hnd hmem I) fun s' ⟨S', I', h1, h2, h3⟩ => ?_
      refine Runs.mono (ih S' s' I' (by omega)) fun s'' ⟨I'', h4, h5⟩ => ⟨I'', fun x hx h => h2 x hx (h4 x hx h), fun x h => h5 x (h3 x h)⟩

end

/-- What the postordering delivers: the nodes with `0 < nv` get the numbers `0 .. k - 1`, children before their parents. -/
structure PostOK (n : Nat) (par nv : Int → Int) (o : Arr) (k : Int) : Prop where
  size : o.size = n
  out : ∀ x : Int, 0 ≤ x → x < n → nv x ≤ 0 → o.get x = -1
  rng : ∀ x : Int, 0 ≤ x → x < n → 0 < nv x → 0 ≤ o.get x ∧ o.get x < k
  inj : ∀ x : Int, 0 ≤ x → x < n → ∀ y : Int, 0 ≤ y → y < n → 0 < nv x → o.get x = o.get y → x = y
  all : ∀ t : Int, 0 ≤ t → t < k → ∃ x : Int, (0 ≤ x ∧ x < n) ∧ 0 < nv x ∧ o.get x = t
  up : ∀ x : Int, 0 ≤ x → x < n → 0 < nv x → par x ≠ -1 → o.get x < o.get (par x)
  kpos : 0 ≤ k

theorem postorder_runs {n : Nat} {parent nv fsize order child sib stack : Arr} {rk : Int → Nat} (hF : Forest n parent.get nv.get rk) (hp : parent.size = n)
    (hv : nv.size = n) (hf : fsize.size = n) (ho : order.size = n) (hc : child.size = n) (hs : sib.size = n) (hst : stack.size = n)
    (hfs : ∀ x : Int, 0 ≤ x → x < n → 0 < nv.get x → -1 ≤ fsize.get x) :
    Runs (postorder n parent nv fsize order child sib stack) fun o => ∃ k, PostOK n parent.get nv.get o k := by
  unfold postorder
  rw [runs_bind]
  refine Runs.mono (buildLists_runs hF hp hv hc hs) fun r hK => ?_
  rw [runs_bind]
  refine forZ_runs (fun _ (r : Arr × Arr) => ∃ ch, Kids n (fun x i => (0 ≤ x ∧ x < n) ∧ 0 < nv.get x ∧ parent.get x = i) ch r.1 r.2) (by omega) hK ?_ ?_
  · rintro k r h1 h2 ⟨ch, K⟩
    exact bigLast_runs K hv hf (fun x j h => ⟨h.1, h.2.1⟩) (fun x j j' h h' => h.2.2.symm.trans h'.2.2) hfs h1 h2
  rintro ⟨child, sib⟩ ⟨ch, K⟩
  rw [runs_bind]
  refine forZ_runs (fun k (o : Arr) => o.size = n ∧ ∀ x : Int, 0 ≤ x → x < k → o.get x = -1) (by omega) ⟨ho, fun x h1 h2 => by omega⟩ ?_ ?_
  · rintro k o h1 h2 ⟨g1, g2⟩
    simp only [runs_wrZ]
    refine ⟨⟨h1, by omega⟩, g1, fun x h3 h4 => ?_⟩
    rw [Arr.set_get]
    split
    · rfl
    · exact g2 x h3 (by omega)
  rintro o ⟨go, gn⟩
  have hln := K.ln
  have hnd := K.nd
  have hmem := K.mem
  rw [runs_bind]
  refine forZ_runs (fun i (s : PT) => PTI n parent.get nv.get ch [] { s with head := -1 } ∧
    ∀ x : Int, 0 ≤ x → x < n → 0 < nv.get x → parent.get x = -1 → (s.order.get x ≠ -1 ↔ x < i)) (by omega) ?_ ?_ ?_
  · refine ⟨⟨K.csz, go, hst, by simp, trivial, List.nodup_nil, by simp, fun x h1 h2 h3 h4 => ?_, by simp, fun x h1 h2 => Or.inr (K.hd x h1 h2), fun x h1 h2 h3 => absurd (gn x h1 h2) h3,
      fun x h1 h2 y h3 h4 h5 => absurd (gn x h1 h2) h5, fun t h1 h2 => absurd h2 (by simp only; omega), le_refl _, fun x h1 h2 h3 h4 h5 => ?_, by simp, List.Pairwise.nil⟩, fun x h1 h2 h3 h4 => ?_⟩
    · obtain ⟨h5, h6, -⟩ := hF.up x h1 h2 h3 h4
      simp only [gn x h1 h2]
      rw [K.hd _ h5.1 h5.2]
      have : x ∈ ch (parent.get x) := (K.mem _ h5.1 h5.2 x).2 ⟨⟨h1, h2⟩, h3, rfl⟩
      have hne : ch (parent.get x) ≠ [] := List.ne_nil_of_mem this
      rw [hd_eq_neg fun y hy => ((K.mem _ h5.1 h5.2 y).1 hy).1.1]
      simp [hne]
    · have := (hF.up x h1 h2 h3 h4).1
      exact absurd (gn _ this.1 this.2) h5
    · simp only [gn x h1 h2]; simp; omega
  · rintro i s h1 h2 ⟨I, hR⟩
    simp only [runs_bind, runs_rdZ]
    refine ⟨⟨h1, by omega⟩, ⟨h1, by omega⟩, ?_⟩
    by_cases hroot : parent.get i = -1 ∧ 0 < nv.get i
    · rw [if_pos hroot]
      unfold postTree
      simp only [runs_bind, runs_wrZ]
      refine ⟨⟨le_refl _, by rw [I.ssz]; omega⟩, ?_⟩
      have hoi : s.order.get i = -1 := by
        by_contra h
        have := (hR i h1 h2 hroot.2 hroot.1).1 h
        omega
      have I' : PTI n parent.get nv.get ch [i] { s with head := 0, stack := s.stack.set 0 i } := by
        refine ⟨I.csz, I.osz, I.ssz, by simp, ⟨by simp, trivial⟩, by simp, fun x hx => ?_, fun x h3 h4 h5 h6 => ?_, fun x hx => ?_, I.kid, I.done, I.inj, I.all, I.kpos, I.post,
          fun x hx hpx => ?_, List.pairwise_singleton _ _⟩
        · obtain rfl := List.mem_singleton.1 hx; exact ⟨⟨h1, h2⟩, hroot.2⟩
        · rw [I.open' x h3 h4 h5 h6]
          have hxi : x ≠ i := by rintro rfl; exact h6 hroot.1
          simp [hxi]
        · obtain rfl := List.mem_singleton.1 hx; exact hoi
        · obtain rfl := List.mem_singleton.1 hx; exact absurd hroot.1 hpx
      refine Runs.mono (ptLoop_runs hF K.ssz hln hnd hmem (2 * n) [i] _ I' ?_) fun s' ⟨J, g1, g2⟩ => ⟨?_, fun x h3 h4 h5 h6 => ?_⟩
      · unfold PT.left
        have e1 := Finset.card_filter_le (nodes n) fun x => s.child.get x ≠ -1
        have e2 := Finset.card_filter_le (nodes n) fun x => s.order.get x = -1
        rw [card_nodes] at e1 e2
        simp only
        omega
      · have e : s'.head = -1 := by rw [J.head]; simp
        rw [show ({ s' with head := -1 } : PT) = s' by rw [← e]]; exact J
      · have hr := hR x h3 h4 h5 h6
        constructor
        · intro h
          rcases g1 x h6 h with h | h
          · have := List.mem_singleton.1 h; omega
          · have := hr.1 h; omega
        · intro h
          refine g2 x ?_
          by_cases hxi : x = i
          · left; simp [hxi]
          · right; exact hr.2 (by omega)
    · rw [if_neg hroot, runs_pure]
      refine ⟨I, fun x h3 h4 h5 h6 => (hR x h3 h4 h5 h6).trans ⟨fun h => by omega, fun h => ?_⟩⟩
      have : x ≠ i := by rintro rfl; exact hroot ⟨h6, h5⟩
      omega
  · rintro s ⟨I, hR⟩
    rw [runs_pure]
    have hall : ∀ (d : Nat) (x : Int), 0 ≤ x → x < n → 0 < nv.get x → ((nodes n).filter fun y => rk x < rk y).card ≤ d → s.order.get x ≠ -1 := by
      intro d
      induction d with
      | zero =>
        intro x h1 h2 h3 hd
        by_cases hpx : parent.get x = -1
        · exact (hR x h1 h2 h3 hpx).2 h2
        · obtain ⟨h4, h5, h6⟩ := hF.up x h1 h2 h3 hpx
          have : parent.get x ∈ (nodes n).filter fun y => rk x < rk y := Finset.mem_filter.2 ⟨mem_nodes.2 h4, h6⟩
          have := Finset.card_pos.2 ⟨_, this⟩
          omega
      | succ d ih =>
        intro x h1 h2 h3 hd
        by_cases hpx : parent.get x = -1
        · exact (hR x h1 h2 h3 hpx).2 h2
        · obtain ⟨h4, h5, h6⟩ := hF.up x h1 h2 h3 hpx
          have hlt : (nodes n).filter (fun y => rk (parent.get x) < rk y) ⊂ (nodes n).filter fun y => rk x < rk y := by
            refine Finset.ssubset_iff_subset_ne.2 ⟨fun y hy => ?_, fun e => ?_⟩
            · rw [Finset.mem_filter] at hy ⊢; exact ⟨hy.1, by omega⟩
            · have : parent.get x ∈ (nodes n).filter fun y => rk x < rk y := Finset.mem_filter.2 ⟨mem_nodes.2 h4, h6⟩
              rw [← e, Finset.mem_filter] at this
              omega
          have := Finset.card_lt_card hlt
          have hop := ih (parent.get x) h4.1 h4.2 h5 (by omega)
          have := (I.open' x h1 h2 h3 hpx).1 (I.done _ h4.1 h4.2 hop).1
          simpa using this
    have hord : ∀ x : Int, 0 ≤ x → x < n → 0 < nv.get x → s.order.get x ≠ -1 := fun x h1 h2 h3 => hall _ x h1 h2 h3 (le_refl _)
    refine ⟨s.k, I.osz, fun x h1 h2 h3 => ?_, fun x h1 h2 h3 => (I.done x h1 h2 (hord x h1 h2 h3)).2.2, fun x h1 h2 y h3 h4 h5 h6 => I.inj x h1 h2 y h3 h4 (hord x h1 h2 h5) h6,
      fun t h1 h2 => ?_, fun x h1 h2 h3 h4 => ?_, I.kpos⟩
    · by_contra h
      have := (I.done x h1 h2 h).2.1
      omega
    · obtain ⟨x, h3, h4⟩ := I.all t h1 h2
      exact ⟨x, h3, (I.done x h3.1 h3.2 (by omega)).2.1, h4⟩
    · obtain ⟨h5, h6, -⟩ := hF.up x h1 h2 h3 h4
      exact (I.post x h1 h2 h3 h4 (hord _ h5.1 h5.2 h6)).2

end Amd
end Hif
