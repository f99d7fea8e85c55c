import Verif.AmdGc

set_option linter.unusedVariables false

/-! # Degree lists and buckets (amd.hpp 422–432, 451–460, 521–529, 622–631, 690–694) -/

namespace Hif
namespace Amd

theorem Chain.relink {f g : Int → Int} {e v p : Int} {l : List Int} (hl : l ≠ []) (h : Chain f l e) (hn : l.Nodup) (h1 : g (lst l p) = v)
    (h2 : ∀ x ∈ l, x ≠ lst l p → g x = f x) : Chain g l v := by
  induction l generalizing p with
  | nil => exact absurd rfl hl
  | cons x l ih =>
    cases l with
    | nil => exact ⟨h1, trivial⟩
    | cons y l =>
      have hx : x ∉ y :: l := (List.nodup_cons.1 hn).1
      have hm : lst (y :: l) x ∈ y :: l := lst_mem (by simp)
      refine ⟨?_, ih (p := x) (by simp) h.2 (List.nodup_cons.1 hn).2 h1 fun z hz hne => h2 z (by simp [List.mem_cons.1 hz]) hne⟩
      rw [h2 x (by simp) fun hh => hx (by rw [hh]; exact hm)]
      exact h.1

theorem Back.relink {f g : Int → Int} {p q : Int} {l : List Int} (h : Back f p l) (hn : l.Nodup) (h1 : l ≠ [] → g (hd l (-1)) = q)
    (h2 : ∀ x ∈ l, x ≠ hd l (-1) → g x = f x) : Back g q l := by
  cases l with
  | nil => trivial
  | cons x l =>
    refine ⟨h1 (by simp), h.2.congr fun y hy => h2 y (by simp [hy]) ?_⟩
    rintro rfl
    exact (List.nodup_cons.1 hn).1 hy

theorem Back.before {f : Int → Int} {a b : List Int} {i p : Int} (h : Back f p (a ++ i :: b)) : f i = lst a p := (back_append.1 h).2.1

theorem Chain.after {f : Int → Int} {a b : List Int} {i e : Int} (h : Chain f (a ++ i :: b) e) : f i = hd b e := (chain_append.1 h).2.1

/-- The nodes of `Vd` are in the list of their degree; `Bl` are the buckets, which share the heads of the lists. -/
structure DLs (n : Nat) (Vd : Finset Int) (Dl Bl : Int → List Int) (head next last degree : Int → Int) : Prop where
  hd : ∀ d : Int, 0 ≤ d → d < n → head d = if Dl d = [] then flip (hd (Bl d) (-1)) else hd (Dl d) (-1)
  nx : ∀ d : Int, 0 ≤ d → d < n → Chain next (Dl d) (-1)
  bk : ∀ d : Int, 0 ≤ d → d < n → Back last (Amd.hd (Bl d) (-1)) (Dl d)
  nd : ∀ d : Int, 0 ≤ d → d < n → (Dl d).Nodup
  mem : ∀ d : Int, 0 ≤ d → d < n → ∀ x, x ∈ Dl d ↔ x ∈ Vd ∧ degree x = d
  rng : ∀ x ∈ Vd, (0 ≤ x ∧ x < n) ∧ 0 ≤ degree x ∧ degree x < n

/-- No buckets. -/
def noB : Int → List Int := fun _ => []

section
variable {n : Nat} {Vd : Finset Int} {Dl Bl : Int → List Int} {head next last degree : Int → Int}

theorem DLs.hd0 (h : DLs n Vd Dl noB head next last degree) {d : Int} (h0 : 0 ≤ d) (h1 : d < n) : head d = Amd.hd (Dl d) (-1) := by
  rw [h.hd d h0 h1]
  split
  · rename_i e; rw [e]; rfl
  · rfl

theorem DLs.nn (h : DLs n Vd Dl Bl head next last degree) {d : Int} (h0 : 0 ≤ d) (h1 : d < n) {x : Int} (hx : x ∈ Dl d) : (0 ≤ x ∧ x < n) ∧ x ∈ Vd ∧ degree x = d := by
  obtain ⟨a, b⟩ := (h.mem d h0 h1 x).1 hx
  exact ⟨(h.rng x a).1, a, b⟩

theorem DLs.congr (h : DLs n Vd Dl Bl head next last degree) {head' next' last' degree' : Int → Int} (h1 : ∀ d : Int, 0 ≤ d → d < n → head' d = head d)
    (h2 : ∀ x ∈ Vd, next' x = next x) (h3 : ∀ x ∈ Vd, last' x = last x) (h4 : ∀ x ∈ Vd, degree' x = degree x) : DLs n Vd Dl Bl head' next' last' degree' :=
  ⟨fun d a b => (h1 d a b).trans (h.hd d a b), fun d a b => (h.nx d a b).congr fun x hx => h2 x (h.nn a b hx).2.1, fun d a b => (h.bk d a b).congr fun x hx => h3 x (h.nn a b hx).2.1,
    h.nd, fun d a b x => (h.mem d a b x).trans ⟨fun u => ⟨u.1, (h4 x u.1).trans u.2⟩, fun u => ⟨u.1, (h4 x u.1).symm.trans u.2⟩⟩, fun x hx => by rw [h4 x hx]; exact h.rng x hx⟩

/-- A node leaves its list. -/
theorem DLs.drop (h : DLs n Vd Dl noB head next last degree) {i : Int} (hi : i ∈ Vd) {head' next' last' : Int → Int}
    (hl1 : next i ≠ -1 → last' (next i) = last i) (hl2 : ∀ x, x ≠ next i → last' x = last x)
    (hn1 : last i ≠ -1 → next' (last i) = next i ∧ ∀ d : Int, head' d = head d) (hn2 : ∀ x, x ≠ last i → next' x = next x) (hn3 : last i = -1 → ∀ x ∈ Vd, next' x = next x)
    (hh1 : last i = -1 → head' (degree i) = next i) (hh2 : ∀ d : Int, d ≠ degree i → head' d = head d) :
    ∃ Dl', DLs n (Vd.erase i) Dl' noB head' next' last' degree := by
  obtain ⟨hir, d0, d1⟩ := h.rng i hi
  have him : i ∈ Dl (degree i) := (h.mem _ d0 d1 i).2 ⟨hi, rfl⟩
  obtain ⟨a, b, hab⟩ := List.append_of_mem him
  have hnx := h.nx _ d0 d1
  have hbk := h.bk _ d0 d1
  have hnd := h.nd _ d0 d1
  rw [hab] at hnx hbk hnd
  have hni : next i = Amd.hd b (-1) := hnx.after
  have hla : last i = lst a (-1) := hbk.before
  rw [chain_append] at hnx
  have hbk' := back_append.1 hbk
  have hca : Chain next a i := hnx.1
  have hcb : Chain next b (-1) := hnx.2.2
  have hba : Back last (-1) a := hbk'.1
  have hbb : Back last i b := hbk'.2.2
  have hnda : a.Nodup := (List.nodup_append.1 hnd).1
  have hndib : (i :: b).Nodup := (List.nodup_append.1 hnd).2.1
  have hndb : b.Nodup := (List.nodup_cons.1 hndib).2
  have hib : i ∉ b := (List.nodup_cons.1 hndib).1
  have hia : i ∉ a := fun hh => (List.nodup_append.1 hnd).2.2 i hh i (by simp) rfl
  have habd : ∀ x ∈ a, ∀ y ∈ b, x ≠ y := fun x hx y hy => (List.nodup_append.1 hnd).2.2 x hx y (by simp [hy])
  have hmemV : ∀ x ∈ a ++ b, (0 ≤ x ∧ x < n) ∧ x ∈ Vd ∧ degree x = degree i := fun x hx => h.nn d0 d1 (by rw [hab]; rcases List.mem_append.1 hx with u | u <;> simp [u])
  have hne : ∀ {l : List Int}, (∀ x ∈ l, x ∈ a ++ b) → l ≠ [] → ∀ e, lst l e ≠ -1 := fun {l} hl h0 e he => by
    have := (hmemV _ (hl _ (lst_mem (e := e) h0))).1
    omega
  have haq : a = [] ↔ last i = -1 := by
    rw [hla]
    constructor
    · intro e; rw [e]; rfl
    · intro e
      by_contra hh
      exact hne (fun x hx => List.mem_append_left _ hx) hh _ e
  have hbq : b = [] ↔ next i = -1 := by
    rw [hni, hd_eq_neg fun x hx => (hmemV x (List.mem_append_right _ hx)).1.1]
  have hother : ∀ d : Int, 0 ≤ d → d < n → d ≠ degree i → ∀ x ∈ Dl d, x ∉ a ∧ x ∉ b := fun d a' b' hd x hx => by
    have := (h.nn a' b' hx).2.2
    exact ⟨fun hh => hd (by have := (hmemV x (List.mem_append_left _ hh)).2.2; omega), fun hh => hd (by have := (hmemV x (List.mem_append_right _ hh)).2.2; omega)⟩
  have hn4 : ∀ x ∈ Vd, x ∉ a → next' x = next x := fun x hx hxa => by
    by_cases hl : last i = -1
    · exact hn3 hl x hx
    · refine hn2 x fun e => hxa ?_
      rw [e, hla]; exact lst_mem fun h0 => hl (haq.1 h0)
  have hl4 : ∀ x ∈ Vd, x ∉ b → last' x = last x := fun x hx hxb => by
    refine hl2 x fun e => hxb ?_
    have hx0 := (h.rng x hx).1.1
    have : b ≠ [] := fun h0 => by have := hbq.1 h0; omega
    rw [e, hni]; exact hd_mem _ this
  refine ⟨fun d => if d = degree i then a ++ b else Dl d, fun d u v => ?_, fun d u v => ?_, fun d u v => ?_, fun d u v => ?_, fun d u v x => ?_, fun x hx => h.rng x (Finset.mem_of_mem_erase hx)⟩
  · by_cases hd : d = degree i
    · rw [if_pos hd, hd]
      have : (if a ++ b = [] then flip (Amd.hd (noB (degree i)) (-1)) else Amd.hd (a ++ b) (-1)) = Amd.hd (a ++ b) (-1) := by
        split
        · rename_i e; rw [e]; rfl
        · rfl
      rw [this, hd_append]
      by_cases ha : a = []
      · rw [ha, hh1 (haq.1 ha), hni]; rfl
      · rw [(hn1 fun e => ha (haq.2 e)).2, h.hd0 d0 d1, hab, hd_append]
        cases a with
        | nil => exact absurd rfl ha
        | cons y a => rfl
    · rw [if_neg hd, hh2 d hd]; exact h.hd d u v
  · by_cases hd : d = degree i
    · rw [if_pos hd, chain_append]
      refine ⟨?_, hcb.congr fun x hx => hn4 x (hmemV x (by simp [hx])).2.1 fun hh => habd x hh x hx rfl⟩
      by_cases ha : a = []
      · rw [ha]; trivial
      · refine hca.relink (p := -1) ha hnda ?_ fun x hx hxl => ?_
        · rw [← hla, ← hni]; exact (hn1 fun e => ha (haq.2 e)).1
        · exact hn2 x fun e => hxl (by rw [e, hla])
    · rw [if_neg hd]
      exact (h.nx d u v).congr fun x hx => hn4 x (h.nn u v hx).2.1 (hother d u v hd x hx).1
  · by_cases hd : d = degree i
    · rw [if_pos hd, back_append]
      refine ⟨hba.congr fun x hx => hl4 x (hmemV x (by simp [hx])).2.1 fun hh => habd x hx x hh rfl, ?_⟩
      refine hbb.relink hndb (fun hb => ?_) fun x hx hxl => ?_
      · show last' (Amd.hd b (-1)) = lst a (Amd.hd (noB d) (-1))
        rw [← hni, hl1 fun e => hb (hbq.2 e)]; exact hla
      · exact hl2 x fun e => hxl (by rw [e, hni])
    · rw [if_neg hd]
      exact (h.bk d u v).congr fun x hx => hl4 x (h.nn u v hx).2.1 (hother d u v hd x hx).2
  · by_cases hd : d = degree i
    · rw [if_pos hd]
      exact List.nodup_append.2 ⟨hnda, hndb, habd⟩
    · rw [if_neg hd]; exact h.nd d u v
  · by_cases hd : d = degree i
    · rw [if_pos hd, Finset.mem_erase]
      have hm := h.mem d u v x
      rw [hd, hab] at hm
      rw [hd, List.mem_append]
      constructor
      · rintro (hh | hh)
        · exact ⟨⟨fun e => hia (e ▸ hh), (hmemV x (by simp [hh])).2.1⟩, (hmemV x (by simp [hh])).2.2⟩
        · exact ⟨⟨fun e => hib (e ▸ hh), (hmemV x (by simp [hh])).2.1⟩, (hmemV x (by simp [hh])).2.2⟩
      · rintro ⟨⟨h1, h2⟩, h3⟩
        have := hm.2 ⟨h2, h3⟩
        rcases List.mem_append.1 this with hh | hh
        · exact Or.inl hh
        · rcases List.mem_cons.1 hh with hh | hh
          · exact absurd hh h1
          · exact Or.inr hh
    · rw [if_neg hd, Finset.mem_erase, h.mem d u v x]
      constructor
      · rintro ⟨h1, h2⟩; exact ⟨⟨fun e => hd (by rw [← h2, e]), h1⟩, h2⟩
      · rintro ⟨⟨h1, h2⟩, h3⟩; exact ⟨h2, h3⟩

/-- A node enters the list of its degree. -/
theorem DLs.add (h : DLs n Vd Dl noB head next last degree) {i d : Int} (hi : i ∉ Vd) (hir : 0 ≤ i ∧ i < n) (hd0 : 0 ≤ d) (hd1 : d < n) {head' next' last' degree' : Int → Int}
    (hn1 : next' i = head d) (hn2 : ∀ x, x ≠ i → next' x = next x) (hh1 : head' d = i) (hh2 : ∀ x, x ≠ d → head' x = head x) (hl0 : last' i = -1)
    (hl1 : head d ≠ -1 → last' (head d) = i) (hl2 : ∀ x, x ≠ i → x ≠ head d → last' x = last x) (hg1 : degree' i = d) (hg2 : ∀ x, x ≠ i → degree' x = degree x) :
    ∃ Dl', DLs n (insert i Vd) Dl' noB head' next' last' degree' := by
  have hnot : ∀ d : Int, 0 ≤ d → d < n → i ∉ Dl d := fun d u v hm => hi (h.nn u v hm).2.1
  have hhd := h.hd0 hd0 hd1
  refine ⟨fun t => if t = d then i :: Dl d else Dl t, fun t u v => ?_, fun t u v => ?_, fun t u v => ?_, fun t u v => ?_, fun t u v x => ?_, fun x hx => ?_⟩
  · by_cases ht : t = d
    · rw [if_pos ht, ht, hh1]; simp
    · rw [if_neg ht, hh2 t ht]; exact h.hd t u v
  · by_cases ht : t = d
    · rw [if_pos ht]
      show next' i = Amd.hd (Dl d) (-1) ∧ Chain next' (Dl d) (-1)
      refine ⟨by rw [hn1, hhd], (h.nx d hd0 hd1).congr fun x hx => hn2 x ?_⟩
      rintro rfl; exact hnot d hd0 hd1 hx
    · rw [if_neg ht]
      refine (h.nx t u v).congr fun x hx => hn2 x ?_
      rintro rfl; exact hnot t u v hx
  · by_cases ht : t = d
    · rw [if_pos ht]
      show last' i = -1 ∧ Back last' i (Dl d)
      refine ⟨hl0, (h.bk d hd0 hd1).relink (h.nd d hd0 hd1) (fun hne => ?_) fun x hx hxl => ?_⟩
      · rw [← hhd]
        refine hl1 ?_
        rw [hhd]
        intro e
        exact hne ((hd_eq_neg fun x hx => (h.nn hd0 hd1 hx).1.1).1 e)
      · refine hl2 x ?_ (by rw [hhd]; exact hxl)
        rintro rfl; exact hnot d hd0 hd1 hx
    · rw [if_neg ht]
      refine (h.bk t u v).congr fun x hx => hl2 x ?_ fun e => ?_
      · rintro rfl; exact hnot t u v hx
      · rw [hhd] at e
        have hx0 := (h.nn u v hx).1.1
        have hne : Dl d ≠ [] := fun h0 => by rw [h0] at e; simp at e; omega
        have := (h.nn hd0 hd1 (hd_mem (-1) hne)).2.2
        rw [← e, (h.nn u v hx).2.2] at this
        exact ht this
  · by_cases ht : t = d
    · rw [if_pos ht]; exact List.nodup_cons.2 ⟨hnot d hd0 hd1, h.nd d hd0 hd1⟩
    · rw [if_neg ht]; exact h.nd t u v
  · rw [Finset.mem_insert]
    by_cases hx : x = i
    · rw [hx, hg1]
      by_cases ht : t = d
      · rw [if_pos ht, ht]; simp
      · rw [if_neg ht]
        exact ⟨fun hm => absurd hm (hnot t u v), fun hm => absurd hm.2.symm ht⟩
    · rw [hg2 x hx]
      by_cases ht : t = d
      · rw [if_pos ht, ht, List.mem_cons, h.mem d hd0 hd1 x]; simp [hx]
      · rw [if_neg ht, h.mem t u v x]; simp [hx]
  · rcases Finset.mem_insert.1 hx with rfl | hx'
    · rw [hg1]; exact ⟨hir, hd0, hd1⟩
    · have hxi : x ≠ i := fun e => hi (e ▸ hx')
      rw [hg2 x hxi]; exact h.rng x hx'

end

/-- The node leaves its list (451–460, 521–529). -/
theorem dropDeg_runs {n : Nat} {Vd : Finset Int} {Dl : Int → List Int} {c : St} {i : Int} (h : DLs n Vd Dl noB c.head.get c.next.get c.last.get c.degree.get) (hi : i ∈ Vd)
    (s1 : c.head.size = n) (s2 : c.next.size = n) (s3 : c.last.size = n) (s4 : c.degree.size = n) :
    Runs (dropDeg i c) fun c' => c' = { c with head := c'.head, next := c'.next, last := c'.last } ∧ c'.head.size = n ∧ c'.next.size = n ∧ c'.last.size = n ∧
      ∃ Dl', DLs n (Vd.erase i) Dl' noB c'.head.get c'.next.get c'.last.get c'.degree.get := by
  obtain ⟨hir, d0, d1⟩ := h.rng i hi
  have him : i ∈ Dl (c.degree.get i) := (h.mem _ d0 d1 i).2 ⟨hi, rfl⟩
  obtain ⟨a, b, hab⟩ := List.append_of_mem him
  have hnx := h.nx _ d0 d1
  have hbk := h.bk _ d0 d1
  rw [hab] at hnx hbk
  have hni : c.next.get i = Amd.hd b (-1) := hnx.after
  have hla : c.last.get i = lst a (-1) := hbk.before
  have hmr : ∀ x ∈ a ++ b, 0 ≤ x ∧ x < n := fun x hx => (h.nn d0 d1 (by rw [hab]; rcases List.mem_append.1 hx with u | u <;> simp [u])).1
  have hnr : c.next.get i ≠ -1 → 0 ≤ c.next.get i ∧ c.next.get i < n := fun hne => by
    rw [hni] at hne ⊢
    have hb : b ≠ [] := fun e => hne (by rw [e]; rfl)
    exact hmr _ (List.mem_append_right _ (hd_mem _ hb))
  have hlr : c.last.get i ≠ -1 → 0 ≤ c.last.get i ∧ c.last.get i < n := fun hne => by
    rw [hla] at hne ⊢
    have ha : a ≠ [] := fun e => hne (by rw [e]; rfl)
    exact hmr _ (List.mem_append_left _ (lst_mem ha))
  unfold dropDeg
  rw [runs_bind, runs_rdZ]
  refine ⟨⟨hir.1, by omega⟩, ?_⟩
  rw [runs_bind, runs_rdZ]
  refine ⟨⟨hir.1, by omega⟩, ?_⟩
  rw [runs_bind]
  have key : ∀ l' : Arr, l'.size = n → (c.next.get i ≠ -1 → l'.get (c.next.get i) = c.last.get i) → (∀ x, x ≠ c.next.get i → l'.get x = c.last.get x) →
      Runs (if c.last.get i ≠ -1 then do
          let next ← c.next.wr (c.last.get i) (c.next.get i)
          pure { c with last := l', next := next }
        else do
          let d ← c.degree.rd i
          let head ← c.head.wr d (c.next.get i)
          pure { c with last := l', head := head }) fun c' : St => c' = { c with head := c'.head, next := c'.next, last := c'.last } ∧ c'.head.size = n ∧ c'.next.size = n ∧ c'.last.size = n ∧
        ∃ Dl', DLs n (Vd.erase i) Dl' noB c'.head.get c'.next.get c'.last.get c'.degree.get := by
    intro l' q1 q2 q3
    by_cases hl : c.last.get i ≠ -1
    · have := hlr hl
      rw [if_pos hl]
      simp only [runs_bind, runs_wrZ, runs_pure]
      refine ⟨⟨this.1, by omega⟩, by trivial, s1, s2, q1, ?_⟩
      exact h.drop hi q2 q3 (fun _ => ⟨by simp, fun d => rfl⟩) (fun x hx => Arr.set_ne _ _ hx) (fun e => absurd e hl) (fun e => absurd e hl) fun d _ => rfl
    · rw [if_neg hl]
      simp only [runs_bind, runs_rdZ, runs_wrZ, runs_pure]
      refine ⟨⟨hir.1, by omega⟩, ⟨d0, by omega⟩, by trivial, s1, s2, q1, ?_⟩
      exact h.drop hi q2 q3 (fun e => absurd e hl) (fun x _ => rfl) (fun _ x _ => rfl) (fun _ => by simp) fun d hd => Arr.set_ne _ _ hd
  by_cases hn : c.next.get i ≠ -1
  · have := hnr hn
    rw [if_pos hn, runs_wrZ]
    exact ⟨⟨this.1, by omega⟩, key _ s3 (fun _ => by simp) fun x hx => Arr.set_ne _ _ hx⟩
  · rw [if_neg hn, runs_pure]
    exact key _ s3 (fun e => absurd e hn) fun x _ => rfl

/-- The node enters the list of its degree (422–425, 690–694). -/
theorem addDeg_runs {n : Nat} {Vd : Finset Int} {Dl : Int → List Int} {c : St} {i d : Int} (h : DLs n Vd Dl noB c.head.get c.next.get c.last.get c.degree.get)
    (hi : i ∉ Vd) (hir : 0 ≤ i ∧ i < n) (hd0 : 0 ≤ d) (hd1 : d < n) (s1 : c.head.size = n) (s2 : c.next.size = n) (s3 : c.last.size = n) :
    Runs (addDeg i d c) fun c' => c' = { c with head := c'.head, next := c'.next, last := c'.last } ∧ c'.head.size = n ∧ c'.next.size = n ∧ c'.last.size = n ∧
      ∀ last' degree' : Int → Int, last' i = -1 → (∀ x, x ≠ i → last' x = c'.last.get x) → degree' i = d → (∀ x, x ≠ i → degree' x = c.degree.get x) →
        (∃ Dl', DLs n (insert i Vd) Dl' noB c'.head.get c'.next.get last' degree') := by
  have hhd := h.hd0 hd0 hd1
  have hr : c.head.get d ≠ -1 → (0 ≤ c.head.get d ∧ c.head.get d < n) ∧ c.head.get d ≠ i := fun hne => by
    rw [hhd] at hne ⊢
    have hb : Dl d ≠ [] := fun e => hne (by rw [e]; rfl)
    have := h.nn hd0 hd1 (hd_mem (-1) hb)
    exact ⟨this.1, fun e => hi (e ▸ this.2.1)⟩
  unfold addDeg
  rw [runs_bind, runs_rdZ]
  refine ⟨⟨hd0, by omega⟩, ?_⟩
  rw [runs_bind]
  by_cases hn : c.head.get d ≠ -1
  · obtain ⟨h1, h2⟩ := hr hn
    rw [if_pos hn, runs_wrZ]
    simp only [runs_bind, runs_wrZ, runs_pure]
    refine ⟨⟨h1.1, by omega⟩, ⟨hir.1, by omega⟩, ⟨hd0, by omega⟩, by trivial, s1, s2, s3, fun last' degree' l1 l2 g1 g2 => ?_⟩
    refine h.add hi hir hd0 hd1 (by simp) (fun x hx => Arr.set_ne _ _ hx) (by simp) (fun x hx => Arr.set_ne _ _ hx) l1 (fun _ => ?_) (fun x hx hx2 => ?_) g1 g2
    · rw [l2 _ h2]; simp
    · rw [l2 x hx, Arr.set_ne _ _ hx2]
  · rw [if_neg hn, runs_pure]
    simp only [runs_bind, runs_wrZ, runs_pure]
    refine ⟨⟨hir.1, by omega⟩, ⟨hd0, by omega⟩, by trivial, s1, s2, s3, fun last' degree' l1 l2 g1 g2 => ?_⟩
    exact h.add hi hir hd0 hd1 (by simp) (fun x hx => Arr.set_ne _ _ hx) (by simp) (fun x hx => Arr.set_ne _ _ hx) l1 (fun e => absurd e hn) (fun x hx hx2 => l2 x hx) g1 g2

/-- The search for a node of the smallest degree (429–432). -/
theorem findMin_runs {n : Nat} {Vd : Finset Int} {Dl : Int → List Int} {head : Arr} {next last degree : Int → Int} (h : DLs n Vd Dl noB head.get next last degree) (hs : head.size = n) :
    ∀ (f : Nat) (d : Int), 0 ≤ d → (n : Int) - d = f → (∃ x ∈ Vd, d ≤ degree x) → (∀ x ∈ Vd, d ≤ degree x) →
      Runs (findMin head f d) fun r => r.1 ∈ Vd ∧ degree r.1 = r.2 ∧ last r.1 = -1 ∧ (0 ≤ r.2 ∧ r.2 < n) ∧ ∀ x ∈ Vd, r.2 ≤ degree x := by
  intro f
  induction f with
  | zero =>
    rintro d hd0 hf ⟨x, hx, hxd⟩ _
    have := h.rng x hx
    push_cast at hf
    omega
  | succ f ih =>
    intro d hd0 hf hx hall
    push_cast at hf
    have hd1 : d < n := by omega
    unfold findMin
    rw [runs_bind, runs_rdZ]
    refine ⟨⟨hd0, by omega⟩, ?_⟩
    have hhd := h.hd0 hd0 hd1
    cases hD : Dl d with
    | nil =>
      rw [hD] at hhd
      rw [if_neg (by rw [hhd]; simp)]
      have hne : ∀ x ∈ Vd, degree x ≠ d := fun x hx e => by
        have := (h.mem d hd0 hd1 x).2 ⟨hx, e⟩
        rw [hD] at this; simp at this
      obtain ⟨x, hx1, hx2⟩ := hx
      exact ih (d + 1) (by omega) (by omega) ⟨x, hx1, by have := hne x hx1; omega⟩ fun y hy => by have := hne y hy; have := hall y hy; omega
    | cons x l =>
      rw [hD] at hhd
      have hm := h.nn hd0 hd1 (x := x) (by rw [hD]; simp)
      have hb := h.bk d hd0 hd1
      rw [hD] at hb
      rw [hhd, hd_cons, if_pos (show x ≠ -1 by omega), runs_pure]
      exact ⟨hm.2.1, hm.2.2, hb.1, ⟨hd0, hd1⟩, hall⟩

end Amd
end Hif
