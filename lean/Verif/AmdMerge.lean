import Verif.AmdPass2
import Verif.AmdPivot

set_option linter.unusedVariables false

/-! # Indistinguishable nodes (amd.hpp 638–680) -/

namespace Hif
namespace Amd

/-- The comparison of two nodes. -/
theorem same_runs {n : Nat} {c : St} {ln eln j y : Int} {T : List Int} (hj : 0 ≤ j ∧ j < (n : Int)) (s1 : c.len.size = n) (s2 : c.elen.size = n) (s3 : c.pe.size = n) (s4 : c.w.size = n)
    (hlen : c.len.get j = (y :: T).length) (hseg : Seg c.iw.get (c.pe.get j) (y :: T)) (hp0 : 0 ≤ c.pe.get j) (hpl : c.pe.get j + (y :: T).length ≤ c.iw.size)
    (hT : ∀ x ∈ T, 0 ≤ x ∧ x < (n : Int)) (hln : 1 ≤ ln) :
    Runs (same c ln eln j) fun ok => ok = true → c.len.get j = ln ∧ c.elen.get j = eln ∧ ∀ x ∈ T, c.w.get x = c.wflg := by
  unfold same
  rw [runs_bind, runs_rdZ]
  refine ⟨⟨hj.1, by rw [s1]; exact hj.2⟩, ?_⟩
  rw [runs_bind, runs_rdZ]
  refine ⟨⟨hj.1, by rw [s2]; exact hj.2⟩, ?_⟩
  rw [runs_bind, runs_rdZ]
  refine ⟨⟨hj.1, by rw [s3]; exact hj.2⟩, ?_⟩
  rw [List.length_cons] at hlen hpl
  push_cast at hlen hpl
  refine forZ_runs (fun k ok => ok = true → (c.len.get j = ln ∧ c.elen.get j = eln) ∧ ∃ done todo, T = done ++ todo ∧ k = c.pe.get j + 1 + done.length ∧ ∀ x ∈ done, c.w.get x = c.wflg) (by omega)
    (fun h => ⟨of_decide_eq_true h, [], T, rfl, by simp, fun x hx => absurd hx (by simp)⟩) ?_ ?_
  · intro k ok h1 h2 I
    cases ok with
    | false => rw [if_neg (by simp), runs_pure]; intro h; exact absurd h (by simp)
    | true =>
      obtain ⟨⟨i1, i2⟩, done, todo, e1, e2, e3⟩ := I rfl
      rw [if_pos rfl]
      cases todo with
      | nil => rw [List.append_nil] at e1; rw [e1] at hlen; omega
      | cons x todo =>
        have hs := hseg.2
        rw [e1, seg_append] at hs
        have hxT : x ∈ T := by rw [e1]; simp
        have hl : T.length = done.length + (todo.length + 1) := by rw [e1]; simp
        rw [runs_bind, runs_rdZ]
        refine ⟨⟨by omega, by omega⟩, ?_⟩
        rw [e2, hs.2.1, runs_bind, runs_rdZ]
        refine ⟨⟨(hT x hxT).1, by rw [s4]; exact (hT x hxT).2⟩, ?_⟩
        rw [runs_pure]
        intro h
        have h := of_decide_eq_true h
        refine ⟨⟨i1, i2⟩, done ++ [x], todo, by rw [e1]; simp, by simp; ring, fun z hz => ?_⟩
        rcases List.mem_append.1 hz with u | u
        · exact e3 z u
        · rw [List.mem_singleton] at u; rw [u]; exact h
  · intro ok I h
    obtain ⟨⟨i1, i2⟩, done, todo, e1, e2, e3⟩ := I h
    have ht : todo = [] := by
      rw [← List.length_eq_zero_iff]
      rw [e1, List.length_append] at hlen
      push_cast at hlen
      omega
    rw [ht, List.append_nil] at e1
    exact ⟨i1, i2, by rw [e1]; exact e3⟩

/-- Lists of the same length without repetition, one in the other. -/
theorem mem_of_sub {a b : List Int} (ha : a.Nodup) (hb : b.Nodup) (hl : a.length = b.length) (hs : ∀ x ∈ a, x ∈ b) (x : Int) : x ∈ a ↔ x ∈ b := by
  have h1 : a.toFinset ⊆ b.toFinset := fun y hy => List.mem_toFinset.2 (hs y (List.mem_toFinset.1 hy))
  have h2 : a.toFinset = b.toFinset := Finset.eq_of_subset_of_card_le h1 (by rw [List.toFinset_card_of_nodup ha, List.toFinset_card_of_nodup hb, hl])
  rw [← List.mem_toFinset, h2, List.mem_toFinset]

section
variable {n : Nat} {iwlen : Int} {me : Int} {M : List Int} {B pme1 : Int} {g1 : Gh} {c4 : St} {Dl : Int → List Int} {Vd S : Finset Int} {h : Gh} {c : St}

/-- Invariant of the phase; `S` are the nodes in the buckets that have not been treated. -/
structure MG (n : Nat) (iwlen : Int) (me : Int) (M : List Int) (B pme1 : Int) (g1 : Gh) (c4 : St) (Dl : Int → List Int) (Vd S : Finset Int) (h : Gh) (c : St) : Prop where
  eq : c = { c4 with pe := c.pe, nv := c.nv, next := c.next, last := c.last, head := c.head, elen := c.elen, w := c.w, wflg := c.wflg }
  sz : Szs n iwlen c
  gr : Gr n h c.degree.get c.pe.get c.nel
  lay : Lay n ((h.V ∪ h.X).erase me) h.lf c.pe.get c.len.get c.iw.get B
  dsj : ∀ x ∈ (h.V ∪ h.X).erase me, c.pe.get x + (h.lf x).length ≤ pme1 ∨ pme1 + M.length ≤ c.pe.get x
  mx : me ∈ h.X
  fst : ∀ x ∈ M, x ∈ h.V → ∃ l, h.E x = me :: l
  el : ∀ x ∈ h.V, c.elen.get x = (h.E x).length
  eld : ∀ x : Int, 0 ≤ x → x < n → x ∉ h.V → c.elen.get x ≤ -1
  nv : ∀ x : Int, 0 ≤ x → x < n → x ≠ me → c.nv.get x = if x ∈ M then -h.wt x else h.wt x
  ee : ∀ e ∈ h.X, h.E e = []
  bk : ∃ Bl, DLs n Vd Dl Bl c.head.get c.next.get c.last.get c.degree.get ∧ BKs n S Bl c.next.get c.last.get
  vd : ∀ x ∈ Vd, x ∈ h.V ∧ x ∉ M
  vm : ∀ x ∈ h.V, x ∈ Vd ∨ x ∈ M
  sm : ∀ x ∈ S, x ∈ M ∧ x ∈ h.V
  lr : ∀ x ∈ M, x ∈ h.V → 0 ≤ c.last.get x ∧ c.last.get x < n
  w0 : ∀ x : Int, x ∈ h.V ∨ x ∈ h.X → c.w.get x ≠ 0
  sub : h.V ⊆ g1.V ∧ h.X = g1.X ∧ h.E = g1.E ∧ h.A = g1.A
  mw : ∀ x ∈ M, x ∉ h.V → h.wt x = 0
  wm : h.wt me = g1.wt me
  pm : c.pe.get me = pme1

variable {S0 : Int}

theorem MG.live (G : MG n iwlen me M B pme1 g1 c4 Dl Vd S h c) {x : Int} (hx : x ∈ h.V) : x ∈ (h.V ∪ h.X).erase me :=
  Finset.mem_erase.2 ⟨fun e => h_ne e, Finset.mem_union_left _ hx⟩
where h_ne (e : x = me) : False := G.gr.vx x hx (e ▸ G.mx)

/-- The entries of a node are nodes or elements. -/
theorem MG.ent (G : MG n iwlen me M B pme1 g1 c4 Dl Vd S h c) {x : Int} (hx : x ∈ h.V) : ∀ y ∈ h.lf x, 0 ≤ y ∧ y < (n : Int) := fun y hy => by
  unfold Gh.lf at hy
  rcases List.mem_append.1 hy with u | u
  · exact G.gr.xn y (G.gr.ex x hx y u)
  · exact (G.gr.av x hx y u).1

/-- Node `j` is merged into `i`. -/
theorem MG.merge (G : MG n iwlen me M B pme1 g1 c4 Dl Vd S h c) {i j : Int} (hi : i ∈ h.V) (hj : j ∈ h.V) (hij : i ≠ j) (hiM : i ∈ M) (hjM : j ∈ M) (hjS : j ∉ S) (hE : ∀ e, e ∈ h.E i ↔ e ∈ h.E j)
    {next : Arr} (hns : next.size = n) (hnx : ∀ x, x ∈ Vd ∨ x ∈ S → next.get x = c.next.get x) :
    MG n iwlen me M B pme1 g1 c4 Dl Vd S (h.merge i j) { c with pe := c.pe.set j (flip i), nv := (c.nv.set i (c.nv.get i + c.nv.get j)).set j 0, elen := c.elen.set j (-1), next := next } := by
  have hin := G.gr.vn i hi
  have hjn := G.gr.vn j hj
  have hjX : j ∉ h.X := G.gr.vx j hj
  have hsub : ∀ x ∈ ((h.merge i j).V ∪ (h.merge i j).X).erase me, x ∈ (h.V ∪ h.X).erase me ∧ x ≠ j := fun x hx => by
    rw [Finset.mem_erase, Finset.mem_union] at hx
    rcases hx with ⟨a, b | b⟩
    · exact ⟨Finset.mem_erase.2 ⟨a, Finset.mem_union_left _ (Finset.mem_of_mem_erase b)⟩, (Finset.mem_erase.1 b).1⟩
    · exact ⟨Finset.mem_erase.2 ⟨a, Finset.mem_union_right _ b⟩, fun e => hjX (e ▸ b)⟩
  have hV : ∀ x, x ∈ (h.merge i j).V ↔ x ≠ j ∧ x ∈ h.V := fun x => Finset.mem_erase
  have hime : i ≠ me := fun e => G.gr.vx i hi (e ▸ G.mx)
  have hjme : j ≠ me := fun e => G.gr.vx j hj (e ▸ G.mx)
  have hlf : (h.merge i j).lf = h.lf := rfl
  refine ⟨?_, ⟨G.sz.pe, G.sz.iw, G.sz.len, G.sz.nv, hns, G.sz.last, G.sz.head, G.sz.elen, G.sz.degree, G.sz.w⟩,
    G.gr.merge hi hj hij hE (Arr.set_same _ _ _) (fun x hx => Arr.set_ne _ _ hx), ?_, fun x hx => ?_, G.mx, fun x hx hxV => G.fst x hx ((hV x).1 hxV).2, fun x hx => ?_, fun x a b hx => ?_, fun x a b hxm => ?_,
    G.ee, ?_, fun x hx => ⟨(hV x).2 ⟨fun e => (G.vd x hx).2 (e ▸ hjM), (G.vd x hx).1⟩, (G.vd x hx).2⟩, fun x hx => G.vm x ((hV x).1 hx).2,
    fun x hx => ⟨(G.sm x hx).1, (hV x).2 ⟨fun e => hjS (e ▸ hx), (G.sm x hx).2⟩⟩, fun x hx hxV => G.lr x hx ((hV x).1 hxV).2,
    fun x hx => G.w0 x (hx.imp (fun u => ((hV x).1 u).2) id), ⟨fun x hx => G.sub.1 ((hV x).1 hx).2, G.sub.2⟩, fun x hx hxV => ?_, ?_, ?_⟩
  · exact congrArg (fun t : St => { t with pe := c.pe.set j (flip i), nv := (c.nv.set i (c.nv.get i + c.nv.get j)).set j 0, elen := c.elen.set j (-1), next := next }) G.eq
  · refine G.lay.shrink (fun x hx => (hsub x hx).1) (fun x hx => ?_) (fun x hx => ?_) (fun x hx => ?_) (fun x hx => ?_) (le_refl _)
    · show _ ≤ (c.pe.set j (flip i)).get x ∧ (c.pe.set j (flip i)).get x + _ ≤ _
      rw [Arr.set_ne _ _ (hsub x hx).2, hlf]; exact ⟨le_refl _, le_refl _⟩
    · rw [hlf]; exact G.lay.ne x (hsub x hx).1
    · rw [hlf]; exact G.lay.len x (hsub x hx).1
    · show Seg _ ((c.pe.set j (flip i)).get x) _
      rw [Arr.set_ne _ _ (hsub x hx).2, hlf]; exact G.lay.val x (hsub x hx).1
  · show (c.pe.set j (flip i)).get x + _ ≤ _ ∨ _ ≤ (c.pe.set j (flip i)).get x
    rw [Arr.set_ne _ _ (hsub x hx).2, hlf]; exact G.dsj x (hsub x hx).1
  · show (c.elen.set j (-1)).get x = _
    rw [Arr.set_ne _ _ ((hV x).1 hx).1]; exact G.el x ((hV x).1 hx).2
  · show (c.elen.set j (-1)).get x ≤ _
    by_cases hxj : x = j
    · rw [hxj, Arr.set_same]
    · rw [Arr.set_ne _ _ hxj]; exact G.eld x a b fun u => hx ((hV x).2 ⟨hxj, u⟩)
  · show ((c.nv.set i (c.nv.get i + c.nv.get j)).set j 0).get x = if x ∈ M then -(if x = j then 0 else if x = i then h.wt i + h.wt j else h.wt x) else (if x = j then 0 else if x = i then h.wt i + h.wt j else h.wt x)
    by_cases hxj : x = j
    · rw [hxj, Arr.set_same, if_pos hjM, if_pos rfl]; rfl
    · rw [Arr.set_ne _ _ hxj, if_neg hxj]
      by_cases hxi : x = i
      · rw [hxi, Arr.set_same, if_pos hiM, if_pos rfl, G.nv i hin.1 hin.2 hime, G.nv j hjn.1 hjn.2 hjme, if_pos hiM, if_pos hjM]; ring
      · rw [Arr.set_ne _ _ hxi, if_neg hxi]; exact G.nv x a b hxm
  · obtain ⟨Bl, D, Bk⟩ := G.bk
    refine ⟨Bl, D.congr (fun d _ _ => rfl) (fun x hx => hnx x (Or.inl hx)) (fun x _ => rfl) (fun x _ => rfl), ⟨fun d a b => ?_, Bk.nd, Bk.mem, Bk.rng⟩⟩
    exact (Bk.nx d a b).congr fun x hx => hnx x (Or.inr ((Bk.mem d a b x).1 hx).1)
  · show (if x = j then 0 else if x = i then h.wt i + h.wt j else h.wt x) = 0
    by_cases hxj : x = j
    · rw [if_pos hxj]
    · have hxV' : x ∉ h.V := fun u => hxV ((hV x).2 ⟨hxj, u⟩)
      rw [if_neg hxj, if_neg (fun e : x = i => hxV' (e ▸ hi))]
      exact G.mw x hx hxV'
  · show (if me = j then 0 else if me = i then h.wt i + h.wt j else h.wt me) = _
    rw [if_neg hjme.symm, if_neg hime.symm]; exact G.wm
  · show (c.pe.set j (flip i)).get me = _
    rw [Arr.set_ne _ _ hjme.symm]; exact G.pm

/-- A list of nodes of a bucket that has been taken out. -/
structure BL (M : List Int) (S : Finset Int) (h : Gh) (c : St) (L : List Int) : Prop where
  ch : Chain c.next.get L (-1)
  nd : L.Nodup
  mem : ∀ x ∈ L, x ∈ M ∧ x ∈ h.V ∧ x ∉ S

theorem mergeLoop_runs {i : Int} {T : List Int} : ∀ (f : Nat) {a b : List Int} {h : Gh} {c : St}, MG n iwlen me M B pme1 g1 c4 Dl Vd S h c → BL M S h c (i :: (a ++ b)) → b.length ≤ f → B ≤ iwlen →
    h.lf i = me :: T → (∀ x : Int, 0 ≤ x → x < n → c.w.get x = c.wflg → x ∈ T) →
    Runs (mergeLoop i (h.lf i).length (h.E i).length f (lst a i) (hd b (-1)) c) fun c' => ∃ h' a', MG n iwlen me M B pme1 g1 c4 Dl Vd S h' c' ∧ BL M S h' c' (i :: a') ∧ c'.w = c.w ∧ c'.wflg = c.wflg ∧
      a'.length ≤ (a ++ b).length := by
  intro f
  induction f with
  | zero =>
    intro a b h c G L hf hB hT hw
    have hb : b = [] := List.length_eq_zero_iff.1 (by omega)
    subst hb
    unfold mergeLoop
    rw [hd_nil, if_pos rfl, runs_pure]
    rw [List.append_nil] at L ⊢
    exact ⟨h, a, G, L, rfl, rfl, le_refl _⟩
  | succ f ih =>
    intro a b h c G L hf hB hT hw
    unfold mergeLoop
    cases b with
    | nil =>
      rw [hd_nil, if_pos rfl, runs_pure]
      rw [List.append_nil] at L ⊢
      exact ⟨h, a, G, L, rfl, rfl, le_refl _⟩
    | cons j b =>
      rw [hd_cons]
      have hj := L.mem j (by simp)
      have hi := L.mem i (by simp)
      have hjn := G.gr.vn j hj.2.1
      have hin := G.gr.vn i hi.2.1
      have hnd := L.nd
      have hij : i ≠ j := fun e => (List.nodup_cons.1 hnd).1 (by rw [e]; simp)
      have hlast : lst a i ∈ i :: a := by
        cases a with
        | nil => simp
        | cons y a => exact List.mem_cons_of_mem _ (lst_mem (by simp))
      have hch : Chain c.next.get ((i :: a) ++ j :: b) (-1) := L.ch
      have hchj : c.next.get j = hd b (-1) := hch.after
      have hlm := L.mem (lst a i) (by rcases List.mem_cons.1 hlast with u | u <;> simp [u])
      have hln := G.gr.vn _ hlm.2.1
      obtain ⟨Tj0, hTj0⟩ := G.fst j hj.1 hj.2.1
      have hlj : h.lf j = me :: (Tj0 ++ h.A j) := by unfold Gh.lf; rw [hTj0]; rfl
      have hlv := G.live hj.2.1
      have hlenj := G.lay.len j hlv
      have hvalj := G.lay.val j hlv
      have hposj := G.lay.pos j hlv
      have hbdj := G.lay.bd j hlv
      rw [hlj] at hlenj hvalj hbdj
      rw [if_neg (show ¬ j = -1 by omega), runs_bind]
      refine Runs.mono (same_runs (n := n) (y := me) (T := Tj0 ++ h.A j) hjn G.sz.len G.sz.elen G.sz.pe G.sz.w hlenj hvalj hposj (by rw [G.sz.iw]; omega)
        (fun x hx => G.ent hj.2.1 x (by rw [hlj]; exact List.mem_cons_of_mem _ hx)) (by rw [hT]; simp)) fun ok hok => ?_
      cases ok with
      | true =>
        obtain ⟨o1, o2, o3⟩ := hok rfl
        rw [if_pos rfl]
        simp only [runs_bind, runs_rdZ, runs_wrZ, Arr.set_size]
        refine ⟨⟨hjn.1, by rw [G.sz.pe]; exact hjn.2⟩, ⟨hin.1, by rw [G.sz.nv]; exact hin.2⟩, ⟨hjn.1, by rw [G.sz.nv]; exact hjn.2⟩, ⟨hin.1, by rw [G.sz.nv]; exact hin.2⟩,
          ⟨hjn.1, by rw [G.sz.nv]; exact hjn.2⟩, ⟨hjn.1, by rw [G.sz.elen]; exact hjn.2⟩, ⟨hjn.1, by rw [G.sz.next]; exact hjn.2⟩, ⟨hln.1, by rw [G.sz.next]; exact hln.2⟩, ?_⟩
        have hE : ∀ e, e ∈ h.E i ↔ e ∈ h.E j := by
          obtain ⟨Ti0, hTi0⟩ := G.fst i hi.1 hi.2.1
          have hel := G.el j hj.2.1
          rw [o2] at hel
          intro e
          refine (mem_of_sub (G.gr.en j hj.2.1) (G.gr.en i hi.2.1) (by omega) (fun x hx => ?_) e).symm
          rw [hTj0] at hx
          rcases List.mem_cons.1 hx with u | u
          · rw [u, hTi0]; simp
          · have hxX : x ∈ h.X := G.gr.ex j hj.2.1 x (by rw [hTj0]; exact List.mem_cons_of_mem _ u)
            have hxn := G.gr.xn x hxX
            have hxT := hw x hxn.1 hxn.2 (o3 x (List.mem_append_left _ u))
            have hx2 : x ∈ h.lf i := by rw [hT]; exact List.mem_cons_of_mem _ hxT
            unfold Gh.lf at hx2
            rcases List.mem_append.1 hx2 with v | v
            · exact v
            · exfalso
              have hwx := G.gr.wx x hxX
              rcases (G.gr.av i hi.2.1 x v).2 with w | w
              · exact G.gr.vx x w hxX
              · omega
        have hlastV : ∀ x, x ∈ Vd ∨ x ∈ S → x ≠ lst a i := fun x hx e => by
          rcases hx with u | u
          · exact (G.vd x u).2 (e ▸ hlm.1)
          · exact hlm.2.2 (e ▸ u)
        have G' := G.merge hi.2.1 hj.2.1 hij hi.1 hj.1 hj.2.2 hE (next := c.next.set (lst a i) (c.next.get j)) G.sz.next (fun x hx => Arr.set_ne _ _ (hlastV x hx))
        have L' : BL M S (h.merge i j) { c with pe := c.pe.set j (flip i), nv := (c.nv.set i (c.nv.get i + c.nv.get j)).set j 0, elen := c.elen.set j (-1), next := c.next.set (lst a i) (c.next.get j) } (i :: (a ++ b)) := by
          have hnd' : ((i :: a) ++ j :: b).Nodup := hnd
          have hnda := (List.nodup_append.1 hnd').1
          have hndb := List.nodup_cons.1 (List.nodup_append.1 hnd').2.1
          have hdj := (List.nodup_append.1 hnd').2.2
          refine ⟨?_, ?_, fun x hx => ?_⟩
          · show Chain (c.next.set (lst a i) (c.next.get j)).get ((i :: a) ++ b) (-1)
            rw [chain_append]
            constructor
            · rw [hchj]
              have := Chain.setLast (a := c.next) (e := j) (v := hd b (-1)) (p := -1) (l := i :: a) (by simp) (chain_append.1 hch).1 hnda
              rwa [lst_cons] at this
            · refine (chain_append.1 hch).2.2.congr fun x hx => Arr.set_ne _ _ fun e => ?_
              exact hdj _ hlast x (by simp [hx]) e.symm
          · show ((i :: a) ++ b).Nodup
            rw [List.nodup_append]
            exact ⟨hnda, hndb.2, fun x hx y hy => hdj x hx y (by simp [hy])⟩
          · have hx' : x ∈ (i :: a) ++ b := hx
            have hxj : x ≠ j := fun e => by
              rcases List.mem_append.1 hx' with u | u
              · exact hdj x u j (by simp) e
              · exact hndb.1 (e ▸ u)
            obtain ⟨u1, u2, u3⟩ := L.mem x (by
              show x ∈ (i :: a) ++ j :: b
              rcases List.mem_append.1 hx' with u | u
              · exact List.mem_append_left _ u
              · exact List.mem_append_right _ (by simp [u]))
            exact ⟨u1, Finset.mem_erase.2 ⟨hxj, u2⟩, u3⟩
        rw [hchj]
        rw [hchj] at G' L'
        refine Runs.mono (ih (h := h.merge i j) G' L' (by rw [List.length_cons] at hf; omega) hB hT hw) fun c' ⟨h', a', q1, q2, q3, q4, q5⟩ => ⟨h', a', q1, q2, q3, q4, ?_⟩
        rw [List.length_append] at q5 ⊢
        rw [List.length_cons]; omega
      | false =>
        rw [if_neg (by simp), runs_bind, runs_rdZ]
        refine ⟨⟨hjn.1, by rw [G.sz.next]; exact hjn.2⟩, ?_⟩
        rw [hchj]
        have e : a ++ j :: b = (a ++ [j]) ++ b := by simp
        rw [e] at L ⊢
        have := ih (a := a ++ [j]) (b := b) G L (by rw [List.length_cons] at hf; omega) hB hT hw
        rw [lst_concat] at this
        exact this

/-- Marks on the entries of a node. -/
theorem mark_runs {iw : Arr} {w : Arr} {p f : Int} {T : List Int} (hs : w.size = n) (hseg : Seg iw.get p T) (hp0 : 0 ≤ p) (hpl : p + T.length ≤ iw.size) (hT : ∀ x ∈ T, 0 ≤ x ∧ x < (n : Int)) :
    Runs (forZ p (p + T.length) w fun p w => do let x ← iw.rd p; w.wr x f) fun w' => w'.size = n ∧ (∀ x ∈ T, w'.get x = f) ∧ ∀ x, x ∉ T → w'.get x = w.get x := by
  refine forZ_runs (fun k w' => ∃ done todo, T = done ++ todo ∧ k = p + done.length ∧ w'.size = n ∧ (∀ x ∈ done, w'.get x = f) ∧ ∀ x, x ∉ done → w'.get x = w.get x) (by omega)
    ⟨[], T, rfl, by simp, hs, fun x hx => absurd hx (by simp), fun x _ => rfl⟩ ?_ ?_
  · rintro k w' h1 h2 ⟨done, todo, e1, e2, e3, e4, e5⟩
    cases todo with
    | nil => rw [List.append_nil] at e1; rw [e1] at h2; omega
    | cons x todo =>
      have hs := hseg
      rw [e1, seg_append] at hs
      have hx := hT x (by rw [e1]; simp)
      rw [runs_bind, runs_rdZ]
      refine ⟨⟨by omega, by omega⟩, ?_⟩
      rw [e2, hs.2.1, runs_wrZ]
      refine ⟨⟨hx.1, by rw [e3]; exact hx.2⟩, done ++ [x], todo, by rw [e1]; simp, by simp; ring, e3, fun y hy => ?_, fun y hy => ?_⟩
      · by_cases hyx : y = x
        · rw [hyx, Arr.set_same]
        · rw [Arr.set_ne _ _ hyx]; exact e4 y (by simpa [hyx] using hy)
      · rw [Arr.set_ne (k := y) _ _ fun e : y = x => hy (by rw [e]; simp)]; exact e5 y fun u => hy (by simp [u])
  · rintro w' ⟨done, todo, e1, e2, e3, e4, e5⟩
    have ht : todo = [] := by
      rw [← List.length_eq_zero_iff]
      rw [e1, List.length_append] at e2
      push_cast at e2
      omega
    rw [ht, List.append_nil] at e1
    rw [e1]
    exact ⟨e3, e4, e5⟩

/-- The flags are below the mark. -/
def WB (n : Nat) (c : St) : Prop := 2 ≤ c.wflg ∧ ∀ x : Int, 0 ≤ x → x < n → 0 ≤ c.w.get x ∧ c.w.get x < c.wflg

theorem MG.setw (G : MG n iwlen me M B pme1 g1 c4 Dl Vd S h c) {w : Arr} {f : Int} (hs : w.size = n) (hw : ∀ x : Int, x ∈ h.V ∨ x ∈ h.X → w.get x ≠ 0) :
    MG n iwlen me M B pme1 g1 c4 Dl Vd S h { c with w := w, wflg := f } :=
  ⟨congrArg (fun t : St => { t with w := w, wflg := f }) G.eq, ⟨G.sz.pe, G.sz.iw, G.sz.len, G.sz.nv, G.sz.next, G.sz.last, G.sz.head, G.sz.elen, G.sz.degree, hs⟩, G.gr, G.lay, G.dsj, G.mx, G.fst, G.el, G.eld,
    G.nv, G.ee, G.bk, G.vd, G.vm, G.sm, G.lr, hw, G.sub, G.mw, G.wm, G.pm⟩

/-- A bucket. -/
theorem bucketLoop_runs : ∀ (f : Nat) {L : List Int} {h : Gh} {c : St}, MG n iwlen me M B pme1 g1 c4 Dl Vd S h c → BL M S h c L → L.length < f → B ≤ iwlen → WB n c →
    Runs (bucketLoop n f (hd L (-1)) c) fun c' => ∃ h', MG n iwlen me M B pme1 g1 c4 Dl Vd S h' c' ∧ WB n c' := by
  intro f
  induction f with
  | zero => intro L h c G hL hf; omega
  | succ f ih =>
    intro L h c G hL hf hB hW
    unfold bucketLoop
    cases L with
    | nil => rw [hd_nil, if_pos rfl, runs_pure]; exact ⟨h, G, hW⟩
    | cons i L =>
      have hi := hL.mem i (by simp)
      have hin := G.gr.vn i hi.2.1
      have hni : c.next.get i = hd L (-1) := hL.ch.1
      rw [hd_cons, if_neg (by omega), runs_bind, runs_rdZ]
      refine ⟨⟨hin.1, by rw [G.sz.next]; exact hin.2⟩, ?_⟩
      split
      · rw [runs_pure]; exact ⟨h, G, hW⟩
      · obtain ⟨T0, hT0⟩ := G.fst i hi.1 hi.2.1
        have hli : h.lf i = me :: (T0 ++ h.A i) := by unfold Gh.lf; rw [hT0]; rfl
        have hlv := G.live hi.2.1
        have hlen := G.lay.len i hlv
        have hval := G.lay.val i hlv
        have hpos := G.lay.pos i hlv
        have hbd := G.lay.bd i hlv
        rw [runs_bind, runs_rdZ]
        refine ⟨⟨hin.1, by rw [G.sz.len]; exact hin.2⟩, ?_⟩
        rw [runs_bind, runs_rdZ]
        refine ⟨⟨hin.1, by rw [G.sz.elen]; exact hin.2⟩, ?_⟩
        rw [runs_bind, runs_rdZ]
        refine ⟨⟨hin.1, by rw [G.sz.pe]; exact hin.2⟩, ?_⟩
        rw [hlen, G.el i hi.2.1, runs_bind]
        have hll : ((h.lf i).length : Int) = 1 + (T0 ++ h.A i).length := by rw [hli, List.length_cons]; push_cast; ring
        rw [show c.pe.get i + ((h.lf i).length : Int) = c.pe.get i + 1 + (T0 ++ h.A i).length by rw [hll]; ring]
        have hseg := hval
        rw [hli] at hseg
        refine Runs.mono (mark_runs (n := n) (T := T0 ++ h.A i) (f := c.wflg) G.sz.w hseg.2 (by omega) (by rw [G.sz.iw]; omega)
          (fun x hx => G.ent hi.2.1 x (by rw [hli]; exact List.mem_cons_of_mem _ hx))) fun w' ⟨w1, w2, w3⟩ => ?_
        have hW2 := hW.2
        have hW1 := hW.1
        have hw' : ∀ x : Int, x ∈ h.V ∨ x ∈ h.X → w'.get x ≠ 0 := fun x hx => by
          by_cases hxT : x ∈ T0 ++ h.A i
          · rw [w2 x hxT]; omega
          · rw [w3 x hxT]; exact G.w0 x hx
        have G1 := G.setw (f := c.wflg) w1 hw'
        rw [hni, runs_bind]
        have hLn : L.length ≤ n := by
          have := length_le_of_nodup hL.nd fun x hx => G.gr.vn x (hL.mem x hx).2.1
          rw [List.length_cons] at this; omega
        refine Runs.mono (mergeLoop_runs n (a := []) (b := L) (T := T0 ++ h.A i) G1 ⟨hL.ch, hL.nd, hL.mem⟩ hLn hB hli (fun x a b e => ?_)) fun c2 ⟨h2, a2, G2, L2, q3, q4, q5⟩ => ?_
        · by_contra hxT
          have e : w'.get x = c.wflg := e
          rw [w3 x hxT] at e
          have := hW2 x a b
          omega
        · rw [runs_bind, runs_rdZ]
          refine ⟨⟨hin.1, by rw [G2.sz.next]; exact hin.2⟩, ?_⟩
          rw [show c2.next.get i = hd a2 (-1) from L2.ch.1]
          rw [List.nil_append] at q5
          rw [List.length_cons] at hf
          have G3 := G2.setw (w := c2.w) (f := c2.wflg + 1) G2.sz.w G2.w0
          refine ih (L := a2) G3 ⟨L2.ch.2, (List.nodup_cons.1 L2.nd).2, fun x hx => L2.mem x (by simp [hx])⟩ (by omega) hB ?_
          refine ⟨?_, fun x a b => ?_⟩
          · show 2 ≤ c2.wflg + 1
            rw [q4]; show 2 ≤ c.wflg + 1; omega
          · show 0 ≤ c2.w.get x ∧ c2.w.get x < c2.wflg + 1
            rw [q4, q3]
            show 0 ≤ w'.get x ∧ w'.get x < c.wflg + 1
            have := hW2 x a b
            by_cases hxT : x ∈ T0 ++ h.A i
            · rw [w2 x hxT]; omega
            · rw [w3 x hxT]; omega

/-- The bucket of one node. -/
theorem bucket_runs {P Q : List Int} {i : Int} (hM : M = P ++ i :: Q) (hMn : ∀ x ∈ M, (0 ≤ x ∧ x < (n : Int)) ∧ x ≠ me) (hiw : c.iw.get (pme1 + P.length) = i) (hp0 : 0 ≤ pme1)
    (hpl : pme1 + M.length ≤ iwlen) (G : MG n iwlen me M B pme1 g1 c4 Dl Vd S h c)
    (hS : ∀ x ∈ P, x ∉ S) (hB : B ≤ iwlen) (hW : WB n c) :
    Runs (bucket n (pme1 + P.length) c) fun c' => ∃ h' S', MG n iwlen me M B pme1 g1 c4 Dl Vd S' h' c' ∧ WB n c' ∧ ∀ x ∈ P ++ [i], x ∉ S' := by
  have hiM : i ∈ M := by rw [hM]; simp
  obtain ⟨hin, hime⟩ := hMn i hiM
  have hml : (M.length : Int) = P.length + (Q.length + 1) := by rw [hM]; simp
  unfold bucket
  rw [runs_bind, runs_rdZ]
  refine ⟨⟨by omega, by rw [G.sz.iw]; omega⟩, ?_⟩
  rw [hiw, runs_bind, runs_rdZ]
  refine ⟨⟨hin.1, by rw [G.sz.nv]; exact hin.2⟩, ?_⟩
  rw [G.nv i hin.1 hin.2 hime, if_pos hiM]
  by_cases hiV : i ∈ h.V
  · have hwi := G.gr.wv i hiV
    rw [if_pos (by omega), runs_bind, runs_rdZ]
    refine ⟨⟨hin.1, by rw [G.sz.last]; exact hin.2⟩, ?_⟩
    obtain ⟨l0, l1⟩ := G.lr i hiM hiV
    revert l0 l1
    generalize hh0 : c.last.get i = hh
    intro l0 l1
    rw [runs_bind, runs_rdZ]
    refine ⟨⟨l0, by rw [G.sz.head]; exact l1⟩, ?_⟩
    obtain ⟨Bl, D, Bk⟩ := G.bk
    have hVS : ∀ x ∈ Vd, x ∉ S := fun x hx u => (G.vd x hx).2 (G.sm x u).1
    obtain ⟨k1, k2⟩ := D.neg Bk l0 l1
    have hlm : ∀ x ∈ Bl hh, x ∈ M ∧ x ∈ h.V ∧ x ∉ S.filter fun x => c.last.get x ≠ hh := fun x hx => by
      obtain ⟨u, v⟩ := (Bk.mem hh l0 l1 x).1 hx
      exact ⟨(G.sm x u).1, (G.sm x u).2, fun w => (Finset.mem_filter.1 w).2 v⟩
    have hlen : (Bl hh).length < n + 1 := by
      have := length_le_of_nodup (Bk.nd hh l0 l1) fun x hx => G.gr.vn x (hlm x hx).2.1
      omega
    -- the state after the bucket has been taken out
    have key : ∀ head last : Arr, head.size = n → last.size = n → (∀ d : Int, d ≠ hh → head.get d = c.head.get d) → (c.head.get hh ≤ -1 → head.get hh = -1 ∧ ∀ x, last.get x = c.last.get x) →
        (¬ c.head.get hh ≤ -1 → head.get hh = c.head.get hh ∧ last.get (c.head.get hh) = -1 ∧ ∀ x, x ≠ c.head.get hh → last.get x = c.last.get x) →
        Runs (bucketLoop n (n + 1) (hd (Bl hh) (-1)) { c with head := head, last := last }) fun c' => ∃ h' S', MG n iwlen me M B pme1 g1 c4 Dl Vd S' h' c' ∧ WB n c' ∧ ∀ x ∈ P ++ [i], x ∉ S' := by
      intro head last s1 s2 q1 q2 q3
      obtain ⟨Bl', D', Bk', -⟩ := takeBucket D Bk hVS l0 l1 q1 q2 q3
      have hlast : ∀ x ∈ M, last.get x = c.last.get x := fun x hx => by
        by_cases hj : c.head.get hh ≤ -1
        · exact (q2 hj).2 x
        · exact (q3 hj).2.2 x fun e => (G.vd _ (k2 hj).2.2.1).2 (e ▸ hx)
      have G' : MG n iwlen me M B pme1 g1 c4 Dl Vd (S.filter fun x => c.last.get x ≠ hh) h { c with head := head, last := last } :=
        ⟨congrArg (fun t : St => { t with head := head, last := last }) G.eq, ⟨G.sz.pe, G.sz.iw, G.sz.len, G.sz.nv, G.sz.next, s2, s1, G.sz.elen, G.sz.degree, G.sz.w⟩, G.gr, G.lay, G.dsj, G.mx, G.fst, G.el, G.eld,
          G.nv, G.ee, ⟨Bl', D', Bk'⟩, G.vd, G.vm, fun x hx => G.sm x (Finset.mem_filter.1 hx).1, fun x hx hxV => by show 0 ≤ last.get x ∧ last.get x < n; rw [hlast x hx]; exact G.lr x hx hxV, G.w0, G.sub, G.mw, G.wm, G.pm⟩
      refine Runs.mono (bucketLoop_runs (n + 1) (L := Bl hh) G' ⟨Bk.nx hh l0 l1, Bk.nd hh l0 l1, hlm⟩ hlen hB hW) fun c' ⟨h', u, v⟩ => ⟨h', _, u, v, fun x hx w => ?_⟩
      obtain ⟨w1, w2⟩ := Finset.mem_filter.1 w
      rcases List.mem_append.1 hx with y | y
      · exact hS x y w1
      · rw [List.mem_singleton] at y; rw [y] at w2; exact w2 hh0
    by_cases hj : c.head.get hh ≤ -1
    · obtain ⟨z1, z2⟩ := k1 hj
      by_cases hj1 : c.head.get hh = -1
      · rw [if_pos hj1]
        have he : hd (Bl hh) (-1) = -1 := by rw [hj1] at z2; unfold flip at z2; omega
        have := key c.head c.last G.sz.head G.sz.last (fun _ _ => rfl) (fun _ => ⟨hj1, fun _ => rfl⟩) (fun u => absurd hj u)
        rw [he] at this
        exact this
      · rw [if_neg hj1, if_pos (show c.head.get hh < -1 by omega), runs_bind, runs_wrZ]
        refine ⟨⟨l0, by rw [G.sz.head]; exact l1⟩, ?_⟩
        rw [z2, flip_flip]
        exact key (c.head.set hh (-1)) c.last G.sz.head G.sz.last (fun d hd => Arr.set_ne _ _ hd) (fun _ => ⟨Arr.set_same _ _ _, fun _ => rfl⟩) (fun u => absurd hj u)
    · obtain ⟨z1, z2, z3, z4, z5⟩ := k2 hj
      have hjr := (D.rng _ z3).1
      rw [if_neg (show ¬ c.head.get hh = -1 by omega), if_neg (show ¬ c.head.get hh < -1 by omega), runs_bind, runs_rdZ]
      refine ⟨⟨hjr.1, by rw [G.sz.last]; exact hjr.2⟩, ?_⟩
      rw [z4, runs_bind, runs_wrZ]
      refine ⟨⟨hjr.1, by rw [G.sz.last]; exact hjr.2⟩, ?_⟩
      exact key c.head (c.last.set (c.head.get hh) (-1)) G.sz.head G.sz.last (fun _ _ => rfl) (fun u => absurd u hj) (fun _ => ⟨rfl, Arr.set_same _ _ _, fun x hx => Arr.set_ne _ _ hx⟩)
  · rw [G.mw i hiM hiV, if_neg (by omega), runs_pure]
    refine ⟨h, S, G, hW, fun x hx u => ?_⟩
    rcases List.mem_append.1 hx with y | y
    · exact hS x y u
    · rw [List.mem_singleton] at y
      rw [y] at u; exact hiV (G.sm i u).2

end

end Amd
end Hif
