import Verif.AmdWalk

set_option linter.unusedVariables false

/-! # The lists of neighbours -/

namespace Hif
namespace Amd

/-- Neighbours of `x`, in the order in which the pairs are met. -/
def nb (G : List (Int × Int)) (x : Int) : List Int := G.flatMap fun e => (if e.1 = x then [e.2] else []) ++ (if e.2 = x then [e.1] else [])

theorem nb_snoc (G : List (Int × Int)) (a b x : Int) : nb (G ++ [(a, b)]) x = nb G x ++ ((if a = x then [b] else []) ++ (if b = x then [a] else [])) := by
  unfold nb; rw [List.flatMap_append]; simp

theorem mem_nb {G : List (Int × Int)} {x y : Int} : y ∈ nb G x ↔ (x, y) ∈ G ∨ (y, x) ∈ G := by
  unfold nb
  rw [List.mem_flatMap]
  constructor
  · rintro ⟨⟨a, b⟩, he, h⟩
    rw [List.mem_append] at h
    rcases h with h | h
    · split at h
      · rename_i e
        rw [List.mem_singleton] at h
        simp only at e h
        left; rw [← e, h]; exact he
      · simp at h
    · split at h
      · rename_i e
        rw [List.mem_singleton] at h
        simp only at e h
        right; rw [← e, h]; exact he
      · simp at h
  · rintro (h | h)
    · exact ⟨_, h, by simp⟩
    · exact ⟨_, h, by simp⟩

theorem und_swap (a b : Int) : und (a, b) = und (b, a) := by unfold und; simp only [min_comm, max_comm]

section
variable {n : Nat} {ap ai : Arr}

theorem Sub.init {G : List (Int × Int)} {e : Int × Int} (h : Sub n ap ai (G ++ [e])) : Sub n ap ai G ∧ und e ∉ G.map und := by
  obtain ⟨h1, h2⟩ := h
  rw [List.map_append, List.map_cons, List.map_nil, List.nodup_append] at h1
  exact ⟨⟨h1.1, fun f hf => h2 f (List.mem_append_left _ hf)⟩, fun u => h1.2.2 _ u _ (by simp) rfl⟩

theorem nb_nodup {x : Int} : ∀ {G : List (Int × Int)}, Sub n ap ai G → (nb G x).Nodup := by
  intro G
  induction G using List.reverseRecOn with
  | nil => intro _; exact List.nodup_nil
  | append_singleton G e ih =>
    intro h
    obtain ⟨a, b⟩ := e
    obtain ⟨h1, h2⟩ := h.init
    obtain ⟨-, -, hab, -⟩ := h.2 (a, b) (by simp)
    simp only at hab
    have hno : ∀ u v : Int, und (u, v) = und (a, b) → v ∉ nb G u := fun u v e hv => by
      rcases mem_nb.1 hv with w | w
      · exact h2 (e ▸ List.mem_map_of_mem w)
      · rw [und_swap] at e; exact h2 (e ▸ List.mem_map_of_mem w)
    rw [nb_snoc]
    by_cases ha : a = x
    · rw [if_pos ha, if_neg (fun hb => hab (ha.trans hb.symm)), List.append_nil, List.nodup_append]
      refine ⟨ih h1, List.nodup_singleton _, fun u hu v hv e => ?_⟩
      rw [List.mem_singleton] at hv
      rw [hv] at e
      rw [e] at hu
      exact hno x b (by rw [ha]) hu
    · rw [if_neg ha, List.nil_append]
      by_cases hb : b = x
      · rw [if_pos hb, List.nodup_append]
        refine ⟨ih h1, List.nodup_singleton _, fun u hu v hv e => ?_⟩
        rw [List.mem_singleton] at hv
        rw [hv] at e
        rw [e] at hu
        exact hno x a (by rw [und_swap, hb]) hu
      · rw [if_neg hb, List.append_nil]; exact ih h1

open Classical in
/-- Neighbours in the pattern of `A + Aᵀ`. -/
noncomputable def Nx (n : Nat) (ap ai : Arr) (x : Int) : Finset Int := (nodes n).filter fun y => y ≠ x ∧ (In ap ai x y ∨ In ap ai y x)

open Classical in
theorem mem_Nx {x y : Int} : y ∈ Nx n ap ai x ↔ (0 ≤ y ∧ y < n) ∧ y ≠ x ∧ (In ap ai x y ∨ In ap ai y x) := by
  unfold Nx; rw [Finset.mem_filter, mem_nodes]

theorem Sub.nx {G : List (Int × Int)} (h : Sub n ap ai G) {x y : Int} (hy : y ∈ nb G x) : y ∈ Nx n ap ai x := by
  rw [mem_Nx]
  rcases mem_nb.1 hy with u | u
  · obtain ⟨h1, h2, h3, h4⟩ := h.2 _ u
    exact ⟨h2, fun e => h3 e.symm, h4⟩
  · obtain ⟨h1, h2, h3, h4⟩ := h.2 _ u
    exact ⟨h1, h3, h4.symm⟩

theorem Sub.le {G : List (Int × Int)} (h : Sub n ap ai G) (x : Int) : ((nb G x).length : Int) ≤ (Nx n ap ai x).card := by
  rw [← List.toFinset_card_of_nodup (nb_nodup h)]
  exact_mod_cast Finset.card_le_card fun y hy => h.nx (List.mem_toFinset.1 hy)

/-- At the end, the lists are complete. -/
theorem Rep.full {G : List (Int × Int)} (h : Rep n G fun a b => In ap ai a b ∨ In ap ai b a) {x : Int} (h0 : 0 ≤ x) (h1 : x < n) :
    Sub n ap ai G ∧ (∀ y, y ∈ nb G x ↔ y ∈ Nx n ap ai x) ∧ ((nb G x).length : Int) = (Nx n ap ai x).card := by
  have hs : Sub n ap ai G := h.sub fun a b u => u
  have hm : ∀ y, y ∈ nb G x ↔ y ∈ Nx n ap ai x := fun y => by
    refine ⟨hs.nx, fun hy => ?_⟩
    obtain ⟨hyn, hyx, hp⟩ := mem_Nx.1 hy
    have hD : In ap ai (min x y) (max x y) ∨ In ap ai (max x y) (min x y) := by
      rcases le_total x y with u | u
      · rw [min_eq_left u, max_eq_right u]; exact hp
      · rw [min_eq_right u, max_eq_left u]; exact hp.symm
    obtain ⟨⟨c, d⟩, he, e⟩ := List.mem_map.1 ((h.2 (min x y) (max x y)).2 ⟨by omega, hD⟩)
    unfold und at e
    rw [Prod.mk.injEq] at e
    simp only at e
    rw [mem_nb]
    by_cases hcx : c = x
    · left
      have : d = y := by omega
      rw [← hcx, ← this]; exact he
    · right
      have h1 : c = y := by omega
      have h2 : d = x := by omega
      rw [← h1, ← h2]; exact he
  refine ⟨hs, hm, ?_⟩
  rw [← List.toFinset_card_of_nodup (nb_nodup hs)]
  congr 2
  ext y
  rw [List.mem_toFinset, hm]

/-- Sum of the lengths of the lists before `k`. -/
noncomputable def pre (n : Nat) (ap ai : Arr) (k : Int) : Int := ∑ x ∈ (nodes n).filter fun x => x < k, ((Nx n ap ai x).card : Int)

theorem pre_zero : pre n ap ai 0 = 0 := by
  unfold pre
  rw [Finset.filter_false_of_mem (fun x hx => by have := (mem_nodes.1 hx).1; omega), Finset.sum_empty]

theorem pre_succ {k : Int} (h0 : 0 ≤ k) (h1 : k < n) : pre n ap ai (k + 1) = pre n ap ai k + (Nx n ap ai k).card := by
  unfold pre
  have : (nodes n).filter (fun x => x < k + 1) = insert k ((nodes n).filter fun x => x < k) := by
    ext x
    rw [Finset.mem_insert, Finset.mem_filter, Finset.mem_filter]
    constructor
    · intro u
      by_cases hx : x = k
      · exact Or.inl hx
      · exact Or.inr ⟨u.1, by omega⟩
    · rintro (u | u)
      · rw [u]; exact ⟨mem_nodes.2 ⟨h0, h1⟩, by omega⟩
      · exact ⟨u.1, by omega⟩
  rw [this, Finset.sum_insert (by rw [Finset.mem_filter]; omega)]; ring

theorem pre_mono {k l : Int} (h : k ≤ l) : pre n ap ai k ≤ pre n ap ai l := by
  unfold pre
  refine Finset.sum_le_sum_of_subset_of_nonneg (fun x hx => ?_) fun x _ _ => by omega
  rw [Finset.mem_filter] at hx ⊢
  exact ⟨hx.1, by omega⟩

theorem pre_nonneg (k : Int) : 0 ≤ pre n ap ai k := Finset.sum_nonneg fun x _ => by omega

theorem pre_all : pre n ap ai n = ∑ x ∈ nodes n, ((Nx n ap ai x).card : Int) := by
  unfold pre
  rw [Finset.filter_true_of_mem fun x hx => (mem_nodes.1 hx).2]

theorem pre_find {q : Int} (h0 : 0 ≤ q) : ∀ (k : Nat), (k : Int) ≤ n → q < pre n ap ai k → ∃ x : Int, (0 ≤ x ∧ x < n) ∧ pre n ap ai x ≤ q ∧ q < pre n ap ai (x + 1) := by
  intro k
  induction k with
  | zero => intro _ h; rw [Nat.cast_zero, pre_zero] at h; omega
  | succ k ih =>
    intro hk h
    push_cast at hk h
    by_cases hh : q < pre n ap ai k
    · exact ih (by omega) hh
    · exact ⟨k, by omega, by omega, h⟩

/-- **The lengths.** -/
theorem aat_runs (C : Csc n ap ai) {len tp : Arr} (hl : len.size = n) (ht : tp.size = n) :
    Runs (aat n ap ai len tp) fun r => r.1 = pre n ap ai n ∧ r.2.size = n ∧ ∀ x : Int, 0 ≤ x → x < n → r.2.get x = (Nx n ap ai x).card := by
  unfold aat
  rw [runs_bind]
  refine Runs.mono (P := fun l : Arr => l.size = n ∧ ∀ x : Int, 0 ≤ x → x < n → l.get x = 0) ?_ fun len ⟨l1, l2⟩ => ?_
  · refine forZ_runs (fun k (l : Arr) => 0 ≤ k ∧ l.size = n ∧ ∀ x : Int, 0 ≤ x → x < k → l.get x = 0) (by omega) ⟨le_refl _, hl, fun x a b => by omega⟩ (fun k l _ hk ⟨k0, k1, k2⟩ => ?_) fun l h => h.2
    rw [runs_wrZ]
    refine ⟨⟨k0, by omega⟩, by omega, k1, fun x a b => ?_⟩
    by_cases e : x = k
    · rw [e, Arr.set_same]
    · rw [Arr.set_ne _ _ e]; exact k2 x a (by omega)
  · rw [runs_bind]
    refine (walk_runs C (J := fun G (l : Arr) => l.size = n ∧ ∀ x : Int, 0 ≤ x → x < n → l.get x = (nb G x).length) ?_ ht ?_).mono fun len ⟨G, hJ, hR⟩ => ?_
    · intro G a b l ⟨k1, k2⟩ hS
      obtain ⟨ha, hb, hab, -⟩ := hS.2 (a, b) (by simp)
      simp only at ha hb hab
      simp only [runs_bind, runs_rdZ, runs_wrZ]
      refine ⟨by omega, by omega, by simp only [Arr.set_size]; omega, by simp only [Arr.set_size]; omega, k1, fun x x0 x1 => ?_⟩
      rw [nb_snoc, List.length_append]
      by_cases e1 : a = x
      · subst e1
        rw [if_pos rfl, if_neg (fun e => hab e.symm), Arr.set_ne _ _ hab, Arr.set_same, k2 a x0 x1]
        simp
      · rw [if_neg e1]
        by_cases e2 : b = x
        · subst e2
          rw [if_pos rfl, Arr.set_same, Arr.set_ne _ _ (fun e => hab e.symm), k2 b x0 x1]
          simp
        · rw [if_neg e2, Arr.set_ne _ _ (fun e => e2 e.symm), Arr.set_ne _ _ (fun e => e1 e.symm), k2 x x0 x1]
          simp
    · exact ⟨l1, fun x a b => by rw [l2 x a b]; rfl⟩
    · obtain ⟨k1, k2⟩ := hJ
      have hc : ∀ x : Int, 0 ≤ x → x < n → len.get x = (Nx n ap ai x).card := fun x a b => by rw [k2 x a b, (hR.full a b).2.2]
      rw [runs_bind]
      refine Runs.mono (P := fun s => s = pre n ap ai n) ?_ fun s hs => by rw [runs_pure]; exact ⟨hs, k1, hc⟩
      refine forZ_runs (fun k s => 0 ≤ k ∧ s = pre n ap ai k) (by omega) ⟨le_refl _, pre_zero.symm⟩ (fun k s _ hk ⟨k0, hs⟩ => ?_) fun s h => h.2
      simp only [runs_bind, runs_rdZ, runs_pure]
      refine ⟨by omega, by omega, ?_⟩
      rw [pre_succ k0 hk, hs, hc k k0 hk]

/-- One more entry of a list. -/
theorem fill {iw : Arr} {F : Int → List Int} {a v : Int} (hs : ∀ z : Int, 0 ≤ z → z < n → Seg iw.get (pre n ap ai z) (F z))
    (hl : ∀ z : Int, 0 ≤ z → z < n → ((F z).length : Int) ≤ (Nx n ap ai z).card) (ha : 0 ≤ a ∧ a < n) (hla : ((F a).length : Int) + 1 ≤ (Nx n ap ai a).card) :
    ∀ z : Int, 0 ≤ z → z < n → Seg (iw.set (pre n ap ai a + (F a).length) v).get (pre n ap ai z) (if z = a then F a ++ [v] else F z) := fun z z0 z1 => by
  by_cases e : z = a
  · subst e
    rw [if_pos rfl, seg_append]
    refine ⟨(hs z z0 z1).congr fun q q0 q1 => Arr.set_ne _ _ (by omega), ?_, trivial⟩
    rw [Arr.set_same]
  · rw [if_neg e]
    refine (hs z z0 z1).congr fun q q0 q1 => Arr.set_ne _ _ fun eq => ?_
    have h1 := hl z z0 z1
    have h2 := pre_succ (ap := ap) (ai := ai) z0 z1
    have h3 := pre_succ (ap := ap) (ai := ai) ha.1 ha.2
    rcases lt_or_gt_of_ne e with u | u
    · have := pre_mono (n := n) (ap := ap) (ai := ai) (show z + 1 ≤ a by omega); omega
    · have := pre_mono (n := n) (ap := ap) (ai := ai) (show a + 1 ≤ z by omega); omega

/-- **Lists, elimination and permutation.** -/
theorem one_runs (C : Csc n ap ai) {len : Arr} {slen wbig dense : Int} {aggressive : Bool} {junk : Nat → Int → Int} (hl : len.size = n) (hlen : ∀ x : Int, 0 ≤ x → x < n → len.get x = (Nx n ap ai x).card)
    (hsl : pre n ap ai n + n ≤ slen - 6 * n) : Runs (one n wbig dense aggressive ap ai len slen junk) fun P => P.size = n ∧ (∀ i : Int, 0 ≤ i → i < n → 0 ≤ P.get i ∧ P.get i < n) ∧
      ∀ i : Int, 0 ≤ i → i < n → ∀ j : Int, 0 ≤ j → j < n → P.get i = P.get j → i = j := by
  unfold one
  simp only
  rw [runs_bind]
  refine Runs.mono (P := fun r : Arr × Arr × Int => r.1.size = n ∧ r.2.1.size = n ∧ r.2.2 = pre n ap ai n ∧ ∀ x : Int, 0 ≤ x → x < n → r.1.get x = pre n ap ai x ∧ r.2.1.get x = pre n ap ai x) ?_
    fun r ⟨r1, r2, r3, r4⟩ => ?_
  · refine forZ_runs (fun k (r : Arr × Arr × Int) => 0 ≤ k ∧ r.1.size = n ∧ r.2.1.size = n ∧ r.2.2 = pre n ap ai k ∧ ∀ x : Int, 0 ≤ x → x < k → r.1.get x = pre n ap ai x ∧ r.2.1.get x = pre n ap ai x) (by omega)
      ⟨le_refl _, rfl, rfl, pre_zero.symm, fun x a b => by omega⟩ (fun k r _ hk ⟨k0, k1, k2, k3, k4⟩ => ?_) fun r h => h.2
    simp only [runs_bind, runs_rdZ, runs_wrZ, runs_pure]
    refine ⟨by omega, by omega, by omega, by omega, k1, k2, ?_, fun x a b => ?_⟩
    · rw [pre_succ k0 hk, k3, hlen k k0 hk]
    · by_cases e : x = k
      · subst e
        rw [Arr.set_same, Arr.set_same, k3]; exact ⟨rfl, rfl⟩
      · rw [Arr.set_ne _ _ e, Arr.set_ne _ _ e]; exact k4 x a (by omega)
  · rw [runs_bind]
    refine (walk_runs C (J := fun G (s : Arr × Arr) => s.1.size = n ∧ s.2.size = slen - 6 * n ∧ ∀ x : Int, 0 ≤ x → x < n → s.1.get x = pre n ap ai x + (nb G x).length ∧ Seg s.2.get (pre n ap ai x) (nb G x))
      ?_ (by rfl) ?_).mono fun s ⟨G, hJ, hR⟩ => ?_
    · intro G a b s ⟨k1, k2, k3⟩ hS
      obtain ⟨ha, hb, hab, -⟩ := hS.2 (a, b) (by simp)
      simp only at ha hb hab
      obtain ⟨hG, -⟩ := hS.init
      have qa := hS.le a
      have qb := hS.le b
      rw [nb_snoc, List.length_append] at qa qb
      rw [if_pos rfl, if_neg (fun e => hab e.symm)] at qa
      rw [if_pos rfl, if_neg hab] at qb
      simp only [List.length_append, List.length_cons, List.length_nil] at qa qb
      push_cast at qa qb
      have pa := pre_succ (ap := ap) (ai := ai) ha.1 ha.2
      have pb := pre_succ (ap := ap) (ai := ai) hb.1 hb.2
      have ma := pre_mono (n := n) (ap := ap) (ai := ai) (show a + 1 ≤ n by omega)
      have mb := pre_mono (n := n) (ap := ap) (ai := ai) (show b + 1 ≤ n by omega)
      have na := pre_nonneg (n := n) (ap := ap) (ai := ai) a
      have nb' := pre_nonneg (n := n) (ap := ap) (ai := ai) b
      have ea := (k3 a ha.1 ha.2).1
      have eb := (k3 b hb.1 hb.2).1
      have hba : b ≠ a := fun e => hab e.symm
      simp only [runs_bind, runs_rdZ, runs_wrZ, runs_pure, Arr.set_size]
      rw [Arr.set_ne _ _ hba, ea, eb]
      refine ⟨by omega, by omega, by omega, by omega, by omega, by omega, k1, k2, fun x x0 x1 => ⟨?_, ?_⟩⟩
      · rw [nb_snoc, List.length_append]
        by_cases e1 : a = x
        · subst e1
          rw [if_pos rfl, if_neg hba, Arr.set_ne _ _ hab, Arr.set_same]
          simp; ring
        · rw [if_neg e1]
          by_cases e2 : b = x
          · subst e2
            rw [if_pos rfl, Arr.set_same]
            simp; ring
          · rw [if_neg e2, Arr.set_ne _ _ (fun e => e2 e.symm), Arr.set_ne _ _ (fun e => e1 e.symm), (k3 x x0 x1).1]
            simp
      · have f1 := fill (F := nb G) (a := a) (v := b) (fun z z0 z1 => (k3 z z0 z1).2) (fun z _ _ => hG.le z) ha (by omega)
        have f2 := fill (F := fun z => if z = a then nb G a ++ [b] else nb G z) (a := b) (v := a) f1 (fun z _ _ => ?_) hb (by rw [if_neg hba]; omega) x x0 x1
        · simp only [if_neg hba] at f2
          rw [nb_snoc]
          by_cases e1 : a = x
          · subst e1
            rw [if_pos rfl, if_neg hba]
            rw [if_neg hab, if_pos rfl] at f2
            exact f2
          · rw [if_neg e1]
            by_cases e2 : b = x
            · subst e2
              rw [if_pos rfl]
              rw [if_pos rfl] at f2
              exact f2
            · rw [if_neg e2]
              rw [if_neg (fun e => e2 e.symm), if_neg (fun e => e1 e.symm)] at f2
              simpa using f2
        · show (((if z = a then nb G a ++ [b] else nb G z).length : Nat) : Int) ≤ _
          by_cases e : z = a
          · rw [if_pos e, e, List.length_append, List.length_singleton]; push_cast; omega
          · rw [if_neg e]; exact hG.le z
    · exact ⟨r2, rfl, fun x a b => ⟨by rw [(r4 x a b).2]; simp [nb], trivial⟩⟩
    · obtain ⟨k1, k2, k3⟩ := hJ
      have hS := (hR.sub fun a b u => u : Sub n ap ai G)
      have hcard : ∀ x : Int, 0 ≤ x → x < n → ((nb G x).length : Int) = (Nx n ap ai x).card := fun x a b => (hR.full a b).2.2
      refine two_runs (adj := nb G) (S0 := pre n ap ai n) ⟨⟨r1, k2, hl, rfl, rfl, rfl, rfl, rfl, rfl, rfl⟩, fun x a b => by rw [hcard x a b]; exact hlen x a b, fun x a b => nb_nodup hS, fun x a b y hy => ?_, fun x a b y hy => ?_,
        fun x a b => ?_, fun x a b y a' b' hxy => ?_, fun x a b => ?_, ?_, ?_, fun q q0 q1 => ?_, ?_, hsl⟩
      · have := mem_Nx.1 (hS.nx hy)
        exact ⟨this.1, this.2.1⟩
      · rw [mem_nb] at hy ⊢; exact hy.symm
      · show 0 ≤ r.1.get x ∧ r.1.get x + _ ≤ r.2.2
        rw [(r4 x a b).1, r3, hcard x a b, ← pre_succ a b]
        exact ⟨pre_nonneg x, pre_mono (by omega)⟩
      · show r.1.get x + _ ≤ r.1.get y ∨ r.1.get y + _ ≤ r.1.get x
        rw [(r4 x a b).1, (r4 y a' b').1, hcard x a b, hcard y a' b', ← pre_succ a b, ← pre_succ a' b']
        rcases lt_or_gt_of_ne hxy with u | u
        · exact Or.inl (pre_mono (by omega))
        · exact Or.inr (pre_mono (by omega))
      · show Seg s.2.get (r.1.get x) (nb G x)
        rw [(r4 x a b).1]; exact (k3 x a b).2
      · show 0 ≤ r.2.2
        rw [r3]; exact pre_nonneg _
      · show r.2.2 ≤ _
        rw [r3]; omega
      · have q1' : q < r.2.2 := q1
        rw [r3] at q1'
        obtain ⟨x, hx, x1, x2⟩ := pre_find q0 n (le_refl _) q1'
        rw [pre_succ hx.1 hx.2, ← hcard x hx.1 hx.2] at x2
        have := (k3 x hx.1 hx.2).2.get_mem (k := q - pre n ap ai x) (by omega) (by omega)
        rw [show pre n ap ai x + (q - pre n ap ai x) = q by ring] at this
        exact (mem_Nx.1 (hS.nx this)).1.1
      · rw [pre_all]
        exact le_of_eq (Finset.sum_congr rfl fun x hx => hcard x (mem_nodes.1 hx).1 (mem_nodes.1 hx).2)

end

end Amd
end Hif
