import Verif.AmdStep4

set_option linter.unusedVariables false

/-! # The start of the elimination -/

namespace Hif
namespace Amd

/-- The lists of neighbours before the elimination; `S0` bounds the sum of their lengths. -/
structure Start (n : Nat) (iwlen S0 : Int) (adj : Int → List Int) (c : St) : Prop where
  sz : Szs n iwlen c
  len : ∀ x : Int, 0 ≤ x → x < n → c.len.get x = (adj x).length
  nd : ∀ x : Int, 0 ≤ x → x < n → (adj x).Nodup
  rng : ∀ x : Int, 0 ≤ x → x < n → ∀ y ∈ adj x, (0 ≤ y ∧ y < n) ∧ y ≠ x
  sym : ∀ x : Int, 0 ≤ x → x < n → ∀ y ∈ adj x, x ∈ adj y
  pos : ∀ x : Int, 0 ≤ x → x < n → 0 ≤ c.pe.get x ∧ c.pe.get x + (adj x).length ≤ c.pfree
  disj : ∀ x : Int, 0 ≤ x → x < n → ∀ y : Int, 0 ≤ y → y < n → x ≠ y → c.pe.get x + (adj x).length ≤ c.pe.get y ∨ c.pe.get y + (adj y).length ≤ c.pe.get x
  val : ∀ x : Int, 0 ≤ x → x < n → Seg c.iw.get (c.pe.get x) (adj x)
  p0 : 0 ≤ c.pfree
  pl : c.pfree ≤ iwlen
  nn : ∀ q : Int, 0 ≤ q → q < c.pfree → 0 ≤ c.iw.get q
  sum : ∑ x ∈ nodes n, ((adj x).length : Int) ≤ S0
  S : S0 + n ≤ iwlen

section
variable {n : Nat} {iwlen S0 : Int} {adj : Int → List Int} {c0 c1 c : St} {wbig dense : Int} {aggressive : Bool}

theorem Start.lt (T : Start n iwlen S0 adj c0) {x : Int} (h0 : 0 ≤ x) (h1 : x < n) : ((adj x).length : Int) < n := by
  have h : (x :: adj x).Nodup := List.nodup_cons.2 ⟨fun u => (T.rng x h0 h1 x u).2 rfl, T.nd x h0 h1⟩
  have := length_le_of_nodup (n := n) h (fun y hy => by
    rcases List.mem_cons.1 hy with u | u
    · rw [u]; exact ⟨h0, h1⟩
    · exact (T.rng x h0 h1 y u).1)
  rw [List.length_cons] at this
  omega

/-- After the first loop. -/
structure I1 (n : Nat) (c0 c : St) (i : Int) : Prop where
  eq : c = { c0 with last := c.last, head := c.head, next := c.next, nv := c.nv, w := c.w, elen := c.elen, degree := c.degree }
  s1 : c.last.size = n
  s2 : c.head.size = n
  s3 : c.next.size = n
  s4 : c.nv.size = n
  s5 : c.w.size = n
  s6 : c.elen.size = n
  s7 : c.degree.size = n
  v : ∀ x : Int, 0 ≤ x → x < i → c.last.get x = -1 ∧ c.head.get x = -1 ∧ c.next.get x = -1 ∧ c.nv.get x = 1 ∧ c.w.get x = 1 ∧ c.elen.get x = 0 ∧ c.degree.get x = c0.len.get x

theorem initArrays_runs (Z : Szs n iwlen c0) : Runs (initArrays n c0) fun c => I1 n c0 c n := by
  unfold initArrays
  refine forZ_runs (fun i c => 0 ≤ i ∧ I1 n c0 c i) (by omega) ⟨le_refl _, rfl, Z.last, Z.head, Z.next, Z.nv, Z.w, Z.elen, Z.degree, fun x a b => by omega⟩ (fun i c h0 h1 hI => ?_) (fun c hI => hI.2)
  obtain ⟨hi, hI⟩ := hI
  have hl : c.len = c0.len := by rw [hI.eq]
  have hh : 0 ≤ i ∧ i < (n : Int) := ⟨hi, h1⟩
  simp only [runs_bind, runs_wrZ, runs_rdZ, runs_pure]
  refine ⟨by rw [hI.s1]; exact hh, by rw [hI.s2]; exact hh, by rw [hI.s3]; exact hh, by rw [hI.s4]; exact hh, by rw [hI.s5]; exact hh, by rw [hI.s6]; exact hh, by rw [hl, Z.len]; exact hh, by rw [hI.s7]; exact hh,
    by omega, ⟨?_, hI.s1, hI.s2, hI.s3, hI.s4, hI.s5, hI.s6, hI.s7, fun x a b => ?_⟩⟩
  · exact congrArg (fun t : St => { t with last := c.last.set i (-1), head := c.head.set i (-1), next := c.next.set i (-1), nv := c.nv.set i 1, w := c.w.set i 1, elen := c.elen.set i 0, degree := c.degree.set i (c.len.get i) }) hI.eq
  · show (c.last.set i (-1)).get x = -1 ∧ (c.head.set i (-1)).get x = -1 ∧ (c.next.set i (-1)).get x = -1 ∧ (c.nv.set i 1).get x = 1 ∧ (c.w.set i 1).get x = 1 ∧ (c.elen.set i 0).get x = 0 ∧
      (c.degree.set i (c.len.get i)).get x = c0.len.get x
    by_cases hx : x = i
    · subst hx
      simp only [Arr.set_same]
      exact ⟨trivial, trivial, trivial, trivial, trivial, trivial, by rw [hl]⟩
    · rw [Arr.set_ne _ _ hx, Arr.set_ne _ _ hx, Arr.set_ne _ _ hx, Arr.set_ne _ _ hx, Arr.set_ne _ _ hx, Arr.set_ne _ _ hx, Arr.set_ne _ _ hx]
      exact hI.v x a (by omega)

/-- Before the second loop. -/
structure I2 (n : Nat) (c0 c1 : St) : Prop where
  eq : c1 = { c0 with last := c1.last, head := c1.head, next := c1.next, nv := c1.nv, w := c1.w, elen := c1.elen, degree := c1.degree, nel := 0, mindeg := 0, lemax := 0, wflg := c1.wflg }
  s1 : c1.last.size = n
  s2 : c1.head.size = n
  s3 : c1.next.size = n
  s4 : c1.nv.size = n
  s5 : c1.w.size = n
  s6 : c1.elen.size = n
  s7 : c1.degree.size = n
  v : ∀ x : Int, 0 ≤ x → x < n → c1.last.get x = -1 ∧ c1.head.get x = -1 ∧ c1.next.get x = -1 ∧ c1.nv.get x = 1 ∧ c1.w.get x ≠ 0 ∧ c1.elen.get x = 0 ∧ c1.degree.get x = c0.len.get x
  wb : WB n c1

theorem start1_runs (Z : Szs n iwlen c0) : Runs (do let c ← initArrays n c0; clearFlag n wbig { c with nel := 0, mindeg := 0, lemax := 0, wflg := 0 }) fun c1 => I2 n c0 c1 := by
  rw [runs_bind]
  refine (initArrays_runs Z).mono fun c hI => ?_
  refine (clearFlag_runs (by exact hI.s5) (Or.inl (by show (0 : Int) < 2; omega))).mono fun c1 ⟨q1, q2, q3, q4, q5⟩ => ?_
  have e1 : c1.last = c.last := by rw [q1]
  have e2 : c1.head = c.head := by rw [q1]
  have e3 : c1.next = c.next := by rw [q1]
  have e4 : c1.nv = c.nv := by rw [q1]
  have e6 : c1.elen = c.elen := by rw [q1]
  have e7 : c1.degree = c.degree := by rw [q1]
  refine ⟨?_, e1 ▸ hI.s1, e2 ▸ hI.s2, e3 ▸ hI.s3, e4 ▸ hI.s4, q2, e6 ▸ hI.s6, e7 ▸ hI.s7, fun x a b => ?_, q3, q4⟩
  · refine q1.trans ?_
    rw [e1, e2, e3, e4, e6, e7]
    exact congrArg (fun t : St => { t with w := c1.w, wflg := c1.wflg, nel := 0, mindeg := 0, lemax := 0 }) hI.eq
  · obtain ⟨h1, h2, h3, h4, h5, h6, h7⟩ := hI.v x a b
    rw [e1, e2, e3, e4, e6, e7]
    refine ⟨h1, h2, h3, h4, fun h => ?_, h6, h7⟩
    have := (q5 x a b).1 h
    have : c.w.get x = 0 := this
    omega

/-- Nodes that take part in the elimination. -/
def V0 (n : Nat) (adj : Int → List Int) (dth : Int) : Finset Int := (nodes n).filter fun x => adj x ≠ [] ∧ ((adj x).length : Int) ≤ dth

/-- During the second loop. -/
structure I3 (n : Nat) (adj : Int → List Int) (dth : Int) (c1 c : St) (i : Int) : Prop where
  eq : c = { c1 with elen := c.elen, pe := c.pe, w := c.w, nv := c.nv, nel := c.nel, head := c.head, next := c.next, last := c.last }
  s1 : c.last.size = n
  s2 : c.head.size = n
  s3 : c.next.size = n
  s4 : c.nv.size = n
  s5 : c.w.size = n
  s6 : c.elen.size = n
  s7 : c.pe.size = n
  un : ∀ x : Int, x < 0 ∨ i ≤ x ∨ x ∈ V0 n adj dth → c.elen.get x = c1.elen.get x ∧ c.pe.get x = c1.pe.get x ∧ c.w.get x = c1.w.get x ∧ c.nv.get x = c1.nv.get x
  ze : ∀ x : Int, 0 ≤ x → x < i → adj x = [] → c.elen.get x ≤ -1 ∧ c.pe.get x = -1 ∧ c.nv.get x = c1.nv.get x
  de : ∀ x : Int, 0 ≤ x → x < i → adj x ≠ [] → dth < (adj x).length → c.elen.get x ≤ -1 ∧ c.pe.get x = -1 ∧ c.nv.get x = 0
  ww : ∀ x : Int, c.w.get x = c1.w.get x ∨ c.w.get x = 0
  dl : ∃ Dl, DLs n ((V0 n adj dth).filter fun x => x < i) Dl noB c.head.get c.next.get c.last.get c.degree.get
  la : ∀ x : Int, i ≤ x → x < n → c.last.get x = -1
  nel : c.nel = ((nodes n).filter fun x => x < i ∧ x ∉ V0 n adj dth).card

theorem addDeg_last {Vd : Finset Int} {Dl : Int → List Int} {i d : Int} (h : DLs n Vd Dl noB c.head.get c.next.get c.last.get c.degree.get)
    (hir : 0 ≤ i ∧ i < n) (hd0 : 0 ≤ d) (hd1 : d < n) (s1 : c.head.size = n) (s2 : c.next.size = n) (s3 : c.last.size = n) :
    Runs (addDeg i d c) fun c' => ∀ x, x ∉ Vd → c'.last.get x = c.last.get x := by
  have hhd := h.hd0 hd0 hd1
  have hr : c.head.get d ≠ -1 → (0 ≤ c.head.get d ∧ c.head.get d < n) ∧ c.head.get d ∈ Vd := fun hne => by
    rw [hhd] at hne ⊢
    have hb : Dl d ≠ [] := fun e => hne (by rw [e]; rfl)
    have := h.nn hd0 hd1 (hd_mem (-1) hb)
    exact ⟨this.1, this.2.1⟩
  unfold addDeg
  rw [runs_bind, runs_rdZ]
  refine ⟨⟨hd0, by omega⟩, ?_⟩
  rw [runs_bind]
  by_cases hn : c.head.get d ≠ -1
  · obtain ⟨h1, h2⟩ := hr hn
    rw [if_pos hn, runs_wrZ]
    simp only [runs_bind, runs_wrZ, runs_pure]
    refine ⟨⟨h1.1, by omega⟩, ⟨hir.1, by omega⟩, ⟨hd0, by omega⟩, fun x hx => Arr.set_ne _ _ fun e => hx (e ▸ h2)⟩
  · rw [if_neg hn, runs_pure]
    simp only [runs_bind, runs_wrZ, runs_pure]
    exact ⟨⟨hir.1, by omega⟩, ⟨hd0, by omega⟩, fun _ _ => trivial⟩

theorem mem_V0 {dth x : Int} : x ∈ V0 n adj dth ↔ (0 ≤ x ∧ x < n) ∧ adj x ≠ [] ∧ ((adj x).length : Int) ≤ dth := by unfold V0; rw [Finset.mem_filter, mem_nodes]

theorem filter_succ_in {dth i : Int} (hi : i ∈ V0 n adj dth) : (V0 n adj dth).filter (fun x => x < i + 1) = insert i ((V0 n adj dth).filter fun x => x < i) := by
  ext x
  rw [Finset.mem_insert, Finset.mem_filter, Finset.mem_filter]
  constructor
  · intro u
    by_cases hx : x = i
    · exact Or.inl hx
    · exact Or.inr ⟨u.1, by omega⟩
  · rintro (u | u)
    · rw [u]; exact ⟨hi, by omega⟩
    · exact ⟨u.1, by omega⟩

theorem filter_succ_out {dth i : Int} (hi : i ∉ V0 n adj dth) : (V0 n adj dth).filter (fun x => x < i + 1) = (V0 n adj dth).filter fun x => x < i := by
  ext x
  rw [Finset.mem_filter, Finset.mem_filter]
  exact ⟨fun u => ⟨u.1, by have : x ≠ i := fun e => hi (e ▸ u.1); omega⟩, fun u => ⟨u.1, by omega⟩⟩

theorem card_succ_in {dth i : Int} (hi : i ∈ V0 n adj dth) : (nodes n).filter (fun x => x < i + 1 ∧ x ∉ V0 n adj dth) = (nodes n).filter fun x => x < i ∧ x ∉ V0 n adj dth := by
  ext x
  rw [Finset.mem_filter, Finset.mem_filter]
  exact ⟨fun u => ⟨u.1, by have : x ≠ i := fun e => u.2.2 (e ▸ hi); omega, u.2.2⟩, fun u => ⟨u.1, by omega, u.2.2⟩⟩

theorem card_succ_out {dth i : Int} (h0 : 0 ≤ i) (h1 : i < n) (hi : i ∉ V0 n adj dth) :
    (((nodes n).filter fun x => x < i + 1 ∧ x ∉ V0 n adj dth).card : Int) = ((nodes n).filter fun x => x < i ∧ x ∉ V0 n adj dth).card + 1 := by
  have : (nodes n).filter (fun x => x < i + 1 ∧ x ∉ V0 n adj dth) = insert i ((nodes n).filter fun x => x < i ∧ x ∉ V0 n adj dth) := by
    ext x
    rw [Finset.mem_insert, Finset.mem_filter, Finset.mem_filter]
    constructor
    · intro u
      by_cases hx : x = i
      · exact Or.inl hx
      · exact Or.inr ⟨u.1, by omega, u.2.2⟩
    · rintro (u | u)
      · rw [u]; exact ⟨mem_nodes.2 ⟨h0, h1⟩, by omega, hi⟩
      · exact ⟨u.1, by omega, u.2.2⟩
  rw [this, Finset.card_insert_of_notMem (by rw [Finset.mem_filter]; omega)]
  push_cast; rfl

theorem I3.skip {dth i : Int} {c' : St} (I : I3 n adj dth c1 c i) (h0 : 0 ≤ i) (h1 : i < n) (hi : i ∉ V0 n adj dth)
    (eq : c' = { c with elen := c'.elen, pe := c'.pe, w := c'.w, nv := c'.nv, nel := c.nel + 1 }) (s4 : c'.nv.size = n) (s5 : c'.w.size = n) (s6 : c'.elen.size = n) (s7 : c'.pe.size = n)
    (un : ∀ x, x ≠ i → c'.elen.get x = c.elen.get x ∧ c'.pe.get x = c.pe.get x ∧ c'.w.get x = c.w.get x ∧ c'.nv.get x = c.nv.get x)
    (ci : c'.elen.get i ≤ -1 ∧ c'.pe.get i = -1) (ze : adj i = [] → c'.nv.get i = c1.nv.get i) (de : adj i ≠ [] → c'.nv.get i = 0) (ww : c'.w.get i = c1.w.get i ∨ c'.w.get i = 0) :
    I3 n adj dth c1 c' (i + 1) := by
  have e1 : c'.last = c.last := by rw [eq]
  have e2 : c'.head = c.head := by rw [eq]
  have e3 : c'.next = c.next := by rw [eq]
  have e4 : c'.degree = c.degree := by rw [eq]
  refine ⟨?_, e1 ▸ I.s1, e2 ▸ I.s2, e3 ▸ I.s3, s4, s5, s6, s7, fun x hx => ?_, fun x a b hx => ?_, fun x a b hx hd => ?_, fun x => ?_, ?_, fun x a b => ?_, ?_⟩
  · refine eq.trans ?_
    rw [e1, e2, e3, show c'.nel = c.nel + 1 by rw [eq]]
    exact congrArg (fun t : St => { t with elen := c'.elen, pe := c'.pe, w := c'.w, nv := c'.nv, nel := c.nel + 1 }) I.eq
  · have hxi : x ≠ i := fun e => by
      rcases hx with u | u | u
      · omega
      · omega
      · exact hi (e ▸ u)
    obtain ⟨u1, u2, u3, u4⟩ := un x hxi
    rw [u1, u2, u3, u4]
    exact I.un x (hx.imp id fun u => u.imp (by omega) id)
  · by_cases hxi : x = i
    · subst hxi; exact ⟨ci.1, ci.2, ze hx⟩
    · obtain ⟨u1, u2, u3, u4⟩ := un x hxi
      rw [u1, u2, u4]; exact I.ze x a (by omega) hx
  · by_cases hxi : x = i
    · subst hxi; exact ⟨ci.1, ci.2, de hx⟩
    · obtain ⟨u1, u2, u3, u4⟩ := un x hxi
      rw [u1, u2, u4]; exact I.de x a (by omega) hx hd
  · by_cases hxi : x = i
    · subst hxi; exact ww
    · rw [(un x hxi).2.2.1]; exact I.ww x
  · rw [filter_succ_out hi, e1, e2, e3, e4]; exact I.dl
  · rw [e1]; exact I.la x (by omega) b
  · rw [card_succ_out h0 h1 hi, ← I.nel, eq]

theorem initNode_runs (T : Start n iwlen S0 adj c0) (J : I2 n c0 c1) {dth i : Int} (h0 : 0 ≤ i) (h1 : i < n) (I : I3 n adj dth c1 c i) :
    Runs (initNode dth i c) fun c' => I3 n adj dth c1 c' (i + 1) := by
  have ed : c.degree = c1.degree := by rw [I.eq]
  have hdeg : c.degree.get i = (adj i).length := by rw [ed, (J.v i h0 h1).2.2.2.2.2.2, T.len i h0 h1]
  have hh : 0 ≤ i ∧ i < (n : Int) := ⟨h0, h1⟩
  have hz : ((adj i).length : Int) = 0 ↔ adj i = [] := by
    constructor
    · intro h; exact List.length_eq_zero_iff.1 (by exact_mod_cast h)
    · intro h; rw [h]; rfl
  unfold initNode
  rw [runs_bind, runs_rdZ]
  refine ⟨by rw [ed, J.s7]; exact hh, ?_⟩
  rw [hdeg]
  by_cases h : adj i = []
  · rw [if_pos (hz.2 h)]
    simp only [runs_bind, runs_wrZ, runs_pure]
    refine ⟨by rw [I.s6]; exact hh, by rw [I.s7]; exact hh, by rw [I.s5]; exact hh, ?_⟩
    refine I.skip h0 h1 (fun u => (mem_V0.1 u).2.1 h) rfl I.s4 I.s5 I.s6 I.s7 (fun x hx => ⟨Arr.set_ne _ _ hx, Arr.set_ne _ _ hx, Arr.set_ne _ _ hx, rfl⟩) ⟨?_, ?_⟩ (fun _ => ?_) (fun u => absurd h u) (Or.inr ?_)
    · show (c.elen.set i (flip 1)).get i ≤ -1
      rw [Arr.set_same]; unfold flip; omega
    · exact Arr.set_same _ _ _
    · exact (I.un i (Or.inr (Or.inl (le_refl _)))).2.2.2
    · exact Arr.set_same _ _ _
  · rw [if_neg (fun u => h (hz.1 u))]
    by_cases hd : dth < (adj i).length
    · rw [if_pos hd]
      simp only [runs_bind, runs_wrZ, runs_pure]
      refine ⟨by rw [I.s4]; exact hh, by rw [I.s6]; exact hh, by rw [I.s7]; exact hh, ?_⟩
      refine I.skip h0 h1 (fun u => by have := (mem_V0.1 u).2.2; omega) rfl I.s4 I.s5 I.s6 I.s7 (fun x hx => ⟨Arr.set_ne _ _ hx, Arr.set_ne _ _ hx, rfl, Arr.set_ne _ _ hx⟩) ⟨?_, ?_⟩ (fun u => absurd u h) (fun _ => ?_)
        (Or.inl ?_)
      · show (c.elen.set i (-1)).get i ≤ -1
        rw [Arr.set_same]
      · exact Arr.set_same _ _ _
      · exact Arr.set_same _ _ _
      · exact (I.un i (Or.inr (Or.inl (le_refl _)))).2.2.1
    · rw [if_neg hd]
      have hiV : i ∈ V0 n adj dth := mem_V0.2 ⟨hh, h, by omega⟩
      obtain ⟨Dl, D⟩ := I.dl
      have hni : i ∉ (V0 n adj dth).filter fun x => x < i := fun u => by have := (Finset.mem_filter.1 u).2; omega
      have hlt := T.lt h0 h1
      refine ((addDeg_runs D hni hh (by omega) hlt I.s2 I.s3 I.s1).and (addDeg_last D hh (by omega) hlt I.s2 I.s3 I.s1)).mono fun c' ⟨⟨q1, q2, q3, q4, q5⟩, q6⟩ => ?_
      have f1 : c'.elen = c.elen := by rw [q1]
      have f2 : c'.pe = c.pe := by rw [q1]
      have f3 : c'.w = c.w := by rw [q1]
      have f4 : c'.nv = c.nv := by rw [q1]
      have f5 : c'.degree = c.degree := by rw [q1]
      have f6 : c'.nel = c.nel := by rw [q1]
      refine ⟨?_, q4, q2, q3, f4 ▸ I.s4, f3 ▸ I.s5, f1 ▸ I.s6, f2 ▸ I.s7, fun x hx => ?_, fun x a b hx => ?_, fun x a b hx hd' => ?_, fun x => ?_, ?_, fun x a b => ?_, ?_⟩
      · refine q1.trans ?_
        rw [f1, f2, f3, f4, f6]
        exact congrArg (fun t : St => { t with head := c'.head, next := c'.next, last := c'.last }) I.eq
      · rw [f1, f2, f3, f4]
        exact I.un x (hx.imp id fun u => u.imp (by omega) id)
      · rw [f1, f2, f4]
        have : x ≠ i := fun e => h (e ▸ hx)
        exact I.ze x a (by omega) hx
      · rw [f1, f2, f4]
        have : x ≠ i := fun e => hd (e ▸ hd')
        exact I.de x a (by omega) hx hd'
      · rw [f3]; exact I.ww x
      · rw [filter_succ_in hiV]
        refine q5 _ _ ?_ (fun x hx => rfl) ?_ fun x hx => by rw [f5]
        · rw [q6 i hni]; exact I.la i (le_refl _) h1
        · rw [f5]; exact hdeg
      · rw [q6 x fun u => by have := (Finset.mem_filter.1 u).2; omega]
        exact I.la x (by omega) b
      · rw [card_succ_in hiV, ← I.nel, f6]

/-- The graph at the start. -/
def gS (n : Nat) (adj : Int → List Int) (dth : Int) : Gh where
  V := V0 n adj dth
  X := ∅
  E := fun _ => []
  A := adj
  wt := fun x => if adj x ≠ [] ∧ dth < (adj x).length then 0 else 1
  rep := fun x => if adj x ≠ [] ∧ dth < (adj x).length then -1 else x
  rk := fun _ => 0
  D := 1

theorem gS_gr (T : Start n iwlen S0 adj c0) {dth : Int} {deg pe : Int → Int} {nel : Int} (hn : nel = ((nodes n).filter fun x => x ∉ V0 n adj dth).card)
    (hp : ∀ x : Int, 0 ≤ x → x < n → x ∉ V0 n adj dth → pe x = -1) : Gr n (gS n adj dth) deg pe nel := by
  have hw1 : ∀ x, adj x ≠ [] ∧ dth < (adj x).length → (gS n adj dth).wt x = 0 := fun x hx => if_pos hx
  have hw2 : ∀ x, ¬ (adj x ≠ [] ∧ dth < (adj x).length) → (gS n adj dth).wt x = 1 := fun x hx => if_neg hx
  have hr1 : ∀ x, adj x ≠ [] ∧ dth < (adj x).length → (gS n adj dth).rep x = -1 := fun x hx => if_pos hx
  have hr2 : ∀ x, ¬ (adj x ≠ [] ∧ dth < (adj x).length) → (gS n adj dth).rep x = x := fun x hx => if_neg hx
  have hV : ∀ x, x ∈ (gS n adj dth).V ↔ (0 ≤ x ∧ x < n) ∧ adj x ≠ [] ∧ ((adj x).length : Int) ≤ dth := fun x => mem_V0
  have hwV : ∀ x ∈ (gS n adj dth).V, (gS n adj dth).wt x = 1 := fun x hx => hw2 x fun u => by have := ((hV x).1 hx).2.2; omega
  refine ⟨fun x hx => ((hV x).1 hx).1, fun x hx => absurd hx (Finset.notMem_empty x), fun x _ => Finset.notMem_empty x, fun x hx => by rw [hwV x hx]; omega, fun x hx => absurd hx (Finset.notMem_empty x), fun x a b => ?_,
    fun x _ => List.nodup_nil, fun x _ e he => absurd he (by show e ∉ []; simp), fun x hx y hy => ?_, fun x hx => absurd hx (Finset.notMem_empty x), fun x hx y hy hxy => ?_, fun x hx => absurd hx (Finset.notMem_empty x),
    fun x hx => absurd hx (Finset.notMem_empty x), fun x hx => absurd hx (Finset.notMem_empty x), ?_, fun y a b => ?_, fun x a b hx => ?_, fun x _ _ _ _ => Nat.zero_lt_one, fun x a b h1 h2 => Or.inl ⟨hp x a b h1, fun hx => ?_⟩⟩
  · by_cases h : adj x ≠ [] ∧ dth < (adj x).length
    · rw [hw1 x h]
    · rw [hw2 x h]; omega
  · obtain ⟨⟨h0, h1⟩, -, -⟩ := (hV x).1 hx
    have hyn := (T.rng x h0 h1 y hy).1
    have hne : adj y ≠ [] := fun e => by
      have := T.sym x h0 h1 y hy
      rw [e] at this; simp at this
    refine ⟨hyn, ?_⟩
    by_cases h : dth < (adj y).length
    · exact Or.inr (hw1 y ⟨hne, h⟩)
    · exact Or.inl ((hV y).2 ⟨hyn, hne, by omega⟩)
  · obtain ⟨⟨h0, h1⟩, -, -⟩ := (hV x).1 hx
    exact T.sym x h0 h1 y hxy
  · rw [Finset.sum_congr rfl hwV, Finset.sum_const, hn]
    have : (nodes n).filter (fun x => x ∈ V0 n adj dth) = V0 n adj dth := by
      ext x; rw [Finset.mem_filter, mem_nodes, mem_V0]; exact ⟨fun u => u.2, fun u => ⟨u.1, u⟩⟩
    have h2 := Finset.card_filter_add_card_filter_not (s := nodes n) (fun x => x ∈ V0 n adj dth)
    rw [this, card_nodes] at h2
    show (_ : Int) + (V0 n adj dth).card • (1 : Int) = _
    rw [nsmul_eq_mul, mul_one]
    omega
  · by_cases h : adj y ≠ [] ∧ dth < (adj y).length
    · rw [hw1 y h]
      have : (nodes n).filter (fun x => (gS n adj dth).rep x = y) = ∅ := by
        rw [Finset.filter_eq_empty_iff]
        intro x hx hxy
        by_cases hx2 : adj x ≠ [] ∧ dth < (adj x).length
        · rw [hr1 x hx2] at hxy; omega
        · rw [hr2 x hx2] at hxy; exact hx2 (hxy ▸ h)
      rw [this]; rfl
    · rw [hw2 y h]
      have : (nodes n).filter (fun x => (gS n adj dth).rep x = y) = {y} := by
        ext x
        rw [Finset.mem_filter, mem_nodes, Finset.mem_singleton]
        constructor
        · rintro ⟨hx, hxy⟩
          by_cases hx2 : adj x ≠ [] ∧ dth < (adj x).length
          · rw [hr1 x hx2] at hxy; omega
          · rw [hr2 x hx2] at hxy; exact hxy
        · intro u
          rw [u]; exact ⟨⟨a, b⟩, hr2 y h⟩
      rw [this]; rfl
  · exact hr2 x fun h => hx (hw1 x h)
  · by_cases h : adj x ≠ [] ∧ dth < (adj x).length
    · exact hr1 x h
    · rw [hw2 x h] at hx; omega

theorem two_inv (T : Start n iwlen S0 adj c0) (J : I2 n c0 c1) {dth : Int} (I : I3 n adj dth c1 c n) : Inv n iwlen S0 (gS n adj dth) c := by
  have e1 : c.degree = c1.degree := by rw [I.eq]
  have e2 : c.len = c0.len := by rw [I.eq]; show c1.len = _; rw [J.eq]
  have e3 : c.iw = c0.iw := by rw [I.eq]; show c1.iw = _; rw [J.eq]
  have e4 : c.pfree = c0.pfree := by rw [I.eq]; show c1.pfree = _; rw [J.eq]
  have e5 : c1.pe = c0.pe := by rw [J.eq]
  have e6 : c.wflg = c1.wflg := by rw [I.eq]
  have e7 : c.mindeg = 0 := by rw [I.eq]; show c1.mindeg = _; rw [J.eq]
  have hV : ∀ x, x ∈ (gS n adj dth).V ↔ (0 ≤ x ∧ x < n) ∧ adj x ≠ [] ∧ ((adj x).length : Int) ≤ dth := fun x => mem_V0
  have hU : (gS n adj dth).V ∪ (gS n adj dth).X = (gS n adj dth).V := Finset.union_empty _
  have hlf : ∀ x, (gS n adj dth).lf x = adj x := fun x => rfl
  have hpe : ∀ x ∈ (gS n adj dth).V, c.pe.get x = c0.pe.get x := fun x hx => by rw [(I.un x (Or.inr (Or.inr hx))).2.1, e5]
  have hdead : ∀ x : Int, 0 ≤ x → x < n → x ∉ V0 n adj dth → adj x = [] ∨ (adj x ≠ [] ∧ dth < (adj x).length) := fun x a b hx => by
    by_cases h : adj x = []
    · exact Or.inl h
    · refine Or.inr ⟨h, ?_⟩
      by_contra hh
      exact hx (mem_V0.2 ⟨⟨a, b⟩, h, by omega⟩)
  have hdg : ∀ x : Int, 0 ≤ x → x < n → c.degree.get x = (adj x).length := fun x a b => by rw [e1, (J.v x a b).2.2.2.2.2.2, T.len x a b]
  refine ⟨⟨I.s7, by rw [e3]; exact T.sz.iw, by rw [e2]; exact T.sz.len, I.s4, I.s3, I.s1, I.s2, I.s6, by rw [e1]; exact J.s7, I.s5⟩, gS_gr T ?_ (fun x a b hx => ?_), fun x a b => ?_, ?_, fun e he => absurd he (Finset.notMem_empty e),
    fun x hx => ?_, fun x a b hx => ?_, ?_, fun x hx => ?_, fun e he => absurd he (Finset.notMem_empty e), ?_, fun x hx => ?_, by rw [e7], by rw [I.nel]; omega, by rw [e4]; exact T.p0, by rw [e4]; exact T.pl,
    by rw [e3, e4]; exact T.nn, ?_, T.S⟩
  · rw [I.nel]
    congr 2
    ext x
    rw [Finset.mem_filter, Finset.mem_filter, mem_nodes]
    exact ⟨fun u => ⟨u.1, u.2.2⟩, fun u => ⟨u.1, u.1.2, u.2⟩⟩
  · rcases hdead x a b hx with u | u
    · exact (I.ze x a b u).2.1
    · exact (I.de x a b u.1 u.2).2.1
  · show _ = if adj x ≠ [] ∧ dth < (adj x).length then (0 : Int) else 1
    by_cases hx : x ∈ V0 n adj dth
    · rw [(I.un x (Or.inr (Or.inr hx))).2.2.2, (J.v x a b).2.2.2.1, if_neg (fun u => by have := (mem_V0.1 hx).2.2; omega)]
    · rcases hdead x a b hx with u | u
      · rw [(I.ze x a b u).2.2, (J.v x a b).2.2.2.1, if_neg (fun v => v.1 u)]
      · rw [(I.de x a b u.1 u.2).2.2, if_pos u]
  · rw [hU]
    refine ⟨fun x hx => ((hV x).1 hx).1, fun x hx => ?_, fun x hx => ?_, fun x hx => ((hV x).1 hx).2.1, fun x hx => ?_, fun x hx y hy hxy => ?_, fun x hx => ?_⟩
    · rw [hpe x hx]; exact (T.pos x ((hV x).1 hx).1.1 ((hV x).1 hx).1.2).1
    · rw [e2]; exact T.len x ((hV x).1 hx).1.1 ((hV x).1 hx).1.2
    · rw [hpe x hx, e4]; exact (T.pos x ((hV x).1 hx).1.1 ((hV x).1 hx).1.2).2
    · rw [hpe x hx, hpe y hy]
      exact T.disj x ((hV x).1 hx).1.1 ((hV x).1 hx).1.2 y ((hV y).1 hy).1.1 ((hV y).1 hy).1.2 hxy
    · rw [hpe x hx, e3]; exact T.val x ((hV x).1 hx).1.1 ((hV x).1 hx).1.2
  · have := ((hV x).1 hx).1
    rw [(I.un x (Or.inr (Or.inr hx))).1, (J.v x this.1 this.2).2.2.2.2.2.1]; rfl
  · rcases hdead x a b hx with u | u
    · exact (I.ze x a b u).1
    · exact (I.de x a b u.1 u.2).1
  · refine ⟨by rw [e6]; exact J.wb.1, fun x a b => ?_⟩
    have h1 := J.wb.1
    have h2 := J.wb.2 x a b
    rw [e6]
    rcases I.ww x with u | u
    · rw [u]; exact h2
    · rw [u]; omega
  · have hxV : x ∈ V0 n adj dth := hx.resolve_right (Finset.notMem_empty x)
    have := (mem_V0.1 hxV).1
    rw [(I.un x (Or.inr (Or.inr hxV))).2.2.1]
    exact (J.v x this.1 this.2).2.2.2.2.1
  · have : (V0 n adj dth).filter (fun x : Int => x < (n : Int)) = V0 n adj dth := by
      ext x; rw [Finset.mem_filter, mem_V0]; exact ⟨fun u => u.1, fun u => ⟨u, u.1.2⟩⟩
    have h := I.dl
    rw [this] at h
    exact h
  · have := ((hV x).1 hx).1
    rw [e7, hdg x this.1 this.2]; omega
  · rw [hU]
    refine le_trans (Finset.sum_le_sum_of_subset_of_nonneg (fun x hx => mem_nodes.2 ((hV x).1 hx).1) fun x _ _ => ?_) T.sum
    omega

/-- **The elimination and the permutation**: from lists of neighbours. -/
theorem two_runs (T : Start n iwlen S0 adj c0) : Runs (two n wbig dense aggressive iwlen c0) fun P => P.size = n ∧
    (∀ i : Int, 0 ≤ i → i < n → 0 ≤ P.get i ∧ P.get i < n) ∧ ∀ i : Int, 0 ≤ i → i < n → ∀ j : Int, 0 ≤ j → j < n → P.get i = P.get j → i = j := by
  unfold two
  have h := start1_runs (wbig := wbig) T.sz
  simp only [runs_bind] at h ⊢
  refine h.mono fun c h => h.mono fun c1 J => ?_
  suffices key : Runs (forZ 0 n c1 fun i c => initNode (min n (max 16 dense)) i c) fun c => I3 n adj (min (n : Int) (max 16 dense)) c1 c n by
    refine key.mono fun c I => ?_
    have := elimFinish_runs (wbig := wbig) (aggressive := aggressive) (two_inv T J I)
    rw [runs_bind] at this
    exact this
  refine forZ_runs (fun i c => 0 ≤ i ∧ I3 n adj (min (n : Int) (max 16 dense)) c1 c i) (by omega) ⟨le_refl _, ?_⟩ (fun i c h0 h1 hI => ?_) (fun c hI => hI.2)
  · have e0 : (V0 n adj (min (n : Int) (max 16 dense))).filter (fun x => x < 0) = ∅ := by
      rw [Finset.filter_eq_empty_iff]
      intro x hx
      have := (mem_V0.1 hx).1.1
      omega
    have e1 : (nodes n).filter (fun x => x < 0 ∧ x ∉ V0 n adj (min (n : Int) (max 16 dense))) = ∅ := by
      rw [Finset.filter_eq_empty_iff]
      intro x hx
      have := (mem_nodes.1 hx).1
      omega
    refine ⟨rfl, J.s1, J.s2, J.s3, J.s4, J.s5, J.s6, by rw [J.eq]; exact T.sz.pe, fun x _ => ⟨rfl, rfl, rfl, rfl⟩, fun x a b => by omega, fun x a b => by omega, fun x => Or.inl rfl, ?_, fun x a b => (J.v x a b).1, ?_⟩
    · rw [e0]
      exact ⟨fun _ => [], fun d a b => by rw [if_pos rfl, (J.v d a b).2.1]; rfl, fun d a b => trivial, fun d a b => trivial, fun d a b => List.nodup_nil, fun d a b x => by simp, fun x hx => absurd hx (Finset.notMem_empty x)⟩
    · rw [e1, J.eq]; rfl
  · exact (initNode_runs T J hI.1 h1 hI.2).mono fun c' I' => ⟨by omega, I'⟩

end

end Amd
end Hif
