import Verif.CroutLoop

set_option linter.unusedVariables false
set_option linter.unusedSectionVars false
set_option linter.unusedSimpArgs false

/-!
# One elimination step of the Crout update, and the whole loop (proofs)
-/

namespace Hif.Crout
open Finset
variable {K : Type _} [Field K] [DecidableEq K] {R : Type _} [LinearOrder R]

/-- Entries of the line assembled from a sparse vector. -/
theorem ent_ofList (l : List Nat) (hl : l.Nodup) (w : Buf K) (j : Nat) :
    ent (l.map fun i => (i, w.get i)) j = if j ∈ l then w.get j else 0 := by
  induction l with
  | nil => simp [ent_nil]
  | cons a l ih =>
    rw [List.nodup_cons] at hl
    rw [List.map_cons, ent_cons, ih hl.2]
    by_cases e : a = j
    · subst e
      rw [if_pos rfl, if_neg hl.1, add_zero, if_pos (by simp)]
    · rw [if_neg e, zero_add]
      by_cases hj : j ∈ l
      · rw [if_pos hj, if_pos (by simp [hj])]
      · rw [if_neg hj, if_neg (by simp [hj, Ne.symm e])]

/-- Dropping and sorting: the entries of the line that will be appended. -/
structure Dropped (n : Nat) (Φ : Nat → Nat → Prop) (f : K → Nat → SV K → M (SV K)) (ds hi N k : Nat) (v : SV K) (kap : K) (lab : Nat) (r : SV K) : Prop where
  ready : SV.Ready N (k + 1) r
  vsz : r.vals.size = N
  slice : r.inds.slice 0 r.counts = r.list
  sorted : r.list.Pairwise (· < ·)
  range : ∀ j ∈ r.list, (ds < j ∧ j < hi) ∧ j < N
  cnt : Φ lab r.list.length
  keep : ∀ j, ent (r.list.map fun i => (i, r.vals.get i)) j = val v j ∨ ent (r.list.map fun i => (i, r.vals.get i)) j = 0
  zero : ∀ j, val v j = 0 → ent (r.list.map fun i => (i, r.vals.get i)) j = 0
  all : KeepsAll n f → ∀ j, ent (r.list.map fun i => (i, r.vals.get i)) j = val v j
  rule : ∀ Ψ, DropRule n f Ψ → ∀ j, ent (r.list.map fun i => (i, r.vals.get i)) j = val v j ∨
    (ent (r.list.map fun i => (i, r.vals.get i)) j = 0 ∧ Ψ kap lab (val v j))

theorem drop_runs {n : Nat} {Φ : Nat → Nat → Prop} {f : K → Nat → SV K → M (SV K)} (hf : DropOK n Φ f) {k ds hi : Nat}
    {N : Nat} {v : SV K} (hv : SV.Busy N k v) (hN : N ≤ 2 * n) (hvs : v.vals.size = N) (hr : ∀ j ∈ v.list, ds < j ∧ j < hi)
    (kap : K) {lab : Nat} (hlab : lab < n) :
    Runs (f kap lab v) fun r => Dropped n Φ f ds hi N k v kap lab (sortInds r) := by
  obtain ⟨r, hok, r1, r2, r3, r4, r5, r6, r7, r8⟩ := hf kap lab v N k hlab hv hvs
  refine ⟨r, hok, ?_⟩
  obtain ⟨s1, s2, s3, s4, s5, s6⟩ := sortInds_spec r
  have hperm : (sortInds r).list.Perm r.list := by rw [s1]; exact List.perm_insertionSort _ _
  have hnd : (sortInds r).list.Nodup := hperm.nodup_iff.2 r6
  have hmem : ∀ j ∈ (sortInds r).list, j ∈ v.list := fun j hj => r7 (hperm.mem_iff.1 hj)
  have hent : ∀ j, ent ((sortInds r).list.map fun i => (i, (sortInds r).vals.get i)) j = if j ∈ r.list then v.vals.get j else 0 := by
    intro j
    rw [ent_ofList _ hnd, s2, r1]
    simp only [hperm.mem_iff]
  refine ⟨⟨?_, ?_, ?_, ?_, ?_⟩, by rw [s2, r1]; exact hvs, rfl, ?_, ?_, ?_, fun j => ?_, fun j hj => ?_, fun hk j => ?_, fun Ψ hΨ j => ?_⟩
  · rw [s4, r2]; exact hv.tags_size
  · rw [s6, r3]; exact hv.inds_size
  · rw [s5, s6, r4, r3]; exact hv.drop_size
  · rw [s5]; exact r5
  · intro i hi
    rw [s4, r2]
    refine ⟨fun hc => ?_, fun t ht => ?_⟩
    · have := hv.le i hi _ hc; omega
    · have := hv.le i hi t ht; omega
  · have h1 : (sortInds r).list.Pairwise (fun a b => a ≤ b) := by
      rw [s1]
      exact List.pairwise_insertionSort _ _
    refine (h1.and hnd).imp ?_
    rintro a b ⟨h2, h3⟩
    exact lt_of_le_of_ne h2 h3
  · intro j hj
    exact ⟨hr j (hmem j hj), ((hv.mem j).1 (hmem j hj)).1⟩
  · rw [hperm.length_eq]
    have : r.list.length = r.counts := by unfold SV.list; rw [Buf.slice_length]; omega
    rw [this]; exact r8
  · rw [hent]
    unfold val
    by_cases hj : j ∈ r.list
    · rw [if_pos hj, if_pos (r7 hj)]; exact Or.inl rfl
    · rw [if_neg hj]; exact Or.inr rfl
  · rw [hent]
    unfold val at hj
    by_cases hj' : j ∈ r.list
    · rw [if_pos hj']; rw [if_pos (r7 hj')] at hj; exact hj
    · rw [if_neg hj']
  · rw [hent]
    unfold val
    by_cases hj : j ∈ r.list
    · rw [if_pos hj, if_pos (r7 hj)]
    · rw [if_neg hj, if_neg (fun hc => hj (hk kap lab v r N k hlab hN hv hvs hok hc))]
  · rw [hent]
    unfold val
    by_cases hj : j ∈ r.list
    · rw [if_pos hj, if_pos (r7 hj)]; exact Or.inl rfl
    · rw [if_neg hj]
      by_cases hj' : j ∈ v.list
      · rw [if_pos hj']; exact Or.inr ⟨rfl, hΨ kap lab v r N k hlab hv hvs hok j hj' hj⟩
      · rw [if_neg hj']; exact Or.inl rfl

/-- Dropping, sorting and appending a line. -/
theorem dropPush_runs {n : Nat} {Φ : Nat → Nat → Prop} {f : K → Nat → SV K → M (SV K)} (hf : DropOK n Φ f) {k ds hi : Nat} {T : CS K}
    (hT : Asm k T) {N : Nat} {v : SV K} (hv : SV.Busy N k v) (hN : N ≤ 2 * n) (hvs : v.vals.size = N) (hr : ∀ j ∈ v.list, ds < j ∧ j < hi)
    (kap : K) {lab : Nat} (hlab : lab < n) :
    Runs (f kap lab v) fun r => SV.Ready N (k + 1) (sortInds r) ∧ (sortInds r).vals.size = N ∧
      Runs (T.pushLine ((sortInds r).inds.slice 0 (sortInds r).counts) (sortInds r).vals) fun T' =>
        Asm (k + 1) T' ∧ T'.psize = T.psize ∧ T'.ssize = T.ssize ∧ (∀ i, i < k → T'.line i = T.line i) ∧
        (T'.line k).Pairwise (fun a b => a.1 < b.1) ∧ (∀ e ∈ T'.line k, ds < e.1 ∧ e.1 < hi) ∧ Φ lab (T'.line k).length ∧
        (∀ j, ent (T'.line k) j = val v j ∨ ent (T'.line k) j = 0) ∧
        (∀ j, val v j = 0 → ent (T'.line k) j = 0) ∧ (KeepsAll n f → ∀ j, ent (T'.line k) j = val v j) ∧
        (∀ Ψ, DropRule n f Ψ → ∀ j, ent (T'.line k) j = val v j ∨ (ent (T'.line k) j = 0 ∧ Ψ kap lab (val v j))) := by
  refine (drop_runs hf hv hN hvs hr kap hlab).mono fun r d => ⟨d.ready, d.vsz, ?_⟩
  rw [d.slice]
  refine (pushLine_runs hT (sortInds r).list (sortInds r).vals fun j hj => by rw [d.vsz]; exact (d.range j hj).2).mono ?_
  rintro T' ⟨t1, t2, t3, t4, t5, t6⟩
  rw [t6]
  refine ⟨t1, t2, t3, t5, by rw [List.pairwise_map]; exact d.sorted, fun e he => ?_, by rw [List.length_map]; exact d.cnt, d.keep, d.zero, d.all, d.rule⟩
  rw [List.mem_map] at he
  obtain ⟨j, hj, rfl⟩ := he
  exact (d.range j hj).1

variable {pr : Par K R} {I : In K} {ΦU ΦL : Nat → Nat → Prop}

/-- One elimination step. -/
theorem updatePhase_runs (hI : InOK I) (hU : DropOK I.n ΦU pr.dropU) (hL : DropOK I.n ΦL pr.dropL) {c : St K} {g : Gh K}
    (h : Inv pr I ΦU ΦL c g) (hlt : c.step + c.defers < I.m2) (ha : Accepted pr c g) :
    Runs (updatePhase pr I c) fun r => (∃ g', Inv pr I ΦU ΦL { r with step := r.step + 1 } g') ∧
      r.step = c.step ∧ r.defers = c.defers ∧ r.m = c.m ∧ r.nDiag = c.nDiag ∧ r.nCond = c.nCond := by
  obtain ⟨v, o, Us, Ut, Ls, Lt⟩ := g
  obtain ⟨ha1, ⟨ha2, ha3⟩, ha4, ha5⟩ := ha
  have hmle := hI.mle
  have hn : c.step + c.defers < I.n := by omega
  have hvds : v (c.step + c.defers) = c.step + c.defers := h.pos.pend _ (le_refl _)
  have hpp := h.perm.pend _ (le_refl _) hn
  have hqq := h.qerm.pend _ (le_refl _) hn
  have hpl := (hI.pinv.1 _ hn).1
  have hql := (hI.qinv.1 _ hn).1
  have hdk : c.d.get (c.step + c.defers) ≠ 0 := by
    intro hc; rw [hc] at ha1; simp [badDiag] at ha1
  unfold updatePhase compressArray
  simp only [runs_bind, runs_rd, runs_wr, Buf.set_size, Buf.set_get_self, hpp, hqq]
  rw [h.kUsz, h.kLsz, h.dsz, h.perm.psz, h.qerm.psz, hI.ssz, hI.tsz]
  refine ⟨by omega, by omega, by omega, by omega, by omega, by omega, by omega, by omega, by omega, by omega, hpl, ?_⟩
  -- facts about the inverse permutations
  have hinv : ∀ (p0 p pinv pinv0 : Buf Nat) (P : Buf (Option Nat)), PermI I.n c.step c.defers v p0 p pinv P →
      Spec.Inverse I.n p0.get pinv0.get →
      (∀ a, a < I.n → pinv.get a < I.n + c.defers) ∧
      (∀ a b, a < I.n → b < I.n → c.step + c.defers < pinv.get a → pinv.get a = pinv.get b → a = b) := by
    intro p0 p pinv pinv0 P hP h0
    have hcase : ∀ a, a < I.n → ∃ x, x < I.n ∧ p0.get x = a ∧
        ((v x < c.step ∧ pinv.get a < c.step + c.defers) ∨ (c.step + c.defers ≤ v x ∧ v x < I.n + c.defers ∧ pinv.get a = v x)) := by
      intro a ha
      obtain ⟨h1, h2⟩ := h0.2 a ha
      refine ⟨pinv0.get a, h1, h2, ?_⟩
      rcases h.pos.cases (by omega) h1 with h3 | h3
      · exact Or.inl ⟨h3, by have := hP.small _ h1 h3; rw [h2] at this; exact this⟩
      · exact Or.inr ⟨h3.1, h3.2, by have := hP.inv _ h1 h3.1; rw [h2] at this; exact this⟩
    constructor
    · intro a ha
      obtain ⟨x, x1, x2, x3 | x3⟩ := hcase a ha <;> omega
    · intro a b ha hb hgt he
      obtain ⟨x, x1, x2, x3 | x3⟩ := hcase a ha
      · omega
      · obtain ⟨y, y1, y2, y3 | y3⟩ := hcase b hb
        · omega
        · have := h.pos.inj x y x1 y1 (by simp only; omega)
          rw [← x2, ← y2, this]
  obtain ⟨hq1, hq2⟩ := hinv _ _ _ _ _ h.qerm hI.qinv
  obtain ⟨hp1, hp2⟩ := hinv _ _ _ _ _ h.perm hI.pinv
  have hd1 : ∀ i, i < c.step → (c.d.set c.step (c.d.get (c.step + c.defers))).get i = c.d.get i := fun i hi =>
    Buf.set_get_ne _ _ (by omega)
  -- row of U
  refine (computeVec_runs h.L h.U hlt h.utR h.utsz (I.s.get (I.p0.get (c.step + c.defers))) hI.rwf hI.rsorted (sc := I.t)
    (by rw [hI.rs, hI.tsz]) (line := I.p0.get (c.step + c.defers)) (by rw [hI.rp]; exact hpl) (inv := c.qinv)
    (by rw [hI.rs, h.qerm.isz]) (by rw [hI.rs]; exact hq1) (by rw [hI.rs]; exact hq2)
    (d := c.d.set c.step (c.d.get (c.step + c.defers))) (by rw [Buf.set_size, h.dsz]; omega)).mono ?_
  rintro ut1 ⟨u1, u2, u3, u4⟩
  have hu1 : ∀ x, x < I.n → c.step + c.defers < v x → val ut1 (v x) = I.B (c.step + c.defers) x -
      ∑ i ∈ range c.step, Ls i (c.step + c.defers) * c.d.get i * Us i x := by
    intro x hx hv
    have e1 := h.qerm.inv x hx (le_of_lt hv)
    have e2 := u4 (I.q0.get x) (by rw [hI.rs]; exact (hI.qinv.1 x hx).1) (by rw [e1]; exact hv)
    rw [e1] at e2
    rw [show v x = ({ v := v, o := o, Us := Us, Ut := Ut, Ls := Ls, Lt := Lt } : Gh K).v x from rfl, e2]
    unfold In.B
    congr 1
    refine sum_congr rfl fun i hi => ?_
    have hi := mem_range.1 hi
    rw [hd1 i hi]
    have f1 := h.entL i hi (c.step + c.defers) hn
    have f2 := h.entU i hi x hx
    simp only at f1 f2
    rw [hvds] at f1
    rw [f1, f2]
  refine ⟨hql, ?_⟩
  -- column of L
  refine (computeVec_runs h.U h.L hlt h.lR h.lsz (I.t.get (I.q0.get (c.step + c.defers))) hI.cwf hI.csorted (sc := I.s)
    (by rw [hI.cs, hI.ssz]) (line := I.q0.get (c.step + c.defers)) (by rw [hI.cp]; exact hql) (inv := c.pinv)
    (by rw [hI.cs, h.perm.isz]) (by rw [hI.cs]; exact hp1) (by rw [hI.cs]; exact hp2)
    (d := c.d.set c.step (c.d.get (c.step + c.defers))) (by rw [Buf.set_size, h.dsz]; omega)).mono ?_
  rintro l1 ⟨w1, w2, w3, w4⟩
  have hl1 : ∀ x, x < I.n → c.step + c.defers < v x → val l1 (v x) = I.B x (c.step + c.defers) -
      ∑ i ∈ range c.step, Ls i x * c.d.get i * Us i (c.step + c.defers) := by
    intro x hx hv
    have e1 := h.perm.inv x hx (le_of_lt hv)
    have hpx := (hI.pinv.1 x hx).1
    have e2 := w4 (I.p0.get x) (by rw [hI.cs]; exact hpx) (by rw [e1]; exact hv)
    rw [e1] at e2
    rw [show v x = ({ v := v, o := o, Us := Us, Ut := Ut, Ls := Ls, Lt := Lt } : Gh K).v x from rfl, e2, hI.same _ _ hpx hql]
    unfold In.B
    congr 1
    · ring
    · refine sum_congr rfl fun i hi => ?_
      have hi := mem_range.1 hi
      rw [hd1 i hi]
      have f1 := h.entU i hi (c.step + c.defers) hn
      have f2 := h.entL i hi x hx
      simp only at f1 f2
      rw [hvds] at f1
      rw [f1, f2]; ring
  refine ⟨by omega, ?_⟩
  refine (scaleInv_runs pr.nrm pr.safeMin hdk u1 u2).mono ?_
  rintro ut2 ⟨s1, s2, s3, s4, s5⟩
  refine (updateDiag_runs w1 w2 s1 s2 (d := c.d.set c.step (c.d.get (c.step + c.defers))) (m := I.m2) (by rw [Buf.set_size]; exact h.dsz)
    (by omega)).mono ?_
  rintro d2 ⟨d21, d22⟩
  have hlow : ∀ j, j ≤ c.step + c.defers → val l1 j = 0 := fun j hj => by
    unfold val; rw [if_neg]; intro hc; have := w3 j hc; omega
  have hd2 : ∀ i, i < c.step → d2.get i = c.d.get i := by
    intro i hi
    rw [d22, hlow i (by omega), zero_mul, sub_zero, hd1 i hi]; simp
  have hd2k : d2.get c.step = c.d.get (c.step + c.defers) := by
    rw [d22, hlow _ (by omega), zero_mul, sub_zero, Buf.set_get_self]; simp
  have hd2j : ∀ j, c.step + 1 + c.defers ≤ j → j < I.m2 → d2.get j = c.d.get j - val l1 j * val ut2 j := by
    intro j h1 h2
    rw [d22, if_pos h2, Buf.set_get_ne _ _ (by omega)]
  refine ⟨by rw [d21]; omega, ?_⟩
  rw [hd2k]
  refine (scaleInv_runs pr.nrm pr.safeMin hdk w1 w2).mono ?_
  rintro l2 ⟨x1, x2, x3, x4, x5⟩
  -- append the lines
  refine (dropPush_runs hU h.U.asm s1 (le_refl _) s2 (by rw [s3]; exact u3) (c.kU.get c.step) hpl).mono ?_
  rintro ut3 ⟨y1, y2, y3⟩
  refine y3.mono ?_
  rintro UT ⟨a1, a2, a3, a4, a5, a6, a7, a8, a9, a10, a11⟩
  refine (dropPush_runs hL h.L.asm x1 (le_refl _) x2 (by rw [x3]; exact w3) (c.kL.get c.step) hql).mono ?_
  rintro l3 ⟨z1, z2, z3⟩
  refine z3.mono ?_
  rintro LT ⟨b1, b2, b3, b4, b5, b6, b7, b8, b9, b10, b11⟩
  have hcompress : ∀ (F : FacSide K) (T : CS K), Side I.n I.m2 c.step c.defers F → Asm (c.step + 1) T → T.psize = F.T.psize →
      T.ssize = F.T.ssize → (∀ i, i < c.step → T.line i = F.T.line i) → (T.line c.step).Pairwise (fun a b => a.1 < b.1) →
      (∀ e ∈ T.line c.step, c.step + c.defers < e.1 ∧ e.1 < I.n + c.defers) →
      Runs (updateCompress c.step c.defers { F with T := T }) fun G => Side I.n I.m2 (c.step + 1) c.defers G ∧
        (∀ i, i < c.step → G.T.line i = (F.T.line i).map (ren (c.step + c.defers) c.step)) ∧ G.T.line c.step = T.line c.step := by
    intro F T hF t1 t2 t3 t4 t5 t6
    refine (updateCompress_runs (F := { F with T := T }) hlt hmle t1 (by rw [t2]; exact hF.psz) (by rw [t3]; exact hF.ssz) hF.lsz
      hF.stz (fun i hi => by rw [show ({ F with T := T } : FacSide K).T = T from rfl, t4 i hi]; exact hF.lines i hi) ?_ t5 t6).mono ?_
    · refine hF.links.congr fun i hi => ?_
      unfold headOf
      rw [show ({ F with T := T } : FacSide K).T = T from rfl, t4 i hi]
    · rintro G ⟨q1, q2, q3⟩
      refine ⟨q1, fun i hi => ?_, q3⟩
      rw [q2 i hi, show ({ F with T := T } : FacSide K).T = T from rfl, t4 i hi]
  refine (hcompress c.U UT h.U a1 a2 a3 a4 a5 a6).mono ?_
  rintro GU ⟨g1, g2, g3⟩
  refine (hcompress c.L LT h.L b1 b2 b3 b4 b5 b6).mono ?_
  rintro GL ⟨k1, k2, k3⟩
  rw [runs_pure]
  refine ⟨⟨⟨upd v (c.step + c.defers) c.step, upd o c.step (c.step + c.defers),
    upd Us c.step (fun x => ent (UT.line c.step) (v x)), upd Ut c.step (fun x => val ut2 (v x)),
    upd Ls c.step (fun x => ent (LT.line c.step) (v x)), upd Lt c.step (fun x => val l2 (v x))⟩, ?_⟩, by tt, by tt, by tt, by tt, by tt⟩
  -- entries of the compressed lines
  have hent : ∀ (F G : FacSide K) (T : CS K) (S : Nat → Nat → K), Side I.n I.m2 c.step c.defers F →
      (∀ i, i < c.step → G.T.line i = (F.T.line i).map (ren (c.step + c.defers) c.step)) → G.T.line c.step = T.line c.step →
      (∀ e ∈ T.line c.step, c.step + c.defers < e.1 ∧ e.1 < I.n + c.defers) →
      (∀ i, i < c.step → ∀ x, x < I.n → ent (F.T.line i) (v x) = S i x) →
      ∀ i, i < c.step + 1 → ∀ x, x < I.n → ent (G.T.line i) (upd v (c.step + c.defers) c.step x) =
        upd S c.step (fun x => ent (T.line c.step) (v x)) i x := by
    intro F G T S hF q1 q2 q3 q4 i hi x hx
    by_cases ei : i = c.step
    · rw [ei, upd_self, q2]
      by_cases ex : x = c.step + c.defers
      · rw [ex, upd_self, hvds, ent_zero, ent_zero]
        · intro e he; have := q3 e he; omega
        · intro e he; have := q3 e he; omega
      · rw [upd_ne _ _ ex]
    · have hi' : i < c.step := by omega
      rw [upd_ne _ _ ei, q1 i hi']
      have hline := hF.lines i hi'
      have hnk : ∀ e ∈ F.T.line i, e.1 = c.step → c.step + c.defers = c.step := by
        intro e hm e2
        rw [← List.take_append_drop (F.start.get i) (F.T.line i), List.mem_append] at hm
        rcases hm with hm | hm
        · have := hline.before e hm; omega
        · have := hline.after e hm; omega
      rw [ent_ren hnk]
      by_cases ex : x = c.step + c.defers
      · rw [ex, upd_self, if_pos rfl]
        have := q4 i hi' x hx
        rw [ex, hvds] at this
        exact this
      · rw [upd_ne _ _ ex]
        rcases h.pos.other hn hx ex with h1 | h1 <;>
          (simp only at h1; rw [if_neg (by omega), if_neg (by omega)]; exact q4 i hi' x hx)
  have hvlt : ∀ i, i < c.step → ∀ x, i < upd v (c.step + c.defers) c.step x ↔ i < v x := by
    intro i hi x
    by_cases e : x = c.step + c.defers
    · rw [e, upd_self, hvds]; omega
    · rw [upd_ne _ _ e]
  have hvgt : ∀ x, x < I.n → c.step < upd v (c.step + c.defers) c.step x → c.step + c.defers < v x := by
    intro x hx hv
    by_cases e : x = c.step + c.defers
    · rw [e, upd_self] at hv; omega
    · rw [upd_ne _ _ e] at hv
      rcases h.pos.other hn hx e with h1 | h1
      · simp only at h1; omega
      · exact h1.1
  have hvle : ∀ x, x < I.n → upd v (c.step + c.defers) c.step x ≤ c.step → v x ≤ c.step + c.defers := by
    intro x hx hv
    by_cases e : x = c.step + c.defers
    · rw [e, hvds]
    · rw [upd_ne _ _ e] at hv; omega
  have hlow2 : ∀ j, j ≤ c.step + c.defers → val ut2 j = 0 := fun j hj => by
    unfold val; rw [if_neg]; intro hc; rw [s3] at hc; have := u3 j hc; omega
  have hlow3 : ∀ j, j ≤ c.step + c.defers → val l2 j = 0 := fun j hj => by
    rw [x5, hlow j hj, zero_div]
  have hpv : ∀ j, c.step + 1 + c.defers ≤ j → v j = j := fun j hj => h.pos.pend j (by omega)
  have N := h.num
  exact {
    le := by show c.step + 1 + c.defers ≤ I.m2; omega
    m := h.m
    pos := h.pos.keep hn
    perm := h.perm.keep h.pos hn
    qerm := h.qerm.keep h.pos hn
    U := g1, L := k1, dsz := d21, kUsz := h.kUsz, kLsz := h.kLsz, utR := y1, lR := z1, utsz := y2, lsz := z2
    entU := hent c.U GU UT Us h.U g2 g3 a6 h.entU
    entL := hent c.L GL LT Ls h.L k2 k3 b6 h.entL
    num := {
      recU := by
        intro i hi x hx hv
        by_cases ei : i = c.step
        · subst ei
          simp only [upd_self]
          rw [hd2k, s5, mul_div_cancel₀ _ hdk, hu1 x hx (hvgt x hx hv)]
          congr 1
          refine sum_congr rfl fun j hj => ?_
          have hj := mem_range.1 hj
          rw [upd_ne _ _ (by omega), upd_ne _ _ (by omega), hd2 j hj]
        · have hi' : i < c.step := by simp only at hi; omega
          simp only [upd_ne _ _ ei]
          rw [hd2 i hi', N.recU i hi' x hx ((hvlt i hi' x).1 hv)]
          congr 1
          refine sum_congr rfl fun j hj => ?_
          have hj := mem_range.1 hj
          rw [upd_ne _ _ (by omega), upd_ne _ _ (by omega), hd2 j (by omega)]
      recL := by
        intro i hi x hx hv
        by_cases ei : i = c.step
        · subst ei
          simp only [upd_self]
          rw [hd2k, x5, div_mul_cancel₀ _ hdk, hl1 x hx (hvgt x hx hv)]
          congr 1
          refine sum_congr rfl fun j hj => ?_
          have hj := mem_range.1 hj
          rw [upd_ne _ _ (by omega), upd_ne _ _ (by omega), hd2 j hj]
        · have hi' : i < c.step := by simp only at hi; omega
          simp only [upd_ne _ _ ei]
          rw [hd2 i hi', N.recL i hi' x hx ((hvlt i hi' x).1 hv)]
          congr 1
          refine sum_congr rfl fun j hj => ?_
          have hj := mem_range.1 hj
          rw [upd_ne _ _ (by omega), upd_ne _ _ (by omega), hd2 j (by omega)]
      pend := by
        intro j h1 h2
        simp only at h1 ⊢
        rw [sum_range_succ, upd_self, upd_self, hd2j j h1 h2, hpv j h1, hd2k, x5, div_mul_cancel₀ _ hdk, N.pend j (by omega) h2]
        rw [sub_sub]
        congr 2
        refine sum_congr rfl fun i hi => ?_
        have hi := mem_range.1 hi
        rw [upd_ne _ _ (by omega), upd_ne _ _ (by omega), hd2 i hi]
      diag := by
        intro i hi
        by_cases ei : i = c.step
        · subst ei
          simp only [upd_self]
          rw [hd2k, N.pend _ (le_refl _) hlt]
          congr 1
          refine sum_congr rfl fun j hj => ?_
          have hj := mem_range.1 hj
          rw [upd_ne _ _ (by omega), upd_ne _ _ (by omega), hd2 j hj]
        · have hi' : i < c.step := by simp only at hi; omega
          simp only [upd_ne _ _ ei]
          rw [hd2 i hi', N.diag i hi']
          congr 1
          refine sum_congr rfl fun j hj => ?_
          have hj := mem_range.1 hj
          rw [upd_ne _ _ (by omega), upd_ne _ _ (by omega), hd2 j (by omega)]
      keepU := by
        intro i hi x hx
        by_cases ei : i = c.step
        · subst ei; simp only [upd_self]; exact a8 _
        · simp only [upd_ne _ _ ei]; exact N.keepU i (by simp only at hi; omega) x hx
      keepL := by
        intro i hi x hx
        by_cases ei : i = c.step
        · subst ei; simp only [upd_self]; exact b8 _
        · simp only [upd_ne _ _ ei]; exact N.keepL i (by simp only at hi; omega) x hx
      allU := by
        intro hk i hi x hx
        by_cases ei : i = c.step
        · subst ei; simp only [upd_self]; exact a10 hk _
        · simp only [upd_ne _ _ ei]; exact N.allU hk i (by simp only at hi; omega) x hx
      allL := by
        intro hk i hi x hx
        by_cases ei : i = c.step
        · subst ei; simp only [upd_self]; exact b10 hk _
        · simp only [upd_ne _ _ ei]; exact N.allL hk i (by simp only at hi; omega) x hx
      zeroU := by
        intro i hi x hx hv
        by_cases ei : i = c.step
        · subst ei; simp only [upd_self]; exact hlow2 _ (hvle x hx hv)
        · have hi' : i < c.step := by simp only at hi; omega
          simp only [upd_ne _ _ ei]
          exact N.zeroU i hi' x hx (by have := hvlt i hi' x; simp only at hv ⊢; omega)
      zeroL := by
        intro i hi x hx hv
        by_cases ei : i = c.step
        · subst ei; simp only [upd_self]; exact hlow3 _ (hvle x hx hv)
        · have hi' : i < c.step := by simp only at hi; omega
          simp only [upd_ne _ _ ei]
          exact N.zeroL i hi' x hx (by have := hvlt i hi' x; simp only at hv ⊢; omega)
      good := by
        intro i hi
        by_cases ei : i = c.step
        · subst ei; rw [hd2k]; exact ha1
        · have hi' : i < c.step := by simp only at hi; omega
          rw [hd2 i hi']; exact N.good i hi' }
    kapU := by
      intro i hi
      by_cases ei : i = c.step
      · subst ei
        simp only [upd_self]
        refine ⟨ha2.trans ?_, ha4⟩
        split
        · rfl
        · refine congrArg _ (sum_congr rfl fun j hj => ?_)
          have hj := mem_range.1 hj
          rw [upd_ne _ _ (by omega)]
      · have hi' : i < c.step := by simp only at hi; omega
        simp only [upd_ne _ _ ei]
        obtain ⟨q1, q2⟩ := h.kapU i hi'
        refine ⟨q1.trans ?_, q2⟩
        split
        · rfl
        · refine congrArg _ (sum_congr rfl fun j hj => ?_)
          have hj := mem_range.1 hj
          rw [upd_ne _ _ (by omega)]
    kapL := by
      intro i hi
      by_cases ei : i = c.step
      · subst ei
        simp only [upd_self]
        refine ⟨ha3.trans ?_, ha5⟩
        split
        · rfl
        · refine congrArg _ (sum_congr rfl fun j hj => ?_)
          have hj := mem_range.1 hj
          rw [upd_ne _ _ (by omega)]
      · have hi' : i < c.step := by simp only at hi; omega
        simp only [upd_ne _ _ ei]
        obtain ⟨q1, q2⟩ := h.kapL i hi'
        refine ⟨q1.trans ?_, q2⟩
        split
        · rfl
        · refine congrArg _ (sum_congr rfl fun j hj => ?_)
          have hj := mem_range.1 hj
          rw [upd_ne _ _ (by omega)]
    rulU := by
      intro Ψ hΨ i hi x hx
      by_cases ei : i = c.step
      · subst ei; simp only [upd_self]; exact a11 Ψ hΨ _
      · simp only [upd_ne _ _ ei]; exact h.rulU Ψ hΨ i (by simp only at hi; omega) x hx
    rulL := by
      intro Ψ hΨ i hi x hx
      by_cases ei : i = c.step
      · subst ei; simp only [upd_self]; exact b11 Ψ hΨ _
      · simp only [upd_ne _ _ ei]; exact h.rulL Ψ hΨ i (by simp only at hi; omega) x hx
    cntU := by
      intro i hi
      by_cases ei : i = c.step
      · subst ei
        simp only [upd_self]
        rw [g3]; exact a7
      · have hi' : i < c.step := by simp only at hi; omega
        simp only [upd_ne _ _ ei]
        rw [g2 i hi', List.length_map]; exact h.cntU i hi'
    cntL := by
      intro i hi
      by_cases ei : i = c.step
      · subst ei
        simp only [upd_self]
        rw [k3]; exact b7
      · have hi' : i < c.step := by simp only at hi; omega
        simp only [upd_ne _ _ ei]
        rw [k2 i hi', List.length_map]; exact h.cntL i hi' }

/-- The whole loop: it ends with all candidates used up. -/
theorem mainLoop_runs (hI : InOK I) (hU : DropOK I.n ΦU pr.dropU) (hL : DropOK I.n ΦL pr.dropL) (f : Nat) :
    ∀ {c : St K} {g : Gh K}, Inv pr I ΦU ΦL c g → c.nDiag + c.nCond = c.defers → I.m2 - c.step ≤ f →
    Runs (mainLoop pr I f c) fun r => (∃ g', Inv pr I ΦU ΦL r g') ∧ r.step + r.defers = I.m2 ∧ r.m = r.step ∧
      r.nDiag + r.nCond = r.defers := by
  have hmle := hI.mle
  induction f with
  | zero =>
    intro c g h hc hf
    have hle := h.le
    have hm := h.m
    rw [mainLoop, if_neg (by omega), runs_pure]
    exact ⟨⟨g, h⟩, by omega, by omega, hc⟩
  | succ f ih =>
    intro c g h hc hf
    have hle := h.le
    have hm := h.m
    rw [mainLoop]
    by_cases hlt : c.step < c.m
    · rw [if_pos hlt, runs_bind]
      refine (pivotPhase_runs hI h (by omega) hc).mono ?_
      rintro r ⟨⟨g', q1, q2⟩, q3, q4⟩
      have hle' := q1.le
      have hm' := q1.m
      rw [runs_ite]
      by_cases he : r.m = r.step
      · rw [if_pos he, runs_pure]
        exact ⟨⟨g', q1⟩, by omega, he, q4⟩
      · rw [if_neg he, runs_bind]
        refine (updatePhase_runs hI hU hL q1 (by omega) (q2 (by omega))).mono ?_
        rintro r2 ⟨⟨g2, w1⟩, w2, w3, w4, w5, w6⟩
        exact ih w1 (by simp only; omega) (by simp only; omega)
    · rw [if_neg hlt, runs_pure]
      exact ⟨⟨g, h⟩, by omega, by omega, hc⟩

end Hif.Crout
