import Verif.PSymmLoop

set_option linter.unusedVariables false
set_option linter.unusedSectionVars false
set_option linter.unusedSimpArgs false

/-!
# One elimination step for a symmetric leading block, and the whole phase (proofs)
-/

namespace Hif.PSymm
open Finset Crout
variable {K : Type} [Field K] [DecidableEq K] {R : Type _} [LinearOrder R]

/-- Entries of a sorted line, split at `m2`. -/
theorem ent_split {l l' : List (Nat × K)} {m2 : Nat} (h : ∀ e ∈ l, e.1 < m2) (h' : ∀ e ∈ l', m2 ≤ e.1) (j : Nat) :
    ent (l ++ l') j = if j < m2 then ent l j else ent l' j := by
  rw [ent_append]
  split
  · rw [ent_zero (l := l') (fun e he => by have := h' e he; omega), add_zero]
  · rw [ent_zero (l := l) (fun e he => by have := h e he; omega), zero_add]

/-- The routine on short vectors only. -/
def restrict (n : Nat) (f : K → Nat → SV K → M (SV K)) (kap : K) (lab : Nat) (v : SV K) : M (SV K) := if v.counts ≤ n then f kap lab v else pure v

theorem restrict_ok {n : Nat} {f : K → Nat → SV K → M (SV K)} (hf : DropOK n (fun _ _ => True) f) : DropOK n (fun _ _ => True) (restrict n f) := by
  intro kap lab v N step hlab hv hvs
  unfold restrict
  split
  · exact hf kap lab v N step hlab hv hvs
  · rw [runs_pure]
    exact ⟨rfl, rfl, rfl, rfl, hv.drop_false, hv.nodup, fun x hx => hx, trivial⟩

theorem restrict_keeps {n : Nat} {f : K → Nat → SV K → M (SV K)} (hf : KeepsTail n f) : KeepsAll n (restrict n f) := by
  intro kap lab v r N step hlab hN hv hvs hok
  unfold restrict at hok
  split at hok
  · next h => exact hf kap lab v r N step hlab hN hv hvs h hok
  · cases hok; exact fun x hx => hx

/-- Dropping, sorting and appending a row of `U` and a column of `L`. -/
theorem symPush_runs {n m2 : Nat} {ΦU : Nat → Nat → Prop} {fU : K → Nat → SV K → M (SV K)} {fL : Nat → K → Nat → SV K → M (SV K)}
    (hfU : DropOK n ΦU fU) (hfL : ∀ s, DropOK n (fun _ _ => True) (fL s)) {k ds hi : Nat} {TU TL : CS K} (hTU : Asm k TU) (hTL : Asm k TL)
    {ut l : SV K} (hu : SV.Busy (2 * n) k ut) (hus : ut.vals.size = 2 * n) (hur : ∀ j ∈ ut.list, ds < j ∧ j < hi)
    (hl : SV.Busy (2 * n) k l) (hls : l.vals.size = 2 * n) (hlr : ∀ j ∈ l.list, m2 ≤ j ∧ j < hi) (hds : ds < m2) (hm2 : m2 ≤ n) (hhi : hi ≤ n + m2)
    (kut kl : K) {pk qk : Nat} (hpk : pk < n) (hqk : qk < n) :
    Runs (fU kut pk ut) fun r => SV.Ready (2 * n) (k + 1) (sortInds r) ∧ (sortInds r).vals.size = 2 * n ∧
      Runs (TU.pushLine ((sortInds r).inds.slice 0 (sortInds r).counts) (sortInds r).vals) fun UT =>
        (Asm (k + 1) UT ∧ UT.psize = TU.psize ∧ UT.ssize = TU.ssize ∧ (∀ i, i < k → UT.line i = TU.line i) ∧
          (UT.line k).Pairwise (fun a b => a.1 < b.1) ∧ (∀ e ∈ UT.line k, ds < e.1 ∧ e.1 < hi) ∧ ΦU pk (UT.line k).length ∧
          (∀ j, ent (UT.line k) j = val ut j ∨ ent (UT.line k) j = 0) ∧
          (KeepsAll n fU → ∀ j, ent (UT.line k) j = val ut j) ∧
          (∀ Ψ, DropRule n fU Ψ → ∀ j, ent (UT.line k) j = val ut j ∨ (ent (UT.line k) j = 0 ∧ Ψ kut pk (val ut j)))) ∧
        Runs (lowerBound (sortInds r).inds m2 (sortInds r).counts 0) fun lead =>
          Runs (fL lead kl qk l) fun r' => SV.Ready (2 * n) (k + 1) (sortInds r') ∧ (sortInds r').vals.size = 2 * n ∧
            Runs (TL.pushLine2 ((sortInds r).inds.slice 0 lead) (sortInds r).vals ((sortInds r').inds.slice 0 (sortInds r').counts) (sortInds r').vals) fun LT =>
              Asm (k + 1) LT ∧ LT.psize = TL.psize ∧ LT.ssize = TL.ssize ∧ (∀ i, i < k → LT.line i = TL.line i) ∧
              (LT.line k).Pairwise (fun a b => a.1 < b.1) ∧ (∀ e ∈ LT.line k, ds < e.1 ∧ e.1 < hi) ∧
              (∀ j, j < m2 → ent (LT.line k) j = ent (UT.line k) j) ∧
              (∀ j, m2 ≤ j → ent (LT.line k) j = val l j ∨ ent (LT.line k) j = 0) ∧
              ((∀ s, s ≤ n → KeepsTail n (fL s)) → ∀ j, m2 ≤ j → ent (LT.line k) j = val l j) := by
  refine (drop_runs hfU hu (le_refl _) hus hur kut hpk).mono fun r d => ⟨d.ready, d.vsz, ?_⟩
  rw [d.slice]
  refine (pushLine_runs hTU (sortInds r).list (sortInds r).vals fun j hj => by rw [d.vsz]; exact (d.range j hj).2).mono ?_
  rintro UT ⟨t1, t2, t3, t4, t5, t6⟩
  rw [t6]
  have hsl : ∀ q, q ≤ (sortInds r).counts → (sortInds r).inds.slice 0 q = (sortInds r).list.take q := by
    intro q hq
    have := Buf.slice_append (sortInds r).inds (Nat.zero_le q) hq
    unfold SV.list
    rw [← this, List.take_left' (by rw [Buf.slice_length]; omega)]
  have hlen : (sortInds r).list.length = (sortInds r).counts := by unfold SV.list; rw [Buf.slice_length]; omega
  have hget : ∀ q (hq : q < (sortInds r).list.length), (sortInds r).list[q] = (sortInds r).inds.get q := by
    intro q hq
    have h := Buf.slice_getElem (sortInds r).inds (lo := 0) (hi := (sortInds r).counts) (t := q) hq
    rw [Nat.zero_add] at h
    exact h
  have hcle : (sortInds r).counts ≤ (sortInds r).inds.size := by
    rw [← hlen]
    have h1 := length_le_of_nodup (c := (sortInds r).list) (d.sorted.imp (fun h => Nat.ne_of_lt h)) (k := 2 * n) (fun j hj => (d.range j hj).2)
    exact h1.trans d.ready.inds_size
  refine ⟨⟨t1, t2, t3, t5, by rw [List.pairwise_map]; exact d.sorted, fun e he => ?_, by rw [List.length_map]; exact d.cnt, d.keep, d.all, d.rule⟩, ?_⟩
  · rw [List.mem_map] at he
    obtain ⟨j, hj, rfl⟩ := he
    exact (d.range j hj).1
  refine (lowerBound_runs (sortInds r).inds m2 _ 0 (by omega) ?_).mono ?_
  · intro a b h1 h2 h3
    have := List.pairwise_iff_getElem.1 d.sorted a b (by omega) (by omega) h2
    rwa [hget, hget] at this
  rintro lead ⟨q1, q2, q3, q4⟩
  have hlead : lead ≤ n := by
    have h1 := length_le_of_nodup (c := (sortInds r).list.take lead) ((d.sorted.imp (fun h => Nat.ne_of_lt h)).sublist (List.take_sublist _ _)) (k := m2) fun j hj => by
      obtain ⟨t, ht, rfl⟩ := List.getElem_of_mem hj
      rw [List.length_take] at ht
      rw [List.getElem_take, hget]
      exact q3 t (by omega) (by omega)
    rw [List.length_take] at h1
    omega
  have hlc : l.counts ≤ n := by
    have hll : l.list.length = l.counts := by unfold SV.list; rw [Buf.slice_length]; omega
    have h1 := length_le_of_nodup (c := l.list.map (· - m2)) (k := n) (by
      refine List.Nodup.map_on ?_ hl.nodup
      intro x hx y hy e
      have := hlr x hx
      have := hlr y hy
      omega) (by
      intro j hj
      obtain ⟨x, hx, rfl⟩ := List.mem_map.1 hj
      have := hlr x hx
      omega)
    rw [List.length_map] at h1
    omega
  have hre : fL lead kl qk l = restrict n (fL lead) kl qk l := by unfold restrict; rw [if_pos hlc]
  rw [hre]
  refine (drop_runs (ds := m2 - 1) (hi := hi) (restrict_ok (hfL lead)) hl (le_refl _) hls (fun j hj => by have := hlr j hj; omega) kl hqk).mono fun r' d' => ⟨d'.ready, d'.vsz, ?_⟩
  rw [d'.slice, hsl lead (by omega)]
  refine (pushLine2_runs hTL ((sortInds r).list.take lead) (sortInds r).vals (fun j hj => by rw [d.vsz]; exact (d.range j (List.mem_of_mem_take hj)).2)
    (sortInds r').list (sortInds r').vals fun j hj => by rw [d'.vsz]; exact (d'.range j hj).2).mono ?_
  rintro LT ⟨s1, s2, s3, s4, s5, s6⟩
  rw [s6]
  have hA : ∀ e ∈ ((sortInds r).list.take lead).map (fun j => (j, (sortInds r).vals.get j)), e.1 < m2 := by
    intro e he
    obtain ⟨j, hj, rfl⟩ := List.mem_map.1 he
    obtain ⟨t, ht, rfl⟩ := List.getElem_of_mem hj
    rw [List.length_take] at ht
    rw [List.getElem_take, hget]
    exact q3 t (by omega) (by omega)
  have hB : ∀ e ∈ ((sortInds r).list.drop lead).map (fun j => (j, (sortInds r).vals.get j)), m2 ≤ e.1 := by
    intro e he
    obtain ⟨j, hj, rfl⟩ := List.mem_map.1 he
    obtain ⟨t, ht, rfl⟩ := List.getElem_of_mem hj
    rw [List.length_drop] at ht
    rw [List.getElem_drop, hget]
    exact q4 _ (by omega) (by omega)
  have hC : ∀ e ∈ (sortInds r').list.map (fun j => (j, (sortInds r').vals.get j)), m2 ≤ e.1 := by
    intro e he
    obtain ⟨j, hj, rfl⟩ := List.mem_map.1 he
    have := (d'.range j hj).1.1
    simp only; omega
  have hent := ent_split hA hC
  have hentU : ∀ j, j < m2 → ent ((sortInds r).list.map fun j => (j, (sortInds r).vals.get j)) j =
      ent (((sortInds r).list.take lead).map fun j => (j, (sortInds r).vals.get j)) j := by
    intro j hj
    conv_lhs => rw [← List.take_append_drop lead (sortInds r).list, List.map_append, ent_split hA hB, if_pos hj]
  refine ⟨s1, s2, s3, s5, ?_, ?_, ?_, ?_, ?_⟩
  · rw [List.pairwise_append, List.pairwise_map, List.pairwise_map]
    refine ⟨d.sorted.sublist (List.take_sublist _ _), d'.sorted, fun a ha b hb => ?_⟩
    have h1 := hA a ha
    have h2 := hC b hb
    omega
  · intro e he
    rw [List.mem_append] at he
    rcases he with he | he
    · obtain ⟨j, hj, rfl⟩ := List.mem_map.1 he
      exact (d.range j (List.mem_of_mem_take hj)).1
    · have h1 := hC e he
      obtain ⟨j, hj, rfl⟩ := List.mem_map.1 he
      have := (d'.range j hj).1.2
      simp only at h1 ⊢; omega
  · intro j hj
    rw [hent, if_pos hj, hentU j hj]
  · intro j hj
    rw [hent, if_neg (by omega)]
    exact d'.keep j
  · intro hk j hj
    rw [hent, if_neg (by omega)]
    exact d'.all (restrict_keeps (hk lead hlead)) j

variable {pr : Par K R} {I : Crout.In K} {ΦU : Nat → Nat → Prop}

set_option maxHeartbeats 1000000 in
/-- The numerical part of a step. -/
theorem updatePhase_runs (hI : InOK I) (hsym : ∀ x y, x < I.m2 → y < I.m2 → I.B x y = I.B y x) (hU : DropOK I.n ΦU pr.dropU)
    (hL : ∀ s, DropOK I.n (fun _ _ => True) (pr.dropL s)) {c : Crout.St K} {off : Buf Nat} {g : Gh K}
    (hs : SInv pr I ΦU ⟨c, off⟩ g) (hlt : c.step + c.defers < I.m2) (hsa : SAccepted pr I.n c g) :
    Runs (updatePhase pr I ⟨c, off⟩) fun r => (∃ g', SInv pr I ΦU ⟨{ r.c with step := r.c.step + 1 }, r.off⟩ g') ∧
      r.c.step = c.step ∧ r.c.defers = c.defers ∧ r.c.m = c.m ∧ r.c.nDiag = c.nDiag ∧ r.c.nCond = c.nCond := by
  obtain ⟨ha, hkk⟩ := hsa
  have h : Inv (pr.gh I.n) I ΦU (fun _ _ => True) c g := hs.inv
  have hoff : OffOK I.m2 c.step c.L.T off := hs.off
  have hsy : ∀ i, i < c.step → ∀ x, x < I.n → g.v x < I.m2 → g.Ls i x = g.Us i x := hs.sy
  have hkap : ∀ i, i < c.step → c.kL.get i = c.kU.get i := hs.kap
  obtain ⟨v, o, Us, Ut, Ls, Lt⟩ := g
  obtain ⟨ha1, ⟨ha2, ha3⟩, ha4, ha5⟩ := ha
  have hmle := hI.mle
  have hn : c.step + c.defers < I.n := by omega
  have hvds : v (c.step + c.defers) = c.step + c.defers := h.pos.pend _ (le_refl _)
  have hpp := h.perm.pend _ (le_refl _) hn
  have hqq := h.qerm.pend _ (le_refl _) hn
  have hpl := (hI.pinv.1 _ hn).1
  have hql := (hI.qinv.1 _ hn).1
  simp only at hsy
  have hdk : c.d.get (c.step + c.defers) ≠ 0 := by
    intro hc; rw [hc] at ha1; simp [badDiag] at ha1
  have hpos : ∀ x, x < I.n → c.step + c.defers < v x → v x < I.m2 → x = v x := by
    intro x hx h1 h2
    refine h.pos.inj x (v x) hx (by omega) ?_
    exact (h.pos.pend (v x) (by omega)).symm
  unfold updatePhase compressArray
  simp only [runs_bind, runs_rd, runs_wr, Buf.set_size, Buf.set_get_self, hpp, hqq]
  rw [h.kUsz, h.kLsz, h.dsz, h.perm.psz, h.qerm.psz, hI.ssz, hI.tsz]
  refine ⟨by omega, by omega, by omega, by omega, by omega, by omega, by omega, by omega, by omega, by omega, hpl, ?_⟩
  -- facts about the inverse permutations
  have hinv : ∀ (p0 p pinv pinv0 : Buf Nat) (P : Buf (Option Nat)), PermI I.n c.step c.defers v p0 p pinv P →
      Spec.Inverse I.n p0.get pinv0.get →
      (∀ a, a < I.n → pinv.get a < I.n + c.defers) ∧
      (∀ a b, a < I.n → b < I.n → c.step + c.defers < pinv.get a → pinv.get a = pinv.get b → a = b) := by
    intro p0 p pinv pinv0 P hP h0
    have hcase : ∀ a, a < I.n → ∃ x, x < I.n ∧ p0.get x = a ∧
        ((v x < c.step ∧ pinv.get a < c.step + c.defers) ∨ (c.step + c.defers ≤ v x ∧ v x < I.n + c.defers ∧ pinv.get a = v x)) := by
      intro a ha
      obtain ⟨h1, h2⟩ := h0.2 a ha
      refine ⟨pinv0.get a, h1, h2, ?_⟩
      rcases h.pos.cases (by omega) h1 with h3 | h3
      · exact Or.inl ⟨h3, by have := hP.small _ h1 h3; rw [h2] at this; exact this⟩
      · exact Or.inr ⟨h3.1, h3.2, by have := hP.inv _ h1 h3.1; rw [h2] at this; exact this⟩
    constructor
    · intro a ha
      obtain ⟨x, x1, x2, x3 | x3⟩ := hcase a ha <;> omega
    · intro a b ha hb hgt he
      obtain ⟨x, x1, x2, x3 | x3⟩ := hcase a ha
      · omega
      · obtain ⟨y, y1, y2, y3 | y3⟩ := hcase b hb
        · omega
        · have := h.pos.inj x y x1 y1 (by simp only; omega)
          rw [← x2, ← y2, this]
  obtain ⟨hq1, hq2⟩ := hinv _ _ _ _ _ h.qerm hI.qinv
  obtain ⟨hp1, hp2⟩ := hinv _ _ _ _ _ h.perm hI.pinv
  have hd1 : ∀ i, i < c.step → (c.d.set c.step (c.d.get (c.step + c.defers))).get i = c.d.get i := fun i hi =>
    Buf.set_get_ne _ _ (by omega)
  -- row of U
  refine (computeVec_runs h.L h.U hlt h.utR h.utsz (I.s.get (I.p0.get (c.step + c.defers))) hI.rwf hI.rsorted (sc := I.t)
    (by rw [hI.rs, hI.tsz]) (line := I.p0.get (c.step + c.defers)) (by rw [hI.rp]; exact hpl) (inv := c.qinv)
    (by rw [hI.rs, h.qerm.isz]) (by rw [hI.rs]; exact hq1) (by rw [hI.rs]; exact hq2)
    (d := c.d.set c.step (c.d.get (c.step + c.defers))) (by rw [Buf.set_size, h.dsz]; omega)).mono ?_
  rintro ut1 ⟨u1, u2, u3, u4⟩
  have hu1 : ∀ x, x < I.n → c.step + c.defers < v x → val ut1 (v x) = I.B (c.step + c.defers) x -
      ∑ i ∈ range c.step, Ls i (c.step + c.defers) * c.d.get i * Us i x := by
    intro x hx hv
    have e1 := h.qerm.inv x hx (le_of_lt hv)
    have e2 := u4 (I.q0.get x) (by rw [hI.rs]; exact (hI.qinv.1 x hx).1) (by rw [e1]; exact hv)
    rw [e1] at e2
    rw [show v x = ({ v := v, o := o, Us := Us, Ut := Ut, Ls := Ls, Lt := Lt } : Gh K).v x from rfl, e2]
    unfold In.B
    congr 1
    refine sum_congr rfl fun i hi => ?_
    have hi := mem_range.1 hi
    rw [hd1 i hi]
    have f1 := h.entL i hi (c.step + c.defers) hn
    have f2 := h.entU i hi x hx
    simp only at f1 f2
    rw [hvds] at f1
    rw [f1, f2]
  refine ⟨hql, ?_⟩
  -- column of L
  refine (computeTail_runs h.U h.L hlt hoff h.lR h.lsz (I.t.get (I.q0.get (c.step + c.defers))) hI.cwf hI.csorted (sc := I.s)
    (by rw [hI.cs, hI.ssz]) (line := I.q0.get (c.step + c.defers)) (by rw [hI.cp]; exact hql) (inv := c.pinv)
    (by rw [hI.cs, h.perm.isz]) (by rw [hI.cs]; exact hp1) (by rw [hI.cs]; exact hp2)
    (d := c.d.set c.step (c.d.get (c.step + c.defers))) (by rw [Buf.set_size, h.dsz]; omega)).mono ?_
  rintro l1 ⟨w1, w2, w3, w4⟩
  have hl1 : ∀ x, x < I.n → I.m2 ≤ v x → val l1 (v x) = I.B x (c.step + c.defers) -
      ∑ i ∈ range c.step, Ls i x * c.d.get i * Us i (c.step + c.defers) := by
    intro x hx hv
    have e1 := h.perm.inv x hx (by simp only; omega)
    have hpx := (hI.pinv.1 x hx).1
    have e2 := w4 (I.p0.get x) (by rw [hI.cs]; exact hpx) (by rw [e1]; exact hv)
    rw [e1] at e2
    rw [show v x = ({ v := v, o := o, Us := Us, Ut := Ut, Ls := Ls, Lt := Lt } : Gh K).v x from rfl, e2, hI.same _ _ hpx hql]
    unfold In.B
    congr 1
    · ring
    · refine sum_congr rfl fun i hi => ?_
      have hi := mem_range.1 hi
      rw [hd1 i hi]
      have f1 := h.entU i hi (c.step + c.defers) hn
      have f2 := h.entL i hi x hx
      simp only at f1 f2
      rw [hvds] at f1
      rw [f1, f2]; ring
  refine ⟨by omega, ?_⟩
  refine (scaleInv_runs pr.nrm pr.safeMin hdk u1 u2).mono ?_
  rintro ut2 ⟨s1, s2, s3, s4, s5⟩
  refine (Symm.symmDiag_runs s1 s2 (d := c.d.set c.step (c.d.get (c.step + c.defers))) (m := I.m2) (by rw [Buf.set_size]; exact h.dsz)
    (by omega) (by omega)).mono ?_
  rintro d2 ⟨d21, d22⟩
  have hlow2 : ∀ j, j ≤ c.step + c.defers → val ut2 j = 0 := fun j hj => by
    unfold Crout.val; rw [if_neg]; intro hc; rw [s3] at hc; have := u3 j hc; omega
  have hd2 : ∀ i, i < c.step → d2.get i = c.d.get i := by
    intro i hi
    rw [d22, hlow2 i (by omega), mul_zero, sub_zero, hd1 i hi]; simp
  have hd2k : d2.get c.step = c.d.get (c.step + c.defers) := by
    rw [d22, hlow2 _ (by omega), mul_zero, sub_zero, Buf.set_get_self]; simp
  have hd2j : ∀ j, c.step + 1 + c.defers ≤ j → j < I.m2 → d2.get j = c.d.get j - val ut2 j * c.d.get (c.step + c.defers) * val ut2 j := by
    intro j h1 h2
    rw [d22, if_pos h2, Buf.set_get_ne _ _ (by omega), Buf.set_get_self]; ring
  refine ⟨by rw [d21]; omega, ?_⟩
  rw [hd2k]
  refine (scaleInv_runs pr.nrm pr.safeMin hdk w1 w2).mono ?_
  rintro l2 ⟨x1, x2, x3, x4, x5⟩
  -- append the lines
  refine (symPush_runs hU hL h.U.asm h.L.asm s1 s2 (by rw [s3]; exact u3) x1 x2 (by rw [x3]; exact w3) hlt hmle (by omega) (c.kU.get c.step) (c.kL.get c.step) hpl hql).mono ?_
  rintro ut3 ⟨y1, y2, y3⟩
  refine y3.mono ?_
  rintro UT ⟨⟨a1, a2, a3, a4, a5, a6, a7, a8, a10, a11⟩, y4⟩
  refine y4.mono ?_
  intro lead y5
  refine y5.mono ?_
  rintro l3 ⟨z1, z2, z3⟩
  refine z3.mono ?_
  rintro LT ⟨b1, b2, b3, b4, b5, b6, b7, b8, b9⟩
  have hcompress : ∀ (F : FacSide K) (T : CS K), Side I.n I.m2 c.step c.defers F → Asm (c.step + 1) T → T.psize = F.T.psize →
      T.ssize = F.T.ssize → (∀ i, i < c.step → T.line i = F.T.line i) → (T.line c.step).Pairwise (fun a b => a.1 < b.1) →
      (∀ e ∈ T.line c.step, c.step + c.defers < e.1 ∧ e.1 < I.n + c.defers) →
      Runs (updateCompress c.step c.defers { F with T := T }) fun G => Side I.n I.m2 (c.step + 1) c.defers G ∧
        (∀ i, i < c.step → G.T.line i = (F.T.line i).map (ren (c.step + c.defers) c.step)) ∧ G.T.line c.step = T.line c.step := by
    intro F T hF t1 t2 t3 t4 t5 t6
    refine (updateCompress_runs (F := { F with T := T }) hlt hmle t1 (by rw [t2]; exact hF.psz) (by rw [t3]; exact hF.ssz) hF.lsz
      hF.stz (fun i hi => by rw [show ({ F with T := T } : FacSide K).T = T from rfl, t4 i hi]; exact hF.lines i hi) ?_ t5 t6).mono ?_
    · refine hF.links.congr fun i hi => ?_
      unfold headOf
      rw [show ({ F with T := T } : FacSide K).T = T from rfl, t4 i hi]
    · rintro G ⟨q1, q2, q3⟩
      refine ⟨q1, fun i hi => ?_, q3⟩
      rw [q2 i hi, show ({ F with T := T } : FacSide K).T = T from rfl, t4 i hi]
  refine (hcompress c.U UT h.U a1 a2 a3 a4 a5 a6).mono ?_
  rintro GU ⟨g1, g2, g3⟩
  refine (hcompress c.L LT h.L b1 b2 b3 b4 b5 b6).mono ?_
  rintro GL ⟨k1, k2, k3⟩
  refine (newOffset_runs (n := I.n) (δ := c.defers) k1.asm hoff.1 (by omega) (by rw [k3]; exact b5) (fun e he => by rw [k3] at he; exact (b6 e he).2)).mono ?_
  rintro off' ⟨f1, f2, f3, f4, f5⟩
  rw [runs_pure]
  refine ⟨⟨⟨upd v (c.step + c.defers) c.step, upd o c.step (c.step + c.defers),
    upd Us c.step (fun x => ent (UT.line c.step) (v x)), upd Ut c.step (fun x => val ut2 (v x)),
    upd Ls c.step (fun x => ent (LT.line c.step) (v x)), upd Lt c.step (fun x => if v x < I.m2 then val ut2 (v x) else val l2 (v x))⟩, ?_⟩, by tt, by tt, by tt, by tt, by tt⟩
  -- entries of the compressed lines
  have hent : ∀ (F G : FacSide K) (T : CS K) (S : Nat → Nat → K), Side I.n I.m2 c.step c.defers F →
      (∀ i, i < c.step → G.T.line i = (F.T.line i).map (ren (c.step + c.defers) c.step)) → G.T.line c.step = T.line c.step →
      (∀ e ∈ T.line c.step, c.step + c.defers < e.1 ∧ e.1 < I.n + c.defers) →
      (∀ i, i < c.step → ∀ x, x < I.n → ent (F.T.line i) (v x) = S i x) →
      ∀ i, i < c.step + 1 → ∀ x, x < I.n → ent (G.T.line i) (upd v (c.step + c.defers) c.step x) =
        upd S c.step (fun x => ent (T.line c.step) (v x)) i x := by
    intro F G T S hF q1 q2 q3 q4 i hi x hx
    by_cases ei : i = c.step
    · rw [ei, upd_self, q2]
      by_cases ex : x = c.step + c.defers
      · rw [ex, upd_self, hvds, ent_zero, ent_zero]
        · intro e he; have := q3 e he; omega
        · intro e he; have := q3 e he; omega
      · rw [upd_ne _ _ ex]
    · have hi' : i < c.step := by omega
      rw [upd_ne _ _ ei, q1 i hi']
      have hline := hF.lines i hi'
      have hnk : ∀ e ∈ F.T.line i, e.1 = c.step → c.step + c.defers = c.step := by
        intro e hm e2
        rw [← List.take_append_drop (F.start.get i) (F.T.line i), List.mem_append] at hm
        rcases hm with hm | hm
        · have := hline.before e hm; omega
        · have := hline.after e hm; omega
      rw [ent_ren hnk]
      by_cases ex : x = c.step + c.defers
      · rw [ex, upd_self, if_pos rfl]
        have := q4 i hi' x hx
        rw [ex, hvds] at this
        exact this
      · rw [upd_ne _ _ ex]
        rcases h.pos.other hn hx ex with h1 | h1 <;>
          (simp only at h1; rw [if_neg (by omega), if_neg (by omega)]; exact q4 i hi' x hx)
  have hvlt : ∀ i, i < c.step → ∀ x, i < upd v (c.step + c.defers) c.step x ↔ i < v x := by
    intro i hi x
    by_cases e : x = c.step + c.defers
    · rw [e, upd_self, hvds]; omega
    · rw [upd_ne _ _ e]
  have hvgt : ∀ x, x < I.n → c.step < upd v (c.step + c.defers) c.step x → c.step + c.defers < v x := by
    intro x hx hv
    by_cases e : x = c.step + c.defers
    · rw [e, upd_self] at hv; omega
    · rw [upd_ne _ _ e] at hv
      rcases h.pos.other hn hx e with h1 | h1
      · simp only at h1; omega
      · exact h1.1
  have hvle : ∀ x, x < I.n → upd v (c.step + c.defers) c.step x ≤ c.step → v x ≤ c.step + c.defers := by
    intro x hx hv
    by_cases e : x = c.step + c.defers
    · rw [e, hvds]
    · rw [upd_ne _ _ e] at hv; omega
  have hlow3 : ∀ j, j ≤ c.step + c.defers → (if j < I.m2 then val ut2 j else val l2 j) = 0 := fun j hj => by
    rw [if_pos (by omega)]; exact hlow2 j hj
  have hpv : ∀ j, c.step + 1 + c.defers ≤ j → v j = j := fun j hj => h.pos.pend j (by omega)
  have N := h.num
  have hrecL : ∀ x, x < I.n → c.step + c.defers < v x → (if v x < I.m2 then val ut2 (v x) else val l2 (v x)) * c.d.get (c.step + c.defers) =
      I.B x (c.step + c.defers) - ∑ i ∈ range c.step, Ls i x * c.d.get i * Us i (c.step + c.defers) := by
    intro x hx hv
    split
    · next hm =>
      have hxx := hpos x hx hv hm
      rw [s5, div_mul_cancel₀ _ hdk, hu1 x hx hv, hsym _ _ hlt (show x < I.m2 by omega)]
      congr 1
      refine sum_congr rfl fun i hi => ?_
      have hi := mem_range.1 hi
      rw [hsy i hi x hx hm, hsy i hi _ hn (by omega)]; ring
    · next hm => rw [x5, div_mul_cancel₀ _ hdk, hl1 x hx (by omega)]
  have hkeepL : ∀ x, x < I.n → ent (LT.line c.step) (v x) = (if v x < I.m2 then val ut2 (v x) else val l2 (v x)) ∨ ent (LT.line c.step) (v x) = 0 := by
    intro x hx
    split
    · next hm => rw [b7 _ hm]; exact a8 _
    · next hm => exact b8 _ (by omega)
  have hallL : KeepsAll I.n (pr.gh I.n).dropL → ∀ x, x < I.n → ent (LT.line c.step) (v x) = (if v x < I.m2 then val ut2 (v x) else val l2 (v x)) := by
    intro hk x hx
    obtain ⟨k1, k2⟩ := gh_keeps (by omega) hk
    split
    · next hm => rw [b7 _ hm]; exact a10 k1 _
    · next hm => exact b9 k2 _ (by omega)
  refine ⟨?inv, ⟨f1, ?_⟩, ?_, ?_⟩
  case inv => exact {
    le := by show c.step + 1 + c.defers ≤ I.m2; omega
    m := h.m
    pos := h.pos.keep hn
    perm := h.perm.keep h.pos hn
    qerm := h.qerm.keep h.pos hn
    U := g1, L := k1, dsz := d21, kUsz := h.kUsz, kLsz := h.kLsz, utR := y1, lR := z1, utsz := y2, lsz := z2
    entU := hent c.U GU UT Us h.U g2 g3 a6 h.entU
    entL := hent c.L GL LT Ls h.L k2 k3 b6 h.entL
    num := {
      recU := by
        intro i hi x hx hv
        by_cases ei : i = c.step
        · subst ei
          simp only [upd_self]
          rw [hd2k, s5, mul_div_cancel₀ _ hdk, hu1 x hx (hvgt x hx hv)]
          congr 1
          refine sum_congr rfl fun j hj => ?_
          have hj := mem_range.1 hj
          rw [upd_ne _ _ (by omega), upd_ne _ _ (by omega), hd2 j hj]
        · have hi' : i < c.step := by simp only at hi; omega
          simp only [upd_ne _ _ ei]
          rw [hd2 i hi', N.recU i hi' x hx ((hvlt i hi' x).1 hv)]
          congr 1
          refine sum_congr rfl fun j hj => ?_
          have hj := mem_range.1 hj
          rw [upd_ne _ _ (by omega), upd_ne _ _ (by omega), hd2 j (by omega)]
      recL := by
        intro i hi x hx hv
        by_cases ei : i = c.step
        · subst ei
          simp only [upd_self]
          rw [hd2k, hrecL x hx (hvgt x hx hv)]
          congr 1
          refine sum_congr rfl fun j hj => ?_
          have hj := mem_range.1 hj
          rw [upd_ne _ _ (by omega), upd_ne _ _ (by omega), hd2 j hj]
        · have hi' : i < c.step := by simp only at hi; omega
          simp only [upd_ne _ _ ei]
          rw [hd2 i hi', N.recL i hi' x hx ((hvlt i hi' x).1 hv)]
          congr 1
          refine sum_congr rfl fun j hj => ?_
          have hj := mem_range.1 hj
          rw [upd_ne _ _ (by omega), upd_ne _ _ (by omega), hd2 j (by omega)]
      pend := by
        intro j h1 h2
        simp only at h1 ⊢
        rw [sum_range_succ, upd_self, upd_self, hd2j j h1 h2, hpv j h1, hd2k, if_pos h2, N.pend j (by omega) h2]
        rw [sub_sub]
        congr 2
        refine sum_congr rfl fun i hi => ?_
        have hi := mem_range.1 hi
        rw [upd_ne _ _ (by omega), upd_ne _ _ (by omega), hd2 i hi]
      diag := by
        intro i hi
        by_cases ei : i = c.step
        · subst ei
          simp only [upd_self]
          rw [hd2k, N.pend _ (le_refl _) hlt]
          congr 1
          refine sum_congr rfl fun j hj => ?_
          have hj := mem_range.1 hj
          rw [upd_ne _ _ (by omega), upd_ne _ _ (by omega), hd2 j hj]
        · have hi' : i < c.step := by simp only at hi; omega
          simp only [upd_ne _ _ ei]
          rw [hd2 i hi', N.diag i hi']
          congr 1
          refine sum_congr rfl fun j hj => ?_
          have hj := mem_range.1 hj
          rw [upd_ne _ _ (by omega), upd_ne _ _ (by omega), hd2 j (by omega)]
      keepU := by
        intro i hi x hx
        by_cases ei : i = c.step
        · subst ei; simp only [upd_self]; exact a8 _
        · simp only [upd_ne _ _ ei]; exact N.keepU i (by simp only at hi; omega) x hx
      keepL := by
        intro i hi x hx
        by_cases ei : i = c.step
        · subst ei; simp only [upd_self]; exact hkeepL x hx
        · simp only [upd_ne _ _ ei]; exact N.keepL i (by simp only at hi; omega) x hx
      allU := by
        intro hk i hi x hx
        by_cases ei : i = c.step
        · subst ei; simp only [upd_self]; exact a10 hk _
        · simp only [upd_ne _ _ ei]; exact N.allU hk i (by simp only at hi; omega) x hx
      allL := by
        intro hk i hi x hx
        by_cases ei : i = c.step
        · subst ei; simp only [upd_self]; exact hallL hk x hx
        · simp only [upd_ne _ _ ei]; exact N.allL hk i (by simp only at hi; omega) x hx
      zeroU := by
        intro i hi x hx hv
        by_cases ei : i = c.step
        · subst ei; simp only [upd_self]; exact hlow2 _ (hvle x hx hv)
        · have hi' : i < c.step := by simp only at hi; omega
          simp only [upd_ne _ _ ei]
          exact N.zeroU i hi' x hx (by have := hvlt i hi' x; simp only at hv ⊢; omega)
      zeroL := by
        intro i hi x hx hv
        by_cases ei : i = c.step
        · subst ei; simp only [upd_self]; exact hlow3 _ (hvle x hx hv)
        · have hi' : i < c.step := by simp only at hi; omega
          simp only [upd_ne _ _ ei]
          exact N.zeroL i hi' x hx (by have := hvlt i hi' x; simp only at hv ⊢; omega)
      good := by
        intro i hi
        by_cases ei : i = c.step
        · subst ei; rw [hd2k]; exact ha1
        · have hi' : i < c.step := by simp only at hi; omega
          rw [hd2 i hi']; exact N.good i hi' }
    kapU := by
      intro i hi
      by_cases ei : i = c.step
      · subst ei
        simp only [upd_self]
        refine ⟨ha2.trans ?_, ha4⟩
        split
        · rfl
        · refine congrArg _ (sum_congr rfl fun j hj => ?_)
          have hj := mem_range.1 hj
          rw [upd_ne _ _ (by omega)]
      · have hi' : i < c.step := by simp only at hi; omega
        simp only [upd_ne _ _ ei]
        obtain ⟨q1, q2⟩ := h.kapU i hi'
        refine ⟨q1.trans ?_, q2⟩
        split
        · rfl
        · refine congrArg _ (sum_congr rfl fun j hj => ?_)
          have hj := mem_range.1 hj
          rw [upd_ne _ _ (by omega)]
    kapL := by
      intro i hi
      by_cases ei : i = c.step
      · subst ei
        simp only [upd_self]
        refine ⟨ha3.trans ?_, ha5⟩
        split
        · rfl
        · refine congrArg _ (sum_congr rfl fun j hj => ?_)
          have hj := mem_range.1 hj
          rw [upd_ne _ _ (by omega)]
      · have hi' : i < c.step := by simp only at hi; omega
        simp only [upd_ne _ _ ei]
        obtain ⟨q1, q2⟩ := h.kapL i hi'
        refine ⟨q1.trans ?_, q2⟩
        split
        · rfl
        · refine congrArg _ (sum_congr rfl fun j hj => ?_)
          have hj := mem_range.1 hj
          rw [upd_ne _ _ (by omega)]
    rulU := by
      intro Ψ hΨ i hi x hx
      by_cases ei : i = c.step
      · subst ei; simp only [upd_self]; exact a11 Ψ hΨ _
      · simp only [upd_ne _ _ ei]; exact h.rulU Ψ hΨ i (by simp only at hi; omega) x hx
    rulL := by
      intro Ψ hΨ i hi x hx
      by_cases ei : i = c.step
      · subst ei; simp only [upd_self]
        by_cases hk : pr.Keeps I.n
        · exact Or.inl (hallL (gh_keeps' hk) x hx)
        · rcases hkeepL x hx with e | e
          · exact Or.inl e
          · exact Or.inr ⟨e, gh_rule hΨ hql hk _ _⟩
      · simp only [upd_ne _ _ ei]; exact h.rulL Ψ hΨ i (by simp only at hi; omega) x hx
    cntU := by
      intro i hi
      by_cases ei : i = c.step
      · subst ei
        simp only [upd_self]
        rw [g3]; exact a7
      · have hi' : i < c.step := by simp only at hi; omega
        simp only [upd_ne _ _ ei]
        rw [g2 i hi', List.length_map]; exact h.cntU i hi'
    cntL := fun _ _ => trivial }
  · intro i hi
    have hi : i < c.step + 1 := hi
    by_cases ei : i = c.step
    · subst ei; exact ⟨f3, f4, f5⟩
    · have hi' : i < c.step := by omega
      show off'.get i ≤ (GL.T.line i).length ∧ _
      obtain ⟨q1, q2, q3⟩ := hoff.2 i hi'
      rw [f2 i ei, k2 i hi', List.length_map, ← List.map_take, ← List.map_drop]
      refine ⟨q1, fun e he => ?_, fun e he => ?_⟩
      · obtain ⟨e', he', rfl⟩ := List.mem_map.1 he
        have := q2 e' he'
        unfold ren
        split <;> omega
      · obtain ⟨e', he', rfl⟩ := List.mem_map.1 he
        have := q3 e' he'
        unfold ren
        rw [if_neg (by omega)]; exact this
  · intro i hi x hx hv
    have hi : i < c.step + 1 := hi
    have hv' : v x < I.m2 := by
      by_cases ex : x = c.step + c.defers
      · rw [ex, hvds]; exact hlt
      · simp only [upd_ne _ _ ex] at hv; exact hv
    by_cases ei : i = c.step
    · subst ei; simp only [upd_self]; exact b7 _ hv'
    · simp only [upd_ne _ _ ei]; exact hsy i (by omega) x hx hv'
  · intro i hi
    have hi : i < c.step + 1 := hi
    by_cases ei : i = c.step
    · subst ei; exact hkk
    · exact hkap i (by omega)

/-- The whole loop: it ends with all candidates used up. -/
theorem mainLoop_runs (hI : InOK I) (hsym : ∀ x y, x < I.m2 → y < I.m2 → I.B x y = I.B y x) (hU : DropOK I.n ΦU pr.dropU)
    (hL : ∀ s, DropOK I.n (fun _ _ => True) (pr.dropL s)) (f : Nat) :
    ∀ {s : St K} {g : Gh K}, SInv pr I ΦU s g → s.c.nDiag + s.c.nCond = s.c.defers → I.m2 - s.c.step ≤ f →
    Runs (mainLoop pr I f s) fun r => (∃ g', SInv pr I ΦU r g') ∧ r.c.step + r.c.defers = I.m2 ∧ r.c.m = r.c.step ∧
      r.c.nDiag + r.c.nCond = r.c.defers := by
  have hmle := hI.mle
  induction f with
  | zero =>
    intro s g h hc hf
    have hle := h.inv.le
    have hm := h.inv.m
    rw [mainLoop, if_neg (by omega), runs_pure]
    exact ⟨⟨g, h⟩, by omega, by omega, hc⟩
  | succ f ih =>
    intro s g h hc hf
    have hle := h.inv.le
    have hm := h.inv.m
    rw [mainLoop]
    by_cases hlt : s.c.step < s.c.m
    · rw [if_pos hlt, runs_bind]
      refine (pivotPhase_runs hI h (by omega) hc).mono ?_
      rintro r ⟨⟨g', q1, q2⟩, q3, q4⟩
      have hle' := q1.inv.le
      have hm' := q1.inv.m
      rw [runs_ite]
      by_cases he : r.c.m = r.c.step
      · rw [if_pos he, runs_pure]
        exact ⟨⟨g', q1⟩, by omega, he, q4⟩
      · rw [if_neg he, runs_bind]
        obtain ⟨rc, roff⟩ := r
        refine (updatePhase_runs hI hsym hU hL q1 (by simp only at *; omega) (q2 (by simp only at *; omega))).mono ?_
        rintro r2 ⟨⟨g2, w1⟩, w2, w3, w4, w5, w6⟩
        exact ih w1 (by simp only at *; omega) (by simp only at *; omega)
    · rw [if_neg hlt, runs_pure]
      exact ⟨⟨g, h⟩, by omega, by omega, hc⟩

/-- The Crout phase for a symmetric leading block. -/
theorem croutPhase_runs [Inhabited K] (hI : InOK I) (hsym : ∀ x y, x < I.m2 → y < I.m2 → I.B x y = I.B y x) (hU : DropOK I.n ΦU pr.dropU)
    (hL : ∀ s, DropOK I.n (fun _ _ => True) (pr.dropL s)) :
    Runs (croutPhase pr I) fun r => ∃ g, Final (pr.gh I.n) I ΦU (fun _ _ => True) r g ∧
      ∀ h, h < r.m → ∀ x, x < r.m → g.Ls h (g.o x) = g.Us h (g.o x) := by
  unfold croutPhase
  simp only [runs_bind]
  refine (init_runs (pr := pr.gh I.n) (ΦU := ΦU) (ΦL := fun _ _ => True) hI).mono ?_
  rintro c0 ⟨⟨g0, h0⟩, hs0, hc0⟩
  refine (mainLoop_runs (s := ⟨c0, Buf.mk' I.m2 0⟩) (g := g0) hI hsym hU hL I.m2 ⟨h0, ⟨rfl, fun i hi => ?_⟩, fun i hi => ?_, fun i hi => ?_⟩ hc0 (by omega)).mono ?_
  · have hi : i < c0.step := hi
    omega
  · have hi : i < c0.step := hi
    omega
  · have hi : i < c0.step := hi
    omega
  rintro s ⟨⟨g, h⟩, htot, hm, hcnt⟩
  refine (finish_runs hI h.inv htot hm hcnt).mono fun r hr => ⟨g, hr.1, fun a ha x hx => ?_⟩
  have hmle := hI.mle
  rw [hr.2] at ha hx
  have ho := h.inv.pos.orig x hx
  exact h.sy a ha _ (by omega) (by omega)

/-- The leading parts of the factors are transposes of each other. -/
theorem Final.symm {pr : Crout.Par K R} {ΦL : Nat → Nat → Prop} {r : Out K} {g : Gh K} (hI : InOK I) (h : Final pr I ΦU ΦL r g)
    (hs : ∀ h, h < r.m → ∀ x, x < r.m → g.Ls h (g.o x) = g.Us h (g.o x)) : ∀ i j, i < r.m → j < r.m → r.L.entry i j = r.U.entry i j := by
  have hmle := hI.mle
  have htot := h.tot
  obtain ⟨z, z1, z2, z3, z4, z5⟩ := Crout.Final.back hI h
  intro i j hi hj
  rw [(z5 i hi j (by omega)).1, (z5 i hi j (by omega)).2, z2 j hj]
  exact hs i hi j hj

end Hif.PSymm
