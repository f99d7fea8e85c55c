import Verif.AmdStep3

set_option linter.unusedVariables false

/-! # One pivot, the elimination -/

namespace Hif
namespace Amd

/-- The end of a pivot, after the nodes have returned. -/
def pivotEnd (me pme1 elenme nvpiv : Int) (r : Int × St) : M St := do
  let nv ← r.2.nv.wr me nvpiv
  let len ← r.2.len.wr me (r.1 - pme1)
  let c := { r.2 with nv := nv, len := len }
  let c ← (if r.1 - pme1 = 0 then do
      let pe ← c.pe.wr me (-1)
      let w ← c.w.wr me 0
      pure { c with pe := pe, w := w }
    else pure c)
  pure (if elenme ≠ 0 then { c with pfree := r.1 } else c)

/-- The part after the second pass. -/
def pivotMerge (n : Nat) (wbig me elenme : Int) (b : Build) (s : Pass) : M St := do
  let degree ← s.c.degree.wr me s.degme
  let c ← clearFlag n wbig { s.c with degree := degree, lemax := max s.c.lemax s.degme, wflg := s.c.wflg + max s.c.lemax s.degme }
  let c ← forZ b.pme1 (b.pme2 + 1) c fun pme c => bucket n pme c
  let r ← forZ b.pme1 (b.pme2 + 1) (b.pme1, c) fun pme r => restore n s.degme pme r
  pivotEnd me b.pme1 elenme s.nvpiv r

/-- The part after the construction of the new element. -/
def pivotScan (n : Nat) (wbig : Int) (aggressive : Bool) (me elenme nvpiv : Int) (b : Build) : M St := do
  let degree ← b.c.degree.wr me b.degme
  let pe ← b.c.pe.wr me b.pme1
  let len ← b.c.len.wr me (b.pme2 - b.pme1 + 1)
  let elen ← b.c.elen.wr me (flip (nvpiv + b.degme))
  let c ← clearFlag n wbig { b.c with degree := degree, pe := pe, len := len, elen := elen }
  let c ← forZ b.pme1 (b.pme2 + 1) c fun pme c => scanW pme c
  let s ← forZ b.pme1 (b.pme2 + 1) (⟨b.degme, nvpiv, c⟩ : Pass) fun pme s => scan2 n aggressive me pme s
  pivotMerge n wbig me elenme b s

theorem pivot_eq (n : Nat) (wbig iwlen : Int) (aggressive : Bool) (c : St) : pivot n wbig iwlen aggressive c = (do
    let m ← findMin c.head (n - c.mindeg).toNat c.mindeg
    let inext ← c.next.rd m.1
    let last ← (if inext ≠ -1 then c.last.wr inext (-1) else pure c.last)
    let head ← c.head.wr m.2 inext
    let elenme ← c.elen.rd m.1
    let nvpiv ← c.nv.rd m.1
    let nv ← c.nv.wr m.1 (-nvpiv)
    let b ← build n iwlen m.1 elenme { c with last := last, head := head, nv := nv, nel := c.nel + nvpiv, mindeg := m.2 }
    pivotScan n wbig aggressive m.1 elenme nvpiv b) := rfl

section
variable {n : Nat} {iwlen S0 : Int} {aggressive : Bool} {g h : Gh} {c c0 c2 c4 c5 : St} {me : Int} {M : List Int} {B : Int} {b : Build} {Dl : Int → List Int} {K Z : Finset Int} {s : Pass} {r : Int × St}

theorem Fin0.end_runs (Y : Fin0 n iwlen S0 aggressive g h c c0 c2 c4 c5 me M B b Dl K Z s) (R : RS n iwlen me M b.pme1 ((g.V.erase me).filter fun x => x ∉ M) h c5 M [] r) :
    Runs (pivotEnd me b.pme1 (g.E me).length s.nvpiv r) fun c' => Inv n iwlen S0 (g4 h me M) c' ∧ c.nel + 1 ≤ c'.nel := by
  have hmn := Y.T.inv.gr.vn me Y.T.mev
  have hp := R.p
  have hn : r.2.nel = c5.nel := by rw [R.eq]
  have hel : ((g.E me).length : Int) ≠ 0 ↔ g.E me ≠ [] := by
    constructor
    · intro h e; rw [e] at h; exact h rfl
    · intro h e; exact h (List.length_eq_zero_iff.1 (by exact_mod_cast e))
  have hlz : ((lv h M).length : Int) = 0 ↔ lv h M = [] := by
    constructor
    · intro h; exact List.length_eq_zero_iff.1 (by exact_mod_cast h)
    · intro h; rw [h]; rfl
  unfold pivotEnd
  simp only [runs_bind, runs_wrZ]
  have e : r.1 - b.pme1 = (lv h M).length := by omega
  simp only [e, hlz, hel]
  refine ⟨by rw [R.sz.nv]; exact hmn, by rw [R.sz.len]; exact hmn, ?_⟩
  by_cases hz : lv h M = []
  · rw [if_pos hz]
    simp only [runs_bind, runs_wrZ, runs_pure]
    refine ⟨by rw [R.sz.pe]; exact hmn, by rw [R.sz.w]; exact hmn, ?_⟩
    have hfin : ∀ c' : St, c' = { r.2 with nv := r.2.nv.set me s.nvpiv, len := r.2.len.set me (lv h M).length, pe := r.2.pe.set me (-1), w := r.2.w.set me 0, pfree := c'.pfree } →
        (g.E me = [] → c'.pfree = r.2.pfree) ∧ (g.E me ≠ [] → c'.pfree = r.1) → Inv n iwlen S0 (g4 h me M) c' ∧ c.nel + 1 ≤ c'.nel := fun c' q1 q2 => by
      have q3 : c'.pe = r.2.pe.set me (-1) := by rw [q1]
      have q4 : c'.w = r.2.w.set me 0 := by rw [q1]
      refine ⟨Y.inv R ?_ ?_ (fun _ => ⟨?_, fun x hx => ?_, fun x => ?_⟩) (fun u => absurd hz u) ⟨q2.1, fun u => (q2.2 u).trans hp⟩, ?_⟩
      · rw [q3, q4]; exact q1
      · rw [q3, q4]; exact ⟨R.sz.pe, R.sz.w⟩
      · rw [q3, Arr.set_same]
      · rw [q3, Arr.set_ne _ _ hx]
      · rw [q4, Arr.set_get]
      · rw [q1]; show _ ≤ r.2.nel; rw [hn]; exact Y.nel.2
    by_cases hE : g.E me = []
    · rw [if_neg (not_not.2 hE)]
      exact hfin _ rfl ⟨fun _ => rfl, fun u => absurd hE u⟩
    · rw [if_pos hE]
      exact hfin _ rfl ⟨fun u => absurd u hE, fun _ => rfl⟩
  · rw [if_neg hz]
    simp only [runs_pure]
    have hfin : ∀ c' : St, c' = { r.2 with nv := r.2.nv.set me s.nvpiv, len := r.2.len.set me (lv h M).length, pfree := c'.pfree } →
        (g.E me = [] → c'.pfree = r.2.pfree) ∧ (g.E me ≠ [] → c'.pfree = r.1) → Inv n iwlen S0 (g4 h me M) c' ∧ c.nel + 1 ≤ c'.nel := fun c' q1 q2 => by
      have q3 : c'.pe = r.2.pe := by rw [q1]
      have q4 : c'.w = r.2.w := by rw [q1]
      refine ⟨Y.inv R ?_ ?_ (fun u => absurd u hz) (fun _ => ⟨fun x => ?_, fun x => ?_⟩) ⟨q2.1, fun u => (q2.2 u).trans hp⟩, ?_⟩
      · rw [q3, q4]; exact q1
      · rw [q3, q4]; exact ⟨R.sz.pe, R.sz.w⟩
      · rw [q3]
      · rw [q4]
      · rw [q1]; show _ ≤ r.2.nel; rw [hn]; exact Y.nel.2
    by_cases hE : g.E me = []
    · rw [if_neg (not_not.2 hE)]
      exact hfin _ rfl ⟨fun _ => rfl, fun u => absurd hE u⟩
    · rw [if_pos hE]
      exact hfin _ rfl ⟨fun u => absurd u hE, fun _ => rfl⟩

theorem CB.merge_runs {wbig : Int} (T : CB n iwlen S0 g c me c0 M B b) (C : Sc n g c me M b c2) (H : Ph n iwlen g me M B b.pme1 c2 Dl) (I : S2 n iwlen aggressive g me M B b.pme1 c2 Dl b.degme (g.wt me) M K Z s) :
    Runs (pivotMerge n wbig me (g.E me).length b s) fun c' => ∃ g', Inv n iwlen S0 g' c' ∧ c.nel + 1 ≤ c'.nel := by
  have hmn := T.inv.gr.vn me T.mev
  have hB1 := T.bt.B1
  have hB3 := T.bt.B3
  have hpl := T.bt.pl
  have hpp : b.pme2 + 1 = b.pme1 + M.length := by have := T.bt.p2; omega
  have hMn : ∀ x ∈ M, (0 ≤ x ∧ x < (n : Int)) ∧ x ≠ me := fun x hx => ⟨T.inv.gr.vn x (T.mv hx).1, (T.mv hx).2⟩
  have hd0 : 0 ≤ s.degme := by
    rw [I.dgm, T.bt.dg]
    have hsub : K ⊆ M.toFinset := fun x hx => List.mem_toFinset.2 (I.kp x hx).1
    rw [← Finset.sum_sdiff hsub]
    have : 0 ≤ ∑ x ∈ M.toFinset \ K, g.wt x := Finset.sum_nonneg fun x hx => (T.inv.gr.wv x (T.mv (List.mem_toFinset.1 (Finset.mem_sdiff.1 hx).1)).1).le
    omega
  unfold pivotMerge
  rw [hpp]
  simp only [runs_bind, runs_wrZ]
  refine ⟨by rw [I.sz.degree]; exact hmn, ?_⟩
  refine (clearFlag_runs (by exact I.sz.w) (Or.inr fun x a b' => T.wlt C I hd0 x a b')).mono fun c4 ⟨q1, q2, q3, q4, q5⟩ => ?_
  have F : C4 n me s c4 := ⟨q1, q2, ⟨q3, q4⟩, q5⟩
  have hseg : Seg c4.iw.get b.pme1 M := by
    rw [show c4.iw = s.c.iw by rw [F.eq]]
    exact I.seg
  refine (buckets_runs hMn hseg T.bt.p0 (by omega) (by omega) (T.mg C H I F) F.wb).mono fun c5 ⟨h, G, W⟩ => ?_
  have Y : Fin0 n iwlen S0 aggressive g h c c0 c2 c4 c5 me M B b Dl K Z s := ⟨T, C, H, I, F, G, W⟩
  have hn0 := T.inv.n0
  have hnl := Y.nel.2
  refine (restoreAll_runs hMn T.bt.mn T.bt.p0 hseg (by omega) Y.hdeg (by omega) (by rw [Y.mind]; exact T.cz.m0) (fun x hx => ?_) G).mono fun r R => ?_
  · obtain ⟨u1, u2⟩ := Finset.mem_filter.1 hx
    obtain ⟨u3, u4⟩ := Finset.mem_erase.1 u1
    rw [Y.mind, Y.degx u3 u2]
    exact T.cz.md x u4
  · exact (Y.end_runs R).mono fun c' hc => ⟨_, hc⟩

theorem CB.scan_runs {wbig : Int} (T : CB n iwlen S0 g c me c0 M B b) :
    Runs (pivotScan n wbig aggressive me (g.E me).length (g.wt me) b) fun c' => ∃ g', Inv n iwlen S0 g' c' ∧ c.nel + 1 ≤ c'.nel := by
  have hmn := T.inv.gr.vn me T.mev
  have hpp : b.pme2 + 1 = b.pme1 + M.length := by have := T.bt.p2; omega
  unfold pivotScan
  simp only [runs_bind, runs_wrZ]
  refine ⟨by rw [T.bt.sz.degree]; exact hmn, by rw [T.bt.sz.pe]; exact hmn, by rw [T.bt.sz.len]; exact hmn, by rw [T.bt.sz.elen]; exact hmn, ?_⟩
  refine (clearFlag_runs (c := cB g me b) (by exact T.bt.sz.w) (Or.inr fun x a b' => ?_)).mono fun c1 ⟨q1, q2, q3, q4, q5⟩ => ?_
  · have h1 := T.inv.wb
    show 0 ≤ b.c.w.get x ∧ b.c.w.get x < b.c.wflg
    rw [T.wb, T.wfb]
    have := h1.1
    have := h1.2 x a b'
    split <;> omega
  have C1' : C1 n g me b c1 := ⟨q1, q2, q3, q4, q5⟩
  rw [hpp]
  refine (scanAll_runs (T.sh C1')).mono fun c2 ⟨p1, p2, p3⟩ => ?_
  have C := T.sc C1' p1 p2 p3
  obtain ⟨Dl, H⟩ := T.ph C
  refine (pass_runs H).mono fun s ⟨K, Z, I⟩ => ?_
  exact T.merge_runs C H I

/-- **One pivot**: the invariant is kept and at least one node is eliminated. -/
theorem pivot_runs {wbig : Int} (I : Inv n iwlen S0 g c) (hlt : c.nel < n) :
    Runs (pivot n wbig iwlen aggressive c) fun c' => ∃ g', Inv n iwlen S0 g' c' ∧ c.nel + 1 ≤ c'.nel := by
  obtain ⟨Dl, D⟩ := I.dl
  have hne : ∃ x, x ∈ g.V := by
    by_contra hh
    have : g.V = ∅ := Finset.eq_empty_of_forall_notMem fun x hx => hh ⟨x, hx⟩
    have h1 := I.gr.nel
    rw [this, Finset.sum_empty] at h1
    omega
  obtain ⟨x0, hx0⟩ := hne
  have hr0 := D.rng x0 hx0
  have hm0 := I.m0
  have hmx := I.md x0 hx0
  rw [pivot_eq]
  simp only [runs_bind]
  refine (findMin_runs D I.sz.head _ c.mindeg hm0 (by omega) ⟨x0, hx0, hmx⟩ I.md).mono fun m ⟨m1, m2, m3, m4, m5⟩ => ?_
  have hmn := I.gr.vn m.1 m1
  simp only [runs_rdZ]
  refine ⟨by rw [I.sz.next]; exact hmn, ?_⟩
  -- the node leaves its list
  have hnx : c.next.get m.1 ≠ -1 → 0 ≤ c.next.get m.1 ∧ c.next.get m.1 < n := fun hh => by
    have hd := D.rng m.1 m1
    obtain ⟨l1, l2, hl⟩ := List.append_of_mem ((D.mem (c.degree.get m.1) hd.2.1 hd.2.2 m.1).2 ⟨m1, rfl⟩)
    have hc := D.nx (c.degree.get m.1) hd.2.1 hd.2.2
    rw [hl] at hc
    have := hc.after
    cases l2 with
    | nil => exact absurd this hh
    | cons y l2 =>
      rw [this, hd_cons]
      exact (D.nn hd.2.1 hd.2.2 (x := y) (by rw [hl]; simp)).1
  have hlast : Runs (if c.next.get m.1 ≠ -1 then c.last.wr (c.next.get m.1) (-1) else pure c.last) fun l => l.size = n ∧ (c.next.get m.1 ≠ -1 → l.get (c.next.get m.1) = c.last.get m.1) ∧ ∀ x, x ≠ c.next.get m.1 → l.get x = c.last.get x := by
    split
    · rename_i hh
      rw [runs_wrZ]
      refine ⟨by rw [I.sz.last]; exact hnx hh, I.sz.last, fun _ => by rw [Arr.set_same, m3], fun x hx => Arr.set_ne _ _ hx⟩
    · rename_i hh
      rw [runs_pure]
      exact ⟨I.sz.last, fun u => absurd u hh, fun _ _ => rfl⟩
  refine hlast.mono fun last ⟨l1, l2, l3⟩ => ?_
  simp only [runs_wrZ]
  refine ⟨by rw [I.sz.head]; exact m4, by rw [I.sz.elen]; exact hmn, by rw [I.sz.nv]; exact hmn, by rw [I.sz.nv]; exact hmn, ?_⟩
  rw [I.el m.1 m1, I.nv m.1 hmn.1 hmn.2]
  have C : C0 n g c m.1 { c with last := last, head := c.head.set m.2 (c.next.get m.1), nv := c.nv.set m.1 (-g.wt m.1), nel := c.nel + g.wt m.1, mindeg := m.2 } := by
    refine ⟨rfl, I.sz.head, l1, ?_, fun x hx => m5 x hx, m4.1⟩
    refine D.drop m1 l2 l3 (fun u => absurd m3 u) (fun x _ => rfl) (fun _ x _ => rfl) (fun _ => ?_) (fun d hd => ?_)
    · show (c.head.set _ _).get _ = _
      rw [m2, Arr.set_same]
    · show (c.head.set _ _).get _ = _
      rw [Arr.set_ne _ _ (by rw [← m2]; exact hd)]
  refine (build_runs (I.bh m1 C) (I.bp m1 C)).mono fun b ⟨M, B, bt⟩ => ?_
  exact CB.scan_runs (B := B) ⟨I, m1, C, bt⟩

/-- **The elimination**: it ends, within `n` pivots, with all nodes eliminated. -/
theorem elim_runs {wbig : Int} : ∀ (f : Nat) {g : Gh} {c : St}, Inv n iwlen S0 g c → (n : Int) - c.nel ≤ f →
    Runs (elim n wbig iwlen aggressive f c) fun c' => ∃ g', Inv n iwlen S0 g' c' ∧ (n : Int) ≤ c'.nel := by
  intro f
  induction f with
  | zero =>
    intro g c I hf
    unfold elim
    rw [if_neg (by push_cast at hf; omega), runs_pure]
    exact ⟨g, I, by push_cast at hf; omega⟩
  | succ f ih =>
    intro g c I hf
    unfold elim
    by_cases hlt : c.nel < n
    · rw [if_pos hlt, runs_bind]
      refine (pivot_runs I hlt).mono fun c' ⟨g', I', h'⟩ => ih I' ?_
      push_cast at hf; omega
    · rw [if_neg hlt, runs_pure]
      exact ⟨g, I, by omega⟩

/-- Elimination and permutation. -/
theorem elimFinish_runs {wbig : Int} (I : Inv n iwlen S0 g c) : Runs (do let c ← elim n wbig iwlen aggressive n c; finish n c) fun P => P.size = n ∧
    (∀ i : Int, 0 ≤ i → i < n → 0 ≤ P.get i ∧ P.get i < n) ∧ ∀ i : Int, 0 ≤ i → i < n → ∀ j : Int, 0 ≤ j → j < n → P.get i = P.get j → i = j := by
  simp only [runs_bind]
  refine (elim_runs n I (by have := I.n0; omega)).mono fun c' ⟨g', I', h'⟩ => ?_
  have hE := I'.gr.elim h' (fun e he => (I'.lm e he).1) I'.nv
  refine finish_runs hE (fun x a b hx => I'.eld x a b fun hV => ?_) I'.sz.pe I'.sz.nv I'.sz.elen I'.sz.w I'.sz.head I'.sz.next I'.sz.last
  have h1 := I'.gr.nel
  have h2 := Finset.single_le_sum (f := g'.wt) (fun y hy => (I'.gr.wv y hy).le) hV
  have h3 := I'.gr.wv x hV
  omega

end

end Amd
end Hif
