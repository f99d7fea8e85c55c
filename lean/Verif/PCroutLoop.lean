import Verif.PCroutPos

set_option linter.unusedVariables false
set_option linter.unusedSectionVars false
set_option linter.unusedSimpArgs false

/-!
# The Crout update with pivoting: vectors, pivots and deferrals (proofs)
-/

namespace Hif.PCrout
open Finset Crout
variable {K : Type _} [Field K] [DecidableEq K] {R : Type _} [Mul R] [LinearOrder R]
variable {pr : Par K R} {I : In K} {ΦU ΦL : Nat → Nat → Prop}

/-- What is left of the entry at the positions `i`, `j` at the present step. -/
def rest (I : In K) (c : St K) (g : Gh K) (i j : Nat) : K := res I.B g.Ls g.Us c.d.get c.step (g.orow i) (g.ocol j)

/-- The current diagonal entry is up to date. -/
def DkOK (I : In K) (c : St K) (g : Gh K) : Prop := c.d.get (c.step + c.defers) = rest I c g (c.step + c.defers) (c.step + c.defers)

/-- A work vector in use. -/
structure VBusy (I : In K) (c : St K) (v : SV K) : Prop where
  busy : SV.Busy (2 * I.n) c.step v
  vsz : v.vals.size = 2 * I.n
  range : ∀ j ∈ v.list, c.step + c.defers < j ∧ j < I.n + c.defers

/-- State of a work vector before it is computed. -/
def VPre (I : In K) (k : Nat) (restore : Bool) (v : SV K) : Prop :=
  v.vals.size = 2 * I.n ∧ (if restore then SV.Busy (2 * I.n) k v else SV.Ready (2 * I.n) k v)

theorem pre_runs {k : Nat} {restore : Bool} {v : SV K} (h : VPre I k restore v) :
    Runs (if restore then v.restore else pure v) fun r => SV.Ready (2 * I.n) k r ∧ r.vals.size = 2 * I.n := by
  obtain ⟨h1, h2⟩ := h
  cases restore with
  | false => rw [if_neg Bool.false_ne_true] at h2 ⊢; rw [runs_pure]; exact ⟨h2, h1⟩
  | true =>
    rw [if_pos rfl] at h2 ⊢
    refine (SV.restore_runs h2).mono ?_
    rintro r ⟨r1, r2, -, -⟩
    exact ⟨r1, by rw [r2]; exact h1⟩

section cur
variable {c : St K} {g : Gh K} (hI : InOK I) (h : PInv pr I ΦU ΦL c g) (hlt : c.step + c.defers < I.m2)
include hI h hlt

theorem live_ds : Live I.n c.step c.defers (c.step + c.defers) := Or.inr ⟨le_refl _, by have := hI.mle; omega⟩

/-- `compute_l`. -/
theorem doL_runs {restore : Bool} (hv : VPre I c.step restore c.l) :
    Runs (doL I restore c) fun r => ∃ l, r = { c with l := l } ∧ VBusy I c l ∧
      ∀ j, c.step + c.defers < j → j < I.n + c.defers → val l j = rest I c g j (c.step + c.defers) := by
  have hmle := hI.mle
  have hlive := live_ds hI h hlt
  obtain ⟨o1, o2⟩ := h.cpos.from_pos _ hlive
  have hq := h.qerm.pend _ (le_refl _) (show c.step + c.defers < I.n by omega)
  have hql := (hI.qinv.1 _ o1).1
  obtain ⟨f1, f2⟩ := h.perm.inv_facts h.rpos hI.pinv (show c.step + c.defers < I.n by omega)
  unfold doL
  simp only [runs_bind]
  refine (pre_runs hv).mono ?_
  rintro l0 ⟨r1, r2⟩
  simp only [runs_rd, runs_pure, hq]
  rw [h.qerm.psz, hI.tsz]
  refine ⟨by omega, hql, ?_⟩
  refine (computeVec_runs h.U h.L hlt r1 r2 (I.t.get (I.q0.get (g.ocol (c.step + c.defers)))) hI.cwf hI.csorted (sc := I.s) (by rw [hI.cs, hI.ssz])
    (line := I.q0.get (g.ocol (c.step + c.defers))) (by rw [hI.cp]; exact hql) (inv := c.pinv) (by rw [hI.cs, h.perm.isz]) (by rw [hI.cs]; exact f1)
    (by rw [hI.cs]; exact fun a b ha hb hgt => f2 a b ha hb (le_of_lt hgt)) (d := c.d) (by rw [h.dsz]; omega)).mono ?_
  rintro l ⟨w1, w2, w3, w4⟩
  refine ⟨l, rfl, ⟨w1, w2, w3⟩, fun j j1 j2 => ?_⟩
  have hj : Live I.n c.step c.defers j := Or.inr ⟨by omega, j2⟩
  obtain ⟨q1, q2⟩ := h.rpos.from_pos _ hj
  have e1 := h.perm.inv j (by omega) j2
  have hpl := (hI.pinv.1 _ q1).1
  have e2 := w4 (I.p0.get (g.orow j)) (by rw [hI.cs]; exact hpl) (by rw [e1]; exact j1)
  rw [e1] at e2
  rw [e2, hI.same _ _ hpl hql]
  unfold rest res In.B
  congr 1
  · ring
  · refine sum_congr rfl fun i hi => ?_
    have hi := mem_range.1 hi
    have g1 := h.entU i hi _ o1
    have g2 := h.entL i hi _ q1
    rw [o2] at g1
    rw [q2] at g2
    rw [g1, g2]; ring

/-- `compute_ut`. -/
theorem doU_runs {restore : Bool} (hv : VPre I c.step restore c.ut) :
    Runs (doU I restore c) fun r => ∃ ut, r = { c with ut := ut } ∧ VBusy I c ut ∧
      ∀ j, c.step + c.defers < j → j < I.n + c.defers → val ut j = rest I c g (c.step + c.defers) j := by
  have hmle := hI.mle
  have hlive := live_ds hI h hlt
  obtain ⟨o1, o2⟩ := h.rpos.from_pos _ hlive
  have hq := h.perm.pend _ (le_refl _) (show c.step + c.defers < I.n by omega)
  have hql := (hI.pinv.1 _ o1).1
  obtain ⟨f1, f2⟩ := h.qerm.inv_facts h.cpos hI.qinv (show c.step + c.defers < I.n by omega)
  unfold doU
  simp only [runs_bind]
  refine (pre_runs hv).mono ?_
  rintro l0 ⟨r1, r2⟩
  simp only [runs_rd, runs_pure, hq]
  rw [h.perm.psz, hI.ssz]
  refine ⟨by omega, hql, ?_⟩
  refine (computeVec_runs h.L h.U hlt r1 r2 (I.s.get (I.p0.get (g.orow (c.step + c.defers)))) hI.rwf hI.rsorted (sc := I.t) (by rw [hI.rs, hI.tsz])
    (line := I.p0.get (g.orow (c.step + c.defers))) (by rw [hI.rp]; exact hql) (inv := c.qinv) (by rw [hI.rs, h.qerm.isz]) (by rw [hI.rs]; exact f1)
    (by rw [hI.rs]; exact fun a b ha hb hgt => f2 a b ha hb (le_of_lt hgt)) (d := c.d) (by rw [h.dsz]; omega)).mono ?_
  rintro l ⟨w1, w2, w3, w4⟩
  refine ⟨l, rfl, ⟨w1, w2, w3⟩, fun j j1 j2 => ?_⟩
  have hj : Live I.n c.step c.defers j := Or.inr ⟨by omega, j2⟩
  obtain ⟨q1, q2⟩ := h.cpos.from_pos _ hj
  have e1 := h.qerm.inv j (by omega) j2
  have hpl := (hI.qinv.1 _ q1).1
  have e2 := w4 (I.q0.get (g.ocol j)) (by rw [hI.rs]; exact hpl) (by rw [e1]; exact j1)
  rw [e1] at e2
  rw [e2]
  unfold rest res In.B
  congr 1
  refine sum_congr rfl fun i hi => ?_
  have hi := mem_range.1 hi
  have g1 := h.entL i hi _ o1
  have g2 := h.entU i hi _ q1
  rw [o2] at g1
  rw [q2] at g2
  rw [g1, g2]

/-- `d[k] = compute_dk(…)`. -/
theorem setDk_runs : Runs (setDk I c) fun r => ∃ d, r = { c with d := d } ∧ d.size = I.m2 ∧ (∀ i, i < c.step → d.get i = c.d.get i) ∧
    DkOK I { c with d := d } g := by
  have hmle := hI.mle
  have hlive := live_ds hI h hlt
  obtain ⟨o1, o2⟩ := h.cpos.from_pos _ hlive
  obtain ⟨q1, q2⟩ := h.rpos.from_pos _ hlive
  have hq := h.qerm.pend _ (le_refl _) (show c.step + c.defers < I.n by omega)
  have hql := (hI.qinv.1 _ o1).1
  have hpl := (hI.pinv.1 _ q1).1
  obtain ⟨f1, f2⟩ := h.perm.inv_facts h.rpos hI.pinv (show c.step + c.defers < I.n by omega)
  have hinv := h.perm.inv _ (le_refl _) (show c.step + c.defers < I.n + c.defers by omega)
  unfold setDk
  simp only [runs_bind, runs_rd, runs_wr, runs_pure, hq]
  rw [h.qerm.psz]
  refine ⟨by omega, ?_⟩
  refine (computeDk_runs h.L h.U hlt hI.cwf hI.csorted hI.cp hI.cs hI.ssz hI.tsz h.perm.isz hql hpl hinv
    (fun b hb hbe => (f2 _ _ hpl hb (by rw [hinv]) (by rw [hinv, hbe])).symm) (d := c.d) (by rw [h.dsz]; omega)).mono ?_
  rintro dk hdk
  rw [h.dsz]
  refine ⟨hlt, _, rfl, by rw [Buf.set_size, h.dsz], fun i hi => Buf.set_get_ne _ _ (by omega), ?_⟩
  unfold DkOK
  show (c.d.set (c.step + c.defers) dk).get (c.step + c.defers) = res I.B g.Ls g.Us (c.d.set (c.step + c.defers) dk).get c.step
    (g.orow (c.step + c.defers)) (g.ocol (c.step + c.defers))
  rw [Buf.set_get_self, res_congr (fun _ _ => rfl) (fun _ _ => rfl) (d := c.d.get) (fun i hi => Buf.set_get_ne _ _ (by omega)), hdk]
  unfold res In.B
  rw [hI.same _ _ hpl hql]
  congr 1
  refine sum_congr rfl fun i hi => ?_
  have hi := mem_range.1 hi
  have g1 := h.entU i hi _ o1
  have g2 := h.entL i hi _ q1
  rw [o2] at g1
  rw [q2] at g2
  rw [g1, g2]

end cur

/-- Contract of the sorting by magnitude: it permutes the list. -/
def SrtOK (pr : Par K R) : Prop := ∀ f l, (pr.srt f l).Perm l

theorem reorder_list {v : SV K} {l : List Nat} (hl : l.length = v.counts) : (reorder v l).list = l := by
  have h1 : (reorder v l).list = (Buf.mk v.inds.size fun k => if k < v.counts then l.getD k 0 else v.inds.get k).slice 0 v.counts := rfl
  rw [h1]
  refine List.ext_getElem (by rw [Buf.slice_length]; omega) fun i h2 h3 => ?_
  rw [Buf.slice_getElem]
  simp only [Nat.zero_add]
  rw [if_pos (by omega), List.getD_eq_getElem?_getD, List.getElem?_eq_getElem h3]; rfl

theorem VBusy.reorder {c : St K} {v : SV K} (h : VBusy I c v) {l : List Nat} (hl : l.Perm v.list) :
    VBusy I c (PCrout.reorder v l) ∧ (PCrout.reorder v l).vals = v.vals ∧ ∀ j, j ∈ (PCrout.reorder v l).list ↔ j ∈ v.list := by
  have hlen : l.length = v.counts := by rw [hl.length_eq]; unfold SV.list; rw [Buf.slice_length]; omega
  have hlist := reorder_list hlen
  refine ⟨⟨⟨h.busy.tags_size, h.busy.inds_size, h.busy.drop_size, h.busy.drop_false, ?_, fun i => ?_, h.busy.le⟩, h.vsz, fun j hj => ?_⟩, rfl, fun j => ?_⟩
  · rw [hlist]; exact hl.nodup_iff.2 h.busy.nodup
  · rw [hlist, hl.mem_iff]; exact h.busy.mem i
  · rw [hlist, hl.mem_iff] at hj; exact h.range j hj
  · rw [hlist, hl.mem_iff]

theorem findIf_runs {op : Nat → Buf K → M (Bool × Buf K)} {Good : Nat → Prop} {Ok : Buf K → Prop} : ∀ (l : List Nat) (kappa : Buf K), Ok kappa →
    (∀ i ∈ l, ∀ kap, Ok kap → Runs (op i kap) fun r => Ok r.2 ∧ (r.1 = true ↔ Good i)) →
    Runs (findIf op l kappa) fun r => Ok r.2 ∧ (∀ i, r.1 = some i → Good i ∧ ∃ l1 l2, l = l1 ++ i :: l2 ∧ ∀ j ∈ l1, ¬ Good j) ∧
      (r.1 = none → ∀ j ∈ l, ¬ Good j) := by
  intro l
  induction l with
  | nil => intro kap hk _; rw [findIf, runs_pure]; exact ⟨hk, fun i hi => by simp at hi, fun _ j hj => by simp at hj⟩
  | cons a l ih =>
    intro kap hk hop
    rw [findIf, runs_bind]
    refine (hop a (by simp) kap hk).mono ?_
    rintro ⟨b, k'⟩ ⟨h1, h2⟩
    cases b with
    | true =>
      simp only [if_true, runs_pure]
      exact ⟨h1, fun i hi => by cases hi; exact ⟨h2.1 rfl, [], l, rfl, fun j hj => by simp at hj⟩, fun hc => by simp at hc⟩
    | false =>
      have hna : ¬ Good a := fun hc => by have := h2.2 hc; simp at this
      simp only [Bool.false_eq_true, if_false]
      refine (ih k' h1 (fun i hi => hop i (by simp [hi]))).mono ?_
      rintro r ⟨r1, r2, r3⟩
      refine ⟨r1, fun i hi => ?_, fun hn j hj => ?_⟩
      · obtain ⟨g1, l1, l2, g2, g3⟩ := r2 i hi
        exact ⟨g1, a :: l1, l2, by rw [g2]; rfl, fun j hj => by rcases List.mem_cons.1 hj with rfl | hj; exact hna; exact g3 j hj⟩
      · rcases List.mem_cons.1 hj with rfl | hj
        · exact hna
        · exact r3 hn j hj

/-- An acceptable candidate for a pivot. -/
def Cand (pr : Par K R) (m2 k : Nat) (kap : Nat → K) (T : Nat → Nat → K) (j : Nat) : Prop := j < m2 ∧ pr.nrm (est pr.nrm kap T k j) ≤ pr.kappa

theorem Cand.congr {m2 k : Nat} {kap kap' : Nat → K} {T T' : Nat → Nat → K} {j j' : Nat} (hj : j < m2 ↔ j' < m2) (h1 : ∀ i, i < k → kap' i = kap i) (h2 : ∀ i, i < k → T' i j' = T i j) :
    Cand pr m2 k kap' T' j' ↔ Cand pr m2 k kap T j := by
  unfold Cand
  rw [hj]
  have : est pr.nrm kap' T' k j' = est pr.nrm kap T k j := by
    unfold est
    rw [sum_congr rfl fun i hi => by rw [h1 i (mem_range.1 hi), h2 i (mem_range.1 hi)]]
  rw [this]

/-- The search for a pivot. -/
theorem findPivot_runs (hs : SrtOK pr) (hI : InOK I) {c : St K} (hlt : c.step + c.defers < I.m2) {S : PSide K} (hS : PSideOK I.n I.m2 c.step c.defers S)
    {v : SV K} (hv : VBusy I c v) {kappa : Buf K} (hk : kappa.size = I.m2) :
    Runs (findPivot pr c.step c.defers I.m2 S v kappa) fun r => VBusy I c r.1 ∧ r.1.vals = v.vals ∧ (∀ j, j ∈ r.1.list ↔ j ∈ v.list) ∧
      r.2.2.size = I.m2 ∧ (∀ i, i < c.step → r.2.2.get i = kappa.get i) ∧ (∀ pv, r.2.1 = some pv → pv ∈ v.list ∧ pv < I.m2) ∧
      (RookPar pr → ∀ j ∈ v.list, Cand pr I.m2 c.step kappa.get (fun i j => ent (S.A.cs.line i) j) j →
        ∃ pv, r.2.1 = some pv ∧ pr.nrm (v.vals.get j) ≤ pr.nrm (v.vals.get pv)) := by
  have hmle := hI.mle
  have hperm := hs (fun j => pr.nrm (v.vals.get j)) v.list
  obtain ⟨r1, r2, r3⟩ := hv.reorder hperm
  unfold findPivot
  simp only [runs_bind]
  refine (findIf_runs (Good := Cand pr I.m2 c.step kappa.get (fun i j => ent (S.A.cs.line i) j))
    (Ok := fun k' => k'.size = I.m2 ∧ ∀ i, i < c.step → k'.get i = kappa.get i) _ _ ⟨hk, fun _ _ => rfl⟩ ?_).mono ?_
  · intro i hi kap hkap
    have hi' := (r3 i).1 hi
    have hr := hv.range i hi'
    unfold pivOp
    by_cases hm : I.m2 ≤ i
    · rw [if_pos hm, runs_pure]; exact ⟨hkap, by simp, fun hc => by have := hc.1; omega⟩
    · rw [if_neg hm]
      simp only [runs_bind]
      refine (updateKappa_runs pr.nrm hS hlt hkap.1 (entry := i) (j := i) (by rw [if_pos (by omega)]) (by omega) (by omega)).mono ?_
      rintro k' ⟨k1, k2, k3⟩
      simp only [runs_rd, runs_pure]
      refine ⟨by omega, ⟨k1, fun j hj => ?_⟩, ?_⟩
      · rw [k2 j (by omega)]; exact hkap.2 j hj
      · have e : k'.get c.step = est pr.nrm kappa.get (fun i j => ent (S.A.cs.line i) j) c.step i := by
          rw [k3]; unfold est
          rw [sum_congr rfl fun x hx => by rw [hkap.2 x (mem_range.1 hx)]]
        rw [e, decide_eq_true_iff]
        exact ⟨fun hc => ⟨by omega, hc⟩, fun hc => hc.2⟩
  · rintro ⟨pv, kap⟩ ⟨⟨k1, k2⟩, k3, k4⟩
    simp only [runs_pure] at k3 k4 ⊢
    have hlist : (PCrout.reorder v (pr.srt (fun j => pr.nrm (v.vals.get j)) v.list)).list = pr.srt (fun j => pr.nrm (v.vals.get j)) v.list :=
      reorder_list (by rw [hperm.length_eq]; unfold SV.list; rw [Buf.slice_length]; omega)
    refine ⟨r1, r2, r3, k1, k2, fun i hi => ?_, fun hR j hj hc => ?_⟩
    · obtain ⟨h1, l1, l2, h2, -⟩ := k3 i hi
      refine ⟨(r3 i).1 ?_, h1.1⟩
      show i ∈ (PCrout.reorder v _).inds.slice 0 _
      rw [h2]; simp
    · have hj' := (r3 j).2 hj
      cases hpv : pv with
      | none => exact absurd hc (k4 hpv j hj')
      | some pw =>
        refine ⟨pw, rfl, ?_⟩
        obtain ⟨-, l1, l2, h2, h3⟩ := k3 pw hpv
        have h2 : (PCrout.reorder v (pr.srt (fun j => pr.nrm (v.vals.get j)) v.list)).list = l1 ++ pw :: l2 := h2
        rw [h2] at hj'
        have hso := hR.sort (fun j => pr.nrm (v.vals.get j)) v.list
        rw [← hlist, h2] at hso
        rcases List.mem_append.1 hj' with h4 | h4
        · exact absurd hc (h3 j h4)
        · rcases List.mem_cons.1 h4 with rfl | h4
          · exact le_refl _
          · exact (List.pairwise_cons.1 (List.pairwise_append.1 hso).2.1).1 j h4

/-- The pivot is large enough compared with the candidates of its column. -/
def ColFine (pr : Par K R) (I : In K) (c : St K) (g : Gh K) : Prop :=
  ∀ i, c.step + c.defers < i → Cand pr I.m2 c.step c.kL.get (fun a j => g.Ls a (g.orow j)) i →
    pr.gamma * pr.nrm (rest I c g i (c.step + c.defers)) ≤ pr.nrm (c.d.get (c.step + c.defers))

/-- The pivot is large enough compared with the candidates of its row. -/
def RowFine (pr : Par K R) (I : In K) (c : St K) (g : Gh K) : Prop :=
  ∀ i, c.step + c.defers < i → Cand pr I.m2 c.step c.kU.get (fun a j => g.Us a (g.ocol j)) i →
    pr.gamma * pr.nrm (rest I c g (c.step + c.defers) i) ≤ pr.nrm (c.d.get (c.step + c.defers))

/-- What survives an exchange of rows or columns. -/
structure Kept (c r : St K) : Prop where
  step : r.step = c.step
  defers : r.defers = c.defers
  nDiag : r.nDiag = c.nDiag
  nCond : r.nCond = c.nCond

theorem Kept.trans {a b c : St K} (h1 : Kept a b) (h2 : Kept b c) : Kept a c :=
  ⟨h2.step.trans h1.step, h2.defers.trans h1.defers, h2.nDiag.trans h1.nDiag, h2.nCond.trans h1.nCond⟩

theorem VBusy.kept {c r : St K} (h : Kept c r) {v : SV K} (hv : VBusy I c v) : VBusy I r v :=
  ⟨by rw [h.step]; exact hv.busy, hv.vsz, by rw [h.step, h.defers]; exact hv.range⟩

theorem VBusy.setVals {c : St K} {v : SV K} (hv : VBusy I c v) (w : Buf K) (hw : w.size = 2 * I.n) : VBusy I c { v with vals := w } :=
  ⟨⟨hv.busy.tags_size, hv.busy.inds_size, hv.busy.drop_size, hv.busy.drop_false, hv.busy.nodup, hv.busy.mem, hv.busy.le⟩, hw, hv.range⟩

/-- `interchange`. -/
theorem interchange_runs (hI : InOK I) {k δ pv : Nat} {S : PSide K} (hS : PSideOK I.n I.m2 k δ S) (h1 : k + δ ≤ pv) (h2 : pv < I.m2) {v o : Nat → Nat}
    {p0 p pinv : Buf Nat} {P : Buf (Option Nat)} (hp : PPerm I.n I.m2 k δ o p0 p pinv P) (hv : PPos I.n k δ v o) (h0 : Spec.IsPerm I.n p0.get)
    {d : Buf K} (hd : d.size = I.m2) {a : SV K} (ha : a.vals.size = 2 * I.n) :
    Runs (interchange (k + δ) pv S p pinv d a) fun r => PSideOK I.n I.m2 k δ r.1 ∧
      (∀ i, i < k → (r.1.A.cs.line i).Perm ((S.A.cs.line i).map (mapF (Equiv.swap (k + δ) pv)))) ∧
      PPerm I.n I.m2 k δ (fun j => o (Equiv.swap (k + δ) pv j)) p0 r.2.1 r.2.2.1 P ∧ r.2.2.2.1 = d.set (k + δ) (a.vals.get pv) ∧
      ∃ w, r.2.2.2.2 = { a with vals := w } ∧ w.size = 2 * I.n := by
  have hmle := hI.mle
  have hds : Live I.n k δ (k + δ) := Or.inr ⟨le_refl _, by omega⟩
  have hpv : Live I.n k δ pv := Or.inr ⟨h1, by omega⟩
  unfold interchange
  simp only [runs_bind]
  refine (Aug.swapBuf_runs p (x := k + δ) (y := pv) (by rw [hp.psz]; omega) (by rw [hp.psz]; omega)).mono ?_
  rintro p' ⟨p1, p2⟩
  simp only [runs_rd]
  have e1 : p'.get (k + δ) = p0.get (o pv) := by rw [p2, Equiv.swap_apply_left]; exact hp.pend _ h1 (by omega)
  have e2 : p'.get pv = p0.get (o (k + δ)) := by rw [p2, Equiv.swap_apply_right]; exact hp.pend _ (le_refl _) (by omega)
  rw [p1, hp.psz, e1, e2]
  refine ⟨by omega, by omega, ?_⟩
  refine (Aug.swapBuf_runs pinv (x := p0.get (o pv)) (y := p0.get (o (k + δ))) (by rw [hp.isz]; exact h0.1 _ (hv.from_pos _ hpv).1)
    (by rw [hp.isz]; exact h0.1 _ (hv.from_pos _ hds).1)).mono ?_
  rintro pinv' ⟨i1, i2⟩
  refine (sideInterchange_runs hS h1 h2).mono ?_
  rintro A' ⟨a1, a2⟩
  simp only [runs_wr, runs_pure]
  refine ⟨by omega, by omega, by omega, by omega, a1, a2, ?_, by tt, _, rfl, by rw [Buf.set_size]; exact ha⟩
  exact hp.swap hv h1 h2 hmle h0 (by rw [p1, hp.psz]) p2 (by rw [i1, hp.isz]) i2

section try_
variable (hI : InOK I) {c : St K} {g : Gh K} (h : PInv pr I ΦU ΦL c g) (hlt : c.step + c.defers < I.m2) (hd : DkOK I c g)
include hI h hlt hd

theorem better_runs {v : SV K} (hv : v.vals.size = 2 * I.n) {pv : Nat} (hpv : pv < I.m2) : Runs (better pr (c.step + c.defers) c.d v pv) fun b =>
    (b = true ↔ pr.nrm (c.d.get (c.step + c.defers)) < pr.gamma * max (pr.nrm (v.vals.get pv)) (pr.nrm (c.d.get (c.step + c.defers)))) := by
  have hmle := hI.mle
  unfold better
  simp only [runs_bind, runs_rd, runs_pure]
  exact ⟨by rw [h.dsz]; exact hlt, by omega, by simp⟩

theorem perm_refl {S : PSide K} {k ds : Nat} : ∀ i, i < k → (S.A.cs.line i).Perm ((S.A.cs.line i).map (mapF (Equiv.swap ds ds))) := by
  intro i hi
  have : mapF (K := K) (Equiv.swap ds ds) = id := by
    funext e; unfold mapF; rw [Equiv.swap_self]; rfl
  rw [this, List.map_id]

/-- The exchange of rows. -/
theorem tryL_runs (hl : VBusy I c c.l) {pivot : Option Nat} (hpv : ∀ pv, pivot = some pv → pv ∈ c.l.list ∧ pv < I.m2)
    (hval : ∀ j, c.step + c.defers < j → j < I.n + c.defers → val c.l j = rest I c g j (c.step + c.defers))
    (hcand : RookPar pr → ∀ j ∈ c.l.list, Cand pr I.m2 c.step c.kL.get (fun a j => g.Ls a (g.orow j)) j → ∃ pv, pivot = some pv ∧ pr.nrm (c.l.vals.get j) ≤ pr.nrm (c.l.vals.get pv)) :
    Runs (tryL pr pivot c) fun r => ∃ g', PInv pr I ΦU ΦL r.2 g' ∧ DkOK I r.2 g' ∧ VBusy I c r.2.l ∧ r.2.ut = c.ut ∧ Kept c r.2 ∧
      g'.S = g.S ∧ r.2.nU = c.nU ∧ (RookPar pr → ColFine pr I r.2 g') ∧ (r.1 = false → g' = g ∧ r.2 = c) := by
  have hmle := hI.mle
  cases pivot with
  | none =>
    simp only [tryL, runs_pure]
    refine ⟨g, h, hd, hl, by tt, ⟨rfl, rfl, rfl, rfl⟩, rfl, by tt, fun hR i hi hc => ?_, fun _ => ⟨rfl, by tt⟩⟩
    rw [← hval i hi (by have := hc.1; omega)]
    unfold Crout.val
    split
    · rename_i hm
      obtain ⟨pv, e, -⟩ := hcand hR i hm hc
      simp at e
    · exact hR.zero _
  | some pv =>
    obtain ⟨m1, m2⟩ := hpv pv rfl
    obtain ⟨m3, m4⟩ := hl.range pv m1
    simp only [tryL, runs_bind]
    refine (better_runs hI h hlt hd hl.vsz m2).mono ?_
    rintro b hb
    cases b with
    | false =>
      simp only [Bool.false_eq_true, if_false, runs_pure]
      refine ⟨g, h, hd, hl, by tt, ⟨rfl, rfl, rfl, rfl⟩, rfl, by tt, fun hR i hi hc => ?_, fun _ => ⟨rfl, by tt⟩⟩
      rw [← hval i hi (by have := hc.1; omega)]
      unfold Crout.val
      split
      · rename_i hm
        obtain ⟨pv', e, hle⟩ := hcand hR i hm hc
        obtain rfl : pv = pv' := by simpa using e
        exact hR.no _ _ _ hle (not_lt.1 fun hc => by have := hb.2 hc; simp at this)
      · exact hR.zero _
    | true =>
      simp only [if_true, runs_bind]
      refine (interchange_runs hI h.L (le_of_lt m3) m2 h.perm h.rpos hI.perm_p h.dsz hl.vsz).mono ?_
      rintro ⟨S', p', pinv', d', l'⟩ ⟨s1, s2, s3, s4, w, s5, s6⟩
      simp only at s1 s2 s3 s4 s5
      subst s4 s5
      simp only [runs_pure]
      have hdl : ∀ i, i < c.step → (c.d.set (c.step + c.defers) (c.l.vals.get pv)).get i = c.d.get i := fun i hi => Buf.set_get_ne _ _ (by omega)
      have hmv := h.move (c' := { c with L := S', p := p', pinv := pinv', d := c.d.set (c.step + c.defers) (c.l.vals.get pv), l := { c.l with vals := w }, nL := c.nL + 1 })
        (a := c.step + c.defers) (b := pv) (a' := c.step + c.defers) (b' := c.step + c.defers) (by omega) (by omega) (by omega) (by omega) rfl h.le h.m
        (live_swap (le_refl _) (by omega) (le_of_lt m3) m4) (live_swap (le_refl _) (by omega) (le_refl _) (by omega)) s3
        (by simp only [Equiv.swap_self, Equiv.refl_apply]; exact h.qerm) h.U (perm_refl hI h hlt hd) s1 s2 (by rw [Buf.set_size]; exact h.dsz) hdl rfl rfl
        (by intro j hj hlt'; have := swap_below (a := c.step + c.defers) (b := pv) (M := I.m2) (by omega) (by omega) j; omega)
        (by intro j hj hlt'; rwa [Equiv.swap_self] at hlt') (by simp only; omega) (fun hid => absurd (hb.1 rfl) (hid _ _))
      refine ⟨_, hmv, ?_, hl.setVals w s6, by tt, ⟨rfl, rfl, rfl, rfl⟩, rfl, by tt, fun hR i hi hc => ?_, fun hc => by simp at hc⟩
      · unfold DkOK
        show (c.d.set (c.step + c.defers) (c.l.vals.get pv)).get (c.step + c.defers) = res I.B g.Ls g.Us (c.d.set (c.step + c.defers) (c.l.vals.get pv)).get c.step
          (g.orow (Equiv.swap (c.step + c.defers) pv (c.step + c.defers))) (g.ocol (Equiv.swap (c.step + c.defers) (c.step + c.defers) (c.step + c.defers)))
        rw [Buf.set_get_self, Equiv.swap_apply_left, Equiv.swap_apply_left, res_congr (fun _ _ => rfl) (fun _ _ => rfl) hdl]
        have := hval pv m3 m4
        unfold Crout.val at this
        rw [if_pos m1] at this
        exact this
      · have hi : c.step + c.defers < i := hi
        have hc : Cand pr I.m2 c.step c.kL.get (fun a j => g.Ls a (g.orow (Equiv.swap (c.step + c.defers) pv j))) i := hc
        show pr.gamma * pr.nrm (res I.B g.Ls g.Us (c.d.set (c.step + c.defers) (c.l.vals.get pv)).get c.step
          (g.orow (Equiv.swap (c.step + c.defers) pv i)) (g.ocol (Equiv.swap (c.step + c.defers) (c.step + c.defers) (c.step + c.defers)))) ≤
          pr.nrm ((c.d.set (c.step + c.defers) (c.l.vals.get pv)).get (c.step + c.defers))
        rw [Buf.set_get_self, res_congr (fun _ _ => rfl) (fun _ _ => rfl) hdl, Equiv.swap_self, Equiv.refl_apply]
        show pr.gamma * pr.nrm (rest I c g (Equiv.swap (c.step + c.defers) pv i) (c.step + c.defers)) ≤ _
        by_cases e : i = pv
        · rw [e, Equiv.swap_apply_right]
          refine hR.le _ _ ?_
          rw [← hd]
          exact hR.yes _ _ (hb.1 rfl)
        · rw [Equiv.swap_apply_of_ne_of_ne (by omega) e]
          have hc' : Cand pr I.m2 c.step c.kL.get (fun a j => g.Ls a (g.orow j)) i := by
            refine (Cand.congr Iff.rfl (fun _ _ => rfl) (fun a ha => ?_)).1 hc
            rw [Equiv.swap_apply_of_ne_of_ne (by omega) e]
          rw [← hval i hi (by have := hc.1; omega)]
          unfold Crout.val
          split
          · rename_i hm
            obtain ⟨pv', e', hle⟩ := hcand hR i hm hc'
            obtain rfl : pv = pv' := by simpa using e'
            exact hR.le _ _ hle
          · exact hR.zero _

/-- The exchange of columns. -/
theorem tryU_runs (hl : VBusy I c c.ut) {pivot : Option Nat} (hpv : ∀ pv, pivot = some pv → pv ∈ c.ut.list ∧ pv < I.m2)
    (hval : ∀ j, c.step + c.defers < j → j < I.n + c.defers → val c.ut j = rest I c g (c.step + c.defers) j)
    (hcand : RookPar pr → ∀ j ∈ c.ut.list, Cand pr I.m2 c.step c.kU.get (fun a j => g.Us a (g.ocol j)) j → ∃ pv, pivot = some pv ∧ pr.nrm (c.ut.vals.get j) ≤ pr.nrm (c.ut.vals.get pv)) :
    Runs (tryU pr pivot c) fun r => ∃ g', PInv pr I ΦU ΦL r.2 g' ∧ DkOK I r.2 g' ∧ VBusy I c r.2.ut ∧ r.2.l = c.l ∧ Kept c r.2 ∧
      g'.S = g.S ∧ r.2.nU = c.nU + (if r.1 then 1 else 0) ∧ (RookPar pr → RowFine pr I r.2 g') ∧ (r.1 = false → g' = g ∧ r.2 = c) := by
  have hmle := hI.mle
  cases pivot with
  | none =>
    simp only [tryU, runs_pure]
    refine ⟨g, h, hd, hl, by tt, ⟨rfl, rfl, rfl, rfl⟩, rfl, by tt, fun hR i hi hc => ?_, fun _ => ⟨rfl, by tt⟩⟩
    rw [← hval i hi (by have := hc.1; omega)]
    unfold Crout.val
    split
    · rename_i hm
      obtain ⟨pv, e, -⟩ := hcand hR i hm hc
      simp at e
    · exact hR.zero _
  | some pv =>
    obtain ⟨m1, m2⟩ := hpv pv rfl
    obtain ⟨m3, m4⟩ := hl.range pv m1
    simp only [tryU, runs_bind]
    refine (better_runs hI h hlt hd hl.vsz m2).mono ?_
    rintro b hb
    cases b with
    | false =>
      simp only [Bool.false_eq_true, if_false, runs_pure]
      refine ⟨g, h, hd, hl, by tt, ⟨rfl, rfl, rfl, rfl⟩, rfl, by tt, fun hR i hi hc => ?_, fun _ => ⟨rfl, by tt⟩⟩
      rw [← hval i hi (by have := hc.1; omega)]
      unfold Crout.val
      split
      · rename_i hm
        obtain ⟨pv', e, hle⟩ := hcand hR i hm hc
        obtain rfl : pv = pv' := by simpa using e
        exact hR.no _ _ _ hle (not_lt.1 fun hc => by have := hb.2 hc; simp at this)
      · exact hR.zero _
    | true =>
      simp only [if_true, runs_bind]
      refine (interchange_runs hI h.U (le_of_lt m3) m2 h.qerm h.cpos hI.perm_q h.dsz hl.vsz).mono ?_
      rintro ⟨S', p', pinv', d', l'⟩ ⟨s1, s2, s3, s4, w, s5, s6⟩
      simp only at s1 s2 s3 s4 s5
      subst s4 s5
      simp only [runs_pure]
      have hdl : ∀ i, i < c.step → (c.d.set (c.step + c.defers) (c.ut.vals.get pv)).get i = c.d.get i := fun i hi => Buf.set_get_ne _ _ (by omega)
      have hmv := h.move (c' := { c with U := S', q := p', qinv := pinv', d := c.d.set (c.step + c.defers) (c.ut.vals.get pv), ut := { c.ut with vals := w }, nU := c.nU + 1 })
        (a := c.step + c.defers) (b := c.step + c.defers) (a' := c.step + c.defers) (b' := pv) (by omega) (by omega) (by omega) (by omega) rfl h.le h.m
        (live_swap (le_refl _) (by omega) (le_refl _) (by omega)) (live_swap (le_refl _) (by omega) (le_of_lt m3) m4)
        (by simp only [Equiv.swap_self, Equiv.refl_apply]; exact h.perm) s3 s1 s2 h.L (perm_refl hI h hlt hd) (by rw [Buf.set_size]; exact h.dsz) hdl rfl rfl
        (by intro j hj hlt'; rwa [Equiv.swap_self] at hlt')
        (by intro j hj hlt'; have := swap_below (a := c.step + c.defers) (b := pv) (M := I.m2) (by omega) (by omega) j; omega) (by simp only; omega) (fun hid => absurd (hb.1 rfl) (hid _ _))
      refine ⟨_, hmv, ?_, hl.setVals w s6, by tt, ⟨rfl, rfl, rfl, rfl⟩, rfl, by tt, fun hR i hi hc => ?_, fun hc => by simp at hc⟩
      · unfold DkOK
        show (c.d.set (c.step + c.defers) (c.ut.vals.get pv)).get (c.step + c.defers) = res I.B g.Ls g.Us (c.d.set (c.step + c.defers) (c.ut.vals.get pv)).get c.step
          (g.orow (Equiv.swap (c.step + c.defers) (c.step + c.defers) (c.step + c.defers))) (g.ocol (Equiv.swap (c.step + c.defers) pv (c.step + c.defers)))
        rw [Buf.set_get_self, Equiv.swap_apply_left, Equiv.swap_apply_left, res_congr (fun _ _ => rfl) (fun _ _ => rfl) hdl]
        have := hval pv m3 m4
        unfold Crout.val at this
        rw [if_pos m1] at this
        exact this
      · have hi : c.step + c.defers < i := hi
        have hc : Cand pr I.m2 c.step c.kU.get (fun a j => g.Us a (g.ocol (Equiv.swap (c.step + c.defers) pv j))) i := hc
        show pr.gamma * pr.nrm (res I.B g.Ls g.Us (c.d.set (c.step + c.defers) (c.ut.vals.get pv)).get c.step
          (g.orow (Equiv.swap (c.step + c.defers) (c.step + c.defers) (c.step + c.defers))) (g.ocol (Equiv.swap (c.step + c.defers) pv i))) ≤
          pr.nrm ((c.d.set (c.step + c.defers) (c.ut.vals.get pv)).get (c.step + c.defers))
        rw [Buf.set_get_self, res_congr (fun _ _ => rfl) (fun _ _ => rfl) hdl, Equiv.swap_self, Equiv.refl_apply]
        show pr.gamma * pr.nrm (rest I c g (c.step + c.defers) (Equiv.swap (c.step + c.defers) pv i)) ≤ _
        by_cases e : i = pv
        · rw [e, Equiv.swap_apply_right]
          refine hR.le _ _ ?_
          rw [← hd]
          exact hR.yes _ _ (hb.1 rfl)
        · rw [Equiv.swap_apply_of_ne_of_ne (by omega) e]
          have hc' : Cand pr I.m2 c.step c.kU.get (fun a j => g.Us a (g.ocol j)) i := by
            refine (Cand.congr Iff.rfl (fun _ _ => rfl) (fun a ha => ?_)).1 hc
            rw [Equiv.swap_apply_of_ne_of_ne (by omega) e]
          rw [← hval i hi (by have := hc.1; omega)]
          unfold Crout.val
          split
          · rename_i hm
            obtain ⟨pv', e', hle⟩ := hcand hR i hm hc'
            obtain rfl : pv = pv' := by simpa using e'
            exact hR.le _ _ hle
          · exact hR.zero _

end try_

end Hif.PCrout
