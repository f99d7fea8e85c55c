import Verif.Schur
import Mathlib.Data.List.Sort

set_option linter.unusedSectionVars false
set_option linter.unusedVariables false

/-! # Proofs about the Schur complement kernel -/

namespace Hif
open Finset Spec
namespace SchurIn
variable {K : Type _}

/-- Sizes and well-formedness of the arguments. -/
structure OK (a : SchurIn K) (q : Nat → Nat) : Prop where
  A_wf : a.A.WF
  L_wf : a.L.WF
  U_wf : a.U.WF
  sq : a.A.ssize = a.A.psize
  m_lt : a.m ≤ a.A.psize
  L_rows : a.L.psize = a.N
  L_cols : a.L.ssize = a.m
  U_rows : a.U.psize = a.m
  U_cols : a.U.ssize = a.N
  s_size : a.s.size = a.A.psize
  t_size : a.t.size = a.A.psize
  d_size : a.m ≤ a.d.size
  p_size : a.p.size = a.A.psize
  qinv_size : a.qinv.size = a.A.psize
  p_lt : ∀ i, i < a.A.psize → a.p.get i < a.A.psize
  q_inv : Inverse a.A.psize q a.qinv.get
  nodup : ∀ i, i < a.A.psize → (a.A.inds.slice (a.A.start.get i) (a.A.start.get (i + 1))).Nodup

/-- Index `x` belongs to the pattern of row `i`. -/
def Pat (a : SchurIn K) (i x : Nat) : Prop :=
  (∃ k, (a.L.start.get i ≤ k ∧ k < a.L.start.get (i + 1)) ∧ ∃ l, (a.U.start.get (a.L.inds.get k) ≤ l ∧ l < a.U.start.get (a.L.inds.get k + 1)) ∧
    x = a.U.inds.get l) ∨
  ∃ k, (a.A.start.get (a.p.get (a.m + i)) ≤ k ∧ k < a.A.start.get (a.p.get (a.m + i) + 1)) ∧
    a.m ≤ a.qinv.get (a.A.inds.get k) ∧ x = a.qinv.get (a.A.inds.get k) - a.m

open Classical in
/-- The sorted pattern of row `i`. -/
noncomputable def rowPat (a : SchurIn K) (i : Nat) : List Nat := (List.range a.N).filter fun x => a.Pat i x

theorem OK.pi_lt {a : SchurIn K} {q : Nat → Nat} (h : a.OK q) {i : Nat} (hi : i < a.N) : a.p.get (a.m + i) < a.A.psize :=
  h.p_lt _ (by unfold N at hi; omega)

theorem OK.pat_lt {a : SchurIn K} {q : Nat → Nat} (h : a.OK q) {i x : Nat} (hi : i < a.N) (hp : a.Pat i x) : x < a.N := by
  rcases hp with ⟨k, hk, l, hl, rfl⟩ | ⟨k, hk, hm, rfl⟩
  · have h1 := h.L_wf.line_lt (by rw [h.L_rows]; exact hi) hk.2
    have := h.U_wf.line_lt (i := a.L.inds.get k) (by rw [h.U_rows, ← h.L_cols]; exact h1) hl.2
    rwa [h.U_cols] at this
  · have h1 := h.A_wf.line_lt (h.pi_lt hi) hk.2
    rw [h.sq] at h1
    have := (h.q_inv.2 _ h1).1
    unfold N; omega

theorem mem_rowPat {a : SchurIn K} {q : Nat → Nat} (h : a.OK q) {i x : Nat} (hi : i < a.N) : x ∈ a.rowPat i ↔ a.Pat i x := by
  unfold rowPat
  rw [List.mem_filter, List.mem_range]
  constructor
  · intro hh; simpa using hh.2
  · intro hp; exact ⟨h.pat_lt hi hp, by simpa using hp⟩

theorem rowPat_nodup (a : SchurIn K) (i : Nat) : (a.rowPat i).Nodup := List.Nodup.filter _ List.nodup_range

theorem rowPat_sorted (a : SchurIn K) (i : Nat) : (a.rowPat i).Pairwise (· < ·) := List.Pairwise.filter _ List.pairwise_lt_range

/-- A sweep over a line that pushes. -/
theorem pushLoop {nb tag : Nat} {B : CS K} (hB : B.WF) {i : Nat} (hi : i < B.psize) (f : Nat → K → SV K → M (SV K)) (P : Nat → Nat → Prop)
    (hf : ∀ k s, B.start.get i ≤ k → k < B.start.get (i + 1) → SV.Busy nb tag s →
      Runs (f (B.inds.get k) (B.vals.get k) s) fun s' => SV.Busy nb tag s' ∧ s'.vals = s.vals ∧ ∀ x, x ∈ s'.list ↔ x ∈ s.list ∨ P k x)
    (s : SV K) (hs : SV.Busy nb tag s) :
    Runs (B.forLine i s f) fun s' => SV.Busy nb tag s' ∧ s'.vals = s.vals ∧
      ∀ x, x ∈ s'.list ↔ x ∈ s.list ∨ ∃ k, (B.start.get i ≤ k ∧ k < B.start.get (i + 1)) ∧ P k x := by
  refine CS.forLine_runs hB hi (fun k s' => SV.Busy nb tag s' ∧ s'.vals = s.vals ∧
      ∀ x, x ∈ s'.list ↔ x ∈ s.list ∨ ∃ l, (B.start.get i ≤ l ∧ l < k) ∧ P l x) ⟨hs, rfl, fun x => ?_⟩ ?_ (fun _ h => h)
  · constructor
    · exact Or.inl
    · rintro (h | ⟨l, hl, -⟩)
      · exact h
      · omega
  · rintro k s' h1 h2 ⟨b, v, m⟩
    refine (hf k s' h1 h2 b).mono ?_
    rintro s'' ⟨b', v', m'⟩
    refine ⟨b', by rw [v', v], fun x => ?_⟩
    rw [m', m, or_assoc]
    constructor
    · rintro (h | ⟨l, hl, hp⟩ | hp)
      · exact Or.inl h
      · exact Or.inr ⟨l, ⟨hl.1, by omega⟩, hp⟩
      · exact Or.inr ⟨k, ⟨h1, by omega⟩, hp⟩
    · rintro (h | ⟨l, hl, hp⟩)
      · exact Or.inl h
      · by_cases e : l = k
        · subst e; exact Or.inr (Or.inr hp)
        · exact Or.inr (Or.inl ⟨l, ⟨hl.1, by omega⟩, hp⟩)

theorem pushTo_runs {nb tag j : Nat} {s : SV K} (hs : SV.Busy nb tag s) (hj : j < nb) :
    Runs (pushTo tag j s) fun s' => SV.Busy nb tag s' ∧ s'.vals = s.vals ∧ ∀ x, x ∈ s'.list ↔ x ∈ s.list ∨ x = j := by
  unfold pushTo
  simp only [runs_bind, runs_pure]
  refine (SV.push_runs hs hj).mono ?_
  rintro ⟨b, s'⟩ ⟨-, h2, h3, h4⟩
  refine ⟨h2, h4, fun x => ?_⟩
  simp only at h3
  rw [h3]
  split
  · rename_i hin
    exact ⟨Or.inl, fun h => h.elim id (fun e => by rw [e]; exact hin)⟩
  · simp

theorem collect_runs {a : SchurIn K} {q : Nat → Nat} (h : a.OK q) {nb tag i : Nat} (hnb : a.N ≤ nb) (hi : i < a.N) (s : SV K)
    (hs : SV.Ready nb tag s) :
    Runs (a.collect i tag s) fun s' => SV.Busy nb tag s' ∧ s'.vals = s.vals ∧ ∀ x, x ∈ s'.list ↔ a.Pat i x := by
  unfold collect
  rw [runs_bind]
  have hi' : i < a.L.psize := by rw [h.L_rows]; exact hi
  refine (pushLoop (nb := nb) (tag := tag) h.L_wf hi' _
    (fun k x => ∃ l, (a.U.start.get (a.L.inds.get k) ≤ l ∧ l < a.U.start.get (a.L.inds.get k + 1)) ∧ x = a.U.inds.get l)
    (fun k s1 h1 h2 b => ?_) s.reset hs.reset).mono ?_
  · have hk : a.L.inds.get k < a.U.psize := by rw [h.U_rows, ← h.L_cols]; exact h.L_wf.line_lt hi' h2
    refine pushLoop h.U_wf hk _ (fun l x => x = a.U.inds.get l) (fun l s2 h3 h4 b2 => ?_) s1 b
    have := h.U_wf.line_lt hk h4
    rw [h.U_cols] at this
    exact pushTo_runs b2 (by omega)
  rintro s1 ⟨b1, v1, m1⟩
  simp only [runs_bind, runs_rd]
  have hp := h.pi_lt hi
  refine ⟨by rw [h.p_size]; unfold N at hi; omega, ?_⟩
  refine (pushLoop (nb := nb) (tag := tag) h.A_wf hp _
    (fun k x => a.m ≤ a.qinv.get (a.A.inds.get k) ∧ x = a.qinv.get (a.A.inds.get k) - a.m) (fun k s2 h1 h2 b => ?_) s1 b1).mono ?_
  · have hk := h.A_wf.line_lt hp h2
    rw [h.sq] at hk
    have hq := (h.q_inv.2 _ hk).1
    unfold pushC
    simp only [runs_bind, runs_rd, runs_ite]
    refine ⟨by rw [h.qinv_size]; exact hk, ?_⟩
    split
    · rename_i hm
      refine (pushTo_runs b (j := a.qinv.get (a.A.inds.get k) - a.m) (by unfold N at hnb; omega)).mono ?_
      rintro s3 ⟨b3, v3, m3⟩
      refine ⟨b3, v3, fun x => ?_⟩
      rw [m3]
      simp [hm]
    · rename_i hm
      rw [runs_pure]
      refine ⟨b, rfl, fun x => ?_⟩
      simp [hm]
  · rintro s2 ⟨b2, v2, m2⟩
    refine ⟨b2, by rw [v2, v1]; rfl, fun x => ?_⟩
    rw [m2, m1]
    unfold Pat
    have : x ∉ s.reset.list := by unfold SV.list SV.reset; simp [Buf.slice_empty]
    simp [this]

/-- The collected list sorted is the sorted pattern. -/
theorem sorted_eq {a : SchurIn K} {q : Nat → Nat} (h : a.OK q) {i : Nat} (hi : i < a.N) {l : List Nat} (hn : l.Nodup)
    (hm : ∀ x, x ∈ l ↔ a.Pat i x) : l.Perm (a.rowPat i) ∧ l.insertionSort (· ≤ ·) = a.rowPat i := by
  have hp : l.Perm (a.rowPat i) := (List.perm_ext_iff_of_nodup hn (rowPat_nodup a i)).2 fun x => by rw [hm, mem_rowPat h hi]
  refine ⟨hp, ?_⟩
  have h1 : (l.insertionSort (· ≤ ·)).Perm (a.rowPat i) := (List.perm_insertionSort _ _).trans hp
  exact List.Perm.eq_of_pairwise (le := fun x y : Nat => x ≤ y) (fun _ _ _ _ hab hba => Nat.le_antisymm hab hba)
    (List.pairwise_insertionSort _ _) ((rowPat_sorted a i).imp le_of_lt) h1

theorem fillIdx_runs {a : SchurIn K} {q : Nat → Nat} (h : a.OK q) {nb tag i pos : Nat} (hnb : a.N ≤ nb) (hi : i < a.N) (s : SV K)
    (hs : SV.Ready nb tag s) (ci : Buf Nat) (hci : pos + (a.rowPat i).length ≤ ci.size) :
    Runs (a.fillIdx i tag pos s ci) fun r => (∀ tag', tag < tag' → SV.Ready nb tag' r.1) ∧ r.1.vals = s.vals ∧
      r.1.counts = (a.rowPat i).length ∧ r.2.size = ci.size ∧
      (∀ k, k < (a.rowPat i).length → r.2.get (pos + k) = (a.rowPat i).getD k 0) ∧
      (∀ k, k < pos ∨ pos + (a.rowPat i).length ≤ k → r.2.get k = ci.get k) := by
  unfold fillIdx
  rw [runs_bind]
  refine (collect_runs h hnb hi s hs).mono ?_
  rintro s1 ⟨b1, v1, m1⟩
  obtain ⟨hperm, hsort⟩ := sorted_eq h hi b1.nodup m1
  have hlen : s1.counts = (a.rowPat i).length := by
    have := hperm.length_eq
    rwa [SV.list_length] at this
  have hcl := b1.counts_le
  have hsz := b1.inds_size
  simp only [runs_bind, runs_pure]
  have hget : ∀ k, k < s1.counts → (sortIdx s1).inds.get k = (a.rowPat i).getD k 0 := by
    intro k hk
    unfold sortIdx
    simp only
    rw [if_pos hk]
    have : s1.inds.slice 0 s1.counts = s1.list := rfl
    rw [this, hsort]
  show Runs (forUp pos (pos + s1.counts) ci _) _
  refine forUp_runs' (fun j (c : Buf Nat) => c.size = ci.size ∧ (∀ k, pos + k < j → c.get (pos + k) = (a.rowPat i).getD k 0) ∧
    ∀ k, k < pos ∨ j ≤ k → c.get k = ci.get k) (by omega) ⟨rfl, fun k hk => by omega, fun _ _ => rfl⟩ ?_ ?_
  · rintro j c h1 h2 ⟨c1, c2, c3⟩
    simp only [runs_bind, runs_rd, runs_wr, Buf.set_size, Buf.set_get]
    refine ⟨by show j - pos < s1.inds.size; omega, by omega, c1, fun k hk => ?_, fun k hk => ?_⟩
    · by_cases e : pos + k = j
      · rw [if_pos e, hget _ (by omega)]
        congr 1; omega
      · rw [if_neg e]; exact c2 k (by omega)
    · rw [if_neg (by omega)]; exact c3 k (by omega)
  · rintro c ⟨c1, c2, c3⟩
    refine ⟨fun tag' ht => ?_, v1, hlen, c1, fun k hk => c2 k (by omega), fun k hk => c3 k (by omega)⟩
    have := b1.ready ht
    exact ⟨this.tags_size, this.inds_size, this.drop_size, this.drop_false, this.old⟩

section
variable [CommRing K]

/-- The value the kernel assembles for position `(i, x)`. -/
def val (a : SchurIn K) (i x : Nat) : K :=
  (∑ k ∈ Ico (a.A.start.get (a.p.get (a.m + i))) (a.A.start.get (a.p.get (a.m + i) + 1)),
    if a.qinv.get (a.A.inds.get k) = a.m + x then a.s.get (a.p.get (a.m + i)) * a.A.vals.get k * a.t.get (a.A.inds.get k) else 0) -
  ∑ k ∈ Ico (a.L.start.get i) (a.L.start.get (i + 1)), a.L.vals.get k * a.d.get (a.L.inds.get k) * a.U.entry (a.L.inds.get k) x

theorem loadRow_runs {a : SchurIn K} {q : Nat → Nat} (h : a.OK q) {i : Nat} (hi : i < a.N) (rs ci : Buf Nat) (w : Buf K) (lo : Nat)
    (hw : a.N ≤ w.size) (hrs : i + 1 < rs.size) (h1 : rs.get i = lo) (h2 : rs.get (i + 1) = lo + (a.rowPat i).length)
    (hci : lo + (a.rowPat i).length ≤ ci.size) (hc : ∀ k, k < (a.rowPat i).length → ci.get (lo + k) = (a.rowPat i).getD k 0) :
    Runs (a.loadRow i rs ci w) fun w' => w'.size = w.size ∧ ∀ x, a.Pat i x → w'.get x =
      ∑ k ∈ Ico (a.A.start.get (a.p.get (a.m + i))) (a.A.start.get (a.p.get (a.m + i) + 1)),
        if a.qinv.get (a.A.inds.get k) = a.m + x then a.s.get (a.p.get (a.m + i)) * a.A.vals.get k * a.t.get (a.A.inds.get k) else 0 := by
  have hmem : ∀ k, k < (a.rowPat i).length → (a.rowPat i).getD k 0 ∈ a.rowPat i := by
    intro k hk
    rw [List.getD_eq_getElem?_getD, List.getElem?_eq_getElem hk, Option.getD_some]
    exact List.getElem_mem hk
  unfold loadRow
  simp only [runs_bind, runs_rd]
  refine ⟨by omega, hrs, ?_⟩
  refine forUp_runs' (fun j (w' : Buf K) => w'.size = w.size ∧ ∀ k, lo + k < j → w'.get ((a.rowPat i).getD k 0) = 0) (by omega)
    ⟨rfl, fun k hk => by omega⟩ ?_ ?_
  · rintro j w' hj1 hj2 ⟨w1, w2⟩
    have hx : ci.get j = (a.rowPat i).getD (j - lo) 0 := by rw [← hc _ (by omega)]; congr 1; omega
    have hlt : ci.get j < a.N := by
      rw [hx]
      exact h.pat_lt hi ((mem_rowPat h hi).1 (hmem _ (by omega)))
    simp only [runs_bind, runs_rd, runs_wr, Buf.set_size, Buf.set_get]
    refine ⟨by omega, by omega, w1, fun k hk => ?_⟩
    split
    · rfl
    · rename_i hne
      apply w2
      by_contra hcon
      have : k = j - lo := by omega
      subst this
      exact hne hx.symm
  rintro w1 ⟨w1s, w1z⟩
  have hp := h.pi_lt hi
  refine ⟨by rw [h.p_size]; unfold N at hi; omega, by rw [h.s_size]; exact hp, ?_⟩
  refine CS.forLine_runs h.A_wf hp (fun j (w' : Buf K) => w'.size = w.size ∧ ∀ x, a.Pat i x → w'.get x =
      ∑ k ∈ Ico (a.A.start.get (a.p.get (a.m + i))) j,
        if a.qinv.get (a.A.inds.get k) = a.m + x then a.s.get (a.p.get (a.m + i)) * a.A.vals.get k * a.t.get (a.A.inds.get k) else 0)
    ⟨w1s, fun x hx => ?_⟩ ?_ (fun _ h => h)
  · rw [Ico_self, sum_empty]
    obtain ⟨k, hk, e⟩ := List.getElem_of_mem ((mem_rowPat h hi).2 hx)
    have := w1z k (by omega)
    rw [List.getD_eq_getElem?_getD, List.getElem?_eq_getElem hk, Option.getD_some, e] at this
    exact this
  · rintro j w' hj1 hj2 ⟨ws, wv⟩
    have hlt := h.A_wf.line_lt hp hj2
    rw [h.sq] at hlt
    have hq := (h.q_inv.2 _ hlt).1
    simp only [runs_bind, runs_rd, runs_ite]
    refine ⟨by rw [h.qinv_size]; exact hlt, ?_⟩
    split
    · rename_i hm
      simp only [runs_wr, Buf.set_size, Buf.set_get]
      refine ⟨by rw [h.t_size]; exact hlt, by unfold N at hw; omega, ws, fun x hx => ?_⟩
      rw [sum_Ico_succ_top hj1]
      by_cases e : x = a.qinv.get (a.A.inds.get j) - a.m
      · have e' : a.qinv.get (a.A.inds.get j) = a.m + x := by omega
        rw [if_pos e, if_pos e', sum_eq_zero, zero_add]
        intro k hk
        rw [mem_Ico] at hk
        rw [if_neg]
        intro hkk
        have hlk := h.A_wf.line_lt hp (show k < a.A.start.get (a.p.get (a.m + i) + 1) by omega)
        rw [h.sq] at hlk
        have hinj : a.A.inds.get k = a.A.inds.get j := by
          rw [← (h.q_inv.2 _ hlk).2, ← (h.q_inv.2 _ hlt).2, hkk, e']
        have hnd := h.nodup _ hp
        rw [List.nodup_iff_injective_get] at hnd
        have hlen : (a.A.inds.slice (a.A.start.get (a.p.get (a.m + i))) (a.A.start.get (a.p.get (a.m + i) + 1))).length =
          a.A.start.get (a.p.get (a.m + i) + 1) - a.A.start.get (a.p.get (a.m + i)) := Buf.slice_length _ _ _
        have := @hnd ⟨k - a.A.start.get (a.p.get (a.m + i)), by rw [hlen]; omega⟩ ⟨j - a.A.start.get (a.p.get (a.m + i)), by rw [hlen]; omega⟩ (by
          simp only [List.get_eq_getElem, Buf.slice_getElem]
          rw [show a.A.start.get (a.p.get (a.m + i)) + (k - a.A.start.get (a.p.get (a.m + i))) = k by omega,
            show a.A.start.get (a.p.get (a.m + i)) + (j - a.A.start.get (a.p.get (a.m + i))) = j by omega, hinj])
        have := Fin.mk.inj_iff.1 this
        omega
      · rw [if_neg e, if_neg (by omega), add_zero]
        exact wv x hx
    · rename_i hm
      rw [runs_pure]
      refine ⟨ws, fun x hx => ?_⟩
      rw [sum_Ico_succ_top hj1, if_neg (by omega), add_zero]
      exact wv x hx

theorem subtractRow_runs {a : SchurIn K} {q : Nat → Nat} (h : a.OK q) {i : Nat} (hi : i < a.N) (w : Buf K) (hw : a.N ≤ w.size) :
    Runs (a.subtractRow i w) fun w' => w'.size = w.size ∧ ∀ x, w'.get x = w.get x -
      ∑ k ∈ Ico (a.L.start.get i) (a.L.start.get (i + 1)), a.L.vals.get k * a.d.get (a.L.inds.get k) * a.U.entry (a.L.inds.get k) x := by
  unfold subtractRow
  have hi' : i < a.L.psize := by rw [h.L_rows]; exact hi
  refine CS.forLine_runs h.L_wf hi' (fun j (w' : Buf K) => w'.size = w.size ∧ ∀ x, w'.get x = w.get x -
      ∑ k ∈ Ico (a.L.start.get i) j, a.L.vals.get k * a.d.get (a.L.inds.get k) * a.U.entry (a.L.inds.get k) x)
    ⟨rfl, fun x => by simp⟩ ?_ (fun _ h => h)
  rintro j w' hj1 hj2 ⟨ws, wv⟩
  have hlt := h.L_wf.line_lt hi' hj2
  have hk : a.L.inds.get j < a.U.psize := by rw [h.U_rows, ← h.L_cols]; exact hlt
  rw [h.L_cols] at hlt
  have hd := h.d_size
  simp only [runs_bind, runs_rd]
  refine ⟨by omega, ?_⟩
  refine (CS.axpyLine_runs h.U_wf hk w' (by rw [h.U_cols]; omega) (fun u => -(a.L.vals.get j * a.d.get (a.L.inds.get j) * u))
    (fun y u => y - a.L.vals.get j * a.d.get (a.L.inds.get j) * u) (fun y u => by ring)).mono ?_
  rintro w2 ⟨s2, v2⟩
  refine ⟨by rw [s2, ws], fun x => ?_⟩
  rw [v2, wv, sum_Ico_succ_top hj1]
  have : (∑ k ∈ Ico (a.U.start.get (a.L.inds.get j)) (a.U.start.get (a.L.inds.get j + 1)),
      if a.U.inds.get k = x then -(a.L.vals.get j * a.d.get (a.L.inds.get j) * a.U.vals.get k) else 0) =
      -(a.L.vals.get j * a.d.get (a.L.inds.get j) * a.U.entry (a.L.inds.get j) x) := by
    unfold CS.entry
    rw [mul_sum, ← sum_neg_distrib]
    refine sum_congr rfl fun k _ => ?_
    split <;> simp
  rw [this]
  ring

theorem fillVals_runs {a : SchurIn K} {q : Nat → Nat} (h : a.OK q) {i : Nat} (hi : i < a.N) (rs ci : Buf Nat) (w vals : Buf K) (lo : Nat)
    (hw : a.N ≤ w.size) (hrs : i + 1 < rs.size) (h1 : rs.get i = lo) (h2 : rs.get (i + 1) = lo + (a.rowPat i).length)
    (hci : lo + (a.rowPat i).length ≤ ci.size) (hv : lo + (a.rowPat i).length ≤ vals.size)
    (hc : ∀ k, k < (a.rowPat i).length → ci.get (lo + k) = (a.rowPat i).getD k 0) :
    Runs (a.fillVals i rs ci w vals) fun r => r.1.size = w.size ∧ r.2.size = vals.size ∧
      (∀ k, k < (a.rowPat i).length → r.2.get (lo + k) = a.val i ((a.rowPat i).getD k 0)) ∧
      (∀ k, k < lo ∨ lo + (a.rowPat i).length ≤ k → r.2.get k = vals.get k) := by
  have hmem : ∀ k, k < (a.rowPat i).length → (a.rowPat i).getD k 0 ∈ a.rowPat i := by
    intro k hk
    rw [List.getD_eq_getElem?_getD, List.getElem?_eq_getElem hk, Option.getD_some]
    exact List.getElem_mem hk
  unfold fillVals
  rw [runs_bind]
  refine (loadRow_runs h hi rs ci w lo hw hrs h1 h2 hci hc).mono ?_
  rintro w1 ⟨s1, v1⟩
  rw [runs_bind]
  refine (subtractRow_runs h hi w1 (by omega)).mono ?_
  rintro w2 ⟨s2, v2⟩
  simp only [runs_bind, runs_rd, runs_pure]
  refine ⟨by omega, hrs, ?_⟩
  refine forUp_runs' (fun j (vv : Buf K) => vv.size = vals.size ∧ (∀ k, lo + k < j → vv.get (lo + k) = a.val i ((a.rowPat i).getD k 0)) ∧
    ∀ k, k < lo ∨ j ≤ k → vv.get k = vals.get k) (by omega) ⟨rfl, fun k hk => by omega, fun _ _ => rfl⟩ ?_ ?_
  · rintro j vv hj1 hj2 ⟨vs, va, vb⟩
    have hx : ci.get j = (a.rowPat i).getD (j - lo) 0 := by rw [← hc _ (by omega)]; congr 1; omega
    have hpat : a.Pat i (ci.get j) := by rw [hx]; exact (mem_rowPat h hi).1 (hmem _ (by omega))
    have hlt := h.pat_lt hi hpat
    simp only [runs_bind, runs_rd, runs_wr, Buf.set_size, Buf.set_get]
    refine ⟨by omega, by omega, by omega, vs, fun k hk => ?_, fun k hk => ?_⟩
    · by_cases e : lo + k = j
      · rw [if_pos e, v2, v1 _ hpat]
        have : k = j - lo := by omega
        rw [this, ← hx]
        rfl
      · rw [if_neg e]; exact va k (by omega)
    · rw [if_neg (by omega)]; exact vb k (by omega)
  · rintro vv ⟨vs, va, vb⟩
    exact ⟨by omega, vs, fun k hk => va k (by omega), fun k hk => vb k (by omega)⟩

/-- `val` is the Schur complement formula. -/
theorem val_eq {a : SchurIn K} {q : Nat → Nat} (h : a.OK q) {i x : Nat} (hi : i < a.N) (hx : x < a.N) : a.val i x =
    a.s.get (a.p.get (a.m + i)) * a.A.crs (a.p.get (a.m + i)) (q (a.m + x)) * a.t.get (q (a.m + x)) -
      ∑ k ∈ range a.m, a.L.crs i k * a.d.get k * a.U.crs k x := by
  unfold val
  congr 1
  · unfold CS.crs CS.entry
    rw [mul_sum, sum_mul]
    refine sum_congr rfl fun k hk => ?_
    rw [mem_Ico] at hk
    have hlt := h.A_wf.line_lt (h.pi_lt hi) hk.2
    rw [h.sq] at hlt
    have hmx : a.m + x < a.A.psize := by unfold N at hx; omega
    by_cases e : a.A.inds.get k = q (a.m + x)
    · have : a.qinv.get (a.A.inds.get k) = a.m + x := by rw [e]; exact (h.q_inv.1 _ hmx).2
      rw [if_pos this, if_pos e, ← e]
    · have : a.qinv.get (a.A.inds.get k) ≠ a.m + x := fun hh => e (by rw [← hh]; exact (h.q_inv.2 _ hlt).2.symm)
      rw [if_neg this, if_neg e]; simp
  · have := CS.line_sum h.L_wf (i := i) (by rw [h.L_rows]; exact hi) fun k => a.d.get k * a.U.entry k x
    rw [h.L_cols] at this
    unfold CS.crs
    simp only [← mul_assoc] at this
    exact this

theorem val_zero {a : SchurIn K} {i x : Nat} (hp : ¬ a.Pat i x) : a.val i x = 0 := by
  unfold val
  rw [sum_eq_zero, sum_eq_zero, sub_zero]
  · intro k hk
    rw [mem_Ico] at hk
    have : a.U.entry (a.L.inds.get k) x = 0 := by
      unfold CS.entry
      refine sum_eq_zero fun l hl => ?_
      rw [mem_Ico] at hl
      rw [if_neg]
      intro e
      exact hp (Or.inl ⟨k, hk, l, hl, e.symm⟩)
    rw [this, mul_zero]
  · intro k hk
    rw [mem_Ico] at hk
    rw [if_neg]
    intro e
    exact hp (Or.inr ⟨k, hk, by omega, by omega⟩)

end
end SchurIn
end Hif
