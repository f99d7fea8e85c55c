import Verif.Pre
import Verif.CroutFin
import Mathlib.Algebra.Order.Field.Basic
import Mathlib.Tactic.Linarith
import Mathlib.Tactic.Positivity

set_option linter.unusedSectionVars false
set_option linter.unusedVariables false

/-! # Proofs about the preprocessing -/

namespace Hif
namespace Pre

section mag
variable {K R : Type _} [Mul K] [Field R] [LinearOrder R] [IsStrictOrderedRing R]

/-- `v` is the largest magnitude of the list (0 for the empty list). -/
def IsMaxMag (nrm : K → R) (l : List (Nat × K)) (v : R) : Prop :=
  (∀ e ∈ l, nrm e.2 ≤ v) ∧ (l = [] ∧ v = 0 ∨ ∃ e ∈ l, nrm e.2 = v)

theorem lineMax_runs (nrm : K → R) {A : CS K} (h : A.WF) {i : Nat} (hi : i < A.psize) :
    Runs (lineMax nrm A i) fun v => IsMaxMag nrm (A.line i) v := by
  have hs := h.start_size
  have hmono := h.mono i hi
  unfold lineMax
  simp only [runs_bind, runs_rd, runs_ite, runs_pure]
  refine ⟨by omega, by omega, ?_⟩
  split
  · rename_i hne
    have hlt : A.start.get i < A.start.get (i + 1) := by omega
    refine ⟨h.line_vals hi hlt, ?_⟩
    refine forUp_runs' (fun k b => (∀ e ∈ A.seg (A.start.get i) k, nrm e.2 ≤ b) ∧ ∃ e ∈ A.seg (A.start.get i) k, nrm e.2 = b)
      (by omega) ?_ ?_ ?_
    · rw [CS.seg_succ A (le_refl _), CS.seg_empty A (le_refl _)]
      simp
    · rintro k b h1 h2 ⟨h3, e, h4, h5⟩
      simp only [runs_bind, runs_rd, runs_pure]
      refine ⟨h.line_vals hi h2, ?_⟩
      rw [CS.seg_succ A (by omega)]
      simp only [List.mem_append, List.mem_singleton]
      by_cases hb : b < nrm (A.vals.get k)
      · rw [if_pos hb]
        refine ⟨?_, _, Or.inr rfl, rfl⟩
        rintro e' (he' | rfl)
        · exact le_trans (h3 e' he') (le_of_lt hb)
        · exact le_refl _
      · rw [if_neg hb]
        refine ⟨?_, e, Or.inl h4, h5⟩
        rintro e' (he' | rfl)
        · exact h3 e' he'
        · exact not_lt.1 hb
    · rintro b ⟨h1, h2⟩
      exact ⟨h1, Or.inr h2⟩
  · rename_i hne
    have he : A.line i = [] := CS.seg_empty A (by omega)
    rw [he]
    exact ⟨by simp, Or.inl ⟨rfl, rfl⟩⟩

/-- The permuted diagonal entry in row `r`, column `c` is stored and exceeds `eps` times every magnitude of its row and of
its column. -/
def Dominant (nrm : K → R) (eps : R) (Accs Acrs : CS K) (r c : Nat) : Prop :=
  ∃ v, (r, v) ∈ Accs.line c ∧ (∀ e ∈ Acrs.line r, eps * nrm e.2 < nrm v) ∧ ∀ e ∈ Accs.line c, eps * nrm e.2 < nrm v

theorem isGood_runs (nrm : K → R) (hn : ∀ v, 0 ≤ nrm v) (eps : R) (heps : 0 ≤ eps) {Accs Acrs : CS K} (hc : Accs.WF)
    (hcs : Accs.Sorted) (hr : Acrs.WF) (p q : Buf Nat) (i : Nat) (hp : i < p.size) (hq : i < q.size)
    (hpi : p.get i < Acrs.psize) (hqi : q.get i < Accs.psize) :
    Runs (isGood nrm eps Accs Acrs p q i) fun b => b = true ↔ Dominant nrm eps Accs Acrs (p.get i) (q.get i) := by
  have hss := hc.start_size
  have hmono := hc.mono _ hqi
  have hnn : Accs.start.get (q.get i + 1) ≤ Accs.inds.size := le_trans (hc.start_mono (by omega) (le_refl _)) hc.nnz_inds
  unfold isGood
  simp only [runs_bind, runs_rd]
  refine ⟨hq, hp, by omega, by omega, ?_⟩
  refine (Crout.lowerBound_runs Accs.inds (p.get i) _ _ (by omega) ?_).mono ?_
  · intro k l h1 h2 h3
    exact hcs (q.get i) hqi k l ⟨h1, by omega⟩ ⟨by omega, by omega⟩ h2
  rintro pos ⟨p1, p2, p3, p4⟩
  have hnone : (∀ k, Accs.start.get (q.get i) ≤ k → k < Accs.start.get (q.get i + 1) → Accs.inds.get k ≠ p.get i) →
      ¬ Dominant nrm eps Accs Acrs (p.get i) (q.get i) := by
    rintro hz ⟨v, hv, -⟩
    obtain ⟨k, k1, k2, k3⟩ := CS.mem_seg.1 hv
    exact hz k k1 k2 (congrArg Prod.fst k3)
  simp only [runs_ite, runs_pure, runs_bind, runs_rd]
  by_cases hpos : pos ≠ Accs.start.get (q.get i + 1)
  · rw [if_pos hpos]
    refine ⟨by omega, ?_⟩
    by_cases hx : Accs.inds.get pos = p.get i
    · rw [if_pos hx]
      refine ⟨hc.line_vals hqi (by omega), ?_⟩
      have hmem : (p.get i, Accs.vals.get pos) ∈ Accs.line (q.get i) := CS.mem_seg.2 ⟨pos, p1, by omega, by rw [hx]⟩
      unfold maxRowCol
      simp only [runs_bind, runs_rd, runs_pure]
      refine ⟨hp, (lineMax_runs nrm hr hpi).mono ?_⟩
      intro a ha
      refine ⟨hq, (lineMax_runs nrm hc hqi).mono ?_⟩
      intro b hb
      rw [decide_eq_true_eq, not_le]
      have hb0 : ∃ e ∈ Accs.line (q.get i), nrm e.2 = b := by
        rcases hb.2 with ⟨h1, -⟩ | h1
        · rw [h1] at hmem; simp at hmem
        · exact h1
      have hval : ∀ v, (p.get i, v) ∈ Accs.line (q.get i) → v = Accs.vals.get pos := by
        intro v hv
        obtain ⟨k, k1, k2, k3⟩ := CS.mem_seg.1 hv
        injection k3 with k3 k4
        rcases Nat.lt_trichotomy k pos with hlt | rfl | hlt
        · have := p3 k k1 hlt; omega
        · exact k4.symm
        · have := hcs (q.get i) hqi pos k ⟨p1, by omega⟩ ⟨k1, k2⟩ hlt; omega
      have ha0 : 0 ≤ a := by
        rcases ha.2 with ⟨-, h1⟩ | ⟨e, -, h1⟩
        · rw [h1]
        · rw [← h1]; exact hn _
      rw [max_eq_right ha0]
      constructor
      · intro hlt
        by_cases hz : max a b = 0
        · exfalso
          rw [if_pos hz] at hlt
          have := hb.1 _ hmem
          have h3 : b ≤ max a b := le_max_right _ _
          have h4 := hn (Accs.vals.get pos)
          simp only at this
          linarith
        · rw [if_neg hz] at hlt
          refine ⟨_, hmem, fun e he => ?_, fun e he => ?_⟩
          · have h1 : nrm e.2 ≤ max a b := le_trans (ha.1 e he) (le_max_left _ _)
            have := mul_le_mul_of_nonneg_left h1 heps
            linarith [mul_comm eps (max a b)]
          · have h1 : nrm e.2 ≤ max a b := le_trans (hb.1 e he) (le_max_right _ _)
            have := mul_le_mul_of_nonneg_left h1 heps
            linarith [mul_comm eps (max a b)]
      · rintro ⟨v, hv, h1, h2⟩
        have hveq := hval v hv
        subst hveq
        have hposv : 0 < nrm (Accs.vals.get pos) :=
          lt_of_le_of_lt (mul_nonneg heps (hn _)) (h2 _ hmem)
        have hbp : 0 < b := lt_of_lt_of_le hposv (hb.1 _ hmem)
        rw [if_neg (ne_of_gt (lt_of_lt_of_le hbp (le_max_right _ _)))]
        rcases le_total a b with hab | hab
        · rw [max_eq_right hab]
          obtain ⟨e, e1, e2⟩ := hb0
          have := h2 e e1
          rw [e2] at this
          linarith [mul_comm eps b]
        · rw [max_eq_left hab]
          rcases ha.2 with ⟨-, h3⟩ | ⟨e, e1, e2⟩
          · linarith
          · have := h1 e e1
            rw [e2] at this
            linarith [mul_comm eps a]
    · rw [if_neg hx]
      simp only [Bool.false_eq_true, false_iff]
      refine hnone fun k k1 k2 e => ?_
      rcases Nat.lt_trichotomy k pos with hlt | rfl | hlt
      · have := p3 k k1 hlt; omega
      · exact hx e
      · have h5 := hcs (q.get i) hqi pos k ⟨p1, by omega⟩ ⟨k1, k2⟩ hlt
        have h6 := p4 pos (le_refl _) (by omega)
        omega
  · rw [if_neg hpos]
    simp only [Bool.false_eq_true, false_iff]
    push Not at hpos
    refine hnone fun k k1 k2 e => ?_
    have := p3 k k1 (by omega)
    omega

end mag

/-! ### Static deferral -/

section defer

open Classical in
/-- Indices below `k` satisfying `G`, in order. -/
noncomputable def keep (G : Nat → Prop) (k : Nat) : List Nat := (List.range k).filter fun x => decide (G x)

open Classical in
theorem keep_succ_pos {G : Nat → Prop} {k : Nat} (h : G k) : keep G (k + 1) = keep G k ++ [k] := by
  unfold keep
  rw [List.range_succ, List.filter_append]
  simp [h]

open Classical in
theorem keep_succ_neg {G : Nat → Prop} {k : Nat} (h : ¬ G k) : keep G (k + 1) = keep G k := by
  unfold keep
  rw [List.range_succ, List.filter_append]
  simp [h]

open Classical in
theorem mem_keep {G : Nat → Prop} {k x : Nat} : x ∈ keep G k ↔ x < k ∧ G x := by
  unfold keep
  rw [List.mem_filter, List.mem_range, decide_eq_true_eq]

theorem keep_nodup (G : Nat → Prop) (k : Nat) : (keep G k).Nodup := List.nodup_range.filter _

/-- Invariant of the deferral with `i` kept entries and `k` examined ones. -/
structure DInv (m0 : Nat) (G : Nat → Prop) (p0 q0 : Buf Nat) (i : Nat) (s : Defer) : Prop where
  ps : s.p.size = p0.size
  qs : s.q.size = q0.size
  wps : m0 ≤ s.wp.size
  wqs : m0 ≤ s.wq.size
  pk : s.p.slice 0 i = (keep G (i + s.deferrals)).map p0.get
  qk : s.q.slice 0 i = (keep G (i + s.deferrals)).map q0.get
  pu : ∀ k, i ≤ k → s.p.get k = p0.get k
  qu : ∀ k, i ≤ k → s.q.get k = q0.get k
  wpk : s.wp.slice 0 s.deferrals = (keep (fun x => ¬ G x) (i + s.deferrals)).map p0.get
  wqk : s.wq.slice 0 s.deferrals = (keep (fun x => ¬ G x) (i + s.deferrals)).map q0.get
  wsz : s.wp.size = s.wp.size

variable {m0 : Nat} {G : Nat → Prop} {p0 q0 : Buf Nat} {good : Buf Nat → Buf Nat → Nat → M Bool}

/-- What the test must do: decide `G` at a position whose permutation entries are still the original ones. -/
def GoodSpec (m0 : Nat) (G : Nat → Prop) (p0 q0 : Buf Nat) (good : Buf Nat → Buf Nat → Nat → M Bool) : Prop :=
  ∀ p q i, i < m0 → p.size = p0.size → q.size = q0.size → p.get i = p0.get i → q.get i = q0.get i →
    Runs (good p q i) fun b => b = true ↔ G i

theorem deferWhile_runs (hg : GoodSpec m0 G p0 q0 good) (hp : m0 ≤ p0.size) (hq : m0 ≤ q0.size) (i : Nat) :
    ∀ f s, DInv m0 G p0 q0 i s → i + s.deferrals < m0 → s.m + s.deferrals = m0 → m0 ≤ i + s.deferrals + f → 0 < f →
    Runs (deferWhile good m0 i f s) fun s' => DInv m0 G p0 q0 i s' ∧ s'.wp.size = s.wp.size ∧ s'.wq.size = s.wq.size ∧
      ((s'.m = i ∧ i + s'.deferrals = m0) ∨ (i + s'.deferrals < m0 ∧ G (i + s'.deferrals) ∧ s'.m + s'.deferrals = m0)) := by
  intro f
  induction f with
  | zero => intro s _ _ _ _ h; omega
  | succ f ih =>
    intro s hI h1 h2 h3 h4
    rw [deferWhile]
    simp only [runs_bind]
    refine (hg s.p s.q (i + s.deferrals) h1 hI.ps hI.qs (hI.pu _ (by omega)) (hI.qu _ (by omega))).mono ?_
    intro b hb
    by_cases hG : G (i + s.deferrals)
    · rw [if_pos (hb.2 hG), runs_pure]
      exact ⟨hI, rfl, rfl, Or.inr ⟨h1, hG, h2⟩⟩
    · have hbf : b ≠ true := fun e => hG (hb.1 e)
      rw [if_neg hbf]
      have e1 := hI.ps
      have e2 := hI.qs
      have e3 := hI.wps
      have e4 := hI.wqs
      simp only [runs_bind, runs_rd, runs_wr, runs_ite, runs_pure]
      refine ⟨by omega, by omega, by omega, by omega, ?_⟩
      have hnext : ∀ mm, DInv m0 G p0 q0 i { s with m := mm, deferrals := s.deferrals + 1, wp := s.wp.set s.deferrals (s.p.get (i + s.deferrals)), wq := s.wq.set s.deferrals (s.q.get (i + s.deferrals)) } := by
        intro mm
        refine ⟨e1, e2, e3, e4, ?_, ?_, hI.pu, hI.qu, ?_, ?_, rfl⟩
        · show s.p.slice 0 i = (keep G (i + (s.deferrals + 1))).map p0.get
          rw [← Nat.add_assoc, keep_succ_neg hG]; exact hI.pk
        · show s.q.slice 0 i = (keep G (i + (s.deferrals + 1))).map q0.get
          rw [← Nat.add_assoc, keep_succ_neg hG]; exact hI.qk
        · show (s.wp.set s.deferrals (s.p.get (i + s.deferrals))).slice 0 (s.deferrals + 1) =
            (keep (fun x => ¬ G x) (i + (s.deferrals + 1))).map p0.get
          rw [← Nat.add_assoc, keep_succ_pos hG, Buf.slice_set_succ _ _ (Nat.zero_le _), List.map_append, hI.wpk,
            hI.pu _ (by omega)]
          rfl
        · show (s.wq.set s.deferrals (s.q.get (i + s.deferrals))).slice 0 (s.deferrals + 1) =
            (keep (fun x => ¬ G x) (i + (s.deferrals + 1))).map q0.get
          rw [← Nat.add_assoc, keep_succ_pos hG, Buf.slice_set_succ _ _ (Nat.zero_le _), List.map_append, hI.wqk,
            hI.qu _ (by omega)]
          rfl
      by_cases hend : m0 ≤ i + (s.deferrals + 1)
      · rw [if_pos hend]
        refine ⟨hnext i, by tt, by tt, Or.inl ⟨by tt, ?_⟩⟩
        show i + (s.deferrals + 1) = m0
        omega
      · rw [if_neg hend]
        exact ih _ (hnext _) (by show i + (s.deferrals + 1) < m0; omega) (by show s.m - 1 + (s.deferrals + 1) = m0; omega)
          (by show m0 ≤ i + (s.deferrals + 1) + f; omega) (by omega)

theorem deferLoop_runs (hg : GoodSpec m0 G p0 q0 good) (hp : m0 ≤ p0.size) (hq : m0 ≤ q0.size) :
    ∀ f i s, DInv m0 G p0 q0 i s → i ≤ s.m → s.m + s.deferrals = m0 → m0 < i + f →
    Runs (deferLoop good m0 f i s) fun s' => DInv m0 G p0 q0 s'.m s' ∧ s'.wp.size = s.wp.size ∧ s'.wq.size = s.wq.size ∧
      s'.m + s'.deferrals = m0 := by
  intro f
  induction f with
  | zero => intro i s _ _ _ h; omega
  | succ f ih =>
    intro i s hI h1 h2 h3
    rw [deferLoop]
    by_cases hlt : i < s.m
    · rw [if_pos hlt]
      simp only [runs_bind]
      refine (deferWhile_runs hg hp hq i (m0 + 1) s hI (by omega) h2 (by omega) (by omega)).mono ?_
      rintro s' ⟨hI', w1, w2, hs'⟩
      by_cases hm : s'.m = i
      · rw [if_pos hm, runs_pure]
        rw [hm]
        refine ⟨hI', w1, w2, ?_⟩
        rcases hs' with ⟨-, h4⟩ | ⟨h4, -, h6⟩
        · omega
        · exfalso; omega
      · rw [if_neg hm]
        rcases hs' with ⟨h4, -⟩ | ⟨h4, h5, h6⟩
        · exact absurd h4 hm
        have e1 := hI'.ps
        have e2 := hI'.qs
        unfold deferCompress
        simp only [runs_bind, runs_rd, runs_wr, runs_pure]
        refine ⟨by omega, by omega, by omega, by omega, ?_⟩
        refine (ih (i + 1) { s' with p := s'.p.set i (s'.p.get (i + s'.deferrals)), q := s'.q.set i (s'.q.get (i + s'.deferrals)) } ?_ (by show i + 1 ≤ s'.m; omega) h6 (by omega)).mono ?_
        · have hadd : i + 1 + s'.deferrals = i + s'.deferrals + 1 := by omega
          refine ⟨e1, e2, hI'.wps, hI'.wqs, ?_, ?_, ?_, ?_, ?_, ?_, rfl⟩
          · show (s'.p.set i (s'.p.get (i + s'.deferrals))).slice 0 (i + 1) = (keep G (i + 1 + s'.deferrals)).map p0.get
            rw [hadd, keep_succ_pos h5, Buf.slice_set_succ _ _ (Nat.zero_le _), hI'.pk, List.map_append, hI'.pu _ (by omega)]
            rfl
          · show (s'.q.set i (s'.q.get (i + s'.deferrals))).slice 0 (i + 1) = (keep G (i + 1 + s'.deferrals)).map q0.get
            rw [hadd, keep_succ_pos h5, Buf.slice_set_succ _ _ (Nat.zero_le _), hI'.qk, List.map_append, hI'.qu _ (by omega)]
            rfl
          · intro k hk
            show (if k = i then _ else s'.p.get k) = _
            rw [if_neg (by omega)]; exact hI'.pu k (by omega)
          · intro k hk
            show (if k = i then _ else s'.q.get k) = _
            rw [if_neg (by omega)]; exact hI'.qu k (by omega)
          · show s'.wp.slice 0 s'.deferrals = (keep (fun x => ¬ G x) (i + 1 + s'.deferrals)).map p0.get
            rw [hadd, keep_succ_neg (fun h => h h5)]; exact hI'.wpk
          · show s'.wq.slice 0 s'.deferrals = (keep (fun x => ¬ G x) (i + 1 + s'.deferrals)).map q0.get
            rw [hadd, keep_succ_neg (fun h => h h5)]; exact hI'.wqk
        · rintro r ⟨r1, r2, r3, r4⟩
          exact ⟨r1, r2.trans w1, r3.trans w2, r4⟩
    · rw [if_neg hlt, runs_pure]
      have : s.m = i := by omega
      rw [this]
      exact ⟨hI, rfl, rfl, by omega⟩

/-- Result of the whole deferral. -/
theorem deferTiny_runs (hg : GoodSpec m0 G p0 q0 good) (hp : m0 ≤ p0.size) (hq : m0 ≤ q0.size) (wp wq : Buf Nat)
    (hwp : m0 ≤ wp.size) (hwq : m0 ≤ wq.size) :
    Runs (deferTiny good m0 p0 q0 wp wq) fun s => s.m = (keep G m0).length ∧ s.p.size = p0.size ∧ s.q.size = q0.size ∧
      s.wp.size = wp.size ∧ s.wq.size = wq.size ∧
      s.p.slice 0 m0 = (keep G m0 ++ keep (fun x => ¬ G x) m0).map p0.get ∧
      s.q.slice 0 m0 = (keep G m0 ++ keep (fun x => ¬ G x) m0).map q0.get ∧
      (∀ k, m0 ≤ k → s.p.get k = p0.get k) ∧ ∀ k, m0 ≤ k → s.q.get k = q0.get k := by
  unfold deferTiny
  simp only [runs_bind]
  refine (deferLoop_runs hg hp hq (m0 + 1) 0 _ ?_ (Nat.zero_le _) rfl (by omega)).mono ?_
  · refine ⟨rfl, rfl, hwp, hwq, ?_, ?_, fun _ _ => rfl, fun _ _ => rfl, ?_, ?_, rfl⟩ <;>
      simp [Buf.slice, keep]
  rintro s ⟨hI, w1, w2, hsum⟩
  have hlen : s.m = (keep G m0).length := by
    have := congrArg List.length hI.pk
    rw [Buf.slice_length, List.length_map, hsum] at this
    omega
  have e1 := hI.ps
  have e2 := hI.qs
  have e3 := hI.wps
  have e4 := hI.wqs
  unfold deferTail
  split
  · rename_i hd
    refine forUp_runs' (fun i (s' : Defer) => s'.m = s.m ∧ s'.p.size = p0.size ∧ s'.q.size = q0.size ∧ s'.wp = s.wp ∧ s'.wq = s.wq ∧
      s'.p.slice 0 i = (keep G m0).map p0.get ++ s.wp.slice 0 (i - s.m) ∧
      s'.q.slice 0 i = (keep G m0).map q0.get ++ s.wq.slice 0 (i - s.m) ∧
      (∀ k, i ≤ k → s'.p.get k = p0.get k) ∧ ∀ k, i ≤ k → s'.q.get k = q0.get k) (by omega) ?_ ?_ ?_
    · refine ⟨rfl, e1, e2, rfl, rfl, ?_, ?_, hI.pu, hI.qu⟩
      · rw [hI.pk, hsum, Nat.sub_self, Buf.slice_empty _ _ _ (le_refl _), List.append_nil]
      · rw [hI.qk, hsum, Nat.sub_self, Buf.slice_empty _ _ _ (le_refl _), List.append_nil]
    · rintro i s' h1 h2 ⟨r1, r2, r3, r4, r5, r6, r7, r8, r9⟩
      simp only [runs_bind, runs_rd, runs_wr, runs_pure]
      rw [r4, r5]
      refine ⟨by omega, by omega, by omega, by omega, r1, r2, r3, by tt, by tt, ?_, ?_, ?_, ?_⟩
      · rw [Buf.slice_set_succ _ _ (Nat.zero_le _), r6, show i + 1 - s.m = (i - s.m) + 1 by omega,
          Buf.slice_succ _ (Nat.zero_le _), List.append_assoc]
      · rw [Buf.slice_set_succ _ _ (Nat.zero_le _), r7, show i + 1 - s.m = (i - s.m) + 1 by omega,
          Buf.slice_succ _ (Nat.zero_le _), List.append_assoc]
      · intro k hk
        show (if k = i then _ else s'.p.get k) = _
        rw [if_neg (by omega)]; exact r8 k (by omega)
      · intro k hk
        show (if k = i then _ else s'.q.get k) = _
        rw [if_neg (by omega)]; exact r9 k (by omega)
    · rintro s' ⟨r1, r2, r3, r4, r5, r6, r7, r8, r9⟩
      have hdm : m0 - s.m = s.deferrals := by omega
      refine ⟨r1.trans hlen, r2, r3, by rw [r4]; exact w1, by rw [r5]; exact w2, ?_, ?_, r8, r9⟩
      · rw [r6, hdm, hI.wpk, hsum, List.map_append]
      · rw [r7, hdm, hI.wqk, hsum, List.map_append]
  · rename_i hd
    push Not at hd
    rw [runs_pure]
    have hm : s.m = m0 := by omega
    have hempty : keep (fun x => ¬ G x) m0 = [] := by
      have := hI.wpk
      rw [hd, Buf.slice_empty _ _ _ (le_refl _), hm, Nat.add_zero] at this
      exact List.map_eq_nil_iff.1 this.symm
    have h1 := hI.pk
    have h2 := hI.qk
    have h3 := hI.pu
    have h4 := hI.qu
    rw [hd, hm, Nat.add_zero] at h1 h2
    rw [hm] at h3 h4
    exact ⟨hlen, e1, e2, w1, w2, by rw [h1, hempty, List.append_nil], by rw [h2, hempty, List.append_nil], h3, h4⟩

end defer

/-! ### Applying the ordering -/

theorem reorderFinalize_runs (n m : Nat) (P : Buf Nat) (Q : BiPerm) (hm : m ≤ n) (hP : m ≤ P.size) (hPp : Spec.IsPerm m P.get)
    (h1 : Q.p.size = n) (h2 : Q.inv.size = n) (hp : Spec.IsPerm n Q.p.get) :
    Runs (reorderFinalize P m Q) fun S => BiPerm.Good n S ∧ (∀ i, i < m → S.p.get i = Q.p.get (P.get i)) ∧
      ∀ i, m ≤ i → i < n → S.p.get i = Q.p.get i := by
  unfold reorderFinalize
  simp only [runs_bind]
  refine forUp_runs' (fun i (b : Buf Nat) => b.size = n ∧ ∀ k, k < i → b.get k = Q.p.get (P.get k)) (Nat.zero_le _)
    ⟨h2, fun k hk => by omega⟩ ?_ ?_
  · rintro i b - hi ⟨b1, b2⟩
    have := hPp.1 i hi
    simp only [runs_bind, runs_rd, runs_wr, Buf.set_size, Buf.set_get]
    refine ⟨by omega, by omega, by omega, b1, fun k hk => ?_⟩
    by_cases e : k = i
    · rw [if_pos e, e]
    · rw [if_neg e]; exact b2 k (by omega)
  rintro b ⟨b1, b2⟩
  refine forUp_runs' (fun i (c : Buf Nat) => c.size = n ∧ (∀ k, k < m → c.get k = Q.p.get (P.get k)) ∧
    ∀ k, m ≤ k → k < i → c.get k = Q.p.get k) (by omega) ⟨b1, b2, fun k _ _ => by omega⟩ ?_ ?_
  · rintro i c h3 h4 ⟨c1, c2, c3⟩
    simp only [runs_bind, runs_rd, runs_wr, Buf.set_size, Buf.set_get]
    refine ⟨by omega, by omega, c1, fun k hk => ?_, fun k k1 k2 => ?_⟩
    · rw [if_neg (by omega)]; exact c2 k hk
    · by_cases e : k = i
      · rw [if_pos e, e]
      · rw [if_neg e]; exact c3 k k1 (by omega)
  rintro c ⟨c1, c2, c3⟩
  rw [h1] at c3
  have hperm : Spec.IsPerm n c.get := by
    refine ⟨fun i hi => ?_, fun i j hi hj e => ?_⟩
    · rcases Nat.lt_or_ge i m with h | h
      · rw [c2 i h]; exact hp.1 _ (lt_of_lt_of_le (hPp.1 i h) hm)
      · rw [c3 i h hi]; exact hp.1 i hi
    · rcases Nat.lt_or_ge i m with h | h <;> rcases Nat.lt_or_ge j m with h' | h'
      · rw [c2 i h, c2 j h'] at e
        exact hPp.2 i j h h' (hp.2 _ _ (lt_of_lt_of_le (hPp.1 i h) hm) (lt_of_lt_of_le (hPp.1 j h') hm) e)
      · rw [c2 i h, c3 j h' hj] at e
        have := hp.2 _ _ (lt_of_lt_of_le (hPp.1 i h) hm) hj e
        have := hPp.1 i h
        omega
      · rw [c3 i h hi, c2 j h'] at e
        have := hp.2 _ _ hi (lt_of_lt_of_le (hPp.1 j h') hm) e
        have := hPp.1 j h'
        omega
      · rw [c3 i h hi, c3 j h' hj] at e
        exact hp.2 i j hi hj e
  refine (BiPerm.buildInv_runs n ⟨c, Q.p⟩ c1 h1 hperm).mono ?_
  rintro S ⟨s1, s2⟩
  rw [s1]
  exact ⟨s2, c2, c3⟩

/-! ### Poorly scaled weights -/

section fix
variable {R : Type _} [Field R] [LinearOrder R] [IsStrictOrderedRing R]

/-- What is needed of the square root. -/
def SqrtSpec (sqrt : R → R) : Prop := ∀ x, 0 ≤ x → 0 ≤ sqrt x ∧ sqrt x * sqrt x = x

theorem SqrtSpec.pos {sqrt : R → R} (h : SqrtSpec sqrt) {x : R} (hx : 0 < x) : 0 < sqrt x := by
  obtain ⟨h1, h2⟩ := h x (le_of_lt hx)
  rcases lt_or_eq_of_le h1 with h3 | h3
  · exact h3
  · rw [← h3] at h2; simp at h2; linarith

/-- The threshold actually used. -/
def effBeta (beta : R) : R := if beta < 0 then 1000 else beta

/-- Effect on one pair of weights. -/
def FixedPair (beta0 a b a' b' : R) : Prop :=
  0 < a' ∧ 0 < b' ∧ a' * b' = a * b ∧ max a' b' ≤ beta0 * min a' b' ∧
    ((max a b ≤ beta0 * min a b → a' = a ∧ b' = b) ∧ (beta0 * min a b < max a b → a' = b'))

theorem fixPoor_runs {sqrt : R → R} (hsq : SqrtSpec sqrt) (m0 level n : Nat) (p q : Buf Nat) (s t : Buf R) (beta : R)
    (hm : m0 ≤ n) (hps : p.size = n) (hqs : q.size = n) (hss : s.size = n) (hts : t.size = n)
    (hp : Spec.IsPerm n p.get) (hq : Spec.IsPerm n q.get) (hs : ∀ i, i < n → 0 < s.get i) (ht : ∀ i, i < n → 0 < t.get i) :
    Runs (fixPoor sqrt m0 level p q s t beta) fun r => r.1.size = n ∧ r.2.size = n ∧
      ((level ≤ 1 ∨ effBeta beta ≤ 1) → r = (s, t)) ∧
      ((1 < level ∧ 1 < effBeta beta) →
        (∀ i, i < m0 → FixedPair (effBeta beta) (s.get (p.get i)) (t.get (q.get i)) (r.1.get (p.get i)) (r.2.get (q.get i))) ∧
        ∀ i, m0 ≤ i → i < n → r.1.get (p.get i) = s.get (p.get i) ∧ r.2.get (q.get i) = t.get (q.get i)) := by
  unfold fixPoor
  have el : (if beta < 0 then 1000 else beta : R) = effBeta beta := rfl
  simp only [el]
  split
  · rename_i hc
    refine forUp_runs' (fun i (r : Buf R × Buf R) => r.1.size = n ∧ r.2.size = n ∧
      (∀ k, k < i → FixedPair (effBeta beta) (s.get (p.get k)) (t.get (q.get k)) (r.1.get (p.get k)) (r.2.get (q.get k))) ∧
      ∀ k, i ≤ k → k < n → r.1.get (p.get k) = s.get (p.get k) ∧ r.2.get (q.get k) = t.get (q.get k)) (Nat.zero_le _)
      ⟨hss, hts, fun k hk => by omega, fun k _ _ => ⟨rfl, rfl⟩⟩ ?_ ?_
    · rintro i r - hi ⟨r1, r2, r3, r4⟩
      have hpi := hp.1 i (by omega)
      have hqi := hq.1 i (by omega)
      obtain ⟨ea, eb⟩ := r4 i (le_refl _) (by omega)
      unfold fixOne
      simp only [runs_bind, runs_rd, runs_ite, runs_wr, runs_pure]
      refine ⟨by omega, by omega, by omega, by omega, ?_⟩
      rw [ea, eb]
      set a := s.get (p.get i) with ha
      set b := t.get (q.get i) with hb
      have pa : 0 < a := hs _ hpi
      have pb : 0 < b := ht _ hqi
      split
      · rename_i hbad
        refine ⟨by omega, by omega, r1, r2, fun k hk => ?_, fun k k1 k2 => ?_⟩
        · simp only [Buf.set_get]
          by_cases e : k = i
          · subst e
            rw [if_pos rfl, if_pos rfl, ← ha, ← hb]
            have hpos := hsq.pos (mul_pos pa pb)
            refine ⟨hpos, hpos, (hsq _ (le_of_lt (mul_pos pa pb))).2, ?_, ?_, fun _ => rfl⟩
            · rw [max_self, min_self]
              nlinarith [hc.2]
            · intro h; exfalso; rw [mul_comm] at hbad; exact absurd hbad (not_lt.2 h)
          · rw [if_neg (fun h => e (hp.2 _ _ (by omega) (by omega) h)), if_neg (fun h => e (hq.2 _ _ (by omega) (by omega) h))]
            exact r3 k (by omega)
        · simp only [Buf.set_get]
          rw [if_neg (fun h => by have := hp.2 _ _ k2 (by omega) h; omega),
            if_neg (fun h => by have := hq.2 _ _ k2 (by omega) h; omega)]
          exact r4 k (by omega) k2
      · rename_i hgood
        refine ⟨r1, r2, fun k hk => ?_, fun k k1 k2 => r4 k (by omega) k2⟩
        by_cases e : k = i
        · subst e
          rw [ea, eb]
          rw [not_lt, mul_comm] at hgood
          exact ⟨pa, pb, rfl, hgood, fun _ => ⟨rfl, rfl⟩, fun h => absurd h (not_lt.2 hgood)⟩
        · exact r3 k (by omega)
    · rintro r ⟨r1, r2, r3, r4⟩
      refine ⟨r1, r2, ?_, fun _ => ⟨r3, r4⟩⟩
      rintro (h | h)
      · omega
      · exact absurd h (not_le.2 hc.2)
  · rename_i hc
    rw [runs_pure]
    exact ⟨hss, hts, fun _ => rfl, fun h => absurd h hc⟩

end fix

/-! ### Scaling by extreme values -/

section extreme
variable {K R : Type _} [Mul K] [Field R] [LinearOrder R] [IsStrictOrderedRing R]

theorem invOrOne_pos {x : R} (h : 0 ≤ x) : 0 < invOrOne x := by
  unfold invOrOne
  split
  · exact one_pos
  · rename_i hx
    exact one_div_pos.2 (lt_of_le_of_ne h (Ne.symm hx))

theorem mul_invOrOne_le {x y : R} (hy : 0 ≤ y) (h : y ≤ x) : y * invOrOne x ≤ 1 := by
  unfold invOrOne
  split
  · rename_i hx; subst hx; linarith
  · rename_i hx
    have : 0 < x := lt_of_le_of_ne (le_trans hy h) (Ne.symm hx)
    rw [mul_one_div, div_le_one this]; exact h

theorem mul_invOrOne_self {x : R} (h : x ≠ 0) : x * invOrOne x = 1 := by
  unfold invOrOne
  rw [if_neg h, mul_one_div, div_self h]

/-- What is needed of magnitude and conversion. -/
structure MagSpec (nrm : K → R) (emb : R → K) : Prop where
  nonneg : ∀ v, 0 ≤ nrm v
  scale : ∀ v r, 0 ≤ r → nrm (v * emb r) = nrm v * r

theorem scaleLine_runs (f : Nat → K → K) (b : Buf K) (lo hi : Nat) (h : lo ≤ hi) (hs : hi ≤ b.size) :
    Runs (forUp lo hi b fun k vals => do
      let v ← vals.rd k
      vals.wr k (f k v)) fun c => c.size = b.size ∧ ∀ k, c.get k = if lo ≤ k ∧ k < hi then f k (b.get k) else b.get k := by
  refine forUp_runs' (fun i (c : Buf K) => c.size = b.size ∧ ∀ k, c.get k = if lo ≤ k ∧ k < i then f k (b.get k) else b.get k) h
    ⟨rfl, fun k => by rw [if_neg (by omega)]⟩ ?_ (fun c hc => hc)
  rintro i c h1 h2 ⟨c1, c2⟩
  simp only [runs_bind, runs_rd, runs_wr, Buf.set_size, Buf.set_get]
  refine ⟨by omega, by omega, c1, fun k => ?_⟩
  by_cases e : k = i
  · subst e
    rw [if_pos rfl, if_pos ⟨h1, by omega⟩, c2, if_neg (by omega)]
  · rw [if_neg e, c2]
    by_cases e2 : lo ≤ k ∧ k < i
    · rw [if_pos e2, if_pos ⟨e2.1, by omega⟩]
    · rw [if_neg e2, if_neg (by omega)]

/-- The same array layout with different values. -/
def SameLayout (A B : CS K) : Prop :=
  B.psize = A.psize ∧ B.ssize = A.ssize ∧ B.start = A.start ∧ B.inds = A.inds ∧ B.vals.size = A.vals.size

theorem SameLayout.wf {A B : CS K} (h : SameLayout A B) (hA : A.WF) : B.WF := by
  obtain ⟨h1, h2, h3, h4, h5⟩ := h
  exact ⟨by rw [h1, h3]; exact hA.start_size, by rw [h3]; exact hA.start_zero, by rw [h1, h3]; exact hA.mono,
    by rw [h1, h3, h4]; exact hA.nnz_inds, by rw [h1, h3, h5]; exact hA.nnz_vals, by rw [h1, h2, h3, h4]; exact hA.inds_lt⟩

theorem rowSweep_runs {nrm : K → R} {emb : R → K} (hm : MagSpec nrm emb) {B : CS K} (hB : B.WF) (rs : Buf R)
    (hrs : B.psize ≤ rs.size) :
    Runs (forUp 0 B.psize (B, rs) (scaleRow nrm emb)) fun r => SameLayout B r.1 ∧ r.2.size = rs.size ∧
      (∀ i, i < B.psize → ∃ mx, IsMaxMag nrm (B.line i) mx ∧ r.2.get i = invOrOne mx) ∧
      ∀ i, i < B.psize → ∀ k, B.start.get i ≤ k → k < B.start.get (i + 1) → r.1.vals.get k = B.vals.get k * emb (r.2.get i) := by
  have hss := hB.start_size
  refine forUp_runs' (fun i (r : CS K × Buf R) => SameLayout B r.1 ∧ r.2.size = rs.size ∧
      (∀ j, j < i → ∃ mx, IsMaxMag nrm (B.line j) mx ∧ r.2.get j = invOrOne mx) ∧
      (∀ j, j < i → ∀ k, B.start.get j ≤ k → k < B.start.get (j + 1) → r.1.vals.get k = B.vals.get k * emb (r.2.get j)) ∧
      ∀ k, B.start.get i ≤ k → r.1.vals.get k = B.vals.get k) (Nat.zero_le _)
    ⟨⟨rfl, rfl, rfl, rfl, rfl⟩, rfl, fun j hj => by omega, fun j hj => by omega, fun k _ => rfl⟩ ?_ ?_
  · rintro i ⟨C, r⟩ - hi ⟨hL, r2, r3, r4, r5⟩
    have hCwf := hL.wf hB
    obtain ⟨l1, l2, l3, l4, l5⟩ := hL
    simp only at l1 l2 l3 l4 l5 r2 r3 r4 r5
    unfold scaleRow
    simp only [runs_bind]
    refine (lineMax_runs nrm hCwf (i := i) (by show i < C.psize; omega)).mono ?_
    intro mx hmx
    have hline : C.line i = B.line i := by
      unfold CS.line CS.seg
      rw [l3]
      refine List.map_congr_left fun k hk => ?_
      rw [List.mem_range'_1] at hk
      rw [l4, r5 k hk.1]
    rw [hline] at hmx
    simp only [runs_wr, runs_rd, runs_pure]
    have hmo := hB.mono i hi
    have hlast : B.start.get (i + 1) ≤ B.start.get B.psize := hB.start_mono (by omega) (le_refl _)
    have := hB.nnz_vals
    refine ⟨by omega, by rw [l3]; omega, by rw [l3]; omega, ?_⟩
    rw [l3]
    refine (scaleLine_runs (fun _ v => v * emb (invOrOne mx)) C.vals _ _ hmo (by omega)).mono ?_
    rintro vals ⟨v1, v2⟩
    refine ⟨⟨l1, l2, rfl, l4, v1.trans l5⟩, r2, fun j hj => ?_, fun j hj k k1 k2 => ?_, fun k hk => ?_⟩
    · by_cases e : j = i
      · subst e
        exact ⟨mx, hmx, by simp⟩
      · obtain ⟨mx', h1, h2⟩ := r3 j (by omega)
        exact ⟨mx', h1, by simp [e, h2]⟩
    · show vals.get k = _
      rw [v2]
      by_cases e : j = i
      · subst e
        rw [if_pos ⟨k1, k2⟩, r5 k k1]
        simp
      · have hle : B.start.get (j + 1) ≤ B.start.get i := hB.start_mono (by omega) (by omega)
        rw [if_neg (by omega), r4 j (by omega) k k1 k2]
        simp [e]
    · show vals.get k = _
      rw [v2, if_neg (by omega)]
      exact r5 k (by omega)
  · rintro ⟨C, r⟩ ⟨r1, r2, r3, r4, -⟩
    exact ⟨r1, r2, r3, r4⟩

/-- `c` is the largest magnitude stored in column `j` (0 if there is none). -/
def IsColMax (nrm : K → R) (B : CS K) (nnz j : Nat) (c : R) : Prop :=
  (∀ k, k < nnz → B.inds.get k = j → nrm (B.vals.get k) ≤ c) ∧ (c = 0 ∨ ∃ k, k < nnz ∧ B.inds.get k = j ∧ nrm (B.vals.get k) = c)

theorem colMax_runs {nrm : K → R} (hn : ∀ v, 0 ≤ nrm v) {B : CS K} (hB : B.WF) (hsq : B.ssize = B.psize) (cs : Buf R)
    (hcs : B.psize ≤ cs.size) :
    Runs (colMax nrm B cs) fun c => c.size = cs.size ∧ ∀ j, j < B.psize → 0 ≤ c.get j ∧ IsColMax nrm B (B.start.get B.psize) j (c.get j) := by
  have hss := hB.start_size
  unfold colMax
  simp only [runs_bind]
  refine forUp_runs' (fun i (c : Buf R) => c.size = cs.size ∧ ∀ j, j < i → c.get j = 0) (Nat.zero_le _) ⟨rfl, fun j hj => by omega⟩ ?_ ?_
  · rintro i c - hi ⟨c1, c2⟩
    simp only [runs_wr, Buf.set_size, Buf.set_get]
    refine ⟨by omega, c1, fun j hj => ?_⟩
    by_cases e : j = i
    · rw [if_pos e]
    · rw [if_neg e]; exact c2 j (by omega)
  rintro c ⟨c1, c2⟩
  simp only [runs_rd]
  refine ⟨by omega, ?_⟩
  refine forUp_runs' (fun i (d : Buf R) => d.size = cs.size ∧ ∀ j, j < B.psize → 0 ≤ d.get j ∧ IsColMax nrm B i j (d.get j)) (Nat.zero_le _)
    ⟨c1, fun j hj => ⟨by rw [c2 j hj], fun k hk => by omega, Or.inl (c2 j hj)⟩⟩ ?_ (fun d hd => hd)
  rintro i d - hi ⟨d1, d2⟩
  have hnn := hB.nnz_inds
  have hnv := hB.nnz_vals
  have hlt := hB.inds_lt i hi
  simp only [runs_bind, runs_rd, runs_wr, Buf.set_size]
  refine ⟨by omega, by omega, by omega, by omega, d1, fun j hj => ?_⟩
  obtain ⟨h1, h2, h3⟩ := d2 j hj
  simp only [Buf.set_get]
  by_cases e : j = B.inds.get i
  · subst e
    rw [if_pos rfl]
    refine ⟨le_trans h1 (le_max_right _ _), fun k hk e' => ?_, ?_⟩
    · rcases Nat.lt_or_ge k i with h4 | h4
      · exact le_trans (h2 k h4 e') (le_max_right _ _)
      · rw [show k = i by omega]; exact le_max_left _ _
    · rcases le_total (nrm (B.vals.get i)) (d.get (B.inds.get i)) with h4 | h4
      · rw [max_eq_right h4]
        rcases h3 with h3 | ⟨k, k1, k2, k3⟩
        · exact Or.inl h3
        · exact Or.inr ⟨k, by omega, k2, k3⟩
      · rw [max_eq_left h4]
        exact Or.inr ⟨i, by omega, rfl, rfl⟩
  · rw [if_neg e]
    refine ⟨h1, fun k hk e' => ?_, ?_⟩
    · rcases Nat.lt_or_ge k i with h4 | h4
      · exact h2 k h4 e'
      · rw [show k = i by omega] at e'; exact absurd e'.symm e
    · rcases h3 with h3 | ⟨k, k1, k2, k3⟩
      · exact Or.inl h3
      · exact Or.inr ⟨k, by omega, k2, k3⟩

theorem colInv_runs (n : Nat) (cs : Buf R) (h : n ≤ cs.size) :
    Runs (colInv n cs) fun c => c.size = cs.size ∧ ∀ j, j < n → c.get j = invOrOne (cs.get j) := by
  unfold colInv
  refine (scaleLine_runs (K := R) (fun _ v => invOrOne v) cs 0 n (Nat.zero_le _) h).mono ?_
  rintro c ⟨c1, c2⟩
  exact ⟨c1, fun j hj => by rw [c2, if_pos ⟨Nat.zero_le _, hj⟩]⟩

theorem scaleCols_runs (emb : R → K) {B : CS K} (hB : B.WF) (cs : Buf R) (hcs : B.ssize ≤ cs.size) :
    Runs (scaleCols emb B cs) fun C => SameLayout B C ∧
      ∀ k, k < B.start.get B.psize → C.vals.get k = B.vals.get k * emb (cs.get (B.inds.get k)) := by
  have hss := hB.start_size
  have hnn := hB.nnz_inds
  have hnv := hB.nnz_vals
  unfold scaleCols
  simp only [runs_bind, runs_rd]
  refine ⟨by omega, ?_⟩
  refine forUp_runs' (fun i (c : Buf K) => c.size = B.vals.size ∧
    ∀ k, c.get k = if k < i then B.vals.get k * emb (cs.get (B.inds.get k)) else B.vals.get k) (Nat.zero_le _)
    ⟨rfl, fun k => by rw [if_neg (by omega)]⟩ ?_ ?_
  · rintro i c - hi ⟨c1, c2⟩
    have := hB.inds_lt i hi
    simp only [runs_bind, runs_rd, runs_wr, Buf.set_size, Buf.set_get]
    refine ⟨by omega, by omega, by omega, by omega, c1, fun k => ?_⟩
    by_cases e : k = i
    · subst e; rw [if_pos rfl, if_pos (by omega), c2, if_neg (by omega)]
    · rw [if_neg e, c2]
      by_cases e2 : k < i
      · rw [if_pos e2, if_pos (by omega)]
      · rw [if_neg e2, if_neg (by omega)]
  · rintro c ⟨c1, c2⟩
    rw [runs_pure]
    exact ⟨⟨rfl, rfl, rfl, rfl, c1⟩, fun k hk => by
      have := c2 k
      rw [if_pos hk] at this
      exact this⟩

/-- Position of an entry determines its line. -/
theorem exists_line {B : CS K} (hB : B.WF) {k : Nat} (hk : k < B.start.get B.psize) :
    ∃ i, i < B.psize ∧ B.start.get i ≤ k ∧ k < B.start.get (i + 1) := by
  have : ∀ n, n ≤ B.psize → k < B.start.get n → ∃ i, i < n ∧ B.start.get i ≤ k ∧ k < B.start.get (i + 1) := by
    intro n
    induction n with
    | zero => intro _ h; rw [hB.start_zero] at h; omega
    | succ n ih =>
      intro h1 h2
      rcases Nat.lt_or_ge k (B.start.get n) with h | h
      · obtain ⟨i, i1, i2⟩ := ih (by omega) h
        exact ⟨i, by omega, i2⟩
      · exact ⟨n, by omega, h, h2⟩
  exact this B.psize (le_refl _) hk

theorem scaleExtreme_runs {nrm : K → R} {emb : R → K} (hm : MagSpec nrm emb) (isSymm : Bool) {B : CS K} (hB : B.WF)
    (hsq : B.ssize = B.psize) (rs cs : Buf R) (hrs : B.psize ≤ rs.size) (hcs : B.psize ≤ cs.size) :
    Runs (scaleExtreme nrm emb isSymm B rs cs) fun r => SameLayout B r.1 ∧ r.2.1.size = rs.size ∧ r.2.2.size = cs.size ∧
      (∀ i, i < B.psize → 0 < r.2.1.get i ∧ 0 < r.2.2.get i) ∧
      (∀ i, i < B.psize → r.1.line i = (B.line i).map fun e => (e.1, e.2 * emb (r.2.1.get i) * emb (r.2.2.get e.1))) ∧
      (isSymm = true → ∀ i, i < B.psize → r.2.2.get i = r.2.1.get i) ∧
      (∀ i, i < B.psize → ∀ e ∈ B.line i, nrm e.2 * r.2.1.get i ≤ 1) ∧
      (∀ i, i < B.psize → (∃ e ∈ B.line i, nrm e.2 ≠ 0) → ∃ e ∈ B.line i, nrm e.2 * r.2.1.get i = 1) ∧
      (isSymm = false → (∀ i, i < B.psize → ∀ e ∈ r.1.line i, nrm e.2 ≤ 1) ∧
        ∀ j, j < B.psize → (∃ i, i < B.psize ∧ ∃ e ∈ B.line i, e.1 = j ∧ nrm e.2 ≠ 0) →
          ∃ i, i < B.psize ∧ ∃ e ∈ r.1.line i, e.1 = j ∧ nrm e.2 = 1) := by
  unfold scaleExtreme
  simp only [runs_bind]
  refine (rowSweep_runs hm hB rs hrs).mono ?_
  rintro ⟨C, r⟩ ⟨hL, r2, r3, r4⟩
  have hCwf := hL.wf hB
  have hL' := hL
  obtain ⟨l1, l2, l3, l4, l5⟩ := hL'
  simp only at l1 l2 l3 l4 l5 r2 r3 r4 hL hCwf ⊢
  have hrpos : ∀ i, i < B.psize → 0 < r.get i := by
    intro i hi
    obtain ⟨mx, h1, h2⟩ := r3 i hi
    rw [h2]
    refine invOrOne_pos ?_
    rcases h1.2 with ⟨-, h⟩ | ⟨e, -, h⟩
    · rw [h]
    · rw [← h]; exact hm.nonneg _
  have hrle : ∀ i, i < B.psize → ∀ e ∈ B.line i, nrm e.2 * r.get i ≤ 1 := by
    intro i hi e he
    obtain ⟨mx, h1, h2⟩ := r3 i hi
    rw [h2]
    exact mul_invOrOne_le (hm.nonneg _) (h1.1 e he)
  have hreq : ∀ i, i < B.psize → (∃ e ∈ B.line i, nrm e.2 ≠ 0) → ∃ e ∈ B.line i, nrm e.2 * r.get i = 1 := by
    rintro i hi ⟨e, e1, e2⟩
    obtain ⟨mx, h1, h2⟩ := r3 i hi
    have hmx : mx ≠ 0 := by
      intro h0
      have := h1.1 e e1
      have := hm.nonneg e.2
      exact e2 (le_antisymm (by linarith) this)
    rcases h1.2 with ⟨h, -⟩ | ⟨e', e3, e4⟩
    · rw [h] at e1; simp at e1
    · exact ⟨e', e3, by rw [h2, e4]; exact mul_invOrOne_self hmx⟩
  -- the final assembly, given the column scaling
  have hfin : ∀ c : Buf R, c.size = cs.size → ∀ D : CS K, SameLayout C D →
      (∀ k, k < C.start.get C.psize → D.vals.get k = C.vals.get k * emb (c.get (C.inds.get k))) →
      ∀ i, i < B.psize → D.line i = (B.line i).map fun e => (e.1, e.2 * emb (r.get i) * emb (c.get e.1)) := by
    intro c hc D hD hv i hi
    obtain ⟨d1, d2, d3, d4, d5⟩ := hD
    unfold CS.line CS.seg
    rw [d3, l3, List.map_map]
    refine List.map_congr_left fun k hk => ?_
    rw [List.mem_range'_1] at hk
    have hmo := hB.mono i hi
    have hlt : k < B.start.get (i + 1) := by omega
    simp only [Function.comp]
    rw [d4, l4, hv k (by rw [l3, l1]; exact hB.lt_nnz hi hlt), l4, r4 i hi k hk.1 hlt]
  cases isSymm with
  | true =>
    rw [if_pos rfl, runs_bind]
    refine forUp_runs' (fun i (c : Buf R) => c.size = cs.size ∧ ∀ j, j < i → c.get j = r.get j) (Nat.zero_le _)
      ⟨rfl, fun j hj => by omega⟩ ?_ ?_
    · rintro i c - hi ⟨c1, c2⟩
      simp only [runs_bind, runs_rd, runs_wr, Buf.set_size, Buf.set_get]
      refine ⟨by omega, by omega, c1, fun j hj => ?_⟩
      by_cases e : j = i
      · rw [if_pos e, e]
      · rw [if_neg e]; exact c2 j (by omega)
    rintro c ⟨c1, c2⟩
    rw [runs_bind]
    refine (scaleCols_runs emb hCwf c (by omega)).mono ?_
    rintro D ⟨hD, hv⟩
    rw [runs_pure]
    refine ⟨?_, r2, c1, fun i hi => ⟨hrpos i hi, by rw [c2 i hi]; exact hrpos i hi⟩, hfin c c1 D hD hv,
      fun _ => c2, hrle, hreq, fun h => by simp at h⟩
    obtain ⟨d1, d2, d3, d4, d5⟩ := hD
    exact ⟨d1.trans l1, d2.trans l2, d3.trans l3, d4.trans l4, d5.trans l5⟩
  | false =>
    rw [if_neg (by simp), runs_bind]
    refine (colMax_runs hm.nonneg hCwf (by rw [l2, l1, hsq]) cs (by omega)).mono ?_
    rintro c0 ⟨c01, c02⟩
    rw [runs_bind]
    refine (colInv_runs B.psize c0 (by omega)).mono ?_
    rintro c ⟨c1, c2⟩
    rw [runs_bind]
    refine (scaleCols_runs emb hCwf c (by omega)).mono ?_
    rintro D ⟨hD, hv⟩
    rw [runs_pure]
    have hcpos : ∀ j, j < B.psize → 0 < c.get j := fun j hj => by
      rw [c2 j hj]; exact invOrOne_pos (c02 j (by omega)).1
    have hDl := hfin c (c1.trans c01) D hD hv
    refine ⟨?_, r2, c1.trans c01, fun i hi => ⟨hrpos i hi, hcpos i hi⟩, hDl, fun h => by simp at h, hrle, hreq, fun _ => ⟨?_, ?_⟩⟩
    · obtain ⟨d1, d2, d3, d4, d5⟩ := hD
      exact ⟨d1.trans l1, d2.trans l2, d3.trans l3, d4.trans l4, d5.trans l5⟩
    · intro i hi e he
      rw [hDl i hi] at he
      obtain ⟨e0, h0, rfl⟩ := List.mem_map.1 he
      obtain ⟨k, k1, k2, rfl⟩ := CS.mem_seg.1 h0
      have hj : B.inds.get k < B.psize := by have := hB.line_lt hi k2; omega
      simp only
      rw [hm.scale _ _ (le_of_lt (hcpos _ hj)), c2 _ hj]
      have hle := (c02 _ (by rw [l1]; exact hj)).2.1 k (by rw [l3, l1]; exact hB.lt_nnz hi k2) (by rw [l4])
      rw [r4 i hi k k1 k2] at hle
      exact mul_invOrOne_le (hm.nonneg _) hle
    · rintro j hj ⟨i, hi, e, he, rfl, hne⟩
      obtain ⟨k, k1, k2, rfl⟩ := CS.mem_seg.1 he
      simp only at hj hne ⊢
      obtain ⟨h1, h2, h3⟩ := c02 (B.inds.get k) (by rw [l1]; exact hj)
      have hknz : nrm (C.vals.get k) ≠ 0 := by
        rw [r4 i hi k k1 k2, hm.scale _ _ (le_of_lt (hrpos i hi))]
        exact mul_ne_zero hne (ne_of_gt (hrpos i hi))
      have hle := h2 k (by rw [l3, l1]; exact hB.lt_nnz hi k2) (by rw [l4])
      have hc0 : c0.get (B.inds.get k) ≠ 0 := by
        intro h0
        rw [h0] at hle
        exact hknz (le_antisymm hle (hm.nonneg _))
      rcases h3 with h3 | ⟨k', k3, k4, k5⟩
      · exact absurd h3 hc0
      rw [l1, l3] at k3
      obtain ⟨i', i1, i2, i3⟩ := exists_line hB k3
      rw [l4] at k4
      refine ⟨i', i1, (B.inds.get k', B.vals.get k' * emb (r.get i') * emb (c.get (B.inds.get k'))), ?_, k4, ?_⟩
      · rw [hDl i' i1]
        exact List.mem_map.2 ⟨(B.inds.get k', B.vals.get k'), CS.mem_seg.2 ⟨k', i2, i3, rfl⟩, rfl⟩
      · simp only
        rw [k4, hm.scale _ _ (le_of_lt (hcpos _ hj)), ← r4 i' i1 k' i2 i3, k5, c2 _ hj]
        exact mul_invOrOne_self hc0

theorem scaleEye_runs {B : CS K} (rs cs : Buf R) (hrs : B.psize ≤ rs.size) (hcs : B.psize ≤ cs.size) :
    Runs (scaleEye B rs cs) fun r => r.1 = B ∧ r.2.1.size = rs.size ∧ r.2.2.size = cs.size ∧
      ∀ i, i < B.psize → r.2.1.get i = 1 ∧ r.2.2.get i = 1 := by
  unfold scaleEye
  simp only [runs_bind, runs_pure]
  refine forUp_runs' (fun i (r : Buf R × Buf R) => r.1.size = rs.size ∧ r.2.size = cs.size ∧ ∀ j, j < i → r.1.get j = 1 ∧ r.2.get j = 1)
    (Nat.zero_le _) ⟨rfl, rfl, fun j hj => by omega⟩ ?_ ?_
  · rintro i r - hi ⟨r1, r2, r3⟩
    simp only [runs_bind, runs_wr, runs_pure, Buf.set_size, Buf.set_get]
    refine ⟨by omega, by omega, r1, r2, fun j hj => ?_⟩
    by_cases e : j = i
    · rw [if_pos e, if_pos e]; exact ⟨rfl, rfl⟩
    · rw [if_neg e, if_neg e]; exact r3 j (by omega)
  · rintro r ⟨r1, r2, r3⟩
    exact ⟨trivial, r1, r2, r3⟩

end extreme

end Pre
end Hif
