import Verif.PreIter
import Verif.PrePat

set_option linter.unusedSectionVars false
set_option linter.unusedVariables false

/-! # Proofs about the preprocessing driver -/

namespace Hif
namespace Pre

/-- The deferral permutes the leading pairs by one permutation `σ` that puts exactly the pairs satisfying `G` first, keeping
the order inside each group. -/
theorem deferTiny_perm {m0 : Nat} {G : Nat → Prop} {p0 q0 : Buf Nat} {good : Buf Nat → Buf Nat → Nat → M Bool}
    (hg : GoodSpec m0 G p0 q0 good) (hp : m0 ≤ p0.size) (hq : m0 ≤ q0.size) (wp wq : Buf Nat)
    (hwp : m0 ≤ wp.size) (hwq : m0 ≤ wq.size) :
    Runs (deferTiny good m0 p0 q0 wp wq) fun s => s.p.size = p0.size ∧ s.q.size = q0.size ∧ s.wp.size = wp.size ∧ s.wq.size = wq.size ∧
      s.m ≤ m0 ∧ (∃ σ : Nat → Nat, Spec.IsPerm m0 σ ∧
        (∀ i, i < m0 → s.p.get i = p0.get (σ i) ∧ s.q.get i = q0.get (σ i) ∧ (i < s.m ↔ G (σ i))) ∧
        (∀ i j, i < j → j < m0 → (j < s.m ∨ s.m ≤ i) → σ i < σ j)) ∧
      (∀ k, m0 ≤ k → s.p.get k = p0.get k) ∧ ∀ k, m0 ≤ k → s.q.get k = q0.get k := by
  classical
  refine (deferTiny_runs hg hp hq wp wq hwp hwq).mono ?_
  rintro s ⟨h1, h2, h3, h4, h5, h6, h7, h8, h9⟩
  set A := keep G m0 with hA
  set B := keep (fun x => ¬ G x) m0 with hB
  have hlen : (A ++ B).length = m0 := by
    have := congrArg List.length h6
    rw [Buf.slice_length, List.length_map] at this
    omega
  have hlen' : A.length + B.length = m0 := by rw [← hlen, List.length_append]
  have hnd : (A ++ B).Nodup := by
    rw [List.nodup_append]
    refine ⟨keep_nodup _ _, keep_nodup _ _, fun a ha b hb e => ?_⟩
    subst e
    exact (mem_keep.1 hb).2 (mem_keep.1 ha).2
  have hsub : ∀ x ∈ A ++ B, x < m0 := by
    intro x hx
    rcases List.mem_append.1 hx with h | h
    · exact (mem_keep.1 h).1
    · exact (mem_keep.1 h).1
  have hget : ∀ i, (h : i < m0) → (A ++ B).getD i 0 = (A ++ B)[i]'(by omega) := by
    intro i h
    rw [List.getD, List.getElem?_eq_getElem (by omega)]; rfl
  have hsl : ∀ (b b0 : Buf Nat), b.slice 0 m0 = (A ++ B).map b0.get → ∀ i, i < m0 → b.get i = b0.get ((A ++ B).getD i 0) := by
    intro b b0 e i hi
    have h : i < (b.slice 0 m0).length := by rw [Buf.slice_length]; omega
    have e1 : (b.slice 0 m0)[i] = b.get (0 + i) := Buf.slice_getElem b h
    rw [Nat.zero_add] at e1
    rw [← e1, hget i hi]
    simp only [e, List.getElem_map]
  have hpw : ∀ (H : Nat → Prop) n, (keep H n).Pairwise (· < ·) := fun H n => List.pairwise_lt_range.filter _
  have hApw : A.Pairwise (· < ·) := hpw G m0
  have hBpw : B.Pairwise (· < ·) := hpw (fun x => ¬ G x) m0
  refine ⟨h2, h3, h4, h5, by omega, ⟨fun i => (A ++ B).getD i 0, ⟨fun i hi => ?_, fun i j hi hj e => ?_⟩, fun i hi => ⟨?_, ?_, ?_⟩, ?_⟩, h8, h9⟩
  · simp only; rw [hget i hi]; exact hsub _ (List.getElem_mem _)
  · simp only at e
    rw [hget i hi, hget j hj] at e
    exact (List.Nodup.getElem_inj_iff hnd).1 e
  · exact hsl s.p p0 h6 i hi
  · exact hsl s.q q0 h7 i hi
  · simp only
    rw [hget i hi, h1]
    constructor
    · intro h
      rw [List.getElem_append_left h]
      exact (mem_keep.1 (List.getElem_mem _)).2
    · intro h
      by_contra hc
      push Not at hc
      rw [List.getElem_append_right hc] at h
      exact (mem_keep.1 (List.getElem_mem (l := B) (by omega))).2 h
  · intro i j hij hj hc
    simp only
    rw [hget i (by omega), hget j hj]
    rw [h1] at hc
    rcases hc with hc | hc
    · rw [List.getElem_append_left (by omega), List.getElem_append_left hc]
      exact List.pairwise_iff_getElem.1 hApw i j (by omega) hc hij
    · rw [List.getElem_append_right hc, List.getElem_append_right (by omega)]
      exact List.pairwise_iff_getElem.1 hBpw _ _ (by omega) (by omega) (by omega)

theorem isPerm_comp {m0 n : Nat} {σ f g : Nat → Nat} (hm : m0 ≤ n) (hσ : Spec.IsPerm m0 σ) (hf : Spec.IsPerm n f)
    (h1 : ∀ i, i < m0 → g i = f (σ i)) (h2 : ∀ i, m0 ≤ i → i < n → g i = f i) : Spec.IsPerm n g := by
  refine ⟨fun i hi => ?_, fun i j hi hj e => ?_⟩
  · rcases Nat.lt_or_ge i m0 with h | h
    · rw [h1 i h]; exact hf.1 _ (lt_of_lt_of_le (hσ.1 i h) hm)
    · rw [h2 i h hi]; exact hf.1 i hi
  · rcases Nat.lt_or_ge i m0 with h | h <;> rcases Nat.lt_or_ge j m0 with h' | h'
    · rw [h1 i h, h1 j h'] at e
      exact hσ.2 i j h h' (hf.2 _ _ (lt_of_lt_of_le (hσ.1 i h) hm) (lt_of_lt_of_le (hσ.1 j h') hm) e)
    · rw [h1 i h, h2 j h' hj] at e
      have := hf.2 _ _ (lt_of_lt_of_le (hσ.1 i h) hm) hj e
      have := hσ.1 i h
      omega
    · rw [h2 i h hi, h1 j h'] at e
      have := hf.2 _ _ hi (lt_of_lt_of_le (hσ.1 j h') hm) e
      have := hσ.1 j h'
      omega
    · rw [h2 i h hi, h2 j h' hj] at e
      exact hf.2 i j hi hj e

section drive
variable {K R : Type} [CommMonoid K] [Inhabited K] [Field R] [LinearOrder R] [IsStrictOrderedRing R]

/-- What is assumed of the arithmetic. -/
structure ArithOK (a : Arith K R) : Prop where
  mag : MagSpec a.nrm a.emb
  emb : EmbSpec a.emb
  sqrt : SqrtSpec a.sqrt
  eps : 0 ≤ a.eps

/-- `C` is `B` with its lines and indices multiplied by positive numbers. -/
def Rescaled (a : Arith K R) (B C : CS K) : Prop :=
  SameLayout B C ∧ ∃ s t : Nat → R, (∀ i, i < B.psize → 0 < s i ∧ 0 < t i) ∧
    ∀ i, i < B.psize → C.line i = (B.line i).map fun e => (e.1, e.2 * a.emb (s i) * a.emb (t e.1))

/-- Contract of the matching for a square matrix and its rescalings: it reports no error and returns a (signed, 1-based)
permutation and positive scalings. -/
def MatchFor (a : Arith K R) (mc64 : CS K → MatchOut R) (B : CS K) : Prop :=
  ∀ C : CS K, Rescaled a B C → C.WF → C.ssize = C.psize → 0 ≤ (mc64 C).info ∧
    (mc64 C).perm.size = C.psize ∧ (mc64 C).s.size = C.psize ∧ (mc64 C).t.size = C.psize ∧
    Spec.IsPerm C.psize (fun i => ((mc64 C).perm.get i).natAbs - 1) ∧
    ∀ i, i < C.psize → 0 < (mc64 C).s.get i ∧ 0 < (mc64 C).t.get i

theorem preScale_runs {a : Arith K R} (ha : ArithOK a) (isSymm : Bool) (kind : Int) {B : CS K} (hB : B.WF) (hsq : B.ssize = B.psize)
    (hz : kind ≠ 0 → kind ≠ 1 → NoZeroLine a.nrm isSymm B) (s t : Buf R) (hs : B.psize ≤ s.size) (ht : B.psize ≤ t.size) :
    Runs (preScale a isSymm kind B s t) fun r => Rescaled a B r.1 ∧ r.2.1.size = s.size ∧ r.2.2.size = t.size ∧
      (∀ i, i < B.psize → 0 < r.2.1.get i ∧ 0 < r.2.2.get i) := by
  unfold preScale
  split
  · refine (scaleEye_runs s t hs ht).mono ?_
    rintro r ⟨r1, r2, r3, r4⟩
    rw [r1]
    refine ⟨⟨⟨rfl, rfl, rfl, rfl, rfl⟩, fun _ => 1, fun _ => 1, fun _ _ => ⟨one_pos, one_pos⟩, fun i hi => ?_⟩, r2, r3, fun i hi => ?_⟩
    · conv_lhs => rw [← List.map_id (B.line i)]
      refine List.map_congr_left fun e _ => ?_
      show e = _
      rw [ha.emb.one, mul_one, mul_one]
    rw [(r4 i hi).1, (r4 i hi).2]
    exact ⟨one_pos, one_pos⟩
  · rename_i h0
    split
    · exact (scaleExtreme_runs ha.mag isSymm hB hsq s t hs ht).mono fun r hr =>
        ⟨⟨hr.1, r.2.1.get, r.2.2.get, hr.2.2.2.1, hr.2.2.2.2.1⟩, hr.2.1, hr.2.2.1, hr.2.2.2.1⟩
    · rename_i h1
      exact (iterScale_runs ha.mag ha.emb ha.sqrt isSymm a.tol 5 (by omega) hB hsq (hz h0 h1) s t hs ht).mono
        fun r hr => ⟨⟨hr.1, r.2.1.get, r.2.2.get, hr.2.2.2.1, hr.2.2.2.2.1⟩, hr.2.1, hr.2.2.1, hr.2.2.2.1⟩

theorem mulScales_runs (o : MatchOut R) (n : Nat) (s t : Buf R) (hs : n ≤ s.size) (ht : n ≤ t.size) (h1 : o.s.size = n)
    (h2 : o.t.size = n) :
    Runs (mulScales o n s t) fun r => r.1.size = s.size ∧ r.2.size = t.size ∧
      ∀ i, i < n → r.1.get i = s.get i * o.t.get i ∧ r.2.get i = t.get i * o.s.get i := by
  unfold mulScales
  refine forUp_runs' (fun i (r : Buf R × Buf R) => r.1.size = s.size ∧ r.2.size = t.size ∧
    (∀ k, k < i → r.1.get k = s.get k * o.t.get k ∧ r.2.get k = t.get k * o.s.get k) ∧
    ∀ k, i ≤ k → r.1.get k = s.get k ∧ r.2.get k = t.get k) (Nat.zero_le _)
    ⟨rfl, rfl, fun k hk => by omega, fun k _ => ⟨rfl, rfl⟩⟩ ?_ (fun r h => ⟨h.1, h.2.1, h.2.2.1⟩)
  rintro i r - hi ⟨r1, r2, r3, r4⟩
  simp only [runs_bind, runs_rd, runs_wr, runs_pure, Buf.set_size, Buf.set_get]
  refine ⟨by omega, by omega, by omega, by omega, by omega, by omega, r1, r2, fun k hk => ?_, fun k hk => ?_⟩
  · by_cases e : k = i
    · rw [if_pos e, if_pos e, e, (r4 i (le_refl _)).1, (r4 i (le_refl _)).2]; exact ⟨rfl, rfl⟩
    · rw [if_neg e, if_neg e]; exact r3 k (by omega)
  · rw [if_neg (by omega), if_neg (by omega)]; exact r4 k (by omega)

theorem absPerm_runs (o : MatchOut R) (n : Nat) (p : Buf Nat) (hp : n ≤ p.size) (ho : o.perm.size = n) :
    Runs (absPerm o n p) fun r => r.size = p.size ∧ ∀ i, i < n → r.get i = (o.perm.get i).natAbs - 1 := by
  unfold absPerm
  refine forUp_runs' (fun i (r : Buf Nat) => r.size = p.size ∧ ∀ k, k < i → r.get k = (o.perm.get k).natAbs - 1) (Nat.zero_le _)
    ⟨rfl, fun k hk => by omega⟩ ?_ (fun _ h => h)
  rintro i r - hi ⟨r1, r2⟩
  simp only [runs_bind, runs_rd, runs_wr, Buf.set_size, Buf.set_get]
  refine ⟨by omega, by omega, r1, fun k hk => ?_⟩
  by_cases e : k = i
  · rw [if_pos e, e]
  · rw [if_neg e]; exact r2 k (by omega)

theorem symmFix_runs {sqrt : R → R} (hsr : SqrtSpec sqrt) (isSymm : Bool) (n : Nat) (p q : Buf Nat) (s t : Buf R) (hp : n ≤ p.size)
    (hq : n ≤ q.size) (hs : n ≤ s.size) (ht : n ≤ t.size) (hpos : ∀ i, i < n → 0 < s.get i ∧ 0 < t.get i) :
    Runs (symmFix sqrt isSymm n p q s t) fun r => r.1.size = q.size ∧ r.2.1.size = s.size ∧ r.2.2.size = t.size ∧
      (∀ i, i < n → r.1.get i = if isSymm then p.get i else i) ∧
      (∀ i, i < n → 0 < r.2.1.get i ∧ 0 < r.2.2.get i ∧ r.2.1.get i * r.2.2.get i = s.get i * t.get i ∧
        (isSymm = true → r.2.1.get i = r.2.2.get i) ∧ (isSymm = false → r.2.1.get i = s.get i ∧ r.2.2.get i = t.get i)) := by
  unfold symmFix
  cases isSymm with
  | true =>
    simp only [if_true]
    refine forUp_runs' (fun i (r : Buf Nat × Buf R × Buf R) => r.1.size = q.size ∧ r.2.1.size = s.size ∧ r.2.2.size = t.size ∧
      (∀ k, k < i → r.1.get k = p.get k) ∧
      (∀ k, k < i → r.2.1.get k = sqrt (s.get k * t.get k) ∧ r.2.2.get k = sqrt (s.get k * t.get k)) ∧
      ∀ k, i ≤ k → r.2.1.get k = s.get k ∧ r.2.2.get k = t.get k) (Nat.zero_le _)
      ⟨rfl, rfl, rfl, fun k hk => by omega, fun k hk => by omega, fun k _ => ⟨rfl, rfl⟩⟩ ?_ ?_
    · rintro i r - hi ⟨r1, r2, r3, r4, r5, r6⟩
      simp only [runs_bind, runs_rd, runs_wr, runs_pure, Buf.set_size, Buf.set_get]
      refine ⟨by omega, by omega, by omega, by omega, by omega, by omega, r1, r2, r3, fun k hk => ?_, fun k hk => ?_, fun k hk => ?_⟩
      · by_cases e : k = i
        · rw [if_pos e, e]
        · rw [if_neg e]; exact r4 k (by omega)
      · by_cases e : k = i
        · rw [if_pos e, if_pos e, e, (r6 i (le_refl _)).1, (r6 i (le_refl _)).2]; exact ⟨rfl, rfl⟩
        · rw [if_neg e, if_neg e]; exact r5 k (by omega)
      · rw [if_neg (by omega), if_neg (by omega)]; exact r6 k (by omega)
    · rintro r ⟨r1, r2, r3, r4, r5, -⟩
      refine ⟨r1, r2, r3, r4, fun i hi => ?_⟩
      rw [(r5 i hi).1, (r5 i hi).2]
      have h0 := mul_pos (hpos i hi).1 (hpos i hi).2
      exact ⟨hsr.pos h0, hsr.pos h0, (hsr _ (le_of_lt h0)).2, fun _ => rfl, fun h => by simp at h⟩
  | false =>
    simp only [Bool.false_eq_true, if_false]
    refine forUp_runs' (fun i (r : Buf Nat × Buf R × Buf R) => r.1.size = q.size ∧ r.2 = (s, t) ∧ ∀ k, k < i → r.1.get k = k)
      (Nat.zero_le _) ⟨rfl, rfl, fun k hk => by omega⟩ ?_ ?_
    · rintro i r - hi ⟨r1, r2, r3⟩
      simp only [runs_bind, runs_wr, runs_pure, Buf.set_size, Buf.set_get]
      refine ⟨by omega, r1, r2, fun k hk => ?_⟩
      by_cases e : k = i
      · rw [if_pos e, e]
      · rw [if_neg e]; exact r3 k (by omega)
    · rintro r ⟨r1, r2, r3⟩
      rw [r2]
      exact ⟨r1, rfl, rfl, r3, fun i hi => ⟨(hpos i hi).1, (hpos i hi).2, rfl, fun h => by simp at h, fun _ => ⟨rfl, rfl⟩⟩⟩

theorem eqlMatch_runs {a : Arith K R} (ha : ArithOK a) {ker : Kernels K R} (isSymm : Bool) (kind : Int)
    {B : CS K} (hk : MatchFor a ker.mc64 B) (hB : B.WF) (hsq : B.ssize = B.psize) (hz : kind ≠ 0 → kind ≠ 1 → NoZeroLine a.nrm isSymm B)
    (p q : Buf Nat) (s t : Buf R) (hp : B.psize ≤ p.size) (hq : B.psize ≤ q.size) (hs : B.psize ≤ s.size) (ht : B.psize ≤ t.size) :
    Runs (eqlMatch a ker isSymm kind B p q s t) fun r => r.1.size = p.size ∧ r.2.1.size = q.size ∧ r.2.2.1.size = s.size ∧
      r.2.2.2.size = t.size ∧ Spec.IsPerm B.psize r.1.get ∧ (∀ i, i < B.psize → r.2.1.get i = if isSymm then r.1.get i else i) ∧
      (∀ i, i < B.psize → 0 < r.2.2.1.get i ∧ 0 < r.2.2.2.get i) ∧ (isSymm = true → ∀ i, i < B.psize → r.2.2.1.get i = r.2.2.2.get i) ∧
      ∃ C, SameLayout B C ∧ ∀ i, i < B.psize → r.1.get i = ((ker.mc64 C).perm.get i).natAbs - 1 := by
  unfold eqlMatch
  simp only [runs_bind]
  refine (preScale_runs ha isSymm kind hB hsq hz s t hs ht).mono ?_
  rintro ⟨C, s1, t1⟩ ⟨hL0, a1, a2, a3⟩
  have hL := hL0.1
  simp only at hL0 hL a1 a2 a3 ⊢
  have hCwf := hL.wf hB
  have hL' := hL
  obtain ⟨l1, l2, -⟩ := hL
  obtain ⟨hi, k1, k2, k3, k4, k5⟩ := hk C hL0 hCwf (by rw [l1, l2, hsq])
  rw [if_neg (by omega)]
  rw [l1] at k1 k2 k3 k4 k5
  simp only [runs_bind]
  refine (mulScales_runs (ker.mc64 C) B.psize s1 t1 (by omega) (by omega) k2 k3).mono ?_
  rintro ⟨s2, t2⟩ ⟨b1, b2, b3⟩
  refine (absPerm_runs (ker.mc64 C) B.psize p hp k1).mono ?_
  rintro p1 ⟨c1, c2⟩
  simp only at b1 b2 b3 ⊢
  refine (symmFix_runs ha.sqrt isSymm B.psize p1 q s2 t2 (by omega) hq (by omega) (by omega) (fun i hi => ?_)).mono ?_
  · rw [(b3 i hi).1, (b3 i hi).2]
    exact ⟨mul_pos (a3 i hi).1 (k5 i hi).2, mul_pos (a3 i hi).2 (k5 i hi).1⟩
  rintro ⟨q1, s3, t3⟩ ⟨d1, d2, d3, d4, d5⟩
  rw [runs_pure]
  simp only at d1 d2 d3 d4 d5 ⊢
  refine ⟨c1, d1, by omega, by omega, ⟨fun i hi => by rw [c2 i hi]; exact k4.1 i hi, fun i j hi hj e => ?_⟩, d4, fun i hi => ⟨(d5 i hi).1, (d5 i hi).2.1⟩, fun hsy i hi => (d5 i hi).2.2.2.1 hsy, C, hL', c2⟩
  rw [c2 i hi, c2 j hj] at e
  exact k4.2 i j hi hj e

theorem fillTail_runs (m0 n : Nat) (p : Buf Nat) (s : Buf R) (hm : m0 ≤ n) (hp : p.size = n) (hs : s.size = n) :
    Runs (fillTail m0 n p s) fun r => r.1.size = n ∧ r.2.size = n ∧ (∀ i, i < m0 → r.1.get i = p.get i ∧ r.2.get i = s.get i) ∧
      ∀ i, m0 ≤ i → i < n → r.1.get i = i ∧ r.2.get i = 1 := by
  unfold fillTail
  refine forUp_runs' (fun i (r : Buf Nat × Buf R) => r.1.size = n ∧ r.2.size = n ∧ (∀ k, k < m0 → r.1.get k = p.get k ∧ r.2.get k = s.get k) ∧
    ∀ k, m0 ≤ k → k < i → r.1.get k = k ∧ r.2.get k = 1) hm ⟨hp, hs, fun k _ => ⟨rfl, rfl⟩, fun k _ _ => by omega⟩ ?_ (fun _ h => h)
  rintro i r h1 h2 ⟨r1, r2, r3, r4⟩
  simp only [runs_bind, runs_wr, runs_pure, Buf.set_size, Buf.set_get]
  refine ⟨by omega, by omega, r1, r2, fun k hk => ?_, fun k k1 k2 => ?_⟩
  · rw [if_neg (by omega), if_neg (by omega)]; exact r3 k hk
  · by_cases e : k = i
    · rw [if_pos e, if_pos e]; exact ⟨e.symm, rfl⟩
    · rw [if_neg e, if_neg e]; exact r4 k k1 (by omega)

/-- Input of the preprocessing: both storages of one square matrix of dimension `n`. -/
structure PreIn (n m0 : Nat) (Accs Acrs : CS K) : Prop where
  cwf : Accs.WF
  csorted : Accs.Sorted
  cp : Accs.psize = n
  cs : Accs.ssize = n
  rwf : Acrs.WF
  rsorted : Acrs.Sorted
  rp : Acrs.psize = n
  rs : Acrs.ssize = n
  mle : m0 ≤ n
  lead : m0 = n ∨ ∃ i, i < m0 ∧ ∃ e ∈ Acrs.line i, e.1 < m0

theorem matchInput_runs {n m0 : Nat} {Accs Acrs : CS K} (h : PreIn n m0 Accs Acrs) :
    Runs (matchInput Acrs m0) fun B => B.WF ∧ B.psize = m0 ∧ B.ssize = m0 ∧
      ∀ i, i < m0 → B.line i = (Acrs.line i).filter (fun e => e.1 < m0) := by
  unfold matchInput
  have hrp := h.rp
  split
  · rename_i e
    rw [runs_pure]
    refine ⟨h.rwf, e.symm, by rw [h.rs, ← h.rp, e], fun i hi => ?_⟩
    symm
    rw [List.filter_eq_self]
    intro e' he'
    obtain ⟨k, k1, k2, rfl⟩ := CS.mem_seg.1 he'
    have := h.rwf.line_lt (i := i) (by omega) k2
    have := h.rs
    simp only [decide_eq_true_eq]
    omega
  · rename_i e
    have hle := h.mle
    have hl : ∃ i, i < m0 ∧ ∃ e ∈ Acrs.line i, e.1 < m0 := h.lead.resolve_left (by omega)
    exact (CS.extractLeading_runs h.rwf h.rsorted m0 (by omega) hl).mono fun B hB => ⟨hB.1, hB.2.2.1, hB.2.2.2.1, hB.2.2.2.2⟩

/-- The pattern handed to the orderings: a valid compressed pattern of dimension `m` with sorted lines. -/
def PatWF (m : Nat) (b : Pat) : Prop :=
  b.start.size = m + 1 ∧ b.start.get 0 = 0 ∧ (∀ c, c < m → b.start.get c ≤ b.start.get (c + 1)) ∧ b.inds.size = b.start.get m ∧
  (∀ k, k < b.inds.size → b.inds.get k < m) ∧ ∀ c, c < m → (b.inds.slice (b.start.get c) (b.start.get (c + 1))).Pairwise (· < ·)

theorem PatIs.wf {m : Nat} {L : Nat → List Nat} {b : Pat} (h : PatIs m L b) (hlt : ∀ c, c < m → ∀ r ∈ L c, r < m)
    (hnd : ∀ c, c < m → (L c).Nodup) : PatWF m b := by
  obtain ⟨h1, h2, h3, h4⟩ := h
  have hmo : ∀ c, c < m → b.start.get c ≤ b.start.get (c + 1) := fun c hc => by
    rw [h2 c (by omega), h2 (c + 1) (by omega)]; exact CS.off_mono _ (by omega)
  refine ⟨h1, by rw [h2 0 (Nat.zero_le _)]; rfl, hmo, by rw [h2 m (le_refl _), h3], fun k hk => ?_, fun c hc => ?_⟩
  · rw [h3] at hk
    obtain ⟨c, hc, t, ht, rfl⟩ := CS.off_split _ _ _ hk
    have hmem : b.inds.get (CS.off (fun c => (L c).length) c + t) ∈ b.inds.slice (b.start.get c) (b.start.get (c + 1)) := by
      rw [Buf.mem_slice]
      refine ⟨_, ?_, ?_, rfl⟩
      · rw [h2 c (by omega)]; omega
      · rw [h2 (c + 1) (by omega)]
        show _ < CS.off (fun c => (L c).length) c + (L c).length
        omega
    rw [h4 c hc] at hmem
    exact hlt c hc _ ((List.mem_insertionSort (r := (· ≤ ·))).1 hmem)
  · rw [h4 c hc]
    have hp := List.perm_insertionSort (· ≤ ·) (L c)
    have g1 : ((L c).insertionSort (· ≤ ·)).Pairwise (· ≤ ·) := List.pairwise_insertionSort _ _
    have g2 : ((L c).insertionSort (· ≤ ·)).Nodup := hp.nodup_iff.2 (hnd c hc)
    exact (g1.and g2).imp (fun h => by omega)

omit [CommMonoid K] [Inhabited K] in
theorem ids_nodup {A : CS K} (hs : A.Sorted) {i : Nat} (hi : i < A.psize) : (ids A i).Nodup := by
  rw [ids_eq]
  exact (CS.line_fst_pairwise hs hi).imp (fun h => by omega)

omit [CommMonoid K] [Inhabited K] in
theorem lead_nodup {A : CS K} (hA : A.WF) (hs : A.Sorted) {i m : Nat} (hi : i < A.psize) (inv : Nat → Nat)
    (hinj : ∀ x y, x < A.ssize → y < A.ssize → inv x = inv y → x = y) : (lead m inv (ids A i)).Nodup := by
  refine List.Nodup.filter _ (List.Nodup.map_on ?_ (ids_nodup hs hi))
  intro x hx y hy e
  obtain ⟨k, k1, k2, rfl⟩ := Buf.mem_slice.1 hx
  obtain ⟨l, l1, l2, rfl⟩ := Buf.mem_slice.1 hy
  exact hinj _ _ (hA.line_lt hi k2) (hA.line_lt hi l2) e

/-- What the orderings are asked to do on a valid pattern satisfying `Ok`. -/
def OrderSpec (f : Nat → Pat → M (Buf Nat)) (Ok : Nat → Pat → Prop) : Prop :=
  ∀ m b, PatWF m b → Ok m b → Runs (f m b) fun P => m ≤ P.size ∧ Spec.IsPerm m P.get

/-- The pattern of a symmetric graph. -/
def PatSymm (m : Nat) (b : Pat) : Prop :=
  ∀ i, i < m → ∀ j, j < m → j ∈ b.inds.slice (b.start.get i) (b.start.get (i + 1)) → i ∈ b.inds.slice (b.start.get j) (b.start.get (j + 1))

/-- Result of the matching step. -/
structure MatchedOK (a : Arith K R) (n m0 : Nat) (Accs Acrs : CS K) (r : Matched R) : Prop where
  mle : r.m ≤ m0
  ssz : r.s.size = n
  tsz : r.t.size = n
  spos : ∀ i, i < n → 0 < r.s.get i
  tpos : ∀ i, i < n → 0 < r.t.get i
  psz : r.p.p.size = n
  pisz : r.p.inv.size = n
  qsz : r.q.p.size = n
  qisz : r.q.inv.size = n
  pperm : Spec.IsPerm n r.p.p.get
  qperm : Spec.IsPerm n r.q.p.get
  ptail : ∀ i, m0 ≤ i → i < n → r.p.p.get i = i ∧ r.q.p.get i = i
  good : ∀ i, i < m0 → (i < r.m ↔ Dominant a.nrm a.eps Accs Acrs (r.p.p.get i) (r.q.p.get i))

set_option maxHeartbeats 2000000 in
theorem matchPattern_runs {n m0 : Nat} {Accs Acrs : CS K} (h : PreIn n m0 Accs Acrs) (isSymm : Bool) (reorder : Int) (m : Nat)
    (hm : m ≤ n) (p q : BiPerm) (p1 : p.p.size = n) (p2 : p.inv.size = n) (p3 : Spec.IsPerm n p.p.get)
    (q1 : q.p.size = n) (q2 : q.inv.size = n) (q3 : Spec.IsPerm n q.p.get)
    (hno : isSymm = false → reorder = 3 → m = n ∨ m = 0) :
    Runs (matchPattern isSymm reorder Accs Acrs m p q) fun r => r.2.1.p = p.p ∧ r.2.2.p = q.p ∧ r.2.1.inv.size = n ∧ r.2.2.inv.size = n ∧
      (reorder ≠ 0 ∧ m ≠ 0 → PatWF m r.1 ∧
        (∀ i, i < m → ∀ j, j < m → (j ∈ r.1.inds.slice (r.1.start.get i) (r.1.start.get (i + 1)) ↔
          (p.p.get j ∈ ids Accs (q.p.get i) ∨ (isSymm = false ∧ reorder = 3 ∧ q.p.get j ∈ ids Acrs (p.p.get i)))))) := by
  unfold matchPattern
  split
  · rename_i hc
    simp only [runs_bind]
    refine (BiPerm.buildInv_runs n p p1 p2 p3).mono ?_
    rintro P ⟨e1, g1, g2, g3⟩
    have hPinj : ∀ x y, x < n → y < n → P.inv.get x = P.inv.get y → x = y := fun x y hx hy e => by
      rw [← (g3.2 x hx).2, e, (g3.2 y hy).2]
    have hcp := h.cp
    have hcs := h.cs
    have hrp := h.rp
    have hrs := h.rs
    have hcnd : ∀ (Q : Buf Nat), (∀ c, c < n → Q.get c < n) → ∀ c, c < m → (lead m P.inv.get (ids Accs (Q.get c))).Nodup := by
      intro Q hQ c hc'
      refine lead_nodup h.cwf h.csorted (by have := hQ c (by omega); omega) _ (fun x y hx hy => hPinj x y (by omega) (by omega))
    have hmemP : ∀ i, i < n → ∀ j, j < m → (j ∈ lead m P.inv.get (ids Accs (q.p.get i)) ↔ p.p.get j ∈ ids Accs (q.p.get i)) := by
      intro i hi j hj
      rw [mem_lead]
      constructor
      · rintro ⟨-, x, x1, x2⟩
        have hx : x < n := by
          obtain ⟨k, k1, k2, rfl⟩ := Buf.mem_slice.1 x1
          have := h.cwf.line_lt (i := q.p.get i) (by have := q3.1 i hi; omega) k2
          omega
        rw [← e1, ← x2, (g3.2 x hx).2]; exact x1
      · intro hx
        exact ⟨hj, _, hx, by rw [← e1]; exact (g3.1 j (by omega)).2⟩
    have hmemL : ∀ (L : Nat → List Nat) (b : Pat), PatIs m L b → ∀ i, i < m → ∀ j, (j ∈ b.inds.slice (b.start.get i) (b.start.get (i + 1)) ↔ j ∈ L i) := by
      intro L b hb i hi j
      rw [hb.2.2.2 i hi]
      exact List.mem_insertionSort (r := (· ≤ ·))
    simp only [runs_ite, runs_bind]
    split
    · rename_i hb
      have hmn : m = n := (hno hb.1 hb.2).resolve_right hc.2
      refine (BiPerm.buildInv_runs n q q1 q2 q3).mono ?_
      rintro Q ⟨f1, f2, f3, f4⟩
      have hin : SymIn Accs Acrs m P.p Q.p P.inv Q.inv := by
        refine ⟨h.cwf, h.rwf, by omega, by omega, ?_, ?_, by omega, by omega, ?_, ?_⟩
        · intro c hc'; rw [hcp]; exact (f4.1 c (by omega)).1
        · intro c hc'; rw [hrp]; exact (g3.1 c (by omega)).1
        · exact hcnd Q.p (fun c hc' => (f4.1 c hc').1)
        · intro c hc' x hx
          obtain ⟨k, k1, k2, rfl⟩ := Buf.mem_slice.1 hx
          have := h.rwf.line_lt (i := P.p.get c) (by have := (g3.1 c (by omega)).1; omega) k2
          rw [hmn]
          exact (f4.2 _ (by omega)).1
      refine (leadSymm_runs hin).mono ?_
      intro b hbp
      rw [runs_pure]
      refine ⟨e1, f1, g2, f3, fun _ => ⟨hbp.wf (fun c _ r hr => uni_lt hr) (fun c hc' => uni_nodup hin hc'), fun i hi j hj => ?_⟩⟩
      simp only
      rw [hmemL _ _ hbp i hi j]
      unfold uni
      rw [mem_addNew, f1, hmemP i (by omega) j hj, e1]
      refine or_congr Iff.rfl ?_
      rw [mem_lead]
      constructor
      · rintro ⟨-, x, x1, x2⟩
        have hx : x < n := by
          obtain ⟨k, k1, k2, rfl⟩ := Buf.mem_slice.1 x1
          have := h.rwf.line_lt (i := p.p.get i) (by have := p3.1 i (by omega); omega) k2
          omega
        refine ⟨hb.1, hb.2, ?_⟩
        rw [← f1, ← x2, (f4.2 x hx).2]; exact x1
      · rintro ⟨-, -, hx⟩
        exact ⟨hj, _, hx, by rw [← f1]; exact (f4.1 j (by omega)).2⟩
    · rename_i hb
      refine (leadPlain_runs h.cwf m q.p P.inv (by omega) (fun c hc' => by rw [hcp]; exact q3.1 c (by omega)) (by omega)).mono ?_
      intro b hbp
      rw [runs_pure]
      refine ⟨e1, rfl, g2, q2, fun _ => ⟨hbp.wf (fun c _ r hr => (mem_lead.1 hr).1) (hcnd q.p q3.1), fun i hi j hj => ?_⟩⟩
      simp only
      rw [hmemL _ _ hbp i hi j, hmemP i (by omega) j hj]
      constructor
      · exact Or.inl
      · rintro (h | ⟨h1, h2, -⟩)
        · exact h
        · exact absurd ⟨h1, h2⟩ hb
  · rename_i hc
    rw [runs_pure]
    exact ⟨rfl, rfl, p2, q2, fun h => absurd h hc⟩

set_option maxHeartbeats 2000000 in
theorem doMatching_runs {a : Arith K R} (ha : ArithOK a) {ker : Kernels K R} (isSymm : Bool) (opts : Opts R)
    {n m0 : Nat} (level : Nat) {Accs Acrs : CS K} (h : PreIn n m0 Accs Acrs) (hk : ∀ B, matchInput Acrs m0 = .ok B → MatchFor a ker.mc64 B)
    (hz : opts.preScale ≠ 0 → opts.preScale ≠ 1 → ∀ B, matchInput Acrs m0 = .ok B → NoZeroLine a.nrm isSymm B)
    (hno : isSymm = false → opts.reorder = 3 → m0 = n ∧ ∀ C, SameLayout Acrs C → ∀ i, i < n →
      Dominant a.nrm a.eps Accs Acrs (((ker.mc64 C).perm.get i).natAbs - 1) i) :
    Runs (doMatching a ker isSymm opts m0 level Accs Acrs) fun r => MatchedOK a n m0 Accs Acrs r ∧
      (opts.reorder ≠ 0 ∧ r.m ≠ 0 → PatWF r.m r.pat ∧
        (∀ i, i < r.m → ∀ j, j < r.m → (j ∈ r.pat.inds.slice (r.pat.start.get i) (r.pat.start.get (i + 1)) ↔
          (r.p.p.get j ∈ ids Accs (r.q.p.get i) ∨
            (isSymm = false ∧ opts.reorder = 3 ∧ r.q.p.get j ∈ ids Acrs (r.p.p.get i)))))) ∧
      (isSymm = true → ∀ i, i < n → r.p.p.get i = r.q.p.get i) ∧ (isSymm = true → ∀ i, i < n → r.s.get i = r.t.get i) := by
  have hcp := h.cp
  have hcs := h.cs
  have hrp := h.rp
  have hle := h.mle
  unfold doMatching
  simp only [runs_bind, hcp, hcs]
  obtain ⟨B, eB, b1, b2, b3, -⟩ := matchInput_runs h
  refine ⟨B, eB, ?_⟩
  refine (eqlMatch_runs ha isSymm opts.preScale (hk B eB) b1 (by rw [b2, b3]) (fun h0 h1 => hz h0 h1 B eB)
    (Buf.mk' n 0) (Buf.mk' n 0) (Buf.mk' n 0) (Buf.mk' n 0) (by rw [b2]; exact hle) (by rw [b2]; exact hle) (by rw [b2]; exact hle) (by rw [b2]; exact hle)).mono ?_
  rintro ⟨p, q, s, t⟩ ⟨c1, c2, c3, c4, c5, c6, c7, c7', C, c8, c9⟩
  simp only [Buf.mk'_size, b2] at c1 c2 c3 c4 c5 c6 c7 c7' c9 ⊢
  refine (fillTail_runs m0 n p s hle c1 c3).mono ?_
  rintro ⟨p1, s1⟩ ⟨d1, d2, d3, d4⟩
  refine (fillTail_runs m0 n q t hle c2 c4).mono ?_
  rintro ⟨q1, t1⟩ ⟨e1, e2, e3, e4⟩
  simp only at d1 d2 d3 d4 e1 e2 e3 e4 ⊢
  have htail : ∀ (f g : Nat → Nat), Spec.IsPerm m0 f → (∀ i, i < m0 → g i = f i) → (∀ i, m0 ≤ i → i < n → g i = i) → Spec.IsPerm n g := by
    intro f g hf h1 h2
    exact isPerm_comp hle hf (f := fun i => i) ⟨fun i hi => hi, fun i j _ _ e => e⟩ h1 h2
  have hp1 : Spec.IsPerm n p1.get := htail p.get p1.get c5 (fun i hi => (d3 i hi).1) (fun i h1 h2 => (d4 i h1 h2).1)
  have hq0 : Spec.IsPerm m0 q.get := by
    refine ⟨fun i hi => ?_, fun i j hi hj e => ?_⟩
    · rw [c6 i hi]; split
      · exact c5.1 i hi
      · exact hi
    · rw [c6 i hi, c6 j hj] at e
      split at e
      · exact c5.2 i j hi hj e
      · exact e
  have hq1 : Spec.IsPerm n q1.get := htail q.get q1.get hq0 (fun i hi => (e3 i hi).1) (fun i h1 h2 => (e4 i h1 h2).1)
  have hs1 : ∀ i, i < n → 0 < s1.get i := by
    intro i hi
    rcases Nat.lt_or_ge i m0 with hlt | hge
    · rw [(d3 i hlt).2]; exact (c7 i hlt).1
    · rw [(d4 i hge hi).2]; exact one_pos
  have ht1 : ∀ i, i < n → 0 < t1.get i := by
    intro i hi
    rcases Nat.lt_or_ge i m0 with hlt | hge
    · rw [(e3 i hlt).2]; exact (c7 i hlt).2
    · rw [(e4 i hge hi).2]; exact one_pos
  refine (fixPoor_runs ha.sqrt m0 level n p1 q1 s1 t1 opts.beta hle d1 e1 d2 e2 hp1 hq1 hs1 ht1).mono ?_
  rintro ⟨s2, t2⟩ ⟨f1, f2, f3, f4⟩
  simp only at f1 f2 f3 f4 ⊢
  have hsurj : ∀ (f : Nat → Nat), Spec.IsPerm n f → ∀ j, j < n → ∃ i, i < n ∧ f i = j := by
    intro f hf j hj
    let F : Fin n → Fin n := fun k => ⟨f k, hf.1 k k.2⟩
    have hF : Function.Injective F := fun a b hab => Fin.ext (hf.2 a b a.2 b.2 (congrArg Fin.val hab))
    obtain ⟨k, hk⟩ := Finite.surjective_of_injective hF ⟨j, hj⟩
    exact ⟨k, k.2, congrArg Fin.val hk⟩
  have hpos : (∀ i, i < n → 0 < s2.get i) ∧ ∀ i, i < n → 0 < t2.get i := by
    by_cases hc : level ≤ 1 ∨ effBeta opts.beta ≤ 1
    · have := f3 hc
      injection this with h1 h2
      rw [h1, h2]; exact ⟨hs1, ht1⟩
    · push Not at hc
      obtain ⟨g1, g2⟩ := f4 hc
      constructor
      · intro j hj
        obtain ⟨i, hi, rfl⟩ := hsurj _ hp1 j hj
        rcases Nat.lt_or_ge i m0 with hlt | hge
        · exact (g1 i hlt).1
        · rw [(g2 i hge hi).1]; exact hs1 _ hj
      · intro j hj
        obtain ⟨i, hi, rfl⟩ := hsurj _ hq1 j hj
        rcases Nat.lt_or_ge i m0 with hlt | hge
        · exact (g1 i hlt).2.1
        · rw [(g2 i hge hi).2]; exact ht1 _ hj
  have hst : isSymm = true → ∀ i, i < n → s2.get i = t2.get i := by
    intro hsym
    have h1 : ∀ i, i < n → s1.get i = t1.get i := fun i hi => by
      rcases Nat.lt_or_ge i m0 with hlt | hge
      · rw [(d3 i hlt).2, (e3 i hlt).2, c7' hsym i hlt]
      · rw [(d4 i hge hi).2, (e4 i hge hi).2]
    have hpq : ∀ i, i < n → p1.get i = q1.get i := fun i hi => by
      rcases Nat.lt_or_ge i m0 with hlt | hge
      · rw [(d3 i hlt).1, (e3 i hlt).1, c6 i hlt, if_pos hsym]
      · rw [(d4 i hge hi).1, (e4 i hge hi).1]
    by_cases hc : level ≤ 1 ∨ effBeta opts.beta ≤ 1
    · have := f3 hc
      injection this with h2 h3
      rw [h2, h3]; exact h1
    · push Not at hc
      obtain ⟨g1, g2⟩ := f4 hc
      intro j hj
      obtain ⟨i, hi, rfl⟩ := hsurj _ hp1 j hj
      have hj1 := h1 _ hj
      rcases Nat.lt_or_ge i m0 with hlt | hge
      · have := (g1 i hlt).2.2.2.2
        rw [← hpq i hi, hj1] at this
        rcases le_or_gt (max (t1.get (p1.get i)) (t1.get (p1.get i))) (effBeta opts.beta * min (t1.get (p1.get i)) (t1.get (p1.get i))) with hl | hl
        · rw [(this.1 hl).1, (this.1 hl).2]
        · exact this.2 hl
      · have := g2 i hge hi
        rw [← hpq i hi] at this
        rw [this.1, this.2, hj1]
  have hgood : GoodSpec m0 (fun i => Dominant a.nrm a.eps Accs Acrs (p1.get i) (q1.get i)) p1 q1 (isGood a.nrm a.eps Accs Acrs) := by
    intro p' q' i hi h1 h2 h3 h4
    have := isGood_runs a.nrm ha.mag.nonneg a.eps ha.eps h.cwf h.csorted h.rwf p' q' i (h1 ▸ d1 ▸ lt_of_lt_of_le hi hle) (h2 ▸ e1 ▸ lt_of_lt_of_le hi hle)
      (by rw [h3, hrp]; exact hp1.1 i (lt_of_lt_of_le hi hle)) (by rw [h4, hcp]; exact hq1.1 i (lt_of_lt_of_le hi hle))
    rw [h3, h4] at this
    exact this
  refine (deferTiny_perm hgood (d1 ▸ hle) (e1 ▸ hle) (Buf.mk' n 0) (Buf.mk' n 0) hle hle).mono ?_
  rintro d ⟨g1, g2, g3, g4, g5, ⟨σ, σ1, σ2, -⟩, g6, g7⟩
  simp only [Buf.mk'_size] at g3 g4
  have hdp : Spec.IsPerm n d.p.get := isPerm_comp hle σ1 hp1 (fun i hi => (σ2 i hi).1) (fun i h1 _ => g6 i h1)
  have hdq : Spec.IsPerm n d.q.get := isPerm_comp hle σ1 hq1 (fun i hi => (σ2 i hi).2.1) (fun i h1 _ => g7 i h1)
  refine (matchPattern_runs h isSymm opts.reorder d.m (g5.trans hle) ⟨d.p, d.wp⟩ ⟨d.q, d.wq⟩ (g1.trans d1) g3 hdp (g2.trans e1) g4 hdq ?_).mono ?_
  · intro hs hr
    obtain ⟨h1, h2⟩ := hno hs hr
    left
    by_contra hne
    have hlt : d.m < m0 := lt_of_le_of_ne g5 (fun e => hne (e.trans h1))
    have hk' := σ1.1 d.m hlt
    have hCl : SameLayout Acrs C := by
      have : B = Acrs := by
        unfold matchInput at eB
        rw [if_pos (by rw [hrp, h1])] at eB
        exact (Except.ok.inj eB).symm
      rw [← this]; exact c8
    have hd := h2 C hCl (σ d.m) (lt_of_lt_of_le hk' hle)
    rw [← c9 (σ d.m) hk', ← (d3 _ hk').1] at hd
    have hqe : q1.get (σ d.m) = σ d.m := by rw [(e3 _ hk').1, c6 _ hk', hs]; rfl
    have hd' : Dominant a.nrm a.eps Accs Acrs (p1.get (σ d.m)) (q1.get (σ d.m)) := by
      rw [hqe]; exact hd
    exact absurd ((σ2 d.m hlt).2.2.2 hd') (lt_irrefl _)
  rintro ⟨pat, ⟨P, Pi⟩, ⟨Q, Qi⟩⟩ ⟨k1, k2, k3, k4, k5⟩
  rw [runs_pure]
  have k1' : P = d.p := k1
  have k2' : Q = d.q := k2
  subst k1' k2'
  refine ⟨⟨g5, f1, f2, hpos.1, hpos.2, g1.trans d1, k3, g2.trans e1, k4, hdp, hdq,
    fun i h1 h2 => ⟨(g6 i h1).trans (d4 i h1 h2).1, (g7 i h1).trans (e4 i h1 h2).1⟩, fun i hi => by
      show i < d.m ↔ Dominant a.nrm a.eps Accs Acrs (d.p.get i) (d.q.get i)
      rw [(σ2 i hi).1, (σ2 i hi).2.1]
      exact (σ2 i hi).2.2⟩, k5, fun hsym i hi => ?_, hst⟩
  show d.p.get i = d.q.get i
  rcases Nat.lt_or_ge i m0 with hlt | hge
  · have hk' := σ1.1 i hlt
    rw [(σ2 i hlt).1, (σ2 i hlt).2.1, (d3 _ hk').1, (e3 _ hk').1, c6 _ hk', if_pos hsym]
  · rw [g6 i hge, g7 i hge, (d4 i hge hi).1, (e4 i hge hi).1]

/-- The pattern handed to RCM is symmetric. -/
theorem pat_symm {a : Arith K R} {n m0 : Nat} {Accs Acrs : CS K} {r : Matched R} (hr : MatchedOK a n m0 Accs Acrs r) (hle : m0 ≤ n) (isSymm : Bool) (reorder : Int)
    (hsame : ∀ i, i < n → ∀ j, j < n → (i ∈ ids Accs j ↔ j ∈ ids Acrs i))
    (hsym : isSymm = true → ∀ i, i < m0 → ∀ j, j < m0 → i ∈ ids Accs j → j ∈ ids Accs i)
    (hpat : ∀ i, i < r.m → ∀ j, j < r.m → (j ∈ r.pat.inds.slice (r.pat.start.get i) (r.pat.start.get (i + 1)) ↔
          (r.p.p.get j ∈ ids Accs (r.q.p.get i) ∨ (isSymm = false ∧ reorder = 3 ∧ r.q.p.get j ∈ ids Acrs (r.p.p.get i)))))
    (hpq : isSymm = true → ∀ i, i < n → r.p.p.get i = r.q.p.get i) (hre : isSymm = true ∨ reorder = 3) : PatSymm r.m r.pat := by
  intro i hi j hj hij
  have hm := hr.mle
  rw [hpat i hi j hj] at hij
  rw [hpat j hj i hi]
  have pi := hr.pperm.1 i (by omega)
  have pj := hr.pperm.1 j (by omega)
  have qi := hr.qperm.1 i (by omega)
  have qj := hr.qperm.1 j (by omega)
  have hlead : ∀ k, k < m0 → r.p.p.get k < m0 := by
    intro k hk
    by_contra hc
    have hb := hr.pperm.1 k (by omega)
    have := hr.pperm.2 (r.p.p.get k) k hb (by omega) (hr.ptail _ (by omega) hb).1
    omega
  cases isSymm with
  | true =>
    left
    rcases hij with hij | ⟨hij, -⟩
    · rw [← hpq rfl i (by omega)] at hij
      rw [← hpq rfl j (by omega)]
      exact hsym rfl _ (hlead j (by omega)) _ (hlead i (by omega)) hij
    · simp at hij
  | false =>
    have h3 : reorder = 3 := by simpa using hre
    rcases hij with hij | ⟨-, -, hij⟩
    · right; exact ⟨rfl, h3, (hsame _ pj _ qi).1 hij⟩
    · left; exact (hsame _ pi _ qj).2 hij

theorem doPreprocess_runs_of {a : Arith K R} (ha : ArithOK a) {ker : Kernels K R} (isSymm : Bool) (opts : Opts R)
    {n m0 : Nat} (level : Nat) {Accs Acrs : CS K} (h : PreIn n m0 Accs Acrs) (hk : ∀ B, matchInput Acrs m0 = .ok B → MatchFor a ker.mc64 B)
    (hre : 0 ≤ opts.reorder ∧ opts.reorder < 4)
    (hz : opts.preScale ≠ 0 → opts.preScale ≠ 1 → ∀ B, matchInput Acrs m0 = .ok B → NoZeroLine a.nrm isSymm B)
    (hno : isSymm = false → opts.reorder = 3 → m0 = n ∧ ∀ C, SameLayout Acrs C → ∀ i, i < n →
      Dominant a.nrm a.eps Accs Acrs (((ker.mc64 C).perm.get i).natAbs - 1) i)
    (hamd : OrderSpec ker.amd fun _ _ => True)
    (Q : Nat → Pat → Prop) (hrcm : isSymm = true ∧ opts.reorder = 1 ∨ opts.reorder = 3 → OrderSpec ker.rcm Q)
    (hQ : ∀ r : Matched R, MatchedOK a n m0 Accs Acrs r → (∀ i, i < r.m → ∀ j, j < r.m → (j ∈ r.pat.inds.slice (r.pat.start.get i) (r.pat.start.get (i + 1)) ↔
          (r.p.p.get j ∈ ids Accs (r.q.p.get i) ∨ (isSymm = false ∧ opts.reorder = 3 ∧ r.q.p.get j ∈ ids Acrs (r.p.p.get i))))) →
      (isSymm = true → ∀ i, i < n → r.p.p.get i = r.q.p.get i) → isSymm = true ∨ opts.reorder = 3 → Q r.m r.pat) :
    Runs (doPreprocess a ker isSymm opts m0 level Accs Acrs) fun r => MatchedOK a n m0 Accs Acrs r ∧ BiPerm.Good n r.p ∧ BiPerm.Good n r.q ∧
      (isSymm = true → ∀ i, i < n → r.p.p.get i = r.q.p.get i ∧ r.s.get i = r.t.get i) := by
  unfold doPreprocess
  rw [if_neg (by omega)]
  simp only [runs_bind]
  refine (doMatching_runs ha isSymm opts level h hk hz hno).mono ?_
  rintro r ⟨hr, hpat, hpq, hst⟩
  have hle := h.mle
  have hmle := hr.mle
  split
  · rename_i hc
    obtain ⟨hpw, hpm⟩ := hpat hc
    have hsy : isSymm = true ∨ opts.reorder = 3 → Q r.m r.pat := fun hre => hQ r hr hpm hpq hre
    have hord : Runs (runOrdering ker isSymm opts.reorder m0 level r.m r.pat) fun P => r.m ≤ P.size ∧ Spec.IsPerm r.m P.get := by
      unfold runOrdering
      split
      · split
        · rename_i h0 h1
          exact hrcm (Or.inl ⟨h1.1, h0⟩) _ _ hpw (hsy (Or.inl h1.1))
        · exact hamd _ _ hpw trivial
      · split
        · exact hamd _ _ hpw trivial
        · rename_i h1 h2
          have h3 : opts.reorder = 3 := by have := hc.1; omega
          exact hrcm (Or.inr h3) _ _ hpw (hsy (Or.inr h3))
    simp only [runs_bind]
    refine hord.mono ?_
    rintro P ⟨P1, P2⟩
    refine (reorderFinalize_runs n r.m P r.p (by omega) P1 P2 hr.psz hr.pisz hr.pperm).mono ?_
    rintro p ⟨p1, p2, p3⟩
    refine (reorderFinalize_runs n r.m P r.q (by omega) P1 P2 hr.qsz hr.qisz hr.qperm).mono ?_
    rintro q ⟨q1, q2, q3⟩
    rw [runs_pure]
    refine ⟨⟨hr.mle, hr.ssz, hr.tsz, hr.spos, hr.tpos, p1.1, p1.2.1, q1.1, q1.2.1, BiPerm.inverse_isPerm p1.2.2,
      BiPerm.inverse_isPerm q1.2.2, ?_, ?_⟩, p1, q1, fun hsy i hi => ⟨?_, hst hsy i hi⟩⟩
    · intro i h1 h2
      simp only
      rw [p3 i (by omega) h2, q3 i (by omega) h2]
      exact hr.ptail i h1 h2
    · intro i hi
      simp only
      rcases Nat.lt_or_ge i r.m with hlt | hge
      · rw [p2 i hlt, q2 i hlt]
        have hP := P2.1 i hlt
        exact ⟨fun _ => (hr.good (P.get i) (by omega)).1 hP, fun _ => hlt⟩
      · rw [p3 i hge (by omega), q3 i hge (by omega)]
        exact hr.good i hi
    · simp only
      rcases Nat.lt_or_ge i r.m with hlt | hge
      · have := P2.1 i hlt
        rw [p2 i hlt, q2 i hlt, hpq hsy _ (by omega)]
      · rw [p3 i hge hi, q3 i hge hi, hpq hsy i hi]
  · simp only [runs_bind]
    refine (BiPerm.buildInv_runs n r.p hr.psz hr.pisz hr.pperm).mono ?_
    rintro p ⟨p1, p2⟩
    refine (BiPerm.buildInv_runs n r.q hr.qsz hr.qisz hr.qperm).mono ?_
    rintro q ⟨q1, q2⟩
    rw [runs_pure]
    refine ⟨⟨hr.mle, hr.ssz, hr.tsz, hr.spos, hr.tpos, p2.1, p2.2.1, q2.1, q2.2.1, by simp only [p1]; exact hr.pperm,
      by simp only [q1]; exact hr.qperm, ?_, ?_⟩, p2, q2, fun hsy i hi => ⟨by simp only [p1, q1]; exact hpq hsy i hi, hst hsy i hi⟩⟩
    · simp only [p1, q1]; exact hr.ptail
    · simp only [p1, q1]; exact hr.good

theorem doPreprocess_runs {a : Arith K R} (ha : ArithOK a) {ker : Kernels K R} (isSymm : Bool) (opts : Opts R)
    {n m0 : Nat} (level : Nat) {Accs Acrs : CS K} (h : PreIn n m0 Accs Acrs) (hk : ∀ B, matchInput Acrs m0 = .ok B → MatchFor a ker.mc64 B)
    (hre : 0 ≤ opts.reorder ∧ opts.reorder < 4)
    (hz : opts.preScale ≠ 0 → opts.preScale ≠ 1 → ∀ B, matchInput Acrs m0 = .ok B → NoZeroLine a.nrm isSymm B)
    (hno : isSymm = false → opts.reorder = 3 → m0 = n ∧ ∀ C, SameLayout Acrs C → ∀ i, i < n →
      Dominant a.nrm a.eps Accs Acrs (((ker.mc64 C).perm.get i).natAbs - 1) i)
    (hamd : OrderSpec ker.amd fun _ _ => True)
    (hrcm : OrderSpec ker.rcm PatSymm)
    (hsame : ∀ i, i < n → ∀ j, j < n → (i ∈ ids Accs j ↔ j ∈ ids Acrs i))
    (hsym : isSymm = true → ∀ i, i < m0 → ∀ j, j < m0 → i ∈ ids Accs j → j ∈ ids Accs i) :
    Runs (doPreprocess a ker isSymm opts m0 level Accs Acrs) fun r => MatchedOK a n m0 Accs Acrs r ∧ BiPerm.Good n r.p ∧ BiPerm.Good n r.q ∧
      (isSymm = true → ∀ i, i < n → r.p.p.get i = r.q.p.get i ∧ r.s.get i = r.t.get i) :=
  doPreprocess_runs_of ha isSymm opts level h hk hre hz hno hamd PatSymm (fun _ => hrcm)
    fun r hr hpm hpq hs => pat_symm hr h.mle isSymm opts.reorder hsame hsym hpm hpq hs

end drive

end Pre
end Hif
