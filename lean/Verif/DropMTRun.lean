import Verif.DropMT

set_option linter.unusedSectionVars false
set_option linter.unusedVariables false

/-!
# Threaded dropping: the invariant of the parallel region (proofs)
-/

namespace Hif
open Finset
namespace Drop
variable {K R : Type} [Field R] [LinearOrder R] [FloorSemiring R] [IsStrictOrderedRing R]

/-- Lines of `L_E` that are done. -/
def DL (n T : Nat) (pc : Nat → Nat) (j : Nat) : Prop := ∃ t, t < T ∧ (MT.uniformPartition n T t).1 ≤ j ∧ 2 * (j - (MT.uniformPartition n T t).1) < pc t

/-- Lines of `U_F` that are done. -/
def DU (n T : Nat) (pc : Nat → Nat) (j : Nat) : Prop := ∃ t, t < T ∧ (MT.uniformPartition n T t).1 ≤ j ∧ 2 * (j - (MT.uniformPartition n T t).1) + 1 < pc t

/-- Invariant of the region. -/
structure PInv (a : In K R) (T : Nat) (ibufL ibufU : Buf Nat) (tgtL tgtU : Nat → St K) (s : Sh K) : Prop where
  pcb : ∀ t, t < T → s.pc t ≤ 2 * ((MT.uniformPartition a.L.psize T t).2 - (MT.uniformPartition a.L.psize T t).1)
  bsz : ∀ t, t < T → a.L.ssize ≤ (s.bufs t).size
  phL : Ph a.refL a.alphaL a.L ibufL tgtL (DL a.L.psize T s.pc) s.gl s.li s.lv
  phU : Ph a.refU a.alphaU a.U ibufU tgtU (DU a.L.psize T s.pc) s.gu s.ui s.uv

/-- The two blocks fit together. -/
structure PairOK (a : In K R) (ibufL ibufU : Buf Nat) : Prop where
  l : BlockOK a.refL a.alphaL a.L ibufL
  u : BlockOK a.refU a.alphaU a.U ibufU
  np : a.U.psize = a.L.psize
  ns : a.U.ssize = a.L.ssize

theorem owner {n T t u i : Nat} (ht : t < T) (hu : u < T) (h1 : (MT.uniformPartition n T t).1 ≤ i) (h2 : i < (MT.uniformPartition n T t).2)
    (h3 : (MT.uniformPartition n T u).1 ≤ i) (h4 : i < (MT.uniformPartition n T u).2) : u = t := by
  obtain ⟨w, -, -, hw⟩ := MT.part_unique n T i (by omega) (lt_of_lt_of_le h2 (MT.part_bound n T t ht))
  rw [hw t ht h1 h2, hw u hu h3 h4]

theorem parStep_inv {nth : (Nat → R) → Nat → List Nat → List Nat} (hnth : SV.NthSpec nth) (hloc : NthLocal nth) {nrm : K → R} {a : In K R} {T : Nat} {ibufL ibufU : Buf Nat}
    (h : PairOK a ibufL ibufU) {tgtL tgtU : Nat → St K} (hl : Tgt nth nrm a.refL a.alphaL a.L tgtL) (hu : Tgt nth nrm a.refU a.alphaU a.U tgtU) {s : Sh K}
    (hs : PInv a T ibufL ibufU tgtL tgtU s) {t : Nat} (ht : t < T) :
    Runs (parStep nth nrm a T t s) fun s' => PInv a T ibufL ibufU tgtL tgtU s' ∧
      (s.pc t < 2 * ((MT.uniformPartition a.L.psize T t).2 - (MT.uniformPartition a.L.psize T t).1) → s'.pc = fun u => if u = t then s.pc t + 1 else s.pc u) := by
  unfold parStep
  dsimp only
  by_cases hlt : s.pc t < 2 * ((MT.uniformPartition a.L.psize T t).2 - (MT.uniformPartition a.L.psize T t).1)
  swap
  · rw [if_neg hlt]
    exact ⟨s, rfl, hs, fun h => absurd h hlt⟩
  rw [if_pos hlt]
  have hple := MT.part_le a.L.psize T t
  have hpb := MT.part_bound a.L.psize T t ht
  generalize hi : (MT.uniformPartition a.L.psize T t).1 + s.pc t / 2 = i at *
  have hiL : i < a.L.psize := by omega
  have hown : ∀ u, u < T → (MT.uniformPartition a.L.psize T u).1 ≤ i → i < (MT.uniformPartition a.L.psize T u).2 → u = t :=
    fun u hu' h3 h4 => owner ht hu' (by omega) (by omega) h3 h4
  by_cases he : s.pc t % 2 = 0
  · rw [if_pos he]
    have hD : ¬ DL a.L.psize T s.pc i := by
      rintro ⟨u, hu', h3, h4⟩
      have := hs.pcb u hu'
      have := hown u hu' h3 (by omega)
      subst this
      omega
    rw [runs_bind]
    refine (ph_step hnth hloc h.l hl hs.phL (s.bufs t) (hs.bsz t ht) hiL hD).mono ?_
    rintro r ⟨r1, r2⟩
    refine ⟨_, rfl, ⟨?_, ?_, ?_, ?_⟩, fun _ => rfl⟩
    · intro u hu'
      show (if u = t then s.pc t + 1 else s.pc u) ≤ _
      split
      · rename_i e; subst e; omega
      · exact hs.pcb u hu'
    · intro u hu'
      show _ ≤ (if u = t then r.buf else s.bufs u).size
      split
      · rw [r1]; exact hs.bsz t ht
      · exact hs.bsz u hu'
    · refine ph_congr r2 fun j hj => ⟨?_, ?_⟩
      · rintro (⟨u, hu', h3, h4⟩ | rfl)
        · refine ⟨u, hu', h3, ?_⟩
          show _ < (if u = t then s.pc t + 1 else s.pc u)
          split
          · rename_i e; subst e; omega
          · exact h4
        · refine ⟨t, ht, by omega, ?_⟩
          show _ < (if t = t then s.pc t + 1 else s.pc t)
          rw [if_pos rfl]; omega
      · rintro ⟨u, hu', h3, h4⟩
        have h4 : 2 * (j - (MT.uniformPartition a.L.psize T u).1) < (if u = t then s.pc t + 1 else s.pc u) := h4
        split at h4
        · rename_i e; subst e
          by_cases hj' : j = i
          · exact Or.inr hj'
          · exact Or.inl ⟨u, hu', h3, by omega⟩
        · exact Or.inl ⟨u, hu', h3, h4⟩
    · refine ph_congr hs.phU fun j hj => ⟨?_, ?_⟩
      · rintro ⟨u, hu', h3, h4⟩
        refine ⟨u, hu', h3, ?_⟩
        show _ < (if u = t then s.pc t + 1 else s.pc u)
        split
        · rename_i e; subst e; omega
        · exact h4
      · rintro ⟨u, hu', h3, h4⟩
        have h4 : 2 * (j - (MT.uniformPartition a.L.psize T u).1) + 1 < (if u = t then s.pc t + 1 else s.pc u) := h4
        refine ⟨u, hu', h3, ?_⟩
        split at h4
        · rename_i e; subst e; omega
        · exact h4
  · rw [if_neg he]
    have hD : ¬ DU a.L.psize T s.pc i := by
      rintro ⟨u, hu', h3, h4⟩
      have := hs.pcb u hu'
      have := hown u hu' h3 (by omega)
      subst this
      omega
    rw [runs_bind]
    refine (ph_step hnth hloc h.u hu hs.phU (s.bufs t) (by rw [h.ns]; exact hs.bsz t ht) (by rw [h.np]; exact hiL) hD).mono ?_
    rintro r ⟨r1, r2⟩
    refine ⟨_, rfl, ⟨?_, ?_, ?_, ?_⟩, fun _ => rfl⟩
    · intro u hu'
      show (if u = t then s.pc t + 1 else s.pc u) ≤ _
      split
      · rename_i e; subst e; omega
      · exact hs.pcb u hu'
    · intro u hu'
      show _ ≤ (if u = t then r.buf else s.bufs u).size
      split
      · rw [r1]; exact hs.bsz t ht
      · exact hs.bsz u hu'
    · refine ph_congr hs.phL fun j hj => ⟨?_, ?_⟩
      · rintro ⟨u, hu', h3, h4⟩
        refine ⟨u, hu', h3, ?_⟩
        show _ < (if u = t then s.pc t + 1 else s.pc u)
        split
        · rename_i e; subst e; omega
        · exact h4
      · rintro ⟨u, hu', h3, h4⟩
        have h4 : 2 * (j - (MT.uniformPartition a.L.psize T u).1) < (if u = t then s.pc t + 1 else s.pc u) := h4
        refine ⟨u, hu', h3, ?_⟩
        split at h4
        · rename_i e; subst e; omega
        · exact h4
    · refine ph_congr r2 fun j hj => ⟨?_, ?_⟩
      · rintro (⟨u, hu', h3, h4⟩ | rfl)
        · refine ⟨u, hu', h3, ?_⟩
          show _ < (if u = t then s.pc t + 1 else s.pc u)
          split
          · rename_i e; subst e; omega
          · exact h4
        · refine ⟨t, ht, by omega, ?_⟩
          show _ < (if t = t then s.pc t + 1 else s.pc t)
          rw [if_pos rfl]; omega
      · rintro ⟨u, hu', h3, h4⟩
        have h4 : 2 * (j - (MT.uniformPartition a.L.psize T u).1) + 1 < (if u = t then s.pc t + 1 else s.pc u) := h4
        split at h4
        · rename_i e; subst e
          by_cases hj' : j = i
          · exact Or.inr hj'
          · exact Or.inl ⟨u, hu', h3, by omega⟩
        · exact Or.inl ⟨u, hu', h3, h4⟩

theorem parRun_inv {nth : (Nat → R) → Nat → List Nat → List Nat} (hnth : SV.NthSpec nth) (hloc : NthLocal nth) {nrm : K → R} {a : In K R} {T : Nat} {ibufL ibufU : Buf Nat}
    (h : PairOK a ibufL ibufU) {tgtL tgtU : Nat → St K} (hl : Tgt nth nrm a.refL a.alphaL a.L tgtL) (hu : Tgt nth nrm a.refU a.alphaU a.U tgtU) :
    ∀ (sched : List Nat) (s : Sh K), PInv a T ibufL ibufU tgtL tgtU s → Runs (parRun nth nrm a T T sched s) (PInv a T ibufL ibufU tgtL tgtU)
  | [], s, hs => ⟨s, rfl, hs⟩
  | t :: ts, s, hs => by
    unfold parRun
    split
    · rename_i ht
      rw [runs_bind]
      exact (parStep_inv hnth hloc h hl hu hs ht).mono fun s' hs' => parRun_inv hnth hloc h hl hu ts s' hs'.1
    · exact parRun_inv hnth hloc h hl hu ts s hs

/-- Every state of the region can be completed. -/
theorem parRun_finish {nth : (Nat → R) → Nat → List Nat → List Nat} (hnth : SV.NthSpec nth) (hloc : NthLocal nth) {nrm : K → R} {a : In K R} {T : Nat} {ibufL ibufU : Buf Nat}
    (h : PairOK a ibufL ibufU) {tgtL tgtU : Nat → St K} (hl : Tgt nth nrm a.refL a.alphaL a.L tgtL) (hu : Tgt nth nrm a.refU a.alphaU a.U tgtU) :
    ∀ s : Sh K, PInv a T ibufL ibufU tgtL tgtU s → ∃ sched s', parRun nth nrm a T T sched s = .ok s' ∧ parDone a T T s' := by
  have gen : ∀ n (s : Sh K), PInv a T ibufL ibufU tgtL tgtU s →
      ∑ u ∈ range T, (2 * ((MT.uniformPartition a.L.psize T u).2 - (MT.uniformPartition a.L.psize T u).1) - s.pc u) = n →
      ∃ sched s', parRun nth nrm a T T sched s = .ok s' ∧ parDone a T T s' := by
    intro n
    induction n using Nat.strong_induction_on with
    | _ n ih =>
      intro s hs hn
      by_cases hd : parDone a T T s
      · exact ⟨[], s, rfl, hd⟩
      unfold parDone at hd
      push Not at hd
      obtain ⟨t, ht, hne⟩ := hd
      have hlt := lt_of_le_of_ne (hs.pcb t ht) hne
      obtain ⟨s1, e1, hs1, hpc⟩ := parStep_inv hnth hloc h hl hu hs ht
      obtain ⟨sched, s', e2, d2⟩ := ih _ (by
        rw [← hn, hpc hlt]
        exact SchurIn.sum_dec ht (fun u => 2 * ((MT.uniformPartition a.L.psize T u).2 - (MT.uniformPartition a.L.psize T u).1)) s.pc hlt) s1 hs1 rfl
      refine ⟨t :: sched, s', ?_, d2⟩
      unfold parRun
      rw [if_pos ht, e1]
      exact e2
  exact fun s hs => gen _ s hs rfl

theorem parInit_inv {a : In K R} {T : Nat} {ibufL ibufU : Buf Nat} (tgtL tgtU : Nat → St K) (bufL bufU : Buf K) (junk : Nat → Nat → K)
    (hbL : a.L.ssize ≤ bufL.size) (hbU : a.L.ssize ≤ bufU.size) : PInv a T ibufL ibufU tgtL tgtU (parInit a bufL bufU junk ibufL ibufU) := by
  refine ⟨fun t _ => Nat.zero_le _, fun t _ => ?_, ph_init tgtL ?_, ph_init tgtU ?_⟩
  · show _ ≤ (if t = 0 then bufL else if t = 1 then bufU else ⟨a.L.ssize, junk t⟩ : Buf K).size
    split
    · exact hbL
    · split
      · exact hbU
      · exact le_refl _
  · rintro j ⟨t, -, -, h⟩
    exact absurd h (Nat.not_lt_zero _)
  · rintro j ⟨t, -, -, h⟩
    exact absurd h (Nat.not_lt_zero _)

/-- At the barrier all lines are done. -/
theorem done_all {n T : Nat} (hT : 0 < T) {pc : Nat → Nat} (hd : ∀ t, t < T → pc t = 2 * ((MT.uniformPartition n T t).2 - (MT.uniformPartition n T t).1)) {j : Nat} (hj : j < n) :
    DL n T pc j ∧ DU n T pc j := by
  obtain ⟨t, ht, ⟨h1, h2⟩, -⟩ := MT.part_unique n T j hT hj
  have := hd t ht
  exact ⟨⟨t, ht, h1, by omega⟩, ⟨t, ht, h1, by omega⟩⟩

/-- The compressions after the barrier give what the serial kernel gives. -/
theorem par_eq_kernel {nth : (Nat → R) → Nat → List Nat → List Nat} (hnth : SV.NthSpec nth) (hloc : NthLocal nth) {nrm : K → R} {a : In K R} {T : Nat} (hT : 0 < T) {ibufL ibufU : Buf Nat}
    (h : PairOK a ibufL ibufU) {tgtL tgtU : Nat → St K} (hl : Tgt nth nrm a.refL a.alphaL a.L tgtL) (hu : Tgt nth nrm a.refU a.alphaU a.U tgtU) {s : Sh K}
    (hs : PInv a T ibufL ibufU tgtL tgtU s) (hd : parDone a T T s) (bufL bufU : Buf K) (hbL : a.L.ssize ≤ bufL.size) (hbU : a.L.ssize ≤ bufU.size) :
    compress a.L.psize a.L s.gl s.li s.lv = kernel nth nrm a.refL a.alphaL a.L bufL ibufL ∧
    compress a.L.psize a.U s.gu s.ui s.uv = kernel nth nrm a.refU a.alphaU a.U bufU ibufU := by
  obtain ⟨g, i, v, hp, e⟩ := kernel_eq hnth hloc h.l hl bufL hbL
  obtain ⟨g', i', v', hp', e'⟩ := kernel_eq hnth hloc h.u hu bufU (by rw [h.ns]; exact hbU)
  obtain ⟨rfl, rfl, rfl⟩ := ph_unique h.l.wf hs.phL hp (fun j hj => (done_all hT hd hj).1) (fun j hj => hj)
  obtain ⟨rfl, rfl, rfl⟩ := ph_unique h.u.wf hs.phU hp' (fun j hj => (done_all hT hd (by rw [← h.np]; exact hj)).2) (fun j hj => hj)
  exact ⟨e.symm, by rw [e', h.np]⟩

/-! ### a limiter of zero -/

/-- A line that must lose all its entries is an error. -/
theorem dropLine_zero {nth : (Nat → R) → Nat → List Nat → List Nat} {nrm : K → R} {ref : Buf Nat} {alpha : R} {start : Buf Nat} {i : Nat} {st r : St K}
    (ha : lim ref alpha i = 0) (h : start.get i < start.get (i + 1)) : dropLine nth nrm ref alpha start i st ≠ .ok r := by
  intro e
  have el : ⌈alpha * ((ref.get (i + 1) - ref.get i : Nat) : R)⌉₊ = lim ref alpha i := rfl
  have e : Runs (dropLine nth nrm ref alpha start i st) fun _ => True := ⟨r, e, trivial⟩
  unfold dropLine at e
  simp only [runs_bind, runs_rd, runs_ite, runs_wr, runs_pure, runs_throw] at e
  obtain ⟨-, -, -, -, e⟩ := e
  rw [el, ha, if_neg (by omega)] at e
  obtain ⟨-, b, -, hb⟩ := e
  simp at hb

end Drop
end Hif
