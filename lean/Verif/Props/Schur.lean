import Verif.Has
import Verif.Examples

set_option linter.unusedSectionVars false

/-!
# C22, C23: the Schur complement, serial and threaded
-/

namespace Hif.Props
open Hif Finset Spec

/-- The Schur complement entry as the paper writes it: scaled and permuted `C` block minus `L_E D U_F`. -/
def schurEntry {K : Type} [CommRing K] (s : Nat → K) (A : Nat → Nat → K) (t : Nat → K) (p q : Nat → Nat) (m : Nat)
    (L : Nat → Nat → K) (d : Nat → K) (U : Nat → Nat → K) (i j : Nat) : K :=
  s (p (m + i)) * A (p (m + i)) (q (m + j)) * t (q (m + j)) - ∑ k ∈ range m, L i k * d k * U k j

/-- C22: for all arguments of matching shapes (`A` without duplicate indices in a row, `q` a permutation with stored inverse) the
kernel finishes without touching anything out of bounds and returns an `N × N` compressed matrix, `N = n - m`, with exactly sized
arrays and strictly sorted rows, whose entries are given by the formula. -/
theorem C22_schur_formula {K : Type} [CommRing K] (a : SchurIn K) (q : Nat → Nat) (h : a.OK q) (hm : a.m < a.A.psize)
    (junk : Nat → K) (ijunk : Nat → Nat) (nb : Nat) (hnb : a.A.psize - a.m ≤ nb) (buf : SV K) (hb : SV.Ready nb a.A.psize buf)
    (hv : a.A.psize - a.m ≤ buf.vals.size) :
    ∃ SC, a.compute junk ijunk buf = .ok SC ∧ SC.WF ∧ SC.Tight ∧ SC.psize = a.A.psize - a.m ∧ SC.ssize = a.A.psize - a.m ∧
      (∀ i, i < a.A.psize - a.m → (SC.inds.slice (SC.start.get i) (SC.start.get (i + 1))).Pairwise (· < ·)) ∧
      ∀ i j, i < a.A.psize - a.m → j < a.A.psize - a.m →
        SC.crs i j = schurEntry a.s.get a.A.crs a.t.get a.p.get q a.m a.L.crs a.d.get a.U.crs i j := by
  obtain ⟨SC, e, r⟩ := SchurIn.compute_runs h hm junk ijunk nb hnb buf hb hv
  exact ⟨SC, e, r.wf h, r.tight, r.psize, r.ssize, fun i hi => r.sorted hi, fun i j hi hj => by
    rw [r.entry h hi, SchurIn.val_eq h hi hj]; rfl⟩

/-- C22 (pattern): a position of the Schur complement is stored if and only if it is stored in the trailing block of the permuted matrix, or reached through a
stored entry of `L_E` and a stored entry of `U_F`; no entry is lost and none is invented, whatever the values. -/
theorem C22_schur_pattern {K : Type} [CommRing K] (a : SchurIn K) (q : Nat → Nat) (h : a.OK q) (hm : a.m < a.A.psize)
    (junk : Nat → K) (ijunk : Nat → Nat) (nb : Nat) (hnb : a.A.psize - a.m ≤ nb) (buf : SV K) (hb : SV.Ready nb a.A.psize buf)
    (hv : a.A.psize - a.m ≤ buf.vals.size) :
    ∃ SC, a.compute junk ijunk buf = .ok SC ∧ ∀ i j, i < a.A.psize - a.m → j < a.A.psize - a.m →
      (SC.Has i j ↔ (∃ c, a.L.Has i c ∧ a.U.Has c j) ∨ a.A.Has (a.p.get (a.m + i)) (q (a.m + j))) := by
  obtain ⟨SC, e, r⟩ := SchurIn.compute_runs h hm junk ijunk nb hnb buf hb hv
  refine ⟨SC, e, fun i j hi hj => ?_⟩
  rw [r.has h hi]
  refine or_congr_right ⟨?_, fun hh => ⟨_, hh, ?_, ?_⟩⟩
  · rintro ⟨y, h1, h2, rfl⟩
    have hy : y < a.A.psize := by rw [← h.sq]; exact h1.lt h.A_wf (h.pi_lt hi)
    rw [Nat.add_sub_cancel' h2, (h.q_inv.2 y hy).2]
    exact h1
  · rw [(h.q_inv.1 (a.m + j) (by omega)).2]; omega
  · rw [(h.q_inv.1 (a.m + j) (by omega)).2]; omega

/-- C22: nothing is left when the leading block is the whole matrix. -/
theorem C22_schur_empty {K : Type} [CommRing K] (a : SchurIn K) (hm : a.m = a.A.psize) (junk : Nat → K) (ijunk : Nat → Nat) (buf : SV K) :
    ∃ SC, a.compute junk ijunk buf = .ok SC ∧ SC.psize = 0 ∧ SC.ssize = 0 ∧ SC.inds.size = 0 := by
  unfold SchurIn.compute; rw [if_pos hm]; exact ⟨_, rfl, rfl, rfl, rfl⟩

theorem new_ready {K : Type} [Inhabited K] (n step : Nat) : SV.Ready n step (SV.new n : SV K) :=
  ⟨rfl, le_refl _, rfl, fun _ => rfl, fun i _ => ⟨by show (none : Option Nat) ≠ _; simp, fun t => by show (none : Option Nat) = _ → _; simp⟩⟩

theorem result_unique {K : Type} [CommRing K] {a : SchurIn K} {S S' : CS K} (h : a.Result S) (h' : a.Result S') :
    S'.psize = S.psize ∧ S'.ssize = S.ssize ∧ S'.start.toList = S.start.toList ∧ S'.inds.toList = S.inds.toList ∧
    S'.vals.toList = S.vals.toList := by
  refine ⟨by rw [h.psize, h'.psize], by rw [h.ssize, h'.ssize], ?_, ?_, ?_⟩
  · unfold Buf.toList
    rw [h.start_size, h'.start_size]
    refine List.map_congr_left fun i hi => ?_
    rw [List.mem_range] at hi
    rw [h.start i (by omega), h'.start i (by omega)]
  · unfold Buf.toList
    rw [h.inds_size, h'.inds_size]
    refine List.map_congr_left fun x hx => ?_
    rw [List.mem_range] at hx
    obtain ⟨i, k, hi, hk, rfl⟩ := SchurIn.off_find a a.N x hx
    rw [h.inds i hi k hk, h'.inds i hi k hk]
  · unfold Buf.toList
    rw [h.vals_size, h'.vals_size]
    refine List.map_congr_left fun x hx => ?_
    rw [List.mem_range] at hx
    obtain ⟨i, k, hi, hk, rfl⟩ := SchurIn.off_find a a.N x hx
    rw [h.vals i hi k hk, h'.vals i hi k hk]

/-- C23: for every number of threads and every schedule, every outcome of the threaded routine (with freshly constructed per-thread
buffers) is a matrix, never a failure, and its dimensions and its three arrays are element for element those of the serial routine. -/
theorem C23_threaded_eq_serial {K : Type} [CommRing K] [Inhabited K] (a : SchurIn K) (q : Nat → Nat) (h : a.OK q) (hm : a.m < a.A.psize)
    (junk junk' : Nat → K) (ijunk ijunk' : Nat → Nat) (nb : Nat) (hnb : a.A.psize - a.m ≤ nb) (buf : SV K) (hb : SV.Ready nb a.A.psize buf)
    (hv : a.A.psize - a.m ≤ buf.vals.size) (T : Nat) (hT : 0 < T) (r : M (CS K))
    (hr : a.Par T junk' ijunk' (fun _ => SV.new a.N) r) :
    ∃ SC S', a.compute junk ijunk buf = .ok SC ∧ r = .ok S' ∧ S'.psize = SC.psize ∧ S'.ssize = SC.ssize ∧
      S'.start.toList = SC.start.toList ∧ S'.inds.toList = SC.inds.toList ∧ S'.vals.toList = SC.vals.toList := by
  obtain ⟨SC, e, h1⟩ := SchurIn.compute_runs h hm junk ijunk nb hnb buf hb hv
  obtain ⟨S', e', h2⟩ := SchurIn.par_result h T hT junk' ijunk' (fun _ => SV.new a.N) (fun t _ => ⟨new_ready _ _, rfl⟩) r hr
  exact ⟨SC, S', e, e', result_unique h1 h2⟩

/-- C23: the threaded routine does finish: from every reachable intermediate state of a schedule some continuation completes both parts. -/
theorem C23_threaded_finishes {K : Type} [CommRing K] [Inhabited K] (a : SchurIn K) (q : Nat → Nat) (h : a.OK q)
    (junk : Nat → K) (ijunk : Nat → Nat) (T : Nat) (hT : 0 < T) : ∃ S, a.Par T junk ijunk (fun _ => SV.new a.N) (.ok S) := by
  obtain ⟨rs0, hrs0⟩ : ∃ rs0, (⟨a.N + 1, ijunk⟩ : Buf Nat).wr 0 0 = .ok rs0 := by
    unfold Buf.wr; rw [if_pos (show 0 < a.N + 1 by omega)]; exact ⟨_, rfl⟩
  have h0 := SchurIn.init_inv1 (T := T) (bufs := fun _ => SV.new a.N) (a := a) (ijunk := ijunk) (fun t _ => ⟨new_ready _ _, rfl⟩) rs0 hrs0
  obtain ⟨sched, st, e1, d1⟩ := SchurIn.finish1 h _ h0
  obtain ⟨rs, e2, hrs1, hrs2⟩ := (SchurIn.mid_runs h hT h0 e1 d1).1
  have hi1 := (SchurIn.mid_runs h hT h0 e1 d1).2
  have e3 : rs.rd a.N = .ok (a.off a.N) := by
    unfold Buf.rd; rw [if_pos (by omega), hrs2 _ (le_refl _)]; rfl
  by_cases hz : a.off a.N = 0
  · rw [hz] at e3
    exact ⟨_, .empty sched rs0 st rs hrs0 e1 d1 e2 e3⟩
  obtain ⟨-, hi2⟩ := SchurIn.init_inv2 (junk := junk) (ijunk := ijunk) hi1 d1 hrs2 e3
  obtain ⟨sched', st', e4, d2⟩ := SchurIn.finish2 h rs hrs1 hrs2 _ hi2
  exact ⟨_, .full sched sched' rs0 st rs _ st' hrs0 e1 d1 e2 e3 hz e4 d2⟩

/-! ### A concrete case: `n = 3`, `m = 1`, non-trivial permutations and scalings -/

/-- `A = [[1,2,0],[3,0,4],[0,5,6]]`, `p = (1,0,2)`, `q = (2,0,1)`, `L_E = [1;2]`, `U_F = [3 0]`. -/
def exSchur : SchurIn ℤ :=
  { s := Buf.ofList [1, 2, 1], A := Ex.mk 3 3 [0, 2, 4, 6] [0, 1, 0, 2, 1, 2] [1, 2, 3, 4, 5, 6], t := Buf.ofList [1, 1, 3],
    p := Buf.ofList [1, 0, 2], qinv := Buf.ofList [1, 2, 0], m := 1,
    L := Ex.mk 2 1 [0, 1, 2] [0, 0] [1, 2], d := Buf.ofList [5], U := Ex.mk 1 2 [0, 1] [0] [3] }

example : exSchur.OK (fun i => [2, 0, 1].getD i 0) := by
  constructor <;> first | decide | (constructor <;> decide)

example : (exSchur.compute (fun _ => 7) (fun _ => 9) (SV.new 3)).toOption.map (fun S => (S.start.toList, S.inds.toList, S.vals.toList)) =
    some ([0, 2, 4], [0, 1, 0, 1], [-14, 2, -30, 5]) := by decide +kernel

example : schurEntry exSchur.s.get exSchur.A.crs exSchur.t.get exSchur.p.get (fun i => [2, 0, 1].getD i 0) 1 exSchur.L.crs exSchur.d.get
    exSchur.U.crs 1 0 = -30 := by decide +kernel

/-- An interleaving of two threads with a preempted second thread. -/
example : ∃ st, exSchur.run1 2 [1, 0, 1] (exSchur.init1 2 (fun _ => SV.new 2) ⟨3, fun i => if i = 0 then 0 else 9⟩) = .ok st ∧ exSchur.done1 2 st ∧
    st.rs.toList = [0, 2, 2] := by
  refine ⟨_, rfl, ?_, ?_⟩
  · unfold SchurIn.done1; decide +kernel
  · decide +kernel

end Hif.Props
