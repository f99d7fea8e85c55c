import Verif.Extract
import Verif.Props.Struct

set_option linter.unusedSectionVars false
set_option linter.unusedVariables false

/-! # C61: the stored off-diagonal blocks -/

namespace Hif.Props
open Hif Finset Spec

/-- C61, `E`: for every matrix `A` stored by rows, scalings `s`, `t`, row ordering `p`, column ordering `q` (with stored inverse) and leading
block size `m`, the extraction works in bounds and returns a well-formed, exactly sized column-major `(n-m) × m` matrix with
`E_ij = s(p(m+i)) · A(p(m+i), q(j)) · t(q(j))`. -/
theorem C61_extract_E {K : Type _} [CommRing K] [Inhabited K] (A : CS K) (hA : A.WF) (s t : Buf K) (hs : A.psize ≤ s.size)
    (ht : A.ssize ≤ t.size) (m : Nat) (hm : m ≤ A.psize) (hm' : m ≤ A.ssize) (p qinv : Buf Nat) (q : Nat → Nat) (hp : A.psize ≤ p.size)
    (hpl : ∀ i, i < A.psize → p.get i < A.psize) (hqs : A.ssize ≤ qinv.size) (hq : Inverse A.ssize q qinv.get) :
    ∃ E, Extract.extractE s A t m p qinv = .ok E ∧ E.WF ∧ E.Tight ∧ E.psize = m ∧ E.ssize = A.psize - m ∧
      ∀ i j, i < A.psize - m → j < m → E.ccs i j = s.get (p.get (m + i)) * A.crs (p.get (m + i)) (q j) * t.get (q j) := by
  obtain ⟨E, e, h⟩ := Extract.extractE_runs hA hs ht hm hm' hp hpl hqs
  obtain ⟨w, tg⟩ := h.wf (Extract.eRows_wf _ _ _ _ _ _) (Extract.ofLines_tight _ _ _)
  exact ⟨E, e, w, tg, h.psize, h.ssize, fun i j hi hj => Extract.extractE_entry hA hm' hpl hq h hi hj⟩

/-- C61, `E`: sorted columns, whenever the rows of `A` are sorted and the column ordering is injective. -/
theorem C61_extract_E_sorted {K : Type _} [CommRing K] [Inhabited K] (A : CS K) (hA : A.WF) (hsrt : A.Sorted) (s t : Buf K)
    (hs : A.psize ≤ s.size) (ht : A.ssize ≤ t.size) (m : Nat) (hm : m ≤ A.psize) (hm' : m ≤ A.ssize) (p qinv : Buf Nat) (q : Nat → Nat)
    (hp : A.psize ≤ p.size) (hpl : ∀ i, i < A.psize → p.get i < A.psize) (hqs : A.ssize ≤ qinv.size) (hq : Inverse A.ssize q qinv.get) :
    ∃ E, Extract.extractE s A t m p qinv = .ok E ∧ E.Sorted := by
  have hinj : ∀ i j, i < A.ssize → j < A.ssize → qinv.get i = qinv.get j → i = j := fun i j hi hj e => by
    rw [← (hq.2 i hi).2, ← (hq.2 j hj).2, e]
  obtain ⟨E, e, h⟩ := Extract.extractE_runs hA hs ht hm hm' hp hpl hqs
  refine ⟨E, e, h.sorted_of_ne (Extract.eRows_wf _ _ _ _ _ _) (Extract.ofLines_tight _ _ _) fun i hi k l hk hl hkl => ?_⟩
  have hi' : i < A.psize - m := hi
  have hn : ((Extract.eLine s A t m p qinv i).map Prod.fst).Nodup :=
    Extract.pick_nodup hA hsrt m qinv.get (fun j v => s.get (p.get (m + i)) * v * t.get j) hinj (hpl (m + i) (by omega))
  have hk' : CS.off (fun i => (Extract.eLine s A t m p qinv i).length) i ≤ k ∧
      k < CS.off (fun i => (Extract.eLine s A t m p qinv i).length) i + (Extract.eLine s A t m p qinv i).length := hk
  have hl' : CS.off (fun i => (Extract.eLine s A t m p qinv i).length) i ≤ l ∧
      l < CS.off (fun i => (Extract.eLine s A t m p qinv i).length) i + (Extract.eLine s A t m p qinv i).length := hl
  obtain ⟨a, rfl⟩ := Nat.exists_eq_add_of_le hk'.1
  obtain ⟨b, rfl⟩ := Nat.exists_eq_add_of_le hl'.1
  have ha : a < (Extract.eLine s A t m p qinv i).length := by omega
  have hb : b < (Extract.eLine s A t m p qinv i).length := by omega
  have e1 := (Extract.ofLines_at (w := m) hi' ha).1
  have e2 := (Extract.ofLines_at (w := m) hi' hb).1
  show (Extract.ofLines (A.psize - m) m (Extract.eLine s A t m p qinv)).inds.get _ ≠
    (Extract.ofLines (A.psize - m) m (Extract.eLine s A t m p qinv)).inds.get _
  rw [e1, e2]
  intro he
  have := (List.Nodup.getElem_inj_iff (i := a) (j := b) (hi := by simpa using ha) (hj := by simpa using hb) hn).1 (by simpa using he)
  omega

/-- C61, `E`: its stored entries are exactly those of `A` in the block: as many, and at the corresponding places. -/
theorem C61_extract_E_pattern {K : Type _} [CommRing K] [Inhabited K] (A : CS K) (hA : A.WF) (s t : Buf K) (hs : A.psize ≤ s.size)
    (ht : A.ssize ≤ t.size) (m : Nat) (hm : m ≤ A.psize) (hm' : m ≤ A.ssize) (p qinv : Buf Nat) (hp : A.psize ≤ p.size)
    (hpl : ∀ i, i < A.psize → p.get i < A.psize) (hqs : A.ssize ≤ qinv.size) :
    ∃ E, Extract.extractE s A t m p qinv = .ok E ∧ E.inds.size = CS.off (fun i =>
      ((A.line (p.get (m + i))).filter fun e => qinv.get e.1 < m).length) (A.psize - m) := by
  obtain ⟨E, e, h⟩ := Extract.extractE_runs hA hs ht hm hm' hp hpl hqs
  refine ⟨E, e, h.inds_size.trans ?_⟩
  show CS.off _ _ = _
  refine CS.off_congr _ fun i _ => ?_
  simp [Extract.eLine, Extract.pick]

/-- C61, `F`: for every matrix stored by columns with sorted columns, the extraction works in bounds (whatever the contents of the work array)
and returns a well-formed, exactly sized, sorted column-major `m × (n-m)` matrix with
`F_ij = s(p(i)) · A(p(i), q(m+j)) · t(q(m+j))`, storing exactly the entries `A` has there. -/
theorem C61_extract_F {K : Type _} [CommRing K] [Inhabited K] (A : CS K) (hA : A.WF) (hsrt : A.Sorted) (s t : Buf K)
    (hs : A.ssize ≤ s.size) (ht : A.psize ≤ t.size) (m : Nat) (hm : m ≤ A.psize) (hm' : m ≤ A.ssize) (pinv q : Buf Nat) (p : Nat → Nat)
    (hq : A.psize ≤ q.size) (hql : ∀ i, i < A.psize → q.get i < A.psize) (hps : A.ssize ≤ pinv.size) (hp : Inverse A.ssize p pinv.get)
    (buf : Buf K) (hb : m ≤ buf.size) :
    ∃ F, Extract.extractF s A t m pinv q buf = .ok F ∧ F.WF ∧ F.Tight ∧ F.Sorted ∧ F.psize = A.psize - m ∧ F.ssize = m ∧
      (∀ i j, i < m → j < A.psize - m → F.ccs i j = s.get (p i) * A.ccs (p i) (q.get (m + j)) * t.get (q.get (m + j))) ∧
      ∀ j, j < A.psize - m → (F.line j).length = ((A.line (q.get (m + j))).filter fun e => pinv.get e.1 < m).length := by
  have hinj : ∀ i j, i < A.ssize → j < A.ssize → pinv.get i = pinv.get j → i = j := fun i j hi hj e => by
    rw [← (hp.2 i hi).2, ← (hp.2 j hj).2, e]
  obtain ⟨F, e, h⟩ := Extract.extractF_runs hA hsrt hs ht hm hm' hq hql hps hinj buf hb
  refine ⟨F, e, h.wf, h.tight, sorted_of_lines (fun i hi => h.sorted i (by rw [← h.psize]; exact hi)), h.psize, h.ssize,
    fun i j hi hj => Extract.extractF_entry hA hm' hql hp h hi hj, fun j hj => ?_⟩
  rw [(h.line j hj).length_eq]
  simp [Extract.fCol, Extract.pick, Nat.add_comm]

/-- C61: a leading block larger than the matrix is refused. -/
theorem C61_extract_errors {K : Type _} [CommRing K] [Inhabited K] (A : CS K) (s t : Buf K) (m : Nat) (h : A.psize < m ∨ A.ssize < m)
    (a b : Buf Nat) (buf : Buf K) :
    Extract.extractE s A t m a b = .error (.hif "leading block size should not exceed matrix size") ∧
    Extract.extractF s A t m a b buf = .error (.hif "leading block size should not exceed matrix size") := by
  unfold Extract.extractE Extract.extractF
  simp only
  rw [if_pos h, if_pos h]
  exact ⟨rfl, rfl⟩

/-- Non-vacuity: `[[1,2,3],[4,5,6],[0,8,9]]`, leading block of size 1, rows in the order 2,0,1 and columns in the order 1,2,0. -/
example : Inverse 3 (Buf.ofList [1, 2, 0]).get (Buf.ofList [2, 0, 1]).get ∧ Inverse 3 (Buf.ofList [2, 0, 1]).get (Buf.ofList [1, 2, 0]).get ∧
    ((Extract.extractE (Buf.ofList [1, 1, 10]) (Ex.mk (K := Int) 3 3 [0, 3, 6, 8] [0, 1, 2, 0, 1, 2, 1, 2] [1, 2, 3, 4, 5, 6, 8, 9])
      (Buf.ofList [1, 2, 3]) 1 (Buf.ofList [2, 0, 1]) (Buf.ofList [2, 0, 1])).map fun E => (E.start.toList, E.inds.toList, E.vals.toList)) =
      .ok ([0, 2], [0, 1], [4, 10]) ∧
    ((Extract.extractF (Buf.ofList [1, 1, 10]) (Ex.mk (K := Int) 3 3 [0, 2, 5, 8] [0, 1, 0, 1, 2, 0, 1, 2] [1, 4, 2, 5, 8, 3, 6, 9])
      (Buf.ofList [1, 2, 3]) 2 (Buf.ofList [1, 2, 0]) (Buf.ofList [1, 2, 0]) (Buf.ofList [0, 0])).map fun F =>
        (F.start.toList, F.inds.toList, F.vals.toList)) = .ok ([0, 1], [1], [1]) := by
  refine ⟨⟨by decide, by decide⟩, ⟨by decide, by decide⟩, by decide +kernel, by decide +kernel⟩

end Hif.Props
