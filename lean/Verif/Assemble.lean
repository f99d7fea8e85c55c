import Verif.StructLemmas
import Mathlib.Algebra.Order.Field.Basic

set_option linter.unusedSectionVars false
set_option linter.unusedVariables false
set_option linter.unusedSimpArgs false

/-!
# Line-by-line assembly and pruning

Models of `_begin_assemble`, `_push_back_primary_empty`, `_push_back_primary` (one and two ranges),
`_end_assemble` (src/hif/ds/CompressedStorage.hpp 227–343) and `_prune` (lines 663–729).
-/

namespace Hif

namespace Buf
variable {α : Type _}
/-- `Array::push_back(v)` (src/hif/ds/Array.hpp 407–410); growing the capacity is not visible here. -/
def push (b : Buf α) (v : α) : Buf α := { size := b.size + 1, get := fun i => if i = b.size then v else b.get i }
/-- `Array::back()`. -/
def back (b : Buf α) : M α := if b.size = 0 then throw .oob else b.rd (b.size - 1)
/-- `Array::resize(n)` to a smaller size: contents kept (Array.hpp 346–352). -/
def shrink (b : Buf α) (n : Nat) : Buf α := { size := n, get := b.get }
end Buf

namespace CS
variable {K : Type _}

/-- `_begin_assemble` (227–233). -/
def beginAssemble [Inhabited K] (A : CS K) : CS K :=
  CS.mk A.psize A.ssize (Buf.mk' 1 0) (Buf.mk' 0 0) (Buf.mk' 0 default)

/-- `_push_back_primary_empty` (257–262). -/
def pushEmpty (A : CS K) : M (CS K) := do
  let b ← A.start.back
  pure { A with start := A.start.push b }

/-- `_indices.push_back(first, last)` followed by the value loop of `_push_back_primary` (279–291): each index of the list is
appended and its value fetched from the dense array `v`. -/
def pushRange (v : Buf K) : List Nat → Buf Nat × Buf K → M (Buf Nat × Buf K)
  | [], s => pure s
  | j :: l, s => do
    let x ← v.rd j
    pushRange v l (s.1.push j, s.2.push x)

/-- `_push_back_primary` with one range (271–296). -/
def pushLine (A : CS K) (l : List Nat) (v : Buf K) : M (CS K) := do
  let s ← pushRange v l (A.inds, A.vals)
  let b ← A.start.back
  pure { A with start := A.start.push (b + l.length), inds := s.1, vals := s.2 }

/-- `_push_back_primary` with two ranges (309–343).  The code appends both index ranges before the values of the first; the
arrays are independent, so the order is immaterial. -/
def pushLine2 (A : CS K) (l1 : List Nat) (v1 : Buf K) (l2 : List Nat) (v2 : Buf K) : M (CS K) := do
  let s ← pushRange v1 l1 (A.inds, A.vals)
  let s ← pushRange v2 l2 s
  let b ← A.start.back
  pure { A with start := A.start.push (b + l1.length + l2.length), inds := s.1, vals := s.2 }

/-- `_end_assemble` (237–255): the primary size becomes the number of pushed lines. -/
def endAssemble (A : CS K) : CS K :=
  if A.psize + 1 = A.start.size then A
  else if A.psize + 1 < A.start.size then { A with psize := if A.start.size ≠ 0 then A.start.size - 1 else 0 }
  else { A with psize := A.start.size - 1 }

/-- One assembly call. -/
inductive PushOp (K : Type _) where
  | empty
  | one (l : List Nat) (v : Buf K)
  | two (l1 : List Nat) (v1 : Buf K) (l2 : List Nat) (v2 : Buf K)

/-- Dispatch of one call. -/
def PushOp.run (A : CS K) : PushOp K → M (CS K)
  | .empty => A.pushEmpty
  | .one l v => A.pushLine l v
  | .two l1 v1 l2 v2 => A.pushLine2 l1 v1 l2 v2

/-- A sequence of assembly calls. -/
def pushAll : List (PushOp K) → CS K → M (CS K)
  | [], A => pure A
  | o :: l, A => o.run A >>= pushAll l

/-- Whole assembly session. -/
def assemble [Inhabited K] (ops : List (PushOp K)) (A : CS K) : M (CS K) := do
  let A ← pushAll ops A.beginAssemble
  pure A.endAssemble

/-! ### Pruning -/

variable {R : Type _} [Field R] [LinearOrder R]

/-- Column (orthogonal) thresholds, lines 680–683.  `nrm` is `std::abs`.  Position `n` of the buffer, which the code leaves
uninitialised and which a zero-based matrix never touches, is modelled as zero. -/
def pruneBuf (nrm : K → R) (A : CS K) (n nz : Nat) (eps : R) : M (Buf R) :=
  forUp 0 nz (Buf.mk' (n + 1) 0) fun i buf => do
    let j ← A.inds.rd i
    let b ← buf.rd j
    let v ← A.vals.rd i
    buf.wr j (eps * max b (nrm v))

/-- `abs(*max_element(first,last, |l|<|r|))` over positions `[lo,hi)`, `lo < hi` (lines 690–695). -/
def maxAbs (nrm : K → R) (vals : Buf K) (lo hi : Nat) : M R := do
  let v0 ← vals.rd lo
  forUp (lo + 1) hi (nrm v0) fun k m => do
    let v ← vals.rd k
    pure (if m < nrm v then nrm v else m)

/-- Loop state of the compression. -/
structure PruneSt (K : Type _) where
  pos : Nat
  j : Nat
  start : Buf Nat
  inds : Buf Nat
  vals : Buf K

/-- Sweep over one line `[s.pos,hi)`, compressing in place (lines 688–702). -/
def pruneSweep (nrm : K → R) (eps : R) (buf : Buf R) (hi : Nat) (s : PruneSt K) : M (PruneSt K) :=
  if hi - s.pos ≠ 0 then do
    let mx ← maxAbs nrm s.vals s.pos hi
    forUp s.pos hi s fun k (t : PruneSt K) => do
      let v ← t.vals.rd k
      let c ← t.inds.rd k
      let b ← buf.rd c
      if ¬ (nrm v ≤ min (eps * mx) b) then do
        let inds ← t.inds.wr t.j c
        let vals ← t.vals.wr t.j v
        pure { t with j := t.j + 1, inds := inds, vals := vals }
      else pure t
  else pure s

/-- Body of the line loop (lines 684–706). -/
def pruneLine (nrm : K → R) (eps : R) (buf : Buf R) (i : Nat) (s : PruneSt K) : M (PruneSt K) := do
  let hi ← s.start.rd (i + 1)
  let s' ← pruneSweep nrm eps buf hi s
  let st ← s'.start.rd i
  let start ← s'.start.wr (i + 1) (st + (s'.j - s.j))
  pure { s' with pos := hi, start := start }

/-- `_prune(n, eps, shrink)` (663–729), returning the number of eliminated entries and the new matrix.  Both the shrinking
and the non-shrinking branch leave arrays of length `nnz()` with the same contents. -/
def prune (nrm : K → R) (A : CS K) (eps : R) : M (Nat × CS K) :=
  if A.psize = 0 then pure (0, A)
  else do
    let eps := if eps < 0 then 0 else eps
    let nz ← A.start.rd A.psize
    let buf ← pruneBuf nrm A A.ssize nz eps
    let s ← forUp 0 A.psize (PruneSt.mk 0 0 A.start A.inds A.vals) (pruneLine nrm eps buf)
    let elms := nz - s.j
    let nnz ← s.start.rd A.psize
    if elms ≠ 0 then pure (elms, CS.mk A.psize A.ssize s.start (s.inds.shrink nnz) (s.vals.shrink nnz))
    else pure (elms, CS.mk A.psize A.ssize s.start s.inds s.vals)

/-! ### Proofs: assembly -/

/-- The line a call describes. -/
def PushOp.pairs : PushOp K → List (Nat × K)
  | .empty => []
  | .one l v => l.map fun j => (j, v.get j)
  | .two l1 v1 l2 v2 => (l1.map fun j => (j, v1.get j)) ++ l2.map fun j => (j, v2.get j)

/-- All indices of the call are inside its dense value arrays. -/
def PushOp.InRange : PushOp K → Prop
  | .empty => True
  | .one l v => ∀ j ∈ l, j < v.size
  | .two l1 v1 l2 v2 => (∀ j ∈ l1, j < v1.size) ∧ ∀ j ∈ l2, j < v2.size

theorem _root_.Hif.Buf.push_toList {α : Type _} (b : Buf α) (v : α) : (b.push v).toList = b.toList ++ [v] := by
  unfold Buf.toList Buf.push
  rw [List.range_succ, List.map_append]
  congr 1
  · refine List.map_congr_left fun k hk => ?_
    rw [List.mem_range] at hk
    simp only; rw [if_neg (by omega)]
  · simp

theorem pushRange_runs (v : Buf K) (l : List Nat) (hl : ∀ j ∈ l, j < v.size) (s : Buf Nat × Buf K)
    (hs : s.1.size = s.2.size) :
    Runs (pushRange v l s) fun r => r.1.size = s.1.size + l.length ∧ r.2.size = s.1.size + l.length ∧
      (∀ k, k < s.1.size → r.1.get k = s.1.get k ∧ r.2.get k = s.2.get k) ∧
      ∀ t (ht : t < l.length), r.1.get (s.1.size + t) = l[t] ∧ r.2.get (s.1.size + t) = v.get l[t] := by
  induction l generalizing s with
  | nil =>
    simp only [pushRange, runs_pure]
    exact ⟨rfl, hs.symm, fun _ _ => ⟨trivial, trivial⟩, fun t ht => by simp at ht⟩
  | cons j l ih =>
    simp only [pushRange, runs_bind, runs_rd]
    refine ⟨hl j (by simp), ?_⟩
    refine (ih (fun x hx => hl x (by simp [hx])) (s.1.push j, s.2.push (v.get j)) ?_).mono ?_
    · simp [Buf.push, hs]
    · rintro r ⟨r1, r2, r3, r4⟩
      simp only [Buf.push] at r1 r2 r3 r4
      refine ⟨by rw [r1]; simp; omega, by rw [r2]; simp; omega, fun k hk => ?_, fun t ht => ?_⟩
      · have := r3 k (by omega)
        rw [if_neg (by omega), if_neg (by omega)] at this
        exact this
      · cases t with
        | zero =>
          have := r3 s.1.size (by omega)
          rw [if_pos rfl, if_pos (by omega)] at this
          simpa using this
        | succ t =>
          have := r4 t (by simpa using ht)
          rw [show s.1.size + 1 + t = s.1.size + (t + 1) by omega] at this
          simpa using this

/-- Assembly invariant after pushing the lines `ls`. -/
structure AsmInv (A : CS K) (ls : List (List (Nat × K))) : Prop where
  ssz : A.start.size = ls.length + 1
  zero : A.start.get 0 = 0
  mono : ∀ i, i < ls.length → A.start.get i ≤ A.start.get (i + 1)
  isz : A.inds.size = A.start.get ls.length
  vsz : A.vals.size = A.start.get ls.length
  line : ∀ i (hi : i < ls.length), A.line i = ls[i]

theorem AsmInv.le {A : CS K} {ls : List (List (Nat × K))} (h : AsmInv A ls) {i j : Nat} (hij : i ≤ j) (hj : j ≤ ls.length) :
    A.start.get i ≤ A.start.get j := by
  induction j with
  | zero => rw [show i = 0 by omega]
  | succ j ih =>
    rcases Nat.lt_or_ge i (j + 1) with h1 | h1
    · exact le_trans (ih (by omega) (by omega)) (h.mono j (by omega))
    · rw [show i = j + 1 by omega]

/-- Appending a line of pairs `l`. -/
theorem AsmInv.snoc {A : CS K} {ls : List (List (Nat × K))} (h : AsmInv A ls) (l : List (Nat × K)) (oi : Buf Nat) (ov : Buf K)
    (h1 : oi.size = A.inds.size + l.length) (h2 : ov.size = A.inds.size + l.length)
    (h3 : ∀ k, k < A.inds.size → oi.get k = A.inds.get k ∧ ov.get k = A.vals.get k)
    (h4 : ∀ t (ht : t < l.length), oi.get (A.inds.size + t) = l[t].1 ∧ ov.get (A.inds.size + t) = l[t].2) :
    AsmInv (CS.mk A.psize A.ssize (A.start.push (A.start.get ls.length + l.length)) oi ov) (ls ++ [l]) := by
  have hs := h.ssz
  have hi := h.isz
  refine ⟨?_, ?_, ?_, ?_, ?_, ?_⟩
  · simp [Buf.push, hs]
  · simp only [Buf.push]; rw [if_neg (by omega)]; exact h.zero
  · intro i hil
    simp only [List.length_append, List.length_singleton] at hil
    simp only [Buf.push]
    rw [if_neg (by omega)]
    by_cases e : i = ls.length
    · subst e; rw [if_pos hs.symm]; omega
    · rw [if_neg (by omega)]; exact h.mono i (by omega)
  · simp only [Buf.push, List.length_append, List.length_singleton]; rw [if_pos hs.symm]; omega
  · simp only [Buf.push, List.length_append, List.length_singleton]; rw [if_pos hs.symm]; omega
  · intro i hil
    simp only [List.length_append, List.length_singleton] at hil
    unfold CS.line seg
    simp only [Buf.push]
    rw [if_neg (show ¬ i = A.start.size by omega)]
    by_cases e : i = ls.length
    · subst e
      rw [if_pos hs.symm, List.getElem_concat_length rfl]
      rw [Nat.add_sub_cancel_left]
      refine List.ext_getElem (by simp) fun t t1 t2 => ?_
      have := h4 t t2
      rw [hi] at this
      simp [this]
    · rw [if_neg (by omega), List.getElem_append_left (by omega), ← h.line i (by omega)]
      unfold CS.line seg
      refine List.map_congr_left fun k hk => ?_
      rw [List.mem_range'_1] at hk
      have hb := h.le (show i + 1 ≤ ls.length by omega) (le_refl _)
      have hm := h.mono i (by omega)
      have := h3 k (by omega)
      rw [this.1, this.2]

theorem PushOp.run_runs {A : CS K} {ls : List (List (Nat × K))} (h : AsmInv A ls) (o : PushOp K) (ho : o.InRange) :
    Runs (o.run A) fun B => AsmInv B (ls ++ [o.pairs]) ∧ B.psize = A.psize ∧ B.ssize = A.ssize := by
  have hs := h.ssz
  have hback : A.start.back = .ok (A.start.get ls.length) := by
    unfold Buf.back Buf.rd
    rw [if_neg (by omega), if_pos (by omega), hs]; rfl
  have hiv : A.inds.size = A.vals.size := by rw [h.isz, h.vsz]
  cases o with
  | empty =>
    simp only [PushOp.run, pushEmpty, runs_bind, hback, runs_ok, runs_pure]
    refine ⟨?_, trivial, trivial⟩
    exact h.snoc [] A.inds A.vals (by simp) (by simp [hiv]) (fun _ _ => ⟨rfl, rfl⟩) (fun t ht => by simp at ht)
  | one l v =>
    simp only [PushOp.run, pushLine, runs_bind]
    refine (pushRange_runs v l ho (A.inds, A.vals) hiv).mono ?_
    rintro r ⟨r1, r2, r3, r4⟩
    simp only [hback, runs_ok, runs_pure]
    refine ⟨?_, trivial, trivial⟩
    have := h.snoc (PushOp.one l v).pairs r.1 r.2 (by simpa [PushOp.pairs] using r1) (by simpa [PushOp.pairs] using r2)
      r3 (fun t ht => by
        simp only [PushOp.pairs, List.length_map] at ht
        simpa [PushOp.pairs] using r4 t ht)
    simpa [PushOp.pairs] using this
  | two l1 v1 l2 v2 =>
    simp only [PushOp.run, pushLine2, runs_bind]
    refine (pushRange_runs v1 l1 ho.1 (A.inds, A.vals) hiv).mono ?_
    rintro r ⟨r1, r2, r3, r4⟩
    refine (pushRange_runs v2 l2 ho.2 r (by rw [r1, r2])).mono ?_
    rintro q ⟨q1, q2, q3, q4⟩
    simp only [hback, runs_ok, runs_pure]
    refine ⟨?_, trivial, trivial⟩
    simp only at r1 r2 r3 r4
    have := h.snoc (PushOp.two l1 v1 l2 v2).pairs q.1 q.2 (by simp [PushOp.pairs]; omega) (by simp [PushOp.pairs]; omega)
      (fun k hk => by
        have a := q3 k (by omega)
        have b := r3 k hk
        exact ⟨by rw [a.1, b.1], by rw [a.2, b.2]⟩)
      (fun t ht => by
        simp only [PushOp.pairs, List.length_map, List.length_append] at ht
        rcases Nat.lt_or_ge t l1.length with h' | h'
        · have a := q3 (A.inds.size + t) (by omega)
          have b := r4 t h'
          simp only [PushOp.pairs]
          rw [List.getElem_append_left (by simpa using h')]
          rw [a.1, a.2, b.1, b.2]
          simp
        · have a := q4 (t - l1.length) (by omega)
          rw [r1, show A.inds.size + l1.length + (t - l1.length) = A.inds.size + t by omega] at a
          simp only [PushOp.pairs]
          rw [List.getElem_append_right (by simpa using h')]
          rw [a.1, a.2]
          simp)
    simpa [PushOp.pairs, Nat.add_assoc] using this

theorem pushAll_runs (ops : List (PushOp K)) (ho : ∀ o ∈ ops, o.InRange) :
    ∀ {A : CS K} {ls : List (List (Nat × K))}, AsmInv A ls →
    Runs (pushAll ops A) fun B => AsmInv B (ls ++ ops.map PushOp.pairs) ∧ B.psize = A.psize ∧ B.ssize = A.ssize := by
  induction ops with
  | nil => intro A ls h; simp only [pushAll, runs_pure, List.map_nil, List.append_nil]; exact ⟨h, trivial, trivial⟩
  | cons o ops ih =>
    intro A ls h
    simp only [pushAll, runs_bind]
    refine (PushOp.run_runs h o (ho o (by simp))).mono ?_
    rintro B ⟨b1, b2, b3⟩
    refine (ih (fun x hx => ho x (by simp [hx])) b1).mono ?_
    rintro C ⟨c1, c2, c3⟩
    refine ⟨?_, by rw [c2, b2], by rw [c3, b3]⟩
    simpa using c1

theorem assemble_runs [Inhabited K] (ops : List (PushOp K)) (ho : ∀ o ∈ ops, o.InRange) (A : CS K) :
    Runs (assemble ops A) fun B => AsmInv B (ops.map PushOp.pairs) ∧ B.psize = ops.length ∧ B.ssize = A.ssize := by
  unfold assemble
  simp only [runs_bind, runs_pure]
  have h0 : AsmInv A.beginAssemble ([] : List (List (Nat × K))) :=
    ⟨rfl, rfl, fun i hi => by simp at hi, rfl, rfl, fun i hi => by simp at hi⟩
  refine (pushAll_runs ops ho h0).mono ?_
  rintro B ⟨b1, b2, b3⟩
  rw [List.nil_append] at b1
  have hs := b1.ssz
  rw [List.length_map] at hs
  have key : ∀ C : CS K, C.start = B.start → C.inds = B.inds → C.vals = B.vals → AsmInv C (ops.map PushOp.pairs) := by
    intro C c1 c2 c3
    have hl : ∀ i, C.line i = B.line i := fun i => by unfold line seg; rw [c1, c2, c3]
    exact ⟨by rw [c1]; exact b1.ssz, by rw [c1]; exact b1.zero, by rw [c1]; exact b1.mono, by rw [c1, c2]; exact b1.isz,
      by rw [c1, c3]; exact b1.vsz, fun i hi => by rw [hl]; exact b1.line i hi⟩
  unfold endAssemble
  split
  · exact ⟨b1, by omega, b3⟩
  · split
    · refine ⟨key _ rfl rfl rfl, ?_, b3⟩
      simp only; rw [if_pos (by omega)]; omega
    · exact ⟨key _ rfl rfl rfl, by simp only; omega, b3⟩

/-! ### Proofs: pruning -/

section prune
variable [IsStrictOrderedRing R]

theorem maxAbs_runs (nrm : K → R) (vals : Buf K) (lo hi : Nat) (h : lo < hi) (h2 : hi ≤ vals.size) :
    Runs (maxAbs nrm vals lo hi) fun m => (∃ k, lo ≤ k ∧ k < hi ∧ m = nrm (vals.get k)) ∧
      ∀ k, lo ≤ k → k < hi → nrm (vals.get k) ≤ m := by
  unfold maxAbs
  simp only [runs_bind, runs_rd]
  refine ⟨by omega, ?_⟩
  refine forUp_runs' (fun t m => (∃ k, lo ≤ k ∧ k < t ∧ m = nrm (vals.get k)) ∧
      ∀ k, lo ≤ k → k < t → nrm (vals.get k) ≤ m) (by omega) ?_ ?_ (fun _ h => h)
  · exact ⟨⟨lo, le_refl _, by omega, rfl⟩, fun k h1 h2 => by rw [show k = lo by omega]⟩
  · rintro k m h1 h3 ⟨⟨l, l1, l2, l3⟩, m2⟩
    simp only [runs_bind, runs_rd, runs_pure]
    refine ⟨by omega, ?_⟩
    split
    · rename_i hlt
      refine ⟨⟨k, by omega, by omega, rfl⟩, fun q q1 q2 => ?_⟩
      rcases Nat.lt_or_ge q k with h4 | h4
      · exact le_trans (m2 q q1 h4) (le_of_lt hlt)
      · rw [show q = k by omega]
    · rename_i hlt
      refine ⟨⟨l, l1, by omega, l3⟩, fun q q1 q2 => ?_⟩
      rcases Nat.lt_or_ge q k with h4 | h4
      · exact m2 q q1 h4
      · rw [show q = k by omega]; exact not_lt.1 hlt

theorem pruneBuf_runs (nrm : K → R) (A : CS K) (n nz : Nat) (eps : R) (h0 : 0 ≤ eps) (h1 : eps ≤ 1)
    (hn : ∀ v, 0 ≤ nrm v) (hi : nz ≤ A.inds.size) (hv : nz ≤ A.vals.size) (hb : ∀ k, k < nz → A.inds.get k < n) :
    Runs (pruneBuf nrm A n nz eps) fun buf => buf.size = n + 1 ∧ ∀ j, 0 ≤ buf.get j ∧
      (buf.get j = 0 ∨ ∃ k, k < nz ∧ A.inds.get k = j ∧ buf.get j ≤ eps * nrm (A.vals.get k)) := by
  unfold pruneBuf
  refine forUp_runs' (fun i (buf : Buf R) => buf.size = n + 1 ∧ ∀ j, 0 ≤ buf.get j ∧
      (buf.get j = 0 ∨ ∃ k, k < i ∧ A.inds.get k = j ∧ buf.get j ≤ eps * nrm (A.vals.get k)))
    (Nat.zero_le _) ⟨rfl, fun j => ⟨le_refl _, Or.inl rfl⟩⟩ ?_ (fun _ h => h)
  rintro i buf - hin ⟨b1, b2⟩
  have := hb i hin
  simp only [runs_bind, runs_rd, runs_wr, Buf.set_size, Buf.set_get]
  refine ⟨by omega, by omega, by omega, by omega, b1, fun j => ?_⟩
  by_cases e : j = A.inds.get i
  · subst e
    rw [if_pos rfl]
    have hb0 := (b2 (A.inds.get i)).1
    have hmx : 0 ≤ max (buf.get (A.inds.get i)) (nrm (A.vals.get i)) := le_trans hb0 (le_max_left _ _)
    refine ⟨mul_nonneg h0 hmx, Or.inr ?_⟩
    rcases le_total (buf.get (A.inds.get i)) (nrm (A.vals.get i)) with hc | hc
    · exact ⟨i, by omega, rfl, by rw [max_eq_right hc]⟩
    · rw [max_eq_left hc]
      rcases (b2 (A.inds.get i)).2 with h3 | ⟨k, k1, k2, k3⟩
      · exact ⟨i, by omega, rfl, by rw [h3, mul_zero]; exact mul_nonneg h0 (hn _)⟩
      · exact ⟨k, by omega, k2, le_trans (mul_le_of_le_one_left hb0 h1) k3⟩
  · rw [if_neg e]
    refine ⟨(b2 j).1, (b2 j).2.imp id ?_⟩
    rintro ⟨k, k1, k2, k3⟩
    exact ⟨k, by omega, k2, k3⟩

/-- The test of line 700 for an entry. -/
def pruneKeep (nrm : K → R) (thres : R) (buf : Nat → R) (e : Nat × K) : Bool := !decide (nrm e.2 ≤ min thres (buf e.1))

theorem pruneLoop_runs (nrm : K → R) {A : CS K} (h : A.WF) (thres : R) (buf : Buf R) (hbuf : buf.size = A.ssize + 1)
    {i : Nat} (hi : i < A.psize) (s : PruneSt K) (hp : s.pos = A.start.get i) (hj : s.j ≤ s.pos)
    (h1 : s.inds.size = A.inds.size) (h2 : s.vals.size = A.vals.size)
    (h3 : ∀ k, s.pos ≤ k → s.inds.get k = A.inds.get k ∧ s.vals.get k = A.vals.get k) :
    Runs (forUp s.pos (A.start.get (i + 1)) s fun k (t : PruneSt K) => do
        let v ← t.vals.rd k
        let c ← t.inds.rd k
        let b ← buf.rd c
        if ¬ (nrm v ≤ min thres b) then do
          let inds ← t.inds.wr t.j c
          let vals ← t.vals.wr t.j v
          pure { t with j := t.j + 1, inds := inds, vals := vals }
        else pure t) fun t => t.start = s.start ∧ s.j ≤ t.j ∧ t.j ≤ A.start.get (i + 1) ∧
      t.inds.size = A.inds.size ∧ t.vals.size = A.vals.size ∧
      (∀ k, A.start.get (i + 1) ≤ k → t.inds.get k = A.inds.get k ∧ t.vals.get k = A.vals.get k) ∧
      (∀ k, k < s.j → t.inds.get k = s.inds.get k ∧ t.vals.get k = s.vals.get k) ∧
      (CS.mk A.psize A.ssize t.start t.inds t.vals).seg s.j t.j = (A.line i).filter (pruneKeep nrm thres buf.get) := by
  have hm := h.mono i hi
  refine forUp_runs' (fun k (t : PruneSt K) => t.start = s.start ∧ s.j ≤ t.j ∧ t.j ≤ k ∧
      t.inds.size = A.inds.size ∧ t.vals.size = A.vals.size ∧
      (∀ l, k ≤ l → t.inds.get l = A.inds.get l ∧ t.vals.get l = A.vals.get l) ∧
      (∀ l, l < s.j → t.inds.get l = s.inds.get l ∧ t.vals.get l = s.vals.get l) ∧
      (CS.mk A.psize A.ssize t.start t.inds t.vals).seg s.j t.j =
        (A.seg (A.start.get i) k).filter (pruneKeep nrm thres buf.get))
    (by omega) ?_ ?_ (fun _ h => h)
  · refine ⟨rfl, le_refl _, hj, h1, h2, h3, fun _ _ => ⟨rfl, rfl⟩, ?_⟩
    rw [seg_empty _ (le_refl _), A.seg_empty (by omega)]; rfl
  · rintro k t k1 k2 ⟨t1, t2, t3, t4, t5, t6, t7, t8⟩
    have hli := h.line_inds hi k2
    have hlv := h.line_vals hi k2
    have hlt := h.line_lt hi k2
    have hk := t6 k (le_refl _)
    simp only [runs_bind, runs_rd, hk.1, hk.2]
    refine ⟨by omega, by omega, by omega, ?_⟩
    rw [A.seg_succ (by omega), List.filter_append]
    simp only [runs_ite]
    split
    · rename_i hc
      simp only [runs_bind, runs_wr, runs_pure, Buf.set_size, Buf.set_get]
      refine ⟨by omega, by omega, t1, by omega, by omega, t4, t5, fun l hl => ?_, fun l hl => ?_, ?_⟩
      · rw [if_neg (by omega), if_neg (by omega)]; exact t6 l (by omega)
      · rw [if_neg (by omega), if_neg (by omega)]; exact t7 l hl
      · have hf : ([(A.inds.get k, A.vals.get k)] : List (Nat × K)).filter (pruneKeep nrm thres buf.get) =
            [(A.inds.get k, A.vals.get k)] := by simp [pruneKeep, hc]
        rw [hf, seg_succ _ t2, ← t8]
        simp only [Buf.set_get, if_true]
        congr 1
        unfold seg
        refine List.map_congr_left fun l hl => ?_
        rw [List.mem_range'_1] at hl
        simp only [Buf.set_get]
        rw [if_neg (by omega), if_neg (by omega)]
    · rename_i hc
      rw [runs_pure]
      have hf : ([(A.inds.get k, A.vals.get k)] : List (Nat × K)).filter (pruneKeep nrm thres buf.get) = [] := by
        simp [pruneKeep, not_not.1 hc]
      refine ⟨t1, t2, by omega, t4, t5, fun l hl => t6 l (by omega), t7, ?_⟩
      rw [hf, List.append_nil]; exact t8

theorem prune_runs (nrm : K → R) (hn : ∀ v, 0 ≤ nrm v) {A : CS K} (h : A.WF) (eps : R) (h1 : eps ≤ 1) :
    Runs (A.prune nrm eps) fun r => r.2.WF ∧ r.2.psize = A.psize ∧ r.2.ssize = A.ssize ∧
      r.1 + r.2.start.get A.psize = A.start.get A.psize ∧
      ∃ keep : Nat → Nat × K → Bool, ∀ i, i < A.psize → r.2.line i = (A.line i).filter (keep i) ∧
        ∀ e ∈ A.line i, (keep i e = false →
          (∃ f ∈ A.line i, nrm e.2 ≤ max eps 0 * nrm f.2) ∧
          (∃ l, l < A.psize ∧ ∃ f ∈ A.line l, f.1 = e.1 ∧ nrm e.2 ≤ max eps 0 * nrm f.2)) ∧
          (nrm e.2 = 0 → keep i e = false) := by
  unfold prune
  by_cases hp : A.psize = 0
  · rw [if_pos hp, runs_pure]
    exact ⟨h, rfl, rfl, by simp, fun _ _ => true, fun i hi => by omega⟩
  rw [if_neg hp]
  set ep := if eps < 0 then 0 else eps with hep
  have hep' : max eps 0 = ep := by
    rw [hep]; split
    · rename_i h'; exact max_eq_right (le_of_lt h')
    · rename_i h'; exact max_eq_left (not_lt.1 h')
  have he0 : 0 ≤ ep := by rw [← hep']; exact le_max_right _ _
  have he1 : ep ≤ 1 := by rw [← hep']; exact max_le h1 zero_le_one
  have hss := h.start_size
  have hni := h.nnz_inds
  have hnv := h.nnz_vals
  simp only [runs_bind, runs_rd]
  refine ⟨by omega, ?_⟩
  refine (pruneBuf_runs nrm A A.ssize (A.start.get A.psize) ep he0 he1 hn hni hnv h.inds_lt).mono ?_
  rintro buf ⟨b1, b2⟩
  -- thresholds of the lines
  have hth : ∀ i, i < A.psize → ∃ m, A.start.get i < A.start.get (i + 1) →
      maxAbs nrm A.vals (A.start.get i) (A.start.get (i + 1)) = .ok m ∧
      (∃ k, A.start.get i ≤ k ∧ k < A.start.get (i + 1) ∧ m = nrm (A.vals.get k)) := by
    intro i hi
    by_cases hl : A.start.get i < A.start.get (i + 1)
    · obtain ⟨m, m1, m2, -⟩ := maxAbs_runs nrm A.vals _ _ hl (le_trans (h.start_mono (show i + 1 ≤ A.psize by omega) (le_refl _)) hnv)
      exact ⟨m, fun _ => ⟨m1, m2⟩⟩
    · exact ⟨0, fun h' => absurd h' hl⟩
  obtain ⟨mx, hmx⟩ : ∃ mx : Nat → R, ∀ i, i < A.psize → A.start.get i < A.start.get (i + 1) →
      maxAbs nrm A.vals (A.start.get i) (A.start.get (i + 1)) = .ok (mx i) ∧
      (∃ k, A.start.get i ≤ k ∧ k < A.start.get (i + 1) ∧ mx i = nrm (A.vals.get k)) := by
    refine ⟨fun i => if hi : i < A.psize then (hth i hi).choose else 0, fun i hi hl => ?_⟩
    simp only [hi, dif_pos]
    exact (hth i hi).choose_spec hl
  have hkeep : ∀ i, i < A.psize → ∀ e ∈ A.line i, (pruneKeep nrm (ep * mx i) buf.get e = false →
          (∃ f ∈ A.line i, nrm e.2 ≤ max eps 0 * nrm f.2) ∧
          (∃ l, l < A.psize ∧ ∃ f ∈ A.line l, f.1 = e.1 ∧ nrm e.2 ≤ max eps 0 * nrm f.2)) ∧
          (nrm e.2 = 0 → pruneKeep nrm (ep * mx i) buf.get e = false) := by
    intro i hi e he
    obtain ⟨k, k1, k2, rfl⟩ := mem_seg.1 he
    obtain ⟨-, q, q1, q2, q3⟩ := hmx i hi (by omega)
    have hmn : 0 ≤ ep * mx i := by rw [q3]; exact mul_nonneg he0 (hn _)
    constructor
    · intro hf
      simp only [pruneKeep, Bool.not_eq_false', decide_eq_true_eq, le_min_iff] at hf
      rw [hep']
      refine ⟨⟨_, mem_seg.2 ⟨q, q1, q2, rfl⟩, by simp only; rw [← q3]; exact hf.1⟩, ?_⟩
      rcases (b2 (A.inds.get k)).2 with h3 | ⟨l, l1, l2, l3⟩
      · refine ⟨i, hi, _, he, rfl, ?_⟩
        have : nrm (A.vals.get k) ≤ 0 := by rw [← h3]; exact hf.2
        exact le_trans this (mul_nonneg he0 (hn _))
      · have hex : ∀ j, j ≤ A.psize → l < A.start.get j → ∃ i, i < j ∧ A.start.get i ≤ l ∧ l < A.start.get (i + 1) := by
          intro j
          induction j with
          | zero => intro _ h'; rw [h.start_zero] at h'; omega
          | succ j ih =>
            intro hj h'
            rcases Nat.lt_or_ge l (A.start.get j) with h4 | h4
            · obtain ⟨i, i1, i2⟩ := ih (by omega) h4
              exact ⟨i, by omega, i2⟩
            · exact ⟨j, by omega, h4, h'⟩
        obtain ⟨i', j1, j2, j3⟩ := hex A.psize (le_refl _) l1
        exact ⟨i', j1, _, mem_seg.2 ⟨l, j2, j3, rfl⟩, l2, le_trans hf.2 l3⟩
    · intro hz
      simp only [pruneKeep, Bool.not_eq_false', decide_eq_true_eq, le_min_iff]
      simp only at hz
      rw [hz]
      exact ⟨hmn, (b2 _).1⟩
  refine forUp_runs' (fun i (s : PruneSt K) => s.pos = A.start.get i ∧ s.j ≤ s.pos ∧ s.start.size = A.start.size ∧
      s.inds.size = A.inds.size ∧ s.vals.size = A.vals.size ∧
      (∀ k, s.pos ≤ k → s.inds.get k = A.inds.get k ∧ s.vals.get k = A.vals.get k) ∧
      (∀ k, i < k → s.start.get k = A.start.get k) ∧ s.start.get i = s.j ∧ s.start.get 0 = 0 ∧
      (∀ l, l < i → s.start.get l ≤ s.start.get (l + 1)) ∧ (∀ l, l ≤ i → s.start.get l ≤ s.j) ∧
      ∀ l, l < i → (CS.mk A.psize A.ssize s.start s.inds s.vals).seg (s.start.get l) (s.start.get (l + 1)) =
        (A.line l).filter (pruneKeep nrm (ep * mx l) buf.get)) (Nat.zero_le _) ?_ ?_ ?_
  · refine ⟨h.start_zero.symm, le_refl _, rfl, rfl, rfl, fun _ _ => ⟨rfl, rfl⟩, fun _ _ => rfl, h.start_zero,
      h.start_zero, fun l hl => by omega, fun l hl => ?_, fun l hl => by omega⟩
    rw [show l = 0 by omega]; exact le_of_eq h.start_zero
  · rintro i s - hi ⟨s1, s2, s3, s4, s5, s6, s7, s8, s9, s10, s11, s12⟩
    have hm := h.mono i hi
    have hnx := s7 (i + 1) (by omega)
    unfold pruneLine
    simp only [runs_bind, runs_rd, hnx]
    refine ⟨by omega, ?_⟩
    have core : Runs (pruneSweep nrm ep buf (A.start.get (i + 1)) s) fun t => t.start = s.start ∧ s.j ≤ t.j ∧ t.j ≤ A.start.get (i + 1) ∧
      t.inds.size = A.inds.size ∧ t.vals.size = A.vals.size ∧
      (∀ k, A.start.get (i + 1) ≤ k → t.inds.get k = A.inds.get k ∧ t.vals.get k = A.vals.get k) ∧
      (∀ k, k < s.j → t.inds.get k = s.inds.get k ∧ t.vals.get k = s.vals.get k) ∧
      (CS.mk A.psize A.ssize t.start t.inds t.vals).seg s.j t.j =
        (A.line i).filter (pruneKeep nrm (ep * mx i) buf.get) := by
      unfold pruneSweep
      by_cases hl : A.start.get (i + 1) - s.pos ≠ 0
      · rw [if_pos hl]
        have hlt : A.start.get i < A.start.get (i + 1) := by omega
        have hmaxeq : maxAbs nrm s.vals s.pos (A.start.get (i + 1)) = .ok (mx i) := by
          have := (hmx i hi hlt).1
          rw [← this, s1]
          have hsz := h.start_mono (show i + 1 ≤ A.psize by omega) (le_refl _)
          obtain ⟨m1, e1, ⟨a, a1, a2, a3⟩, a4⟩ := maxAbs_runs nrm s.vals _ _ hlt (by omega)
          obtain ⟨m2, e2, ⟨c, c1, c2, c3⟩, c4⟩ := maxAbs_runs nrm A.vals _ _ hlt (by omega)
          rw [e1, e2]
          congr 1
          apply le_antisymm
          · rw [a3, (s6 a (by omega)).2]; exact c4 a a1 a2
          · rw [c3, ← (s6 c (by omega)).2]; exact a4 c c1 c2
        rw [hmaxeq]
        simp only [runs_bind, runs_ok]
        exact pruneLoop_runs nrm h (ep * mx i) buf b1 hi s s1 s2 s4 s5 s6
      · rw [if_neg hl, runs_pure]
        have hle : A.start.get (i + 1) = s.pos := by omega
        refine ⟨rfl, le_refl _, by omega, s4, s5, by rw [hle]; exact s6, fun _ _ => ⟨rfl, rfl⟩, ?_⟩
        rw [seg_empty _ (le_refl _)]
        unfold line
        rw [A.seg_empty (by omega)]; rfl
    refine core.mono ?_
    rintro t ⟨t1, t2, t3, t4, t5, t6, t7, t8⟩
    simp only [runs_bind, runs_rd, runs_wr, runs_pure, Buf.set_size, Buf.set_get, t1]
    have hnew : s.start.get i + (t.j - s.j) = t.j := by omega
    rw [hnew]
    refine ⟨by omega, by omega, trivial, t3, s3, t4, t5, t6, fun k hk => ?_, by simp, ?_, fun l hl => ?_, fun l hl => ?_, fun l hl => ?_⟩
    · rw [if_neg (by omega)]; exact s7 k (by omega)
    · rw [if_neg (by omega)]; exact s9
    · by_cases e : l = i
      · subst e; rw [if_neg (by omega), if_pos rfl]; omega
      · rw [if_neg (by omega), if_neg (by omega)]; exact s10 l (by omega)
    · by_cases e : l = i + 1
      · subst e; rw [if_pos rfl]
      · rw [if_neg e]; exact le_trans (s11 l (by omega)) t2
    · by_cases e : l = i
      · subst e
        rw [if_neg (by omega), if_pos rfl, s8, ← t8]
        rfl
      · rw [if_neg (by omega), if_neg (by omega), ← s12 l (by omega)]
        have := s11 (l + 1) (by omega)
        unfold seg
        refine List.map_congr_left fun k hk => ?_
        rw [List.mem_range'_1] at hk
        have := t7 k (by omega)
        simp only [this.1, this.2]
  · rintro s ⟨s1, s2, s3, s4, s5, s6, s7, s8, s9, s10, s11, s12⟩
    simp only [runs_bind, runs_rd, runs_ite, runs_pure]
    refine ⟨by omega, ?_⟩
    have fin : ∀ oi ov, oi.size ≥ s.j → ov.size ≥ s.j → oi.get = s.inds.get → ov.get = s.vals.get →
      (CS.mk A.psize A.ssize s.start oi ov).WF ∧ ∀ i, i < A.psize →
        (CS.mk A.psize A.ssize s.start oi ov).line i = (A.line i).filter (pruneKeep nrm (ep * mx i) buf.get) := by
      intro oi ov g1 g2 g3 g4
      have hline : ∀ i, i < A.psize → (CS.mk A.psize A.ssize s.start oi ov).line i =
          (A.line i).filter (pruneKeep nrm (ep * mx i) buf.get) := by
        intro i hi
        rw [← s12 i hi]
        unfold line seg
        simp only [g3, g4]
      refine ⟨⟨?_, s9, s10, ?_, ?_, ?_⟩, hline⟩
      · simp only; omega
      · simp only; omega
      · simp only; omega
      · intro k hk
        simp only at hk ⊢
        have hex : ∀ j, j ≤ A.psize → k < s.start.get j → ∃ i, i < j ∧ s.start.get i ≤ k ∧ k < s.start.get (i + 1) := by
          intro j
          induction j with
          | zero => intro _ h'; rw [s9] at h'; omega
          | succ j ih =>
            intro hj h'
            rcases Nat.lt_or_ge k (s.start.get j) with h4 | h4
            · obtain ⟨i, i1, i2⟩ := ih (by omega) h4
              exact ⟨i, by omega, i2⟩
            · exact ⟨j, by omega, h4, h'⟩
        obtain ⟨i, i1, i2, i3⟩ := hex A.psize (le_refl _) hk
        have hmem : (oi.get k, ov.get k) ∈ (CS.mk A.psize A.ssize s.start oi ov).line i := mem_seg.2 ⟨k, i2, i3, rfl⟩
        rw [hline i i1] at hmem
        obtain ⟨l, l1, l2, l3⟩ := mem_seg.1 (List.mem_filter.1 hmem).1
        have : A.inds.get l = oi.get k := congrArg Prod.fst l3
        rw [← this]; exact h.line_lt i1 l2
    split
    · rename_i hc
      obtain ⟨w1, w2⟩ := fin (s.inds.shrink (s.start.get A.psize)) (s.vals.shrink (s.start.get A.psize))
        (le_of_eq s8.symm) (le_of_eq s8.symm) rfl rfl
      refine ⟨w1, trivial, trivial, ?_, fun i => pruneKeep nrm (ep * mx i) buf.get, fun i hi => ⟨w2 i hi, hkeep i hi⟩⟩
      omega
    · rename_i hc
      obtain ⟨w1, w2⟩ := fin s.inds s.vals (by omega) (by omega) rfl rfl
      refine ⟨w1, trivial, trivial, ?_, fun i => pruneKeep nrm (ep * mx i) buf.get, fun i hi => ⟨w2 i hi, hkeep i hi⟩⟩
      omega

end prune
end CS
end Hif
