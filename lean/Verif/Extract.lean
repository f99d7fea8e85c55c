import Verif.StructLemmas
import Verif.PermLemmas

set_option linter.unusedSectionVars false
set_option linter.unusedVariables false
set_option linter.unusedSimpArgs false

/-!
# The off-diagonal blocks of a level

Model of `internal::extract_E` (src/hif/alg/factor.hpp 165–263) and `internal::extract_F` (265–370).
Simplification: scalings have the value type of the matrix (in the code they are real); `hif_error_if` on failed memory
allocation is not modelled.
-/

namespace Hif
open Finset
namespace Extract
variable {K : Type _}

/-- First pass of `extract_E` (212–218): count the entries of every column into `col_start[qi+1]`. -/
def eCount (A : CS K) (m n : Nat) (p qinv : Buf Nat) (cs : Buf Nat) : M (Buf Nat) :=
  forUp m n cs fun i cs => do
    let pi ← p.rd i
    let lo ← A.start.rd pi
    let hi ← A.start.rd (pi + 1)
    forUp lo hi cs fun k cs => do
      let j ← A.inds.rd k
      let qi ← qinv.rd j
      if qi < m then do
        let c ← cs.rd (qi + 1)
        cs.wr (qi + 1) (c + 1)
      else pure cs

/-- Arrays filled by the second pass of `extract_E`. -/
structure ESt (K : Type _) where
  cs : Buf Nat
  ri : Buf Nat
  vs : Buf K

/-- Body of the second pass (242–252) for the entry `(j, v)` of the row in place `i`. -/
def ePut [Mul K] (m i : Nat) (si : K) (t : Buf K) (qinv : Buf Nat) (j : Nat) (v : K) (e : ESt K) : M (ESt K) := do
  let qi ← qinv.rd j
  if qi < m then do
    let c ← e.cs.rd qi
    let ri ← e.ri.wr c (i - m)
    let tj ← t.rd j
    let vs ← e.vs.wr c (si * v * tj)
    let cs ← e.cs.wr qi (c + 1)
    pure ⟨cs, ri, vs⟩
  else pure e

/-- Second pass of `extract_E` (236–254). -/
def eScatter [Mul K] (s : Buf K) (A : CS K) (t : Buf K) (m n : Nat) (p qinv : Buf Nat) (e : ESt K) : M (ESt K) :=
  forUp m n e fun i e => do
    let pi ← p.rd i
    let si ← s.rd pi
    A.forLine pi e fun j v e => ePut m i si t qinv j v e

/-- `extract_E(s, A, t, m, p, q)` (186–263); `qinv` is `q.inv`.  Column-major result with `m` columns. -/
def extractE [Mul K] [Inhabited K] (s : Buf K) (A : CS K) (t : Buf K) (m : Nat) (p qinv : Buf Nat) : M (CS K) :=
  let n := A.psize
  if m > n ∨ m > A.ssize then throw (.hif "leading block size should not exceed matrix size")
  else if n - m = 0 then pure ⟨m, 0, Buf.mk' (m + 1) 0, Buf.mk' 0 0, Buf.mk' 0 default⟩
  else do
    let cs ← eCount A m n p qinv (Buf.mk' (m + 1) 0)
    let cs ← CS.prefixSum m cs
    let nnz ← cs.rd m
    if nnz = 0 then pure ⟨m, n - m, cs, Buf.mk' 0 0, Buf.mk' 0 default⟩
    else do
      let e ← eScatter s A t m n p qinv ⟨cs, Buf.mk' nnz 0, Buf.mk' nnz default⟩
      let cs ← CS.convShift m e.cs
      pure ⟨m, n - m, cs, e.ri, e.vs⟩

/-- First pass of `extract_F` (318–327). -/
def fCount (A : CS K) (m N : Nat) (pinv q : Buf Nat) (cs : Buf Nat) : M (Buf Nat) :=
  forUp 0 N cs fun i cs => do
    let qi ← q.rd (i + m)
    let lo ← A.start.rd qi
    let hi ← A.start.rd (qi + 1)
    let nnz ← forUp lo hi 0 fun k nnz => do
      let j ← A.inds.rd k
      let pj ← pinv.rd j
      if pj < m then pure (nnz + 1) else pure nnz
    let c ← cs.rd i
    cs.wr (i + 1) (c + nnz)

/-- One column of the second pass: `itr`, the row indices and the dense buffer. -/
structure FLn (K : Type _) where
  ip : Nat
  inds : Buf Nat
  buf : Buf K

/-- Inner loop (352–361). -/
def fLine [Mul K] (s : Buf K) (A : CS K) (m qi : Nat) (ti : K) (pinv : Buf Nat) (r : FLn K) : M (FLn K) :=
  A.forLine qi r fun j v r => do
    let pi ← pinv.rd j
    if pi < m then do
      let inds ← r.inds.wr r.ip pi
      let sj ← s.rd j
      let buf ← r.buf.wr pi (sj * v * ti)
      pure ⟨r.ip + 1, inds, buf⟩
    else pure r

/-- State of the second pass; `vp` is `v_itr`. -/
structure FSt (K : Type _) where
  vp : Nat
  inds : Buf Nat
  vals : Buf K
  buf : Buf K

/-- Body of the second pass (346–367). -/
def fStep [Mul K] (s : Buf K) (A : CS K) (t : Buf K) (m : Nat) (pinv q : Buf Nat) (cs : Buf Nat) (i : Nat) (f : FSt K) :
    M (FSt K) := do
  let qi ← q.rd (i + m)
  let lo ← cs.rd i
  let ti ← t.rd qi
  let r ← fLine s A m qi ti pinv ⟨lo, f.inds, f.buf⟩
  let inds ← CS.sortRange r.inds lo r.ip
  let hi ← cs.rd (i + 1)
  let v ← forUp lo hi (f.vp, f.vals) fun k (v : Nat × Buf K) => do
    let j ← inds.rd k
    let x ← r.buf.rd j
    let vals ← v.2.wr v.1 x
    pure (v.1 + 1, vals)
  pure ⟨v.1, inds, v.2, r.buf⟩

/-- `extract_F(s, A, t, m, p, q, buf)` (292–370); `pinv` is `p.inv`.  Column-major result with `n - m` columns. -/
def extractF [Mul K] [Inhabited K] (s : Buf K) (A : CS K) (t : Buf K) (m : Nat) (pinv q : Buf Nat) (buf : Buf K) : M (CS K) :=
  let n := A.psize
  if m > n ∨ m > A.ssize then throw (.hif "leading block size should not exceed matrix size")
  else if n - m = 0 then pure ⟨0, m, Buf.mk' 1 0, Buf.mk' 0 0, Buf.mk' 0 default⟩
  else do
    let cs ← (Buf.mk' (n - m + 1) 0).wr 0 0
    let cs ← fCount A m (n - m) pinv q cs
    let nnz ← cs.rd (n - m)
    if nnz = 0 then pure ⟨n - m, m, cs, Buf.mk' 0 0, Buf.mk' 0 default⟩
    else do
      let f ← forUp 0 (n - m) (FSt.mk 0 (Buf.mk' nnz 0) (Buf.mk' nnz default) buf) fun i f =>
        fStep s A t m pinv q cs i f
      pure ⟨n - m, m, cs, f.inds, f.vals⟩

/-! ### proofs -/

section lists
variable [Inhabited K]

/-- Concatenated lines. -/
def flat (f : Nat → List (Nat × K)) : Nat → List (Nat × K)
  | 0 => []
  | n + 1 => flat f n ++ f n

theorem flat_length (f : Nat → List (Nat × K)) (n : Nat) : (flat f n).length = CS.off (fun i => (f i).length) n := by
  induction n with
  | zero => rfl
  | succ n ih => simp [flat, CS.off, ih]

theorem flat_get (f : Nat → List (Nat × K)) {n i t : Nat} (hi : i < n) (ht : t < (f i).length) :
    (flat f n)[CS.off (fun i => (f i).length) i + t]? = (f i)[t]? := by
  induction n with
  | zero => omega
  | succ n ih =>
    simp only [flat]
    rcases Nat.lt_or_ge i n with h | h
    · have : CS.off (fun i => (f i).length) i + t < (flat f n).length := by
        rw [flat_length]
        have : CS.off (fun i => (f i).length) (i + 1) ≤ CS.off (fun i => (f i).length) n := CS.off_mono _ h
        simp only [CS.off] at this
        omega
      rw [List.getElem?_append_left this]; exact ih h
    · obtain rfl : i = n := by omega
      rw [List.getElem?_append_right (by rw [flat_length]; omega), flat_length]
      congr 1
      omega

/-- The compressed matrix with the given lines. -/
def ofLines (N w : Nat) (f : Nat → List (Nat × K)) : CS K :=
  { psize := N, ssize := w, start := ⟨N + 1, CS.off fun i => (f i).length⟩,
    inds := ⟨CS.off (fun i => (f i).length) N, fun k => ((flat f N).getD k (0, default)).1⟩,
    vals := ⟨CS.off (fun i => (f i).length) N, fun k => ((flat f N).getD k (0, default)).2⟩ }

theorem ofLines_tight (N w : Nat) (f : Nat → List (Nat × K)) : (ofLines N w f).Tight := ⟨rfl, rfl, rfl⟩

theorem ofLines_at {N w : Nat} {f : Nat → List (Nat × K)} {i t : Nat} (hi : i < N) (ht : t < (f i).length) :
    (ofLines N w f).inds.get (CS.off (fun i => (f i).length) i + t) = ((f i)[t]).1 ∧
    (ofLines N w f).vals.get (CS.off (fun i => (f i).length) i + t) = ((f i)[t]).2 := by
  have := flat_get f hi ht
  simp only [ofLines, List.getD, this, List.getElem?_eq_getElem ht, Option.getD_some, and_self]

theorem ofLines_line {N w : Nat} {f : Nat → List (Nat × K)} {i : Nat} (hi : i < N) : (ofLines N w f).line i = f i := by
  unfold CS.line CS.seg
  refine List.ext_getElem ?_ fun t h1 h2 => ?_
  · simp [ofLines, CS.off]
  · simp only [List.getElem_map, List.getElem_range', Nat.one_mul]
    have := ofLines_at (w := w) hi h2
    exact Prod.ext this.1 this.2

theorem ofLines_wf {N w : Nat} {f : Nat → List (Nat × K)} (h : ∀ i, i < N → ∀ e ∈ f i, e.1 < w) : (ofLines N w f).WF := by
  refine ⟨le_refl _, rfl, fun i hi => CS.off_mono _ (Nat.le_succ i), le_refl _, le_refl _, fun k hk => ?_⟩
  obtain ⟨i, hi, t, ht, rfl⟩ := CS.off_split _ _ _ hk
  rw [(ofLines_at (N := N) (w := w) hi ht).1]
  exact h i hi _ (List.getElem_mem ht)

end lists

/-- A sweep over one line, in terms of the list of its entries. -/
theorem forLine_list {σ : Type _} {A : CS K} (h : A.WF) {i : Nat} (hi : i < A.psize) {s : σ}
    {f : Nat → K → σ → M σ} {Q : σ → Prop} (I : List (Nat × K) → σ → Prop) (h0 : I [] s)
    (hstep : ∀ l j v r s, A.line i = l ++ (j, v) :: r → I l s → Runs (f j v s) (I (l ++ [(j, v)])))
    (hQ : ∀ s, I (A.line i) s → Q s) : Runs (A.forLine i s f) Q := by
  refine CS.forLine_runs h hi (fun k s => I (A.seg (A.start.get i) k) s)
    (by rw [CS.seg_empty _ (le_refl _)]; exact h0) (fun k s h1 h2 h3 => ?_) hQ
  rw [CS.seg_succ _ h1]
  refine hstep _ _ _ (A.seg (k + 1) (A.start.get (i + 1))) s ?_ h3
  unfold CS.line
  rw [← A.seg_append h1 (show k ≤ A.start.get (i + 1) by omega), ← A.seg_append (Nat.le_succ k) (show k + 1 ≤ A.start.get (i + 1) from h2),
    CS.seg_succ _ (le_refl _), CS.seg_empty _ (le_refl _)]
  rfl

/-- Entries of a line whose position `inv` lies in the leading block, at that position and with scaled value. -/
def pick (m : Nat) (inv : Nat → Nat) (g : Nat → K → K) (l : List (Nat × K)) : List (Nat × K) :=
  (l.filter fun e => inv e.1 < m).map fun e => (inv e.1, g e.1 e.2)

theorem pick_append (m : Nat) (inv : Nat → Nat) (g : Nat → K → K) (l l' : List (Nat × K)) :
    pick m inv g (l ++ l') = pick m inv g l ++ pick m inv g l' := by
  simp [pick]

theorem pick_cons_pos (m : Nat) (inv : Nat → Nat) (g : Nat → K → K) (j : Nat) (v : K) (l : List (Nat × K)) (h : inv j < m) :
    pick m inv g ((j, v) :: l) = (inv j, g j v) :: pick m inv g l := by
  simp [pick, h]

theorem pick_cons_neg (m : Nat) (inv : Nat → Nat) (g : Nat → K → K) (j : Nat) (v : K) (l : List (Nat × K)) (h : ¬ inv j < m) :
    pick m inv g ((j, v) :: l) = pick m inv g l := by
  simp [pick, h]

theorem pick_lt {m : Nat} {inv : Nat → Nat} {g : Nat → K → K} {l : List (Nat × K)} : ∀ e ∈ pick m inv g l, e.1 < m := by
  intro e he
  obtain ⟨e', h1, rfl⟩ := List.mem_map.1 he
  exact of_decide_eq_true (List.mem_filter.1 h1).2

theorem pick_at {m : Nat} {inv : Nat → Nat} {g : Nat → K → K} {L l r : List (Nat × K)} {j : Nat} {v : K} (h : L = l ++ (j, v) :: r)
    (hj : inv j < m) : ∃ ht : (pick m inv g l).length < (pick m inv g L).length, (pick m inv g L)[(pick m inv g l).length] = (inv j, g j v) := by
  subst h
  rw [pick_append, pick_cons_pos _ _ _ _ _ _ hj]
  exact ⟨by simp, by simp⟩

section E
variable [Mul K] [Inhabited K]

/-- Row `i` of the block, by columns of the leading block. -/
def eLine (s : Buf K) (A : CS K) (t : Buf K) (m : Nat) (p qinv : Buf Nat) (i : Nat) : List (Nat × K) :=
  pick m qinv.get (fun j v => s.get (p.get (m + i)) * v * t.get j) (A.line (p.get (m + i)))

/-- The block by rows. -/
def eRows (s : Buf K) (A : CS K) (t : Buf K) (m : Nat) (p qinv : Buf Nat) : CS K := ofLines (A.psize - m) m (eLine s A t m p qinv)

theorem eRows_wf (s : Buf K) (A : CS K) (t : Buf K) (m : Nat) (p qinv : Buf Nat) : (eRows s A t m p qinv).WF :=
  ofLines_wf fun i _ => pick_lt

theorem eCount_runs {A : CS K} (h : A.WF) (s t : Buf K) {m : Nat} (hm : m ≤ A.psize) {p qinv : Buf Nat} (hp : A.psize ≤ p.size)
    (hpl : ∀ i, i < A.psize → p.get i < A.psize) (hq : A.ssize ≤ qinv.size) :
    Runs (eCount A m A.psize p qinv (Buf.mk' (m + 1) 0)) fun cs => cs.size = m + 1 ∧ cs.get 0 = 0 ∧
      ∀ j, cs.get (j + 1) = (eRows s A t m p qinv).cnt j (eRows s A t m p qinv).inds.size := by
  unfold eCount
  have hss := h.start_size
  let V := eRows s A t m p qinv
  let off := CS.off fun i => (eLine s A t m p qinv i).length
  refine forUp_runs' (fun i (cs : Buf Nat) => cs.size = m + 1 ∧ cs.get 0 = 0 ∧ ∀ j, cs.get (j + 1) = V.cnt j (off (i - m))) hm
    ⟨rfl, rfl, fun j => by rw [Nat.sub_self]; exact (CS.cnt_zero _ _).symm⟩ ?_ (fun cs h => h)
  rintro i cs h1 h2 ⟨c1, c2, c3⟩
  have hpi := hpl i h2
  simp only [runs_bind, runs_rd]
  refine ⟨by omega, by omega, by omega, ?_⟩
  have hline : eLine s A t m p qinv (i - m) =
      pick m qinv.get (fun j v => s.get (p.get i) * v * t.get j) (A.line (p.get i)) := by
    unfold eLine
    rw [show m + (i - m) = i by omega]
  let g := pick m qinv.get (fun j v => s.get (p.get i) * v * t.get j)
  have hst := h.mono (p.get i) hpi
  refine forUp_runs' (fun k (cs : Buf Nat) => cs.size = m + 1 ∧ cs.get 0 = 0 ∧
    ∀ j, cs.get (j + 1) = V.cnt j (off (i - m) + (g (A.seg (A.start.get (p.get i)) k)).length)) hst
    ⟨c1, c2, fun j => by rw [CS.seg_empty _ (le_refl _), c3]; rfl⟩ ?_ ?_
  · rintro k cs k1 k2 ⟨d1, d2, d3⟩
    have hk := h.line_inds hpi k2
    have hlt := h.line_lt hpi k2
    simp only [runs_bind, runs_rd, runs_ite, runs_wr, runs_pure, Buf.set_size, Buf.set_get]
    refine ⟨hk, by omega, ?_⟩
    have hL : A.line (p.get i) = A.seg (A.start.get (p.get i)) k ++ (A.inds.get k, A.vals.get k) ::
        A.seg (k + 1) (A.start.get (p.get i + 1)) := by
      unfold CS.line
      rw [← A.seg_append k1 (show k ≤ A.start.get (p.get i + 1) by omega), ← A.seg_append (Nat.le_succ k) k2,
        CS.seg_succ _ (le_refl _), CS.seg_empty _ (le_refl _)]
      rfl
    rw [CS.seg_succ _ k1]
    split
    · rename_i hj
      refine ⟨by omega, by omega, d1, by rw [if_neg (by omega)]; exact d2, fun j => ?_⟩
      obtain ⟨ht, he⟩ := pick_at (g := fun j v => s.get (p.get i) * v * t.get j) hL hj
      have hV : V.inds.get (off (i - m) + (g (A.seg (A.start.get (p.get i)) k)).length) = qinv.get (A.inds.get k) := by
        refine (ofLines_at (i := i - m) (by omega) (by rw [hline]; exact ht)).1.trans ?_
        simp only [hline]
        exact congrArg Prod.fst he
      have hg : (g (A.seg (A.start.get (p.get i)) k ++ [(A.inds.get k, A.vals.get k)])).length =
          (g (A.seg (A.start.get (p.get i)) k)).length + 1 := by
        show (pick _ _ _ _).length = _
        rw [pick_append, pick_cons_pos _ _ _ _ _ _ hj]
        simp [pick, g]
      rw [hg, ← Nat.add_assoc, CS.cnt_succ, hV, d3, d3]
      by_cases e : j = qinv.get (A.inds.get k)
      · rw [if_pos (by omega), if_pos e.symm, e]
      · rw [if_neg (by omega), if_neg (Ne.symm e)]; rfl
    · rename_i hj
      refine ⟨d1, d2, fun j => ?_⟩
      have hg : g (A.seg (A.start.get (p.get i)) k ++ [(A.inds.get k, A.vals.get k)]) = g (A.seg (A.start.get (p.get i)) k) := by
        show pick _ _ _ _ = _
        rw [pick_append, pick_cons_neg _ _ _ _ _ _ hj]
        simp [pick, g]
      rw [hg, d3]
  · rintro cs ⟨d1, d2, d3⟩
    refine ⟨d1, d2, fun j => ?_⟩
    rw [d3, show i + 1 - m = (i - m) + 1 by omega]
    show _ = V.cnt j (off (i - m) + (eLine s A t m p qinv (i - m)).length)
    rw [hline]
    rfl

theorem eScatter_runs {A : CS K} (h : A.WF) {s t : Buf K} (hs : A.psize ≤ s.size) (ht : A.ssize ≤ t.size) {m : Nat} (hm : m ≤ A.psize)
    {p qinv : Buf Nat} (hp : A.psize ≤ p.size)
    (hpl : ∀ i, i < A.psize → p.get i < A.psize) (hq : A.ssize ≤ qinv.size) (e : ESt K)
    (he : CS.ScatInv (eRows s A t m p qinv) (eRows s A t m p qinv).inds.size m 0 ⟨0, e.cs, e.ri, e.vs⟩) :
    Runs (eScatter s A t m A.psize p qinv e) fun e => CS.ScatInv (eRows s A t m p qinv) (eRows s A t m p qinv).inds.size m
      (eRows s A t m p qinv).inds.size ⟨(eRows s A t m p qinv).inds.size, e.cs, e.ri, e.vs⟩ := by
  unfold eScatter
  let V := eRows s A t m p qinv
  let off := CS.off fun i => (eLine s A t m p qinv i).length
  have hbV : ∀ k, k < V.inds.size → V.inds.get k < m := fun k hk => (eRows_wf s A t m p qinv).inds_lt k hk
  refine forUp_runs' (fun i (e : ESt K) => CS.ScatInv V V.inds.size m (off (i - m)) ⟨off (i - m), e.cs, e.ri, e.vs⟩) hm
    (by rw [Nat.sub_self]; exact he) ?_ (fun e h => h)
  rintro i e h1 h2 hi
  have hpi := hpl i h2
  simp only [runs_bind, runs_rd]
  refine ⟨by omega, by omega, ?_⟩
  have hline : eLine s A t m p qinv (i - m) =
      pick m qinv.get (fun j v => s.get (p.get i) * v * t.get j) (A.line (p.get i)) := by
    unfold eLine
    rw [show m + (i - m) = i by omega]
  let g := pick m qinv.get (fun j v => s.get (p.get i) * v * t.get j)
  refine forLine_list h hpi (fun l (e : ESt K) => CS.ScatInv V V.inds.size m (off (i - m) + (g l).length)
    ⟨off (i - m) + (g l).length, e.cs, e.ri, e.vs⟩) hi ?_ ?_
  · intro l j v r e hL hl
    unfold ePut
    have hmem : (j, v) ∈ A.line (p.get i) := by rw [hL]; simp
    obtain ⟨k, k1, k2, hk⟩ := CS.mem_seg.1 hmem
    have hlt := h.line_lt hpi k2
    have hj' : A.inds.get k = j := congrArg Prod.fst hk
    rw [hj'] at hlt
    simp only [runs_bind, runs_rd, runs_ite, runs_wr, runs_pure, Buf.set_size, Buf.set_get]
    refine ⟨by omega, ?_⟩
    split
    · rename_i hj
      obtain ⟨hlen, hat⟩ := pick_at (g := fun j v => s.get (p.get i) * v * t.get j) hL hj
      have hV := ofLines_at (N := A.psize - m) (w := m) (f := eLine s A t m p qinv) (i := i - m) (by omega) (by rw [hline]; exact hlen)
      simp only [hline, hat] at hV
      have hV1 : V.inds.get (off (i - m) + (g l).length) = qinv.get j := hV.1
      have hV2 : V.vals.get (off (i - m) + (g l).length) = s.get (p.get i) * v * t.get j := hV.2
      have hoff : off (i - m) + (eLine s A t m p qinv (i - m)).length ≤ V.inds.size :=
        CS.off_mono _ (show i - m + 1 ≤ A.psize - m by omega)
      have hlt' : off (i - m) + (g l).length < V.inds.size := by
        rw [hline] at hoff
        have : (g l).length < (pick m qinv.get (fun j v => s.get (p.get i) * v * t.get j) (A.line (p.get i))).length := hlen
        omega
      obtain ⟨hput, hpl'⟩ := hl.put (i := i - m) hlt' hbV
        ⟨by show off (i - m) ≤ _; omega, by
          show _ < off (i - m) + (eLine s A t m p qinv (i - m)).length
          rw [hline]; exact Nat.add_lt_add_left hlen _⟩ (by show i - m < A.psize - m; omega)
      have o1 := hl.os_size
      have o2 := hl.oi_size
      have o3 := hl.ov_size
      simp only at o1 o2 o3
      rw [hV1] at hput hpl'
      rw [hV2] at hput
      simp only at hpl' hput
      refine ⟨by omega, by omega, by omega, by omega, by omega, ?_⟩
      have hg : (g (l ++ [(j, v)])).length = (g l).length + 1 := by
        show (pick _ _ _ _).length = _
        rw [pick_append, pick_cons_pos _ _ _ _ _ _ hj]
        simp [pick, g]
      rw [hg, ← Nat.add_assoc]
      exact hput
    · rename_i hj
      have hg : g (l ++ [(j, v)]) = g l := by
        show pick _ _ _ _ = _
        rw [pick_append, pick_cons_neg _ _ _ _ _ _ hj]
        simp [pick, g]
      rw [hg]; exact hl
  · intro e he
    rw [show i + 1 - m = (i - m) + 1 by omega]
    show CS.ScatInv V V.inds.size m (off (i - m) + (eLine s A t m p qinv (i - m)).length)
      ⟨off (i - m) + (eLine s A t m p qinv (i - m)).length, e.cs, e.ri, e.vs⟩
    rw [hline]
    exact he

theorem extractE_runs {A : CS K} (h : A.WF) {s t : Buf K} (hs : A.psize ≤ s.size) (ht : A.ssize ≤ t.size) {m : Nat} (hm : m ≤ A.psize)
    (hm' : m ≤ A.ssize) {p qinv : Buf Nat} (hp : A.psize ≤ p.size) (hpl : ∀ i, i < A.psize → p.get i < A.psize)
    (hq : A.ssize ≤ qinv.size) :
    Runs (extractE s A t m p qinv) (CS.ConvSpec (eRows s A t m p qinv)) := by
  unfold extractE
  simp only
  rw [if_neg (by omega)]
  let V := eRows s A t m p qinv
  have hbV : ∀ k, k < V.inds.size → V.inds.get k < m := fun k hk => (eRows_wf s A t m p qinv).inds_lt k hk
  split
  · rename_i hN
    rw [runs_pure]
    have hz : V.inds.size = 0 := by
      show CS.off _ (A.psize - m) = 0
      rw [hN]; rfl
    exact ⟨rfl, hN.symm, rfl, hz.symm, hz.symm, fun j _ => by show 0 = V.base V.inds.size j; rw [hz]; simp [CS.base],
      fun k hk => by have : k < V.inds.size := hk; omega⟩
  simp only [runs_bind]
  refine (eCount_runs h s t hm hp hpl hq).mono ?_
  rintro os1 ⟨c1, c2, c3⟩
  refine (V.prefixSum_runs V.inds.size m os1 c1 c2 c3).mono ?_
  rintro os2 ⟨d1, d2⟩
  simp only [runs_rd, runs_ite, runs_pure, runs_bind]
  refine ⟨by omega, ?_⟩
  rw [d2 _ (le_refl _), V.base_top _ _ hbV]
  by_cases hz : V.inds.size = 0
  · rw [if_pos hz]
    exact ⟨rfl, rfl, d1, hz.symm, hz.symm, d2, fun k hk => by have : k < V.inds.size := hk; omega⟩
  rw [if_neg hz]
  refine (eScatter_runs h hs ht hm hp hpl hq _ ?_).mono ?_
  · refine ⟨rfl, d1, rfl, rfl, fun j hj => ?_, ?_, fun l hl => by omega⟩
    · show os2.get j = _
      rw [d2 j (by omega), CS.cnt_zero]; rfl
    · show os2.get _ = _
      rw [d2 _ (le_refl _), V.base_top _ _ hbV]
  intro st hsc
  refine (CS.convShift_runs V.inds.size m (V.base V.inds.size) st.cs hsc.os_size (CS.base_zero _ _) ?_ ?_).mono ?_
  · intro j hj
    refine (hsc.os_get j hj).trans ?_
    rw [CS.base_succ]
  · refine hsc.os_top.trans ?_
    rw [V.base_top _ _ hbV]
  rintro os3 ⟨e1, e2⟩
  exact ⟨rfl, rfl, e1, hsc.oi_size, hsc.ov_size, e2, hsc.done⟩

end E

section F
variable [Mul K] [Inhabited K]

/-- Column `i` of the block, in the order of `A`. -/
def fCol (s : Buf K) (A : CS K) (t : Buf K) (m : Nat) (pinv q : Buf Nat) (i : Nat) : List (Nat × K) :=
  pick m pinv.get (fun j v => s.get j * v * t.get (q.get (i + m))) (A.line (q.get (i + m)))

theorem pick_nodup {A : CS K} (h : A.WF) (hs : A.Sorted) (m : Nat) (inv : Nat → Nat) (g : Nat → K → K)
    (hinj : ∀ i j, i < A.ssize → j < A.ssize → inv i = inv j → i = j) {c : Nat} (hc : c < A.psize) :
    ((pick m inv g (A.line c)).map Prod.fst).Nodup := by
  unfold pick
  rw [List.map_map]
  have e : (Prod.fst ∘ fun e : Nat × K => (inv e.1, g e.1 e.2)) = inv ∘ Prod.fst := rfl
  rw [e, ← List.map_map]
  refine List.Nodup.map_on ?_ ?_
  · intro x hx y hy hxy
    obtain ⟨e, he, rfl⟩ := List.mem_map.1 hx
    obtain ⟨f, hf, rfl⟩ := List.mem_map.1 hy
    obtain ⟨k, k1, k2, rfl⟩ := CS.mem_seg.1 (List.mem_of_mem_filter he)
    obtain ⟨l, l1, l2, rfl⟩ := CS.mem_seg.1 (List.mem_of_mem_filter hf)
    exact hinj _ _ (h.line_lt hc k2) (h.line_lt hc l2) hxy
  · have := (CS.line_fst_pairwise hs hc).imp (S := (· ≠ ·)) (fun h => by omega)
    exact List.Nodup.sublist ((List.filter_sublist).map _) this

theorem fCount_runs {A : CS K} (h : A.WF) (s t : Buf K) {m : Nat} (hm : m ≤ A.psize) {pinv q : Buf Nat} (hq : A.psize ≤ q.size)
    (hql : ∀ i, i < A.psize → q.get i < A.psize) (hp : A.ssize ≤ pinv.size) (cs0 : Buf Nat) (hcs : cs0.size = A.psize - m + 1)
    (hcs0 : cs0.get 0 = 0) :
    Runs (fCount A m (A.psize - m) pinv q cs0) fun cs => cs.size = A.psize - m + 1 ∧
      ∀ j, j ≤ A.psize - m → cs.get j = CS.off (fun i => (fCol s A t m pinv q i).length) j := by
  unfold fCount
  have hss := h.start_size
  let off := CS.off fun i => (fCol s A t m pinv q i).length
  refine forUp_runs' (fun i (cs : Buf Nat) => cs.size = A.psize - m + 1 ∧ ∀ j, j ≤ i → cs.get j = off j) (Nat.zero_le _)
    ⟨hcs, fun j hj => by obtain rfl : j = 0 := by omega
                         exact hcs0⟩ ?_ (fun cs h => h)
  rintro i cs - hi ⟨c1, c2⟩
  have hqi := hql (i + m) (by omega)
  have hst := h.mono _ hqi
  simp only [runs_bind, runs_rd]
  refine ⟨by omega, by omega, by omega, ?_⟩
  let g := pick m pinv.get (fun j v => s.get j * v * t.get (q.get (i + m)))
  refine forUp_runs' (fun k (nz : Nat) => nz = (g (A.seg (A.start.get (q.get (i + m))) k)).length) hst
    (by rw [CS.seg_empty _ (le_refl _)]; rfl) ?_ ?_
  · rintro k nz k1 k2 rfl
    have hk := h.line_inds hqi k2
    have hlt := h.line_lt hqi k2
    simp only [runs_bind, runs_rd, runs_ite, runs_pure]
    refine ⟨hk, by omega, ?_⟩
    rw [CS.seg_succ _ k1]
    show if _ then _ = (pick _ _ _ _).length else _ = (pick _ _ _ _).length
    rw [pick_append]
    split
    · rename_i hj
      rw [pick_cons_pos _ _ _ _ _ _ hj]
      simp [pick, g]
    · rename_i hj
      rw [pick_cons_neg _ _ _ _ _ _ hj]
      simp [pick, g]
  · rintro nz rfl
    simp only [runs_wr, Buf.set_size, Buf.set_get]
    refine ⟨by omega, by omega, c1, fun j hj => ?_⟩
    by_cases e : j = i + 1
    · rw [if_pos e, c2 i (le_refl _), e]; rfl
    · rw [if_neg e]; exact c2 j (by omega)

theorem fLine_runs {A : CS K} (h : A.WF) (hs : A.Sorted) {s : Buf K} (hsz : A.ssize ≤ s.size) {m : Nat} {pinv : Buf Nat}
    (hp : A.ssize ≤ pinv.size) (hinj : ∀ i j, i < A.ssize → j < A.ssize → pinv.get i = pinv.get j → i = j) {c : Nat} (hc : c < A.psize)
    (ti : K) (r : FLn K) (hb : m ≤ r.buf.size)
    (hroom : r.ip + (pick m pinv.get (fun j v => s.get j * v * ti) (A.line c)).length ≤ r.inds.size) :
    Runs (fLine s A m c ti pinv r) fun r' => r'.inds.size = r.inds.size ∧ r'.buf.size = r.buf.size ∧
      r'.ip = r.ip + (pick m pinv.get (fun j v => s.get j * v * ti) (A.line c)).length ∧
      (∀ k, k < r.ip → r'.inds.get k = r.inds.get k) ∧
      r'.inds.slice r.ip r'.ip = (pick m pinv.get (fun j v => s.get j * v * ti) (A.line c)).map Prod.fst ∧
      ∀ e ∈ pick m pinv.get (fun j v => s.get j * v * ti) (A.line c), r'.buf.get e.1 = e.2 := by
  unfold fLine
  let g := pick m pinv.get (fun j v => s.get j * v * ti)
  have hnd := pick_nodup h hs m pinv.get (fun j v => s.get j * v * ti) hinj hc
  refine forLine_list h hc (fun l (r' : FLn K) => r'.inds.size = r.inds.size ∧ r'.buf.size = r.buf.size ∧ r'.ip = r.ip + (g l).length ∧
      (∀ k, k < r.ip → r'.inds.get k = r.inds.get k) ∧ r'.inds.slice r.ip r'.ip = (g l).map Prod.fst ∧
      ∀ e ∈ g l, r'.buf.get e.1 = e.2) ?_ ?_ (fun r h => h)
  · refine ⟨rfl, rfl, rfl, fun _ _ => rfl, ?_, fun e he => by simp [g, pick] at he⟩
    rw [Buf.slice_empty _ _ _ (le_refl _)]; rfl
  · rintro l j v rest r' hL ⟨r1, r2, r3, r4, r5, r6⟩
    have hmem : (j, v) ∈ A.line c := by rw [hL]; simp
    obtain ⟨k, k1, k2, hk⟩ := CS.mem_seg.1 hmem
    have hlt := h.line_lt hc k2
    have hj' : A.inds.get k = j := congrArg Prod.fst hk
    rw [hj'] at hlt
    simp only [runs_bind, runs_rd, runs_ite, runs_wr, runs_pure, Buf.set_size]
    refine ⟨by omega, ?_⟩
    split
    · rename_i hj
      have hg : g (l ++ [(j, v)]) = g l ++ [(pinv.get j, s.get j * v * ti)] := by
        show pick _ _ _ _ = _
        rw [pick_append, pick_cons_pos _ _ _ _ _ _ hj]
        simp [pick, g]
      have hgL : pick m pinv.get (fun j v => s.get j * v * ti) (A.line c) =
          g l ++ (pinv.get j, s.get j * v * ti) :: g rest := by
        rw [hL, pick_append, pick_cons_pos _ _ _ _ _ _ hj]
      rw [hgL] at hroom hnd
      simp only [List.length_append, List.length_cons] at hroom
      refine ⟨by omega, by omega, by omega, r1, r2, ?_, fun k hk => ?_, ?_, fun e he => ?_⟩
      · rw [hg, r3, List.length_append]; rfl
      · rw [Buf.set_get, if_neg (by omega)]; exact r4 k hk
      · rw [Buf.slice_set_succ _ _ (by omega), r5, hg, List.map_append]; rfl
      · rw [hg, List.mem_append] at he
        rcases he with he | he
        · rw [Buf.set_get, if_neg ?_]
          · exact r6 e he
          · intro heq
            rw [List.map_append, List.map_cons, List.nodup_append] at hnd
            exact hnd.2.2 e.1 (List.mem_map.2 ⟨e, he, rfl⟩) (pinv.get j) (by simp) heq
        · rw [List.mem_singleton] at he
          subst he
          simp
    · rename_i hj
      have hg : g (l ++ [(j, v)]) = g l := by
        show pick _ _ _ _ = _
        rw [pick_append, pick_cons_neg _ _ _ _ _ _ hj]
        simp [pick, g]
      rw [hg]
      exact ⟨r1, r2, r3, r4, r5, r6⟩

theorem gathered_sorted (L : List (Nat × K)) (hn : (L.map Prod.fst).Nodup) (buf : Nat → K) (hb : ∀ e ∈ L, buf e.1 = e.2) :
    ((((L.map Prod.fst).insertionSort (· ≤ ·)).map fun j => (j, buf j)).map Prod.fst).Pairwise (· < ·) ∧
    (((L.map Prod.fst).insertionSort (· ≤ ·)).map fun j => (j, buf j)).Perm L := by
  have hp := List.perm_insertionSort (· ≤ ·) (L.map Prod.fst)
  constructor
  · rw [List.map_map]
    have e : (Prod.fst ∘ fun j => (j, buf j)) = id := rfl
    rw [e, List.map_id]
    have h1 : ((L.map Prod.fst).insertionSort (· ≤ ·)).Pairwise (· ≤ ·) := List.pairwise_insertionSort _ _
    have h2 : ((L.map Prod.fst).insertionSort (· ≤ ·)).Nodup := hp.nodup_iff.2 hn
    exact (h1.and h2).imp (fun h => by omega)
  · refine (hp.map _).trans ?_
    rw [List.map_map]
    refine List.Perm.of_eq ?_
    refine (List.map_congr_left (g := id) fun e he => ?_).trans (List.map_id _)
    simp [hb e he]

/-- What `extract_F` returns. -/
structure FSpec (s : Buf K) (A : CS K) (t : Buf K) (m : Nat) (pinv q : Buf Nat) (F : CS K) : Prop where
  wf : F.WF
  tight : F.Tight
  psize : F.psize = A.psize - m
  ssize : F.ssize = m
  sorted : ∀ i, i < A.psize - m → ((F.line i).map Prod.fst).Pairwise (· < ·)
  line : ∀ i, i < A.psize - m → (F.line i).Perm (fCol s A t m pinv q i)

theorem extractF_runs {A : CS K} (h : A.WF) (hs : A.Sorted) {s t : Buf K} (hsz : A.ssize ≤ s.size) (ht : A.psize ≤ t.size) {m : Nat}
    (hm : m ≤ A.psize) (hm' : m ≤ A.ssize) {pinv q : Buf Nat} (hq : A.psize ≤ q.size) (hql : ∀ i, i < A.psize → q.get i < A.psize)
    (hp : A.ssize ≤ pinv.size) (hinj : ∀ i j, i < A.ssize → j < A.ssize → pinv.get i = pinv.get j → i = j) (buf : Buf K)
    (hb : m ≤ buf.size) : Runs (extractF s A t m pinv q buf) (FSpec s A t m pinv q) := by
  unfold extractF
  simp only
  rw [if_neg (by omega)]
  split
  · rename_i hN
    rw [runs_pure]
    refine ⟨⟨le_refl _, rfl, fun i hi => le_refl _, le_refl _, le_refl _, fun k hk => absurd hk (Nat.not_lt_zero _)⟩, ⟨rfl, rfl, rfl⟩, hN.symm, rfl,
      fun i hi => by omega, fun i hi => by omega⟩
  simp only [runs_bind, runs_wr]
  refine ⟨by show 0 < A.psize - m + 1; omega, ?_⟩
  refine (fCount_runs h s t hm hq hql hp _ rfl (by simp)).mono ?_
  rintro cs ⟨c1, c2⟩
  simp only [runs_rd]
  refine ⟨by omega, ?_⟩
  set off := CS.off fun i => (fCol s A t m pinv q i).length with hoff
  set N := A.psize - m with hN
  rw [c2 N (le_refl _)]
  have hmono : ∀ i, i < N → cs.get i ≤ cs.get (i + 1) := fun i hi => by
    rw [c2 i (by omega), c2 (i + 1) (by omega)]; exact CS.off_mono _ (Nat.le_succ i)
  by_cases hz : off N = 0
  · rw [if_pos hz, runs_pure]
    have hcol : ∀ i, i < N → fCol s A t m pinv q i = [] := by
      intro i hi
      have : off (i + 1) ≤ off N := CS.off_mono _ hi
      have : off (i + 1) = off i + (fCol s A t m pinv q i).length := rfl
      exact List.length_eq_zero_iff.1 (by omega)
    have hline : ∀ i, i < N → (CS.mk N m cs (Buf.mk' 0 0) (Buf.mk' 0 (default : K))).line i = [] := by
      intro i hi
      refine CS.seg_empty _ ?_
      show cs.get (i + 1) ≤ cs.get i
      rw [c2 i (by omega), c2 (i + 1) (by omega)]
      have : off (i + 1) ≤ off N := CS.off_mono _ hi
      have : off i ≤ off N := CS.off_mono _ (by omega)
      omega
    have htop : cs.get N = 0 := by rw [c2 N (le_refl _), hz]
    refine ⟨⟨by show N + 1 ≤ cs.size; omega, c2 0 (by omega), hmono, ?_, ?_, fun k hk => ?_⟩, ⟨c1, htop.symm, htop.symm⟩, rfl, rfl, fun i hi => ?_, fun i hi => ?_⟩
    · exact htop.le
    · exact htop.le
    · have hk : k < cs.get N := hk
      omega
    · rw [hline i hi]; simp
    · rw [hline i hi, hcol i hi]
  rw [if_neg hz]
  simp only [runs_bind, runs_pure]
  refine forUp_runs' (fun i (f : FSt K) => f.vp = off i ∧ f.inds.size = off N ∧ f.vals.size = off N ∧ f.buf.size = buf.size ∧
    ∀ l, l < i → (((CS.mk N m cs f.inds f.vals).line l).map Prod.fst).Pairwise (· < ·) ∧
      ((CS.mk N m cs f.inds f.vals).line l).Perm (fCol s A t m pinv q l)) (Nat.zero_le _)
    ⟨rfl, rfl, rfl, rfl, fun l hl => by omega⟩ ?_ ?_
  · rintro i f - hi ⟨f1, f2, f3, f4, f5⟩
    unfold fStep
    have hqi := hql (i + m) (by omega)
    simp only [runs_bind, runs_rd]
    refine ⟨by omega, by omega, by omega, ?_⟩
    have hof : off (i + 1) = off i + (fCol s A t m pinv q i).length := rfl
    have hle : off (i + 1) ≤ off N := CS.off_mono _ hi
    rw [c2 i (by omega)]
    refine (fLine_runs h hs hsz hp hinj hqi (t.get (q.get (i + m))) ⟨off i, f.inds, f.buf⟩ (by show m ≤ f.buf.size; omega)
      (by show off i + (fCol s A t m pinv q i).length ≤ f.inds.size; omega)).mono ?_
    rintro r ⟨r1, r2, r3, r4, r5, r6⟩
    have r3 : r.ip = off (i + 1) := r3
    have r1 : r.inds.size = off N := r1.trans f2
    have r2 : r.buf.size = f.buf.size := r2
    have r4 : ∀ k, k < off i → r.inds.get k = f.inds.get k := r4
    have r5 : r.inds.slice (off i) r.ip = (fCol s A t m pinv q i).map Prod.fst := r5
    have r6 : ∀ e ∈ fCol s A t m pinv q i, r.buf.get e.1 = e.2 := r6
    refine (CS.sortRange_runs r.inds (off i) r.ip (by omega) (by omega)).mono ?_
    rintro oi ⟨o1, o2, o3⟩
    refine ⟨by omega, ?_⟩
    rw [c2 (i + 1) (by omega)]
    rw [r5, r3] at o3
    have hmem : ∀ k, off i ≤ k → k < off (i + 1) → oi.get k < m := by
      intro k k1 k2
      have : oi.get k ∈ oi.slice (off i) (off (i + 1)) := Buf.mem_slice.2 ⟨k, k1, k2, rfl⟩
      rw [o3, List.mem_insertionSort] at this
      obtain ⟨e, he, heq⟩ := List.mem_map.1 this
      rw [← heq]
      exact pick_lt e he
    refine forUp_runs' (fun k (v : Nat × Buf K) => v.1 = k ∧ v.2.size = off N ∧ (∀ l, l < off i → v.2.get l = f.vals.get l) ∧
      ∀ l, off i ≤ l → l < k → v.2.get l = r.buf.get (oi.get l)) (by omega) ⟨f1, f3, fun _ _ => rfl, fun l h1 h2 => by omega⟩ ?_ ?_
    · rintro k v k1 k2 ⟨v1, v2, v3, v4⟩
      have := hmem k k1 k2
      simp only [runs_bind, runs_rd, runs_wr, runs_pure, Buf.set_size, Buf.set_get, v1]
      refine ⟨by omega, by omega, by omega, trivial, v2, fun l hl => ?_, fun l h1 h2 => ?_⟩
      · rw [if_neg (by omega)]; exact v3 l hl
      · by_cases e : l = k
        · subst e; simp
        · rw [if_neg e]; exact v4 l h1 (by omega)
    rintro ⟨vp, ov⟩ ⟨v1, v2, v3, v4⟩
    simp only at v1 v2 v3 v4
    simp only [runs_pure]
    refine ⟨v1, by omega, v2, by omega, fun l hl => ?_⟩
    by_cases e : l = i
    · subst e
      have hseg : (CS.mk N m cs oi ov).line l = (oi.slice (off l) (off (l + 1))).map fun j => (j, r.buf.get j) := by
        unfold CS.line CS.seg Buf.slice
        simp only
        rw [c2 l (by omega), c2 (l + 1) (by omega), List.map_map]
        refine List.map_congr_left fun k hk => ?_
        rw [List.mem_range'_1] at hk
        simp only [Function.comp]
        rw [v4 k (by omega) (by omega)]
      rw [hseg, o3]
      exact gathered_sorted _ (pick_nodup h hs _ _ _ hinj hqi) _ r6
    · have hseg : (CS.mk N m cs oi ov).line l = (CS.mk N m cs f.inds f.vals).line l := by
        unfold CS.line CS.seg
        simp only
        have hb1 : off (l + 1) ≤ off i := CS.off_mono _ (by omega)
        refine List.map_congr_left fun k hk => ?_
        rw [List.mem_range'_1, c2 l (by omega), c2 (l + 1) (by omega)] at hk
        rw [v3 k (by omega), o2 k (by omega), r4 k (by omega)]
      rw [hseg]; exact f5 l (by omega)
  · rintro f ⟨f1, f2, f3, f4, f5⟩
    have htop : cs.get N = off N := c2 N (le_refl _)
    refine ⟨⟨by show N + 1 ≤ cs.size; omega, c2 0 (by omega), hmono, ?_, ?_, fun k hk => ?_⟩, ⟨c1, ?_, ?_⟩, rfl, rfl, fun i hi => (f5 i hi).1, fun i hi => (f5 i hi).2⟩
    · show cs.get N ≤ f.inds.size; omega
    · show cs.get N ≤ f.vals.size; omega
    · have hk : k < cs.get N := hk
      rw [htop] at hk
      obtain ⟨i, hi, t', ht', rfl⟩ := CS.off_split _ _ _ hk
      have hmem : (f.inds.get (off i + t'), f.vals.get (off i + t')) ∈ (CS.mk N m cs f.inds f.vals).line i := by
        refine CS.mem_seg.2 ⟨off i + t', ?_, ?_, rfl⟩
        · show cs.get i ≤ _
          rw [c2 i (by omega)]; omega
        · show _ < cs.get (i + 1)
          rw [c2 (i + 1) (by omega)]; exact Nat.add_lt_add_left ht' _
      exact pick_lt _ ((f5 i hi).2.mem_iff.1 hmem)
    · show f.inds.size = cs.get N; omega
    · show f.vals.size = cs.get N; omega

end F

section entries
variable [CommRing K]

theorem pick_sum {m n : Nat} {q inv : Nat → Nat} (hq : Spec.Inverse n q inv) (a b : Nat → K) {j : Nat} (hj : j < m) (hmn : m ≤ n)
    (l : List (Nat × K)) (hl : ∀ e ∈ l, e.1 < n) :
    ((pick m inv (fun c v => a c * v * b c) l).map fun e => if e.1 = j then e.2 else 0).sum =
      a (q j) * (l.map fun e => if e.1 = q j then e.2 else 0).sum * b (q j) := by
  induction l with
  | nil => simp [pick]
  | cons e l ih =>
    obtain ⟨c, v⟩ := e
    have hc : c < n := hl (c, v) (by simp)
    have ih := ih fun e he => hl e (by simp [he])
    have hiff : inv c = j ↔ c = q j := by
      constructor
      · intro e; rw [← e]; exact ((hq.2 c hc).2).symm
      · intro e; rw [e]; exact (hq.1 j (by omega)).2
    by_cases hm : inv c < m
    · rw [pick_cons_pos _ _ _ _ _ _ hm]
      simp only [List.map_cons, List.sum_cons, ih]
      by_cases hcj : c = q j
      · rw [if_pos (hiff.2 hcj), if_pos hcj, hcj]; ring
      · rw [if_neg (fun e => hcj (hiff.1 e)), if_neg hcj]; ring
    · rw [pick_cons_neg _ _ _ _ _ _ hm]
      simp only [List.map_cons, List.sum_cons, ih]
      rw [if_neg (fun e => hm (by rw [hiff.2 e]; exact hj))]
      ring

theorem extractE_entry [Inhabited K] {A : CS K} (h : A.WF) {s t : Buf K} {m : Nat} (hm : m ≤ A.ssize) {p qinv : Buf Nat} {q : Nat → Nat}
    (hpl : ∀ i, i < A.psize → p.get i < A.psize) (hq : Spec.Inverse A.ssize q qinv.get) {E : CS K}
    (hE : CS.ConvSpec (eRows s A t m p qinv) E) {i j : Nat} (hi : i < A.psize - m) (hj : j < m) :
    E.ccs i j = s.get (p.get (m + i)) * A.crs (p.get (m + i)) (q j) * t.get (q j) := by
  have hw := eRows_wf s A t m p qinv
  have hpi := hpl (m + i) (by omega)
  have e1 : E.ccs i j = (eRows s A t m p qinv).crs i j := hE.entry hw (ofLines_tight _ _ _) hi hj
  rw [e1]
  unfold CS.crs
  rw [CS.entry_eq_line _ _ _ (hw.mono i hi), CS.entry_eq_line _ _ _ (h.mono _ hpi)]
  show (((ofLines _ _ _).line i).map _).sum = _
  rw [ofLines_line hi]
  refine pick_sum hq (fun _ => s.get (p.get (m + i))) t.get hj hm _ fun e he => ?_
  obtain ⟨k, k1, k2, rfl⟩ := CS.mem_seg.1 he
  exact h.line_lt hpi k2

theorem extractF_entry [Inhabited K] {A : CS K} (h : A.WF) {s t : Buf K} {m : Nat} (hm : m ≤ A.ssize) {pinv q : Buf Nat} {p : Nat → Nat}
    (hql : ∀ i, i < A.psize → q.get i < A.psize) (hp : Spec.Inverse A.ssize p pinv.get) {F : CS K} (hF : FSpec s A t m pinv q F)
    {i j : Nat} (hi : i < m) (hj : j < A.psize - m) :
    F.ccs i j = s.get (p i) * A.ccs (p i) (q.get (m + j)) * t.get (q.get (m + j)) := by
  have hqj := hql (m + j) (by omega)
  unfold CS.ccs
  rw [CS.entry_eq_line _ _ _ (hF.wf.mono j (by rw [hF.psize]; exact hj)), CS.entry_eq_line _ _ _ (h.mono _ hqj),
    ((hF.line j hj).map _).sum_eq]
  unfold fCol
  rw [Nat.add_comm j m]
  refine pick_sum hp s.get (fun _ => t.get (q.get (m + j))) hi hm _ fun e he => ?_
  obtain ⟨k, k1, k2, rfl⟩ := CS.mem_seg.1 he
  exact h.line_lt hqj k2

end entries

end Extract
end Hif
