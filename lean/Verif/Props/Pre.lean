import Verif.PreDrive
import Verif.Examples
import Mathlib.Analysis.Real.Sqrt

/-!
# Preprocessing: C43 (static deferral), C44 (composition with the ordering), C46 (pattern of the leading block),
C47 (extreme-value scaling), C48 (repair of poor scalings), C58 (the whole preprocessing), C59 (iterative scaling)
-/

namespace Hif.Props
open Hif Hif.Pre

/-! ## C43 -/

section C43
variable {K R : Type} [Mul K] [Field R] [LinearOrder R] [IsStrictOrderedRing R]

/-- C43: for both storages of a matrix and any orderings of its rows and columns, `defer_tiny_diags` succeeds; it
rearranges the first `m0` pairs (row, column) by one permutation `σ` — both orderings in the same way — such that exactly the
first `m` pairs are those whose matrix entry is stored and exceeds `eps` times every magnitude of its row and column; inside
both groups the relative order is kept, and nothing beyond `m0` changes. -/
theorem C43_defer_tiny (nrm : K → R) (hn : ∀ v, 0 ≤ nrm v) (eps : R) (heps : 0 ≤ eps) (Accs Acrs : CS K) (hc : Accs.WF)
    (hcs : Accs.Sorted) (hr : Acrs.WF) (m0 : Nat) (p q wp wq : Buf Nat) (hp : m0 ≤ p.size) (hq : m0 ≤ q.size)
    (hwp : m0 ≤ wp.size) (hwq : m0 ≤ wq.size) (hpi : ∀ i, i < m0 → p.get i < Acrs.psize) (hqi : ∀ i, i < m0 → q.get i < Accs.psize) :
    ∃ s, deferTiny (isGood nrm eps Accs Acrs) m0 p q wp wq = .ok s ∧ s.m ≤ m0 ∧ s.p.size = p.size ∧ s.q.size = q.size ∧
      (∃ σ : Nat → Nat, Spec.IsPerm m0 σ ∧
        (∀ i, i < m0 → s.p.get i = p.get (σ i) ∧ s.q.get i = q.get (σ i)) ∧
        (∀ i, i < m0 → ∀ j, i < j → j < m0 → (j < s.m ∨ s.m ≤ i) → σ i < σ j)) ∧
      (∀ i, i < m0 → (i < s.m ↔ ∃ v, (s.p.get i, v) ∈ Accs.line (s.q.get i) ∧
        (∀ e ∈ Acrs.line (s.p.get i), eps * nrm e.2 < nrm v) ∧ ∀ e ∈ Accs.line (s.q.get i), eps * nrm e.2 < nrm v)) ∧
      (∀ k, m0 ≤ k → s.p.get k = p.get k ∧ s.q.get k = q.get k) := by
  have hgood : GoodSpec m0 (fun i => Dominant nrm eps Accs Acrs (p.get i) (q.get i)) p q (isGood nrm eps Accs Acrs) := by
    intro p' q' i hi h1 h2 h3 h4
    have := isGood_runs nrm hn eps heps hc hcs hr p' q' i (by omega) (by omega) (by rw [h3]; exact hpi i hi) (by rw [h4]; exact hqi i hi)
    rw [h3, h4] at this
    exact this
  obtain ⟨s, e, s1, s2, -, -, s5, ⟨σ, σ1, σ2, σ3⟩, s6, s7⟩ := deferTiny_perm hgood hp hq wp wq hwp hwq
  refine ⟨s, e, s5, s1, s2, ⟨σ, σ1, fun i hi => ⟨(σ2 i hi).1, (σ2 i hi).2.1⟩, fun i _ j hij hj hc => σ3 i j hij hj hc⟩, fun i hi => ?_,
    fun k hk => ⟨s6 k hk, s7 k hk⟩⟩
  rw [(σ2 i hi).2.2, (σ2 i hi).1, (σ2 i hi).2.1]
  exact Iff.rfl

/-- C43, permutations: if both orderings are permutations of `[0,n)`, so are the resulting ones. -/
theorem C43_permutations (nrm : K → R) (hn : ∀ v, 0 ≤ nrm v) (eps : R) (heps : 0 ≤ eps) (Accs Acrs : CS K) (hc : Accs.WF)
    (hcs : Accs.Sorted) (hr : Acrs.WF) (n m0 : Nat) (hm : m0 ≤ n) (h1 : Accs.psize = n) (h2 : Acrs.psize = n) (p q wp wq : Buf Nat)
    (hp : p.size = n) (hq : q.size = n) (hwp : wp.size = n) (hwq : wq.size = n) (hpp : Spec.IsPerm n p.get) (hqp : Spec.IsPerm n q.get) :
    ∃ s, deferTiny (isGood nrm eps Accs Acrs) m0 p q wp wq = .ok s ∧ Spec.IsPerm n s.p.get ∧ Spec.IsPerm n s.q.get := by
  obtain ⟨s, e, -, -, -, ⟨σ, σ1, σ2, -⟩, -, s2⟩ := C43_defer_tiny nrm hn eps heps Accs Acrs hc hcs hr m0 p q wp wq (by omega) (by omega)
    (by omega) (by omega) (fun i hi => by rw [h2]; exact hpp.1 i (by omega)) (fun i hi => by rw [h1]; exact hqp.1 i (by omega))
  exact ⟨s, e, isPerm_comp hm σ1 hpp (fun i hi => (σ2 i hi).1) (fun i h _ => (s2 i h).1),
    isPerm_comp hm σ1 hqp (fun i hi => (σ2 i hi).2) (fun i h _ => (s2 i h).2)⟩

end C43

namespace ExPre

theorem sorted_of_bounded {K : Type _} {A : CS K}
    (h : ∀ i, i < A.psize → ∀ l, l < A.start.get (i + 1) → ∀ k, k < l → A.start.get i ≤ k → A.inds.get k < A.inds.get l) : A.Sorted :=
  fun i hi k l hk hl hkl => h i hi l hl.2 k hkl hk.1

/-- `[[0,1,0,0],[0,5,2,0],[0,2,7,0],[3,0,0,4]]` in CRS … -/
def A4r : CS ℚ := Ex.mk 4 4 [0, 1, 3, 5, 7] [1, 1, 2, 1, 2, 0, 3] [1, 5, 2, 2, 7, 3, 4]
/-- … and in CCS. -/
def A4c : CS ℚ := Ex.mk 4 4 [0, 1, 4, 6, 7] [3, 0, 1, 2, 1, 2, 3] [3, 1, 5, 2, 2, 7, 4]

theorem A4r_wf : A4r.WF := by constructor <;> decide
theorem A4c_wf : A4c.WF := by constructor <;> decide
theorem A4c_sorted : A4c.Sorted := ExPre.sorted_of_bounded (by decide)
theorem A4r_sorted : A4r.Sorted := ExPre.sorted_of_bounded (by decide)

end ExPre

/-- Non-vacuity of C43: with the natural orderings and `eps = 1/2` the first (not stored) diagonal is deferred, the other three lead. -/
example : ExPre.A4c.WF ∧ ExPre.A4c.Sorted ∧ ExPre.A4r.WF ∧
    (deferTiny (isGood (fun x : ℚ => |x|) (1/2) ExPre.A4c ExPre.A4r) 4 (Buf.ofList [0, 1, 2, 3]) (Buf.ofList [0, 1, 2, 3]) (Buf.mk' 4 0)
      (Buf.mk' 4 0)).map (fun s => (s.m, s.p.toList, s.q.toList)) = .ok (3, [1, 2, 3, 0], [1, 2, 3, 0]) :=
  ⟨ExPre.A4c_wf, ExPre.A4c_sorted, ExPre.A4r_wf, by decide +kernel⟩

/-! ## C44 -/

/-- C44: the final ordering is the matching permutation composed with the fill-reducing ordering `P` on the leading block of
size `m`, unchanged beyond it; it is a bijection of `[0,n)` and the inverse array is its inverse. -/
theorem C44_reorder (n m : Nat) (P : Buf Nat) (Q : BiPerm) (hm : m ≤ n) (hP : m ≤ P.size) (hPp : Spec.IsPerm m P.get)
    (h1 : Q.p.size = n) (h2 : Q.inv.size = n) (hp : Spec.IsPerm n Q.p.get) :
    ∃ S, reorderFinalize P m Q = .ok S ∧ S.p.size = n ∧ S.inv.size = n ∧ Spec.IsPerm n S.p.get ∧ Spec.Inverse n S.p.get S.inv.get ∧
      (∀ i, i < m → S.p.get i = Q.p.get (P.get i)) ∧ ∀ i, m ≤ i → i < n → S.p.get i = Q.p.get i := by
  obtain ⟨S, e, ⟨g1, g2, g3⟩, g4, g5⟩ := reorderFinalize_runs n m P Q hm hP hPp h1 h2 hp
  exact ⟨S, e, g1, g2, BiPerm.inverse_isPerm g3, g3, g4, g5⟩

/-- Non-vacuity of C44. -/
example : (reorderFinalize (Buf.ofList [2, 0, 1]) 3 ⟨Buf.ofList [3, 1, 0, 2], Buf.mk' 4 0⟩).map (fun S => (S.p.toList, S.inv.toList)) =
    .ok ([0, 3, 1, 2], [0, 2, 3, 1]) := by decide

/-! ## C46 -/

section C46
variable {K : Type}

/-- Position `(i, j)` is stored in line `i` of a compressed matrix. -/
def Stored (A : CS K) (i j : Nat) : Prop := ∃ v, (j, v) ∈ A.line i

/-- The arrays are a valid compressed column pattern of dimension `m` with strictly increasing columns, and the positions
`(r, c)` it contains are exactly those with `S r c`. -/
def IsPattern (m : Nat) (S : Nat → Nat → Prop) (b : Pat) : Prop :=
  b.start.size = m + 1 ∧ b.start.get 0 = 0 ∧ (∀ c, c < m → b.start.get c ≤ b.start.get (c + 1)) ∧ b.inds.size = b.start.get m ∧
  (∀ k, k < b.inds.size → b.inds.get k < m) ∧
  (∀ c, c < m → ∀ k, b.start.get c ≤ k → k + 1 < b.start.get (c + 1) → b.inds.get k < b.inds.get (k + 1)) ∧
  ∀ r, r < m → ∀ c, c < m → ((∃ k, b.start.get c ≤ k ∧ k < b.start.get (c + 1) ∧ b.inds.get k = r) ↔ S r c)

theorem stored_iff {A : CS K} {i j : Nat} : Stored A i j ↔ j ∈ ids A i := by
  rw [ids_eq]
  unfold Stored
  simp only [List.mem_map]
  constructor
  · rintro ⟨v, h⟩; exact ⟨_, h, rfl⟩
  · rintro ⟨⟨a, v⟩, h, rfl⟩; exact ⟨v, h⟩

theorem isPattern_of {m : Nat} {b : Pat} (h : PatWF m b) {S : Nat → Nat → Prop}
    (hS : ∀ c, c < m → ∀ r, r < m → (r ∈ b.inds.slice (b.start.get c) (b.start.get (c + 1)) ↔ S r c)) : IsPattern m S b := by
  obtain ⟨h1, h2, h3, h4, h5, h6⟩ := h
  refine ⟨h1, h2, h3, h4, h5, fun c hc k k1 k2 => ?_, fun r hr c hc => ?_⟩
  · have hp := h6 c hc
    rw [List.pairwise_iff_getElem] at hp
    have l1 : k - b.start.get c < (b.inds.slice (b.start.get c) (b.start.get (c + 1))).length := by rw [Buf.slice_length]; omega
    have l2 : k + 1 - b.start.get c < (b.inds.slice (b.start.get c) (b.start.get (c + 1))).length := by rw [Buf.slice_length]; omega
    have := hp _ _ l1 l2 (by omega)
    rw [Buf.slice_getElem, Buf.slice_getElem] at this
    rw [show b.start.get c + (k - b.start.get c) = k by omega, show b.start.get c + (k + 1 - b.start.get c) = k + 1 by omega] at this
    exact this
  · rw [← hS c hc r hr, Buf.mem_slice]

/-- C46, pattern of `B`: for every matrix in CCS and every pair of orderings, `compute_leading_block` stays in range and
returns exactly the pattern of the permuted leading block `B = A(p(1:m), q(1:m))`, columns sorted. -/
theorem C46_pattern (A : CS K) (hA : A.WF) (hs : A.Sorted) (m n : Nat) (hm : m ≤ n) (h1 : A.psize = n) (h2 : A.ssize = n)
    (p pinv q : Buf Nat) (hpi : pinv.size = n) (hpp : Spec.Inverse n p.get pinv.get) (hq : q.size = n) (hqp : Spec.IsPerm n q.get) :
    ∃ b, leadPlain A m q pinv = .ok b ∧ IsPattern m (fun r c => Stored A (q.get c) (p.get r)) b := by
  obtain ⟨b, e, hb⟩ := leadPlain_runs hA m q pinv (by omega) (fun c hc => by rw [h1]; exact hqp.1 c (by omega)) (by omega)
  have hinj : ∀ x y, x < A.ssize → y < A.ssize → pinv.get x = pinv.get y → x = y := fun x y hx hy e => by
    rw [← (hpp.2 x (by omega)).2, e, (hpp.2 y (by omega)).2]
  refine ⟨b, e, isPattern_of (hb.wf (fun c _ r hr => (mem_lead.1 hr).1)
    (fun c hc => lead_nodup hA hs (by rw [h1]; exact hqp.1 c (by omega)) _ hinj)) fun c hc r hr => ?_⟩
  rw [hb.2.2.2 c hc, List.mem_insertionSort, mem_lead, stored_iff]
  constructor
  · rintro ⟨-, x, x1, x2⟩
    have hx : x < n := by
      obtain ⟨k, k1, k2, rfl⟩ := Buf.mem_slice.1 x1
      have := hA.line_lt (i := q.get c) (by rw [h1]; exact hqp.1 c (by omega)) k2
      omega
    rw [← x2, (hpp.2 x hx).2]; exact x1
  · intro hx
    exact ⟨hr, _, hx, (hpp.1 r (by omega)).2⟩

/-- C46, pattern of `B + Bᵀ` (`apat`): if the rows of the leading block have no entry outside it, `compute_leading_block` returns
exactly the pattern of `B + Bᵀ`.  Missing: when a row of the leading block has an entry outside the block the code reads
the mask out of range (`C46_symm_pattern_witness`). -/
theorem C46_symm_pattern_partial (Accs Acrs : CS K) (hc : Accs.WF) (hs : Accs.Sorted) (hr : Acrs.WF) (m n : Nat) (hm : m ≤ n)
    (c1 : Accs.psize = n) (c2 : Accs.ssize = n) (r1 : Acrs.psize = n) (r2 : Acrs.ssize = n)
    (hsame : ∀ i, i < n → ∀ j, j < n → (Stored Acrs i j ↔ Stored Accs j i))
    (p pinv q qinv : Buf Nat) (hp : p.size = n) (hpi : pinv.size = n) (hpp : Spec.Inverse n p.get pinv.get) (hq : q.size = n)
    (hqi : qinv.size = n) (hqq : Spec.Inverse n q.get qinv.get)
    (hin : ∀ i, i < m → ∀ j, m ≤ j → j < n → ¬ Stored Acrs (p.get i) (q.get j)) :
    ∃ b, leadSymm Accs Acrs m p q pinv qinv = .ok b ∧
      IsPattern m (fun r c => Stored Accs (q.get c) (p.get r) ∨ Stored Accs (q.get r) (p.get c)) b := by
  have hpinj : ∀ x y, x < Accs.ssize → y < Accs.ssize → pinv.get x = pinv.get y → x = y := fun x y hx hy e => by
    rw [← (hpp.2 x (by omega)).2, e, (hpp.2 y (by omega)).2]
  have hqb : ∀ c, c < m → q.get c < Accs.psize := fun c hc' => by rw [c1]; exact (hqq.1 c (by omega)).1
  have hpb : ∀ c, c < m → p.get c < Acrs.psize := fun c hc' => by rw [r1]; exact (hpp.1 c (by omega)).1
  have hcl : ∀ c, c < m → ∀ x ∈ ids Accs (q.get c), x < n := by
    intro c hc' x hx
    obtain ⟨k, k1, k2, rfl⟩ := Buf.mem_slice.1 hx
    have := hc.line_lt (hqb c hc') k2
    omega
  have hrl : ∀ c, c < m → ∀ x ∈ ids Acrs (p.get c), x < n := by
    intro c hc' x hx
    obtain ⟨k, k1, k2, rfl⟩ := Buf.mem_slice.1 hx
    have := hr.line_lt (hpb c hc') k2
    omega
  have hI : SymIn Accs Acrs m p q pinv qinv := by
    refine ⟨hc, hr, by omega, by omega, hqb, hpb, by omega, by omega, fun c hc' => lead_nodup hc hs (hqb c hc') _ hpinj, fun c hc' x hx => ?_⟩
    by_contra hcon
    push Not at hcon
    have hxn := hrl c hc' x hx
    obtain ⟨g1, g2⟩ := hqq.2 x hxn
    refine hin c hc' _ hcon g1 ?_
    rw [g2, stored_iff]; exact hx
  obtain ⟨b, e, hb⟩ := leadSymm_runs hI
  refine ⟨b, e, isPattern_of (hb.wf (fun c _ r hr => uni_lt hr) (fun c hc' => uni_nodup hI hc')) fun c hc' r hr' => ?_⟩
  rw [hb.2.2.2 c hc', List.mem_insertionSort]
  unfold uni
  rw [mem_addNew, mem_lead, mem_lead, stored_iff, ← hsame _ (hpp.1 c (by omega)).1 _ (hqq.1 r (by omega)).1, stored_iff]
  refine or_congr ⟨?_, fun hx => ⟨hr', _, hx, (hpp.1 r (by omega)).2⟩⟩ ⟨?_, fun hx => ⟨hr', _, hx, (hqq.1 r (by omega)).2⟩⟩
  · rintro ⟨-, x, x1, x2⟩
    rw [← x2, (hpp.2 x (hcl c hc' x x1)).2]; exact x1
  · rintro ⟨-, x, x1, x2⟩
    rw [← x2, (hqq.2 x (hrl c hc' x x1)).2]; exact x1

/-- C46 violated: for the dense 2×2 matrix and the leading block of size 1 the mask of one element is read at position 1. -/
theorem C46_symm_pattern_witness :
    let Ar := Ex.mk 2 2 [0, 2, 4] [0, 1, 0, 1] [(1 : ℤ), 2, 3, 4]
    let Ac := Ex.mk 2 2 [0, 2, 4] [0, 1, 0, 1] [(1 : ℤ), 3, 2, 4]
    let id2 := Buf.ofList [0, 1]
    Ar.WF ∧ Ac.WF ∧ Ac.Sorted ∧ Spec.Inverse 2 id2.get id2.get ∧
    (leadSymm Ac Ar 1 id2 id2 id2 id2).map (fun _ => ()) = .error .oob := by
  refine ⟨by constructor <;> decide, by constructor <;> decide, ExPre.sorted_of_bounded (by decide), by unfold Spec.Inverse; decide, by decide⟩

end C46

/-- Non-vacuity of C46: pattern of the leading 3×3 block of the matrix above, rows and columns ordered (1,2,3,0), and of
`B + Bᵀ` of the upper bidiagonal 2×2 matrix. -/
example : (leadPlain ExPre.A4c 3 (Buf.ofList [1, 2, 3, 0]) (Buf.ofList [3, 0, 1, 2])).map (fun b => (b.start.toList, b.inds.toList)) =
      .ok ([0, 2, 4, 5], [0, 1, 0, 1, 2]) ∧
    (leadSymm (Ex.mk 2 2 [0, 1, 3] [0, 0, 1] [(1 : ℤ), 2, 4]) (Ex.mk 2 2 [0, 2, 3] [0, 1, 1] [(1 : ℤ), 2, 4]) 2 (Buf.ofList [0, 1])
      (Buf.ofList [0, 1]) (Buf.ofList [0, 1]) (Buf.ofList [0, 1])).map (fun b => (b.start.toList, b.inds.toList)) =
      .ok ([0, 2, 4], [0, 1, 0, 1]) := by
  constructor <;> decide +kernel

/-! ## C47 -/

section C47
variable {K R : Type} [CommMonoid K] [Field R] [LinearOrder R] [IsStrictOrderedRing R]

/-- The magnitude `nrm` and the conversion `emb` of scaling factors to values. -/
structure MagOK (nrm : K → R) (emb : R → K) : Prop where
  nonneg : ∀ v, 0 ≤ nrm v
  scale : ∀ v r, 0 ≤ r → nrm (v * emb r) = nrm v * r

/-- `C` is `diag(r) B diag(c)` on the same pattern. -/
def IsScaled (emb : R → K) (B C : CS K) (r c : Nat → R) : Prop :=
  C.psize = B.psize ∧ C.ssize = B.ssize ∧ C.start = B.start ∧ C.inds = B.inds ∧
  ∀ i, i < B.psize → C.line i = (B.line i).map fun e => (e.1, e.2 * emb (r i) * emb (c e.1))

/-- C47, general case: positive factors; the matrix becomes `diag(r) B diag(c)`; all magnitudes are at most one and every
column with a nonzero entry attains one.  Zero rows and columns included. -/
theorem C47_scale_extreme {nrm : K → R} {emb : R → K} (hm : MagOK nrm emb) (B : CS K) (hB : B.WF)
    (hsq : B.ssize = B.psize) (rs cs : Buf R) (hrs : rs.size = B.psize) (hcs : cs.size = B.psize) :
    ∃ C r c, scaleExtreme nrm emb false B rs cs = .ok (C, r, c) ∧ r.size = B.psize ∧ c.size = B.psize ∧
      (∀ i, i < B.psize → 0 < r.get i ∧ 0 < c.get i) ∧ IsScaled emb B C r.get c.get ∧
      (∀ i, i < B.psize → ∀ e ∈ C.line i, nrm e.2 ≤ 1) ∧
      (∀ j, j < B.psize → (∃ i, i < B.psize ∧ ∃ e ∈ B.line i, e.1 = j ∧ nrm e.2 ≠ 0) →
          ∃ i, i < B.psize ∧ ∃ e ∈ C.line i, e.1 = j ∧ nrm e.2 = 1) := by
  obtain ⟨⟨C, r, c⟩, e, ⟨l1, l2, l3, l4, -⟩, s1, s2, pos, hl, -, -, -, hf⟩ :=
    scaleExtreme_runs (nrm := nrm) (emb := emb) ⟨hm.nonneg, hm.scale⟩ false hB hsq rs cs (by omega) (by omega)
  obtain ⟨f1, f2⟩ := hf rfl
  exact ⟨C, r, c, e, by rw [← hrs]; exact s1, by rw [← hcs]; exact s2, pos, ⟨l1, l2, l3, l4, hl⟩, f1, f2⟩

/-- C47, symmetric case: the row scaling is used on both sides; after the row scaling alone all magnitudes are at most one
and every nonzero row attains one.  (Nothing bounds the magnitudes after both scalings: `C47_symm_unbounded`.) -/
theorem C47_scale_extreme_symm {nrm : K → R} {emb : R → K} (hm : MagOK nrm emb) (B : CS K) (hB : B.WF)
    (hsq : B.ssize = B.psize) (rs cs : Buf R) (hrs : rs.size = B.psize) (hcs : cs.size = B.psize) :
    ∃ C r c, scaleExtreme nrm emb true B rs cs = .ok (C, r, c) ∧ r.size = B.psize ∧ c.size = B.psize ∧
      (∀ i, i < B.psize → 0 < r.get i ∧ c.get i = r.get i) ∧ IsScaled emb B C r.get c.get ∧
      (∀ i, i < B.psize → ∀ e ∈ B.line i, nrm e.2 * r.get i ≤ 1) ∧
      (∀ i, i < B.psize → (∃ e ∈ B.line i, nrm e.2 ≠ 0) → ∃ e ∈ B.line i, nrm e.2 * r.get i = 1) := by
  obtain ⟨⟨C, r, c⟩, e, ⟨l1, l2, l3, l4, -⟩, s1, s2, pos, hl, hsy, h1, h2, -⟩ :=
    scaleExtreme_runs (nrm := nrm) (emb := emb) ⟨hm.nonneg, hm.scale⟩ true hB hsq rs cs (by omega) (by omega)
  exact ⟨C, r, c, e, by rw [← hrs]; exact s1, by rw [← hcs]; exact s2, fun i hi => ⟨(pos i hi).1, hsy rfl i hi⟩, ⟨l1, l2, l3, l4, hl⟩, h1, h2⟩

/-- C47: no a-priori scaling gives unit factors and leaves the matrix alone. -/
theorem C47_scale_eye (B : CS K) (rs cs : Buf R) (hrs : rs.size = B.psize) (hcs : cs.size = B.psize) :
    ∃ r c, scaleEye B rs cs = .ok (B, r, c) ∧ r.size = B.psize ∧ c.size = B.psize ∧ ∀ i, i < B.psize → r.get i = 1 ∧ c.get i = 1 := by
  obtain ⟨⟨C, r, c⟩, e, h1, h2, h3, h4⟩ := scaleEye_runs (B := B) rs cs (by omega) (by omega)
  simp only at h1; subst h1
  exact ⟨r, c, e, by rw [← hrs]; exact h2, by rw [← hcs]; exact h3, h4⟩

end C47

/-- In the symmetric case a diagonal matrix with small entries is "scaled" to large ones: `diag(1/10)` becomes `diag(10)`. -/
theorem C47_symm_unbounded :
    (scaleExtreme (fun x : ℚ => |x|) id true (Ex.mk 1 1 [0, 1] [0] [(1/10 : ℚ)]) (Buf.mk' 1 0) (Buf.mk' 1 0)).map
      (fun r => (r.1.vals.toList, r.2.1.toList, r.2.2.toList)) = .ok ([10], [10], [10]) := by decide +kernel

/-- Non-vacuity of C47: the magnitude on `ℚ`, and the scaling of a matrix with a zero row. -/
example : MagOK (fun x : ℚ => |x|) id ∧
    (scaleExtreme (fun x : ℚ => |x|) id false (Ex.mk 3 3 [0, 2, 2, 3] [0, 1, 1] [(2 : ℚ), -4, 8]) (Buf.mk' 3 0) (Buf.mk' 3 0)).map
      (fun r => (r.1.vals.toList, r.2.1.toList, r.2.2.toList)) = .ok ([1, -1, 1], [1/4, 1, 1/8], [2, 1, 1]) :=
  ⟨⟨fun v => abs_nonneg v, fun v r h => by rw [abs_mul, id, abs_of_nonneg h]⟩, by decide +kernel⟩

/-! ## C48 -/

section C48
variable {R : Type} [Field R] [LinearOrder R] [IsStrictOrderedRing R]

omit [IsStrictOrderedRing R] in
/-- C48, level one (or a threshold of at most one): nothing changes. -/
theorem C48_unchanged {sqrt : R → R} (m0 level : Nat) (p q : Buf Nat) (s t : Buf R) (beta : R)
    (h : level ≤ 1 ∨ (0 ≤ beta ∧ beta ≤ 1)) : fixPoor sqrt m0 level p q s t beta = .ok (s, t) := by
  unfold fixPoor
  simp only
  rw [if_neg]
  · rfl
  · rintro ⟨h1, h2⟩
    rcases h with h | ⟨h3, h4⟩
    · omega
    · rw [if_neg (not_lt.2 h3)] at h2
      exact absurd h2 (not_lt.2 h4)

/-- C48: on deeper levels, with threshold `β = beta` (1000 if negative), every matched pair `(s_{p_i}, t_{q_i})`, `i < m0`,
stays positive and keeps its product; its ratio is at most `β` afterwards; pairs that already satisfied the bound are
unchanged, the others become equal; the pairs beyond `m0` are unchanged. -/
theorem C48_fix_poor_scaling {sqrt : R → R} (hsq : ∀ x, 0 ≤ x → 0 ≤ sqrt x ∧ sqrt x * sqrt x = x) (m0 level n : Nat) (p q : Buf Nat)
    (s t : Buf R) (beta b0 : R) (hb : b0 = if beta < 0 then 1000 else beta) (hm : m0 ≤ n) (hps : p.size = n) (hqs : q.size = n) (hss : s.size = n) (hts : t.size = n)
    (hp : Spec.IsPerm n p.get) (hq : Spec.IsPerm n q.get) (hs : ∀ i, i < n → 0 < s.get i) (ht : ∀ i, i < n → 0 < t.get i)
    (hl : 1 < level) (h1 : 1 < b0) :
    ∃ s' t', fixPoor sqrt m0 level p q s t beta = .ok (s', t') ∧ s'.size = n ∧ t'.size = n ∧
      (∀ i, i < n → 0 < s'.get (p.get i) ∧ 0 < t'.get (q.get i) ∧
        s'.get (p.get i) * t'.get (q.get i) = s.get (p.get i) * t.get (q.get i)) ∧
      (∀ i, i < m0 → max (s'.get (p.get i)) (t'.get (q.get i)) ≤ b0 * min (s'.get (p.get i)) (t'.get (q.get i)) ∧
        (max (s.get (p.get i)) (t.get (q.get i)) ≤ b0 * min (s.get (p.get i)) (t.get (q.get i)) →
          s'.get (p.get i) = s.get (p.get i) ∧ t'.get (q.get i) = t.get (q.get i)) ∧
        (b0 * min (s.get (p.get i)) (t.get (q.get i)) < max (s.get (p.get i)) (t.get (q.get i)) →
          s'.get (p.get i) = t'.get (q.get i))) ∧
      ∀ i, m0 ≤ i → i < n → s'.get (p.get i) = s.get (p.get i) ∧ t'.get (q.get i) = t.get (q.get i) := by
  obtain ⟨⟨s', t'⟩, e, r1, r2, -, r4⟩ := fixPoor_runs hsq m0 level n p q s t beta hm hps hqs hss hts hp hq hs ht
  have hbe : effBeta beta = b0 := hb.symm
  rw [hbe] at r4
  obtain ⟨f1, f2⟩ := r4 ⟨hl, h1⟩
  refine ⟨s', t', e, r1, r2, fun i hi => ?_, fun i hi => ⟨(f1 i hi).2.2.2.1, (f1 i hi).2.2.2.2.1, (f1 i hi).2.2.2.2.2⟩, f2⟩
  rcases Nat.lt_or_ge i m0 with hlt | hge
  · exact ⟨(f1 i hlt).1, (f1 i hlt).2.1, (f1 i hlt).2.2.1⟩
  · have := f2 i hge hi
    simp only at this
    rw [this.1, this.2]
    exact ⟨hs _ (hp.1 i hi), ht _ (hq.1 i hi), rfl⟩

end C48

/-- Non-vacuity of C48: the real square root satisfies the hypothesis; on a concrete pair of weights `(1, 10000)` with the default threshold
both become 100 (the root of a perfect square computed in `ℚ`), the pair `(2, 3)` is unchanged. -/
example : (∀ x : ℝ, 0 ≤ x → 0 ≤ Real.sqrt x ∧ Real.sqrt x * Real.sqrt x = x) ∧
    (fixPoor (fun x : ℚ => if x = 10000 then 100 else 0) 2 2 (Buf.ofList [0, 1]) (Buf.ofList [1, 0]) (Buf.ofList [1, 2]) (Buf.ofList [3, 10000]) (-1)).map
      (fun r => (r.1.toList, r.2.toList)) = .ok ([100, 2], [3, 100]) :=
  ⟨fun x hx => ⟨Real.sqrt_nonneg x, Real.mul_self_sqrt hx⟩, by decide +kernel⟩

/-! ## C59 -/

section C59
variable {K R : Type} [CommMonoid K] [Field R] [LinearOrder R] [IsStrictOrderedRing R]

/-- C59: for a square matrix with no zero row (and no zero column in the general case) the iterative scaling
succeeds for every tolerance and every positive number of passes; the factors are positive, the matrix becomes `diag(r) B diag(c)`,
in the general case all its magnitudes are at most one, in the symmetric case both factors agree. -/
theorem C59_iterative_scale_partial {nrm : K → R} {emb : R → K} (hm : MagOK nrm emb) (h1 : emb 1 = 1) (hmul : ∀ a b, emb (a * b) = emb a * emb b)
    {sqrt : R → R} (hsr : ∀ x, 0 ≤ x → 0 ≤ sqrt x ∧ sqrt x * sqrt x = x) (isSymm : Bool) (tol : R) (iters : Nat) (hit : 0 < iters)
    (B : CS K) (hB : B.WF) (hsq : B.ssize = B.psize)
    (hrow : ∀ i, i < B.psize → ∃ e ∈ B.line i, nrm e.2 ≠ 0)
    (hcol : isSymm = false → ∀ j, j < B.psize → ∃ i, i < B.psize ∧ ∃ e ∈ B.line i, e.1 = j ∧ nrm e.2 ≠ 0)
    (rs cs : Buf R) (hrs : rs.size = B.psize) (hcs : cs.size = B.psize) :
    ∃ C r c, iterScale nrm emb sqrt isSymm tol iters B rs cs = .ok (C, r, c) ∧ r.size = B.psize ∧ c.size = B.psize ∧
      (∀ i, i < B.psize → 0 < r.get i ∧ 0 < c.get i) ∧ IsScaled emb B C r.get c.get ∧
      (isSymm = true → ∀ i, i < B.psize → c.get i = r.get i) ∧
      (isSymm = false → ∀ i, i < B.psize → ∀ e ∈ C.line i, nrm e.2 ≤ 1) := by
  obtain ⟨⟨C, r, c⟩, e, ⟨l1, l2, l3, l4, l5⟩, s1, s2, pos, hl, hsy, h2⟩ :=
    iterScale_runs (nrm := nrm) (emb := emb) ⟨hm.nonneg, hm.scale⟩ ⟨h1, hmul⟩ hsr isSymm tol iters hit hB hsq ⟨hrow, hcol⟩ rs cs (by omega) (by omega)
  refine ⟨C, r, c, e, by rw [← hrs]; exact s1, by rw [← hcs]; exact s2, pos, ⟨l1, l2, l3, l4, hl⟩, hsy, fun hf i hi => ?_⟩
  exact h2 hf i (by rw [l1]; exact hi)

end C59

/-- C59 violated for a zero row: the scaling factor would be `1/sqrt(0)`, infinite in floating point. -/
theorem C59_iterative_scale_witness :
    (iterScale (fun x : ℚ => |x|) id (fun x => x) false (1/10) 5 (Ex.mk 2 2 [0, 1, 1] [0] [(1 : ℚ)]) (Buf.mk' 2 0) (Buf.mk' 2 0)).map
      (fun _ => ()) = .error (.ub "1/sqrt(0)") := by decide +kernel

/-- Non-vacuity of C59: the hypotheses hold for real numbers and a 2×2 matrix; one pass on perfect squares in `ℚ`. -/
example : MagOK (fun x : ℝ => |x|) id ∧
    (iterScale (fun x : ℚ => |x|) id (fun x => if x = 16 then 4 else if x = 4 then 2 else 1) false (1/10) 1
      (Ex.mk 2 2 [0, 1, 2] [1, 0] [(16 : ℚ), 4]) (Buf.mk' 2 0) (Buf.mk' 2 0)).map
      (fun r => (r.1.vals.toList, r.2.1.toList, r.2.2.toList)) = .ok ([1, 1], [1/4, 1/2], [1/2, 1/4]) :=
  ⟨⟨fun v => abs_nonneg v, fun v r h => by rw [abs_mul, id, abs_of_nonneg h]⟩, by decide +kernel⟩

/-! ## C58 -/

section C58
variable {K R : Type} [CommMonoid K] [Inhabited K] [Field R] [LinearOrder R] [IsStrictOrderedRing R]

/-- Assumptions on the arithmetic: magnitude, conversion of scaling factors, square root, machine precision. -/
structure ArithSpec (a : Arith K R) : Prop where
  mag : MagOK a.nrm a.emb
  one : a.emb 1 = 1
  mul : ∀ x y, a.emb (x * y) = a.emb x * a.emb y
  sqrt : ∀ x, 0 ≤ x → 0 ≤ a.sqrt x ∧ a.sqrt x * a.sqrt x = x
  eps : 0 ≤ a.eps

omit [Inhabited K] [IsStrictOrderedRing R] in
theorem ArithSpec.ok {a : Arith K R} (h : ArithSpec a) : ArithOK a :=
  ⟨⟨h.mag.nonneg, h.mag.scale⟩, ⟨h.one, h.mul⟩, h.sqrt, h.eps⟩

/-- Contract of the weighted matching: on a square matrix it reports no error, and returns a (possibly signed, 1-based) permutation and positive
scalings. -/
def MatchingOK (mc64 : CS K → MatchOut R) : Prop :=
  ∀ B : CS K, 0 ≤ (mc64 B).info ∧ (B.WF → B.ssize = B.psize →
    (mc64 B).perm.size = B.psize ∧ (mc64 B).s.size = B.psize ∧ (mc64 B).t.size = B.psize ∧
    Spec.IsPerm B.psize (fun i => ((mc64 B).perm.get i).natAbs - 1) ∧
    ∀ i, i < B.psize → 0 < (mc64 B).s.get i ∧ 0 < (mc64 B).t.get i)

theorem MatchingOK.for {mc64 : CS K → MatchOut R} (h : MatchingOK mc64) (a : Arith K R) (B : CS K) : MatchFor a mc64 B :=
  fun C _ hC hs => ⟨(h C).1, (h C).2 hC hs⟩

/-- Contract of an ordering: on every valid pattern it returns a permutation. -/
def OrderingOK (f : Nat → Pat → M (Buf Nat)) : Prop :=
  ∀ m b, PatWF m b → ∃ P, f m b = .ok P ∧ m ≤ P.size ∧ Spec.IsPerm m P.get

/-- Contract of an ordering of undirected graphs: on every valid symmetric pattern it returns a permutation.  `run_rcm` keeps it (`C45_rcm`). -/
def SymOrderingOK (f : Nat → Pat → M (Buf Nat)) : Prop :=
  ∀ m b, PatWF m b →
    (∀ i, i < m → ∀ j, j < m → j ∈ b.inds.slice (b.start.get i) (b.start.get (i + 1)) → i ∈ b.inds.slice (b.start.get j) (b.start.get (j + 1))) →
    ∃ P, f m b = .ok P ∧ m ≤ P.size ∧ Spec.IsPerm m P.get

/-- What the factorization relies on after the preprocessing of a level. -/
structure Preprocessed (a : Arith K R) (n m0 : Nat) (Accs Acrs : CS K) (r : Matched R) : Prop where
  lead : r.m ≤ m0
  ssz : r.s.size = n
  tsz : r.t.size = n
  spos : ∀ i, i < n → 0 < r.s.get i
  tpos : ∀ i, i < n → 0 < r.t.get i
  psz : r.p.p.size = n ∧ r.p.inv.size = n
  qsz : r.q.p.size = n ∧ r.q.inv.size = n
  pinv : Spec.Inverse n r.p.p.get r.p.inv.get
  qinv : Spec.Inverse n r.q.p.get r.q.inv.get
  tail : ∀ i, m0 ≤ i → i < n → r.p.p.get i = i ∧ r.q.p.get i = i
  good : ∀ i, i < m0 → (i < r.m ↔ ∃ v, (r.p.p.get i, v) ∈ Accs.line (r.q.p.get i) ∧
    (∀ e ∈ Acrs.line (r.p.p.get i), a.eps * a.nrm e.2 < a.nrm v) ∧ ∀ e ∈ Accs.line (r.q.p.get i), a.eps * a.nrm e.2 < a.nrm v)

/-- The preprocessing of a level, if the matching keeps its contract for the matrix it is called with. -/
theorem doPreprocess_of {a : Arith K R} (ha : ArithSpec a) {ker : Kernels K R} (hamd : OrderingOK ker.amd)
    (hrcm : SymOrderingOK ker.rcm) (isSymm : Bool) (opts : Opts R) (hre : 0 ≤ opts.reorder ∧ opts.reorder < 4)
    (n m0 level : Nat) (Accs Acrs : CS K) (h : PreIn n m0 Accs Acrs)
    (hk : ∀ B, matchInput Acrs m0 = .ok B → MatchFor a ker.mc64 B)
    (hsame : ∀ i, i < n → ∀ j, j < n → ((∃ v, (i, v) ∈ Accs.line j) ↔ ∃ v, (j, v) ∈ Acrs.line i))
    (hsym : isSymm = true → ∀ i, i < m0 → ∀ j, j < m0 → (∃ v, (i, v) ∈ Accs.line j) → ∃ v, (j, v) ∈ Accs.line i)
    (hz : opts.preScale ≠ 0 → opts.preScale ≠ 1 →
      (∀ i, i < m0 → ∃ e ∈ Acrs.line i, e.1 < m0 ∧ a.nrm e.2 ≠ 0) ∧
      (isSymm = false → ∀ j, j < m0 → ∃ i, i < m0 ∧ ∃ e ∈ Acrs.line i, e.1 = j ∧ a.nrm e.2 ≠ 0))
    (hno : isSymm = false → opts.reorder = 3 → m0 = n ∧ ∀ C : CS K, C.psize = n → ∀ i, i < n →
      Dominant a.nrm a.eps Accs Acrs (((ker.mc64 C).perm.get i).natAbs - 1) i) :
    ∃ r, doPreprocess a ker isSymm opts m0 level Accs Acrs = .ok r ∧ Preprocessed a n m0 Accs Acrs r ∧
      (isSymm = true → ∀ i, i < n → r.p.p.get i = r.q.p.get i ∧ r.s.get i = r.t.get i) := by
  have hz' : opts.preScale ≠ 0 → opts.preScale ≠ 1 → ∀ B, matchInput Acrs m0 = .ok B → NoZeroLine a.nrm isSymm B := by
    intro h0 h1 B eB
    obtain ⟨B', eB', -, b2, -, b4⟩ := matchInput_runs h
    rw [eB'] at eB
    obtain rfl := Except.ok.inj eB
    obtain ⟨z1, z2⟩ := hz h0 h1
    refine ⟨fun i hi => ?_, fun hs j hj => ?_⟩
    · rw [b2] at hi
      obtain ⟨e, e1, e2, e3⟩ := z1 i hi
      exact ⟨e, by rw [b4 i hi]; exact List.mem_filter.2 ⟨e1, by simpa using e2⟩, e3⟩
    · rw [b2] at hj
      obtain ⟨i, hi, e, e1, e2, e3⟩ := z2 hs j hj
      exact ⟨i, by rw [b2]; exact hi, e, by rw [b4 i hi]; exact List.mem_filter.2 ⟨e1, by simpa [e2] using hj⟩, e2, e3⟩
  obtain ⟨r, e, hr, g1, g2, g3⟩ := doPreprocess_runs ha.ok (ker := ker) isSymm opts level h hk hre hz'
    (fun hs h3 => ⟨(hno hs h3).1, fun C hC => (hno hs h3).2 C (by rw [hC.1]; exact h.rp)⟩)
    (fun m b hb _ => hamd m b hb) hrcm
    (fun i hi j hj => by simp only [ids_eq, List.mem_map, Prod.exists, exists_and_right, exists_eq_right]; exact hsame i hi j hj)
    (fun hs i hi j hj => by simp only [ids_eq, List.mem_map, Prod.exists, exists_and_right, exists_eq_right]; exact hsym hs i hi j hj)
  exact ⟨r, e, ⟨hr.mle, hr.ssz, hr.tsz, hr.spos, hr.tpos, ⟨g1.1, g1.2.1⟩, ⟨g2.1, g2.2.1⟩, g1.2.2, g2.2.2, hr.ptail, hr.good⟩, g3⟩

/-- C58: whenever matching and orderings keep their contracts and `Accs`, `Acrs` are the two storages of one matrix (`hsame`), whose leading
block has a symmetric pattern if it is declared symmetric (`hsym`), the preprocessing of a level succeeds with the options below: the
row and column orderings are bijections of `[0,n)` stored with their inverses, all scaling factors are positive, rows and columns beyond `m0`
keep their place, and the leading block consists of exactly those diagonals among the first `m0` that are stored and not negligible; if the matrix is
declared symmetric, both sides get the same ordering and the same scaling.
Missing: a zero row or column together with iterative scaling (`hz`, see `C59_iterative_scale_witness`), a leading block
without entries (`PreIn.lead`, see `C11_extract_leading_witness`) and, for nonsymmetric matrices, the RCM ordering with a
deferred diagonal (`hno`, see `C46_symm_pattern_witness`). -/
theorem C58_preprocess_partial {a : Arith K R} (ha : ArithSpec a) {ker : Kernels K R} (hk : MatchingOK ker.mc64) (hamd : OrderingOK ker.amd)
    (hrcm : SymOrderingOK ker.rcm) (isSymm : Bool) (opts : Opts R) (hre : 0 ≤ opts.reorder ∧ opts.reorder < 4)
    (n m0 level : Nat) (Accs Acrs : CS K) (h : PreIn n m0 Accs Acrs)
    (hsame : ∀ i, i < n → ∀ j, j < n → ((∃ v, (i, v) ∈ Accs.line j) ↔ ∃ v, (j, v) ∈ Acrs.line i))
    (hsym : isSymm = true → ∀ i, i < m0 → ∀ j, j < m0 → (∃ v, (i, v) ∈ Accs.line j) → ∃ v, (j, v) ∈ Accs.line i)
    (hz : opts.preScale ≠ 0 → opts.preScale ≠ 1 →
      (∀ i, i < m0 → ∃ e ∈ Acrs.line i, e.1 < m0 ∧ a.nrm e.2 ≠ 0) ∧
      (isSymm = false → ∀ j, j < m0 → ∃ i, i < m0 ∧ ∃ e ∈ Acrs.line i, e.1 = j ∧ a.nrm e.2 ≠ 0))
    (hno : isSymm = false → opts.reorder = 3 → m0 = n ∧ ∀ C : CS K, C.psize = n → ∀ i, i < n →
      Dominant a.nrm a.eps Accs Acrs (((ker.mc64 C).perm.get i).natAbs - 1) i) :
    ∃ r, doPreprocess a ker isSymm opts m0 level Accs Acrs = .ok r ∧ Preprocessed a n m0 Accs Acrs r ∧
      (isSymm = true → ∀ i, i < n → r.p.p.get i = r.q.p.get i ∧ r.s.get i = r.t.get i) :=
  doPreprocess_of ha hamd hrcm isSymm opts hre n m0 level Accs Acrs h (fun B _ => hk.for a B) hsame hsym hz hno

omit [CommMonoid K] [IsStrictOrderedRing R] in
/-- C58, invalid option: a reordering flag outside 0…3 is refused before anything else is done. -/
theorem C58_invalid_reorder [Mul K] (a : Arith K R) (ker : Kernels K R) (isSymm : Bool) (opts : Opts R)
    (hre : opts.reorder < 0 ∨ 3 < opts.reorder) (m0 level : Nat) (Accs Acrs : CS K) :
    doPreprocess a ker isSymm opts m0 level Accs Acrs = .error (.hif "invalid reorder flag") := by
  unfold doPreprocess
  rw [if_pos (by omega)]
  rfl

/-- C58, failed matching: an error reported by the matching for the (scaled) matrix becomes an error of the preprocessing. -/
theorem C58_matching_failed {a : Arith K R} (ha : ArithSpec a) {ker : Kernels K R} (isSymm : Bool) (opts : Opts R)
    (hre : 0 ≤ opts.reorder ∧ opts.reorder < 4) (hps : opts.preScale = 0 ∨ opts.preScale = 1)
    (n m0 level : Nat) (Accs Acrs : CS K) (h : PreIn n m0 Accs Acrs) (hk : ∀ B, (ker.mc64 B).info < 0) :
    doPreprocess a ker isSymm opts m0 level Accs Acrs = .error (.hif "MC64 matching returned negative flag!") := by
  unfold doPreprocess
  rw [if_neg (by omega)]
  unfold doMatching
  obtain ⟨B, eB, b1, b2, b3, -⟩ := matchInput_runs h
  obtain ⟨r, er, -⟩ := preScale_runs ha.ok isSymm opts.preScale b1 (by rw [b2, b3]) (fun h0 h1 => by rcases hps with h | h <;> contradiction)
    (Buf.mk' Accs.ssize (0 : R)) (Buf.mk' Accs.psize (0 : R)) (by rw [b2]; exact h.mle.trans h.cs.ge) (by rw [b2]; exact h.mle.trans h.cp.ge)
  have : eqlMatch a ker isSymm opts.preScale B (Buf.mk' Accs.ssize 0) (Buf.mk' Accs.psize 0) (Buf.mk' Accs.ssize 0) (Buf.mk' Accs.psize 0) =
      .error (.hif "MC64 matching returned negative flag!") := by
    unfold eqlMatch
    simp only [er]
    show (if (ker.mc64 r.1).info < 0 then _ else _) = _
    rw [if_pos (hk _)]
    rfl
  simp only [eB]
  show ((do
    let r ← eqlMatch a ker isSymm opts.preScale B (Buf.mk' Accs.ssize 0) (Buf.mk' Accs.psize 0) (Buf.mk' Accs.ssize 0) (Buf.mk' Accs.psize 0)
    _) >>= _ : M (Matched R)) = _
  rw [this]
  rfl

end C58

namespace ExPre

/-- A matching that returns the reversed order with unit scalings, and orderings that reverse the block. -/
noncomputable def kerR : Kernels ℝ ℝ where
  mc64 B := { info := 0, perm := ⟨B.psize, fun i => (B.psize : Int) - i⟩, s := Buf.mk' B.psize 1, t := Buf.mk' B.psize 1 }
  amd m _ := .ok ⟨m, fun i => m - 1 - i⟩
  rcm m _ := .ok ⟨m, fun i => m - 1 - i⟩

/-- The same with rational numbers, to be evaluated. -/
def kerQ : Kernels ℚ ℚ where
  mc64 B := { info := 0, perm := ⟨B.psize, fun i => (B.psize : Int) - i⟩, s := Buf.mk' B.psize 1, t := Buf.mk' B.psize 1 }
  amd m _ := .ok ⟨m, fun i => m - 1 - i⟩
  rcm m _ := .ok ⟨m, fun i => m - 1 - i⟩

/-- `[[0,0,2],[0,0,0],[3,0,0]]`, rows and columns: the middle diagonal is not stored. -/
def B3r {K : Type} [Inhabited K] [OfNat K 2] [OfNat K 3] : CS K := Ex.mk 3 3 [0, 1, 1, 2] [2, 0] [2, 3]
def B3c {K : Type} [Inhabited K] [OfNat K 2] [OfNat K 3] : CS K := Ex.mk 3 3 [0, 1, 1, 2] [2, 0] [3, 2]

end ExPre

open ExPre in
/-- Non-vacuity of C58: all hypotheses hold for real arithmetic, a kernel that returns the reversed order and a 3×3 matrix whose middle
diagonal is missing. -/
example : ArithSpec (⟨fun x => |x|, id, Real.sqrt, 1/1000, 1/1000⟩ : Arith ℝ ℝ) ∧ MatchingOK kerR.mc64 ∧ OrderingOK kerR.amd ∧
    PreIn 3 3 (B3c (K := ℝ)) B3r := by
  have hrev : ∀ n : Nat, Spec.IsPerm n (fun i => n - 1 - i) := fun n => ⟨fun i hi => by simp only; omega, fun i j hi hj e => by simp only at e; omega⟩
  refine ⟨⟨⟨fun v => abs_nonneg v, fun v r h => by show |v * r| = |v| * r; rw [abs_mul, abs_of_nonneg h]⟩, rfl, fun _ _ => rfl,
    fun x hx => ⟨Real.sqrt_nonneg x, Real.mul_self_sqrt hx⟩, by norm_num⟩, fun B => ⟨le_refl _, fun hB hs => ⟨rfl, rfl, rfl, ?_, fun i _ =>
      ⟨one_pos, one_pos⟩⟩⟩, fun m b _ => ⟨_, rfl, le_refl _, hrev m⟩, ?_⟩
  · refine ⟨fun i hi => ?_, fun i j hi hj e => ?_⟩
    · show ((B.psize : Int) - i).natAbs - 1 < B.psize
      omega
    · have e' : ((B.psize : Int) - i).natAbs - 1 = ((B.psize : Int) - j).natAbs - 1 := e
      omega
  · refine ⟨by constructor <;> decide, ExPre.sorted_of_bounded (by decide), rfl, rfl, by constructor <;> decide, ExPre.sorted_of_bounded (by decide), rfl, rfl,
      le_refl _, Or.inl rfl⟩

open ExPre in
/-- The run of that example: the two stored anti-diagonal entries lead, reversed by the ordering; the missing one is last. -/
example : (doPreprocess (⟨fun x => |x|, id, id, 1/1000, 1/1000⟩ : Arith ℚ ℚ) kerQ false ⟨1, 1, -1⟩ 3 1 B3c B3r).map
    (fun r => (r.m, [r.p.p.toList, r.p.inv.toList, r.q.p.toList], [r.s.toList, r.t.toList])) =
    .ok (2, [[0, 2, 1], [0, 2, 1], [2, 0, 1]], [[1/2, 1, 1/3], [1, 1, 1]]) := by decide +kernel

end Hif.Props
