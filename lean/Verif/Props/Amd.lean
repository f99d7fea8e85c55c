import Verif.AmdOrder
import Verif.Props.Mc64

set_option linter.unusedVariables false
set_option linter.unusedSectionVars false

/-!
# C74–C76: the approximate minimum degree ordering (`run_amd`)

`junk` is what the work arrays hold before the call, `wbig` the bound at which the marks are cleared (`Int_MAX - n` in the code), `dense` the threshold
`10 √n` above which a row is dense, `aggressive` the flag of the control array.  The theorems hold for all values of these.
-/

namespace Hif.Props

open Hif Mc64 Pre Amd

/-- A compressed pattern of dimension `m`; the entries of a column may come in any order and more than once. -/
def PatIn (m : Nat) (b : Pat) : Prop :=
  b.start.size = m + 1 ∧ b.start.get 0 = 0 ∧ (∀ c, c < m → b.start.get c ≤ b.start.get (c + 1)) ∧ b.start.get m ≤ b.inds.size ∧
  ∀ k, k < b.start.get m → b.inds.get k < m

/-- The arrays of a pattern as they are seen by the ordering. -/
def ptrs (b : Pat) : Arr := ⟨b.start.size, fun i => b.start.get i.toNat⟩
@[inherit_doc ptrs] def rows (b : Pat) : Arr := ⟨b.inds.size, fun i => b.inds.get i.toNat⟩

theorem PatIn.raw {m : Nat} {b : Pat} (h : PatIn m b) : Raw m (ptrs b) (rows b) := by
  obtain ⟨h1, h2, h3, h4, h5⟩ := h
  refine ⟨by show ((b.start.size : Nat) : Int) = _; rw [h1]; push_cast; rfl, by show ((b.start.get (0 : Int).toNat : Nat) : Int) = 0; rw [Int.toNat_zero, h2]; rfl, fun j a c => ?_, ?_, fun q a c => ?_⟩
  · have := h3 j.toNat (by omega)
    show ((b.start.get j.toNat : Nat) : Int) ≤ ((b.start.get (j + 1).toNat : Nat) : Int)
    rw [show (j + 1).toNat = j.toNat + 1 by omega]; omega
  · show ((b.start.get (m : Int).toNat : Nat) : Int) ≤ ((b.inds.size : Nat) : Int)
    rw [Int.toNat_natCast]; omega
  · have hc : q < ((b.start.get (m : Int).toNat : Nat) : Int) := c
    rw [Int.toNat_natCast] at hc
    have := h5 q.toNat (by omega)
    show 0 ≤ ((b.inds.get q.toNat : Nat) : Int) ∧ ((b.inds.get q.toNat : Nat) : Int) < m
    omega

/-- C74: **AMD** on every valid pattern, sorted or not, with or without repeated entries, symmetric or not: it ends without leaving its arrays — in particular the
workspace of `6 n + 1.2 nz + n` integers suffices, with the compressions done when it is full — and returns a permutation. -/
theorem C74_amd (wbig dense : Int) (aggressive : Bool) (junk : Nat → Int → Int) (m : Nat) (b : Pat) (h : PatIn m b) :
    ∃ P, runAmd wbig dense aggressive junk m b = .ok P ∧ P.size = m ∧ Spec.IsPerm m P.get := by
  obtain ⟨P, e, h1, h2, h3⟩ := order_runs h.raw (wbig := wbig) (dense := dense) (aggressive := aggressive) (junk := junk)
  refine ⟨⟨m, fun i => (P.get i).toNat⟩, ?_, rfl, fun i hi => ?_, fun i j hi hj e => ?_⟩
  · unfold runAmd
    show (do let p ← order m wbig dense aggressive (ptrs b) (rows b) junk; pure (⟨m, fun i => (p.get i).toNat⟩ : Buf Nat)) = _
    rw [e]; rfl
  · have := h2 i (by omega) (by omega)
    show (P.get i).toNat < m
    omega
  · have e' : (P.get i).toNat = (P.get j).toNat := e
    have a1 := h2 i (by omega) (by omega)
    have a2 := h2 j (by omega) (by omega)
    have := h3 i (by omega) (by omega) j (by omega) (by omega) (by omega)
    omega

/-- C74: hence the contract assumed of the ordering in C58 holds for `run_amd`. -/
theorem C74_contract (wbig dense : Int) (aggressive : Bool) (junk : Nat → Int → Int) : OrderingOK (runAmd wbig dense aggressive junk) := fun m b hb => by
  obtain ⟨h1, h2, h3, h4, h5, -⟩ := hb
  obtain ⟨P, e, p1, p2⟩ := C74_amd wbig dense aggressive junk m b ⟨h1, h2, h3, h4.symm.le, fun k hk => h5 k (by omega)⟩
  exact ⟨P, e, p1.symm.le, p2⟩

/-- C74: a pattern whose columns do not increase is ordered like the sorted pattern of its transpose without repetitions: the order in which the entries are
stored has no other influence. -/
theorem C74_jumbled {wbig dense : Int} {aggressive : Bool} {junk : Nat → Int → Int} {n : Nat} {ap ai : Arr} (R : Raw n ap ai) (hj : ¬ ∀ j : Int, 0 ≤ j → j < n → Inc ap ai j) :
    ∃ rp ri, Csc n rp ri ∧ (∀ i j : Int, 0 ≤ i → i < n → 0 ≤ j → j < n → (In rp ri i j ↔ In ap ai j i)) ∧
      order n wbig dense aggressive ap ai junk = order n wbig dense aggressive rp ri junk := by
  have hn : n ≠ 0 := fun h => hj fun j a c => by omega
  have hps := R.ps
  obtain ⟨st, e1, s1, s2⟩ := valid_runs R
  have hst : st = 1 := by
    rcases s1 with h | h
    · exact absurd (s2.1 h) hj
    · exact h
  subst hst
  obtain ⟨cp, e2, C, hI, h0⟩ := preprocess_runs R (rp := ⟨n + 1, junk 12⟩) (ri := ⟨ap.get n, junk 13⟩) (w := ⟨n, junk 14⟩) (flag := ⟨n, junk 15⟩) rfl rfl rfl rfl
  refine ⟨cp.1, cp.2, C, hI, ?_⟩
  have R' : Raw n cp.1 cp.2 := C.raw hn h0
  obtain ⟨st', e3, s3, s4⟩ := valid_runs R'
  have hst' : st' = 0 := s4.2 C.inc
  subst hst'
  have r1 : ap.rd n = .ok (ap.get n) := by unfold Arr.rd; rw [if_pos (by omega)]; rfl
  have r2 : cp.1.rd n = .ok (cp.1.get n) := by unfold Arr.rd; rw [if_pos (by have := C.ps; omega)]; rfl
  unfold order
  rw [if_neg hn, if_neg hn, r1, r2, e1, e3]
  show (do
    let cp ← preprocess n ap ai ⟨n + 1, junk 12⟩ ⟨ap.get n, junk 13⟩ ⟨n, junk 14⟩ ⟨n, junk 15⟩
    let r ← aat n cp.1 cp.2 ⟨n, junk 16⟩ ⟨n, junk 17⟩
    one n wbig dense aggressive cp.1 cp.2 r.2 (r.1 + r.1 / 5 + 7 * n) junk) = _
  rw [e2]
  rfl

/-- C74: a pattern with a row index out of range is refused. -/
theorem C74_refused (wbig dense : Int) (aggressive : Bool) (junk : Nat → Int → Int) (m : Nat) (b : Pat) (h1 : b.start.size = m + 1) (h2 : b.start.get 0 = 0)
    (h3 : ∀ c, c < m → b.start.get c ≤ b.start.get (c + 1)) (h4 : b.start.get m ≤ b.inds.size) (k : Nat) (hk : k < b.start.get m) (hbad : m ≤ b.inds.get k) :
    runAmd wbig dense aggressive junk m b = .error (.hif "AMD returned invalid flag") := by
  have hm : m ≠ 0 := fun e => by rw [e, h2] at hk; omega
  have e := valid_bad (n := m) (ap := ptrs b) (ai := rows b) (by show ((b.start.size : Nat) : Int) = _; rw [h1]; push_cast; rfl)
    (by show ((b.start.get (0 : Int).toNat : Nat) : Int) = 0; rw [Int.toNat_zero, h2]; rfl)
    (fun j a c => by
      have := h3 j.toNat (by omega)
      show ((b.start.get j.toNat : Nat) : Int) ≤ ((b.start.get (j + 1).toNat : Nat) : Int)
      rw [show (j + 1).toNat = j.toNat + 1 by omega]; omega)
    (by show ((b.start.get (m : Int).toNat : Nat) : Int) ≤ ((b.inds.size : Nat) : Int); rw [Int.toNat_natCast]; omega)
    ⟨(k : Int), by omega, by show (k : Int) < ((b.start.get (m : Int).toNat : Nat) : Int); rw [Int.toNat_natCast]; omega,
      Or.inr (by show (m : Int) ≤ ((b.inds.get (k : Int).toNat : Nat) : Int); rw [Int.toNat_natCast]; omega)⟩
  have r1 : (ptrs b).rd m = .ok ((ptrs b).get m) := by
    unfold Arr.rd
    rw [if_pos (by show 0 ≤ (m : Int) ∧ (m : Int) < ((b.start.size : Nat) : Int); rw [h1]; push_cast; omega)]; rfl
  unfold runAmd
  show (do let p ← order m wbig dense aggressive (ptrs b) (rows b) junk; pure (⟨m, fun i => (p.get i).toNat⟩ : Buf Nat)) = _
  unfold order
  rw [if_neg hm, r1, e]
  rfl

/-! ### C75 -/

/-- C75: **postorder of a forest**.  `parent` leads from every node with `0 < nv` to another one or is `-1`, without a cycle (`rk` grows along it).  The nodes with `0 < nv` get
distinct numbers `0, 1, …`, every node a smaller one than its parent, the others get `-1`. -/
theorem C75_postorder {n : Nat} {parent nv fsize order child sib stack : Arr} (rk : Int → Nat)
    (hF : ∀ x : Int, 0 ≤ x → x < n → 0 < nv.get x → parent.get x ≠ -1 → (0 ≤ parent.get x ∧ parent.get x < n) ∧ 0 < nv.get (parent.get x) ∧ rk x < rk (parent.get x))
    (hp : parent.size = n) (hv : nv.size = n) (hf : fsize.size = n) (ho : order.size = n) (hc : child.size = n) (hs : sib.size = n) (hst : stack.size = n)
    (hfs : ∀ x : Int, 0 ≤ x → x < n → 0 < nv.get x → -1 ≤ fsize.get x) :
    ∃ o k, postorder n parent nv fsize order child sib stack = .ok o ∧ o.size = n ∧
      (∀ x : Int, 0 ≤ x → x < n → nv.get x ≤ 0 → o.get x = -1) ∧
      (∀ x : Int, 0 ≤ x → x < n → 0 < nv.get x → 0 ≤ o.get x ∧ o.get x < k) ∧
      (∀ x : Int, 0 ≤ x → x < n → ∀ y : Int, 0 ≤ y → y < n → 0 < nv.get x → o.get x = o.get y → x = y) ∧
      (∀ t : Int, 0 ≤ t → t < k → ∃ x : Int, (0 ≤ x ∧ x < n) ∧ 0 < nv.get x ∧ o.get x = t) ∧
      ∀ x : Int, 0 ≤ x → x < n → 0 < nv.get x → parent.get x ≠ -1 → o.get x < o.get (parent.get x) := by
  obtain ⟨o, e, k, h⟩ := postorder_runs (rk := rk) ⟨hF⟩ hp hv hf ho hc hs hst hfs
  exact ⟨o, k, e, h.size, h.out, h.rng, h.inj, h.all, h.up⟩

/-! ### C76 -/

/-- C76: **lengths of the lists**: for a pattern with sorted columns, `len x` is the number of indices `y ≠ x` with an entry in position `(x, y)` or `(y, x)`, and
the sum of all lengths is returned. -/
theorem C76_lengths {n : Nat} {ap ai : Arr} (C : Csc n ap ai) (len tp : Arr) (hl : len.size = n) (ht : tp.size = n) :
    ∃ s l, aat n ap ai len tp = .ok (s, l) ∧ l.size = n ∧
      (∀ x : Int, 0 ≤ x → x < n → ∃ S : Finset Int, (∀ y, y ∈ S ↔ (0 ≤ y ∧ y < n) ∧ y ≠ x ∧ (In ap ai x y ∨ In ap ai y x)) ∧ l.get x = S.card) ∧
      s = ∑ x ∈ Finset.range n, l.get x := by
  obtain ⟨⟨s, l⟩, e, h1, h2, h3⟩ := aat_runs C hl ht
  refine ⟨s, l, e, h2, fun x a b => ⟨Nx n ap ai x, fun y => mem_Nx, h3 x a b⟩, ?_⟩
  have h1' : s = pre n ap ai n := h1
  rw [h1', pre_all]
  unfold nodes
  rw [Finset.sum_map]
  refine Finset.sum_congr rfl fun x hx => ?_
  have := Finset.mem_range.1 hx
  show _ = l.get (x : Int)
  rw [h3 x (by omega) (by omega)]
  rfl

/-- C76: **transposition** of a pattern with unsorted or repeated entries: the result has sorted columns without repetitions, and an entry in row `j` of column `i` exactly if
the pattern has one in row `i` of column `j`. -/
theorem C76_transpose {n : Nat} {ap ai : Arr} (R : Raw n ap ai) {rp ri w flag : Arr} (h1 : rp.size = n + 1) (h2 : ri.size = ap.get n) (h3 : w.size = n) (h4 : flag.size = n) :
    ∃ r, preprocess n ap ai rp ri w flag = .ok r ∧ Csc n r.1 r.2 ∧ ∀ i j : Int, 0 ≤ i → i < n → 0 ≤ j → j < n → (In r.1 r.2 i j ↔ In ap ai j i) := by
  obtain ⟨r, e, h, k, -⟩ := preprocess_runs R h1 h2 h3 h4
  exact ⟨r, e, h, k⟩

/-- C76: **every pair once**: a pass over the pattern visits each pair of distinct indices with an entry in one of the two positions exactly once — here the pairs are collected
in a list. -/
theorem C76_pairs {n : Nat} {ap ai : Arr} (C : Csc n ap ai) (tp : Arr) (ht : tp.size = n) :
    ∃ G : List (Int × Int), walk n ap ai (fun a b (G : List (Int × Int)) => pure (G ++ [(a, b)])) tp [] = .ok G ∧ (G.map und).Nodup ∧
      ∀ a b : Int, (min a b, max a b) ∈ G.map und ↔ (0 ≤ a ∧ a < n) ∧ (0 ≤ b ∧ b < n) ∧ a ≠ b ∧ (In ap ai a b ∨ In ap ai b a) := by
  obtain ⟨s, e, G, hJ, h1, h2⟩ := walk_runs C (edge := fun a b (G : List (Int × Int)) => pure (G ++ [(a, b)])) (J := fun G s => s = G) (tp := tp) (s := []) (by
    intro G a b s hs _
    rw [runs_pure, hs]) ht rfl
  subst hJ
  refine ⟨s, e, h1, fun a b => ?_⟩
  rw [h2]
  rcases lt_trichotomy a b with u | u | u
  · rw [min_eq_left u.le, max_eq_right u.le]
    exact ⟨fun ⟨x, y⟩ => ⟨by omega, by omega, by omega, y⟩, fun ⟨x, y, z, w⟩ => ⟨by omega, w⟩⟩
  · exact ⟨fun ⟨x, y⟩ => by omega, fun ⟨x, y, z, w⟩ => by omega⟩
  · rw [min_eq_right u.le, max_eq_left u.le]
    exact ⟨fun ⟨x, y⟩ => ⟨by omega, by omega, by omega, y.symm⟩, fun ⟨x, y, z, w⟩ => ⟨by omega, w.symm⟩⟩

/-! ### C58 with the library's kernels -/

section
variable {K R : Type} [CommMonoid K] [Inhabited K] [Field R] [LinearOrder R] [IsStrictOrderedRing R]

/-- C58 with the library's own matching, AMD and RCM: no assumption on a kernel is left, see `C58_preprocess_mc64_partial` for the others. -/
theorem C58_preprocess_kernels_partial {a : Arith K R} (ha : ArithSpec a) {T : Trans R} (hT : LogExp T) (junk : Nat → R) (junkI : Nat → Nat)
    (wbig dense : Int) (aggressive : Bool) (junkA : Nat → Int → Int)
    (isSymm : Bool) (opts : Opts R) (hre : 0 ≤ opts.reorder ∧ opts.reorder < 4)
    (n m0 level : Nat) (Accs Acrs : CS K) (h : PreIn n m0 Accs Acrs) (hst : Acrs.start.size = n + 1)
    (hne : ∃ i, i < m0 ∧ ∃ e ∈ Acrs.line i, e.1 < m0)
    (hnz : ∀ i, i < m0 → ∀ e ∈ Acrs.line i, e.1 < m0 → 0 < a.nrm e.2)
    (hsh : ∀ i, i < m0 → min ((Acrs.line i).filter fun e => e.1 < m0).length (m0 - 1) ≤ m0 - m0 / 2)
    (hsame : ∀ i, i < n → ∀ j, j < n → ((∃ v, (i, v) ∈ Accs.line j) ↔ ∃ v, (j, v) ∈ Acrs.line i))
    (hsym : isSymm = true → ∀ i, i < m0 → ∀ j, j < m0 → (∃ v, (i, v) ∈ Accs.line j) → ∃ v, (j, v) ∈ Accs.line i)
    (hz : opts.preScale ≠ 0 → opts.preScale ≠ 1 →
      (∀ i, i < m0 → ∃ e ∈ Acrs.line i, e.1 < m0 ∧ a.nrm e.2 ≠ 0) ∧
      (isSymm = false → ∀ j, j < m0 → ∃ i, i < m0 ∧ ∃ e ∈ Acrs.line i, e.1 = j ∧ a.nrm e.2 ≠ 0))
    (hno : isSymm = false → opts.reorder = 3 → m0 = n ∧ ∀ C : CS K, C.psize = n → ∀ i, i < n →
      Dominant a.nrm a.eps Accs Acrs (((matchOf a.nrm T junk junkI C).perm.get i).natAbs - 1) i) :
    ∃ r, doPreprocess a { mc64 := matchOf a.nrm T junk junkI, amd := runAmd wbig dense aggressive junkA, rcm := Rcm.runRcm } isSymm opts m0 level Accs Acrs = .ok r ∧
      Preprocessed a n m0 Accs Acrs r ∧ (isSymm = true → ∀ i, i < n → r.p.p.get i = r.q.p.get i ∧ r.s.get i = r.t.get i) :=
  C58_preprocess_mc64_partial ha hT junk junkI rfl (C74_contract wbig dense aggressive junkA) rfl isSymm opts hre n m0 level Accs Acrs h hst hne hnz hsh hsame hsym hz hno

end

/-! ### Examples -/

namespace ExAmd

/-- An arrow matrix: index 0 is connected with all others. -/
def arrow : Pat := ⟨Buf.ofList [0, 4, 6, 8, 10], Buf.ofList [0, 1, 2, 3, 0, 1, 0, 2, 0, 3]⟩

/-- The same in another order and with a repeated entry. -/
def arrow' : Pat := ⟨Buf.ofList [0, 4, 6, 9, 11], Buf.ofList [3, 1, 2, 0, 0, 1, 2, 0, 2, 3, 0]⟩

end ExAmd

namespace ExAmd

/-- The lower triangle of a 3 × 3 grid, without the diagonal. -/
def grid : Pat := ⟨Buf.ofList [0, 2, 4, 5, 7, 9, 10, 11, 12, 12], Buf.ofList [1, 3, 2, 4, 5, 4, 6, 5, 7, 8, 7, 8]⟩

end ExAmd

open ExAmd in
/-- Non-vacuity: they meet the hypothesis. -/
example : PatIn 4 arrow ∧ PatIn 4 arrow' ∧ PatIn 9 grid := by unfold PatIn; decide +kernel

open ExAmd in
/-- The runs: the index with the many neighbours is the last; order and repetition of the entries do not matter here, for the pattern is symmetric. -/
example : (runAmd 1000 20 true (fun k i => 7 * k - i) 4 arrow).map Buf.toList = .ok [3, 2, 1, 0] ∧
    (runAmd 1000 20 true (fun k i => 7 * k - i) 4 arrow').map Buf.toList = .ok [3, 2, 1, 0] := by decide +kernel

open ExAmd in
/-- The corners of the grid are eliminated first, its centre last. -/
example : (runAmd 1000 30 true (fun k i => 7 * k - i) 9 grid).map Buf.toList = .ok [2, 8, 0, 6, 3, 1, 5, 7, 4] := by decide +kernel

/-- Refused: row 4 of 4. -/
example : (runAmd 1000 20 true (fun k i => 7 * k - i) 4 ⟨Buf.ofList [0, 1, 2, 3, 4], Buf.ofList [0, 1, 4, 3]⟩).map Buf.toList = .error (.hif "AMD returned invalid flag") := by decide +kernel

/-- Non-vacuity of C75: a tree with the root 2, whose children are 0 and 1; node 3 is not in the tree. -/
example : (postorder 4 ⟨4, fun i => [2, 2, -1, 0].getD i.toNat 0⟩ ⟨4, fun i => [1, 2, 1, 0].getD i.toNat 0⟩ ⟨4, fun i => [5, 1, 0, 0].getD i.toNat 0⟩ ⟨4, id⟩ ⟨4, id⟩ ⟨4, id⟩ ⟨4, id⟩).map
    (fun o => [o.get 0, o.get 1, o.get 2, o.get 3]) = .ok [1, 0, 2, -1] := by decide +kernel

/-- Non-vacuity of C76: columns `{1}`, `{0, 2}`, `{}`: the pairs 0–1 and 1–2, each once. -/
example : walk 3 ⟨4, fun i => [0, 1, 3, 3].getD i.toNat 0⟩ ⟨3, fun i => [1, 0, 2].getD i.toNat 0⟩ (fun a b (G : List (Int × Int)) => pure (G ++ [(a, b)])) ⟨3, id⟩ [] = .ok [(0, 1), (2, 1)] := by
  decide +kernel

example : Csc 3 ⟨4, fun i => [0, 1, 3, 3].getD i.toNat 0⟩ ⟨3, fun i => [1, 0, 2].getD i.toNat 0⟩ := by
  refine ⟨rfl, fun j a b => ?_, fun j a b => ?_, fun j a b => ?_, fun j a b q c d => ?_, fun j a b q r c d e => ?_⟩
  all_goals
    have : j = 0 ∨ j = 1 ∨ j = 2 := by omega
  · rcases this with rfl | rfl | rfl <;> decide
  · rcases this with rfl | rfl | rfl <;> decide
  · rcases this with rfl | rfl | rfl <;> decide
  · rcases this with rfl | rfl | rfl
    · simp at c d; have : q = 0 := by omega
      subst this; decide
    · simp at c d; have : q = 1 ∨ q = 2 := by omega
      rcases this with rfl | rfl <;> decide
    · simp at c d; omega
  · rcases this with rfl | rfl | rfl
    · simp at c e; omega
    · simp at c e
      have hq : q = 1 := by omega
      have hr : r = 2 := by omega
      subst hq hr; decide
    · simp at c e; omega

end Hif.Props
