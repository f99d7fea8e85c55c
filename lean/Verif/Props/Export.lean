import Verif.Export
import Verif.Props.Conv
import Verif.Props.Prec
import Verif.SchurRes

set_option linter.unusedSectionVars false
set_option linter.unusedVariables false

/-!
# C80: exporting a level
-/

namespace Hif.Props
open Hif Spec HIF
open Export

section matrix
variable {K : Type} [AddCommMonoid K] [Inhabited K]

/-- The arrays of the user for an `A.psize`-line matrix (other order: `A.ssize` lines) with `A.nnz` entries. -/
structure TripFits (same : Bool) (A : CS K) (o : Trip K) : Prop where
  start : (if same then A.psize else A.ssize) + 1 ≤ o.start.size
  inds : A.nnz ≤ o.inds.size
  vals : A.nnz ≤ o.vals.size

/-- Exactly so. -/
structure TripExact (same : Bool) (A : CS K) (o : Trip K) : Prop where
  start : o.start.size = (if same then A.psize else A.ssize) + 1
  inds : o.inds.size = A.nnz
  vals : o.vals.size = A.nnz

/-- C80 (one matrix): exporting a valid column-major matrix into arrays of the inquired lengths stays within the arrays, touches nothing beyond the lengths, and leaves there
a valid matrix with the same entries, column-major (`same`) or row-major. -/
theorem C80_matrix (same : Bool) (A : CS K) (h : A.WF) (ht : A.Tight) (o : Trip K) (hf : TripFits same A o) :
    Runs (exportCS same A o) fun r =>
      (r.cs (if same then A.psize else A.ssize) (if same then A.ssize else A.psize)).WF ∧
      (∀ i j, i < A.ssize → j < A.psize →
        (if same then (r.cs A.psize A.ssize).ccs i j else (r.cs A.ssize A.psize).crs i j) = A.ccs i j) ∧
      (r.start.size = o.start.size ∧ r.inds.size = o.inds.size ∧ r.vals.size = o.vals.size) ∧
      (∀ i, (if same then A.psize else A.ssize) < i → r.start.get i = o.start.get i) ∧
      r.start.get (if same then A.psize else A.ssize) = A.nnz ∧
      (∀ k, A.nnz ≤ k → r.inds.get k = o.inds.get k ∧ r.vals.get k = o.vals.get k) ∧
      (same = true → (∀ i, i ≤ A.psize → r.start.get i = A.start.get i) ∧ ∀ k, k < A.nnz → r.inds.get k = A.inds.get k ∧ r.vals.get k = A.vals.get k) := by
  obtain ⟨f1, f2, f3⟩ := hf
  have e := nnz_eq h ht
  unfold exportCS
  cases same with
  | true =>
    simp only [if_true] at *
    rw [runs_bind, runs_pure]
    refine (copy3 h ht f1 f2 f3).mono ?_
    intro r hh
    rw [e]
    refine ⟨hh.wf h f1 (by rw [← e]; exact f2) (by rw [← e]; exact f3), fun i j hi hj => hh.entry h hj i, ⟨hh.sz1, hh.sz2, hh.sz3⟩, fun i hi => by rw [hh.st, if_neg (by omega)], by rw [hh.st, if_pos (by omega)],
      fun k hk => ⟨by rw [hh.ix, if_neg (by omega)], by rw [hh.vl, if_neg (by omega)]⟩, fun _ => ⟨fun i hi => by rw [hh.st, if_pos (by omega)],
      fun k hk => ⟨by rw [hh.ix, if_pos hk], by rw [hh.vl, if_pos hk]⟩⟩⟩
  | false =>
    simp only [Bool.false_eq_true, if_false, false_imp_iff, and_true] at *
    rw [other_eq ht]
    obtain ⟨B, eB, b1, b2, b3, b4, b5, b6, b7⟩ := C08_ccs_to_crs A h ht
    rw [eB, runs_bind, runs_ok]
    have eb := nnz_eq b1 b2
    have en : B.nnz = A.nnz := by rw [eb, e, ← b2.inds_size, b5, ht.inds_size]
    refine (copy3 b1 b2 (by rw [b3]; exact f1) (by rw [en]; exact f2) (by rw [en]; exact f3)).mono ?_
    intro r hh
    have ebs : B.start.get B.psize = A.nnz := by rw [← eb, en]
    have w := hh.wf b1 (by rw [b3]; exact f1) (by rw [ebs]; exact f2) (by rw [ebs]; exact f3)
    rw [b3, b4] at w
    refine ⟨w, fun i j hi hj => ?_, ⟨hh.sz1, hh.sz2, hh.sz3⟩, fun i hi => by rw [hh.st, if_neg (by omega)], by rw [hh.st, b3, if_pos (by omega), ← b3, ebs],
      fun k hk => ⟨by rw [hh.ix, if_neg (by omega)], by rw [hh.vl, if_neg (by omega)]⟩⟩
    rw [← b7 i j hi hj]
    have := hh.entry b1 (i := i) (by omega) j
    rw [b3, b4] at this
    exact this

/-- Reading the exported arrays back as a column-major matrix with `ps` columns and `ss` rows. -/
def readBack (same : Bool) (r : Trip K) (ps ss : Nat) : M (CS K) := if same then pure (r.cs ps ss) else (r.cs ss ps).convert

/-- C80 (round trip): export into arrays allocated with the inquired lengths and read back. -/
theorem C80_matrix_roundtrip (same : Bool) (A : CS K) (h : A.WF) (ht : A.Tight) (o : Trip K) (hf : TripExact same A o) :
    Runs (exportCS same A o) fun r => Runs (readBack same r A.psize A.ssize) fun B => B.WF ∧ B.Tight ∧ B.psize = A.psize ∧ B.ssize = A.ssize ∧
      ∀ i j, i < A.ssize → j < A.psize → B.ccs i j = A.ccs i j := by
  refine (C80_matrix same A h ht o ⟨by rw [hf.start], by rw [hf.inds], by rw [hf.vals]⟩).mono ?_
  rintro r ⟨w, en, ⟨z1, z2, z3⟩, -, hn, -, -⟩
  unfold readBack
  cases same with
  | true =>
    simp only [if_true] at *
    rw [runs_pure]
    exact ⟨w, ⟨by show r.start.size = _; rw [z1, hf.start]; rfl, by show r.inds.size = r.start.get A.psize; rw [z2, hf.inds, hn],
      by show r.vals.size = r.start.get A.psize; rw [z3, hf.vals, hn]⟩, rfl, rfl, en⟩
  | false =>
    simp only [Bool.false_eq_true, if_false] at *
    have t : (r.cs A.ssize A.psize).Tight := ⟨by show r.start.size = _; rw [z1, hf.start]; rfl, by show r.inds.size = r.start.get A.ssize; rw [z2, hf.inds, hn],
      by show r.vals.size = r.start.get A.ssize; rw [z3, hf.vals, hn]⟩
    obtain ⟨B, eB, b1, b2, b3, b4, b5, b6, b7⟩ := C08_crs_to_ccs _ w t
    rw [eB, runs_ok]
    exact ⟨b1, b2, b3, b4, fun i j hi hj => by rw [b7 i j hi hj, en i j hi hj]⟩

end matrix

section level
variable {K : Type} [Field K] [Inhabited K]

/-- A level with exactly sized, valid blocks of the right shapes. -/
structure Exportable (P : Prec K) : Prop where
  ok : P.OK
  L : P.L.Tight
  U : P.U.Tight
  E : P.E.WF ∧ P.E.Tight ∧ P.E.psize = P.m ∧ P.E.ssize = P.n - P.m
  F : P.F.WF ∧ P.F.Tight ∧ P.F.ssize = P.m

/-- Arrays allocated by the answers `(m, n, nnz L, nnz U, nnz E, nnz F)` of `inquire_sizes`. -/
structure Allocated (same : Bool) (z : Nat × Nat × Nat × Nat × Nat × Nat) (o : Out K) : Prop where
  L : o.L.start.size = z.1 + 1 ∧ o.L.inds.size = z.2.2.1 ∧ o.L.vals.size = z.2.2.1
  d : o.d.size = z.1
  U : o.U.start.size = z.1 + 1 ∧ o.U.inds.size = z.2.2.2.1 ∧ o.U.vals.size = z.2.2.2.1
  E : o.E.start.size = (if same then z.1 else z.2.1 - z.1) + 1 ∧ o.E.inds.size = z.2.2.2.2.1 ∧ o.E.vals.size = z.2.2.2.2.1
  F : o.F.start.size = (if same then z.2.1 - z.1 else z.1) + 1 ∧ o.F.inds.size = z.2.2.2.2.2 ∧ o.F.vals.size = z.2.2.2.2.2
  s : o.s.size = z.2.1
  t : o.t.size = z.2.1
  p : o.p.size = z.2.1
  pinv : o.pinv.size = z.2.1
  q : o.q.size = z.2.1
  qinv : o.qinv.size = z.2.1

/-- What a user does with the exported arrays: build the level again. -/
def rebuild (same : Bool) (m n : Nat) (last : Last K) (r : Out K) : M (Prec K) := do
  let L ← readBack same r.L m m
  let U ← readBack same r.U m m
  let E ← readBack same r.E m (n - m)
  let F ← readBack same r.F (n - m) m
  pure ⟨m, n, L, r.d, U, E, F, r.s, r.t, r.p, r.pinv, r.q, r.qinv, last⟩

/-- Two levels with the same matrices, vectors and permutations. -/
structure SameLevel (P Q : Prec K) : Prop where
  m : Q.m = P.m
  n : Q.n = P.n
  L : ∀ i j, i < P.m → j < P.m → Q.L.ccs i j = P.L.ccs i j
  U : ∀ i j, i < P.m → j < P.m → Q.U.ccs i j = P.U.ccs i j
  E : ∀ i j, i < P.n - P.m → j < P.m → Q.E.ccs i j = P.E.ccs i j
  F : ∀ i j, i < P.m → j < P.n - P.m → Q.F.ccs i j = P.F.ccs i j
  d : ∀ i, i < P.m → Q.d.get i = P.d.get i
  s : ∀ i, i < P.n → Q.s.get i = P.s.get i
  t : ∀ i, i < P.n → Q.t.get i = P.t.get i
  p : ∀ i, i < P.n → Q.p.get i = P.p.get i
  pinv : ∀ i, i < P.n → Q.pinv.get i = P.pinv.get i
  q : ∀ i, i < P.n → Q.q.get i = P.q.get i
  qinv : ∀ i, i < P.n → Q.qinv.get i = P.qinv.get i
  last : Q.last = P.last

/-- Reading back one block within `rebuild`. -/
theorem back {same : Bool} {A : CS K} (h : A.WF) (ht : A.Tight) {ps ss : Nat} (hp : A.psize = ps) (hs : A.ssize = ss) {o r : Trip K}
    (h1 : o.start.size = (if same then ps else ss) + 1) (h2 : o.inds.size = A.nnz) (h3 : o.vals.size = A.nnz) (hr : exportCS same A o = .ok r) :
    Runs (readBack same r ps ss) fun B => B.WF ∧ B.Tight ∧ B.psize = ps ∧ B.ssize = ss ∧ ∀ i j, i < ss → j < ps → B.ccs i j = A.ccs i j := by
  subst hp hs
  obtain ⟨r', e, hh⟩ := C80_matrix_roundtrip same A h ht o ⟨h1, h2, h3⟩
  rw [hr] at e
  cases e
  exact hh

/-- C80 (one level): for every level and every way to allocate the user's arrays by the answers of `inquire_sizes`, the export, row- or column-major, stays within the arrays; the level
built again from the arrays is valid and has the same matrices, vectors and permutations; without `jit_destroy` the exported level is unchanged. -/
theorem C80_level (same destroy : Bool) (P : Prec K) (h : Exportable P) (o : Out K) (ha : Allocated same (sizes P) o) :
    Runs (exportSparse same destroy P o) fun x => (destroy = false → x.2 = P) ∧
      Runs (rebuild same P.m P.n P.last x.1) fun Q => Exportable Q ∧ SameLevel P Q := by
  obtain ⟨ok, tL, tU, ⟨wE, tE, pE, sE⟩, wF, tF, sF⟩ := h
  have pF := ok.F_p
  obtain ⟨aL, ad, aU, aE, aF, as, at', ap, apv, aq, aqv⟩ := ha
  simp only [sizes] at *
  have key : ∀ {A : CS K} (_ : A.WF) (_ : A.Tight) {ps ss : Nat} (_ : A.psize = ps) (_ : A.ssize = ss) {o : Trip K}
      (_ : o.start.size = (if same then ps else ss) + 1 ∧ o.inds.size = A.nnz ∧ o.vals.size = A.nnz),
      Runs (exportCS same A o) fun r => Runs (readBack same r ps ss) fun B => B.WF ∧ B.Tight ∧ B.psize = ps ∧ B.ssize = ss ∧
        ∀ i j, i < ss → j < ps → B.ccs i j = A.ccs i j := by
    intro A w t ps ss hp hs o hh
    subst hp hs
    exact C80_matrix_roundtrip same A w t o ⟨hh.1, hh.2.1, hh.2.2⟩
  have same2 : ∀ a : Nat, (if same then a else a) = a := fun a => by split <;> rfl
  unfold exportSparse
  rw [runs_bind]
  refine (key ok.L_wf tL ok.L_p ok.L_s (by rw [same2]; exact aL)).mono ?_
  intro L hL
  rw [runs_bind]
  refine (copyN_runs ok.d_size (by omega)).mono ?_
  rintro d ⟨zd, gd⟩
  rw [runs_bind]
  refine (key ok.U_wf tU ok.U_p ok.U_s (by rw [same2]; exact aU)).mono ?_
  intro U hU
  rw [runs_bind]
  refine (key wE tE pE sE aE).mono ?_
  intro E hE
  rw [runs_bind]
  refine (key wF tF pF sF aF).mono ?_
  intro F hF
  rw [runs_bind]
  refine (copyN_runs ok.s_size (by omega)).mono ?_
  rintro s ⟨zs, gs⟩
  rw [runs_bind]
  refine (copyN_runs ok.t_size (by omega)).mono ?_
  rintro t ⟨zt, gt⟩
  rw [runs_bind]
  refine (copyN_runs ok.p_size (by omega)).mono ?_
  rintro p ⟨zp, gp⟩
  rw [runs_bind]
  refine (copyN_runs ok.pinv_size (by omega)).mono ?_
  rintro pinv ⟨zpv, gpv⟩
  rw [runs_bind]
  refine (copyN_runs ok.q_size (by omega)).mono ?_
  rintro q ⟨zq, gq⟩
  rw [runs_bind]
  refine (copyN_runs ok.qinv_size (by omega)).mono ?_
  rintro qinv ⟨zqv, gqv⟩
  rw [runs_pure]
  refine ⟨fun hd => by rw [hd]; rfl, ?_⟩
  unfold rebuild
  rw [runs_bind]
  refine hL.mono ?_
  rintro L' ⟨l1, l2, l3, l4, l5⟩
  rw [runs_bind]
  refine hU.mono ?_
  rintro U' ⟨u1, u2, u3, u4, u5⟩
  rw [runs_bind]
  refine hE.mono ?_
  rintro E' ⟨e1, e2, e3, e4, e5⟩
  rw [runs_bind]
  refine hF.mono ?_
  rintro F' ⟨f1, f2, f3, f4, f5⟩
  rw [runs_pure]
  have hle := ok.le
  have ed : ∀ i, i < P.m → d.get i = P.d.get i := fun i hi => by rw [gd, if_pos hi]
  have es : ∀ i, i < P.n → s.get i = P.s.get i := fun i hi => by rw [gs, if_pos hi]
  have et : ∀ i, i < P.n → t.get i = P.t.get i := fun i hi => by rw [gt, if_pos hi]
  have ep : ∀ i, i < P.n → p.get i = P.p.get i := fun i hi => by rw [gp, if_pos hi]
  have epv : ∀ i, i < P.n → pinv.get i = P.pinv.get i := fun i hi => by rw [gpv, if_pos hi]
  have eq : ∀ i, i < P.n → q.get i = P.q.get i := fun i hi => by rw [gq, if_pos hi]
  have eqv : ∀ i, i < P.n → qinv.get i = P.qinv.get i := fun i hi => by rw [gqv, if_pos hi]
  have inv : ∀ {f g f' g' : Nat → Nat}, Inverse P.n f g → (∀ i, i < P.n → f' i = f i) → (∀ i, i < P.n → g' i = g i) → Inverse P.n f' g' := by
    rintro f g f' g' ⟨a, b⟩ h1 h2
    refine ⟨fun i hi => ?_, fun i hi => ?_⟩
    · rw [h1 i hi, h2 _ (a i hi).1]; exact a i hi
    · rw [h2 i hi, h1 _ (b i hi).1]; exact b i hi
  refine ⟨⟨⟨hle, l1, l3, l4, u1, u3, u4, fun _ => ⟨e1, e3, e4⟩, fun _ => ⟨f1, f4⟩, f3, by show P.m ≤ d.size; omega, by show P.n ≤ s.size; omega,
    by show P.n ≤ t.size; omega, by show P.n ≤ p.size; omega, by show P.n ≤ pinv.size; omega, by show P.n ≤ q.size; omega, by show P.n ≤ qinv.size; omega, inv ok.p_inv ep epv,
    inv ok.q_inv eq eqv, fun i hi j hj hij => ?_, fun i hi j hj hij => ?_, fun i hi => ?_, fun i hi => ?_, fun i hi => ?_⟩, l2, u2, ⟨e1, e2, e3, e4⟩, f1, f2, f4⟩,
    rfl, rfl, fun i j hi hj => l5 i j hi hj, fun i j hi hj => u5 i j hi hj, fun i j hi hj => e5 i j hi hj, fun i j hi hj => f5 i j hi hj, ed, es, et, ep, epv, eq, eqv, rfl⟩
  · exact (l5 i j hi hj).trans (ok.lower i hi j hj hij)
  · exact (u5 i j hi hj).trans (ok.upper i hi j hj hij)
  · show d.get i ≠ 0
    rw [ed i hi]; exact ok.d_ne i hi
  · show s.get i ≠ 0
    rw [es i hi]; exact ok.s_ne i hi
  · show t.get i ≠ 0
    rw [et i hi]; exact ok.t_ne i hi

end level

/-! ### a preconditioner built again from exported levels -/

section chain
variable {K : Type} [Field K] [StarRing K]

/-- Two levels agree as mathematical objects. -/
structure LvSame (v w : Level K) : Prop where
  m : w.m = v.m
  n : w.n = v.n
  L : ∀ i j, i < v.m → j < v.m → w.L i j = v.L i j
  U : ∀ i j, i < v.m → j < v.m → w.U i j = v.U i j
  E : ∀ i j, i < v.n - v.m → j < v.m → w.E i j = v.E i j
  F : ∀ i j, i < v.m → j < v.n - v.m → w.F i j = v.F i j
  d : ∀ i, i < v.m → w.d i = v.d i
  s : ∀ i, i < v.n → w.s i = v.s i
  t : ∀ i, i < v.n → w.t i = v.t i
  p : ∀ i, i < v.n → w.p i = v.p i
  q : ∀ i, i < v.n → w.q i = v.q i

theorem LvSame.adj {v w : Level K} (h : LvSame v w) : LvSame v.adj w.adj :=
  ⟨h.m, h.n, fun i j hi hj => congrArg star (h.U j i hj hi), fun i j hi hj => congrArg star (h.L j i hj hi), fun i j hi hj => congrArg star (h.F j i hj hi),
    fun i j hi hj => congrArg star (h.E j i hj hi), fun i hi => congrArg star (h.d i hi), h.t, h.s, h.q, h.p⟩

theorem SameLevel.lv {P Q : Prec K} (h : SameLevel P Q) : LvSame P.toLevel Q.toLevel :=
  ⟨h.m, h.n, h.L, h.U, h.E, h.F, h.d, h.s, h.t, h.p, h.q⟩

theorem mulVec_mat {n : Nat} {A B : Nat → Nat → K} {x : Nat → K} {i : Nat} (h : ∀ j, j < n → B i j = A i j) : mulVec n B x i = mulVec n A x i :=
  Finset.sum_congr rfl fun j hj => by rw [h j (Finset.mem_range.1 hj)]

theorem ldu_mat {m : Nat} {L L' U U' : Nat → Nat → K} {d d' x : Nat → K} (hL : ∀ i j, i < m → j < m → L' i j = L i j) (hU : ∀ i j, i < m → j < m → U' i j = U i j)
    (hd : ∀ i, i < m → d' i = d i) {i : Nat} (hi : i < m) : ldu m L' d' U' x i = ldu m L d U x i := by
  unfold ldu
  have e : ∀ j, j < m → d' j * (x j + mulVec m U' x j) = d j * (x j + mulVec m U x j) := fun j hj => by rw [hd j hj, mulVec_mat fun c hc => hU j c hj hc]
  rw [e i hi, mulVec_mat fun c hc => hL i c hi hc]
  congr 1
  exact mulVec_congr' e i

/-- The operator depends on the levels as mathematical objects only. -/
theorem applies_same {S : Nat → Nat → K} {kf : Nat} : ∀ {vs ws : List (Level K)} {k : Nat}, Chain vs k kf → List.Forall₂ LvSame vs ws →
    ∀ {x b : Nat → K}, Applies S ws k x b → Applies S vs k x b
  | [], _, k, _, .nil, x, b, h => h
  | v :: vs, _, k, ⟨hn, ok, hc⟩, .cons (b := w) (l₂ := ws) h1 h2, x, b, ⟨a1, z, g, a2, a3, a4⟩ => by
    have hle := ok.le
    have em := h1.m
    have en := h1.n
    simp only [em, en] at a1 a2 a3 a4
    have eb : ∀ i, i < v.n → w.s (w.p i) * b (w.p i) = v.s (v.p i) * b (v.p i) := fun i hi => by rw [h1.p i hi, h1.s _ (ok.p_perm.1 i hi)]
    have ex : ∀ i, i < v.n → x (w.q i) / w.t (w.q i) = x (v.q i) / v.t (v.q i) := fun i hi => by rw [h1.q i hi, h1.t _ (ok.q_perm.1 i hi)]
    refine ⟨fun i hi => ?_, z, g, fun i hi => ?_, ?_, fun i hi => ?_⟩
    · have := a1 i hi
      rw [eb i (by omega), ldu_mat h1.L h1.U h1.d hi, ldu_congr (y := fun j => x (v.q j) / v.t (v.q j)) (fun c hc => ex c (by omega)) hi, mulVec_mat (fun j hj => h1.F i j hi hj),
        mulVec_congr' (y := fun j => x (v.q (v.m + j)) / v.t (v.q (v.m + j))) (fun c hc => ex (v.m + c) (by omega)) i] at this
      exact this
    · have := a2 i hi
      rw [eb i (by omega), ldu_mat h1.L h1.U h1.d hi] at this
      exact this
    · have := applies_same hc h2 a3
      exact Applies.congr hc this (fun i hi => ex (v.m + i) (by omega)) (fun _ _ => rfl)
    · have := a4 i hi
      rw [eb (v.m + i) (by omega), mulVec_mat (fun j hj => h1.E i j hi hj)] at this
      exact this

theorem good_same {r : Nat} {S : Nat → Nat → K} {kf : Nat} : ∀ {ps qs : List (Prec K)} {k : Nat}, Prec.Good r S kf ps k → List.Forall₂ (fun P Q => Q.OK ∧ SameLevel P Q) ps qs →
    Prec.Good r S kf qs k
  | [], _, _, h, _ => h.elim
  | P :: ps, _, k, ⟨h1, h2, h3⟩, .cons (b := Q) (l₂ := qs) ⟨ok, hs⟩ ht => by
    refine ⟨hs.n.trans h1, ok, ?_⟩
    have e : Q.isLast = P.isLast := by unfold Prec.isLast; rw [hs.last, hs.m, hs.n]
    rw [e]
    split
    · rename_i c
      rw [if_pos c] at h3
      obtain ⟨rfl, h4, h5⟩ := h3
      cases ht
      exact ⟨rfl, by rw [hs.n, hs.m]; exact h4, by rw [hs.last]; exact h5⟩
    · rename_i c
      rw [if_neg c] at h3
      rw [hs.n, hs.m]
      exact good_same h3 ht

variable [Inhabited K]

/-- `Q` is `P` exported into freshly allocated arrays (row- or column-major) and built again with the same dense solver. -/
def Reimported (same : Bool) (P Q : Prec K) : Prop :=
  ∃ o destroy x, Allocated same (sizes P) o ∧ exportSparse same destroy P o = .ok x ∧ rebuild same P.m P.n P.last x.1 = .ok Q

theorem reimported_same {same : Bool} {P Q : Prec K} (h : Exportable P) (hr : Reimported same P Q) : Q.OK ∧ SameLevel P Q := by
  obtain ⟨o, destroy, x, ha, e1, e2⟩ := hr
  obtain ⟨x', e1', -, Q', e2', hq, hs⟩ := C80_level same destroy P h o ha
  rw [e1] at e1'
  cases e1'
  rw [e2] at e2'
  cases e2'
  exact ⟨hq.ok, hs⟩

/-- C80 (whole preconditioner): a preconditioner built again from its exported levels, row- or column-major, returns the same vector for every right-hand side, also with the
transpose flag. -/
theorem C80_rebuilt_solves (same : Bool) (junk junk' : Nat → K) (h h' : HIF K) (r : Nat) (S : Nat → Nat → K) (kf k : Nat) (hg : Prec.Good r S kf h.precs k)
    (hx : ∀ P ∈ h.precs, Exportable P) (hq : List.Forall₂ (Reimported same) h.precs h'.precs) (hr : Ready h) (hr' : Ready h') (trans : Bool)
    (hn : (if trans then h.nspTran else h.nsp) = none) (hn' : (if trans then h'.nspTran else h'.nsp) = none) (b y₀ z₀ : Buf K) (hb : b.size = k) (hy : y₀.size = k) (hz : z₀.size = k) :
    ∃ h₁ y h₂ z, solve junk b y₀ trans r h = (h₁, .ok y) ∧ solve junk' b z₀ trans r h' = (h₂, .ok z) ∧ y.size = k ∧ z.size = k ∧ ∀ i, i < k → z.get i = y.get i := by
  have hq' : List.Forall₂ (fun P Q => Q.OK ∧ SameLevel P Q) h.precs h'.precs := by
    generalize h.precs = ps at hx hq
    generalize h'.precs = qs at hq
    clear hg hr hr' hn hn'
    induction hq with
    | nil => exact .nil
    | cons a t ih => exact .cons (reimported_same (hx _ (List.mem_cons_self ..)) a) (ih fun P hP => hx P (List.mem_cons_of_mem _ hP))
  have hl : List.Forall₂ LvSame (h.precs.map Prec.toLevel) (h'.precs.map Prec.toLevel) := by
    rw [List.forall₂_map_left_iff, List.forall₂_map_right_iff]
    exact hq'.imp fun P Q hh => hh.2.lv
  have hg' := good_same hg hq'
  obtain ⟨h₁, y, e1, -, s1, a1⟩ := solve_does (junk := junk) hg hr trans hn b y₀ hb hy
  obtain ⟨h₂, z, e2, -, s2, a2⟩ := solve_does (junk := junk') hg' hr' trans hn' b z₀ hb hz
  refine ⟨h₁, y, h₂, z, e1, e2, s1, s2, ?_⟩
  cases trans with
  | false => exact Applies.unique_x hg.injective.1 hg.chain (applies_same hg.chain hl a2) a1 (fun _ _ => rfl)
  | true =>
    have hl' : List.Forall₂ LvSame ((h.precs.map Prec.toLevel).map Level.adj) ((h'.precs.map Prec.toLevel).map Level.adj) := by
      rw [List.forall₂_map_left_iff, List.forall₂_map_right_iff]
      exact hl.imp fun P Q hh => hh.adj
    exact Applies.unique_x hg.injective.2 (Prec.adj_chain hg.chain) (applies_same (Prec.adj_chain hg.chain) hl' a2) a1 (fun _ _ => rfl)

end chain

/-! ### `jit_destroy`, default-constructed blocks, the dense block -/

section rest
variable {K : Type} [Inhabited K]

/-- C80 (jit_destroy): afterwards the level has no rows and holds nothing, except `L`, which keeps all its memory and is still reported by `inquire_sizes`. -/
theorem C80_jit (same : Bool) (P : Prec K) (o : Out K) (x : Out K × Prec K) (hx : exportSparse same true P o = .ok x) :
    sizes x.2 = (0, 0, P.L.nnz, 0, 0, 0) ∧ x.2.L = P.L ∧ x.2.d.size = 0 ∧ x.2.s.size = 0 ∧ x.2.t.size = 0 ∧ x.2.p.size = 0 ∧ x.2.pinv.size = 0 ∧ x.2.q.size = 0 ∧
      x.2.qinv.size = 0 ∧ x.2.U.inds.size = 0 ∧ x.2.U.vals.size = 0 ∧ x.2.E.inds.size = 0 ∧ x.2.E.vals.size = 0 ∧ x.2.F.inds.size = 0 ∧ x.2.F.vals.size = 0 ∧ x.2.last = P.last := by
  have : x.2 = jit P := by
    unfold exportSparse at hx
    obtain ⟨_, _, hx⟩ := SchurIn.bind_ok_inv hx
    obtain ⟨_, _, hx⟩ := SchurIn.bind_ok_inv hx
    obtain ⟨_, _, hx⟩ := SchurIn.bind_ok_inv hx
    obtain ⟨_, _, hx⟩ := SchurIn.bind_ok_inv hx
    obtain ⟨_, _, hx⟩ := SchurIn.bind_ok_inv hx
    obtain ⟨_, _, hx⟩ := SchurIn.bind_ok_inv hx
    obtain ⟨_, _, hx⟩ := SchurIn.bind_ok_inv hx
    obtain ⟨_, _, hx⟩ := SchurIn.bind_ok_inv hx
    obtain ⟨_, _, hx⟩ := SchurIn.bind_ok_inv hx
    obtain ⟨_, _, hx⟩ := SchurIn.bind_ok_inv hx
    obtain ⟨_, _, hx⟩ := SchurIn.bind_ok_inv hx
    cases hx
    rfl
  rw [this]
  exact ⟨rfl, rfl, rfl, rfl, rfl, rfl, rfl, rfl, rfl, rfl, rfl, rfl, rfl, rfl, rfl, rfl⟩

/-- C80 (levels without leading block): if a level eliminates nothing its triangular factors are default-constructed; exporting them column-major reads the first element of an empty
array, row-major it works. -/
theorem C80_empty_level_witness (o : Trip K) :
    exportCS true (destroyed : CS K) o = .error .oob ∧ (1 ≤ o.start.size → Runs (exportCS false (destroyed : CS K) o) fun r => r.start.get 0 = 0) := by
  refine ⟨rfl, fun h => ?_⟩
  unfold exportCS other
  simp only [Bool.false_eq_true, if_false]
  rw [if_pos (show (destroyed : CS K).start.size = 0 from rfl), runs_bind, runs_pure, runs_bind]
  refine (copyN_runs (le_refl _) h).mono ?_
  rintro st ⟨s1, g1⟩
  rw [runs_bind]
  refine (copyN_runs (n := 0) (Nat.zero_le _) (Nat.zero_le _)).mono ?_
  intro ix _
  rw [runs_bind]
  refine (copyN_runs (n := 0) (Nat.zero_le _) (Nat.zero_le _)).mono ?_
  intro vl _
  rw [runs_pure]
  show st.get 0 = 0
  exact (g1 0).trans (if_pos (Nat.zero_lt_succ _))

/-- C80 (dense block): a first call without array reports the shape, a second one with an array of `nrows * ncols` elements fills it with the matrix that was given to the dense solver
(`set_matrix` keeps it as backup while `factorize` overwrites the other copy), whichever of the two solvers is used. -/
theorem C80_dense (debug destroy : Bool) (a b : DenseMats K) (useSymm : Bool) (h : if useSymm then a.mat.size = 0 ∧ b.mat.size ≠ 0 else a.mat.size ≠ 0)
    (hs : (if useSymm then b else a).backup.size = (if useSymm then b else a).nrows * (if useSymm then b else a).ncols) (n0 n1 : Nat) (u : Buf K)
    (hu : u.size = (if useSymm then b else a).nrows * (if useSymm then b else a).ncols) :
    denseExport debug a b none n0 n1 destroy = .ok (a, b, none, (if useSymm then b else a).nrows, (if useSymm then b else a).ncols) ∧
    ∃ a' b' v, denseExport debug a b (some u) n0 n1 destroy = .ok (a', b', some v, n0, n1) ∧ v.size = u.size ∧
      (∀ i, i < u.size → v.get i = (if useSymm then b else a).backup.get i) ∧ (destroy = false → a' = a ∧ b' = b) := by
  cases useSymm with
  | false =>
    simp only [Bool.false_eq_true, if_false] at *
    obtain ⟨v, e, h1, h2⟩ := copyN_runs (n := a.backup.size) (src := a.backup) (dst := u) (le_refl _) (by omega)
    refine ⟨by unfold denseExport; rw [if_pos h]; rfl, if destroy then { a with mat := Buf.mk' 0 default, backup := Buf.mk' 0 default } else a, b, v, ?_, h1,
      fun i hi => by rw [h2, if_pos (by omega)], ?_⟩
    · unfold denseExport
      rw [if_pos h]
      simp only [e]
      rfl
    · rintro rfl
      exact ⟨rfl, rfl⟩
  | true =>
    simp only [if_true] at *
    obtain ⟨v, e, h1, h2⟩ := copyN_runs (n := b.backup.size) (src := b.backup) (dst := u) (le_refl _) (by omega)
    refine ⟨by unfold denseExport; rw [if_neg (by omega), if_neg (fun c => h.2 c.1)]; rfl, a,
      if destroy then { b with mat := Buf.mk' 0 default, backup := Buf.mk' 0 default } else b, v, ?_, h1, fun i hi => by rw [h2, if_pos (by omega)], ?_⟩
    · unfold denseExport
      rw [if_neg (by omega), if_neg (fun c => h.2 c.1)]
      simp only [e]
      rfl
    · rintro rfl
      exact ⟨rfl, rfl⟩

/-- C80 (dense block, exported with `destroy`): both solvers then count as empty; a further export raises an error in a debug build and otherwise reports the shape of the symmetric
solver, which was never used. -/
theorem C80_dense_destroyed (a b : DenseMats K) (ha : a.mat.size ≠ 0) (hb : b.mat.size = 0) (u : Buf K) (n0 n1 : Nat) (x)
    (hx : denseExport false a b (some u) n0 n1 true = .ok x) :
    denseExport true x.1 x.2.1 none n0 n1 true = .error (.hif "fatal") ∧ denseExport false x.1 x.2.1 none n0 n1 true = .ok (x.1, x.2.1, none, b.nrows, b.ncols) := by
  unfold denseExport at hx
  rw [if_pos ha] at hx
  obtain ⟨v, -, hx⟩ := SchurIn.bind_ok_inv hx
  cases hx
  refine ⟨?_, ?_⟩
  · unfold denseExport
    rw [if_neg (by simp), if_pos ⟨hb, rfl⟩]
    rfl
  · unfold denseExport
    rw [if_neg (by simp), if_neg (by simp)]
    rfl

end rest

namespace ExportEx
open Ex

theorem P1_exportable : Exportable P1 :=
  ⟨P1_ok, ⟨rfl, rfl, rfl⟩, ⟨rfl, rfl, rfl⟩, ⟨by constructor <;> decide, ⟨rfl, rfl, rfl⟩, rfl, rfl⟩, by constructor <;> decide, ⟨rfl, rfl, rfl⟩, rfl⟩

theorem P2_exportable : Exportable P2 :=
  ⟨P2_ok, ⟨rfl, rfl, rfl⟩, ⟨rfl, rfl, rfl⟩, ⟨by constructor <;> decide, ⟨rfl, rfl, rfl⟩, rfl, rfl⟩, by constructor <;> decide, ⟨rfl, rfl, rfl⟩, rfl⟩

/-- Arrays for the level `P1`. -/
def out1 (same : Bool) : Out ℚ :=
  { L := ⟨Buf.mk' 3 9, Buf.mk' 1 9, Buf.mk' 1 9⟩, d := Buf.mk' 2 9, U := ⟨Buf.mk' 3 9, Buf.mk' 1 9, Buf.mk' 1 9⟩,
    E := ⟨Buf.mk' (if same then 3 else 2) 9, Buf.mk' 2 9, Buf.mk' 2 9⟩, F := ⟨Buf.mk' (if same then 2 else 3) 9, Buf.mk' 1 9, Buf.mk' 1 9⟩,
    s := Buf.mk' 3 9, t := Buf.mk' 3 9, p := Buf.mk' 3 9, pinv := Buf.mk' 3 9, q := Buf.mk' 3 9, qinv := Buf.mk' 3 9 }

/-- Non-vacuity: a level with entries in all blocks meets the hypotheses of `C80_level`, in both formats. -/
example : Exportable P1 ∧ Allocated true (sizes P1) (out1 true) ∧ Allocated false (sizes P1) (out1 false) ∧ sizes P1 = (2, 3, 1, 1, 2, 1) :=
  ⟨P1_exportable, ⟨⟨rfl, rfl, rfl⟩, rfl, ⟨rfl, rfl, rfl⟩, ⟨rfl, rfl, rfl⟩, ⟨rfl, rfl, rfl⟩, rfl, rfl, rfl, rfl, rfl, rfl⟩,
    ⟨⟨rfl, rfl, rfl⟩, rfl, ⟨rfl, rfl, rfl⟩, ⟨rfl, rfl, rfl⟩, ⟨rfl, rfl, rfl⟩, rfl, rfl, rfl, rfl, rfl, rfl⟩, rfl⟩

/-- The row-major export of `F` of `P1`. -/
example : ((exportCS false P1.F ⟨Buf.mk' 3 9, Buf.mk' 1 9, Buf.mk' 1 9⟩).toOption.map fun r => (r.start.toList, r.inds.toList, r.vals.toList)) = some ([0, 1, 1], [0], [5]) := by
  decide +kernel

/-- Every level can be exported and built again, so the hypothesis `Reimported` of `C80_rebuilt_solves` can be met for the whole preconditioner `[P1, P2]`. -/
example (same : Bool) : ∃ qs, List.Forall₂ (Reimported same) [P1, P2] qs := by
  have one : ∀ P : Prec ℚ, Exportable P → ∃ Q, Reimported same P Q := by
    intro P hP
    let o : Out ℚ :=
      { L := ⟨Buf.mk' (P.m + 1) 9, Buf.mk' P.L.nnz 9, Buf.mk' P.L.nnz 9⟩, d := Buf.mk' P.m 9, U := ⟨Buf.mk' (P.m + 1) 9, Buf.mk' P.U.nnz 9, Buf.mk' P.U.nnz 9⟩,
        E := ⟨Buf.mk' ((if same then P.m else P.n - P.m) + 1) 9, Buf.mk' P.E.nnz 9, Buf.mk' P.E.nnz 9⟩,
        F := ⟨Buf.mk' ((if same then P.n - P.m else P.m) + 1) 9, Buf.mk' P.F.nnz 9, Buf.mk' P.F.nnz 9⟩,
        s := Buf.mk' P.n 9, t := Buf.mk' P.n 9, p := Buf.mk' P.n 9, pinv := Buf.mk' P.n 9, q := Buf.mk' P.n 9, qinv := Buf.mk' P.n 9 }
    have ha : Allocated same (sizes P) o := ⟨⟨rfl, rfl, rfl⟩, rfl, ⟨rfl, rfl, rfl⟩, ⟨rfl, rfl, rfl⟩, ⟨rfl, rfl, rfl⟩, rfl, rfl, rfl, rfl, rfl, rfl⟩
    obtain ⟨x, e1, -, Q, e2, -⟩ := C80_level same false P hP o ha
    exact ⟨Q, o, false, x, ha, e1, e2⟩
  obtain ⟨Q1, h1⟩ := one P1 P1_exportable
  obtain ⟨Q2, h2⟩ := one P2 P2_exportable
  exact ⟨[Q1, Q2], .cons h1 (.cons h2 .nil)⟩

end ExportEx
end Hif.Props
