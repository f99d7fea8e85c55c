import Verif.Props.SyEigEnd

set_option linter.unusedSectionVars false
set_option linter.unusedVariables false

/-!
# C70: the whole symmetric factorization of a definite matrix with its definiteness declared

`Spec.PosDef k T`: `Σ x_i (T x)_i > 0` for every `x ≠ 0`.  With `spd > 0` and a positive definite matrix, or `spd < 0` and a negative definite one, the
default call of `solve` (rank 0, the numerical rank) is exact: all Schur complements are definite, so that SYEIG keeps every eigenvalue.
-/

namespace Hif
namespace Spec
open Finset
variable {R : Type} [Field R] [LinearOrder R] [IsStrictOrderedRing R]

/-- Definiteness with the declared sign. -/
def Definite (spd : Int) (k : Nat) (A : Nat → Nat → R) : Prop :=
  (0 < spd ∧ PosDef k A) ∨ (spd < 0 ∧ PosDef k fun i j => -A i j)

theorem mulVec_neg_mat (k : Nat) (A : Nat → Nat → R) (x : Nat → R) (i : Nat) : mulVec k (fun i j => -A i j) x i = - mulVec k A x i := by
  unfold mulVec
  rw [← sum_neg_distrib]
  exact sum_congr rfl fun _ _ => by ring

theorem dot_neg (k : Nat) (u v : Nat → R) : dot k u (fun i => - v i) = - dot k u v := by
  unfold dot
  rw [← sum_neg_distrib]
  exact sum_congr rfl fun _ _ => by ring

theorem negDef_iff {k : Nat} {A : Nat → Nat → R} : PosDef k (fun i j => -A i j) ↔ ∀ x : Nat → R, (∃ i, i < k ∧ x i ≠ 0) → dot k x (mulVec k A x) < 0 := by
  have e : ∀ x : Nat → R, dot k x (mulVec k (fun i j => -A i j) x) = - dot k x (mulVec k A x) := fun x => by
    rw [← dot_neg]
    unfold dot
    exact sum_congr rfl fun i _ => by rw [mulVec_neg_mat]
  unfold PosDef
  simp only [e, neg_pos]

theorem Definite.injective {spd : Int} {k : Nat} {A : Nat → Nat → R} (h : Definite spd k A) : Injective k A := by
  intro x y hxy i hi
  by_contra hne
  have hz : dot k (fun j => x j - y j) (mulVec k A fun j => x j - y j) = 0 := by
    unfold dot
    refine sum_eq_zero fun i hi => ?_
    have : mulVec k A (fun j => x j - y j) i = mulVec k A x i - mulVec k A y i := by
      unfold mulVec
      rw [← sum_sub_distrib]
      exact sum_congr rfl fun _ _ => by ring
    rw [this, hxy i (mem_range.1 hi), sub_self, mul_zero]
  have hnz : ∃ i, i < k ∧ (fun j => x j - y j) i ≠ 0 := ⟨i, hi, sub_ne_zero.2 hne⟩
  rcases h with ⟨-, h⟩ | ⟨-, h⟩
  · exact absurd (h _ hnz) (by rw [hz]; exact lt_irrefl _)
  · exact absurd (negDef_iff.1 h _ hnz) (by rw [hz]; exact lt_irrefl _)

/-- The quadratic form of the Schur complement of a symmetric level is the one of the matrix, at an extended vector. -/
theorem ExactLevel.form {v : Level R} {S A LE UF : Nat → Nat → R} (h : ExactLevel v S A LE UF) (hv : SymLevel v)
    (hex : ∀ c : Nat → R, ∃ w : Nat → R, ∀ i, i < v.m → ldu v.m v.L v.d v.U w i = c i) (y : Nat → R) (hy : ∃ i, i < v.n - v.m ∧ y i ≠ 0) :
    ∃ x : Nat → R, (∃ i, i < v.n ∧ x i ≠ 0) ∧ dot v.n x (mulVec v.n A x) = dot (v.n - v.m) y (mulVec (v.n - v.m) S y) := by
  obtain ⟨x, x1, x2, x3⟩ := h.extend hex y
  have hle := h.ok.le
  refine ⟨x, ?_, ?_⟩
  · obtain ⟨i, hi, hne⟩ := hy
    refine ⟨v.q (v.m + i), h.ok.q_perm.1 _ (by omega), fun e => hne ?_⟩
    rw [← x1 i hi, e, zero_div]
  · have := dot_step h.ok hv (x := x) (b := mulVec v.n A x) (u := fun _ => 0) (g := mulVec (v.n - v.m) S y)
      (fun i hi => by rw [x2 i (by omega), if_pos hi]; exact x3 i hi)
      (fun i hi => by rw [x2 i (by omega), if_pos hi]; unfold ldu mulVec; simp)
      (fun i hi => by rw [x2 _ (by omega), if_neg (by omega), Nat.add_sub_cancel_left]; unfold mulVec; simp)
    rw [this]
    have e0 : dot v.m (fun _ => (0 : R)) (ldu v.m v.L v.d v.U fun _ => 0) = 0 := by unfold dot; simp
    rw [e0, zero_add]
    unfold dot
    exact sum_congr rfl fun i hi => by beta_reduce; rw [x1 i (mem_range.1 hi)]

/-- The Schur complement of a definite matrix is definite with the same sign. -/
theorem ExactLevel.definite {v : Level R} {S A LE UF : Nat → Nat → R} (h : ExactLevel v S A LE UF) (hv : SymLevel v)
    (hex : ∀ c : Nat → R, ∃ w : Nat → R, ∀ i, i < v.m → ldu v.m v.L v.d v.U w i = c i) {spd : Int} (hA : Definite spd v.n A) :
    Definite spd (v.n - v.m) S := by
  rcases hA with ⟨h0, hA⟩ | ⟨h0, hA⟩
  · refine Or.inl ⟨h0, fun y hy => ?_⟩
    obtain ⟨x, x1, x2⟩ := h.form hv hex y hy
    rw [← x2]
    exact hA x x1
  · refine Or.inr ⟨h0, negDef_iff.2 fun y hy => ?_⟩
    obtain ⟨x, x1, x2⟩ := h.form hv hex y hy
    rw [← x2]
    exact negDef_iff.1 hA x x1

end Spec

namespace Props
open Hif Level Spec HIF HM Finset

section
variable {R : Type} [Field R] [StarRing R] [TrivialStar R] [DecidableEq R] [Inhabited R] [LinearOrder R] [IsStrictOrderedRing R] [FloorSemiring R]

/-- The eigenvalues of a definite matrix have its sign. -/
theorem eig_sign {n : Nat} {a q : Buf R} {w : Buf R} (h : EigDecomp (id : R → R) n a q w) {spd : Int} (hA : Definite spd n (colMajor n a)) {l : Nat} (hl : l < n) :
    (0 < spd → 0 < w.get l) ∧ (spd < 0 → w.get l < 0) := by
  have hval : dot n (fun j => q.get (l * n + j)) (mulVec n (colMajor n a) fun j => q.get (l * n + j)) = w.get l := by
    have e : ∀ i, i < n → mulVec n (colMajor n a) (fun j => q.get (l * n + j)) i = w.get l * q.get (l * n + i) := by
      intro i hi
      have h1 := C50.a_apply h (fun j => q.get (l * n + j)) hi
      have e1 : ∀ j, a.get (i + j * n) = a.get (j * n + i) := fun j => by rw [Nat.add_comm]
      unfold mulVec colMajor
      simp only [e1]
      rw [h1, sum_eq_single_of_mem l (mem_range.2 hl) (fun m hm hne => by rw [h.orth m (mem_range.1 hm) l hl, if_neg hne]; ring), h.orth l hl l hl, if_pos rfl]
      simp only [id]
      ring
    unfold dot
    rw [sum_congr rfl fun i hi => by rw [e i (mem_range.1 hi)]]
    have := h.orth l hl l hl
    rw [if_pos rfl] at this
    calc ∑ i ∈ range n, q.get (l * n + i) * (w.get l * q.get (l * n + i)) = w.get l * ∑ i ∈ range n, star (q.get (l * n + i)) * q.get (l * n + i) := by
          rw [mul_sum]; exact sum_congr rfl fun i _ => by rw [star_trivial]; ring
      _ = w.get l := by rw [this, mul_one]
  have hnz : ∃ i, i < n ∧ (fun j => q.get (l * n + j)) i ≠ 0 := by
    by_contra hc
    push Not at hc
    have := h.orth l hl l hl
    rw [if_pos rfl, sum_eq_zero fun i hi => by rw [hc i (mem_range.1 hi), mul_zero]] at this
    exact zero_ne_one this
  rcases hA with ⟨h0, hA⟩ | ⟨h0, hA⟩
  · exact ⟨fun _ => by rw [← hval]; exact hA _ hnz, fun h => by omega⟩
  · exact ⟨fun h => by omega, fun _ => by rw [← hval]; exact negDef_iff.1 hA _ hnz⟩

/-- SYEIG with threshold zero keeps every eigenvalue of a matrix with the declared definiteness. -/
theorem truncate_definite {n : Nat} {a q : Buf R} {w : Buf R} (h : EigDecomp (id : R → R) n a q w) (hn : 0 < n) (hw : w.size = n) {spd : Int}
    (hA : Definite spd n (colMajor n a)) {srt : (Nat → R) → Buf Nat → Buf Nat} {r : Buf Nat × Nat} (hr : SyEig.truncate spd 0 srt w = .ok r) : r.2 = n := by
  subst hw
  obtain ⟨m1, m2⟩ := SyEig.maxAbs_max w hn
  obtain ⟨o, e, -⟩ := C50_definite_partial (spd := spd) (by rcases hA with ⟨h, -⟩ | ⟨h, -⟩ <;> omega) (eps := 0) (le_refl _) zero_le_one (srt := srt) w hn
    (M := |w.get (SyEig.maxAbs w (w.size - 1) 1 0)|) ⟨⟨_, m1, rfl⟩, m2⟩ (fun i hi => by
      obtain ⟨s1, s2⟩ := eig_sign h hA hi
      refine ⟨?_, s1, s2⟩
      rw [zero_mul]
      refine abs_pos.2 ?_
      rcases hA with ⟨h, -⟩ | ⟨h, -⟩
      · exact ne_of_gt (s1 h)
      · exact ne_of_lt (s2 h))
  rw [e] at hr
  rw [← Except.ok.inj hr]

/-- **C70 (end to end, definite)**: let `A` be a valid symmetric real matrix, positive definite with `spd > 0` or negative definite with `spd < 0`, nothing dropped, SYEIG with
threshold zero as the dense solver.  Then for whatever the object held before the symmetric `factorize` completes, and the default call of `solve` (rank 0, that is the
numerical rank found by SYEIG) returns the solution of `A x = b` for every right-hand side.  All that is assumed of LAPACK is that `?syev` diagonalizes symmetric matrices up to the size of `A`. -/
theorem C70_end_to_end_definite (e : Env R R) (o : Level.Opts R) (hc : SymmContract e o) (x : SymmPar R R) (other : Kernels R) (junk : Nat → R) (ijunk : Nat → Int)
    (opts : FacOpts) (hsy : opts.isSymm = true) (A : Input R) (raw : RawCS) (n : Nat) (hA : ValidSquare A ijunk raw n)
    (hsym : SymMat n (mat A.rowMajor (raw.toCS n A.vals))) (hpat : (raw.toCS n A.vals).PatSym) (hsz : SizesOK e n)
    (hnd : NoDrop o n) (hdef : Definite x.spd n (mat A.rowMajor (raw.toCS n A.vals)))
    (srt : (Nat → R) → Buf Nat → Buf Nat) (hsrt : SortDesc srt)
    (syev : Nat → Buf R → Buf R × Buf R × Int) (lwork : Nat → Nat) (hg : ∀ k, 0 < k → k ≤ n → SyevOK (id : R → R) k syev)
    (hdense : other.dense = SyEig.dense (id : R → R) x.spd 0 srt syev lwork A.rowMajor)
    (h : HIF R) (hw : h.empty = true → h.work.size = 0) (hns : h.nsp = none) :
    ∃ h₁, factorize junk ijunk (allKernels e o x (opts.pivot == .auto) A.rowMajor other) opts A 0 h = (h₁, .ok ()) ∧
      ∀ b y₀ : Buf R, b.size = n → y₀.size = n → ∃ h₂ z, solve junk b y₀ false 0 h₁ = (h₂, .ok z) ∧ z.size = n ∧
        ∀ i, i < n → mulVec n (mat A.rowMajor (raw.toCS n A.vals)) z.get i = b.get i := by
  have hp : (raw.toCS n A.vals).psize = n := hA.dim
  have hd : ∀ S : CS R, SymCS S → 0 < S.psize → S.psize ≤ n → Definite x.spd S.psize (mat A.rowMajor S) →
      (other.dense true S).2 = none ∧ SymDenseExact 0 S.psize (mat A.rowMajor S) (other.dense true S).1 := by
    intro S s1 s2 s3 s4
    rw [hdense]
    refine syeig_dense_exact' rfl (fun _ h => h) x.spd 0 hsrt lwork A.rowMajor s1 s2 s4.injective (hg _ s2 s3) 0 (Or.inr ⟨rfl, fun a q w k1 k2 k3 r k4 => ?_⟩)
    refine truncate_definite k2 s2 k3 ?_ k4
    rcases s4 with ⟨h0, s4⟩ | ⟨h0, s4⟩
    · refine Or.inl ⟨h0, fun y hy => ?_⟩
      have := s4 y hy
      unfold dot at this ⊢
      rwa [sum_congr rfl fun i hi => by rw [mulVec_mat (T := colMajor S.psize a) (T' := mat A.rowMajor S) fun c hc => k1 i c (mem_range.1 hi) hc]]
    · refine Or.inr ⟨h0, fun y hy => ?_⟩
      have := s4 y hy
      unfold dot at this ⊢
      rwa [sum_congr rfl fun i hi => by rw [mulVec_mat (T := fun i j => -colMajor S.psize a i j) (T' := fun i j => -mat A.rowMajor S i j) fun c hc => by rw [k1 i c (mem_range.1 hi) hc]]]
  rcases symm_represents e o hc x other junk ijunk opts hsy A raw n hA hsym hpat hsz
      (fun S => SymCS S ∧ S.psize ≤ n ∧ Definite x.spd S.psize (mat A.rowMajor S)) ⟨input_symCS hA hsym hpat, le_of_eq hp, by rw [hp]; exact hdef⟩ (fun _ h => h.1)
    (fun S _ _ _ d i => Or.inr (hd S i.1 d i.2.1 i.2.2).1) (fun _ B out hout hk hle hi hlt hs hsl => by
      obtain ⟨hm, hne⟩ := postFlag_m hk
      obtain ⟨k1, k2, -, -, k5⟩ := hout.kept hk (fun hc => by cases hc)
      obtain ⟨LE, UF, hx⟩ := k5 (hnd.mono hle)
      obtain ⟨pm, pn, -⟩ := toPrec_m out B.psize out.m
      have hn : (out.toPrec B.psize out.m).toLevel.n = B.psize := pn
      have hm : (out.toPrec B.psize out.m).toLevel.m = out.m := pm
      have := hx.definite hsl (fun c => by
        obtain ⟨w, -, -, hw, -⟩ := Prec.solveLdu_runs k1 ⟨(out.toPrec B.psize out.m).toLevel.m, c⟩ (le_refl _)
        exact ⟨w.get, hw⟩) (by rw [hn]; exact hi.2.2)
      rw [hn, hm] at this
      refine ⟨hs, by omega, ?_⟩
      rw [k2]
      exact this) h with ⟨h', S, k1, k2⟩ | ⟨h', msg, S, k1, k2, k3, k4, k5⟩
  · refine ⟨h', k1, fun b y₀ hb hy => ?_⟩
    have hgood := k2.good 0 fun h0 => by
      obtain ⟨b, -⟩ := k2.block h0
      exact lastOK_symm b.good.1 A.rowMajor (hd S b.good.1 h0 b.good.2.1 b.good.2.2).2
    rw [hp] at hgood
    obtain ⟨hready, hns'⟩ := factorize_ready k1 hw hns
    obtain ⟨h₂, z, s1, s2, s3⟩ := C27_solve_spec junk h' 0 _ _ n hgood hready false hns' rfl b y₀ hb hy
    refine ⟨h₂, z, s1, s2, ?_⟩
    have := k2.exact (by rw [hp]; exact hnd) z.get b.get (by rw [hp]; exact s3)
    rwa [hp] at this
  · exact absurd k5 (by rw [(hd S k4.good.1 k2 k4.good.2.1 k4.good.2.2).1]; simp)

end
end Props
end Hif
