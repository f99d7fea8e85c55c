import Verif.SyEigDense
import Verif.Props.SyEig
import Verif.Props.SymmLevel
import Verif.Props.LupEnd
import Mathlib.Analysis.Matrix.Spectrum
import Mathlib.Data.Real.Star

set_option linter.unusedSectionVars false
set_option linter.unusedVariables false

/-!
# C50, C70: the whole symmetric factorization with SYEIG as the dense solver
-/

namespace Hif
namespace Props
open Hif Level Spec HIF HM Finset

/-- What is assumed of LAPACK's `?syev`: on a symmetric matrix of the given size it succeeds and returns an eigendecomposition. -/
def SyevOK {R V : Type} [Field V] [StarRing V] (c : R → V) (k : Nat) (syev : Nat → Buf V → Buf R × Buf V × Int) : Prop :=
  ∀ a : Buf V, a.size = k * k → SymMat k (colMajor k a) → (syev k a).2.2 = 0 ∧ EigDecomp c k a (syev k a).2.1 { (syev k a).1 with size := k }

section
variable {R : Type} [Field R] [LinearOrder R] [IsStrictOrderedRing R]

/-- The order of the eigenvalues is a permutation, whatever is truncated. -/
theorem truncate_order (spd : Int) (eps : R) {srt : (Nat → R) → Buf Nat → Buf Nat} (hsrt : SortDesc srt) (w : Buf R) (hn : 0 < w.size) :
    Runs (SyEig.truncate spd eps srt w) fun r => SyEig.IsOrder w.size r.1 ∧ r.2 ≤ w.size ∧
      (spd = 0 → eps = 0 → (∀ i, i < w.size → w.get i ≠ 0) → r.2 = w.size) := by
  by_cases h0 : spd = 0
  · refine (C50.indefinite h0 (eps := eps) hsrt w hn).mono ?_
    rintro r ⟨r1, r2, r3⟩
    refine ⟨r1, r2, fun _ he hz => ?_⟩
    by_contra hne
    have := (r3 r.2 (by omega)).2 (by rw [he, zero_mul]; exact abs_pos.2 (hz _ (r1.2.1 _ (by omega))))
    omega
  · unfold SyEig.truncate
    simp only
    rw [if_neg (by omega)]
    by_cases h : 0 < spd
    · rw [if_pos h, runs_bind]
      refine (SyEig.dropBack_runs w _ _ w.size (le_refl _) (fun t ht => ht)).mono ?_
      rintro rk ⟨r1, -⟩
      rw [runs_pure]
      exact ⟨SyEig.iota_isOrder _, r1, fun h => absurd h h0⟩
    · rw [if_neg h, if_pos (by omega), runs_bind]
      refine (SyEig.dropFront_runs w _ w.size 0 (by omega)).mono ?_
      rintro rk ⟨r1, -⟩
      rw [runs_pure]
      exact ⟨SyEig.reverse_isOrder _, r1, fun h => absurd h h0⟩

variable {V : Type} [Field V] [StarRing V] {c : R → V}

/-- The eigenvalues of a nonsingular matrix are nonzero. -/
theorem eig_ne {n : Nat} {a q : Buf V} {w : Buf R} (h : EigDecomp c n a q w) (h0 : c 0 = 0) (hinj : Injective n (colMajor n a)) {l : Nat} (hl : l < n) : w.get l ≠ 0 := by
  intro e
  have hz : ∀ i, i < n → q.get (l * n + i) = 0 := by
    refine hinj (fun j => q.get (l * n + j)) (fun _ => 0) fun i hi => ?_
    unfold mulVec colMajor
    simp only [mul_zero, sum_const_zero]
    have h1 := C50.a_apply h (fun j => q.get (l * n + j)) hi
    have e1 : ∀ j, a.get (i + j * n) = a.get (j * n + i) := fun j => by rw [Nat.add_comm]
    simp only [e1]
    rw [h1]
    refine sum_eq_zero fun m hm => ?_
    rw [h.orth m (mem_range.1 hm) l hl]
    by_cases hml : m = l
    · rw [hml, e, h0]; ring
    · rw [if_neg hml]; ring
  have := h.orth l hl l hl
  rw [if_pos rfl, sum_eq_zero fun i hi => by rw [hz i (mem_range.1 hi), mul_zero]] at this
  exact zero_ne_one this

/-- Vectors are determined by their coordinates. -/
theorem eig_expand {n : Nat} {a q : Buf V} {w : Buf R} (h : EigDecomp c n a q w) (x : Nat → V) {i : Nat} (hi : i < n) :
    ∑ l ∈ range n, q.get (l * n + i) * ∑ j ∈ range n, star (q.get (l * n + j)) * x j = x i := by
  simp only [mul_sum]
  rw [sum_comm]
  have : ∀ j ∈ range n, ∑ l ∈ range n, q.get (l * n + i) * (star (q.get (l * n + j)) * x j) = if j = i then x i else 0 := by
    intro j hj
    have e : ∀ l, q.get (l * n + i) * (star (q.get (l * n + j)) * x j) = q.get (l * n + i) * star (q.get (l * n + j)) * x j := fun l => by ring
    simp only [e]
    rw [← sum_mul, h.orth' i hi j (mem_range.1 hj)]
    by_cases e' : i = j
    · rw [if_pos e', if_pos e'.symm, one_mul, e']
    · rw [if_neg e', if_neg (Ne.symm e'), zero_mul]
  rw [sum_congr rfl this, sum_ite_eq' (range n) i, if_pos (by simpa using hi)]

end

section wholeRun
variable {K R : Type} [Field K] [StarRing K] [TrivialStar K] [DecidableEq K] [Inhabited K] [Field R] [LinearOrder R] [IsStrictOrderedRing R] [FloorSemiring R]

/-- SYEIG on a nonsingular symmetric sparse block: the factorization succeeds, solving and multiplying with full rank are exact. -/
theorem syeig_dense_exact' {c : R → K} (h0 : c 0 = 0) (hc : ∀ x, x ≠ 0 → c x ≠ 0) (spd : Int) (eps : R) {srt : (Nat → R) → Buf Nat → Buf Nat} (hsrt : SortDesc srt)
    {syev : Nat → Buf K → Buf R × Buf K × Int} (lwork : Nat → Nat) (rowMajor : Bool) {S : CS K} (hS : SymCS S)
    (hpos : 0 < S.psize) (hA : Injective S.psize (mat rowMajor S)) (hg : SyevOK c S.psize syev) (rk : Nat)
    (hrk : S.psize ≤ rk ∨ rk = 0 ∧ ∀ (a q : Buf K) (w : Buf R), (∀ i j, i < S.psize → j < S.psize → colMajor S.psize a i j = mat rowMajor S i j) → EigDecomp c S.psize a q w →
      w.size = S.psize → ∀ r, SyEig.truncate spd eps srt w = .ok r → r.2 = S.psize) :
    (SyEig.dense c spd eps srt syev lwork rowMajor true S).2 = none ∧ SymDenseExact rk S.psize (mat rowMajor S) (SyEig.dense c spd eps srt syev lwork rowMajor true S).1 := by
  have hdist : ∀ i, i < S.psize → ∀ k l, S.start.get i ≤ k → k < l → l < S.start.get (i + 1) → S.inds.get k ≠ S.inds.get l := by
    intro i hi k l h1 h2 h3
    have := hS.sorted i hi k l ⟨h1, by omega⟩ ⟨by omega, h3⟩ h2
    omega
  have hsq : S.ssize = S.psize := hS.sq
  have hd : Runs (if rowMajor then S.denseFromCRS else S.denseFromCCS) fun d => d.size = S.psize * S.psize ∧
      ∀ i j, i < S.psize → j < S.psize → colMajor S.psize d i j = mat rowMajor S i j := by
    cases rowMajor
    · simp only [Bool.false_eq_true, if_false]
      refine (CS.denseFromCCS_runs hS.wf hdist).mono ?_
      rintro d ⟨d1, d2⟩
      rw [hsq] at d1 d2
      exact ⟨d1, fun i j hi hj => d2 j hj i hi⟩
    · simp only [if_true]
      refine (CS.denseFromCRS_runs hS.wf hdist).mono ?_
      rintro d ⟨d1, d2⟩
      rw [hsq] at d1 d2
      exact ⟨d1, fun i j hi hj => d2 i hi j hj⟩
  obtain ⟨d, ed, d1, d2⟩ := hd
  set n := S.psize with hn
  have hA' : Injective n (colMajor n d) := by
    intro x y hxy
    refine hA x y fun i hi => ?_
    have := hxy i hi
    unfold mulVec at *
    rw [sum_congr rfl fun j hj => by rw [← d2 i j hi (mem_range.1 hj)], this]
    exact sum_congr rfl fun j hj => by rw [d2 i j hi (mem_range.1 hj)]
  obtain ⟨hi0, hE⟩ := hg d d1 (fun i j hi hj => by rw [d2 i j hi hj, d2 j i hj hi]; exact hS.symMat rowMajor i j hi hj)
  have hne : ∀ l, l < n → (syev n d).1.get l ≠ 0 := fun l hl => eig_ne hE h0 hA' hl
  obtain ⟨t, et, ho, hle, hfull⟩ := truncate_order spd eps hsrt { (syev n d).1 with size := n } hpos
  let s : SyEig.St R K := { nrows := n, ncols := n, mat := (syev n d).2.1, w := { (syev n d).1 with size := n }, work := Buf.mk' (max (lwork n) n) default, order := t.1, rank := t.2 }
  have hf : SyEig.dense c spd eps srt syev lwork rowMajor true S = (SyEig.ops c s, none) := by
    unfold SyEig.dense
    rw [ed, hsq, ← hn]
    simp only [ite_self]
    have : SyEig.factorize spd eps srt syev (lwork n) { nrows := n, ncols := n, mat := d, w := Buf.mk' 0 0, work := Buf.mk' 0 default, order := Buf.mk' 0 0, rank := 0 } = .ok s := by
      unfold SyEig.factorize
      rw [if_neg (by show ¬ (n = 0 ∨ n = 0); omega), if_neg (by show ¬ (n ≠ n); simp)]
      simp only
      rw [if_neg (by rw [hi0]; decide), if_neg (by rw [hi0]; decide), et]
      rfl
    dsimp only [bind, Except.bind]
    rw [this]
  rw [hf]
  refine ⟨rfl, ?_⟩
  have hready : SyEig.Ready n s := ⟨hpos, rfl, hE.size, rfl, by show n ≤ max (lwork n) n; omega, ho, hle⟩
  have her : SyEig.effRank s n rk = n := by
    unfold SyEig.effRank
    rcases hrk with h | ⟨h1, h2⟩
    · rw [if_neg (by omega)]; split <;> omega
    · rw [if_pos h1]; exact h2 d _ _ d2 hE rfl t et
  have kept : ∀ l, l < n → SyEig.Kept s.order (SyEig.effRank s n rk) l := fun l hl => by
    rw [her]
    exact ho.surj hl
  have hm : ∀ x i, i < n → mulVec n (mat rowMajor S) x i = ∑ l ∈ range n, s.mat.get (l * n + i) * (c (s.w.get l) * ∑ j ∈ range n, star (s.mat.get (l * n + j)) * x j) := by
    intro x i hi
    rw [← C50.a_apply hE x hi]
    refine sum_congr rfl fun j hj => ?_
    rw [← d2 i j hi (mem_range.1 hj)]
    unfold colMajor
    rw [Nat.add_comm]
  constructor
  · intro y hy
    obtain ⟨x, ex, hx1, hx2⟩ := C50_solve hready hE y hy rk (fun t ht => hne _ (ho.2.1 t (by rw [her] at ht; exact ht)))
    refine ⟨x, ex, hx1, fun i hi => ?_⟩
    rw [hm x.get i hi, ← eig_expand hE y.get hi]
    refine sum_congr rfl fun l hl => ?_
    have hl' := mem_range.1 hl
    rw [hx2 l hl', if_pos (kept l hl'), mul_div_cancel₀ _ (hc _ (hne l hl'))]
  · intro y hy
    obtain ⟨x, ex, hx1, hx2⟩ := C50_multiply hready hE y hy rk
    refine ⟨x, ex, hx1, fun i hi => ?_⟩
    rw [hm y.get i hi, ← eig_expand hE x.get hi]
    refine sum_congr rfl fun l hl => ?_
    have hl' := mem_range.1 hl
    rw [hx2 l hl', if_pos (kept l hl')]
    ring

theorem syeig_dense_exact {c : R → K} (h0 : c 0 = 0) (hc : ∀ x, x ≠ 0 → c x ≠ 0) (spd : Int) (eps : R) {srt : (Nat → R) → Buf Nat → Buf Nat} (hsrt : SortDesc srt)
    {syev : Nat → Buf K → Buf R × Buf K × Int} (lwork : Nat → Nat) (rowMajor : Bool) {S : CS K} (hS : SymCS S)
    (hpos : 0 < S.psize) (hA : Injective S.psize (mat rowMajor S)) (hg : SyevOK c S.psize syev) (rk : Nat) (hrk : S.psize ≤ rk ∨ rk = 0 ∧ spd = 0 ∧ eps = 0) :
    (SyEig.dense c spd eps srt syev lwork rowMajor true S).2 = none ∧ SymDenseExact rk S.psize (mat rowMajor S) (SyEig.dense c spd eps srt syev lwork rowMajor true S).1 := by
  refine syeig_dense_exact' h0 hc spd eps hsrt lwork rowMajor hS hpos hA hg rk (hrk.imp id ?_)
  rintro ⟨h1, h2, h3⟩
  refine ⟨h1, fun a q w k1 k2 k3 r k4 => ?_⟩
  have hA' : Injective S.psize (colMajor S.psize a) := by
    intro x y hxy
    refine hA x y fun i hi => ?_
    have := hxy i hi
    unfold mulVec at *
    rw [sum_congr rfl fun j hj => by rw [← k1 i j hi (mem_range.1 hj)], this]
    exact sum_congr rfl fun j hj => by rw [k1 i j hi (mem_range.1 hj)]
  obtain ⟨t, et, -, -, hfull⟩ := truncate_order spd eps hsrt w (by omega)
  rw [k4] at et
  obtain rfl := Except.ok.inj et
  rw [← k3]
  exact hfull h2 h3 (fun i hi => eig_ne k2 h0 hA' (by omega))

/-- C70 (end to end): with SYEIG as the dense solver, for every valid nonsingular symmetric real matrix, every declared definiteness, nothing dropped and whatever the object held before,
the symmetric `factorize` completes, and `solve` with full rank returns, for every right-hand side, the solution of `A x = b`.  With the default rank this holds too if the
truncation threshold is zero and no definiteness is declared.  The only hypothesis on LAPACK is that `?syev` diagonalizes symmetric matrices up to the size of `A`. -/
theorem C70_end_to_end (e : Env K R) (o : Level.Opts R) (hc : SymmContract e o) (x : SymmPar K R) (other : Kernels K) (junk : Nat → K) (ijunk : Nat → Int)
    (opts : FacOpts) (hsy : opts.isSymm = true) (A : Input K) (raw : RawCS) (n : Nat) (hA : ValidSquare A ijunk raw n)
    (hsym : SymMat n (mat A.rowMajor (raw.toCS n A.vals))) (hpat : (raw.toCS n A.vals).PatSym) (hsz : SizesOK e n)
    (hnd : NoDrop o n) (hinj : Injective n (mat A.rowMajor (raw.toCS n A.vals)))
    (c : R → K) (h0 : c 0 = 0) (hcc : ∀ x, x ≠ 0 → c x ≠ 0) (eps : R) (srt : (Nat → R) → Buf Nat → Buf Nat) (hsrt : SortDesc srt)
    (syev : Nat → Buf K → Buf R × Buf K × Int) (lwork : Nat → Nat) (hg : ∀ k, 0 < k → k ≤ n → SyevOK c k syev)
    (hdense : other.dense = SyEig.dense c x.spd eps srt syev lwork A.rowMajor)
    (rk : Nat) (hrk : n ≤ rk ∨ rk = 0 ∧ x.spd = 0 ∧ eps = 0) (h : HIF K) (hw : h.empty = true → h.work.size = 0) (hns : h.nsp = none) :
    ∃ h₁, factorize junk ijunk (allKernels e o x (opts.pivot == .auto) A.rowMajor other) opts A 0 h = (h₁, .ok ()) ∧
      ∀ b y₀ : Buf K, b.size = n → y₀.size = n → ∃ h₂ z, solve junk b y₀ false rk h₁ = (h₂, .ok z) ∧ z.size = n ∧
        ∀ i, i < n → mulVec n (mat A.rowMajor (raw.toCS n A.vals)) z.get i = b.get i := by
  refine C70_exact e o hc x other junk ijunk opts hsy A raw n hA hsym hpat hsz hnd hinj rk (fun S s1 s2 s3 s4 => ?_) h hw hns
  rw [hdense]
  exact syeig_dense_exact h0 hcc x.spd eps hsrt lwork A.rowMajor s1 s2 s4 (hg _ s2 s3) rk (hrk.imp (fun h => s3.trans h) id)

end wholeRun

section nonvacuous

/-- Reading a function on `Fin k` at a natural number. -/
noncomputable def finGet {k : Nat} (f : Fin k → ℝ) (i : Nat) : ℝ := if h : i < k then f ⟨i, h⟩ else 0

theorem finGet_lt {k : Nat} (f : Fin k → ℝ) {i : Nat} (h : i < k) : finGet f i = f ⟨i, h⟩ := dif_pos h

theorem syev_exists_one (k : Nat) (a : Buf ℝ) (hs : SymMat k (colMajor k a)) :
    ∃ r : Buf ℝ × Buf ℝ × Int, r.2.2 = 0 ∧ EigDecomp (id : ℝ → ℝ) k a r.2.1 { r.1 with size := k } := by
  classical
  let A : Matrix (Fin k) (Fin k) ℝ := fun i j => a.get (i.val + j.val * k)
  have hA : A.IsHermitian := by
    ext i j
    show star (a.get (j.val + i.val * k)) = a.get (i.val + j.val * k)
    rw [star_trivial]
    exact hs j.val i.val j.isLt i.isLt
  let U : Matrix (Fin k) (Fin k) ℝ := (hA.eigenvectorUnitary : Matrix (Fin k) (Fin k) ℝ)
  have hU1 : star U * U = 1 := (Matrix.mem_unitaryGroup_iff').1 hA.eigenvectorUnitary.2
  have hU2 : U * star U = 1 := (Matrix.mem_unitaryGroup_iff).1 hA.eigenvectorUnitary.2
  have hsp : A = U * Matrix.diagonal (hA.eigenvalues) * star U := by
    have := hA.spectral_theorem
    rw [Unitary.conjStarAlgAut_apply] at this
    exact this
  let q : Buf ℝ := ⟨k * k, fun t => finGet (fun i : Fin k => finGet (fun l : Fin k => U i l) (t / k)) (t % k)⟩
  let w : Buf ℝ := ⟨k, finGet hA.eigenvalues⟩
  have hq : ∀ l i : Fin k, q.get (l.val * k + i.val) = U i l := by
    intro l i
    have hk : 0 < k := Nat.lt_of_le_of_lt (Nat.zero_le _) l.isLt
    have e0 : q.get (l.val * k + i.val) = finGet (fun i' : Fin k => finGet (fun l' : Fin k => U i' l') ((l.val * k + i.val) / k)) ((l.val * k + i.val) % k) := rfl
    have e1 : (l.val * k + i.val) / k = l.val := by rw [Nat.mul_comm, Nat.mul_add_div hk, Nat.div_eq_of_lt i.isLt, Nat.add_zero]
    have e2 : (l.val * k + i.val) % k = i.val := by rw [Nat.mul_comm, Nat.mul_add_mod, Nat.mod_eq_of_lt i.isLt]
    rw [e0, e1, e2, finGet_lt _ i.isLt, finGet_lt _ l.isLt]
  refine ⟨(w, q, 0), rfl, rfl, ?_, ?_, ?_⟩
  · intro l hl l' hl'
    have := congrFun (congrFun hU1 ⟨l, hl⟩) ⟨l', hl'⟩
    rw [Matrix.mul_apply, Matrix.one_apply] at this
    rw [Finset.sum_range]
    simp only [Fin.mk.injEq] at this
    rw [← this]
    refine Finset.sum_congr rfl fun i _ => ?_
    show star (q.get ((⟨l, hl⟩ : Fin k).val * k + i.val)) * q.get ((⟨l', hl'⟩ : Fin k).val * k + i.val) = _
    rw [hq, hq]
    rfl
  · intro i hi j hj
    have := congrFun (congrFun hU2 ⟨i, hi⟩) ⟨j, hj⟩
    rw [Matrix.mul_apply, Matrix.one_apply] at this
    rw [Finset.sum_range]
    simp only [Fin.mk.injEq] at this
    rw [← this]
    refine Finset.sum_congr rfl fun l _ => ?_
    show q.get (l.val * k + (⟨i, hi⟩ : Fin k).val) * star (q.get (l.val * k + (⟨j, hj⟩ : Fin k).val)) = _
    rw [hq, hq]
    rfl
  · intro i hi j hj
    have := congrFun (congrFun hsp ⟨i, hi⟩) ⟨j, hj⟩
    rw [Matrix.mul_apply] at this
    rw [Finset.sum_range]
    have e0 : a.get (j * k + i) = A ⟨i, hi⟩ ⟨j, hj⟩ := by
      show a.get (j * k + i) = a.get (i + j * k)
      rw [Nat.add_comm]
    rw [e0, this]
    refine Finset.sum_congr rfl fun l _ => ?_
    rw [Matrix.mul_diagonal]
    show _ = q.get (l.val * k + (⟨i, hi⟩ : Fin k).val) * id (finGet hA.eigenvalues l.val) * star (q.get (l.val * k + (⟨j, hj⟩ : Fin k).val))
    rw [hq, hq, finGet_lt _ l.isLt]
    rfl

/-- The hypothesis on LAPACK can be met: over the real numbers there is a `?syev` that diagonalizes every symmetric matrix of every size. -/
theorem C70_syev_exists : ∃ syev : Nat → Buf ℝ → Buf ℝ × Buf ℝ × Int, ∀ k, SyevOK (id : ℝ → ℝ) k syev := by
  classical
  refine ⟨fun k a => if h : SymMat k (colMajor k a) then (syev_exists_one k a h).choose else (a, a, 0), fun k a _ hs => ?_⟩
  simp only [dif_pos hs]
  exact (syev_exists_one k a hs).choose_spec

end nonvacuous

end Props
end Hif
