import Verif.SymmRun
import Verif.Factor

set_option linter.unusedVariables false
set_option linter.unusedSectionVars false

/-!
# C62, C66, C69: when a level hands its Schur complement to the dense solver

`useDense kind fopts out post n m` is the decision of the driver after a level of size `n` that keeps a leading block of size `m`.
-/

namespace Hif.Props
open Level Finset

section
variable {K R : Type} [Field K] [DecidableEq K] [Inhabited K] [Field R] [LinearOrder R] [IsStrictOrderedRing R] [FloorSemiring R]

theorem rd_inv {α : Type} {b : Buf α} {i : Nat} {a : α} (h : b.rd i = .ok a) : a = b.get i := by
  unfold Buf.rd at h
  split at h
  · cases h; rfl
  · cases h

theorem loop_inv {σ : Type} {f : Nat → σ → M σ} (P : Nat → σ → Prop) (hstep : ∀ i s s', P i s → f i s = .ok s' → P (i + 1) s') :
    ∀ (k i : Nat) (s s' : σ), P i s → loop f k i s = .ok s' → P (i + k) s'
  | 0, i, s, s', h, e => by cases e; exact h
  | k + 1, i, s, s', h, e => by
    obtain ⟨s1, e1, e2⟩ := SchurIn.bind_ok_inv (x := f i s) e
    have := loop_inv P hstep k (i + 1) s1 s' (hstep i s s1 h e1) e2
    rwa [show i + (k + 1) = i + 1 + k by omega]

theorem ambNnz_eq {rows cols p q : Buf Nat} {m n c : Nat} (hmn : m ≤ n) (h : ambNnz rows cols p q m n = .ok c) :
    c = ∑ i ∈ Ico m n, (rows.get (p.get i) + cols.get (q.get i)) := by
  have := loop_inv (fun k c => m ≤ k ∧ c = ∑ i ∈ Ico m k, (rows.get (p.get i) + cols.get (q.get i))) (fun i s s' hs e => by
    obtain ⟨h0, rfl⟩ := hs
    obtain ⟨_, e1, e⟩ := SchurIn.bind_ok_inv e
    obtain ⟨_, e2, e⟩ := SchurIn.bind_ok_inv e
    obtain ⟨_, e3, e⟩ := SchurIn.bind_ok_inv e
    obtain ⟨_, e4, e⟩ := SchurIn.bind_ok_inv e
    cases e
    rw [rd_inv e4, rd_inv e3, rd_inv e2, rd_inv e1, sum_Ico_succ_top h0]
    exact ⟨by omega, rfl⟩) (n - m) m 0 c ⟨le_refl _, by simp⟩ h
  rw [show m + (n - m) = n by omega] at this
  exact this.2

theorem symmNnz_eq {rows p : Buf Nat} {m n c : Nat} (hmn : m ≤ n) (h : symmNnz rows p m n = .ok c) :
    c = ∑ i ∈ Ico m n, 2 * rows.get (p.get i) := by
  have := loop_inv (fun k c => m ≤ k ∧ c = ∑ i ∈ Ico m k, 2 * rows.get (p.get i)) (fun i s s' hs e => by
    obtain ⟨h0, rfl⟩ := hs
    obtain ⟨_, e1, e⟩ := SchurIn.bind_ok_inv e
    obtain ⟨_, e2, e⟩ := SchurIn.bind_ok_inv e
    cases e
    rw [rd_inv e2, rd_inv e1, sum_Ico_succ_top h0]
    exact ⟨by omega, by ring⟩) (n - m) m 0 c ⟨le_refl _, by simp⟩ h
  rw [show m + (n - m) = n by omega] at this
  exact this.2

/-- The size below which a Schur complement is always made dense. -/
def smallSize (e : Env K R) (o : Level.Opts R) (N : Nat) : Nat := max ⌈o.cD * e.cbrt (N : R)⌉₊ (if o.denseThres ≤ 0 then 2000 else o.denseThres.toNat)

theorem conclude_few {e : Env K R} {o : Level.Opts R} {piv auto rowMajor : Bool} {lvl N m0 : Nat} {g : Pre.Matched R} {I : Crout.In K} {r : Crout.Out K} {out : CroutOut K}
    (ho : conclude e o piv auto rowMajor lvl N m0 g I r = .ok out) (hk : (postFlag out.m2 out.m).2 ≠ 0) (ha : auto = true → (postFlag out.m2 out.m).1 = 0)
    (hm : out.m ≤ I.n) :
    out.dt2 = smallSize e o N ∧ out.few = decide (⌈(((I.n - out.m) * (I.n - out.m) : Nat) : R) * o.rho⌉₊ ≤
      ⌊max o.par.alphaL o.par.alphaU * ((∑ i ∈ Ico out.m I.n, ((e.rows lvl).get (out.p.get i) + (e.cols lvl).get (out.q.get i)) : Nat) : R)⌋₊) := by
  unfold conclude at ho
  split at ho
  · rename_i hc
    obtain ⟨nnz, -, ho⟩ := SchurIn.bind_ok_inv ho
    cases ho
    exfalso
    rcases hc with hc | hc
    · exact hk hc
    · exact hc.2 (ha hc.1)
  · obtain ⟨b, -, ho⟩ := SchurIn.bind_ok_inv ho
    obtain ⟨nnz, e1, ho⟩ := SchurIn.bind_ok_inv ho
    cases ho
    refine ⟨rfl, ?_⟩
    have := ambNnz_eq hm e1
    show few o (I.n - r.m) nnz = _
    unfold few
    rw [this]
    rfl

theorem useDense_of {kind : LevelKind} {fopts : FacOpts} {out : CroutOut K} {n m2 m : Nat} {c : Prop} [Decidable c] {sm : Nat} (hm : m2 < 4 * m)
    (hp : kind = .plain false → fopts.pivot = .auto → 2 * m2 < 5 * m) (hk : ∀ b, kind = .plain b → b = false)
    (hf : out.few = decide c) (hd : out.dt2 = sm) : useDense kind fopts out (postFlag m2 m).1 n m = true ↔ 5 * m ≤ 2 * m2 ∨ c ∨ n - m ≤ sm := by
  have hm0 : m ≠ 0 := by omega
  unfold useDense
  rw [if_pos hm0, hf, hd]
  unfold postFlag
  rw [if_neg (by omega)]
  by_cases h5 : 5 * m ≤ 2 * m2
  · rw [if_pos h5]
    refine ⟨fun _ => Or.inl h5, fun _ => ?_⟩
    cases kind with
    | plain b =>
      have := hk b rfl
      subst this
      have ha : fopts.pivot ≠ .auto := fun ha => by have := hp rfl ha; omega
      simp [ha]
    | pivot => simp
    | symm => simp
  · rw [if_neg h5]
    simp [h5, hm0]

/-- C62 (dense criterion): a kept level without pivoting (`m2 < 4 m`; in automatic mode `2 m2 < 5 m`) hands its Schur complement to the dense solver
exactly if the leading block shrank to two fifths or less of what preprocessing left, or if it has so few rows that a dense block of density `rho` would have at most
`max(alpha_L, alpha_U)` times as many entries as the reference sizes of the deferred rows and columns add up to, or if its size is at most
`max(⌈c_d ∛N⌉, dense_thres)`, the latter being 2000 if the option is not positive. -/
theorem C62_dense_criterion (e : Env K R) (o : Level.Opts R) (rowMajor : Bool) (lvl N : Nat) (A : CS K) (fopts : FacOpts) (out : CroutOut K)
    (ho : plainLevel e o (fopts.pivot == .auto) rowMajor lvl N A.psize A = .ok out) (hm : out.m ≤ A.psize) (h4 : out.m2 < 4 * out.m)
    (h5 : fopts.pivot = .auto → 2 * out.m2 < 5 * out.m) :
    useDense (.plain false) fopts out (postFlag out.m2 out.m).1 A.psize out.m = true ↔
      5 * out.m ≤ 2 * out.m2 ∨
      ⌈(((A.psize - out.m) * (A.psize - out.m) : Nat) : R) * o.rho⌉₊ ≤
        ⌊max o.par.alphaL o.par.alphaU * ((∑ i ∈ Ico out.m A.psize, ((e.rows lvl).get (out.p.get i) + (e.cols lvl).get (out.q.get i)) : Nat) : R)⌋₊ ∨
      A.psize - out.m ≤ smallSize e o N := by
  have hpf : (postFlag out.m2 out.m).2 ≠ 0 := by unfold postFlag; rw [if_neg (by omega)]; split <;> (show out.m ≠ 0; omega)
  unfold plainLevel at ho
  split at ho
  · cases ho
  · obtain ⟨C, -, ho⟩ := SchurIn.bind_ok_inv ho
    obtain ⟨g, -, ho⟩ := SchurIn.bind_ok_inv ho
    obtain ⟨r, -, ho⟩ := SchurIn.bind_ok_inv ho
    obtain ⟨h1, h2⟩ := conclude_few ho hpf (fun ha => by
      have := h5 (by simpa using ha)
      unfold postFlag; rw [if_neg (by omega), if_neg (by omega)]) hm
    exact useDense_of h4 (fun _ => h5) (fun b hb => by cases hb; rfl) h2 h1

/-- C66 (dense criterion): the same with pivoting. -/
theorem C66_dense_criterion (e : Env K R) (o : Level.Opts R) (rowMajor : Bool) (lvl N : Nat) (A : CS K) (fopts : FacOpts) (out : CroutOut K)
    (ho : pivotLevel e o rowMajor lvl N A.psize A = .ok out) (hm : out.m ≤ A.psize) (h4 : out.m2 < 4 * out.m) :
    useDense .pivot fopts out (postFlag out.m2 out.m).1 A.psize out.m = true ↔
      5 * out.m ≤ 2 * out.m2 ∨
      ⌈(((A.psize - out.m) * (A.psize - out.m) : Nat) : R) * o.rho⌉₊ ≤
        ⌊max o.par.alphaL o.par.alphaU * ((∑ i ∈ Ico out.m A.psize, ((e.rows lvl).get (out.p.get i) + (e.cols lvl).get (out.q.get i)) : Nat) : R)⌋₊ ∨
      A.psize - out.m ≤ smallSize e o N := by
  have hpf : (postFlag out.m2 out.m).2 ≠ 0 := by unfold postFlag; rw [if_neg (by omega)]; split <;> (show out.m ≠ 0; omega)
  unfold pivotLevel at ho
  split at ho
  · cases ho
  · obtain ⟨C, -, ho⟩ := SchurIn.bind_ok_inv ho
    obtain ⟨g, -, ho⟩ := SchurIn.bind_ok_inv ho
    obtain ⟨r, -, ho⟩ := SchurIn.bind_ok_inv ho
    obtain ⟨h1, h2⟩ := conclude_few ho hpf (fun ha => by cases ha) hm
    exact useDense_of h4 (fun hc => by cases hc) (fun b hb => by cases hb) h2 h1

/-- C69 (dense criterion): the same for a symmetric level, with `alpha_L` and twice the reference sizes of the deferred rows. -/
theorem C69_dense_criterion (e : Env K R) (o : Level.Opts R) (x : SymmPar K R) (rowMajor : Bool) (lvl N : Nat) (A : CS K) (fopts : FacOpts) (out : CroutOut K)
    (ho : symmLevel e o x rowMajor lvl N A.psize A = .ok out) (hm : out.m ≤ A.psize) (h4 : out.m2 < 4 * out.m) :
    useDense .symm fopts out (postFlag out.m2 out.m).1 A.psize out.m = true ↔
      5 * out.m ≤ 2 * out.m2 ∨
      ⌈(((A.psize - out.m) * (A.psize - out.m) : Nat) : R) * o.rho⌉₊ ≤
        ⌊o.par.alphaL * ((∑ i ∈ Ico out.m A.psize, 2 * (e.rows lvl).get (out.p.get i) : Nat) : R)⌋₊ ∨
      A.psize - out.m ≤ smallSize e o N := by
  have hpf : (postFlag out.m2 out.m).2 ≠ 0 := by unfold postFlag; rw [if_neg (by omega)]; split <;> (show out.m ≠ 0; omega)
  unfold symmLevel at ho
  split at ho
  · cases ho
  · obtain ⟨g, -, ho⟩ := SchurIn.bind_ok_inv ho
    obtain ⟨r, -, ho⟩ := SchurIn.bind_ok_inv ho
    unfold symmConclude at ho
    split at ho
    · rename_i hc
      obtain ⟨nnz, -, ho⟩ := SchurIn.bind_ok_inv ho
      cases ho
      exact absurd hc hpf
    · obtain ⟨b, -, ho⟩ := SchurIn.bind_ok_inv ho
      obtain ⟨nnz, e1, ho⟩ := SchurIn.bind_ok_inv ho
      cases ho
      have := symmNnz_eq hm e1
      refine useDense_of (c := _) h4 (fun hc => by cases hc) (fun b hb => by cases hb) ?_ rfl
      show symmFew o (A.psize - r.m) nnz = _
      unfold symmFew
      rw [this]
      rfl

/-- C62, C66, C69 (dense criterion, empty level): a level that keeps nothing always ends in the dense solver. -/
theorem C62_dense_empty (kind : LevelKind) (fopts : FacOpts) (out : CroutOut K) (post : Int) (n : Nat) : useDense kind fopts out post n 0 = true := by
  unfold useDense; simp

end
end Hif.Props
