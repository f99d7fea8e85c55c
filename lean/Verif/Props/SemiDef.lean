import Verif.Props.SymmFixed

set_option linter.unusedSectionVars false
set_option linter.unusedVariables false

/-!
# C97: a declared definiteness makes the preconditioner semidefinite, whatever the rank
-/

namespace Hif.Spec
open Finset
variable {R : Type} [Field R] [LinearOrder R] [IsStrictOrderedRing R]

/-- `σ` times the quadratic form of `T` is not negative. -/
def Semi (σ : R) (k : Nat) (T : Nat → Nat → R) : Prop := ∀ y : Nat → R, 0 ≤ σ * dot k y (mulVec k T y)

theorem ldu_semi {σ : R} {m : Nat} {L U : Nat → Nat → R} {d : Nat → R} (h : ∀ i j, i < m → j < m → U i j = L j i) (hd : ∀ i, i < m → 0 ≤ σ * d i) (u : Nat → R) :
    0 ≤ σ * dot m u (ldu m L d U u) := by
  rw [dot_ldu h, mul_sum]
  refine sum_nonneg fun b hb => ?_
  rw [← mul_assoc]
  exact mul_nonneg (hd b (mem_range.1 hb)) (sq_nonneg _)

theorem dot_congr' {k : Nat} {u u' v v' : Nat → R} (h1 : ∀ i, i < k → u i = u' i) (h2 : ∀ i, i < k → v i = v' i) : dot k u v = dot k u' v' := by
  unfold dot; exact sum_congr rfl fun i hi => by rw [h1 i (mem_range.1 hi), h2 i (mem_range.1 hi)]

/-- Symmetric levels with pivots of the sign `σ` and a semidefinite last block: solves. -/
theorem Gives.semi {σ : R} {T : Nat → Nat → R} {kf : Nat} (hT : Semi σ kf T) : ∀ {lvs : List (Level R)} {k : Nat}, Chain lvs k kf →
    (∀ v ∈ lvs, SymLevel v ∧ ∀ i, i < v.m → 0 ≤ σ * v.d i) → ∀ {x b : Nat → R}, Gives T lvs k x b → 0 ≤ σ * dot k x b
  | [], k, hk, _, x, b, h => by
    have hk : k = kf := hk
    subst hk
    rw [dot_congr' h fun _ _ => rfl, dot_comm]
    exact hT b
  | v :: rest, k, ⟨hn, ok, hc⟩, hsym, x, b, ⟨h1, z, g, h2, h3, h4⟩ => by
    subst hn
    obtain ⟨hv, hd⟩ := hsym v (by simp)
    rw [dot_step ok hv h1 h2 h4, mul_add]
    exact add_nonneg (ldu_semi hv.L hd z) (Gives.semi hT hc (fun w hw => hsym w (by simp [hw])) h3)

/-- The same for products. -/
theorem Applies.semi {σ : R} {V : Nat → Nat → R} {kf : Nat} (hV : Semi σ kf V) : ∀ {lvs : List (Level R)} {k : Nat}, Chain lvs k kf →
    (∀ v ∈ lvs, SymLevel v ∧ ∀ i, i < v.m → 0 ≤ σ * v.d i) → ∀ {x b : Nat → R}, Applies V lvs k x b → 0 ≤ σ * dot k x b
  | [], k, hk, _, x, b, h => by
    have hk : k = kf := hk
    subst hk
    rw [dot_congr' (fun _ _ => rfl) fun i hi => (h i hi).symm]
    exact hV x
  | v :: rest, k, ⟨hn, ok, hc⟩, hsym, x, b, ⟨h1, z, g, h2, h3, h4⟩ => by
    subst hn
    obtain ⟨hv, hd⟩ := hsym v (by simp)
    rw [dot_step ok hv h1 h2 h4, mul_add]
    exact add_nonneg (ldu_semi hv.L hd z) (Applies.semi hV hc (fun w hw => hsym w (by simp [hw])) h3)

end Hif.Spec

namespace Hif.Props
open Hif Level Spec HIF HM Finset
variable {R : Type} [Field R] [StarRing R] [TrivialStar R] [LinearOrder R] [IsStrictOrderedRing R]

theorem withEigen_semi {σ : R} {n : Nat} {q : Buf R} {φ : Nat → R} (h : ∀ l, 0 ≤ σ * φ l) : Semi σ n (withEigen n q φ) := by
  intro y
  have : dot n y (mulVec n (withEigen n q φ) y) = ∑ l ∈ range n, φ l * (∑ j ∈ range n, q.get (l * n + j) * y j) ^ 2 := by
    unfold dot
    simp only [withEigen_apply, star_trivial]
    rw [sum_congr rfl fun i _ => mul_sum _ _ _, sum_comm]
    refine sum_congr rfl fun l _ => ?_
    have e : ∀ i, y i * (q.get (l * n + i) * (φ l * ∑ j ∈ range n, q.get (l * n + j) * y j)) = q.get (l * n + i) * y i * (φ l * ∑ j ∈ range n, q.get (l * n + j) * y j) :=
      fun i => by ring
    rw [sum_congr rfl fun i _ => e i, ← sum_mul]
    ring
  rw [this, mul_sum]
  refine sum_nonneg fun l _ => ?_
  rw [← mul_assoc]
  exact mul_nonneg (h l) (sq_nonneg _)

/-- An object of dimension `k` whose solves and products with rank `r` satisfy `σ ⟨b, y⟩ ≥ 0`, with or without the transpose flag, whatever sequence of applying calls came before. -/
def SemiDef (σ : R) (r k : Nat) (h : HIF R) : Prop :=
  ∀ (junk : Nat → R) (cs : List (Call R)), (∀ c ∈ cs, c.applies) → ∀ (trans : Bool) (b x : Buf R), b.size = k → x.size = k →
    ((if trans then h.nspTran else h.nsp) = none → Does (solve junk b x trans r) (run junk h cs) fun _ y => y.size = k ∧ 0 ≤ σ * dot k b.get y.get) ∧
    Does (mmultiply junk b x trans r) (run junk h cs) fun _ y => y.size = k ∧ 0 ≤ σ * dot k b.get y.get

theorem semiDef_of {σ : R} {h : HIF R} {r : Nat} {T V : Nat → Nat → R} {kf k : Nat} (hg : Prec.Usable r T kf h.precs k) (hm : Prec.Multiplies r V kf h.precs k)
    (hw : Fits 1 h) (hT : SymMat kf T) (hV : SymMat kf V) (hT' : Semi σ kf T) (hV' : Semi σ kf V)
    (hsym : ∀ v ∈ h.precs.map Prec.toLevel, SymLevel v ∧ ∀ i, i < v.m → 0 ≤ σ * v.d i) : SemiDef σ r k h := by
  intro junk cs hc trans b x hb hx
  obtain ⟨e1, e2, e3, e4⟩ := history_run hw junk cs hc
  refine ⟨fun hn => ?_, ?_⟩
  · refine (solveFix_does (junk := junk) (h := run junk h cs) (by rw [e1]; exact hg) e4 trans (by rw [e2, e3]; exact hn) b x hb hx).mono ?_
    rintro g z ⟨-, h2, h3⟩
    refine ⟨h2, ?_⟩
    rw [e1] at h3
    rw [dot_comm]
    cases trans with
    | false => exact Gives.semi hT' hg.chain hsym h3
    | true =>
      obtain ⟨x, ax⟩ := fixed_total hg hw false b.get
      rw [dot_congr' (Gives.unique_x (Prec.adj_chain hg.chain) h3 (ax.self_adj hT hg.chain fun v hv => (hsym v hv).1) (fun _ _ => rfl)) fun _ _ => rfl]
      exact Gives.semi hT' hg.chain hsym ax
  · refine (mmultiplyFix_does (junk := junk) (h := run junk h cs) (by rw [e1]; exact hm) e4 trans b x hb hx).mono ?_
    rintro g z ⟨-, h2, h3⟩
    refine ⟨h2, ?_⟩
    rw [e1] at h3
    cases trans with
    | false => exact Applies.semi hV' hm.chain hsym h3
    | true =>
      obtain ⟨x, ax⟩ := product_total hm hw false b.get
      rw [dot_congr' (fun _ _ => rfl) (Applies.unique_b (Prec.adj_chain hm.chain) h3 (ax.self_adj_triv hV hm.chain fun v hv => (hsym v hv).1) (fun _ _ => rfl))]
      exact Applies.semi hV' hm.chain hsym ax

variable [DecidableEq R] [Inhabited R] [FloorSemiring R]

/-- **C97**: for every valid real symmetric matrix with symmetric pattern, singular or not, and whatever is dropped, the symmetric `factorize` with a declared sign (`σ = 1`: positive,
`σ = -1`: negative definite) and SYEIG as the dense solver completes whatever the object held before.  Afterwards, for every rank up to the numerical one, every solve and every
product satisfies `σ ⟨b, y⟩ ≥ 0`; the only exception is a last block one of whose eigenvalues within the numerical rank does not have the declared sign. -/
theorem C97_semidefinite (e : Level.Env R R) (o : Level.Opts R) (hc : SymmContract e o) (spd : Int) (σ : R) (hσ : (σ = 1 ∧ 0 < spd) ∨ (σ = -1 ∧ spd < 0))
    (other : Kernels R) (junk : Nat → R) (ijunk : Nat → Int)
    (opts : FacOpts) (hsy : opts.isSymm = true) (A : Input R) (raw : RawCS) (n : Nat) (hA : ValidSquare A ijunk raw n)
    (hsym : SymMat n (mat A.rowMajor (raw.toCS n A.vals))) (hpat : (raw.toCS n A.vals).PatSym) (hsz : SizesOK e n)
    (eps : R) (srt : (Nat → R) → Buf Nat → Buf Nat) (hsrt : SortDesc srt)
    (syev : Nat → Buf R → Buf R × Buf R × Int) (lwork : Nat → Nat) (hg : ∀ k, 0 < k → k ≤ n → SyevOK (id : R → R) k syev)
    (hdense : other.dense = SyEig.dense (id : R → R) spd eps srt syev lwork A.rowMajor)
    (h : HIF R) (hw : h.empty = true → h.work.size = 0) :
    ∃ h₁, factorize junk ijunk (allKernels e o ⟨fun a => a, spd⟩ (opts.pivot == .auto) A.rowMajor other) opts A 0 h = (h₁, .ok ()) ∧
      ((∀ r, r ≤ h₁.schurRank → SemiDef σ r n h₁) ∨
        ∃ (k : Nat) (s : SyEig.St R R) (d : Buf R) (t : Nat), 0 < k ∧ k ≤ n ∧ Ends (fun l => l = .symm (SyEig.ops id s)) k h₁.precs n ∧ SyEig.Ready k s ∧
          EigDecomp id k d s.mat s.w ∧ t < s.rank ∧ σ * s.w.get (s.order.get t) ≤ 0) := by
  have hp : (raw.toCS n A.vals).psize = n := hA.dim
  have dn : ∀ S : CS R, SymCS S → 0 < S.psize → S.psize ≤ n → (other.dense true S).2 = none := fun S a d d' => by
    obtain ⟨s, m, e1, -⟩ := syeig_dense_state (c := (id : R → R)) spd eps hsrt lwork A.rowMajor a d (hg _ d d')
    rw [hdense, e1]
  rcases symm_represents e o hc ⟨fun a => a, spd⟩ other junk ijunk opts hsy A raw n hA hsym hpat hsz (fun S => SymCS S ∧ S.psize ≤ n) ⟨input_symCS hA hsym hpat, le_of_eq hp⟩
    (fun _ h => h.1) (fun S _ _ _ d i => Or.inr (dn S i.1 d i.2)) (fun _ B out hout hk hle hi hlt hs _ => by
      obtain ⟨k1, k2, -⟩ := hout.kept hk (fun hc => by cases hc)
      exact ⟨hs, by omega⟩) h with ⟨h₁, S, k1, k2⟩ | ⟨h₁, msg, S, k1, k2, k3, k4, k5⟩
  · refine ⟨h₁, k1, ?_⟩
    have fits := factorize_fits k1 hw
    have hlv : ∀ v ∈ h₁.precs.map Prec.toLevel, SymLevel v ∧ ∀ i, i < v.m → 0 ≤ σ * v.d i := fun v hv => by
      refine ⟨(k2.lv v hv).1, fun i hi => ?_⟩
      rcases hσ with ⟨rfl, c⟩ | ⟨rfl, c⟩
      · rw [one_mul]
        exact le_of_lt ((k2.lv v hv).pos c hi)
      · have : v.d i < 0 := (k2.lv v hv).neg c hi
        linarith
    obtain ⟨-, -, a3, a4⟩ := represents_consistent k2 fits
    rw [hp] at a4
    by_cases h0 : 0 < S.psize
    · obtain ⟨blk, -⟩ := k2.block h0
      obtain ⟨hS, hle⟩ := blk.good
      obtain ⟨s, d, e1, e2, e3, e4⟩ := syeig_dense_state (c := (id : R → R)) spd eps hsrt lwork A.rowMajor hS h0 (hg _ h0 hle)
      have hD : (other.dense true S).1 = SyEig.ops id s := by rw [hdense, e1]
      rw [hD] at a3 a4
      by_cases hz : ∃ t, t < s.rank ∧ σ * s.w.get (s.order.get t) ≤ 0
      · right
        obtain ⟨t, t1, t2⟩ := hz
        exact ⟨S.psize, s, d, t, h0, hle, a4 h0, e2, e3, t1, t2⟩
      · left
        push Not at hz
        intro r hr
        rw [a3, if_pos h0] at hr
        have hr : r ≤ s.rank := hr
        have he : SyEig.effRank s S.psize r ≤ s.rank := by
          unfold SyEig.effRank
          split
          · exact le_refl _
          · split <;> omega
        have hne : ∀ t, t < SyEig.effRank s S.psize r → s.w.get (s.order.get t) ≠ 0 := fun t ht hw0 => by
          have := hz t (by omega)
          rw [hw0, mul_zero] at this
          exact lt_irrefl _ this
        obtain ⟨φ, ψ, ⟨q1, q2, q3, q4⟩, q5⟩ := syeig_pair (c := (id : R → R)) (fun a => star_trivial _) (fun _ h => h) e2 e3 r hne
        have u1 := k2.ends (Prec.LastFix r S.psize (withEigen S.psize s.mat φ)) (fun _ => by rw [hD]; exact q1) fun c => by omega
        have u2 := k2.ends (Prec.LastMult r S.psize (withEigen S.psize s.mat ψ)) (fun _ => by rw [hD]; exact q2) fun c => by omega
        rw [hp] at u1 u2
        refine semiDef_of (Prec.Ends.usable u1) (Prec.Ends.multiplies u2) fits (fun i j hi hj => ?_) (fun i j hi hj => ?_) (withEigen_semi fun l => ?_) (withEigen_semi fun l => ?_) hlv
        · have := q1.1 i j hi hj
          rw [herm_trivial] at this
          exact this.symm
        · have := q2.1 i j hi hj
          rw [herm_trivial] at this
          exact this.symm
        · rcases q5 l with ⟨f0, -⟩ | ⟨t, ht, rfl, f1, -⟩
          · rw [f0, mul_zero]
          · have := hz t (by omega)
            rw [f1]
            show 0 ≤ σ * (s.w.get (s.order.get t))⁻¹
            rcases hσ with ⟨rfl, -⟩ | ⟨rfl, -⟩
            · rw [one_mul] at this ⊢
              exact le_of_lt (inv_pos.2 this)
            · have h' : s.w.get (s.order.get t) < 0 := by linarith
              have := inv_lt_zero.2 h'
              linarith
        · rcases q5 l with ⟨-, f0⟩ | ⟨t, ht, rfl, -, f1⟩
          · rw [f0, mul_zero]
          · rw [f1]
            exact le_of_lt (hz t (by omega))
    · left
      intro r _
      have hz : S.psize = 0 := by omega
      have u1 := k2.ends (Prec.LastFix r S.psize fun _ _ => 0) (fun c => by omega) fun _ => hz
      have u2 := k2.ends (Prec.LastMult r S.psize fun _ _ => 0) (fun c => by omega) fun _ => hz
      rw [hp] at u1 u2
      have hzero : Semi σ S.psize fun _ _ => (0 : R) := fun y => by
        have : dot S.psize y (mulVec S.psize (fun _ _ => (0 : R)) y) = 0 := by unfold dot; rw [hz]; rfl
        rw [this, mul_zero]
      exact semiDef_of (Prec.Ends.usable u1) (Prec.Ends.multiplies u2) fits (fun _ _ _ _ => rfl) (fun _ _ _ _ => rfl) hzero hzero hlv
  · rw [dn S k4.good.1 k2 k4.good.2] at k5
    cases k5

end Hif.Props
