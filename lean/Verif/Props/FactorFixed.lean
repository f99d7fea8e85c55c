import Verif.Props.Level
import Verif.Props.PrecProd
import Verif.Props.RefineFixed
import Verif.Props.Factor
import Verif.Props.QrcpEnd
import Verif.Props.PartSymm
import Verif.Props.SyEigEnd

set_option linter.unusedSectionVars false
set_option linter.unusedVariables false

/-!
# C95: from the matrix to a consistent pair of products and solves
-/

namespace Hif
open Finset Spec HIF HM
variable {K : Type} [Field K] [StarRing K]

namespace Prec

theorem Ends.usable {r kf : Nat} {T : Nat → Nat → K} : ∀ {precs : List (Prec K)} {k : Nat},
    Level.Ends (LastFix r kf T) kf precs k → Usable r T kf precs k
  | [], _, h => h.elim
  | P :: rest, k, ⟨h1, h2, h3⟩ => by
    refine ⟨h1, h2, ?_⟩
    by_cases hl : P.isLast = true
    · rw [if_pos hl] at h3 ⊢; exact h3
    · rw [if_neg hl] at h3 ⊢; exact Ends.usable h3

theorem Ends.multiplies {r kf : Nat} {V : Nat → Nat → K} : ∀ {precs : List (Prec K)} {k : Nat},
    Level.Ends (LastMult r kf V) kf precs k → Multiplies r V kf precs k
  | [], _, h => h.elim
  | P :: rest, k, ⟨h1, h2, h3⟩ => by
    refine ⟨h1, h2, ?_⟩
    by_cases hl : P.isLast = true
    · rw [if_pos hl] at h3 ⊢; exact h3
    · rw [if_neg hl] at h3 ⊢; exact Ends.multiplies h3

theorem Ends.last {Ok : Last K → Prop} {kf : Nat} : ∀ {precs : List (Prec K)} {k : Nat},
    Level.Ends Ok kf precs k → ∃ P, precs.getLast? = some P ∧ P.isLast = true ∧ P.n - P.m = kf ∧ Ok P.last
  | [], _, h => h.elim
  | P :: rest, k, ⟨h1, h2, h3⟩ => by
    split at h3
    · rename_i hl
      obtain ⟨rfl, h4⟩ := h3
      exact ⟨P, rfl, hl, h4⟩
    · obtain ⟨Q, e, hQ⟩ := Ends.last h3
      refine ⟨Q, ?_, hQ⟩
      cases rest with
      | nil => simp at e
      | cons a l => rw [List.getLast?_cons_cons]; exact e

end Prec

namespace Props

/-- `A`, `B` are generalized inverses of each other. -/
def Paired (k : Nat) (A B : Nat → Nat → K) : Prop := GenInv k A B ∧ GenInv k B A

/-- An object of dimension `k` that applies, with rank `r`, fixed matrices: whatever sequence of applying calls came before, `solve` multiplies by `W` (with the transpose flag
by `Wt`), `mmultiply` by `M` (`Mt`); `W M W = W`, `M W M = M`, and the same for the other two.  With real scalings `Wt` and `Mt` are the adjoints of `W` and `M`.
Refinement (`hifir`) with `N` iterations against a system matrix returns the `N`-th iterate of `x_0 = 0, x_{j+1} = x_j + W (b - A x_j)`. -/
def Consistent (r k : Nat) (h : HIF K) : Prop := ∃ W Wt M Mt : Nat → Nat → K, Paired k W M ∧ Paired k Wt Mt ∧
  (RealScalings h.precs → ∀ i j, i < k → j < k → Wt i j = star (W j i) ∧ Mt i j = star (M j i)) ∧
  (∀ (junk : Nat → K) (cs : List (Call K)), (∀ c ∈ cs, c.applies) → ∀ (trans : Bool) (b x : Buf K), b.size = k → x.size = k →
    ((if trans then h.nspTran else h.nsp) = none →
      Does (solve junk b x trans r) (run junk h cs) fun _ y => y.size = k ∧ ∀ i, i < k → y.get i = mulVec k (if trans then Wt else W) b.get i) ∧
    Does (mmultiply junk b x trans r) (run junk h cs) fun _ y => y.size = k ∧ ∀ i, i < k → y.get i = mulVec k (if trans then Mt else M) b.get i) ∧
  (h.ncols = k → 0 < k → ∀ (A : Operator K) (T : Nat → Nat → K), OpOK A k T → ∀ (junk : Nat → K) (cs : List (Call K)), (∀ c ∈ cs, c.applies) → ∀ (trans : Bool),
    (if trans then h.nspTran else h.nsp) = none → ∀ b x : Buf K, b.size = k → x.size = k → ∀ N : Nat,
    Does (hifir junk A b N x trans r) (run junk h cs) fun _ y => y.size = k ∧
      ∀ i, i < k → y.get i = refined k (if trans then Wt else W) (if trans then herm T else T) b.get (max N 1) i)

/-- Two matrices that satisfy the identity of an adjoint pair are adjoint. -/
theorem adjoint_of_ip {k : Nat} {W Wt : Nat → Nat → K} (h : ∀ f g : Nat → K, ip k (mulVec k Wt f) g = ip k f (mulVec k W g)) :
    ∀ i j, i < k → j < k → Wt i j = star (W j i) := by
  intro i j hi hj
  have e : ∀ (A : Nat → Nat → K) (j : Nat), j < k → ∀ l, mulVec k A (fun a => if a = j then 1 else 0) l = A l j := fun A j hj l => by
    unfold mulVec
    rw [sum_eq_single_of_mem j (mem_range.2 hj) (fun a _ ha => by simp [ha])]
    simp
  have := h (fun a => if a = j then 1 else 0) (fun a => if a = i then 1 else 0)
  unfold ip at this
  simp only [e Wt j hj, e W i hi] at this
  rw [sum_eq_single_of_mem i (mem_range.2 hi) (fun a _ ha => by simp [ha]), sum_eq_single_of_mem j (mem_range.2 hj) (fun a _ ha => by simp [ha])] at this
  simp only [if_true, mul_one, star_one, one_mul] at this
  rw [← this, star_star]

theorem consistent_of {h : HIF K} {r : Nat} {T V : Nat → Nat → K} {kf k : Nat} (hg : Prec.Usable r T kf h.precs k) (hm : Prec.Multiplies r V kf h.precs k)
    (hw : Fits 1 h) (hTV : GenInv kf T V) (hVT : GenInv kf V T) : Consistent r k h := by
  obtain ⟨W, hW⟩ := Gives.matrix hg.chain (fun b => fixed_total hg hw false b)
  obtain ⟨Wt, hWt⟩ := Gives.matrix (Prec.adj_chain hg.chain) (fun b => fixed_total hg hw true b)
  obtain ⟨M, hM⟩ := matrix_of_linear (k := k) (R := fun b x => Applies V (h.precs.map Prec.toLevel) k x b) (fun x => product_total hm hw false x)
    (fun a c _ _ _ _ h1 h2 => h1.lin a c h2) fun _ _ _ _ h1 h2 e => Applies.unique_b hm.chain h1 h2 e
  obtain ⟨Mt, hMt⟩ := matrix_of_linear (k := k) (R := fun b x => Applies (herm V) ((h.precs.map Prec.toLevel).map Level.adj) k x b) (fun x => product_total hm hw true x)
    (fun a c _ _ _ _ h1 h2 => h1.lin a c h2) fun _ _ _ _ h1 h2 e => Applies.unique_b (Prec.adj_chain hm.chain) h1 h2 e
  refine ⟨W, Wt, M, Mt, ⟨fun y i hi => ?_, fun y i hi => ?_⟩, ⟨fun y i hi => ?_, fun y i hi => ?_⟩, fun hreal => ?_, fun junk cs hc trans b x hb hx => ?_, fun hcols hk A Tm hA junk cs hc trans hn b x hb hx N => ?_⟩
  · obtain ⟨x, ax⟩ := fixed_total hg hw false y
    obtain ⟨c, ac⟩ := product_total hm hw false x
    obtain ⟨z, az⟩ := fixed_total hg hw false c
    have := Gives.applies_gives hTV hg.chain ax ac az i hi
    rw [hW _ _ az i hi, hW _ _ ax i hi] at this
    rw [← this]
    exact mulVec_congr' (fun j hj => by rw [hM _ _ ac j hj]; exact mulVec_congr' (fun l hl => (hW _ _ ax l hl).symm) j) i
  · obtain ⟨x, ax⟩ := product_total hm hw false y
    obtain ⟨c, ac⟩ := fixed_total hg hw false x
    obtain ⟨z, az⟩ := product_total hm hw false c
    have := Applies.gives_applies hVT hg.chain ax ac az i hi
    rw [hM _ _ az i hi, hM _ _ ax i hi] at this
    rw [← this]
    exact mulVec_congr' (fun j hj => by rw [hW _ _ ac j hj]; exact mulVec_congr' (fun l hl => (hM _ _ ax l hl).symm) j) i
  · obtain ⟨x, ax⟩ := fixed_total hg hw true y
    obtain ⟨c, ac⟩ := product_total hm hw true x
    obtain ⟨z, az⟩ := fixed_total hg hw true c
    have := Gives.applies_gives hTV.herm (Prec.adj_chain hg.chain) ax ac az i hi
    rw [hWt _ _ az i hi, hWt _ _ ax i hi] at this
    rw [← this]
    exact mulVec_congr' (fun j hj => by rw [hMt _ _ ac j hj]; exact mulVec_congr' (fun l hl => (hWt _ _ ax l hl).symm) j) i
  · obtain ⟨x, ax⟩ := product_total hm hw true y
    obtain ⟨c, ac⟩ := fixed_total hg hw true x
    obtain ⟨z, az⟩ := product_total hm hw true c
    have := Applies.gives_applies hVT.herm (Prec.adj_chain hg.chain) ax ac az i hi
    rw [hMt _ _ az i hi, hMt _ _ ax i hi] at this
    rw [← this]
    exact mulVec_congr' (fun j hj => by rw [hWt _ _ ac j hj]; exact mulVec_congr' (fun l hl => (hMt _ _ ax l hl).symm) j) i
  · have hst : ∀ v ∈ h.precs.map Prec.toLevel, (∀ i, star (v.s i) = v.s i) ∧ ∀ i, star (v.t i) = v.t i := fun v hv => by
      obtain ⟨P, hP, rfl⟩ := List.mem_map.1 hv
      exact hreal P hP
    have a1 := adjoint_of_ip (k := k) (W := W) (Wt := Wt) fun f g => by
      obtain ⟨x, ax⟩ := fixed_total hg hw false g
      obtain ⟨z, az⟩ := fixed_total hg hw true f
      rw [ip_congr (fun i hi => (hWt _ _ az i hi).symm) (fun _ _ => rfl), Gives.adjoint hg.chain hst ax az]
      exact ip_congr (fun _ _ => rfl) fun i hi => hW _ _ ax i hi
    have a2 := adjoint_of_ip (k := k) (W := M) (Wt := Mt) fun f g => by
      obtain ⟨x, ax⟩ := product_total hm hw false g
      obtain ⟨z, az⟩ := product_total hm hw true f
      rw [ip_congr (fun i hi => (hMt _ _ az i hi).symm) (fun _ _ => rfl), ← Applies.adjoint hm.chain hst ax az]
      exact ip_congr (fun _ _ => rfl) fun i hi => hM _ _ ax i hi
    exact fun i j hi hj => ⟨a1 i j hi hj, a2 i j hi hj⟩
  · obtain ⟨e1, e2, e3, e4⟩ := history_run hw junk cs hc
    refine ⟨fun hn => ?_, ?_⟩
    · refine (solveFix_does (junk := junk) (h := run junk h cs) (by rw [e1]; exact hg) e4 trans (by rw [e2, e3]; exact hn) b x hb hx).mono ?_
      rintro g z ⟨-, h2, h3⟩
      refine ⟨h2, fun i hi => ?_⟩
      rw [e1] at h3
      cases trans with
      | false => exact hW _ _ h3 i hi
      | true => exact hWt _ _ h3 i hi
    · refine (mmultiplyFix_does (junk := junk) (h := run junk h cs) (by rw [e1]; exact hm) e4 trans b x hb hx).mono ?_
      rintro g z ⟨-, h2, h3⟩
      refine ⟨h2, fun i hi => ?_⟩
      rw [e1] at h3
      cases trans with
      | false => exact hM _ _ h3 i hi
      | true => exact hMt _ _ h3 i hi
  · obtain ⟨e1, e2, e3, e4⟩ := fixed_run hg hw junk cs hc
    have hs : SolvesBy junk (run junk h cs) r trans k (if trans then Wt else W) := fun w hrw b x hb hx => by
      refine (solveFix_does (junk := junk) (h := { run junk h cs with work := w }) (T := T) (kf := kf) (by show Prec.Usable r T kf (run junk h cs).precs k; rw [e1]; exact hg) hrw
        trans (by show (if trans then (run junk h cs).nspTran else (run junk h cs).nsp) = none; rw [e2, e3]; exact hn) b x hb hx).mono ?_
      rintro h' y ⟨⟨w', hw', rfl⟩, h2, h3⟩
      refine ⟨⟨w', rfl, Or.inr hw'⟩, h2, fun i hi => ?_⟩
      simp only [e1] at h3
      cases trans with
      | false => exact hW _ _ h3 i hi
      | true => exact hWt _ _ h3 i hi
    exact refineFix_does hs e4 (same_run (I := fun g => g.ncols = k) (fun g w hg => hg) junk cs hc h hcols) hk hA b x hb hx N

/-- **C95** (adjoint): over the reals — more generally whenever the scalings are real — the transposed solve and product of such an object are the adjoints of the plain ones,
whatever the rank and whatever calls came between: `⟨solve(b), c⟩ = ⟨b, solve_tran(c)⟩` and the same for `mmultiply`. -/
theorem C95_adjoint {h : HIF K} {r k : Nat} (hC : Consistent r k h) (hreal : RealScalings h.precs) (junk : Nat → K) (cs cs' : List (Call K))
    (hc : ∀ c ∈ cs, c.applies) (hc' : ∀ c ∈ cs', c.applies) (b c x x' : Buf K) (hb : b.size = k) (hcs : c.size = k) (hx : x.size = k) (hx' : x'.size = k) :
    (h.nsp = none → h.nspTran = none → ∃ y z : Buf K, Does (solve junk b x false r) (run junk h cs) (fun _ w => w = y) ∧
      Does (solve junk c x' true r) (run junk h cs') (fun _ w => w = z) ∧ ip k c.get y.get = ip k z.get b.get) ∧
    ∃ y z : Buf K, Does (mmultiply junk b x false r) (run junk h cs) (fun _ w => w = y) ∧
      Does (mmultiply junk c x' true r) (run junk h cs') (fun _ w => w = z) ∧ ip k c.get y.get = ip k z.get b.get := by
  obtain ⟨W, Wt, M, Mt, -, -, hadj, hW, -⟩ := hC
  have key : ∀ {A At : Nat → Nat → K}, (∀ i j, i < k → j < k → At i j = star (A j i)) → ∀ {y z : Buf K}, (∀ i, i < k → y.get i = mulVec k A b.get i) →
      (∀ i, i < k → z.get i = mulVec k At c.get i) → ip k c.get y.get = ip k z.get b.get := fun {A At} hA {y z} hy hz => by
    rw [ip_congr (fun _ _ => rfl) hy, ip_congr hz (fun _ _ => rfl), ip_mulVec]
    exact ip_congr (fun i hi => mulVec_mat fun j hj => (hA i j hi hj).symm) fun _ _ => rfl
  refine ⟨fun h1 h2 => ?_, ?_⟩
  · obtain ⟨g, y, e1, s1, q1⟩ := (hW junk cs hc false b x hb hx).1 h1
    obtain ⟨g', z, e2, s2, q2⟩ := (hW junk cs' hc' true c x' hcs hx').1 h2
    exact ⟨y, z, ⟨g, y, e1, rfl⟩, ⟨g', z, e2, rfl⟩, key (fun i j hi hj => (hadj hreal i j hi hj).1) q1 q2⟩
  · obtain ⟨g, y, e1, s1, q1⟩ := (hW junk cs hc false b x hb hx).2
    obtain ⟨g', z, e2, s2, q2⟩ := (hW junk cs' hc' true c x' hcs hx').2
    exact ⟨y, z, ⟨g, y, e1, rfl⟩, ⟨g', z, e2, rfl⟩, key (fun i j hi hj => (hadj hreal i j hi hj).2) q1 q2⟩

end Props
end Hif

namespace Hif.Props
open Hif Level Spec HIF HM Finset
variable {K R : Type} [Field K] [StarRing K] [DecidableEq K] [Inhabited K] [Field R] [LinearOrder R] [IsStrictOrderedRing R] [FloorSemiring R]

/-- QRCP on a square sparse block: the factorization succeeds; unless the block is zero, its products and solves with every rank up to the numerical one are a fixed pair. -/
theorem qrcp_dense_pair {env : Qrcp.Env K R} (hl : Qrcp.Laic1OK env) (hnrm : Qrcp.NrmOK env.nrm) (ht : 0 < env.diagTol)
    (rowMajor : Bool) {S : CS K} (hw : S.WF) (hs : S.Sorted) (hsq : S.ssize = S.psize) (hpos : 0 < S.psize)
    (hg : ∀ m : Buf K, m.size = S.psize * S.psize → Qrcp.Geqp3OK env S.psize m) :
    (Qrcp.dense env rowMajor false S).2 = none ∧ ((∃ i j, i < S.psize ∧ j < S.psize ∧ mat rowMajor S i j ≠ 0) →
      ∀ r, r ≤ (Qrcp.dense env rowMajor false S).1.rank → ∃ T V, Prec.DenseFixed r S.psize T (Qrcp.dense env rowMajor false S).1 ∧
        Prec.DenseMult r S.psize V (Qrcp.dense env rowMajor false S).1 ∧ GenInv S.psize T V ∧ GenInv S.psize V T) := by
  have hdist : ∀ i, i < S.psize → ∀ k l, S.start.get i ≤ k → k < l → l < S.start.get (i + 1) → S.inds.get k ≠ S.inds.get l := by
    intro i hi k l h1 h2 h3
    have := hs i hi k l ⟨h1, by omega⟩ ⟨by omega, h3⟩ h2
    omega
  have hd : Runs (if rowMajor then S.denseFromCRS else S.denseFromCCS) fun d => d.size = S.psize * S.psize ∧
      ∀ i j, i < S.psize → j < S.psize → colMajor S.psize d i j = mat rowMajor S i j := by
    cases rowMajor
    · simp only [Bool.false_eq_true, if_false]
      refine (CS.denseFromCCS_runs hw hdist).mono ?_
      rintro d ⟨d1, d2⟩
      rw [hsq] at d1 d2
      exact ⟨d1, fun i j hi hj => d2 j hj i hi⟩
    · simp only [if_true]
      refine (CS.denseFromCRS_runs hw hdist).mono ?_
      rintro d ⟨d1, d2⟩
      rw [hsq] at d1 d2
      exact ⟨d1, fun i j hi hj => d2 i hi j hj⟩
  obtain ⟨d, ed, d1, d2⟩ := hd
  obtain ⟨s, es, hF, hrk, hpv⟩ := Qrcp.factorize_runs hl hnrm ht hpos (hg d d1)
  have hdn : Qrcp.dense env rowMajor false S = (Qrcp.ops s, none) := by
    unfold Qrcp.dense
    rw [ed, hsq]
    simp only [ite_self]
    show (match Qrcp.factorize env S.psize S.psize d with | .ok s => (Qrcp.ops s, none) | .error e => (Qrcp.failed, some e)) = _
    rw [es]
  rw [hdn]
  refine ⟨rfl, ?_⟩
  rintro ⟨i, j, hi, hj, hne⟩ r hr
  have hr : r ≤ s.rank := hr
  have hp := hpv ⟨i, j, hi, hj, by rw [← d2 i j hi hj] at hne; exact hne⟩
  have he : Qrcp.effRank s r ≤ s.rank := by
    unfold Qrcp.effRank
    split
    · exact le_refl _
    · split
      · rename_i c; have := hF.nr; omega
      · exact hr
  exact C93_dense_qrcp hF r (by omega) fun i hi => hp i (by omega)

/-- What the invariant of the driver gives for the object it leaves. -/
theorem represents_consistent {sy : Bool} {o : Level.Opts R} {dense : Bool → CS K → DenseOps K × Option Err} {rowMajor : Bool} {G : CS K → Prop} {Lv : Spec.Level K → Prop}
    {A S : CS K} {h₁ : HIF K} (k2 : Represents sy o dense rowMajor G Lv A S h₁.precs) (fits : Fits 1 h₁) :
    (S.psize = 0 → ∀ r, Consistent r A.psize h₁) ∧
    (∀ r T V, 0 < S.psize → Prec.LastFix r S.psize T (mkLast sy (dense sy S).1) → Prec.LastMult r S.psize V (mkLast sy (dense sy S).1) → GenInv S.psize T V →
      GenInv S.psize V T → Consistent r A.psize h₁) ∧
    h₁.schurRank = (if 0 < S.psize then (dense sy S).1.rank else 0) ∧
    (0 < S.psize → Ends (fun l => l = mkLast sy (dense sy S).1) S.psize h₁.precs A.psize) := by
  refine ⟨fun h0 r => ?_, fun r T V h0 q1 q2 q3 q4 => ?_, ?_, fun h0 => k2.ends _ (fun _ => rfl) fun c => by omega⟩
  · exact consistent_of (T := fun _ _ => 0) (V := fun _ _ => 0) (Prec.Ends.usable (k2.ends _ (fun c => by omega) fun _ => h0))
      (Prec.Ends.multiplies (k2.ends _ (fun c => by omega) fun _ => h0)) fits (fun y i hi => by omega) (fun y i hi => by omega)
  · exact consistent_of (Prec.Ends.usable (k2.ends _ (fun _ => q1) fun c => by omega)) (Prec.Ends.multiplies (k2.ends _ (fun _ => q2) fun c => by omega)) fits q3 q4
  · obtain ⟨P, e1, e3, e4, e2⟩ := Prec.Ends.last (k2.ends (fun l => l.rank = if 0 < S.psize then (dense sy S).1.rank else 0)
      (fun h0 => by rw [if_pos h0]; unfold mkLast; split <;> rfl) (fun h0 => by rw [if_neg (by omega)]; rfl))
    unfold HIF.schurRank
    rw [e1]
    show P.lastRank = _
    unfold Prec.lastRank
    rw [e3, ← e2]
    by_cases c : P.m = P.n
    · have : ¬ 0 < S.psize := by omega
      rw [if_neg this] at e2
      simp [c, e2]
    · simp [c]

theorem factorize_fits {junk : Nat → K} {ijunk : Nat → Int} {ker : Kernels K} {opts : FacOpts} {A : Input K} {m0 : Nat} {h h₁ : HIF K} {r : M Unit}
    (k1 : factorize junk ijunk ker opts A m0 h = (h₁, r)) (hw : h.empty = true → h.work.size = 0) : Fits 1 h₁ := by
  obtain ⟨ps, st, e1⟩ := factorize_frame junk ijunk ker opts A m0 h
  rw [k1] at e1
  have hz : h₁.work.size = 0 := by
    have e1 : h₁ = _ := e1
    rw [e1]
    show (if h.empty = true then h.work else ⟨0, junk⟩ : Buf K).size = 0
    split
    · rename_i c; exact hw c
    · rfl
  exact ⟨Or.inl hz, fun _ => hz⟩

theorem factorize_ncols {junk : Nat → K} {ijunk : Nat → Int} {ker : Kernels K} {opts : FacOpts} {A : Input K} {m0 n : Nat} {raw : RawCS} {h h₁ : HIF K} {r : M Unit}
    (k1 : factorize junk ijunk ker opts A m0 h = (h₁, r)) (hA : ValidSquare A ijunk raw n) : h₁.ncols = n := by
  obtain ⟨ps, st, efr⟩ := factorize_frame junk ijunk ker opts A m0 h
  rw [k1] at efr
  have efr : h₁ = _ := efr
  have d1 := hA.dim'
  have d2 := hA.other
  rw [efr]
  show A.ncols = n
  unfold Input.ncols
  cases A.rowMajor <;> simp <;> omega

section general
variable (e : Level.Env K R) (o : Level.Opts R) (hc : LevelContract e o) (other : Kernels K) (junk : Nat → K) (ijunk : Nat → Int)
    (opts : FacOpts) (hsy : opts.isSymm = false) (A : Input K) (raw : RawCS) (n : Nat) (hA : ValidSquare A ijunk raw n) (hsz : SizesOK e n)
    (env : Qrcp.Env K R) (hl : Qrcp.Laic1OK env) (hnrm : Qrcp.NrmOK env.nrm) (ht : 0 < env.diagTol)
    (hg : ∀ k, 0 < k → k ≤ n → ∀ m : Buf K, m.size = k * k → Qrcp.Geqp3OK env k m) (hdense : other.dense = Qrcp.dense env A.rowMajor)
    (h : HIF K) (hw : h.empty = true → h.work.size = 0)
include hc hsy hA hsz hl hnrm ht hg hdense hw

/-- What C95 says about the object after `factorize`. -/
theorem qrcp_outcome {h₁ : HIF K} {S : CS K} {G : CS K → Prop} {ker : Kernels K} {m0 : Nat} (k1 : factorize junk ijunk ker opts A m0 h = (h₁, .ok ()))
    (k2 : Represents false o other.dense A.rowMajor G (fun _ => True) (raw.toCS n A.vals) S h₁.precs) :
    (∀ r, r ≤ h₁.schurRank → Consistent r n h₁) ∨
        ∃ S : CS K, 0 < S.psize ∧ S.psize ≤ n ∧ (∀ i j, i < S.psize → j < S.psize → mat A.rowMajor S i j = 0) ∧
          Ends (fun l => l = .dense (Qrcp.dense env A.rowMajor false S).1) S.psize h₁.precs n := by
  have hp : (raw.toCS n A.vals).psize = n := hA.dim
  have hsp : S.psize ≤ n := by have := k2.size; omega
  obtain ⟨a1, a2, a3, a4⟩ := represents_consistent k2 (factorize_fits k1 hw)
  rw [hp] at a1 a2 a4
  rw [hdense] at a2 a3 a4
  by_cases h0 : 0 < S.psize
  · obtain ⟨blk, -⟩ := k2.block h0
    by_cases hz : ∃ i j, i < S.psize ∧ j < S.psize ∧ mat A.rowMajor S i j ≠ 0
    · left
      intro r hr
      rw [a3, if_pos h0] at hr
      obtain ⟨T, V, q1, q2, q3, q4⟩ := (qrcp_dense_pair hl hnrm ht A.rowMajor blk.wf blk.sorted blk.sq h0 (hg _ h0 hsp)).2 hz r hr
      exact a2 r T V h0 q1 q2 q3 q4
    · right
      push Not at hz
      exact ⟨S, h0, hsp, hz, a4 h0⟩
  · left
    exact fun r _ => a1 (by omega) r

/-- **C95**: for every valid square matrix, singular or not, in every pivoting mode and whatever is dropped, `factorize` with QRCP as the dense solver completes whatever the object
held before.  Afterwards, for every rank up to the numerical rank of the last block (0 selects it), products and solves are by fixed matrices that are generalized inverses of each
other; the only exception is a last block whose entries are all zero. -/
theorem C95_factorize_consistent :
    ∃ h₁, factorize junk ijunk (kernels e o (opts.pivot == .auto) A.rowMajor other) opts A 0 h = (h₁, .ok ()) ∧ h₁.ncols = n ∧
      ((∀ r, r ≤ h₁.schurRank → Consistent r n h₁) ∨
        ∃ S : CS K, 0 < S.psize ∧ S.psize ≤ n ∧ (∀ i j, i < S.psize → j < S.psize → mat A.rowMajor S i j = 0) ∧
          Ends (fun l => l = .dense (Qrcp.dense env A.rowMajor false S).1) S.psize h₁.precs n) := by
  have dn : ∀ S : CS K, S.WF → S.Sorted → S.ssize = S.psize → 0 < S.psize → S.psize ≤ n → (other.dense false S).2 = none :=
    fun S a b c d d' => by rw [hdense]; exact (qrcp_dense_pair hl hnrm ht A.rowMajor a b c d (hg _ d d')).1
  rcases factorize_represents e o hc other junk ijunk opts hsy A raw n hA hsz (fun k _ => k ≤ n) (fun _ _ _ _ h => h) (le_refl _)
    (fun S a b c d i => Or.inr (dn S a b c d i)) (fun _ B out _ _ hle _ => by show B.psize - out.m ≤ n; omega) h with
    ⟨h₁, S, k1, k2⟩ | ⟨h₁, msg, S, k1, k2, k3, k4, k5⟩
  · exact ⟨h₁, k1, factorize_ncols k1 hA, qrcp_outcome e o hc other junk ijunk opts hsy A raw n hA hsz env hl hnrm ht hg hdense h hw k1 k2⟩
  · rw [dn S k4.wf k4.sorted k4.sq k2 k3] at k5
    cases k5

/-- **C95** (leading symmetric block): the same if a leading block of `m0` unknowns is declared symmetric and is (`factorize` with `m0`). -/
theorem C95_lead_consistent (m0 : Nat) (hlb : LeadingBlock e o A.rowMajor (raw.toCS n A.vals) n m0) :
    ∃ h₁, factorize junk ijunk (partKernels e o (opts.pivot == .auto) A.rowMajor other) opts A m0 h = (h₁, .ok ()) ∧ h₁.ncols = n ∧
      ((∀ r, r ≤ h₁.schurRank → Consistent r n h₁) ∨
        ∃ S : CS K, 0 < S.psize ∧ S.psize ≤ n ∧ (∀ i j, i < S.psize → j < S.psize → mat A.rowMajor S i j = 0) ∧
          Ends (fun l => l = .dense (Qrcp.dense env A.rowMajor false S).1) S.psize h₁.precs n) := by
  have dn : ∀ S : CS K, S.WF → S.Sorted → S.ssize = S.psize → 0 < S.psize → S.psize ≤ n → (other.dense false S).2 = none :=
    fun S a b c d d' => by rw [hdense]; exact (qrcp_dense_pair hl hnrm ht A.rowMajor a b c d (hg _ d d')).1
  rcases part_represents e o hc other junk ijunk opts hsy A raw n hA hsz m0 hlb (fun k _ => k ≤ n) (fun _ _ _ _ h => h) (le_refl _)
    (fun S a b c d i => Or.inr (dn S a b c d i)) (fun _ B out _ _ hle _ => by show B.psize - out.m ≤ n; omega) h with
    ⟨h₁, S, k1, k2⟩ | ⟨h₁, msg, S, k1, k2, k3, k4, k5⟩
  · exact ⟨h₁, k1, factorize_ncols k1 hA, qrcp_outcome e o hc other junk ijunk opts hsy A raw n hA hsz env hl hnrm ht hg hdense h hw k1 k2⟩
  · rw [dn S k4.wf k4.sorted k4.sq k2 k3] at k5
    cases k5
end general

section symmetric
variable [TrivialStar K]

/-- SYEIG on a symmetric sparse block, whatever its rank: the factorization succeeds with an eigenvalue decomposition of the block. -/
theorem syeig_dense_state {c : R → K} (spd : Int) (eps : R) {srt : (Nat → R) → Buf Nat → Buf Nat} (hsrt : SortDesc srt)
    {syev : Nat → Buf K → Buf R × Buf K × Int} (lwork : Nat → Nat) (rowMajor : Bool) {S : CS K} (hS : SymCS S)
    (hpos : 0 < S.psize) (hg : SyevOK c S.psize syev) :
    ∃ s d, SyEig.dense c spd eps srt syev lwork rowMajor true S = (SyEig.ops c s, none) ∧ SyEig.Ready S.psize s ∧ EigDecomp c S.psize d s.mat s.w ∧
      ∀ i j, i < S.psize → j < S.psize → colMajor S.psize d i j = mat rowMajor S i j := by
  have hdist : ∀ i, i < S.psize → ∀ k l, S.start.get i ≤ k → k < l → l < S.start.get (i + 1) → S.inds.get k ≠ S.inds.get l := by
    intro i hi k l h1 h2 h3
    have := hS.sorted i hi k l ⟨h1, by omega⟩ ⟨by omega, h3⟩ h2
    omega
  have hsq : S.ssize = S.psize := hS.sq
  have hd : Runs (if rowMajor then S.denseFromCRS else S.denseFromCCS) fun d => d.size = S.psize * S.psize ∧
      ∀ i j, i < S.psize → j < S.psize → colMajor S.psize d i j = mat rowMajor S i j := by
    cases rowMajor
    · simp only [Bool.false_eq_true, if_false]
      refine (CS.denseFromCCS_runs hS.wf hdist).mono ?_
      rintro d ⟨d1, d2⟩
      rw [hsq] at d1 d2
      exact ⟨d1, fun i j hi hj => d2 j hj i hi⟩
    · simp only [if_true]
      refine (CS.denseFromCRS_runs hS.wf hdist).mono ?_
      rintro d ⟨d1, d2⟩
      rw [hsq] at d1 d2
      exact ⟨d1, fun i j hi hj => d2 i hi j hj⟩
  obtain ⟨d, ed, d1, d2⟩ := hd
  set n := S.psize with hn
  obtain ⟨hi0, hE⟩ := hg d d1 (fun i j hi hj => by rw [d2 i j hi hj, d2 j i hj hi]; exact hS.symMat rowMajor i j hi hj)
  obtain ⟨t, et, ho, hle, hfull⟩ := truncate_order spd eps hsrt { (syev n d).1 with size := n } hpos
  let s : SyEig.St R K := { nrows := n, ncols := n, mat := (syev n d).2.1, w := { (syev n d).1 with size := n }, work := Buf.mk' (max (lwork n) n) default, order := t.1, rank := t.2 }
  refine ⟨s, d, ?_, ⟨hpos, rfl, hE.size, rfl, by show n ≤ max (lwork n) n; omega, ho, hle⟩, hE, d2⟩
  unfold SyEig.dense
  rw [ed, hsq, ← hn]
  simp only [ite_self]
  have : SyEig.factorize spd eps srt syev (lwork n) { nrows := n, ncols := n, mat := d, w := Buf.mk' 0 0, work := Buf.mk' 0 default, order := Buf.mk' 0 0, rank := 0 } = .ok s := by
    unfold SyEig.factorize
    rw [if_neg (by show ¬ (n = 0 ∨ n = 0); omega), if_neg (by show ¬ (n ≠ n); simp)]
    simp only
    rw [if_neg (by rw [hi0]; decide), if_neg (by rw [hi0]; decide), et]
    rfl
  dsimp only [bind, Except.bind]
  rw [this]

/-- **C95** (symmetric): for every valid symmetric matrix with symmetric pattern, singular or not, every declared definiteness and whatever is dropped, the symmetric `factorize`
with SYEIG as the dense solver completes whatever the object held before.  Afterwards, for every rank up to the numerical one, products and solves are by fixed matrices that are
generalized inverses of each other; the only exception is a last block one of whose eigenvalues within the numerical rank is zero. -/
theorem C95_symm_consistent (e : Level.Env K R) (o : Level.Opts R) (hc : SymmContract e o) (x : SymmPar K R) (other : Kernels K) (junk : Nat → K) (ijunk : Nat → Int)
    (opts : FacOpts) (hsy : opts.isSymm = true) (A : Input K) (raw : RawCS) (n : Nat) (hA : ValidSquare A ijunk raw n)
    (hsym : SymMat n (mat A.rowMajor (raw.toCS n A.vals))) (hpat : (raw.toCS n A.vals).PatSym) (hsz : SizesOK e n)
    (c : R → K) (hcc : ∀ x, x ≠ 0 → c x ≠ 0) (eps : R) (srt : (Nat → R) → Buf Nat → Buf Nat) (hsrt : SortDesc srt)
    (syev : Nat → Buf K → Buf R × Buf K × Int) (lwork : Nat → Nat) (hg : ∀ k, 0 < k → k ≤ n → SyevOK c k syev)
    (hdense : other.dense = SyEig.dense c x.spd eps srt syev lwork A.rowMajor)
    (h : HIF K) (hw : h.empty = true → h.work.size = 0) :
    ∃ h₁, factorize junk ijunk (allKernels e o x (opts.pivot == .auto) A.rowMajor other) opts A 0 h = (h₁, .ok ()) ∧ h₁.ncols = n ∧
      ((∀ r, r ≤ h₁.schurRank → Consistent r n h₁) ∨
        ∃ (k : Nat) (s : SyEig.St R K) (d : Buf K) (t : Nat), 0 < k ∧ k ≤ n ∧ Ends (fun l => l = .symm (SyEig.ops c s)) k h₁.precs n ∧ SyEig.Ready k s ∧
          EigDecomp c k d s.mat s.w ∧ t < s.rank ∧ s.w.get (s.order.get t) = 0) := by
  have hp : (raw.toCS n A.vals).psize = n := hA.dim
  have dn : ∀ S : CS K, SymCS S → 0 < S.psize → S.psize ≤ n → (other.dense true S).2 = none := fun S a d d' => by
    obtain ⟨s, m, e1, -⟩ := syeig_dense_state x.spd eps hsrt lwork A.rowMajor a d (hg _ d d')
    rw [hdense, e1]
  rcases symm_represents e o hc x other junk ijunk opts hsy A raw n hA hsym hpat hsz (fun S => SymCS S ∧ S.psize ≤ n) ⟨input_symCS hA hsym hpat, le_of_eq hp⟩ (fun _ h => h.1)
    (fun S _ _ _ d i => Or.inr (dn S i.1 d i.2)) (fun _ B out hout hk hle hi hlt hs _ => by
      obtain ⟨k1, k2, -⟩ := hout.kept hk (fun hc => by cases hc)
      exact ⟨hs, by omega⟩) h with ⟨h₁, S, k1, k2⟩ | ⟨h₁, msg, S, k1, k2, k3, k4, k5⟩
  · refine ⟨h₁, k1, factorize_ncols k1 hA, ?_⟩
    obtain ⟨a1, a2, a3, a4⟩ := represents_consistent k2 (factorize_fits k1 hw)
    rw [hp] at a1 a2 a4
    by_cases h0 : 0 < S.psize
    · obtain ⟨blk, -⟩ := k2.block h0
      obtain ⟨hS, hle⟩ := blk.good
      obtain ⟨s, d, e1, e2, e3, e4⟩ := syeig_dense_state x.spd eps hsrt lwork A.rowMajor hS h0 (hg _ h0 hle)
      have hD : (other.dense true S).1 = SyEig.ops c s := by rw [hdense, e1]
      rw [hD] at a2 a3 a4
      by_cases hz : ∃ t, t < s.rank ∧ s.w.get (s.order.get t) = 0
      · right
        obtain ⟨t, t1, t2⟩ := hz
        exact ⟨S.psize, s, d, t, h0, hle, a4 h0, e2, e3, t1, t2⟩
      · left
        push Not at hz
        intro r hr
        rw [a3, if_pos h0] at hr
        have hr : r ≤ s.rank := hr
        have he : SyEig.effRank s S.psize r ≤ s.rank := by
          unfold SyEig.effRank
          split
          · exact le_refl _
          · split <;> omega
        obtain ⟨T, V, q1, q2, q3, q4⟩ := C93_dense_syeig (c := c) (fun a => star_trivial _) hcc e2 e3 r fun t ht => hz t (by omega)
        exact a2 r T V h0 q1 q2 q3 q4
    · left
      exact fun r _ => a1 (by omega) r
  · rw [dn S k4.good.1 k2 k4.good.2] at k5
    cases k5
end symmetric

end Hif.Props
