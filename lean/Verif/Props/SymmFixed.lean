import Verif.Props.FactorFixed
import Verif.Props.RefineFixed

set_option linter.unusedSectionVars false
set_option linter.unusedVariables false

/-!
# C96: the preconditioner of a symmetric factorization is symmetric, whatever the rank
-/

namespace Hif.Spec
open Finset
variable {K : Type} [Field K] [StarRing K] [TrivialStar K]

theorem herm_trivial (T : Nat → Nat → K) (i j : Nat) : herm T i j = T j i := by unfold herm; exact star_trivial _

/-- With symmetric levels and a symmetric matrix on the last block, the transposed operator is the operator. -/
theorem Gives.self_adj {T : Nat → Nat → K} {kf : Nat} (hT : SymMat kf T) : ∀ {lvs : List (Level K)} {k : Nat}, Chain lvs k kf →
    (∀ v ∈ lvs, SymLevel v) → ∀ {x b : Nat → K}, Gives T lvs k x b → Gives (herm T) (lvs.map Level.adj) k x b
  | [], k, hk, _, x, b, h => fun i hi => by
    have hk : k = kf := hk
    rw [h i hi]
    exact mulVec_mat fun c hc => by rw [herm_trivial]; exact hT i c (by omega) (by omega)
  | v :: rest, k, ⟨hn, ok, hc⟩, hsym, x, b, ⟨h1, z, g, h2, h3, h4⟩ => by
    have hv := hsym v (by simp)
    have hle := ok.le
    have hp := ok.p_perm
    have hx : ∀ j, j < v.n → x (v.p j) / v.s (v.p j) = x (v.q j) / v.t (v.q j) := fun j hj => by rw [hv.pq j hj, hv.st _ (hp.1 j hj)]
    have hb : ∀ j, j < v.n → v.t (v.q j) * b (v.q j) = v.s (v.p j) * b (v.p j) := fun j hj => by rw [hv.pq j hj, hv.st _ (hp.1 j hj)]
    have hL : ∀ i j, i < v.m → j < v.m → herm v.U i j = v.L i j := fun i j hi hj => (herm_trivial _ _ _).trans (hv.L j i hj hi)
    have hU : ∀ i j, i < v.m → j < v.m → herm v.L i j = v.U i j := fun i j hi hj => (herm_trivial _ _ _).trans (hv.L i j hi hj).symm
    have hd : ∀ y : Nat → K, ∀ i, ldu v.m (herm v.U) (fun i => star (v.d i)) (herm v.L) y i = ldu v.m (herm v.U) v.d (herm v.L) y i := fun y i => by
      simp only [star_trivial]
    refine ⟨fun i hi => ?_, z, g, fun i hi => ?_, ?_, fun i hi => ?_⟩
    · have hi : i < v.m := hi
      show ldu v.m (herm v.U) (fun i => star (v.d i)) (herm v.L) (fun j => x (v.p j) / v.s (v.p j)) i +
        mulVec (v.n - v.m) (herm v.E) (fun j => x (v.p (v.m + j)) / v.s (v.p (v.m + j))) i = v.t (v.q i) * b (v.q i)
      rw [hd, hb i (by omega), ← h1 i hi, ldu_mat hL hU hi, ldu_congr (fun c hc => hx c (by omega)) hi,
        mulVec_mat (T := herm v.E) (T' := v.F) (fun c hc => (herm_trivial _ _ _).trans (hv.E i c hi hc).symm)]
      congr 1
      exact mulVec_congr' (fun c hc => hx _ (by omega)) i
    · have hi : i < v.m := hi
      show ldu v.m (herm v.U) (fun i => star (v.d i)) (herm v.L) z i = v.t (v.q i) * b (v.q i)
      rw [hd, hb i (by omega), ← h2 i hi, ldu_mat hL hU hi]
    · show Gives (herm T) (rest.map Level.adj) (v.n - v.m) (fun j => x (v.p (v.m + j)) / v.s (v.p (v.m + j))) g
      have h3' := Gives.congr hc h3 (x' := fun j => x (v.p (v.m + j)) / v.s (v.p (v.m + j))) (fun j hj => (hx _ (by omega)).symm) (fun _ _ => rfl)
      exact Gives.self_adj hT hc (fun w hw => hsym w (by simp [hw])) h3'
    · show mulVec v.m (herm v.F) z i + g i = v.t (v.q (v.m + i)) * b (v.q (v.m + i))
      have hi : i < v.n - v.m := hi
      rw [hb _ (by omega), ← h4 i hi, mulVec_mat (T := herm v.F) (T' := v.E) (fun c hc => (herm_trivial _ _ _).trans (hv.E c i hc hi))]

/-- The same for products. -/
theorem Applies.self_adj_triv {S : Nat → Nat → K} {kf : Nat} (hS : SymMat kf S) : ∀ {lvs : List (Level K)} {k : Nat}, Chain lvs k kf →
    (∀ v ∈ lvs, SymLevel v) → ∀ {x b : Nat → K}, Applies S lvs k x b → Applies (herm S) (lvs.map Level.adj) k x b
  | [], k, hk, _, x, b, h => fun i hi => by
    have hk : k = kf := hk
    rw [← h i hi]
    exact mulVec_mat fun c hc => by rw [herm_trivial]; exact hS c i (by omega) (by omega)
  | v :: rest, k, ⟨hn, ok, hc⟩, hsym, x, b, ⟨h1, z, g, h2, h3, h4⟩ => by
    have hv := hsym v (by simp)
    have hle := ok.le
    have hp := ok.p_perm
    have hx : ∀ j, j < v.n → x (v.p j) / v.s (v.p j) = x (v.q j) / v.t (v.q j) := fun j hj => by rw [hv.pq j hj, hv.st _ (hp.1 j hj)]
    have hb : ∀ j, j < v.n → v.t (v.q j) * b (v.q j) = v.s (v.p j) * b (v.p j) := fun j hj => by rw [hv.pq j hj, hv.st _ (hp.1 j hj)]
    have hL : ∀ i j, i < v.m → j < v.m → herm v.U i j = v.L i j := fun i j hi hj => (herm_trivial _ _ _).trans (hv.L j i hj hi)
    have hU : ∀ i j, i < v.m → j < v.m → herm v.L i j = v.U i j := fun i j hi hj => (herm_trivial _ _ _).trans (hv.L i j hi hj).symm
    have hd : ∀ y : Nat → K, ∀ i, ldu v.m (herm v.U) (fun i => star (v.d i)) (herm v.L) y i = ldu v.m (herm v.U) v.d (herm v.L) y i := fun y i => by
      simp only [star_trivial]
    refine ⟨fun i hi => ?_, z, g, fun i hi => ?_, ?_, fun i hi => ?_⟩
    · have hi : i < v.m := hi
      show ldu v.m (herm v.U) (fun i => star (v.d i)) (herm v.L) (fun j => x (v.p j) / v.s (v.p j)) i +
        mulVec (v.n - v.m) (herm v.E) (fun j => x (v.p (v.m + j)) / v.s (v.p (v.m + j))) i = v.t (v.q i) * b (v.q i)
      rw [hd, hb i (by omega), ← h1 i hi, ldu_mat hL hU hi, ldu_congr (fun c hc => hx c (by omega)) hi,
        mulVec_mat (T := herm v.E) (T' := v.F) (fun c hc => (herm_trivial _ _ _).trans (hv.E i c hi hc).symm)]
      congr 1
      exact mulVec_congr' (fun c hc => hx _ (by omega)) i
    · have hi : i < v.m := hi
      show ldu v.m (herm v.U) (fun i => star (v.d i)) (herm v.L) z i = v.t (v.q i) * b (v.q i)
      rw [hd, hb i (by omega), ← h2 i hi, ldu_mat hL hU hi]
    · show Applies (herm S) (rest.map Level.adj) (v.n - v.m) (fun j => x (v.p (v.m + j)) / v.s (v.p (v.m + j))) g
      have h3' := Applies.congr hc h3 (x' := fun j => x (v.p (v.m + j)) / v.s (v.p (v.m + j))) (fun j hj => (hx _ (by omega)).symm) (fun _ _ => rfl)
      exact Applies.self_adj_triv hS hc (fun w hw => hsym w (by simp [hw])) h3'
    · show mulVec v.m (herm v.F) z i + g i = v.t (v.q (v.m + i)) * b (v.q (v.m + i))
      have hi : i < v.n - v.m := hi
      rw [hb _ (by omega), ← h4 i hi, mulVec_mat (T := herm v.F) (T' := v.E) (fun c hc => (herm_trivial _ _ _).trans (hv.E c i hc hi))]

/-- A matrix whose operator is self-adjoint is symmetric. -/
theorem symMat_of_ip {k : Nat} {W : Nat → Nat → K} (h : ∀ f g : Nat → K, ip k (mulVec k W f) g = ip k f (mulVec k W g)) : SymMat k W := by
  intro i j hi hj
  have e : ∀ j, j < k → ∀ l, mulVec k W (fun a => if a = j then 1 else 0) l = W l j := fun j hj l => by
    unfold mulVec
    rw [sum_eq_single_of_mem j (mem_range.2 hj) (fun a _ ha => by simp [ha])]
    simp
  have := h (fun a => if a = i then 1 else 0) (fun a => if a = j then 1 else 0)
  unfold ip at this
  simp only [star_trivial, e i hi, e j hj] at this
  rw [sum_eq_single_of_mem j (mem_range.2 hj) (fun a _ ha => by simp [ha]), sum_eq_single_of_mem i (mem_range.2 hi) (fun a _ ha => by simp [ha])] at this
  simpa using this.symm

end Hif.Spec

namespace Hif.Props
open Finset Spec HIF HM
variable {K : Type} [Field K] [StarRing K] [TrivialStar K]

theorem refined_matrix {k : Nat} {W T T' : Nat → Nat → K} (h : ∀ i j, i < k → j < k → T i j = T' i j) (b : Nat → K) : ∀ N i, refined k W T b N i = refined k W T' b N i
  | 0, i => rfl
  | N + 1, i => by
    have ih := refined_matrix (W := W) h b N
    show _ + _ = _ + _
    rw [ih i]
    congr 1
    refine mulVec_congr' (fun j hj => ?_) i
    rw [mulVec_congr' (fun c _ => ih c) j, mulVec_mat fun c hc => h j c hj hc]

/-- The iterates depend linearly on the right-hand side. -/
theorem refined_lin (k : Nat) (W T : Nat → Nat → K) (a c : K) (f g : Nat → K) : ∀ N, refined k W T (fun i => a * f i + c * g i) N =
    fun i => a * refined k W T f N i + c * refined k W T g N i
  | 0 => by funext i; show (0 : K) = a * 0 + c * 0; ring
  | N + 1 => by
    have ih := refined_lin k W T a c f g N
    funext i
    show refined k W T _ N i + mulVec k W (fun l => _ - mulVec k T (refined k W T _ N) l) i = a * (_ + _) + c * (_ + _)
    rw [ih, show (fun l => a * f l + c * g l - mulVec k T (fun i => a * refined k W T f N i + c * refined k W T g N i) l) =
      fun l => a * (f l - mulVec k T (refined k W T f N) l) + c * (g l - mulVec k T (refined k W T g N) l) from funext fun l => by rw [mulVec_lin]; ring, mulVec_lin]
    ring

/-- `W A` commutes with refinement. -/
theorem refined_comm (k : Nat) (W T : Nat → Nat → K) : ∀ (N : Nat) (y : Nat → K),
    mulVec k W (mulVec k T (refined k W T y N)) = refined k W T (mulVec k T (mulVec k W y)) N
  | 0, y => by
    funext i
    show mulVec k W (mulVec k T fun _ => 0) i = 0
    simp [mulVec]
  | N + 1, y => by
    have ih := refined_comm k W T N
    have lin : ∀ (S : Nat → Nat → K) (f g : Nat → K), mulVec k S (fun l => f l + g l) = fun i => mulVec k S f i + mulVec k S g i := fun S f g => by
      funext i
      have := mulVec_lin k S 1 1 f g i
      simpa using this
    have sub : ∀ (S : Nat → Nat → K) (f g : Nat → K), mulVec k S (fun l => f l - g l) = fun i => mulVec k S f i - mulVec k S g i := fun S f g => by
      funext i
      exact mulVec_sub_pt k S f g i
    show mulVec k W (mulVec k T fun i => refined k W T y N i + mulVec k W (fun l => y l - mulVec k T (refined k W T y N) l) i) =
      fun i => refined k W T (mulVec k T (mulVec k W y)) N i + mulVec k W (fun l => mulVec k T (mulVec k W y) l - mulVec k T (refined k W T (mulVec k T (mulVec k W y)) N) l) i
    rw [← ih y, lin T, lin W, sub W]
    funext i
    have e : (fun i => mulVec k W y i - mulVec k W (mulVec k T (refined k W T y N)) i) = fun i => mulVec k W y i - mulVec k W (mulVec k T (refined k W T y N)) i := rfl
    show _ = _ + mulVec k W _ i
    rw [show mulVec k T (fun i => mulVec k W (fun l => y l) i - mulVec k W (fun l => mulVec k T (refined k W T y N) l) i) =
      fun i => mulVec k T (mulVec k W y) i - mulVec k T (mulVec k W (mulVec k T (refined k W T y N))) i from sub T _ _, sub W]

/-- With symmetric matrices refinement is self-adjoint. -/
theorem refined_self_adj {k : Nat} {W T : Nat → Nat → K} (hW : SymMat k W) (hT : SymMat k T) : ∀ (N : Nat) (f g : Nat → K),
    ip k (refined k W T f N) g = ip k f (refined k W T g N)
  | 0, f, g => by
    show ip k (fun _ => 0) g = ip k f fun _ => 0
    simp [ip]
  | N + 1, f, g => by
    have ih := refined_self_adj hW hT N
    have adj : ∀ {S : Nat → Nat → K}, SymMat k S → ∀ f g : Nat → K, ip k (mulVec k S f) g = ip k f (mulVec k S g) := fun {S} hS f g => by
      rw [ip_mulVec]
      exact ip_congr (fun i hi => mulVec_mat fun c hc => by rw [herm_trivial]; exact hS i c hi hc) fun _ _ => rfl
    have sub : ∀ (S : Nat → Nat → K) (f g : Nat → K), mulVec k S (fun l => f l - g l) = fun i => mulVec k S f i - mulVec k S g i := fun S f g => by
      funext i
      exact mulVec_sub_pt k S f g i
    have split : ∀ y : Nat → K, refined k W T y (N + 1) = fun i => refined k W T y N i + (mulVec k W y i - mulVec k W (mulVec k T (refined k W T y N)) i) := fun y => by
      funext i
      show _ + mulVec k W (fun l => y l - mulVec k T (refined k W T y N) l) i = _
      rw [sub W y]
    have key : ip k (mulVec k W (mulVec k T (refined k W T f N))) g = ip k f (mulVec k W (mulVec k T (refined k W T g N))) := by
      rw [adj hW, adj hT, ih, refined_comm]
    rw [split f, split g]
    have a1 := adj hW f g
    have ih := ih f g
    unfold ip at key a1 ih ⊢
    simp only [star_trivial, add_mul, sub_mul, mul_add, mul_sub, sum_add_distrib, sum_sub_distrib] at key a1 ih ⊢
    rw [key, a1, ih]

/-- The matrix of `N` steps of refinement with symmetric matrices. -/
theorem refined_symMat {k : Nat} {W T : Nat → Nat → K} (hW : SymMat k W) (hT : SymMat k T) (N : Nat) :
    ∃ P : Nat → Nat → K, SymMat k P ∧ ∀ b i, i < k → refined k W T b N i = mulVec k P b i := by
  obtain ⟨P, hP⟩ := matrix_of_linear (k := k) (R := fun x b => ∀ i, i < k → x i = refined k W T b N i) (fun b => ⟨_, fun _ _ => rfl⟩)
    (fun a c x x' b b' h1 h2 i hi => by rw [refined_lin]; beta_reduce; rw [h1 i hi, h2 i hi])
    fun x x' b b' h1 h2 e i hi => by rw [h1 i hi, h2 i hi, refined_congr e N i hi]
  have hP : ∀ b i, i < k → refined k W T b N i = mulVec k P b i := fun b => hP _ b fun _ _ => rfl
  refine ⟨P, symMat_of_ip fun f g => ?_, hP⟩
  rw [ip_congr (fun i hi => (hP f i hi).symm) (fun _ _ => rfl), refined_self_adj hW hT]
  exact ip_congr (fun _ _ => rfl) (hP g)

/-- An object of dimension `k` that applies, with rank `r`, fixed *symmetric* matrices: whatever sequence of applying calls came before, `solve` multiplies by `W` and `mmultiply`
by `M`, with or without the transpose flag; `W M W = W` and `M W M = M`. -/
def ConsistentSymm (r k : Nat) (h : HIF K) : Prop := ∃ W M : Nat → Nat → K, SymMat k W ∧ SymMat k M ∧ Paired k W M ∧
  ∀ (junk : Nat → K) (cs : List (Call K)), (∀ c ∈ cs, c.applies) → ∀ (trans : Bool) (b x : Buf K), b.size = k → x.size = k →
    ((if trans then h.nspTran else h.nsp) = none →
      Does (solve junk b x trans r) (run junk h cs) fun _ y => y.size = k ∧ ∀ i, i < k → y.get i = mulVec k W b.get i) ∧
    Does (mmultiply junk b x trans r) (run junk h cs) fun _ y => y.size = k ∧ ∀ i, i < k → y.get i = mulVec k M b.get i

theorem consistentSymm_of {h : HIF K} {r : Nat} {T V : Nat → Nat → K} {kf k : Nat} (hg : Prec.Usable r T kf h.precs k) (hm : Prec.Multiplies r V kf h.precs k)
    (hw : Fits 1 h) (hTV : GenInv kf T V) (hVT : GenInv kf V T) (hT : SymMat kf T) (hV : SymMat kf V)
    (hsym : ∀ v ∈ h.precs.map Prec.toLevel, SymLevel v) : ConsistentSymm r k h := by
  have hst : ∀ v ∈ h.precs.map Prec.toLevel, (∀ i, star (v.s i) = v.s i) ∧ ∀ i, star (v.t i) = v.t i := fun v _ => ⟨fun _ => star_trivial _, fun _ => star_trivial _⟩
  obtain ⟨W, hW⟩ := Gives.matrix hg.chain (fun b => fixed_total hg hw false b)
  obtain ⟨M, hM⟩ := matrix_of_linear (k := k) (R := fun b x => Applies V (h.precs.map Prec.toLevel) k x b) (fun x => product_total hm hw false x)
    (fun a c _ _ _ _ h1 h2 => h1.lin a c h2) fun _ _ _ _ h1 h2 e => Applies.unique_b hm.chain h1 h2 e
  refine ⟨W, M, symMat_of_ip fun f g => ?_, symMat_of_ip fun f g => ?_, ⟨fun y i hi => ?_, fun y i hi => ?_⟩, fun junk cs hc trans b x hb hx => ?_⟩
  · obtain ⟨x, ax⟩ := fixed_total hg hw false g
    obtain ⟨z, az⟩ := fixed_total hg hw false f
    have := Gives.adjoint hg.chain hst ax (az.self_adj hT hg.chain hsym)
    rw [ip_congr (fun i hi => (hW _ _ az i hi).symm) (fun _ _ => rfl), this]
    exact ip_congr (fun _ _ => rfl) fun i hi => hW _ _ ax i hi
  · obtain ⟨x, ax⟩ := product_total hm hw false g
    obtain ⟨z, az⟩ := product_total hm hw false f
    have := Applies.adjoint hm.chain hst ax (az.self_adj_triv hV hm.chain hsym)
    rw [ip_congr (fun i hi => (hM _ _ az i hi).symm) (fun _ _ => rfl), ← this]
    exact ip_congr (fun _ _ => rfl) fun i hi => hM _ _ ax i hi
  · obtain ⟨x, ax⟩ := fixed_total hg hw false y
    obtain ⟨c, ac⟩ := product_total hm hw false x
    obtain ⟨z, az⟩ := fixed_total hg hw false c
    have := Gives.applies_gives hTV hg.chain ax ac az i hi
    rw [hW _ _ az i hi, hW _ _ ax i hi] at this
    rw [← this]
    exact mulVec_congr' (fun j hj => by rw [hM _ _ ac j hj]; exact mulVec_congr' (fun l hl => (hW _ _ ax l hl).symm) j) i
  · obtain ⟨x, ax⟩ := product_total hm hw false y
    obtain ⟨c, ac⟩ := fixed_total hg hw false x
    obtain ⟨z, az⟩ := product_total hm hw false c
    have := Applies.gives_applies hVT hg.chain ax ac az i hi
    rw [hM _ _ az i hi, hM _ _ ax i hi] at this
    rw [← this]
    exact mulVec_congr' (fun j hj => by rw [hW _ _ ac j hj]; exact mulVec_congr' (fun l hl => (hM _ _ ax l hl).symm) j) i
  · obtain ⟨e1, e2, e3, e4⟩ := history_run hw junk cs hc
    refine ⟨fun hn => ?_, ?_⟩
    · refine (solveFix_does (junk := junk) (h := run junk h cs) (by rw [e1]; exact hg) e4 trans (by rw [e2, e3]; exact hn) b x hb hx).mono ?_
      rintro g z ⟨-, h2, h3⟩
      refine ⟨h2, fun i hi => ?_⟩
      rw [e1] at h3
      cases trans with
      | false => exact hW _ _ h3 i hi
      | true =>
        obtain ⟨x, ax⟩ := fixed_total hg hw false b.get
        rw [Gives.unique_x (Prec.adj_chain hg.chain) h3 (ax.self_adj hT hg.chain hsym) (fun _ _ => rfl) i hi]
        exact hW _ _ ax i hi
    · refine (mmultiplyFix_does (junk := junk) (h := run junk h cs) (by rw [e1]; exact hm) e4 trans b x hb hx).mono ?_
      rintro g z ⟨-, h2, h3⟩
      refine ⟨h2, fun i hi => ?_⟩
      rw [e1] at h3
      cases trans with
      | false => exact hM _ _ h3 i hi
      | true =>
        obtain ⟨x, ax⟩ := product_total hm hw false b.get
        rw [Applies.unique_b (Prec.adj_chain hm.chain) h3 (ax.self_adj_triv hV hm.chain hsym) (fun _ _ => rfl) i hi]
        exact hM _ _ ax i hi

/-- Refinement against any symmetric matrix is a fixed symmetric operator as well: with `N` iterations `hifir` multiplies by a symmetric `P`, with or without the transpose flag,
whatever sequence of applying calls came before. -/
def RefinesSymm (r k : Nat) (h : HIF K) : Prop := ∀ (A : Operator K) (T : Nat → Nat → K), OpOK A k T → SymMat k T → ∀ N : Nat, ∃ P : Nat → Nat → K, SymMat k P ∧
  ∀ (junk : Nat → K) (cs : List (Call K)), (∀ c ∈ cs, c.applies) → ∀ (trans : Bool), (if trans then h.nspTran else h.nsp) = none →
    ∀ b x : Buf K, b.size = k → x.size = k →
      Does (hifir junk A b N x trans r) (run junk h cs) fun _ y => y.size = k ∧ ∀ i, i < k → y.get i = mulVec k P b.get i

theorem refinesSymm_of {h : HIF K} {r : Nat} {S : Nat → Nat → K} {kf k : Nat} (hg : Prec.Usable r S kf h.precs k)
    (hw : Fits 1 h) (hS : SymMat kf S) (hsym : ∀ v ∈ h.precs.map Prec.toLevel, SymLevel v) (hcols : h.ncols = k) (hk : 0 < k) : RefinesSymm r k h := by
  intro A T hA hT N
  have hst : ∀ v ∈ h.precs.map Prec.toLevel, (∀ i, star (v.s i) = v.s i) ∧ ∀ i, star (v.t i) = v.t i := fun v _ => ⟨fun _ => star_trivial _, fun _ => star_trivial _⟩
  obtain ⟨W, hW⟩ := Gives.matrix hg.chain (fun b => fixed_total hg hw false b)
  have sW : SymMat k W := symMat_of_ip fun f g => by
    obtain ⟨x, ax⟩ := fixed_total hg hw false g
    obtain ⟨z, az⟩ := fixed_total hg hw false f
    have := Gives.adjoint hg.chain hst ax (az.self_adj hS hg.chain hsym)
    rw [ip_congr (fun i hi => (hW _ _ az i hi).symm) (fun _ _ => rfl), this]
    exact ip_congr (fun _ _ => rfl) fun i hi => hW _ _ ax i hi
  obtain ⟨P, hP, hPm⟩ := refined_symMat sW hT (max N 1)
  refine ⟨P, hP, fun junk cs hc trans hn b x hb hx => ?_⟩
  obtain ⟨e1, e2, e3, e4⟩ := fixed_run hg hw junk cs hc
  have hs : SolvesBy junk (run junk h cs) r trans k W := fun w hrw b x hb hx => by
    refine (solveFix_does (junk := junk) (h := { run junk h cs with work := w }) (T := S) (kf := kf) (by show Prec.Usable r S kf (run junk h cs).precs k; rw [e1]; exact hg) hrw
      trans (by show (if trans then (run junk h cs).nspTran else (run junk h cs).nsp) = none; rw [e2, e3]; exact hn) b x hb hx).mono ?_
    rintro h' y ⟨⟨w', hw', rfl⟩, h2, h3⟩
    refine ⟨⟨w', rfl, Or.inr hw'⟩, h2, fun i hi => ?_⟩
    simp only [e1] at h3
    cases trans with
    | false => exact hW _ _ h3 i hi
    | true =>
      obtain ⟨x, ax⟩ := fixed_total hg hw false b.get
      rw [Gives.unique_x (Prec.adj_chain hg.chain) h3 (ax.self_adj hS hg.chain hsym) (fun _ _ => rfl) i hi]
      exact hW _ _ ax i hi
  refine (refineFix_does hs e4 (same_run (I := fun g => g.ncols = k) (fun g w hg => hg) junk cs hc h hcols) hk hA b x hb hx N).mono ?_
  rintro g y ⟨q1, q2⟩
  refine ⟨q1, fun i hi => ?_⟩
  rw [q2 i hi, ← hPm _ i hi]
  cases trans with
  | false => rfl
  | true => exact refined_matrix (fun i j hi hj => by show herm T i j = T i j; rw [herm_trivial]; exact hT j i hj hi) _ _ _

end Hif.Props

namespace Hif.Props
open Hif Level Spec HIF HM Finset
variable {K R : Type} [Field K] [StarRing K] [TrivialStar K] [DecidableEq K] [Inhabited K] [Field R] [LinearOrder R] [IsStrictOrderedRing R] [FloorSemiring R]

/-- **C96**: for every valid symmetric matrix with symmetric pattern, singular or not, every declared definiteness and whatever is dropped, the symmetric `factorize` with SYEIG as
the dense solver completes whatever the object held before.  Afterwards, for every rank up to the numerical one, products and solves are by fixed symmetric matrices that are
generalized inverses of each other, refinement against a symmetric matrix is by a fixed symmetric matrix, and the transpose flag changes nothing; the only exception is a last block one of whose eigenvalues within the numerical rank is zero. -/
theorem C96_symm_rank (e : Level.Env K R) (o : Level.Opts R) (hc : SymmContract e o) (x : SymmPar K R) (other : Kernels K) (junk : Nat → K) (ijunk : Nat → Int)
    (opts : FacOpts) (hsy : opts.isSymm = true) (A : Input K) (raw : RawCS) (n : Nat) (hA : ValidSquare A ijunk raw n)
    (hsym : SymMat n (mat A.rowMajor (raw.toCS n A.vals))) (hpat : (raw.toCS n A.vals).PatSym) (hsz : SizesOK e n)
    (c : R → K) (hcc : ∀ x, x ≠ 0 → c x ≠ 0) (eps : R) (srt : (Nat → R) → Buf Nat → Buf Nat) (hsrt : SortDesc srt)
    (syev : Nat → Buf K → Buf R × Buf K × Int) (lwork : Nat → Nat) (hg : ∀ k, 0 < k → k ≤ n → SyevOK c k syev)
    (hdense : other.dense = SyEig.dense c x.spd eps srt syev lwork A.rowMajor)
    (h : HIF K) (hw : h.empty = true → h.work.size = 0) :
    ∃ h₁, factorize junk ijunk (allKernels e o x (opts.pivot == .auto) A.rowMajor other) opts A 0 h = (h₁, .ok ()) ∧
      ((∀ r, r ≤ h₁.schurRank → ConsistentSymm r n h₁ ∧ (0 < n → RefinesSymm r n h₁)) ∨
        ∃ (k : Nat) (s : SyEig.St R K) (d : Buf K) (t : Nat), 0 < k ∧ k ≤ n ∧ Ends (fun l => l = .symm (SyEig.ops c s)) k h₁.precs n ∧ SyEig.Ready k s ∧
          EigDecomp c k d s.mat s.w ∧ t < s.rank ∧ s.w.get (s.order.get t) = 0) := by
  have hp : (raw.toCS n A.vals).psize = n := hA.dim
  have dn : ∀ S : CS K, SymCS S → 0 < S.psize → S.psize ≤ n → (other.dense true S).2 = none := fun S a d d' => by
    obtain ⟨s, m, e1, -⟩ := syeig_dense_state x.spd eps hsrt lwork A.rowMajor a d (hg _ d d')
    rw [hdense, e1]
  rcases symm_represents e o hc x other junk ijunk opts hsy A raw n hA hsym hpat hsz (fun S => SymCS S ∧ S.psize ≤ n) ⟨input_symCS hA hsym hpat, le_of_eq hp⟩ (fun _ h => h.1)
    (fun S _ _ _ d i => Or.inr (dn S i.1 d i.2)) (fun _ B out hout hk hle hi hlt hs _ => by
      obtain ⟨k1, k2, -⟩ := hout.kept hk (fun hc => by cases hc)
      exact ⟨hs, by omega⟩) h with ⟨h₁, S, k1, k2⟩ | ⟨h₁, msg, S, k1, k2, k3, k4, k5⟩
  · refine ⟨h₁, k1, ?_⟩
    have fits := factorize_fits k1 hw
    have hcols : h₁.ncols = n := factorize_ncols k1 hA
    have hlv : ∀ v ∈ h₁.precs.map Prec.toLevel, SymLevel v := fun v hv => (k2.lv v hv).1
    obtain ⟨-, -, a3, a4⟩ := represents_consistent k2 fits
    rw [hp] at a4
    by_cases h0 : 0 < S.psize
    · obtain ⟨blk, -⟩ := k2.block h0
      obtain ⟨hS, hle⟩ := blk.good
      obtain ⟨s, d, e1, e2, e3, e4⟩ := syeig_dense_state x.spd eps hsrt lwork A.rowMajor hS h0 (hg _ h0 hle)
      have hD : (other.dense true S).1 = SyEig.ops c s := by rw [hdense, e1]
      rw [hD] at a3 a4
      by_cases hz : ∃ t, t < s.rank ∧ s.w.get (s.order.get t) = 0
      · right
        obtain ⟨t, t1, t2⟩ := hz
        exact ⟨S.psize, s, d, t, h0, hle, a4 h0, e2, e3, t1, t2⟩
      · left
        push Not at hz
        intro r hr
        rw [a3, if_pos h0] at hr
        have hr : r ≤ s.rank := hr
        have he : SyEig.effRank s S.psize r ≤ s.rank := by
          unfold SyEig.effRank
          split
          · exact le_refl _
          · split <;> omega
        obtain ⟨T, V, q1, q2, q3, q4⟩ := C93_dense_syeig (c := c) (fun a => star_trivial _) hcc e2 e3 r fun t ht => hz t (by omega)
        have u1 := k2.ends (Prec.LastFix r S.psize T) (fun _ => by rw [hD]; exact q1) fun c => by omega
        have u2 := k2.ends (Prec.LastMult r S.psize V) (fun _ => by rw [hD]; exact q2) fun c => by omega
        rw [hp] at u1 u2
        have sT : SymMat S.psize T := fun i j hi hj => by
          have := q1.1 i j hi hj
          rw [herm_trivial] at this
          exact this.symm
        refine ⟨consistentSymm_of (Prec.Ends.usable u1) (Prec.Ends.multiplies u2) fits q3 q4 sT (fun i j hi hj => ?_) hlv,
          refinesSymm_of (Prec.Ends.usable u1) fits sT hlv hcols⟩
        · have := q2.1 i j hi hj
          rw [herm_trivial] at this
          exact this.symm
    · left
      intro r _
      have u1 := k2.ends (Prec.LastFix r S.psize fun _ _ => 0) (fun c => by omega) fun _ => by show S.psize = 0; omega
      have u2 := k2.ends (Prec.LastMult r S.psize fun _ _ => 0) (fun c => by omega) fun _ => by show S.psize = 0; omega
      rw [hp] at u1 u2
      exact ⟨consistentSymm_of (Prec.Ends.usable u1) (Prec.Ends.multiplies u2) fits (fun y i hi => by omega) (fun y i hi => by omega) (fun _ _ _ _ => rfl) (fun _ _ _ _ => rfl) hlv,
        refinesSymm_of (Prec.Ends.usable u1) fits (fun _ _ _ _ => rfl) hlv hcols⟩
  · rw [dn S k4.good.1 k2 k4.good.2] at k5
    cases k5

end Hif.Props
