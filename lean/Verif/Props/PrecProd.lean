import Verif.PrecProdFixed
import Verif.Props.PrecFixed
import Verif.Props.Qrcp
import Verif.Props.SyEig

set_option linter.unusedSectionVars false
set_option linter.unusedVariables false
set_option linter.unusedSimpArgs false

/-!
# C93: products for every rank, and the pair of solve and product
-/

namespace Hif.Spec
open Finset
variable {K : Type _} [Field K] [StarRing K]

/-- `A B A = A` for `k × k` matrices: `B` is a generalized inverse of `A`. -/
def GenInv (k : Nat) (A B : Nat → Nat → K) : Prop := ∀ (y : Nat → K) i, i < k → mulVec k A (mulVec k B (mulVec k A y)) i = mulVec k A y i

theorem GenInv.herm {k : Nat} {A B : Nat → Nat → K} (h : GenInv k A B) : GenInv k (herm A) (herm B) := by
  intro y i hi
  have e : ∀ u : Nat → K, ip k u (fun j => if j = i then 1 else 0) = star (u i) := fun u => by
    unfold ip
    rw [sum_eq_single_of_mem i (mem_range.2 hi)]
    · simp
    · intro j _ hj
      beta_reduce
      rw [if_neg hj, mul_zero]
  have key : ∀ v : Nat → K, ip k (mulVec k (Spec.herm A) (mulVec k (Spec.herm B) (mulVec k (Spec.herm A) y))) v = ip k (mulVec k (Spec.herm A) y) v := fun v => by
    rw [← ip_mulVec, ← ip_mulVec, ← ip_mulVec, ← ip_mulVec]
    exact ip_congr (fun _ _ => rfl) fun j hj => h v j hj
  have := key fun j => if j = i then 1 else 0
  rw [e, e] at this
  exact star_injective this

/-- Membership of one of the two relations, by the transpose flag. -/
theorem genInv_if {k : Nat} {A B : Nat → Nat → K} (h : GenInv k A B) (trans : Bool) :
    GenInv k (if trans then Spec.herm A else A) (if trans then Spec.herm B else B) := by
  cases trans with
  | false => exact h
  | true => exact h.herm
end Hif.Spec

namespace Hif.Props
open Finset Spec HIF HM
variable {K : Type} [Field K] [StarRing K]

section prod
variable {h : HIF K} {r : Nat} {V : Nat → Nat → K} {kf k : Nat} (hm : Prec.Multiplies r V kf h.precs k) (hw : Fits 1 h)
include hm hw

theorem product_total (trans : Bool) (x : Nat → K) :
    ∃ b, if trans then Applies (herm V) ((h.precs.map Prec.toLevel).map Level.adj) k x b else Applies V (h.precs.map Prec.toLevel) k x b := by
  have hr : Ready h := by
    have := hw.1
    unfold ReadyFor at this
    rw [Nat.mul_one] at this
    exact this
  obtain ⟨_, y, _, _, hy⟩ := mmultiplyFix_does (K := K) (junk := fun _ => (0 : K)) (h := h) (r := r) (S := V) (kf := kf) (k := k) hm hr trans
    (Buf.mk k x) (Buf.mk k x) rfl rfl
  exact ⟨y.get, hy.2⟩

/-- **C93**: at every point of a history of applying calls, `mmultiply` multiplies by one and the same matrix, with the transpose flag by another, for every rank. -/
theorem C93_product_matrix : ∃ M Mt : Nat → Nat → K, ∀ (junk : Nat → K) (cs : List (Call K)), (∀ c ∈ cs, c.applies) → ∀ (trans : Bool),
    ∀ x y : Buf K, x.size = k → y.size = k →
    Does (mmultiply junk x y trans r) (run junk h cs) fun _ z => z.size = k ∧ ∀ i, i < k → z.get i = mulVec k (if trans then Mt else M) x.get i := by
  obtain ⟨M, hM⟩ := matrix_of_linear (k := k) (R := fun b x => Applies V (h.precs.map Prec.toLevel) k x b) (fun x => product_total hm hw false x)
    (fun a c _ _ _ _ h1 h2 => h1.lin a c h2) fun _ _ _ _ h1 h2 e => Applies.unique_b hm.chain h1 h2 e
  obtain ⟨Mt, hMt⟩ := matrix_of_linear (k := k) (R := fun b x => Applies (herm V) ((h.precs.map Prec.toLevel).map Level.adj) k x b) (fun x => product_total hm hw true x)
    (fun a c _ _ _ _ h1 h2 => h1.lin a c h2) fun _ _ _ _ h1 h2 e => Applies.unique_b (Prec.adj_chain hm.chain) h1 h2 e
  refine ⟨M, Mt, fun junk cs hc trans x y hx hy => ?_⟩
  obtain ⟨e1, e2, e3, e4⟩ := history_run hw junk cs hc
  refine (mmultiplyFix_does (junk := junk) (h := run junk h cs) (by rw [e1]; exact hm) e4 trans x y hx hy).mono ?_
  rintro g z ⟨-, h2, h3⟩
  refine ⟨h2, fun i hi => ?_⟩
  rw [e1] at h3
  cases trans with
  | false => exact hM _ _ h3 i hi
  | true => exact hMt _ _ h3 i hi

/-- **C93**: with real scaling factors the two matrices are conjugate transposes of each other. -/
theorem C93_product_adjoint (hr : RealScalings h.precs) : ∃ M : Nat → Nat → K, ∀ (junk : Nat → K) (cs : List (Call K)), (∀ c ∈ cs, c.applies) → ∀ (trans : Bool),
    ∀ x y : Buf K, x.size = k → y.size = k →
    Does (mmultiply junk x y trans r) (run junk h cs) fun _ z => z.size = k ∧ ∀ i, i < k → z.get i = mulVec k (if trans then herm M else M) x.get i := by
  obtain ⟨M, hM, hMt⟩ := adjoint_pair (k := k) (R := fun b x => Applies V (h.precs.map Prec.toLevel) k x b)
    (R' := fun c z => Applies (herm V) ((h.precs.map Prec.toLevel).map Level.adj) k z c) (fun x => product_total hm hw false x) (fun x => product_total hm hw true x)
    (fun b x c z h1 h2 => (Applies.adjoint hm.chain (fun v hv => by
      obtain ⟨P, hP, rfl⟩ := List.mem_map.1 hv
      exact hr P hP) h1 h2).symm)
  refine ⟨M, fun junk cs hc trans x y hx hy => ?_⟩
  obtain ⟨e1, e2, e3, e4⟩ := history_run hw junk cs hc
  refine (mmultiplyFix_does (junk := junk) (h := run junk h cs) (by rw [e1]; exact hm) e4 trans x y hx hy).mono ?_
  rintro g z ⟨-, h2, h3⟩
  refine ⟨h2, fun i hi => ?_⟩
  rw [e1] at h3
  cases trans with
  | false => exact hM _ _ h3 i hi
  | true => exact hMt _ _ h3 i hi

variable {T : Nat → Nat → K} (hg : Prec.Usable r T kf h.precs k)
include hg

/-- **C93** (solve, product, solve): if on the last block `T V T = T`, a solve, the product of its result and the solve with this product give the vector of the first solve again,
at three points of a history of applying calls. -/
theorem C93_solve_product_solve (hTV : GenInv kf T V) (trans : Bool) (hn : (if trans then h.nspTran else h.nsp) = none) (junk : Nat → K)
    (cs cs' cs'' : List (Call K)) (hc : ∀ c ∈ cs, c.applies) (hc' : ∀ c ∈ cs', c.applies) (hc'' : ∀ c ∈ cs'', c.applies)
    (b x₀ y₀ z₀ : Buf K) (hb : b.size = k) (hx₀ : x₀.size = k) (hy₀ : y₀.size = k) (hz₀ : z₀.size = k) :
    Does (solve junk b x₀ trans r) (run junk h cs) fun _ x => x.size = k ∧ Does (mmultiply junk x y₀ trans r) (run junk h cs') fun _ y => y.size = k ∧
      Does (solve junk y z₀ trans r) (run junk h cs'') fun _ z => z.size = k ∧ ∀ i, i < k → z.get i = x.get i := by
  obtain ⟨e1, e2, e3, e4⟩ := history_run hw junk cs hc
  obtain ⟨e1', e2', e3', e4'⟩ := history_run hw junk cs' hc'
  obtain ⟨e1'', e2'', e3'', e4''⟩ := history_run hw junk cs'' hc''
  refine (solveFix_does (junk := junk) (h := run junk h cs) (by rw [e1]; exact hg) e4 trans (by rw [e2, e3]; exact hn) b x₀ hb hx₀).mono ?_
  rintro _ x ⟨-, sx, ax⟩
  refine ⟨sx, (mmultiplyFix_does (junk := junk) (h := run junk h cs') (by rw [e1']; exact hm) e4' trans x y₀ sx hy₀).mono ?_⟩
  rintro _ y ⟨-, sy, ay⟩
  refine ⟨sy, (solveFix_does (junk := junk) (h := run junk h cs'') (by rw [e1'']; exact hg) e4'' trans (by rw [e2'', e3'']; exact hn) y z₀ sy hz₀).mono ?_⟩
  rintro _ z ⟨-, sz, az⟩
  refine ⟨sz, ?_⟩
  rw [e1] at ax
  rw [e1'] at ay
  rw [e1''] at az
  cases trans with
  | false => exact Gives.applies_gives hTV hg.chain ax ay az
  | true => exact Gives.applies_gives hTV.herm (Prec.adj_chain hg.chain) ax ay az

/-- **C93** (product, solve, product): if on the last block `V T V = V`, a product, the solve with its result and the product of that give the first product again. -/
theorem C93_product_solve_product (hVT : GenInv kf V T) (trans : Bool) (hn : (if trans then h.nspTran else h.nsp) = none) (junk : Nat → K)
    (cs cs' cs'' : List (Call K)) (hc : ∀ c ∈ cs, c.applies) (hc' : ∀ c ∈ cs', c.applies) (hc'' : ∀ c ∈ cs'', c.applies)
    (x b₀ y₀ z₀ : Buf K) (hx : x.size = k) (hb₀ : b₀.size = k) (hy₀ : y₀.size = k) (hz₀ : z₀.size = k) :
    Does (mmultiply junk x b₀ trans r) (run junk h cs) fun _ b => b.size = k ∧ Does (solve junk b y₀ trans r) (run junk h cs') fun _ y => y.size = k ∧
      Does (mmultiply junk y z₀ trans r) (run junk h cs'') fun _ z => z.size = k ∧ ∀ i, i < k → z.get i = b.get i := by
  obtain ⟨e1, e2, e3, e4⟩ := history_run hw junk cs hc
  obtain ⟨e1', e2', e3', e4'⟩ := history_run hw junk cs' hc'
  obtain ⟨e1'', e2'', e3'', e4''⟩ := history_run hw junk cs'' hc''
  refine (mmultiplyFix_does (junk := junk) (h := run junk h cs) (by rw [e1]; exact hm) e4 trans x b₀ hx hb₀).mono ?_
  rintro _ b ⟨-, sb, ab⟩
  refine ⟨sb, (solveFix_does (junk := junk) (h := run junk h cs') (by rw [e1']; exact hg) e4' trans (by rw [e2', e3']; exact hn) b y₀ sb hy₀).mono ?_⟩
  rintro _ y ⟨-, sy, ay⟩
  refine ⟨sy, (mmultiplyFix_does (junk := junk) (h := run junk h cs'') (by rw [e1'']; exact hm) e4'' trans y z₀ sy hz₀).mono ?_⟩
  rintro _ z ⟨-, sz, az⟩
  refine ⟨sz, ?_⟩
  rw [e1] at ab
  rw [e1'] at ay
  rw [e1''] at az
  cases trans with
  | false => exact Applies.gives_applies hVT hg.chain ab ay az
  | true => exact Applies.gives_applies hVT.herm (Prec.adj_chain hg.chain) ab ay az
end prod
end Hif.Props

namespace Hif.Qrcp
open Finset Spec
variable {K : Type _} [Field K] [StarRing K] [DecidableEq K] {n : Nat} {A : Nat → Nat → K} {s : St K}

/-- Products with QRCP for a truncated rank, as relations between result and argument. -/
def Mul (n k : Nat) (s : St K) (z x : Nat → K) : Prop :=
  ∀ i, i < n → z i = applyQ n s.mat.get s.tau.get n (fun l => if l < k then ∑ j ∈ range k, upper n s.mat.get l j * x (s.jpvt.get j - 1) else 0) i

def MulT (n k : Nat) (s : St K) (y c : Nat → K) : Prop :=
  (∀ i, k ≤ i → i < n → y (s.jpvt.get i - 1) = 0) ∧
    ∀ i, i < k → y (s.jpvt.get i - 1) = ∑ j ∈ range k, star (upper n s.mat.get j i) * qhb n s c j

theorem mul_adjoint (h : Fac n A s) {k : Nat} (hk : k ≤ n) {z x y c : Nat → K} (hz : Mul n k s z x) (hy : MulT n k s y c) :
    ip n y x = ip n c z := by
  rw [Props.ip_pivots h (x := y), Props.sum_head hk fun i hi hi' => by rw [hy.1 i hi hi', star_zero, zero_mul],
    sum_congr rfl fun j hj => by rw [hy.2 j (mem_range.1 hj)], Props.adjoint_sum]
  rw [ip_congr (u := c) (v := z) (fun _ _ => rfl) hz, applyQ_adj]
  unfold ip
  rw [Props.sum_head hk fun i hi hi' => by beta_reduce; rw [if_neg (by omega), mul_zero]]
  exact sum_congr rfl fun l hl => by beta_reduce; rw [if_pos (mem_range.1 hl)]; rfl

/-- Solving with a product returns the leading components. -/
theorem sol_mul (h : Fac n A s) {k : Nat} (hk : k ≤ n) (hR : PivotsOK n s k) {z x w : Nat → K} (hz : Mul n k s z x) (hw : Sol n k s w z) :
    (∀ i, i < k → w (s.jpvt.get i - 1) = x (s.jpvt.get i - 1)) ∧ ∀ i, k ≤ i → i < n → w (s.jpvt.get i - 1) = 0 := by
  refine ⟨?_, hw.1⟩
  refine Props.upper_inj hR (x := fun j => w (s.jpvt.get j - 1)) (y := fun j => x (s.jpvt.get j - 1)) fun i hi => ?_
  rw [hw.2 i hi, qhb_congr hz (by omega), h.qhb_applyQ, if_pos hi]
end Hif.Qrcp

namespace Hif.Props
open Finset Spec HIF HM

/-- **C93**: the dense QR solver multiplies and solves with fixed matrices that are generalized inverses of each other, for every rank whose pivots are nonzero, also for a
singular block. -/
theorem C93_dense_qrcp {K : Type _} [Field K] [StarRing K] [DecidableEq K] {n : Nat} {A : Nat → Nat → K} {s : Qrcp.St K} (h : Qrcp.Fac n A s) (rank : Nat)
    (hr : Qrcp.effRank s rank ≤ n) (hp : Qrcp.PivotsOK n s (Qrcp.effRank s rank)) :
    ∃ T V, Prec.DenseFixed rank n T (Qrcp.ops s) ∧ Prec.DenseMult rank n V (Qrcp.ops s) ∧ GenInv n T V ∧ GenInv n V T := by
  set k := Qrcp.effRank s rank with hk
  have run : ∀ y : Buf K, y.size = n → Runs (Qrcp.solve s y rank false) fun x => x.size = n ∧ Qrcp.Sol n k s x.get y.get := fun y hy => by
    unfold Qrcp.solve
    rw [hy, Qrcp.guarded_ok h, ← hk]
    simp only [Bool.false_eq_true, if_false]
    refine (Qrcp.solveNt_runs h hr hp 0 y (by omega)).mono ?_
    rintro x ⟨x1, -, x3, x4⟩
    simp only [Nat.zero_add] at x3 x4
    exact ⟨by omega, x3, x4⟩
  have runM : ∀ y : Buf K, y.size = n → Runs (Qrcp.multiply s y rank false) fun x => x.size = n ∧ Qrcp.Mul n k s x.get y.get := fun y hy => by
    unfold Qrcp.multiply
    rw [hy, Qrcp.guarded_ok h, ← hk]
    simp only [Bool.false_eq_true, if_false]
    refine (Qrcp.multNt_runs h hr 0 y (by omega)).mono ?_
    rintro x ⟨x1, -, x3⟩
    simp only [Nat.zero_add] at x3
    exact ⟨by omega, x3⟩
  have runMT : ∀ y : Buf K, y.size = n → Runs (Qrcp.multiply s y rank true) fun x => x.size = n ∧ Qrcp.MulT n k s x.get y.get := fun y hy => by
    unfold Qrcp.multiply
    rw [hy, Qrcp.guarded_ok h, ← hk]
    simp only [if_true]
    refine (Qrcp.multT_runs h hr 0 y (by omega)).mono ?_
    rintro x ⟨x1, -, x3, x4⟩
    simp only [Nat.zero_add] at x3 x4
    exact ⟨by omega, x3, x4⟩
  obtain ⟨T, hT⟩ := C91_dense_qrcp h rank hr hp
  obtain ⟨V, h1, h2⟩ := adjoint_pair (k := n) (R := Qrcp.Mul n k s) (R' := Qrcp.MulT n k s)
    (fun b => by obtain ⟨x, _, _, hx⟩ := runM ⟨n, b⟩ rfl; exact ⟨_, hx⟩) (fun b => by obtain ⟨x, _, _, hx⟩ := runMT ⟨n, b⟩ rfl; exact ⟨_, hx⟩)
    fun x b z c hx hz => Qrcp.mul_adjoint h hr hx hz
  have solT : ∀ y : Nat → K, ∃ x : Nat → K, Qrcp.Sol n k s x y ∧ ∀ i, i < n → x i = mulVec n T y i := fun y => by
    obtain ⟨x, e, _, hx⟩ := run ⟨n, y⟩ rfl
    obtain ⟨x', e', _, hx'⟩ := hT.solve ⟨n, y⟩ rfl
    have e' : Qrcp.solve s ⟨n, y⟩ rank false = .ok x' := e'
    rw [e] at e'
    cases e'
    exact ⟨_, hx, hx'⟩
  have mulV : ∀ y : Nat → K, ∃ x : Nat → K, Qrcp.Mul n k s x y ∧ ∀ i, i < n → x i = mulVec n V y i := fun y => by
    obtain ⟨x, e, _, hx⟩ := runM ⟨n, y⟩ rfl
    exact ⟨_, hx, h1 _ _ hx⟩
  refine ⟨T, V, hT, ⟨fun y hy => (runM y hy).mono fun x q => ⟨q.1, h1 _ _ q.2⟩, fun y hy => (runMT y hy).mono fun x q => ⟨q.1, h2 _ _ q.2⟩⟩, fun y i hi => ?_, fun y i hi => ?_⟩
  · obtain ⟨x, sx, ex⟩ := solT y
    obtain ⟨z, mz, ez⟩ := mulV x
    obtain ⟨w, sw, ew⟩ := solT z
    rw [mulVec_congr' (fun j hj => by rw [mulVec_congr' (fun l hl => (ex l hl).symm) j, ← ez j hj]) i, ← ew i hi, ← ex i hi]
    obtain ⟨w1, w2⟩ := Qrcp.sol_mul h hr hp mz sw
    obtain ⟨j, hj, e⟩ := isPerm_surj h.jperm hi
    rw [← e]
    rcases Nat.lt_or_ge j k with c | c
    · exact w1 j c
    · rw [w2 j c hj, sx.1 j c hj]
  · obtain ⟨z, mz, ez⟩ := mulV y
    obtain ⟨w, sw, ew⟩ := solT z
    obtain ⟨u, mu, eu⟩ := mulV w
    rw [mulVec_congr' (fun j hj => by rw [mulVec_congr' (fun l hl => (ez l hl).symm) j, ← ew j hj]) i, ← eu i hi, ← ez i hi, mu i hi, mz i hi]
    obtain ⟨w1, w2⟩ := Qrcp.sol_mul h hr hp mz sw
    congr 1
    funext l
    split
    · exact sum_congr rfl fun j hj => by rw [w1 j (mem_range.1 hj)]
    · rfl

section eig
variable {R V : Type} [Field R] [LinearOrder R] [IsStrictOrderedRing R] [Field V] [StarRing V] {c : R → V}

/-- The matrix with eigenvectors `q` and eigenvalues `φ`. -/
def withEigen (n : Nat) (q : Buf V) (φ : Nat → V) (i j : Nat) : V := ∑ l ∈ range n, q.get (l * n + i) * (φ l * star (q.get (l * n + j)))

theorem withEigen_apply (n : Nat) (q : Buf V) (φ : Nat → V) (y : Nat → V) (i : Nat) :
    mulVec n (withEigen n q φ) y i = ∑ l ∈ range n, q.get (l * n + i) * (φ l * ∑ j ∈ range n, star (q.get (l * n + j)) * y j) := by
  unfold mulVec withEigen
  simp only [sum_mul]
  rw [sum_comm]
  refine sum_congr rfl fun l _ => ?_
  rw [mul_sum, mul_sum]
  exact sum_congr rfl fun j _ => by ring

theorem withEigen_genInv {n : Nat} {a q : Buf V} {w : Buf R} (h : EigDecomp c n a q w) {φ ψ : Nat → V} (e : ∀ l, l < n → φ l * (ψ l * φ l) = φ l) :
    GenInv n (withEigen n q φ) (withEigen n q ψ) := by
  intro y i hi
  have co : ∀ (θ : Nat → V) (y : Nat → V) l, l < n → ∑ j ∈ range n, star (q.get (l * n + j)) * mulVec n (withEigen n q θ) y j =
      θ l * ∑ j ∈ range n, star (q.get (l * n + j)) * y j := fun θ y l hl => by
    simp only [withEigen_apply]
    exact C50.qh_apply h (fun l => θ l * ∑ j ∈ range n, star (q.get (l * n + j)) * y j) hl
  rw [withEigen_apply, withEigen_apply]
  refine sum_congr rfl fun l hl => ?_
  have hl := mem_range.1 hl
  rw [co ψ _ l hl, co φ _ l hl]
  congr 1
  rw [← mul_assoc (ψ l), ← mul_assoc, e l hl]

/-- The matrices of the symmetric eigenvalue solver, by their eigenvalues `φ` and `ψ`. -/
theorem syeig_pair (hc : ∀ a, star (c a) = c a) (hc0 : ∀ a, a ≠ 0 → c a ≠ 0) {n : Nat} {s : SyEig.St R V}
    (h : SyEig.Ready n s) {a : Buf V} (ha : EigDecomp c n a s.mat s.w) (rank : Nat)
    (hp : ∀ t, t < SyEig.effRank s n rank → s.w.get (s.order.get t) ≠ 0) :
    ∃ φ ψ : Nat → V, (Prec.LastFix rank n (withEigen n s.mat φ) (.symm (SyEig.ops c s)) ∧ Prec.LastMult rank n (withEigen n s.mat ψ) (.symm (SyEig.ops c s)) ∧
      GenInv n (withEigen n s.mat φ) (withEigen n s.mat ψ) ∧ GenInv n (withEigen n s.mat ψ) (withEigen n s.mat φ)) ∧
      ∀ l, (φ l = 0 ∧ ψ l = 0) ∨ ∃ t, t < SyEig.effRank s n rank ∧ l = s.order.get t ∧ φ l = (c (s.w.get l))⁻¹ ∧ ψ l = c (s.w.get l) := by
  classical
  set K := SyEig.Kept s.order (SyEig.effRank s n rank) with hK
  have sym : ∀ φ : Nat → V, (∀ l, star (φ l) = φ l) → ∀ i j, herm (withEigen n s.mat φ) i j = withEigen n s.mat φ i j := fun φ hφ i j => by
    unfold herm withEigen
    rw [star_sum]
    refine sum_congr rfl fun l _ => ?_
    rw [star_mul', star_mul', star_star, hφ]
    ring
  have kept : ∀ l, K l → s.w.get l ≠ 0 := by
    rintro l ⟨t, ht, rfl⟩
    exact hp t ht
  refine ⟨fun l => if K l then (c (s.w.get l))⁻¹ else 0, fun l => if K l then c (s.w.get l) else 0,
    ⟨⟨fun i j _ _ => sym _ (fun l => ?_) i j, fun y hy => ?_⟩, ⟨fun i j _ _ => sym _ (fun l => ?_) i j, fun y hy => ?_⟩,
    withEigen_genInv ha fun l _ => ?_, withEigen_genInv ha fun l _ => ?_⟩, fun l => ?_⟩
  · beta_reduce; split
    · rw [star_inv₀, hc]
    · exact star_zero _
  · show Runs (SyEig.solve c s y rank) _
    unfold SyEig.solve
    rw [if_neg (by have := h.pos; rw [h.rows, h.w]; omega), if_neg (by rw [h.rows]; omega), runs_bind, hy]
    refine (SyEig.apply_runs (c := c) h (op := fun a b => a / c b) (ok := fun a => a ≠ 0) (fun i y h1 h2 h3 h4 => SyEig.divAt_runs i y h1 h2 h3 h4)
      (h.eff_le rank) hp y s.work (by omega) h.work).mono ?_
    rintro r ⟨r1, -, r3, -⟩
    rw [runs_pure]
    refine ⟨by omega, fun i hi => ?_⟩
    have := r3 i hi
    simp only [Nat.zero_add] at this
    rw [this, withEigen_apply]
    refine sum_congr rfl fun l _ => ?_
    beta_reduce
    split
    · rw [div_eq_mul_inv]; ring
    · simp
  · beta_reduce; split
    · exact hc _
    · exact star_zero _
  · show Runs (SyEig.multiply c s y rank) _
    unfold SyEig.multiply
    rw [if_neg (by have := h.pos; rw [h.rows, h.w]; omega), if_neg (by rw [h.rows]; omega), runs_bind, hy]
    refine (SyEig.apply_runs (c := c) h (op := fun a b => a * c b) (ok := fun _ => True) (fun i y h1 h2 h3 h4 => SyEig.mulAt_runs i y h1 h2 h3)
      (h.eff_le rank) (fun _ _ => True.intro) y s.work (by omega) h.work).mono ?_
    rintro r ⟨r1, -, r3, -⟩
    rw [runs_pure]
    refine ⟨by omega, fun i hi => ?_⟩
    have := r3 i hi
    simp only [Nat.zero_add] at this
    rw [this, withEigen_apply]
    refine sum_congr rfl fun l _ => ?_
    beta_reduce
    split
    · ring
    · simp
  · beta_reduce
    by_cases e : K l
    · simp only [if_pos e]
      rw [mul_inv_cancel₀ (hc0 _ (kept l e)), mul_one]
    · simp only [if_neg e, mul_zero]
  · beta_reduce
    by_cases e : K l
    · simp only [if_pos e]
      rw [inv_mul_cancel₀ (hc0 _ (kept l e)), mul_one]
    · simp only [if_neg e, mul_zero]
  · by_cases e : K l
    · right
      obtain ⟨t, ht, rfl⟩ := e
      have e : K (s.order.get t) := ⟨t, ht, rfl⟩
      exact ⟨t, ht, rfl, if_pos e, if_pos e⟩
    · left
      exact ⟨if_neg e, if_neg e⟩

/-- **C93**: the symmetric eigenvalue solver multiplies and solves with fixed matrices that are generalized inverses of each other, for every rank whose kept eigenvalues
are nonzero. -/
theorem C93_dense_syeig (hc : ∀ a, star (c a) = c a) (hc0 : ∀ a, a ≠ 0 → c a ≠ 0) {n : Nat} {s : SyEig.St R V}
    (h : SyEig.Ready n s) {a : Buf V} (ha : EigDecomp c n a s.mat s.w) (rank : Nat)
    (hp : ∀ t, t < SyEig.effRank s n rank → s.w.get (s.order.get t) ≠ 0) :
    ∃ T M, Prec.LastFix rank n T (.symm (SyEig.ops c s)) ∧ Prec.LastMult rank n M (.symm (SyEig.ops c s)) ∧ GenInv n T M ∧ GenInv n M T := by
  obtain ⟨φ, ψ, h1, -⟩ := syeig_pair hc hc0 h ha rank hp
  exact ⟨_, _, h1⟩
end eig

/-! ### the object of C91 with a singular last block -/

namespace ExFixed
open Hif.Ex

def V (i j : Nat) : ℚ := if i = 0 ∧ j = 0 then 4 else 0

theorem D_mult : Prec.DenseMult 0 2 V D := by
  constructor
  all_goals
    intro y hy
    refine ⟨_, rfl, rfl, fun i hi => ?_⟩
    have : i = 0 ∨ i = 1 := by omega
    rcases this with rfl | rfl <;> simp [mulVec, herm, V, sum_range_succ]
  all_goals ring

/-- The hypotheses of C93 hold for it. -/
example : Prec.Usable 0 T 2 (HIF.mk [P] ⟨0, fun _ => (0 : ℚ)⟩ none none (fun _ => 0) 3 3).precs 3 ∧
    Prec.Multiplies 0 V 2 (HIF.mk [P] ⟨0, fun _ => (0 : ℚ)⟩ none none (fun _ => 0) 3 3).precs 3 ∧ GenInv 2 T V ∧ GenInv 2 V T ∧
    Fits 1 (HIF.mk [P] ⟨0, fun _ => (0 : ℚ)⟩ none none (fun _ => 0) 3 3) ∧ RealScalings [P] := by
  refine ⟨⟨rfl, P_ok, rfl, rfl, D_fixed⟩, ⟨rfl, P_ok, rfl, rfl, D_mult⟩, fun y i hi => ?_, fun y i hi => ?_, ⟨Or.inl rfl, fun _ => rfl⟩,
    fun P _ => ⟨fun _ => rfl, fun _ => rfl⟩⟩
  all_goals
    have : i = 0 ∨ i = 1 := by omega
    rcases this with rfl | rfl <;> simp [mulVec, T, V, sum_range_succ]
end ExFixed
end Hif.Props
