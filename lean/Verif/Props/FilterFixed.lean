import Verif.Props.RefineFixed
import Verif.Props.Nsp

set_option linter.unusedSectionVars false
set_option linter.unusedVariables false
set_option linter.unusedSimpArgs false

/-!
# C94: solving and refining with a null-space filter
-/

namespace Hif.Spec
open Finset
variable {K : Type} [Field K]

/-- `x` minus its mean over `[s, e)`, on `[s, e)`; `x` elsewhere. -/
def centred (s e : Nat) (x : Nat → K) (i : Nat) : K :=
  if s ≤ i ∧ i < e then x i - (∑ j ∈ Ico s e, x j) / ((e - s : Nat) : K) else x i

/-- Composition of `k × k` matrices. -/
def mulMat (k : Nat) (A B : Nat → Nat → K) (i j : Nat) : K := ∑ l ∈ range k, A i l * B l j

theorem mulVec_mulMat (k : Nat) (A B : Nat → Nat → K) (x : Nat → K) (i : Nat) : mulVec k (mulMat k A B) x i = mulVec k A (mulVec k B x) i := by
  unfold mulVec mulMat
  simp only [sum_mul, mul_sum]
  rw [sum_comm]
  exact sum_congr rfl fun l _ => sum_congr rfl fun j _ => by ring

/-- The matrix of `centred`. -/
def meanFree (s e : Nat) (i j : Nat) : K :=
  (if j = i then 1 else 0) - if (s ≤ i ∧ i < e) ∧ s ≤ j ∧ j < e then 1 / ((e - s : Nat) : K) else 0

theorem meanFree_apply {s e k : Nat} (he : e ≤ k) (x : Nat → K) {i : Nat} (hi : i < k) : mulVec k (meanFree s e) x i = centred s e x i := by
  unfold mulVec meanFree centred
  simp only [sub_mul, sum_sub_distrib]
  rw [sum_eq_single_of_mem i (mem_range.2 hi) (fun j _ hj => by rw [if_neg hj, zero_mul]), if_pos rfl, one_mul]
  by_cases c : s ≤ i ∧ i < e
  · rw [if_pos c]
    congr 1
    rw [sum_div, ← sum_subset (s₁ := Ico s e) (s₂ := range k) (fun j hj => mem_range.2 (by have := (mem_Ico.1 hj).2; omega))]
    · exact sum_congr rfl fun j hj => by rw [if_pos ⟨c, mem_Ico.1 hj⟩, one_div, mul_comm, ← div_eq_mul_inv]
    · intro j _ hj
      rw [if_neg (fun h => hj (mem_Ico.2 h.2)), zero_mul]
  · rw [if_neg c, sum_eq_zero fun j _ => by rw [if_neg (fun h => c h.1), zero_mul], sub_zero]

theorem centred_congr {s e k : Nat} (he : e ≤ k) {x y : Nat → K} (h : ∀ i, i < k → x i = y i) : ∀ i, i < k → centred s e x i = centred s e y i := fun i hi => by
  rw [← meanFree_apply he x hi, ← meanFree_apply he y hi]
  exact mulVec_congr' h i

theorem centred_sum [CharZero K] (s e : Nat) (x : Nat → K) : ∑ j ∈ Ico s e, centred s e x j = 0 := by
  rcases Nat.lt_or_ge s e with h | h
  · rw [sum_congr rfl fun i hi => by rw [centred, if_pos (mem_Ico.1 hi)], sum_sub_distrib, sum_const, Nat.card_Ico, nsmul_eq_mul]
    have : ((e - s : Nat) : K) ≠ 0 := Nat.cast_ne_zero.2 (by omega)
    rw [mul_div_cancel₀ _ this, sub_self]
  · simp [Ico_eq_empty_of_le h]
end Hif.Spec

namespace Hif.HIF
open Finset Spec HM
variable {K : Type} [Field K] [StarRing K]

/-- The filter that a call with this flag uses. -/
def filterOf (h : HIF K) (trans : Bool) : Option (Nsp K) := if trans then h.nspTran else h.nsp

/-- A filter that multiplies by the matrix `Φ` (a user routine, or the constant filter). -/
def Filters (F : Nsp K) (k : Nat) (Φ : Nat → Nat → K) : Prop :=
  ∀ x : Buf K, x.size = k → Runs (F.filter x k) fun y => y.size = k ∧ ∀ i, i < k → y.get i = mulVec k Φ x.get i

/-- `solve` is the unfiltered solve followed by the filter of its flag. -/
theorem solve_then_filter (junk : Nat → K) (b x : Buf K) (t : Bool) (r : Nat) (h : HIF K) :
    solve junk b x t r h =
      ({ (solve junk b x t r { h with nsp := none, nspTran := none }).1 with nsp := h.nsp, nspTran := h.nspTran },
        (solve junk b x t r { h with nsp := none, nspTran := none }).2 >>= fun y => h.applyFilter t y) := by
  have af : ∀ y, applyFilter { h with nsp := none, nspTran := none } t y = .ok y := fun y => by
    unfold applyFilter
    cases t <;> rfl
  have bnd : ∀ {α β : Type} (m : HM K α) (f : α → HM K β) (g : HIF K), (m >>= f) g = match m g with | (h', .ok a) => f a h' | (h', .error e) => (h', .error e) :=
    fun _ _ _ => rfl
  unfold solve
  by_cases c1 : h.empty = true
  · have c1' : empty { h with nsp := none, nspTran := none } = true := c1
    simp only [bnd, HM.read, c1, c1', if_true, HM.fail]
    rfl
  · have c1' : ¬ empty { h with nsp := none, nspTran := none } = true := c1
    by_cases c2 : b.size = x.size
    · simp only [bnd, HM.read, if_neg c1, if_neg c1', if_neg (not_not.2 c2), ensureWork]
      by_cases c3 : h.work.size = 0
      all_goals
        simp only [c3, if_true, if_false, withWork, HM.lift]
        split
        · rename_i e
          split at e
          · cases e
            simp only [af]
            rfl
          · cases e
        · rename_i e
          split at e
          · cases e
          · cases e
            rfl
    · simp only [bnd, HM.read, if_neg c1, if_neg c1', if_pos c2, HM.fail]
      rfl

/-- What `solve` does with a linear filter. -/
theorem solveFilt_does {junk : Nat → K} {h : HIF K} {r : Nat} {T : Nat → Nat → K} {kf k : Nat} (hg : Prec.Usable r T kf h.precs k)
    (hr : Ready h) (trans : Bool) {F : Nsp K} (hn : h.filterOf trans = some F) {Φ : Nat → Nat → K} (hF : Filters F k Φ) (b x : Buf K)
    (hb : b.size = k) (hx : x.size = k) :
    Does (solve junk b x trans r) h fun h' y => (∃ w, Prec.workSpace h.precs ≤ w.size ∧ h' = { h with work := w }) ∧
      y.size = k ∧ ∃ u : Nat → K, (if trans then Gives (herm T) ((h.precs.map Prec.toLevel).map Level.adj) k u b.get
        else Gives T (h.precs.map Prec.toLevel) k u b.get) ∧ ∀ i, i < k → y.get i = mulVec k Φ u i := by
  unfold solve
  rw [does_bind, does_read]
  have he : h.empty = false := by
    unfold empty
    cases hp : h.precs with
    | nil => exact absurd hp (usable_ne_nil hg)
    | cons => rfl
  simp only [he, Bool.false_eq_true, if_false]
  rw [if_neg (by omega), does_bind]
  refine ensureWork_does junk h hr fun w hw => ?_
  rw [does_bind]
  refine withWork_does _ _ _ ?_
  have run : Runs (if trans = true then Prec.solveT r h.precs b x w else Prec.solve r h.precs b x w) fun o =>
      o.1.size = k ∧ o.2.size = w.size ∧
      if trans then Gives (herm T) ((h.precs.map Prec.toLevel).map Level.adj) k o.1.get b.get
        else Gives T (h.precs.map Prec.toLevel) k o.1.get b.get := by
    cases trans with
    | false => exact Prec.solveFix_runs hg b x w (by omega) hx hw
    | true => exact Prec.solveTFix_runs hg b x w (by omega) hx hw
  refine run.mono ?_
  rintro ⟨y, w'⟩ ⟨h1, h2, h3⟩
  have hf : h.applyFilter trans y = F.filter y k := by
    unfold applyFilter
    have h1 : y.size = k := h1
    unfold filterOf at hn
    cases trans
    · have : h.nsp = some F := hn
      simp [this, h1]
    · have : h.nspTran = some F := hn
      simp [this, h1]
  rw [does_lift, hf]
  refine (hF y h1).mono ?_
  rintro z ⟨z1, z2⟩
  have h2 : w'.size = w.size := h2
  exact ⟨⟨⟨w.size, w'.get⟩, hw, rfl⟩, z1, y.get, h3, z2⟩
end Hif.HIF

namespace Hif.Props
open Finset Spec HIF HM
variable {K : Type} [Field K] [StarRing K]

/-- The constant filter is such a filter. -/
theorem filters_const {s stop e k : Nat} (he : NspRange s stop k e) (h1 : s ≤ e) (h2 : e ≤ k) : Filters (Nsp.const s stop) k (meanFree (K := K) s e) := by
  intro x hx
  obtain ⟨y, e1, e2, e3, e4⟩ := C33_filter_subtracts_mean s stop e x (by rw [hx]; exact he) h1 (by omega)
  rw [hx] at e1
  refine ⟨y, e1, by omega, fun i hi => ?_⟩
  rw [meanFree_apply h2 _ hi]
  unfold centred
  split
  · rename_i c; exact e3 i c.1 c.2
  · rename_i c; exact e4 i c

section main
variable {h : HIF K} {r : Nat} {T : Nat → Nat → K} {kf k : Nat} (hg : Prec.Usable r T kf h.precs k) (hw : Fits 1 h)
include hg hw

/-- `solve` with and without filters after a history. -/
theorem filtered_history : ∃ W Wt : Nat → Nat → K, ∀ (fn ft : Option (Nsp K)) (junk : Nat → K) (cs : List (Call K)), (∀ c ∈ cs, c.applies) →
    ∀ (trans : Bool) (Φ : Nat → Nat → K),
    (match (if trans then ft else fn) with | none => ∀ i j, Φ i j = if j = i then 1 else 0 | some F => Filters F k Φ) →
    SolvesBy junk (run junk { h with nsp := fn, nspTran := ft } cs) r trans k (mulMat k Φ (if trans then Wt else W)) ∧
    Ready (run junk { h with nsp := fn, nspTran := ft } cs) ∧ (run junk { h with nsp := fn, nspTran := ft } cs).ncols = h.ncols := by
  obtain ⟨W, hW⟩ := Gives.matrix hg.chain (fun b => fixed_total hg hw false b)
  obtain ⟨Wt, hWt⟩ := Gives.matrix (Prec.adj_chain hg.chain) (fun b => fixed_total hg hw true b)
  refine ⟨W, Wt, fun fn ft junk cs hc trans Φ hΦ => ?_⟩
  obtain ⟨e1, e2, e3, e4⟩ := history_run (h := { h with nsp := fn, nspTran := ft }) hw junk cs hc
  refine ⟨fun w hrw b x hb hx => ?_, e4, same_run (I := fun g => g.ncols = h.ncols) (fun g w hg => hg) junk cs hc _ rfl⟩
  have hu : Prec.Usable r T kf (run junk { h with nsp := fn, nspTran := ft } cs).precs k := by rw [e1]; exact hg
  have mat : ∀ u : Nat → K, (if trans then Gives (herm T) (((run junk { h with nsp := fn, nspTran := ft } cs).precs.map Prec.toLevel).map Level.adj) k u b.get
        else Gives T ((run junk { h with nsp := fn, nspTran := ft } cs).precs.map Prec.toLevel) k u b.get) →
      ∀ i, i < k → u i = mulVec k (if trans then Wt else W) b.get i := by
    intro u hu
    rw [e1] at hu
    cases trans with
    | false => exact hW _ _ hu
    | true => exact hWt _ _ hu
  cases hf : (if trans then ft else fn) with
  | none =>
    rw [hf] at hΦ
    refine (solveFix_does (junk := junk) (h := { run junk { h with nsp := fn, nspTran := ft } cs with work := w }) (T := T) (kf := kf) hu hrw trans
      (by show (if trans then (run junk _ cs).nspTran else (run junk _ cs).nsp) = none; rw [e2, e3]; exact hf) b x hb hx).mono ?_
    rintro h' y ⟨⟨w', hw', rfl⟩, h2, h3⟩
    refine ⟨⟨w', rfl, Or.inr hw'⟩, h2, fun i hi => ?_⟩
    rw [mulVec_mulMat, ← mulVec_congr' (mat _ h3) i]
    unfold mulVec
    rw [sum_eq_single_of_mem i (mem_range.2 hi) (fun j _ hj => by rw [hΦ, if_neg hj, zero_mul]), hΦ, if_pos rfl, one_mul]
  | some F =>
    rw [hf] at hΦ
    refine (solveFilt_does (junk := junk) (h := { run junk { h with nsp := fn, nspTran := ft } cs with work := w }) (T := T) (kf := kf) hu hrw trans (F := F)
      (by show (if trans then (run junk _ cs).nspTran else (run junk _ cs).nsp) = some F; rw [e2, e3]; exact hf) hΦ b x hb hx).mono ?_
    rintro h' y ⟨⟨w', hw', rfl⟩, h2, u, h3, h4⟩
    refine ⟨⟨w', rfl, Or.inr hw'⟩, h2, fun i hi => ?_⟩
    rw [mulVec_mulMat, h4 i hi]
    exact mulVec_congr' (mat _ h3) i

/-- **C94**: there are two matrices (those of the unfiltered solves) such that at every point of a history of applying calls, for every pair of filters, `solve` returns the
filter matrix times the unfiltered solution, with the filter of its own flag only. -/
theorem C94_filtered_solve : ∃ W Wt : Nat → Nat → K, ∀ (fn ft : Option (Nsp K)) (junk : Nat → K) (cs : List (Call K)), (∀ c ∈ cs, c.applies) →
    ∀ (trans : Bool) (b x : Buf K), b.size = k → x.size = k →
    ((if trans then ft else fn) = none → Does (solve junk b x trans r) (run junk { h with nsp := fn, nspTran := ft } cs) fun _ y => y.size = k ∧
      ∀ i, i < k → y.get i = mulVec k (if trans then Wt else W) b.get i) ∧
    (∀ F Φ, (if trans then ft else fn) = some F → Filters F k Φ → Does (solve junk b x trans r) (run junk { h with nsp := fn, nspTran := ft } cs) fun _ y =>
      y.size = k ∧ ∀ i, i < k → y.get i = mulVec k Φ (mulVec k (if trans then Wt else W) b.get) i) := by
  obtain ⟨W, Wt, hW⟩ := filtered_history hg hw
  refine ⟨W, Wt, fun fn ft junk cs hc trans b x hb hx => ⟨fun hn => ?_, fun F Φ hf hF => ?_⟩⟩
  · obtain ⟨h1, h2, -⟩ := hW fn ft junk cs hc trans (fun i j => if j = i then 1 else 0) (by rw [hn]; exact fun _ _ => rfl)
    refine (h1 _ h2 b x hb hx).mono ?_
    rintro _ y ⟨-, y1, y2⟩
    refine ⟨y1, fun i hi => ?_⟩
    rw [y2 i hi, mulVec_mulMat]
    rw [mulVec, sum_eq_single_of_mem i (mem_range.2 hi) (fun j _ hj => by rw [if_neg hj, zero_mul]), if_pos rfl, one_mul]
  · obtain ⟨h1, h2, -⟩ := hW fn ft junk cs hc trans Φ (by rw [hf]; exact hF)
    refine (h1 _ h2 b x hb hx).mono ?_
    rintro _ y ⟨-, y1, y2⟩
    exact ⟨y1, fun i hi => by rw [y2 i hi, mulVec_mulMat]⟩

/-- **C94**: with the constant filter on `[s, e)`, `solve` returns the unfiltered solution minus its mean on `[s, e)`, whose sum is zero. -/
theorem C94_constant_filter [CharZero K] : ∃ W Wt : Nat → Nat → K, ∀ (fn ft : Option (Nsp K)) (junk : Nat → K) (cs : List (Call K)), (∀ c ∈ cs, c.applies) →
    ∀ (trans : Bool) (b x : Buf K), b.size = k → x.size = k →
    ((if trans then ft else fn) = none → Does (solve junk b x trans r) (run junk { h with nsp := fn, nspTran := ft } cs) fun _ y => y.size = k ∧
      ∀ i, i < k → y.get i = mulVec k (if trans then Wt else W) b.get i) ∧
    (∀ s stop e, (if trans then ft else fn) = some (Nsp.const s stop) → NspRange s stop k e → s ≤ e → e ≤ k →
      Does (solve junk b x trans r) (run junk { h with nsp := fn, nspTran := ft } cs) fun _ y => y.size = k ∧
        (∀ i, i < k → y.get i = centred s e (mulVec k (if trans then Wt else W) b.get) i) ∧ ∑ j ∈ Ico s e, y.get j = 0) := by
  obtain ⟨W, Wt, hW⟩ := C94_filtered_solve hg hw
  refine ⟨W, Wt, fun fn ft junk cs hc trans b x hb hx => ⟨(hW fn ft junk cs hc trans b x hb hx).1, fun s stop e hf hr h1 h2 => ?_⟩⟩
  refine ((hW fn ft junk cs hc trans b x hb hx).2 _ _ hf (filters_const hr h1 h2)).mono ?_
  rintro _ y ⟨y1, y2⟩
  have y3 : ∀ i, i < k → y.get i = centred s e (mulVec k (if trans then Wt else W) b.get) i := fun i hi => by rw [y2 i hi, meanFree_apply h2 _ hi]
  refine ⟨y1, y3, ?_⟩
  rw [sum_congr rfl fun j hj => y3 j (by have := (mem_Ico.1 hj).2; omega)]
  exact centred_sum s e _
/-- **C94**: if the filter of the flag fails (here: a constant filter whose range does not fit), `solve` reports the error, it never returns an unfiltered vector; the factors stay. -/
theorem C94_bad_range (fn ft : Option (Nsp K)) (junk : Nat → K) (cs : List (Call K)) (hc : ∀ c ∈ cs, c.applies) (trans : Bool) (b x : Buf K) (hb : b.size = k) (hx : x.size = k)
    {s stop e : Nat} (hf : (if trans then ft else fn) = some (Nsp.const s stop)) (hr : NspRange s stop k e) (hbad : e < s ∨ k < e) :
    ∃ g m, solve junk b x trans r (run junk { h with nsp := fn, nspTran := ft } cs) = (g, .error (.hif m)) ∧ g.precs = h.precs ∧ g.nsp = fn ∧ g.nspTran = ft := by
  obtain ⟨e1, e2, e3, e4⟩ := history_run (h := { h with nsp := fn, nspTran := ft }) hw junk cs hc
  set g := run junk { h with nsp := fn, nspTran := ft } cs with hg'
  obtain ⟨g', y, a1, ⟨w, -, rfl⟩, a3, -⟩ := solveFix_does (junk := junk) (h := { g with nsp := none, nspTran := none }) (r := r) (T := T) (kf := kf) (k := k)
    (by show Prec.Usable r T kf g.precs k; rw [e1]; exact hg) e4 trans (by cases trans <;> rfl) b x hb hx
  obtain ⟨m, hm⟩ := C33_filter_bad_range s stop e y (by rw [a3]; exact hr) (by rw [a3]; exact hbad)
  have hfil : g.applyFilter trans y = .error (.hif m) := by
    rw [← hm]
    unfold applyFilter
    cases trans with
    | false =>
      have : g.nsp = some (Nsp.const s stop) := e2.trans hf
      simp [this]
    | true =>
      have : g.nspTran = some (Nsp.const s stop) := e3.trans hf
      simp [this]
  refine ⟨{ g with work := w }, m, ?_, e1, e2, e3⟩
  rw [solve_then_filter, a1]
  show (_, g.applyFilter trans y) = _
  rw [hfil]
end main

/-- Iterates of a refinement whose preconditioner is filtered have zero mean. -/
theorem refined_mean_free [CharZero K] {k s e : Nat} (he : e ≤ k) (W T : Nat → Nat → K) (b : Nat → K) : ∀ N,
    ∑ j ∈ Ico s e, refined k (mulMat k (meanFree s e) W) T b N j = 0
  | 0 => sum_eq_zero fun _ _ => rfl
  | N + 1 => by
    show ∑ j ∈ Ico s e, (_ + _) = _
    rw [sum_add_distrib, refined_mean_free he W T b N, zero_add,
      sum_congr rfl fun j hj => by rw [mulVec_mulMat, meanFree_apply he _ (by have := (mem_Ico.1 hj).2; omega)]]
    exact centred_sum s e _

section refine
variable {h : HIF K} {r : Nat} {S : Nat → Nat → K} {kf k : Nat} (hg : Prec.Usable r S kf h.precs k) (hw : Fits 1 h)
  (hcols : h.ncols = k) (hk : 0 < k) {A : Operator K} {T : Nat → Nat → K} (hA : OpOK A k T)
include hg hw hcols hk hA

/-- **C94**: refinement applies the filter to every correction: it returns the iterates of `x_{j+1} = x_j + Φ W (b - A x_j)`, where `Φ` is the filter of the flag. -/
theorem C94_filtered_refinement : ∃ W Wt : Nat → Nat → K, ∀ (fn ft : Option (Nsp K)) (junk : Nat → K) (cs : List (Call K)), (∀ c ∈ cs, c.applies) →
    ∀ (trans : Bool) (b x : Buf K), b.size = k → x.size = k →
    ((if trans then ft else fn) = none → Does (solve junk b x trans r) (run junk { h with nsp := fn, nspTran := ft } cs) fun _ y => y.size = k ∧
      ∀ i, i < k → y.get i = mulVec k (if trans then Wt else W) b.get i) ∧
    (∀ F Φ, (if trans then ft else fn) = some F → Filters F k Φ → ∀ N,
      Does (hifir junk A b N x trans r) (run junk { h with nsp := fn, nspTran := ft } cs) fun _ y => y.size = k ∧
        ∀ i, i < k → y.get i = refined k (mulMat k Φ (if trans then Wt else W)) (if trans then herm T else T) b.get (max N 1) i) := by
  obtain ⟨W, Wt, hW⟩ := filtered_history hg hw
  refine ⟨W, Wt, fun fn ft junk cs hc trans b x hb hx => ⟨fun hn => ?_, fun F Φ hf hF N => ?_⟩⟩
  · obtain ⟨h1, h2, -⟩ := hW fn ft junk cs hc trans (fun i j => if j = i then 1 else 0) (by rw [hn]; exact fun _ _ => rfl)
    refine (h1 _ h2 b x hb hx).mono ?_
    rintro _ y ⟨-, y1, y2⟩
    refine ⟨y1, fun i hi => ?_⟩
    rw [y2 i hi, mulVec_mulMat]
    rw [mulVec, sum_eq_single_of_mem i (mem_range.2 hi) (fun j _ hj => by rw [if_neg hj, zero_mul]), if_pos rfl, one_mul]
  · obtain ⟨h1, h2, h3⟩ := hW fn ft junk cs hc trans Φ (by rw [hf]; exact hF)
    exact refineFix_does h1 h2 (by rw [h3]; exact hcols) hk hA b x hb hx N

/-- **C94**: the answers of fixed-count and of bounded refinement with the constant filter have sum zero on its range, whatever the system and the stopping reason, and the
bounded one reports honestly. -/
theorem C94_refinement_mean_free [CharZero K] : ∃ W Wt : Nat → Nat → K, ∀ (fn ft : Option (Nsp K)) (junk : Nat → K) (cs : List (Call K)), (∀ c ∈ cs, c.applies) →
    ∀ (trans : Bool) (b x : Buf K), b.size = k → x.size = k →
    ∀ s stop e, (if trans then ft else fn) = some (Nsp.const s stop) → NspRange s stop k e → s ≤ e → e ≤ k →
    Does (solve junk b x trans r) (run junk { h with nsp := fn, nspTran := ft } cs) (fun _ y => y.size = k ∧
      (∀ i, i < k → y.get i = centred s e (mulVec k (if trans then Wt else W) b.get) i) ∧ ∑ j ∈ Ico s e, y.get j = 0) ∧
    (∀ N, Does (hifir junk A b N x trans r) (run junk { h with nsp := fn, nspTran := ft } cs) fun _ y => y.size = k ∧ ∑ j ∈ Ico s e, y.get j = 0) ∧
    ∀ {R : Type} [LinearOrder R] [Zero R] [Div R] (norm : Buf K → R) (N : Nat) (β₀ β₁ : R), 2 ≤ N → norm b ≠ 0 →
      Does (hifirBounded junk A norm b N β₀ β₁ x trans r) (run junk { h with nsp := fn, nspTran := ft } cs) fun _ o => o.1.size = k ∧
        ∑ j ∈ Ico s e, o.1.get j = 0 ∧
        Honest (mulMat k (meanFree s e) (if trans then Wt else W)) (if trans then herm T else T) k b.get norm (norm b) β₀ β₁ N o.1.get o.2.1 o.2.2 := by
  obtain ⟨W, Wt, hW⟩ := filtered_history hg hw
  refine ⟨W, Wt, fun fn ft junk cs hc trans b x hb hx s stop e hf hr h1 h2 => ?_⟩
  obtain ⟨g1, g2, g3⟩ := hW fn ft junk cs hc trans (meanFree s e) (by rw [hf]; exact filters_const hr h1 h2)
  have hc' := g3.trans hcols
  have zero : ∀ {N : Nat} {y : Nat → K}, (∀ i, i < k → y i = refined k (mulMat k (meanFree s e) (if trans then Wt else W)) (if trans then herm T else T) b.get N i) →
      ∑ j ∈ Ico s e, y j = 0 := fun hy => by
    rw [sum_congr rfl fun j hj => hy j (by have := (mem_Ico.1 hj).2; omega)]
    exact refined_mean_free h2 _ _ _ _
  refine ⟨?_, fun N => ?_, fun norm N β₀ β₁ hN hnz => ?_⟩
  · refine (g1 _ g2 b x hb hx).mono ?_
    rintro _ y ⟨-, y1, y2⟩
    have y3 : ∀ i, i < k → y.get i = centred s e (mulVec k (if trans then Wt else W) b.get) i := fun i hi => by
      rw [y2 i hi, mulVec_mulMat, meanFree_apply h2 _ hi]
    refine ⟨y1, y3, ?_⟩
    rw [sum_congr rfl fun j hj => y3 j (by have := (mem_Ico.1 hj).2; omega)]
    exact centred_sum s e _
  · refine (refineFix_does g1 g2 hc' hk hA b x hb hx N).mono ?_
    rintro _ y ⟨y1, y2⟩
    exact ⟨y1, zero y2⟩
  · refine (boundedFix_does g1 g2 hc' hk hA norm b x hb hx N hN β₀ β₁ hnz).mono ?_
    rintro _ o ⟨o1, o2⟩
    exact ⟨o1, zero o2.iterate, o2⟩
end refine

namespace ExFixed
open Hif.Ex

/-- The hypotheses hold: the object of C91 with a constant filter on the first two of three unknowns, and a range up to the end of the vector for the transposed solve. -/
example : Prec.Usable 0 T 2 (HIF.mk [P] ⟨0, fun _ => (0 : ℚ)⟩ (some (Nsp.const 0 2)) (some (Nsp.const 1 sizeMax)) (fun _ => 0) 3 3).precs 3 ∧
    NspRange 0 2 3 2 ∧ NspRange 1 sizeMax 3 3 :=
  ⟨⟨rfl, P_ok, rfl, rfl, D_fixed⟩, .given (by decide) (by decide), .default (Or.inl rfl)⟩

/-- The filter changes an answer. -/
example : centred 0 2 (fun i => if i = 0 then (3 : ℚ) else if i = 1 then 1 else 7) 0 = 1 ∧ centred 0 2 (fun i => if i = 0 then (3 : ℚ) else if i = 1 then 1 else 7) 2 = 7 := by
  decide +kernel
end ExFixed
end Hif.Props
