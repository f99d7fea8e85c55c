import Verif.Props.PrecFixed
import Verif.Props.Refine

set_option linter.unusedSectionVars false
set_option linter.unusedVariables false
set_option linter.unusedSimpArgs false

/-!
# C92: iterative refinement with a preconditioner of any rank
-/

namespace Hif.Spec
open Finset
variable {K : Type} [Field K] [StarRing K]

/-- Refinement with the matrices `W` (the preconditioner) and `T` (the system):
`x_0 = 0`, `x_{j+1} = x_j + W (b - T x_j)`. -/
def refined (k : Nat) (W T : Nat → Nat → K) (b : Nat → K) : Nat → Nat → K
  | 0 => fun _ => 0
  | j + 1 => fun i => refined k W T b j i + mulVec k W (fun l => b l - mulVec k T (refined k W T b j) l) i

/-- What the bounded refinement promises about its answer `(y, iterations, flag)` when allowed `N` iterations. -/
structure Honest {R : Type} [LinearOrder R] [Div R] (W T : Nat → Nat → K) (k : Nat) (b : Nat → K)
    (norm : Buf K → R) (bnorm β₀ β₁ : R) (N : Nat) (y : Nat → K) (iters : Nat) (flag : Int) : Prop where
  pos : 1 ≤ iters
  le : iters ≤ N
  /-- the answer is the fixed-count iterate -/
  iterate : ∀ i, i < k → y i = refined k W T b iters i
  flag_range : flag = 0 ∨ flag = 1 ∨ flag = -1
  /-- flag 0: the residual of the answer meets the lower bound -/
  zero : flag = 0 → ∃ ρ, Props.RelRes norm T k b bnorm y ρ ∧ ρ ≤ β₀
  /-- flag 1: the residual of the answer exceeds both bounds -/
  one : flag = 1 → ∃ ρ, Props.RelRes norm T k b bnorm y ρ ∧ β₀ < ρ ∧ β₁ < ρ
  /-- flag -1: all iterations were used -/
  minus : flag = -1 → iters = N
  /-- it did not stop late: every earlier iterate had its residual strictly between the bounds -/
  early : ∀ j, 1 ≤ j → j < iters → ∃ ρ, Props.RelRes norm T k b bnorm (refined k W T b j) ρ ∧ β₀ < ρ ∧ ρ ≤ β₁
end Hif.Spec

namespace Hif.Props
open Finset Spec HIF HM
variable {K : Type} [Field K] [StarRing K]

theorem refined_congr {k : Nat} {W T : Nat → Nat → K} {b b' : Nat → K} (e : ∀ i, i < k → b i = b' i) : ∀ N i, i < k →
    refined k W T b N i = refined k W T b' N i
  | 0, i, hi => rfl
  | N + 1, i, hi => by
    have ih := refined_congr (W := W) (T := T) e N
    show _ + _ = _ + _
    rw [ih i hi, mulVec_congr' (x := fun l => b l - mulVec k T (refined k W T b N) l) fun j hj => by rw [e j hj, mulVec_congr' ih j]]

/-- Next iterate, from the buffers of the program. -/
theorem refined_step {k : Nat} {W T : Nat → Nat → K} {b x rr y d : Nat → K} {N : Nat} (hx : ∀ i, i < k → x i = refined k W T b N i)
    (hr : ∀ i, i < k → rr i = b i - mulVec k T x i) (hd : ∀ i, i < k → d i = mulVec k W rr i) (hy : ∀ i, i < k → y i = x i + d i) :
    ∀ i, i < k → y i = refined k W T b (N + 1) i := fun i hi => by
  rw [hy i hi, hx i hi, hd i hi]
  show _ = _ + _
  congr 1
  exact mulVec_congr' (fun j hj => by rw [hr j hj, mulVec_congr' hx j]) i

/-- `solve` multiplies by `W`, whatever the work space contains. -/
def SolvesBy (junk : Nat → K) (h : HIF K) (r : Nat) (trans : Bool) (k : Nat) (W : Nat → Nat → K) : Prop :=
  ∀ w, Ready { h with work := w } → ∀ b x : Buf K, b.size = k → x.size = k →
    Does (solve junk b x trans r) { h with work := w } fun h' y => (∃ w, h' = { h with work := w } ∧ Ready h') ∧ y.size = k ∧
      ∀ i, i < k → y.get i = mulVec k W b.get i

section core
variable {junk : Nat → K} {h : HIF K} {r : Nat} {trans : Bool} {k : Nat} {W : Nat → Nat → K} (hs : SolvesBy junk h r trans k W)
  (hr : Ready h) (hcols : h.ncols = k) (hk : 0 < k) {A : Operator K} {T : Nat → Nat → K} (hA : OpOK A k T)
include hs hr hcols hk hA

theorem refineFix_does (b x : Buf K) (hb : b.size = k) (hx : x.size = k) (N : Nat) :
    Does (hifir junk A b N x trans r) h fun _ y => y.size = k ∧
      ∀ i, i < k → y.get i = refined k W (if trans then herm T else T) b.get (max N 1) i := by
  unfold hifir
  split
  · rename_i hN
    refine (hs h.work hr b x hb hx).mono ?_
    rintro h' y ⟨-, s, a⟩
    rw [show max N 1 = 1 by omega]
    exact ⟨s, refined_step (N := 0) (x := fun _ => 0) (fun i hi => rfl) (fun i hi => by simp [mulVec]) a fun i hi => by rw [zero_add]⟩
  rename_i hN
  rw [does_bind, does_read, if_neg (by omega), does_bind, does_lift]
  refine (fillRange_runs (Nat.zero_le _) (le_refl _) (fun _ => 0) fun i _ _ => by rw [runs_pure]).mono ?_
  rintro x0 ⟨s0, l0⟩
  rw [does_bind]
  have hs0 : x0.size = k := by omega
  let I : Nat → HIF K → Buf K × Buf K × Buf K → Prop := fun i h' s =>
    (∃ w, h' = { h with work := w } ∧ Ready h') ∧ s.1.size = k ∧ s.2.1.size = k ∧ s.2.2.size = k ∧
      ∀ j, j < k → s.1.get j = refined k W (if trans then herm T else T) b.get i j
  have loop := HM.loop_does (irStep junk A b trans r) I N 0 h (x0, ⟨h.ncols, junk⟩, ⟨h.ncols, junk⟩) ?_ ?_
  · refine loop.mono ?_
    rintro h' s ⟨-, s1, -, -, hI⟩
    rw [does_pure, show max N 1 = 0 + N by omega]
    exact ⟨s1, hI⟩
  · refine ⟨⟨h.work, rfl, hr⟩, hs0, hcols, hcols, fun j hj => ?_⟩
    rw [l0 j, if_pos (by omega)]
    rfl
  · rintro i h' ⟨x, xk, rr⟩ - - ⟨⟨w, rfl, hr'⟩, s1, s2, s3, hI⟩
    simp only at s1 s2 s3 hI
    unfold irStep
    rw [does_bind, does_lift]
    simp only
    refine (fillRange_runs (Nat.zero_le _) (by omega) x.get fun j _ hj => by
      rw [runs_rd]; exact ⟨hj, rfl⟩).mono ?_
    rintro xk' ⟨s2', l2⟩
    have l2' : ∀ j, j < k → xk'.get j = x.get j := fun j hj => by rw [l2, if_pos (by omega)]
    rw [does_bind, does_lift]
    have res : Runs (irResidual A b trans (i == 0) xk' x) fun x' => x'.size = k ∧ ∀ j, j < k →
        x'.get j = b.get j - mulVec k (if trans then herm T else T) x.get j := by
      unfold irResidual
      by_cases hi : i = 0
      · simp only [hi, beq_self_eq_true, Bool.not_true, Bool.false_eq_true, if_false, if_true]
        refine (fillRange_runs (Nat.zero_le _) (by omega) b.get fun j _ hj => by rw [runs_rd]; exact ⟨hj, rfl⟩).mono ?_
        rintro x' ⟨s, l⟩
        subst hi
        refine ⟨by omega, fun j hj => ?_⟩
        rw [l, if_pos (by omega), mulVec_congr' hI j]
        simp [mulVec, refined]
      · have hb' : (i == 0) = false := by simp [hi]
        simp only [hb', Bool.not_false, if_true]
        rw [runs_bind]
        refine (hA trans xk' x (by omega) s1).mono ?_
        rintro z ⟨sz, lz⟩
        refine (updRange_runs (Nat.zero_le _) (by omega) (fun j => b.get j - z.get j) fun j _ hj => ?_).mono ?_
        · rw [runs_bind, runs_rd]; exact ⟨hj, by rw [runs_pure]⟩
        · rintro x' ⟨s, l⟩
          exact ⟨by omega, fun j hj => by rw [l, if_pos (by omega), lz j hj, mulVec_congr' l2' j]⟩
    refine res.mono ?_
    rintro x' ⟨sx', lx'⟩
    rw [does_bind]
    refine (hs w hr' x' rr sx' s3).mono ?_
    rintro h'' rr' ⟨hw', sr, ar⟩
    rw [does_bind, does_lift]
    refine (fillRange_runs (Nat.zero_le _) (by omega) (fun j => rr'.get j + xk'.get j) fun j _ hj => ?_).mono ?_
    · rw [runs_bind, runs_rd]
      refine ⟨by omega, ?_⟩
      rw [runs_bind, runs_rd]
      exact ⟨by omega, by rw [runs_pure]⟩
    rintro x'' ⟨sx'', lx''⟩
    rw [does_pure]
    refine ⟨hw', by show x''.size = k; omega, by show xk'.size = k; omega, sr, ?_⟩
    exact refined_step hI lx' ar fun j hj => by
      show x''.get j = _
      rw [lx'', if_pos (by omega), l2' j hj, add_comm]

theorem irbUpdateFix_does {w : Buf K} (hrw : Ready { h with work := w }) (b : Buf K) (hb : b.size = k) (x xk rr : Buf K) (hx : x.size = k)
    (hxk : xk.size = k) (hrr : rr.size = k) :
    Does (irbUpdate junk b trans r (x, xk, rr)) { h with work := w } fun h' u => (∃ w, h' = { h with work := w } ∧ Ready h') ∧
      u.1.size = k ∧ u.2.size = k ∧ (∀ j, j < k → u.2.get j = mulVec k W rr.get j) ∧ ∀ j, j < k → u.1.get j = x.get j + u.2.get j := by
  unfold irbUpdate
  rw [does_bind]
  refine (hs w hrw rr xk hrr hxk).mono ?_
  rintro h' xk' ⟨hw, s, a⟩
  rw [does_bind, does_lift]
  refine (updRange_runs (Nat.zero_le _) (by show b.size ≤ x.size; omega) (fun j => x.get j + xk'.get j) fun j _ hj => ?_).mono ?_
  · rw [runs_bind, runs_rd]
    exact ⟨by omega, by rw [runs_pure]⟩
  rintro x' ⟨s', l'⟩
  rw [does_pure]
  exact ⟨hw, by show x'.size = k; rw [s']; exact hx, s, a, fun j hj => by show x'.get j = _; rw [l', if_pos (by omega)]⟩

variable {R : Type _} [LinearOrder R] [Zero R] [Div R] (norm : Buf K → R)

theorem irbLoopFix_does (b : Buf K) (hb : b.size = k) (bnorm β₀ β₁ : R) (N : Nat) : ∀ (fuel iters : Nat), iters + fuel + 1 = N →
    ∀ (h' : HIF K), (∃ w, h' = { h with work := w } ∧ Ready h') → ∀ (x xk rr : Buf K), x.size = k → xk.size = k → rr.size = k →
    (∀ j, j < k → x.get j = refined k W (if trans then herm T else T) b.get iters j) →
    (∀ j, j < k → rr.get j = b.get j - mulVec k (if trans then herm T else T) x.get j) →
    (∀ j, 1 ≤ j → j < iters + 1 → ∃ ρ, RelRes norm (if trans then herm T else T) k b.get bnorm
      (refined k W (if trans then herm T else T) b.get j) ρ ∧ β₀ < ρ ∧ ρ ≤ β₁) →
    Does (irbLoop junk A b norm bnorm β₀ β₁ trans r fuel iters (x, xk, rr)) h' fun _ o => o.1.size = k ∧
      Honest W (if trans then herm T else T) k b.get norm bnorm β₀ β₁ N o.1.get o.2.1 o.2.2 := by
  intro fuel
  induction fuel with
  | zero =>
    rintro iters hN _ ⟨w, rfl, hrw⟩ x xk rr hx hxk hrr h0 h1 he
    unfold irbLoop
    rw [does_bind]
    refine (irbUpdateFix_does hs hr hcols hk hA hrw b hb x xk rr hx hxk hrr).mono ?_
    rintro h'' ⟨x', xk'⟩ ⟨-, s1, s2, a, l⟩
    rw [does_pure]
    refine ⟨s1, ?_⟩
    constructor
    · show 1 ≤ iters + 1; omega
    · show iters + 1 ≤ N; omega
    · exact refined_step h0 h1 a l
    · exact Or.inr (Or.inr rfl)
    · intro hh; exact absurd (show (-1 : Int) = 0 from hh) (by decide)
    · intro hh; exact absurd (show (-1 : Int) = 1 from hh) (by decide)
    · intro _; show iters + 1 = N; omega
    · exact he
  | succ fuel ih =>
    rintro iters hN _ ⟨w, rfl, hrw⟩ x xk rr hx hxk hrr h0 h1 he
    unfold irbLoop
    rw [does_bind]
    refine (irbUpdateFix_does hs hr hcols hk hA hrw b hb x xk rr hx hxk hrr).mono ?_
    rintro h'' ⟨x', xk'⟩ ⟨hh2, s1, s2, a, l⟩
    rw [does_bind, does_lift]
    simp only at s1 s2 a l
    have it := refined_step h0 h1 a l
    refine (irbResidual_runs k trans A T hA b hb x' xk' rr s1 s2 hrr).mono ?_
    rintro ⟨xk2, rr2⟩ ⟨t1, t2, t3⟩
    simp only at t1 t2 t3 ⊢
    have rel : RelRes norm (if trans then herm T else T) k b.get bnorm x'.get (norm rr2 / bnorm) := ⟨rr2, t2, t3, rfl⟩
    split
    · rename_i c
      rw [does_pure]
      refine ⟨s1, ⟨by show 1 ≤ iters + 1; omega, by show iters + 1 ≤ N; omega, it, Or.inl rfl, fun _ => ⟨_, rel, c⟩, ?_, ?_, he⟩⟩
      · intro hh; exact absurd (show (0 : Int) = 1 from hh) (by decide)
      · intro hh; exact absurd (show (0 : Int) = -1 from hh) (by decide)
    rename_i c
    split
    · rename_i c2
      rw [does_pure]
      refine ⟨s1, ⟨by show 1 ≤ iters + 1; omega, by show iters + 1 ≤ N; omega, it, Or.inr (Or.inl rfl), ?_,
        fun _ => ⟨_, rel, not_le.1 c, c2⟩, ?_, he⟩⟩
      · intro hh; exact absurd (show (1 : Int) = 0 from hh) (by decide)
      · intro hh; exact absurd (show (1 : Int) = -1 from hh) (by decide)
    rename_i c2
    refine ih (iters + 1) (by omega) h'' hh2 x' xk2 rr2 s1 t1 t2 it t3 ?_
    intro j hj1 hj2
    rcases Nat.lt_or_ge j (iters + 1) with c3 | c3
    · exact he j hj1 c3
    · obtain rfl : j = iters + 1 := by omega
      refine ⟨_, ⟨rr2, t2, fun i hi => ?_, rfl⟩, not_le.1 c, not_lt.1 c2⟩
      rw [t3 i hi, mulVec_congr' it i]

theorem boundedFix_does (b x : Buf K) (hb : b.size = k) (hx : x.size = k) (N : Nat) (hN : 2 ≤ N) (β₀ β₁ : R) (hnz : norm b ≠ 0) :
    Does (hifirBounded junk A norm b N β₀ β₁ x trans r) h fun _ o => o.1.size = k ∧
      Honest W (if trans then herm T else T) k b.get norm (norm b) β₀ β₁ N o.1.get o.2.1 o.2.2 := by
  unfold hifirBounded
  rw [if_neg (by omega), if_neg hnz, does_bind, does_read, if_neg (by omega), does_bind, does_lift]
  refine (fillRange_runs (Nat.zero_le _) (le_refl _) (fun _ => 0) fun i _ _ => by rw [runs_pure]).mono ?_
  rintro x0 ⟨s0, l0⟩
  rw [does_bind, does_lift]
  refine (fillRange_runs (Nat.zero_le _) (by show b.size ≤ h.ncols; omega) b.get fun j _ hj => by
    rw [runs_rd]; exact ⟨hj, rfl⟩).mono ?_
  rintro rr ⟨s1, l1⟩
  refine irbLoopFix_does hs hr hcols hk hA norm b hb (norm b) β₀ β₁ N (N - 1) 0 (by omega) h
    ⟨h.work, rfl, hr⟩ x0 ⟨h.ncols, junk⟩ rr (by omega) hcols (by rw [s1]; exact hcols) (fun j hj => ?_) (fun j hj => ?_)
    (fun j h1 h2 => by omega)
  · rw [l0, if_pos (by omega)]; rfl
  · rw [l1, if_pos (by omega), mulVec_congr' (x := x0.get) (y := fun _ => 0) (fun j hj => by rw [l0, if_pos (by omega)]) j]
    simp [mulVec]
end core

section main
variable {h : HIF K} {r : Nat} {S : Nat → Nat → K} {kf k : Nat} (hg : Prec.Usable r S kf h.precs k) (hw : Fits 1 h)
  (hcols : h.ncols = k) (hk : 0 < k) {A : Operator K} {T : Nat → Nat → K} (hA : OpOK A k T)
include hg hw hcols hk hA

/-- The state after a history, and what `solve` does there. -/
theorem after_history : ∃ W Wt : Nat → Nat → K, ∀ (junk : Nat → K) (cs : List (Call K)), (∀ c ∈ cs, c.applies) → ∀ (trans : Bool),
    (if trans then h.nspTran else h.nsp) = none → SolvesBy junk (run junk h cs) r trans k (if trans then Wt else W) ∧
    Ready (run junk h cs) ∧ (run junk h cs).ncols = k := by
  obtain ⟨W, hW⟩ := Gives.matrix hg.chain (fun b => fixed_total hg hw false b)
  obtain ⟨Wt, hWt⟩ := Gives.matrix (Prec.adj_chain hg.chain) (fun b => fixed_total hg hw true b)
  refine ⟨W, Wt, fun junk cs hc trans hn => ?_⟩
  obtain ⟨e1, e2, e3, e4⟩ := fixed_run hg hw junk cs hc
  refine ⟨fun w hrw b x hb hx => ?_, e4, ?_⟩
  · refine (solveFix_does (junk := junk) (h := { run junk h cs with work := w }) (T := S) (kf := kf) (by show Prec.Usable r S kf (run junk h cs).precs k; rw [e1]; exact hg) hrw
      trans (by show (if trans then (run junk h cs).nspTran else (run junk h cs).nsp) = none; rw [e2, e3]; exact hn) b x hb hx).mono ?_
    rintro h' y ⟨⟨w', hw', rfl⟩, h2, h3⟩
    refine ⟨⟨w', rfl, Or.inr hw'⟩, h2, fun i hi => ?_⟩
    simp only [e1] at h3
    cases trans with
    | false => exact hW _ _ h3 i hi
    | true => exact hWt _ _ h3 i hi
  · exact same_run (I := fun g => g.ncols = k) (fun g w hg => hg) junk cs hc h hcols

/-- **C92**: there are fixed matrices `W`, `Wt` by which `solve` multiplies, and at every point of a history of applying calls refinement with `N` iterations returns exactly
the `N`-th iterate of `x_0 = 0, x_{j+1} = x_j + W (b - A x_j)`. -/
theorem C92_refinement : ∃ W Wt : Nat → Nat → K, ∀ (junk : Nat → K) (cs : List (Call K)), (∀ c ∈ cs, c.applies) → ∀ (trans : Bool),
    (if trans then h.nspTran else h.nsp) = none → ∀ b x : Buf K, b.size = k → x.size = k →
    Does (solve junk b x trans r) (run junk h cs) (fun _ y => y.size = k ∧ ∀ i, i < k → y.get i = mulVec k (if trans then Wt else W) b.get i) ∧
    ∀ N, Does (hifir junk A b N x trans r) (run junk h cs) fun _ y => y.size = k ∧
      ∀ i, i < k → y.get i = refined k (if trans then Wt else W) (if trans then herm T else T) b.get (max N 1) i := by
  obtain ⟨W, Wt, hW⟩ := after_history hg hw hcols hk hA
  refine ⟨W, Wt, fun junk cs hc trans hn b x hb hx => ?_⟩
  obtain ⟨hs, hr, hc⟩ := hW junk cs hc trans hn
  exact ⟨(hs (run junk h cs).work hr b x hb hx).mono fun _ y q => q.2, fun N => refineFix_does hs hr hc hk hA b x hb hx N⟩

/-- **C92**: bounded refinement reports honestly (see `Honest`) against the same iterates. -/
theorem C92_bounded : ∃ W Wt : Nat → Nat → K, ∀ (junk : Nat → K) (cs : List (Call K)), (∀ c ∈ cs, c.applies) → ∀ (trans : Bool),
    (if trans then h.nspTran else h.nsp) = none → ∀ b x : Buf K, b.size = k → x.size = k →
    Does (solve junk b x trans r) (run junk h cs) (fun _ y => y.size = k ∧ ∀ i, i < k → y.get i = mulVec k (if trans then Wt else W) b.get i) ∧
    ∀ {R : Type} [LinearOrder R] [Zero R] [Div R] (norm : Buf K → R) (N : Nat) (β₀ β₁ : R), 2 ≤ N → norm b ≠ 0 →
      Does (hifirBounded junk A norm b N β₀ β₁ x trans r) (run junk h cs) fun _ o => o.1.size = k ∧
        Honest (if trans then Wt else W) (if trans then herm T else T) k b.get norm (norm b) β₀ β₁ N o.1.get o.2.1 o.2.2 := by
  obtain ⟨W, Wt, hW⟩ := after_history hg hw hcols hk hA
  refine ⟨W, Wt, fun junk cs hc trans hn b x hb hx => ?_⟩
  obtain ⟨hs, hr, hc⟩ := hW junk cs hc trans hn
  exact ⟨(hs (run junk h cs).work hr b x hb hx).mono fun _ y q => q.2,
    fun norm N β₀ β₁ hN hnz => boundedFix_does hs hr hc hk hA norm b x hb hx N hN β₀ β₁ hnz⟩
end main

/-- The error after `N` iterations: `e_0 = x⋆`, `e_{j+1} = e_j - W (A e_j)`. -/
def errorAfter (k : Nat) (W T : Nat → Nat → K) (xs : Nat → K) : Nat → Nat → K
  | 0 => xs
  | j + 1 => fun i => errorAfter k W T xs j i - mulVec k W (mulVec k T (errorAfter k W T xs j)) i

theorem mulVec_sub_pt (k : Nat) (T : Nat → Nat → K) (x y : Nat → K) (i : Nat) :
    mulVec k T (fun j => x j - y j) i = mulVec k T x i - mulVec k T y i := by
  have := mulVec_lin k T 1 (-1) x y i
  rw [show (fun j => 1 * x j + -1 * y j) = fun j => x j - y j from funext fun j => by ring] at this
  rw [this]; ring

/-- **C92**: for a consistent system `A x⋆ = b` the error `x⋆ - x_N` is `(I - W A)^N x⋆`, whether or not `W` or `A` is singular. -/
theorem C92_error {k : Nat} {W T : Nat → Nat → K} {b xs : Nat → K} (hb : ∀ i, i < k → mulVec k T xs i = b i) : ∀ N i, i < k →
    xs i - refined k W T b N i = errorAfter k W T xs N i
  | 0, i, hi => by show _ - 0 = _; rw [sub_zero]; rfl
  | N + 1, i, hi => by
    have ih := C92_error (W := W) hb N
    show xs i - (_ + _) = errorAfter k W T xs N i - _
    rw [← ih i hi, mulVec_congr' (x := fun l => b l - mulVec k T (refined k W T b N) l) (y := mulVec k T (errorAfter k W T xs N)) fun j hj => ?_]
    · ring
    · rw [← hb j hj, ← mulVec_sub_pt]
      exact mulVec_congr' ih j

/-- **C92**: if an iterate solves the system, all later ones are the same. -/
theorem C92_fixed_point {k : Nat} {W T : Nat → Nat → K} {b : Nat → K} {N : Nat}
    (hN : ∀ i, i < k → mulVec k T (refined k W T b N) i = b i) : ∀ m i, i < k → refined k W T b (N + m) i = refined k W T b N i
  | 0, i, hi => rfl
  | m + 1, i, hi => by
    have ih := C92_fixed_point hN m
    show refined k W T b (N + m) i + mulVec k W (fun l => b l - mulVec k T (refined k W T b (N + m)) l) i = _
    rw [ih i hi, mulVec_congr' (x := fun l => b l - mulVec k T (refined k W T b (N + m)) l) (y := fun _ => 0) fun j hj => ?_]
    · simp [mulVec]
    · rw [mulVec_congr' ih j, hN j hj, sub_self]

/-- **C92**: so for a consistent system the vectors that refinement returns have these errors, at every point of a history. -/
theorem C92_returned_error {h : HIF K} {r : Nat} {S : Nat → Nat → K} {kf k : Nat} (hg : Prec.Usable r S kf h.precs k) (hw : Fits 1 h)
    (hcols : h.ncols = k) (hk : 0 < k) {A : Operator K} {T : Nat → Nat → K} (hA : OpOK A k T) : ∃ W Wt : Nat → Nat → K,
    ∀ (junk : Nat → K) (cs : List (Call K)), (∀ c ∈ cs, c.applies) → ∀ (trans : Bool), (if trans then h.nspTran else h.nsp) = none →
    ∀ b x : Buf K, b.size = k → x.size = k → ∀ xs : Nat → K, (∀ i, i < k → mulVec k (if trans then herm T else T) xs i = b.get i) →
    Does (solve junk b x trans r) (run junk h cs) (fun _ y => y.size = k ∧ ∀ i, i < k → y.get i = mulVec k (if trans then Wt else W) b.get i) ∧
    ∀ N, Does (hifir junk A b N x trans r) (run junk h cs) fun _ y => y.size = k ∧
      ∀ i, i < k → xs i - y.get i = errorAfter k (if trans then Wt else W) (if trans then herm T else T) xs (max N 1) i := by
  obtain ⟨W, Wt, hW⟩ := C92_refinement hg hw hcols hk hA
  refine ⟨W, Wt, fun junk cs hc trans hn b x hb hx xs hxs => ?_⟩
  obtain ⟨h1, h2⟩ := hW junk cs hc trans hn b x hb hx
  exact ⟨h1, fun N => (h2 N).mono fun _ y q => ⟨q.1, fun i hi => by rw [q.2 i hi]; exact C92_error hxs _ i hi⟩⟩

/-! ### an object with a singular last block -/

namespace ExFixed
open Hif.Ex

/-- The hypotheses of C92 hold for it. -/
example : Prec.Usable 0 T 2 (HIF.mk [P] ⟨0, fun _ => (0 : ℚ)⟩ none none (fun _ => 0) 3 3).precs 3 ∧
    Fits 1 (HIF.mk [P] ⟨0, fun _ => (0 : ℚ)⟩ none none (fun _ => 0) 3 3) ∧
    OpOK (fun t x y => if t then Props.Ex.A3.crsMultiplyT x y else Props.Ex.A3.crsMultiplyNt x y) 3 Props.Ex.A3.crs :=
  ⟨⟨rfl, P_ok, rfl, rfl, D_fixed⟩, ⟨Or.inl rfl, fun _ => rfl⟩, opOK_crs Props.Ex.A3 (by constructor <;> decide) 3 (by decide) rfl rfl⟩

/-- Refinement with a singular `W` on a consistent system: the error in the kernel of `W A` stays. -/
example : refined 2 T (fun i j => if i = j then 4 else (0 : ℚ)) (fun i => if i = 0 then 8 else 4) 3 0 = 2 ∧
    refined 2 T (fun i j => if i = j then 4 else (0 : ℚ)) (fun i => if i = 0 then 8 else 4) 3 1 = 0 := by decide +kernel
end ExFixed
end Hif.Props
