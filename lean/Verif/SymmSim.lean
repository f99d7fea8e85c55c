import Verif.Symm
import Verif.CroutRes

set_option linter.unusedVariables false
set_option linter.unusedSectionVars false

/-!
# The symmetric Crout phase is the general one on a symmetric input (simulation)
-/

namespace Hif
namespace Symm
open Crout
variable {K : Type}

/-- The general state a symmetric one stands for. -/
def St.lift (c : St K) : Crout.St K :=
  ⟨c.step, c.defers, c.m, c.d, c.p, c.p, c.pinv, c.pinv, c.P, c.P, c.L, c.L, c.kL, c.kL, c.l, c.l, c.nDiag, c.nCond⟩

/-- The input with one scaling and one permutation. -/
def In.sym (I : In K) : Crout.In K := ⟨I.n, I.m2, I.s, I.s, I.A, I.A, I.p0, I.pinv0, I.p0, I.pinv0⟩

/-- The general parameters. -/
def Par.gen {R : Type _} (pr : Par K R) : Crout.Par K R := ⟨pr.nrm, pr.kappaD, pr.kappa, pr.safeMin, pr.drop, pr.drop, pr.refuse⟩

section
variable {α β γ : Type _}
theorem ok_bind (a : α) (f : α → M β) : (Except.ok a >>= f : M β) = f a := rfl
theorem err_bind (e : Err) (f : α → M β) : (Except.error e >>= f : M β) = Except.error e := rfl
theorem map_ok (a : α) (f : α → β) : (f <$> (Except.ok a : M α)) = Except.ok (f a) := rfl
theorem map_err (e : Err) (f : α → β) : (f <$> (Except.error e : M α)) = Except.error e := rfl
theorem rd_ok {b : Buf α} {i : Nat} (h : i < b.size) : b.rd i = .ok (b.get i) := if_pos h
theorem pure_ok (a : α) : (pure a : M α) = Except.ok a := rfl
end

/-- What the stored inverse gives for the rows still to be eliminated. -/
theorem _root_.Hif.Crout.PermI.invFacts {n k δ : Nat} {v o : Nat → Nat} {p0 p pinv pinv0 : Buf Nat} {P : Buf (Option Nat)}
    (hP : PermI n k δ v p0 p pinv P) (hpos : Pos n k δ v o) (hn : k + δ < n) (h0 : Spec.Inverse n p0.get pinv0.get) :
    (∀ a, a < n → pinv.get a < n + δ) ∧
    (∀ a b, a < n → b < n → k + δ < pinv.get a → pinv.get a = pinv.get b → a = b) := by
  have hcase : ∀ a, a < n → ∃ x, x < n ∧ p0.get x = a ∧
      ((v x < k ∧ pinv.get a < k + δ) ∨ (k + δ ≤ v x ∧ v x < n + δ ∧ pinv.get a = v x)) := by
    intro a ha
    obtain ⟨h1, h2⟩ := h0.2 a ha
    refine ⟨pinv0.get a, h1, h2, ?_⟩
    rcases hpos.cases (by omega) h1 with h3 | h3
    · exact Or.inl ⟨h3, by have := hP.small _ h1 h3; rw [h2] at this; exact this⟩
    · exact Or.inr ⟨h3.1, h3.2, by have := hP.inv _ h1 h3.1; rw [h2] at this; exact this⟩
  constructor
  · intro a ha
    obtain ⟨x, x1, x2, x3 | x3⟩ := hcase a ha <;> omega
  · intro a b ha hb hgt he
    obtain ⟨x, x1, x2, x3 | x3⟩ := hcase a ha
    · omega
    · obtain ⟨y, y1, y2, y3 | y3⟩ := hcase b hb
      · omega
      · have := hpos.inj x y x1 y1 (by omega)
        rw [← x2, ← y2, this]

section loop
variable [Field K] [DecidableEq K] {R : Type _} [LinearOrder R]

theorem badDiag_gen (pr : Par K R) (a : K) : Crout.badDiag pr.gen a = badDiag pr a := rfl

theorem kappas_sim (pr : Par K R) (c : St K) : Crout.kappas pr.gen c.lift = St.lift <$> kappas pr c := by
  simp only [Crout.kappas, kappas, St.lift, Par.gen]
  rcases updateKappa pr.nrm c.step c.defers c.L c.kL with e | k
  · rfl
  · rfl

theorem bigKappa_sim (pr : Par K R) (c : St K) : Crout.bigKappa pr.gen c.lift = bigKappa pr c := by
  simp only [Crout.bigKappa, bigKappa, St.lift, Par.gen]
  rcases c.kL.rd c.step with e | k
  · rfl
  · simp only [ok_bind, Bool.or_self]; rfl

theorem deferOne_sim (n : Nat) (c : St K) : Crout.deferOne n c.lift = St.lift <$> deferOne n c := by
  simp only [Crout.deferOne, deferOne, St.lift]
  rcases deferEntry c.step c.defers (n + c.defers) c.L with e | L
  · rfl
  · simp only [ok_bind]
    rcases c.p.rd (c.step + c.defers) with e | pi
    · rfl
    · simp only [ok_bind]
      rcases c.P.wr (n + c.defers) (some pi) with e | P
      · rfl
      · simp only [ok_bind]
        rcases c.pinv.wr pi (n + c.defers) with e | pinv
        · rfl
        · simp only [ok_bind]
          rcases P.wr (c.step + c.defers) none with e | P'
          · rfl
          · rfl

theorem retest_sim (pr : Par K R) (c : St K) :
    Crout.retest pr.gen c.lift = (fun r : Bool × St K => (r.1, r.2.lift)) <$> retest pr c := by
  simp only [Crout.retest, retest]
  rw [show c.lift.d = c.d from rfl, show c.lift.step = c.step from rfl, show c.lift.defers = c.defers from rfl]
  rcases c.d.rd (c.step + c.defers) with e | dv
  · rfl
  · simp only [ok_bind]
    by_cases hb : badDiag pr dv = true
    · have hb' : Crout.badDiag pr.gen dv = true := hb
      rw [if_pos hb, if_pos hb']; rfl
    · have hb' : ¬ Crout.badDiag pr.gen dv = true := hb
      rw [if_neg hb, if_neg hb', kappas_sim]
      rcases kappas pr c with e | c1
      · rfl
      · simp only [ok_bind, map_ok, bigKappa_sim]
        rcases bigKappa pr c1 with e | b
        · rfl
        · rfl

theorem firstTest_sim (pr : Par K R) (c : St K) :
    Crout.firstTest pr.gen c.lift = (fun r : Bool × St K => (r.1, r.2.lift)) <$> firstTest pr c := by
  simp only [Crout.firstTest, firstTest]
  rw [show c.lift.d = c.d from rfl, show c.lift.step = c.step from rfl, show c.lift.defers = c.defers from rfl]
  rcases c.d.rd (c.step + c.defers) with e | dv
  · rfl
  · simp only [ok_bind]
    by_cases hb : badDiag pr dv = true
    · have hb' : Crout.badDiag pr.gen dv = true := hb
      simp only [if_pos hb, if_pos hb']
      have hk := kappas_sim pr { c with nDiag := c.nDiag + 1 }
      change (Crout.kappas pr.gen (St.lift { c with nDiag := c.nDiag + 1 }) >>= _) = _
      rw [hk]
      rcases kappas pr { c with nDiag := c.nDiag + 1 } with e | c1
      · rfl
      · rfl
    · have hb' : ¬ Crout.badDiag pr.gen dv = true := hb
      simp only [if_neg hb, if_neg hb']
      have hk := kappas_sim pr c
      change (Crout.kappas pr.gen (St.lift c) >>= _) = _
      rw [hk]
      change _ = _ <$> (kappas pr c >>= _)
      rcases kappas pr c with e | c1
      · rfl
      · simp only [ok_bind, map_ok, bigKappa_sim]
        rcases bigKappa pr c1 with e | b
        · rfl
        · rfl

theorem deferLoop_sim (pr : Par K R) (n m2 : Nat) : ∀ (f : Nat) (c : St K),
    Crout.deferLoop pr.gen n m2 f c.lift = St.lift <$> deferLoop pr n m2 f c := by
  intro f
  induction f with
  | zero =>
    intro c
    simp only [Crout.deferLoop, deferLoop]
    rw [show c.lift.step = c.step from rfl, show c.lift.m = c.m from rfl]
    by_cases hlt : c.step < c.m
    · rw [if_pos hlt, if_pos hlt]; rfl
    · rw [if_neg hlt, if_neg hlt]; rfl
  | succ f ih =>
    intro c
    simp only [Crout.deferLoop, deferLoop]
    rw [show c.lift.step = c.step from rfl, show c.lift.m = c.m from rfl]
    by_cases hlt : c.step < c.m
    rotate_left
    · rw [if_neg hlt, if_neg hlt]; rfl
    · rw [if_pos hlt, if_pos hlt, deferOne_sim]
      rcases deferOne n c with e | c1
      · rfl
      · simp only [ok_bind, map_ok]
        rw [show c1.lift.step = c1.step from rfl, show c1.lift.defers = c1.defers from rfl]
        by_cases hm : m2 ≤ c1.step + c1.defers
        · rw [if_pos hm, if_pos hm]; rfl
        · rw [if_neg hm, if_neg hm, retest_sim]
          rcases retest pr c1 with e | ⟨b, r⟩
          · rfl
          · simp only [ok_bind, map_ok]
            cases b
            · rfl
            · exact ih r

theorem pivotPhase_sim (pr : Par K R) (n m2 : Nat) (c : St K) :
    Crout.pivotPhase pr.gen n m2 c.lift = St.lift <$> pivotPhase pr n m2 c := by
  simp only [Crout.pivotPhase, pivotPhase]
  rw [firstTest_sim]
  rcases firstTest pr c with e | ⟨b, r⟩
  · rfl
  · simp only [ok_bind, map_ok]
    cases b
    · rfl
    · exact deferLoop_sim pr n m2 r.m r

/-! ### The numerical part -/

/-- Two walks over a list agree when the bodies agree on its nodes. -/
theorem chase_congr {σ : Type _} {body body' : Nat → σ → M (Option Nat × σ)} (P : Option Nat → Prop)
    (h : ∀ i, P (some i) → ∀ s, body i s = body' i s ∧ ∀ r, body' i s = .ok r → P r.1) :
    ∀ (f : Nat) (x : Option Nat) (s : σ), P x → chase body f x s = chase body' f x s := by
  intro f
  induction f with
  | zero => intro x s hx; cases x <;> rfl
  | succ f ih =>
    intro x s hx
    cases x with
    | none => rfl
    | some i =>
      obtain ⟨h1, h2⟩ := h i hx s
      simp only [chase]
      rw [h1]
      rcases e : body' i s with e' | r
      · rfl
      · exact ih r.1 r.2 (h2 r e)

/-- On the nodes of the list of the current position both sweeps start behind the current entry. -/
theorem symmBody_eq {n m2 k δ : Nat} {F : FacSide K} (h : Side n m2 k δ F) {i : Nat} (hik : i < k)
    (h1 : F.T.start.get i + F.start.get i < F.T.start.get (i + 1))
    (h2 : F.T.inds.get (F.T.start.get i + F.start.get i) = k + δ) (d : Buf K) (v : SV K) :
    symmBody k F d i v = computeBody k δ F F d i v := by
  have hfrom : symmFrom F i = sweepFrom (k + δ) F i := by
    have hss := h.asm.ssz
    have hst := h.stz
    have hkle := h.kle
    unfold symmFrom sweepFrom
    have hsz := (h.asm.lt_size hik h1).1
    rw [rd_ok (by omega), rd_ok (by omega), rd_ok (by omega)]
    simp only [ok_bind, pure_ok]
    rw [if_pos (by omega), if_pos (by omega), rd_ok hsz]
    simp only [ok_bind]
    rw [if_pos h2]
  unfold symmBody computeBody
  rw [hfrom]
  refine bind_congr fun b => bind_congr fun st => bind_congr fun x => bind_congr fun dc => bind_congr fun lo => bind_congr fun e => ?_
  rw [mul_comm dc x]

theorem computeBody_next {k δ : Nat} {X Y : FacSide K} {d : Buf K} {i : Nat} {v : SV K} {r : Option Nat × SV K}
    (h : computeBody k δ X Y d i v = .ok r) : X.list.rd i = .ok r.1 := by
  have h' : Runs (computeBody k δ X Y d i v) (fun x => x = r) := ⟨r, h, rfl⟩
  unfold computeBody at h'
  simp only [runs_bind, runs_rd, runs_pure] at h'
  obtain ⟨-, -, -, -, lo, -, -, w, -, h1, h2⟩ := h'
  rw [← h2]
  exact rd_ok h1

/-- `compute_symm` is `compute_l` with both factors the same. -/
theorem computeSymm_eq {n m2 k δ : Nat} {F : FacSide K} (h : Side n m2 k δ F) (hlt : k + δ < m2) (tqk : K) (A : CS K) (s : Buf K)
    (qk : Nat) (pinv : Buf Nat) (d : Buf K) (v : SV K) :
    computeSymm k δ tqk A s qk pinv F d v = computeVec k δ tqk A s qk pinv F F d v := by
  have hkle := h.kle
  have hmle := h.mle
  unfold computeSymm computeVec
  refine bind_congr fun w => ?_
  by_cases hk : k ≠ 0
  · rw [if_pos hk, if_pos hk]
    obtain ⟨c, c1, c2, c3, c4, c5⟩ := h.nodes (by omega)
    have hl : k + δ < F.list.size := by rw [h.lsz]; omega
    rw [rd_ok hl]
    simp only [ok_bind]
    refine chase_congr (fun x => ∃ a b, c = a ++ b ∧ x = b.head?) ?_ _ _ _ ⟨[], c, rfl, c1.1⟩
    rintro i ⟨a, b, hab, hb⟩ s
    cases b with
    | nil => cases hb
    | cons i' b =>
      simp only [List.head?_cons, Option.some.injEq] at hb
      subst hb
      obtain ⟨d1, d2, d3, d4⟩ := c4 i (by rw [hab]; simp)
      refine ⟨symmBody_eq h d1 d2 d3 d s, fun r hr => ?_⟩
      have hn := computeBody_next hr
      rw [rd_ok (by rw [h.lsz]; omega)] at hn
      injection hn with hn
      exact ⟨a ++ [i], b, by rw [hab]; simp, by rw [← hn]; exact c1.2 a i b hab⟩
  · rw [if_neg hk, if_neg hk]

/-- `update_diag<true>`. -/
theorem symmDiag_runs {N step : Nat} {l : SV K} (hl : SV.Busy N step l) (hlv : l.vals.size = N) {m : Nat} {d : Buf K} (hd : d.size = m)
    (hm : m ≤ N) (hs : step < m) :
    Runs (symmDiag step m l d) fun r => r.size = m ∧
      ∀ j, r.get j = if j < m then d.get j - d.get step * val l j * val l j else d.get j := by
  have hnd := hl.nodup
  unfold symmDiag
  simp only [runs_bind, runs_rd]
  refine ⟨by omega, ?_⟩
  refine forUp_runs' (fun i r => r.size = m ∧ ∀ j, r.get j =
      if j < m ∧ j ∈ l.inds.slice 0 i then d.get j - d.get step * val l j * val l j else d.get j) (Nat.zero_le _) ?_ ?_ ?_
  · refine ⟨hd, fun j => ?_⟩
    rw [Buf.slice_empty _ _ _ (le_refl _)]; simp
  · rintro i r - hi ⟨r1, r2⟩
    have hc := hl.counts_le
    have hsz := hl.inds_size
    have hin : l.inds.get i ∈ l.list := Buf.mem_slice.2 ⟨i, Nat.zero_le _, hi, rfl⟩
    have hlt := ((hl.mem _).1 hin).1
    have hfresh : l.inds.get i ∉ l.inds.slice 0 i := by
      intro hm
      obtain ⟨t, -, t2, t3⟩ := Buf.mem_slice.1 hm
      unfold SV.list at hnd
      have hlen : ∀ t, t < l.counts → t < (l.inds.slice 0 l.counts).length := fun t ht => by rw [Buf.slice_length]; omega
      have := (List.Nodup.getElem_inj_iff hnd (hi := hlen t (by omega)) (hj := hlen i hi)).1
        (by rw [Buf.slice_getElem, Buf.slice_getElem]; simpa using t3)
      omega
    have hstep : ∀ j, j ∈ l.inds.slice 0 (i + 1) ↔ j ∈ l.inds.slice 0 i ∨ j = l.inds.get i := by
      intro j; rw [Buf.slice_succ _ (Nat.zero_le _), List.mem_append, List.mem_singleton]
    simp only [runs_bind, runs_rd, runs_ite, runs_pure]
    refine ⟨by omega, ?_⟩
    by_cases hlm : l.inds.get i < m
    · rw [if_pos hlm]
      simp only [runs_wr, Buf.set_size, Buf.set_get]
      refine ⟨by omega, by omega, by omega, r1, fun j => ?_⟩
      by_cases e : j = l.inds.get i
      · subst e
        rw [if_pos rfl, if_pos ⟨hlm, (hstep _).2 (Or.inr rfl)⟩, r2, if_neg (fun hc => hfresh hc.2)]
        unfold val
        rw [if_pos hin]
      · rw [if_neg e, r2]
        simp only [hstep, e, or_false]
    · rw [if_neg hlm]
      refine ⟨r1, fun j => ?_⟩
      rw [r2]
      by_cases e : j = l.inds.get i
      · subst e
        rw [if_neg (fun hc => hlm hc.1), if_neg (fun hc => hlm hc.1)]
      · simp only [hstep, e, or_false]
  · rintro r ⟨r1, r2⟩
    refine ⟨r1, fun j => ?_⟩
    rw [r2]
    have el : l.inds.slice 0 l.counts = l.list := rfl
    rw [el]
    by_cases hj : j ∈ l.list
    · simp only [hj, and_true]
    · simp only [hj, and_false, if_false]
      unfold val
      rw [if_neg hj, mul_zero, sub_zero]; simp

theorem wr_ok {α : Type _} {b : Buf α} {i : Nat} (h : i < b.size) (x : α) : b.wr i x = .ok (b.set i x) := if_pos h

theorem compressArray_ok {α : Type _} {b : Buf α} {k δ : Nat} (hb : k + δ < b.size) :
    compressArray k δ b = .ok (b.set k (b.get (k + δ))) := by
  unfold compressArray
  rw [rd_ok hb, ok_bind, wr_ok (by omega)]

variable {pr : Par K R} {I : In K} {ΦU ΦL : Nat → Nat → Prop}

/-- One elimination step. -/
theorem updatePhase_sim (hI : InOK I.sym) (ht : ∀ i, I.t.rd i = I.s.rd i) {c : St K} {g : Gh K}
    (h : Inv pr.gen I.sym ΦU ΦL c.lift g) (hlt : c.step + c.defers < I.m2) (ha : Accepted pr.gen c.lift g) :
    Crout.updatePhase pr.gen I.sym c.lift = St.lift <$> updatePhase pr I c := by
  obtain ⟨ha1, -, -, -⟩ := ha
  have hmle : I.m2 ≤ I.n := hI.mle
  have hn : c.step + c.defers < I.n := by omega
  have hpp : c.p.get (c.step + c.defers) = I.p0.get (c.step + c.defers) := h.perm.pend _ (le_refl _) hn
  have hpl : I.p0.get (c.step + c.defers) < I.n := (hI.pinv.1 _ hn).1
  have hssz : I.s.size = I.n := hI.ssz
  have hpsz : c.p.size = I.n := h.perm.psz
  have hdsz : c.d.size = I.m2 := h.dsz
  have hksz : c.kL.size = I.m2 := h.kLsz
  have hside : Side I.n I.m2 c.step c.defers c.L := h.L
  have hdk : c.d.get (c.step + c.defers) ≠ 0 := by
    intro hc
    rw [show c.lift.d.get (c.lift.step + c.lift.defers) = c.d.get (c.step + c.defers) from rfl, hc] at ha1
    simp [Crout.badDiag] at ha1
  obtain ⟨hq1, hq2⟩ := h.perm.invFacts h.pos (by exact hn) hI.pinv
  obtain ⟨l1, e1, w1, w2, w3, -⟩ := computeVec_runs hside hside hlt (v := c.l) h.lR h.lsz (I.s.get (I.p0.get (c.step + c.defers)))
    hI.rwf hI.rsorted (sc := I.s) (by rw [hI.rs]; exact le_of_eq hssz.symm) (line := I.p0.get (c.step + c.defers))
    (by rw [hI.rp]; exact hpl) (inv := c.pinv) (by rw [hI.rs]; exact le_of_eq h.perm.isz.symm) (by rw [hI.rs]; exact hq1)
    (by rw [hI.rs]; exact hq2) (d := c.d.set c.step (c.d.get (c.step + c.defers))) (by rw [Buf.set_size, hdsz]; omega)
  obtain ⟨l2, e2, s1, s2, s3, s4, s5⟩ := scaleInv_runs pr.nrm pr.safeMin hdk w1 w2
  obtain ⟨d2, e3, d21, d22⟩ := updateDiag_runs w1 w2 s1 s2 (d := c.d.set c.step (c.d.get (c.step + c.defers))) (m := I.m2)
    (by rw [Buf.set_size]; exact hdsz) (by omega)
  obtain ⟨d3, e4, d31, d32⟩ := symmDiag_runs s1 s2 (d := c.d.set c.step (c.d.get (c.step + c.defers))) (m := I.m2)
    (by rw [Buf.set_size]; exact hdsz) (by omega) (by omega)
  have hdd : d3 = d2 := by
    obtain ⟨a, b⟩ := d2
    obtain ⟨a', b'⟩ := d3
    simp only at d21 d22 d31 d32
    subst d21
    have : b' = b := by
      funext j
      rw [d22, d32, Buf.set_get_self, s5]
      split
      · congr 1
        rw [mul_div_cancel₀ _ hdk]
      · rfl
    rw [d31, this]
  rw [hdd] at e4
  have hd2k : d2.get c.step = c.d.get (c.step + c.defers) := by
    rw [d22, show val l1 c.step = 0 by unfold val; rw [if_neg]; intro hc; have := w3 _ hc; omega]
    rw [zero_mul, sub_zero, Buf.set_get_self]; simp
  unfold Crout.updatePhase updatePhase
  simp only [St.lift, In.sym, Par.gen]
  simp only [rd_ok (show c.step < c.kL.size by omega), compressArray_ok (b := c.d) (show c.step + c.defers < c.d.size by omega), compressArray_ok (b := c.p) (show c.step + c.defers < c.p.size by omega), ok_bind]
  simp only [rd_ok (show c.step < (c.p.set c.step (I.p0.get (c.step + c.defers))).size by rw [Buf.set_size]; omega), ok_bind,
    Buf.set_get_self, hpp, ht, rd_ok (show I.p0.get (c.step + c.defers) < I.s.size by omega)]
  simp only [computeSymm_eq hside hlt]
  rw [show computeVec c.step c.defers (I.s.get (I.p0.get (c.step + c.defers))) I.A I.s (I.p0.get (c.step + c.defers)) c.pinv c.L c.L
    (c.d.set c.step (c.d.get (c.step + c.defers))) c.l = .ok l1 from e1]
  simp only [ok_bind, rd_ok (show c.step < (c.d.set c.step (c.d.get (c.step + c.defers))).size by rw [Buf.set_size]; omega), Buf.set_get_self, e2, e3, e4,
    rd_ok (show c.step < d2.size by omega), hd2k]
  rcases pr.drop (c.kL.get c.step) (I.p0.get (c.step + c.defers)) l2 with e | l3
  · rfl
  simp only [ok_bind]
  rcases c.L.T.pushLine ((sortInds l3).inds.slice 0 (sortInds l3).counts) (sortInds l3).vals with e | LT
  · rfl
  simp only [ok_bind]
  rcases updateCompress c.step c.defers { c.L with T := LT } with e | L'
  · rfl
  · rfl

/-- The whole loop, and what holds when it ends. -/
theorem mainLoop_sim (hI : InOK I.sym) (ht : ∀ i, I.t.rd i = I.s.rd i) (hU : DropOK I.n ΦU pr.drop) (hL : DropOK I.n ΦL pr.drop) (f : Nat) :
    ∀ {c : St K} {g : Gh K}, Inv pr.gen I.sym ΦU ΦL c.lift g → c.nDiag + c.nCond = c.defers →
    Crout.mainLoop pr.gen I.sym f c.lift = St.lift <$> mainLoop pr I f c := by
  induction f with
  | zero =>
    intro c g h hc
    simp only [Crout.mainLoop, mainLoop]
    rw [show c.lift.step = c.step from rfl, show c.lift.m = c.m from rfl]
    by_cases hlt : c.step < c.m
    · rw [if_pos hlt, if_pos hlt]; rfl
    · rw [if_neg hlt, if_neg hlt]; rfl
  | succ f ih =>
    intro c g h hc
    have hle := h.le
    have hm : c.m = I.m2 - c.defers := h.m
    simp only [Crout.mainLoop, mainLoop]
    rw [show c.lift.step = c.step from rfl, show c.lift.m = c.m from rfl]
    by_cases hlt : c.step < c.m
    · rw [if_pos hlt, if_pos hlt]
      obtain ⟨r, e, ⟨g', q1, q2⟩, q3, q4⟩ := pivotPhase_runs hI h (show c.step + c.defers < I.m2 by omega) hc
      have e' := pivotPhase_sim pr I.n I.m2 c
      rw [show I.sym.n = I.n from rfl, show I.sym.m2 = I.m2 from rfl] at *
      rw [e'] at e ⊢
      rcases hx : pivotPhase pr I.n I.m2 c with er | r1
      · rw [hx] at e; cases e
      · rw [hx] at e
        simp only [map_ok] at e ⊢
        injection e with e
        subst e
        simp only [ok_bind]
        rw [show r1.lift.step = r1.step from rfl, show r1.lift.m = r1.m from rfl]
        by_cases he : r1.m = r1.step
        · rw [if_pos he, if_pos he]; rfl
        · rw [if_neg he, if_neg he]
          have hle' : r1.step + r1.defers ≤ I.m2 := q1.le
          have hm' : r1.m = I.m2 - r1.defers := q1.m
          have hlt' : r1.step + r1.defers < I.m2 := by omega
          obtain ⟨r2, e2, ⟨g2, w1⟩, w2, w3, w4, w5, w6⟩ := updatePhase_runs (pr := pr.gen) (ΦU := ΦU) (ΦL := ΦL) hI hU hL q1 hlt' (q2 hlt')
          rw [updatePhase_sim hI ht q1 hlt' (q2 hlt')] at e2 ⊢
          rcases hx : updatePhase pr I r1 with er | r3
          · rw [hx] at e2; cases e2
          · rw [hx] at e2
            simp only [map_ok] at e2 ⊢
            injection e2 with e2
            subst e2
            exact ih (c := { r3 with step := r3.step + 1 }) w1 (by
              change r3.nDiag + r3.nCond = r3.defers
              change r1.nDiag + r1.nCond = r1.defers at q4
              change r3.defers = r1.defers at w3
              change r3.nDiag = r1.nDiag at w5
              change r3.nCond = r1.nCond at w6
              omega)
    · rw [if_neg hlt, if_neg hlt]; rfl

theorem finish_sim (n : Nat) (c : St K) : Crout.finish n c.lift = Out.lift <$> finish n c := by
  simp only [Crout.finish, finish, St.lift]
  rcases assignGaps c.step c.defers n c.P c.p with e | p
  · rfl
  simp only [ok_bind]
  rcases BiPerm.buildInv ⟨p, c.pinv⟩ with e | p'
  · rfl
  simp only [ok_bind]
  rcases globalStart c.L.T.endAssemble c.L.start c.m with e | st
  · rfl
  simp only [ok_bind]
  rcases compressTail c.L.T.endAssemble st c.m c.defers with e | T
  · rfl
  · rfl

theorem init_sim [Inhabited K] (ht : ∀ i, I.t.rd i = I.s.rd i) (hq : ∀ i, I.q0.rd i = I.p0.rd i) :
    Crout.init I.sym = St.lift <$> init I := by
  have hd : permDiag I.sym = permDiag I.gen := by
    unfold permDiag
    rw [show I.sym.Accs = I.gen.Accs from rfl, show I.sym.m2 = I.gen.m2 from rfl]
    have : permDiagAt I.sym = permDiagAt I.gen := by
      funext i
      unfold permDiagAt
      simp only [In.sym, In.gen, ht, hq]
    rw [this]
  simp only [Crout.init, init]
  rw [hd]
  rcases permDiag I.gen with e | d
  · rfl
  simp only [ok_bind]
  change (widen I.n I.p0 >>= fun P => widen I.n I.p0 >>= _) = _
  rcases widen I.n I.p0 with e | P
  · rfl
  · rfl

/-- The general phase, given the row scaling and permutation on both sides, does what the symmetric phase does. -/
theorem croutPhase_sim [Inhabited K] (hI : InOK I.sym) (ht : ∀ i, I.t.rd i = I.s.rd i) (hq : ∀ i, I.q0.rd i = I.p0.rd i)
    (hU : DropOK I.n ΦU pr.drop) (hL : DropOK I.n ΦL pr.drop) :
    Crout.croutPhase pr.gen I.sym = Out.lift <$> croutPhase pr I := by
  obtain ⟨c0, e0, ⟨g0, h0⟩, hs0, hc0⟩ := init_runs (pr := pr.gen) (ΦU := ΦU) (ΦL := ΦL) hI
  unfold Crout.croutPhase croutPhase
  rw [init_sim ht hq] at e0 ⊢
  rcases hx : init I with e | c
  · rw [hx] at e0; cases e0
  · rw [hx] at e0
    simp only [map_ok] at e0 ⊢
    injection e0 with e0
    subst e0
    simp only [ok_bind]
    rw [show I.sym.m2 = I.m2 from rfl, show I.sym.n = I.n from rfl, mainLoop_sim hI ht hU hL I.m2 h0 hc0]
    rcases mainLoop pr I I.m2 c with e | c1
    · rfl
    · simp only [map_ok, ok_bind]
      exact finish_sim I.n c1

/-- What is known of the general phase holds of the symmetric one. -/
theorem transfer [Inhabited K] (hI : InOK I.sym) (ht : ∀ i, I.t.rd i = I.s.rd i) (hq : ∀ i, I.q0.rd i = I.p0.rd i)
    (hU : DropOK I.n ΦU pr.drop) (hL : DropOK I.n ΦL pr.drop) {Q : Crout.Out K → Prop} (h : Runs (Crout.croutPhase pr.gen I.sym) Q) :
    Runs (croutPhase pr I) fun r => Q r.lift := by
  obtain ⟨r, e, hr⟩ := h
  rw [croutPhase_sim hI ht hq hU hL] at e
  rcases hc : croutPhase pr I with er | r'
  · rw [hc] at e; cases e
  · rw [hc, map_ok] at e
    injection e with e
    subst e
    exact ⟨r', rfl, hr⟩

/-- The symmetric phase completes, and its outcome is that of the general phase with the row scaling and permutation on both sides. -/
theorem croutPhase_runs [Inhabited K] (hI : InOK I.sym) (ht : ∀ i, I.t.rd i = I.s.rd i) (hq : ∀ i, I.q0.rd i = I.p0.rd i)
    (hU : DropOK I.n ΦU pr.drop) (hL : DropOK I.n ΦL pr.drop) :
    Runs (croutPhase pr I) fun r => Res pr.gen I.sym ΦU ΦL r.lift :=
  transfer hI ht hq hU hL ((Crout.croutPhase_runs (pr := pr.gen) (ΦU := ΦU) (ΦL := ΦL) hI hU hL).mono fun r ⟨g, hr⟩ => hr.res hI)

end loop
end Symm
end Hif
