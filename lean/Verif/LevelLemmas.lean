import Verif.Level
import Verif.LevelAlg
import Verif.PreDrive
import Verif.CroutProps
import Verif.CroutRes
import Verif.StructLemmas
import Verif.Props.DropOff
import Verif.Props.Schur
import Verif.Props.Extract
import Verif.Props.Pre

set_option linter.unusedSectionVars false
set_option linter.unusedVariables false

/-!
# One level of the factorization: the parts fit together
-/

namespace Hif

namespace CS
variable {K : Type _} [AddCommMonoid K]

theorem SplitSpec.sorted {A B : CS K} {second : Bool} {m : Nat} (h : A.WF) (hs : A.Sorted) (sp : SplitSpec A B second m) : B.Sorted := by
  refine Props.sorted_of_lines fun i hi => ?_
  rw [sp.psize] at hi
  have hl := sp.line i hi
  have hp : (((A.line i).filter (fun e => if second then m ≤ e.1 else e.1 < m)).map Prod.fst).Pairwise (· < ·) :=
    (line_fst_pairwise hs hi).sublist (List.filter_sublist.map _)
  rw [← hl] at hp
  cases second with
  | false => exact hp
  | true =>
    simp only [if_true, List.map_map] at hp
    rw [List.pairwise_map] at hp ⊢
    exact hp.imp fun {a b} hab => by simp only [Function.comp] at hab; omega

theorem sum_filter_ite (l : List (Nat × K)) (p : Nat × K → Bool) (j : Nat) (hp : ∀ e ∈ l, e.1 = j → p e = true) :
    ((l.filter p).map fun e => if e.1 = j then e.2 else 0).sum = (l.map fun e => if e.1 = j then e.2 else 0).sum := by
  induction l with
  | nil => rfl
  | cons e l ih =>
    have ih' := ih fun x hx => hp x (List.mem_cons_of_mem _ hx)
    rw [List.filter_cons]
    split
    · simp only [List.map_cons, List.sum_cons]; rw [ih']
    · rename_i hne
      rw [ih', List.map_cons, List.sum_cons, if_neg (fun he => hne (hp e List.mem_cons_self he)), zero_add]

theorem SplitSpec.entry_fst {A B : CS K} {m : Nat} (h : A.WF) (sp : SplitSpec A B false m) {i j : Nat} (hi : i < A.psize) (hj : j < m) :
    B.entry i j = A.entry i j := by
  have hl := sp.line i hi
  simp only [Bool.false_eq_true, if_false] at hl
  rw [entry_eq_line B i j (sp.wf.mono i (by rw [sp.psize]; exact hi)), entry_eq_line A i j (h.mono i hi), hl]
  exact sum_filter_ite _ _ _ fun e _ he => by simpa [he] using hj

theorem SplitSpec.entry_snd {A B : CS K} {m : Nat} (h : A.WF) (sp : SplitSpec A B true m) {i j : Nat} (hi : i < A.psize) :
    B.entry i j = A.entry i (m + j) := by
  have hl := sp.line i hi
  simp only [if_true] at hl
  rw [entry_eq_line B i j (sp.wf.mono i (by rw [sp.psize]; exact hi)), entry_eq_line A i (m + j) (h.mono i hi)]
  rw [← sum_filter_ite (A.line i) (fun e => decide (m ≤ e.1)) (m + j) (fun e _ he => by simp [he]), ← hl, List.map_map]
  congr 1
  refine List.map_congr_left fun e _ => ?_
  simp only [Function.comp]
  by_cases he : e.1 = j
  · rw [if_pos he, if_pos (by omega)]
  · rw [if_neg he, if_neg (by omega)]

theorem entry_congr_line {A B : CS K} {i j : Nat} (hA : A.start.get i ≤ A.start.get (i + 1)) (hB : B.start.get i ≤ B.start.get (i + 1))
    (h : B.line i = A.line i) : B.entry i j = A.entry i j := by
  rw [entry_eq_line B i j hB, entry_eq_line A i j hA, h]

theorem Sorted.nodup {A : CS K} (hs : A.Sorted) {i : Nat} (hi : i < A.psize) :
    (A.inds.slice (A.start.get i) (A.start.get (i + 1))).Nodup := by
  have := line_fst_pairwise hs hi
  unfold CS.line at this
  rw [seg_fst] at this
  exact this.imp fun {a b} h => by omega

end CS

namespace Level
open Finset
variable {K R : Type} [Field K] [DecidableEq K] [Inhabited K] [Field R] [LinearOrder R] [IsStrictOrderedRing R] [FloorSemiring R]

theorem refArr_runs {n m : Nat} {sz p : Buf Nat} (hm : m < n) (hs : n ≤ sz.size) (hp : n ≤ p.size) (hpl : ∀ i, i < n → p.get i < n) :
    Runs (refArr n m sz p) fun P => P.size = n * 2 ∧ ∀ i, i < n - m → P.get (i + 1) = P.get i + sz.get (p.get (m + i)) := by
  unfold refArr
  simp only [runs_bind, runs_wr]
  refine ⟨by show 0 < n * 2; omega, ?_⟩
  refine forUp_runs' (fun i (P : Buf Nat) => P.size = n * 2 ∧ ∀ k, k < i - m → P.get (k + 1) = P.get k + sz.get (p.get (m + k))) (by omega)
    ⟨rfl, fun k hk => by omega⟩ ?_ (fun P h => h)
  rintro i P h1 h2 ⟨p1, p2⟩
  simp only [runs_bind, runs_rd, runs_wr, Buf.set_size, Buf.set_get]
  have := hpl i h2
  refine ⟨by omega, by omega, by omega, by omega, p1, fun k hk => ?_⟩
  by_cases hk' : k = i - m
  · subst hk'
    rw [if_pos rfl, if_neg (by omega), show m + (i - m) = i by omega]
  · rw [if_neg (by omega), if_neg (by omega)]
    exact p2 k (by omega)

theorem dropOff_runs {e : Env K R} (hnth : SV.NthSpec e.nth) (alpha : R) {n m : Nat} {sz p : Buf Nat} (hs : n ≤ sz.size) (hp : n ≤ p.size)
    (hpl : ∀ i, i < n → p.get i < n) (hpos : ∀ i, i < n → 0 < sz.get i) {T : CS K} (hT : T.WF) (ht : T.Tight) (hsrt : T.Sorted) (hTp : T.psize = n - m) {v : SV K}
    (hv : T.ssize ≤ v.vals.size) (hvi : n - m ≤ v.inds.size) :
    Runs (dropOff e alpha n m sz p T v) fun B => B.WF ∧ B.Tight ∧ B.psize = T.psize ∧ B.ssize = T.ssize ∧
      ((∀ i, i < n → (T.ssize : R) ≤ alpha * sz.get i) → 0 < alpha → ∀ i, i < T.psize → B.line i = T.line i) := by
  unfold dropOff
  split
  · rename_i hmn
    simp only [runs_bind]
    refine (refArr_runs hmn hs hp hpl).mono ?_
    rintro ref ⟨r1, r2⟩
    rcases le_or_gt alpha 0 with ha | ha
    · obtain ⟨B, eB, b1, b2, b3, b4, -⟩ := Props.C53_cleared e.nth e.a.nrm ref alpha ha T ht.start_size v.vals v.inds
      exact ⟨B, eB, b3, b4, b1, b2, fun _ h => absurd h (not_lt.2 ha)⟩
    · obtain ⟨B, eB, b1, b2, b3, b4, b5⟩ := Props.C53_keeps_largest e.nth hnth e.a.nrm ref alpha ha T hT ht.start_size (by omega) v.vals v.inds (by omega)
        hv (fun i hi => hsrt.nodup hi) (fun i hi => Or.inl (by rw [r2 i (by omega)]; have := hpos _ (hpl (m + i) (by omega)); omega))
      refine ⟨B, eB, b3, b4, b1, b2, fun h _ i hi => (b5 i hi).all ?_⟩
      rw [r2 i (by omega), Nat.add_sub_cancel_left]
      have h1 : (T.line i).length ≤ T.ssize := by
        have hp := CS.line_fst_pairwise hsrt hi
        have hn : ((T.line i).map Prod.fst).Nodup := hp.imp fun {a b} h => by omega
        have hsub : ((T.line i).map Prod.fst) ⊆ List.range T.ssize := by
          intro x hx
          obtain ⟨y, hy, rfl⟩ := List.mem_map.1 hx
          obtain ⟨k, k1, k2, rfl⟩ := CS.mem_seg.1 hy
          exact List.mem_range.2 (hT.line_lt hi k2)
        have := (hn.subperm hsub).length_le
        simpa using this
      have h2 := h _ (hpl (m + i) (by omega))
      have h3 : (T.ssize : R) ≤ (⌈alpha * ((sz.get (p.get (m + i)) : Nat) : R)⌉₊ : R) := h2.trans (Nat.le_ceil _)
      have h4 : T.ssize ≤ ⌈alpha * ((sz.get (p.get (m + i)) : Nat) : R)⌉₊ := by exact_mod_cast h3
      omega
  · exact ⟨T, rfl, hT, ht, rfl, rfl, fun _ _ _ _ => rfl⟩

/-- What the Crout phase needs from the preprocessing. -/
structure Prepared (n : Nat) (g : Pre.Matched R) : Prop where
  mle : g.m ≤ n
  ssz : g.s.size = n
  tsz : g.t.size = n
  spos : ∀ i, i < n → 0 < g.s.get i
  tpos : ∀ i, i < n → 0 < g.t.get i
  p : BiPerm.Good n g.p
  q : BiPerm.Good n g.q

theorem eye_good (n : Nat) : BiPerm.Good n ⟨eyeBuf n, eyeBuf n⟩ :=
  ⟨rfl, rfl, ⟨fun i hi => ⟨hi, rfl⟩, fun i hi => ⟨hi, rfl⟩⟩⟩

theorem prepare_noPre (e : Env K R) (o : Opts R) (h : o.noPre = true) (sym : Bool) (m0 lvl : Nat) (Accs Acrs : CS K) :
    Runs (prepare e o sym m0 lvl Accs Acrs) (Prepared Acrs.psize) := by
  unfold prepare
  rw [if_pos h]
  simp only [runs_pure]
  exact ⟨le_refl _, rfl, rfl, fun i _ => by show (0 : R) < 1; exact one_pos, fun i _ => by show (0 : R) < 1; exact one_pos, eye_good _, eye_good _⟩

/-- Entries of a matrix stored by rows or by columns. -/
def mat (rowMajor : Bool) (A : CS K) (i j : Nat) : K := if rowMajor then A.crs i j else A.ccs i j

/-- The two storages of a square matrix. -/
structure Two (n : Nat) (Acrs Accs : CS K) : Prop where
  pre : Pre.PreIn n n Accs Acrs
  same : ∀ i j, i < n → j < n → Accs.entry j i = Acrs.entry i j

theorem two_of {A C : CS K} (h : A.WF) (ht : A.Tight) (hs : A.Sorted) (hsq : A.ssize = A.psize) (c : CS.ConvSpec A C) (rowMajor : Bool) :
    Two A.psize (if rowMajor then A else C) (if rowMajor then C else A) ∧
    ∀ i j, i < A.psize → j < A.psize → (if rowMajor then A else C).entry i j = mat rowMajor A i j := by
  obtain ⟨cw, ct⟩ := c.wf h ht
  have cs := c.sorted h ht hs
  have cp : C.psize = A.psize := by rw [c.psize, hsq]
  have cs' : C.ssize = A.psize := c.ssize
  have ce : ∀ i j, i < A.psize → j < A.psize → C.entry j i = A.entry i j := fun i j hi hj => c.entry h ht hi (by rw [hsq]; exact hj)
  cases rowMajor with
  | true => exact ⟨⟨⟨cw, cs, cp, cs', h, hs, rfl, hsq, le_refl _, Or.inl rfl⟩, fun i j hi hj => ce i j hi hj⟩, fun i j hi hj => rfl⟩
  | false => exact ⟨⟨⟨h, hs, rfl, hsq, cw, cs, cp, cs', le_refl _, Or.inl rfl⟩, fun i j hi hj => (ce j i hj hi).symm⟩, fun i j hi hj => ce j i hj hi⟩

theorem croutIn_ok (e : Env K R) {n : Nat} {Acrs Accs : CS K} (h : Two n Acrs Accs) {g : Pre.Matched R} (hg : Prepared n g) :
    Crout.InOK (croutIn e n Acrs Accs g) :=
  ⟨hg.mle, h.pre.rwf, h.pre.rsorted, h.pre.rp, h.pre.rs, h.pre.cwf, h.pre.csorted, h.pre.cp, h.pre.cs, h.same, hg.ssz, hg.tsz,
    hg.p.1, hg.p.2.1, hg.q.1, hg.q.2.1, hg.p.2.2, hg.q.2.2⟩

/-- What the blocks of a kept level are. -/
structure BlocksOK (rowMajor : Bool) (I : Crout.In K) (r : Crout.Out K) (LE UF : Nat → Nat → K) (b : Blocks K) : Prop where
  L_wf : b.L.WF
  L_p : b.L.psize = r.m
  L_s : b.L.ssize = r.m
  L_ent : ∀ i j, i < r.m → j < r.m → b.L.ccs i j = r.L.entry j i
  U_wf : b.U.WF
  U_p : b.U.psize = r.m
  U_s : b.U.ssize = r.m
  U_ent : ∀ i j, i < r.m → j < r.m → b.U.ccs i j = r.U.entry i j
  E_wf : b.E.WF
  E_p : b.E.psize = r.m
  E_s : b.E.ssize = I.n - r.m
  E_ent : ∀ i j, i < I.n - r.m → j < r.m → b.E.ccs i j = Crout.Out.target I r (r.m + i) j
  F_wf : b.F.WF
  F_p : b.F.psize = I.n - r.m
  F_s : b.F.ssize = r.m
  F_ent : ∀ i j, i < r.m → j < I.n - r.m → b.F.ccs i j = Crout.Out.target I r i (r.m + j)
  S_p : b.S.psize = I.n - r.m
  S_s : b.S.ssize = I.n - r.m
  S_wf : r.m < I.n → b.S.WF ∧ b.S.Tight ∧ b.S.Sorted
  S_ent : r.m < I.n → ∀ i j, i < I.n - r.m → j < I.n - r.m → mat rowMajor b.S i j =
    Crout.Out.target I r (r.m + i) (r.m + j) - ∑ c ∈ range r.m, LE i c * r.d.get c * UF c j
  tight : b.L.Tight ∧ b.U.Tight ∧ b.E.Tight ∧ b.F.Tight

theorem splitPos_of {n m : Nat} {T : CS K} {st : Buf Nat} {S : Nat → Nat → K} {w : Nat → Nat} {Φ : Nat → Nat → Prop}
    (h : Crout.FinOK n m T st S w Φ) : ∀ i, i < T.psize → CS.SplitPos T m i (st.get i) := fun i hi => by
  obtain ⟨h1, h2, h3, h4⟩ := h.st i (by rw [← h.psz]; exact hi)
  exact ⟨h1, h2, h3, h4⟩

theorem ready_mono {nb s s' : Nat} {v : SV K} (h : SV.Ready nb s v) (hs : s ≤ s') : SV.Ready nb s' v :=
  ⟨h.tags_size, h.inds_size, h.drop_size, h.drop_false, fun i hi => by
    obtain ⟨h1, h2⟩ := h.old i hi
    exact ⟨fun e => by have := h2 _ e; omega, fun t e => by have := h2 _ e; omega⟩⟩

theorem blockAlpha_ge (o : Opts R) (piv : Bool) (lvl : Nat) {a : R} (ha : 0 ≤ a) : a ≤ blockAlpha o piv lvl a := by
  unfold blockAlpha
  cases piv
  · simp only [Bool.false_eq_true, if_false]
    split <;> linarith
  · simp only [if_true]
    split <;> linarith

/-- The Schur complement of a kept level. -/
theorem schurPart_runs (e : Env K R) {pr : Crout.Par K R} {I : Crout.In K}
    (hI : Crout.InOK I) {ΦU ΦL : Nat → Nat → Prop} {r : Crout.Out K} (h : Crout.Res pr I ΦU ΦL r) {LE UF : CS K} (le3 : LE.WF) (hLEp : LE.psize = I.n - r.m)
    (hLEs : LE.ssize = r.m) (uf9 : UF.WF) (hUFp : UF.psize = r.m) (hUFs : UF.ssize = I.n - r.m) :
    Runs (SchurIn.compute ⟨I.s, I.Acrs, I.t, r.p.p, r.q.inv, r.m, LE, r.d, UF⟩ e.junkK e.junkN
      { r.l with vals := ⟨r.l.vals.size, e.junkK⟩, inds := ⟨r.l.inds.size, e.junkN⟩ }) fun S => S.psize = I.n - r.m ∧ S.ssize = I.n - r.m ∧
      (r.m < I.n → S.WF ∧ S.Tight ∧ S.Sorted ∧ (∀ i j, i < I.n - r.m → j < I.n - r.m → S.crs i j =
        Crout.Out.target I r (r.m + i) (r.m + j) - ∑ c ∈ range r.m, LE.crs i c * r.d.get c * UF.crs c j) ∧
        ∀ i j, i < I.n - r.m → j < I.n - r.m → (S.Has i j ↔ (∃ c, LE.Has i c ∧ UF.Has c j) ∨ I.Acrs.Has (r.p.p.get (r.m + i)) (r.q.p.get (r.m + j)))) := by
  have hmle : r.m ≤ I.n := by have := h.tot; have := hI.mle; omega
  have hpl : ∀ i, i < I.n → r.p.p.get i < I.n := fun i hi => (h.pinv.2.1 i hi).1
  have hps := h.psz
  have lR := h.lR
  have hAp : I.Acrs.psize = I.n := hI.rp
  have hSok : (SchurIn.mk I.s I.Acrs I.t r.p.p r.q.inv r.m LE r.d UF).OK r.q.p.get :=
    ⟨hI.rwf, le3, uf9, by show I.Acrs.ssize = I.Acrs.psize; rw [hI.rs, hAp], by show r.m ≤ I.Acrs.psize; omega,
      by show LE.psize = I.Acrs.psize - r.m; omega, by show LE.ssize = r.m; omega, by show UF.psize = r.m; exact hUFp,
      by show UF.ssize = I.Acrs.psize - r.m; omega,
      by show I.s.size = I.Acrs.psize; rw [hI.ssz, hAp], by show I.t.size = I.Acrs.psize; rw [hI.tsz, hAp],
      by show r.m ≤ r.d.size; have := h.dsz; have := h.tot; omega, by show r.p.p.size = I.Acrs.psize; omega,
      by show r.q.inv.size = I.Acrs.psize; rw [h.qinv.1, hAp], fun i hi => by
        have hi : i < I.Acrs.psize := hi
        show r.p.p.get i < I.Acrs.psize
        rw [hAp] at hi ⊢; exact hpl i hi,
      by show Spec.Inverse I.Acrs.psize _ _; rw [hAp]; exact h.qinv.2, fun i hi => hI.rsorted.nodup hi⟩
  by_cases hm : r.m < I.n
  · have hrd : SV.Ready (2 * I.n) I.Acrs.psize { r.l with vals := ⟨r.l.vals.size, e.junkK⟩, inds := ⟨r.l.inds.size, e.junkN⟩ } := by
      have := ready_mono lR.1 (show I.n ≤ I.Acrs.psize by omega)
      exact ⟨this.tags_size, this.inds_size, this.drop_size, this.drop_false, this.old⟩
    obtain ⟨S, s1, s2, s3, s4, s5, s6, s7⟩ := Props.C22_schur_formula _ r.q.p.get hSok (by show r.m < I.Acrs.psize; omega) e.junkK e.junkN (2 * I.n)
      (by show I.Acrs.psize - r.m ≤ _; omega) { r.l with vals := ⟨r.l.vals.size, e.junkK⟩, inds := ⟨r.l.inds.size, e.junkN⟩ } hrd
      (by show I.Acrs.psize - r.m ≤ r.l.vals.size; omega)
    obtain ⟨S', u1, u2⟩ := Props.C22_schur_pattern _ r.q.p.get hSok (by show r.m < I.Acrs.psize; omega) e.junkK e.junkN (2 * I.n)
      (by show I.Acrs.psize - r.m ≤ _; omega) { r.l with vals := ⟨r.l.vals.size, e.junkK⟩, inds := ⟨r.l.inds.size, e.junkN⟩ } hrd
      (by show I.Acrs.psize - r.m ≤ r.l.vals.size; omega)
    obtain rfl : S = S' := Except.ok.inj (s1.symm.trans u1)
    have s4 : S.psize = I.Acrs.psize - r.m := s4
    have s5 : S.ssize = I.Acrs.psize - r.m := s5
    have s6 : ∀ i, i < I.Acrs.psize - r.m → (S.inds.slice (S.start.get i) (S.start.get (i + 1))).Pairwise (· < ·) := s6
    rw [hAp] at s4 s5 s6
    refine ⟨S, s1, s4, s5, fun _ => ⟨s2, s3, ?_, fun i j hi hj => ?_, fun i j hi hj => u2 i j (by show i < I.Acrs.psize - r.m; omega)
      (by show j < I.Acrs.psize - r.m; omega)⟩⟩
    · refine Props.sorted_of_lines fun i hi => ?_
      unfold CS.line
      rw [CS.seg_fst]
      exact s6 i (by omega)
    · rw [s7 i j (by show i < I.Acrs.psize - r.m; omega) (by show j < I.Acrs.psize - r.m; omega)]
      rfl
  · obtain ⟨S, s1, s2, s3, -⟩ := Props.C22_schur_empty (SchurIn.mk I.s I.Acrs I.t r.p.p r.q.inv r.m LE r.d UF) (by show r.m = I.Acrs.psize; omega)
      e.junkK e.junkN { r.l with vals := ⟨r.l.vals.size, e.junkK⟩, inds := ⟨r.l.inds.size, e.junkN⟩ }
    exact ⟨S, s1, by omega, by omega, fun hc => absurd hc hm⟩

/-- The Schur complement in the format of the input. -/
theorem toInput_runs (rowMajor : Bool) {N : Nat} {S0 : CS K} (S1 : S0.psize = N) (S2 : S0.ssize = N) (S3 : 0 < N → S0.WF ∧ S0.Tight ∧ S0.Sorted) :
    Runs (toInput rowMajor S0) fun S => S.psize = N ∧ S.ssize = N ∧
      (0 < N → S.WF ∧ S.Tight ∧ S.Sorted ∧ (∀ i j, i < N → j < N → mat rowMajor S i j = S0.crs i j) ∧
        ∀ i j, i < N → j < N → ((if rowMajor then S.Has i j else S.Has j i) ↔ S0.Has i j)) := by
  unfold toInput
  split
  · rename_i hc
    refine ⟨S0, rfl, S1, S2, fun hm => ?_⟩
    obtain ⟨a1, a2, a3⟩ := S3 hm
    have hrm : rowMajor = true := by rcases hc with h' | h' <;> [exact h'; omega]
    refine ⟨a1, a2, a3, fun i j _ _ => ?_, fun i j _ _ => by rw [if_pos hrm]⟩
    unfold mat
    rw [if_pos hrm]
  · rename_i hc
    push Not at hc
    have hm : 0 < N := by have := hc.2; omega
    obtain ⟨a1, a2, a3⟩ := S3 hm
    refine (CS.convert_runs a1 a2).mono ?_
    intro S c
    obtain ⟨w1, w2⟩ := c.wf a1 a2
    refine ⟨by rw [c.psize, S2], by rw [c.ssize, S1], fun _ => ⟨w1, w2, c.sorted a1 a2 a3, fun i j hi hj => ?_, fun i j hi hj => by
      rw [if_neg hc.1]; exact c.has a1 a2 (by omega) (by omega)⟩⟩
    unfold mat
    rw [if_neg hc.1]
    exact c.entry a1 a2 (by omega) (by omega)

set_option maxHeartbeats 1000000 in
/-- The Schur part of a level: everything is in bounds, and the blocks are those of the Crout phase; if the limits of the off-diagonal blocks do
not bind, `L_E` and `U_F` are the rest of the factors. -/
theorem blocks_runs {e : Env K R} (hnth : SV.NthSpec e.nth) (o : Opts R) (piv rowMajor : Bool) (lvl : Nat) {pr : Crout.Par K R} {I : Crout.In K}
    (hI : Crout.InOK I) {ΦU ΦL : Nat → Nat → Prop} {r : Crout.Out K} (h : Crout.Res pr I ΦU ΦL r)
    (hr : I.n ≤ (e.rows lvl).size ∧ ∀ i, i < I.n → 0 < (e.rows lvl).get i) (hc : I.n ≤ (e.cols lvl).size ∧ ∀ i, i < I.n → 0 < (e.cols lvl).get i) :
    Runs (blocks e o piv rowMajor lvl I r) fun b => ∃ LE UF, BlocksOK rowMajor I r LE UF b ∧
      ((I.n : R) ≤ o.par.alphaL → ∀ i c, i < I.n - r.m → c < r.m → LE i c = r.L.entry c (r.m + i)) ∧
      ((I.n : R) ≤ o.par.alphaU → ∀ c j, c < r.m → j < I.n - r.m → UF c j = r.U.entry c (r.m + j)) := by
  have hmle : r.m ≤ I.n := by have := h.tot; have := hI.mle; omega
  have hpl : ∀ i, i < I.n → r.p.p.get i < I.n := fun i hi => (h.pinv.2.1 i hi).1
  have hql : ∀ i, i < I.n → r.q.p.get i < I.n := fun i hi => (h.qinv.2.1 i hi).1
  have hpil : ∀ i, i < I.n → r.p.inv.get i < I.n := fun i hi => (h.pinv.2.2 i hi).1
  have hps := h.psz
  have hqs := h.qsz
  have hLss := h.L.ssz
  have hLps := h.L.psz
  have hUss := h.U.ssz
  have hUps := h.U.psz
  unfold blocks
  simp only [runs_bind]
  refine (CS.splitDualWith_runs h.L.wf h.L.tight true r.m (by omega) r.Lstart (by rw [hLps]; exact h.L.stsz) (splitPos_of h.L)).mono ?_
  rintro LE0 ⟨LEb, le1, le2⟩
  obtain ⟨LEw, LEt⟩ := le2.wf le1.wf le1.tight
  have LEs := le2.sorted le1.wf le1.tight (le1.sorted h.L.wf h.L.sorted)
  have LEp : LE0.psize = I.n - r.m := by rw [le2.psize, le1.ssize, if_pos rfl, hLss]
  have LEss : LE0.ssize = r.m := by rw [le2.ssize, le1.psize, hLps]
  refine (CS.splitWith_runs h.L.wf h.L.tight false r.m (by omega) r.Lstart (by rw [hLps]; exact h.L.stsz) (splitPos_of h.L)).mono ?_
  intro LB lb
  refine (CS.splitDualWith_runs h.U.wf h.U.tight true r.m (by omega) r.Ustart (by rw [hUps]; exact h.U.stsz) (splitPos_of h.U)).mono ?_
  rintro UF0 ⟨UFb, uf1, uf2⟩
  obtain ⟨UFw, UFt⟩ := uf2.wf uf1.wf uf1.tight
  have UFs := uf2.sorted uf1.wf uf1.tight (uf1.sorted h.U.wf h.U.sorted)
  have UFp : UF0.psize = I.n - r.m := by rw [uf2.psize, uf1.ssize, if_pos rfl, hUss]
  have UFss : UF0.ssize = r.m := by rw [uf2.ssize, uf1.psize, hUps]
  refine (CS.splitDualWith_runs h.U.wf h.U.tight false r.m (by omega) r.Ustart (by rw [hUps]; exact h.U.stsz) (splitPos_of h.U)).mono ?_
  rintro UB ⟨UBb, ub1, ub2⟩
  obtain ⟨UBw, UBt⟩ := ub2.wf ub1.wf ub1.tight
  have lR := h.lR
  have utR := h.utR
  refine (dropOff_runs hnth (blockAlpha o piv lvl o.par.alphaL) (sz := e.rows lvl) (p := r.p.p) (n := I.n) (m := r.m) hr.1 (by omega) hpl hr.2 LEw LEt LEs LEp
    (v := r.l) (by omega) (by have := lR.1.inds_size; omega)).mono ?_
  rintro LE ⟨le3, le4, le5, le6, le7⟩
  refine (dropOff_runs hnth (blockAlpha o piv lvl o.par.alphaU) (sz := e.cols lvl) (p := r.q.p) (n := I.n) (m := r.m) hc.1 (by omega) hql hc.2 UFw UFt UFs UFp
    (v := r.ut) (by omega) (by have := utR.1.inds_size; omega)).mono ?_
  rintro UF2 ⟨uf3, uf4, uf5, uf6, uf7⟩
  refine (CS.convert_runs uf3 uf4).mono ?_
  intro UF uf8
  obtain ⟨uf9, uf10⟩ := uf8.wf uf3 uf4
  have hAp : I.Acrs.psize = I.n := hI.rp
  refine (schurPart_runs e hI h le3 (by omega) (by omega) uf9 (by rw [uf8.psize]; omega) (by rw [uf8.ssize]; omega)).mono ?_
  rintro S0 ⟨S1, S2, S3⟩
  -- E and F
  obtain ⟨E, eE, E1, E2, E3, E4, E5⟩ := Props.C61_extract_E I.Acrs hI.rwf I.s I.t (by rw [hI.ssz, hAp]) (by rw [hI.tsz, hI.rs]) r.m (by omega) (by rw [hI.rs]; omega)
    r.p.p r.q.inv r.q.p.get (by omega) (fun i hi => by rw [hAp] at hi ⊢; exact hpl i hi) (by rw [hI.rs, h.qinv.1]) (by rw [hI.rs]; exact h.qinv.2)
  refine ⟨E, eE, ?_⟩
  have hCp := hI.cp
  have hCs := hI.cs
  obtain ⟨F, eF, F1, F2, F3, F4, F5, F6, -⟩ := Props.C61_extract_F I.Accs hI.cwf hI.csorted I.s I.t (by rw [hI.ssz, hI.cs]) (by rw [hI.tsz, hI.cp]) r.m (by omega)
    (by omega) r.p.inv r.q.p r.p.p.get (by omega) (fun i hi => by rw [hCp] at hi ⊢; exact hql i hi) (by rw [hI.cs, h.pinv.1]) (by rw [hI.cs]; exact h.pinv.2)
    ⟨r.ut.vals.size, e.junkK⟩ (by show r.m ≤ r.ut.vals.size; omega)
  refine ⟨F, eF, ?_⟩
  refine (toInput_runs rowMajor S1 S2 fun hm => by obtain ⟨a1, a2, a3, -⟩ := S3 (by omega); exact ⟨a1, a2, a3⟩).mono ?_
  rintro S ⟨T1, T2, T3⟩
  simp only [runs_pure]
  have hLB : ∀ i j, i < r.m → j < r.m → LB.ccs i j = r.L.entry j i := fun i j hi hj =>
    lb.entry_fst h.L.wf (show j < r.L.psize by omega) hi
  have hUB : ∀ i j, i < r.m → j < r.m → UB.ccs i j = r.U.entry i j := fun i j hi hj => by
    have hB := ub1.entry_fst h.U.wf (show i < r.U.psize by omega) hj
    rw [← hB]
    exact ub2.entry ub1.wf ub1.tight (by rw [ub1.psize]; omega) (by rw [ub1.ssize]; simpa using hj)
  refine ⟨LE.crs, UF.crs, ⟨lb.wf, by rw [lb.psize, hLps], by rw [lb.ssize]; rfl, hLB, UBw, by rw [ub2.psize, ub1.ssize]; rfl,
    by rw [ub2.ssize, ub1.psize, hUps], hUB, E1, E3, by rw [E4, hAp], fun i j hi hj => E5 i j (by omega) hj, F1, by rw [F4, hCp], F5,
    fun i j hi hj => ?_, T1, T2, fun hm => ?_, fun hm i j hi hj => ?_, ⟨lb.tight, UBt, E2, F2⟩⟩, fun ha i c hi hc' => ?_, fun ha c j hc' hj => ?_⟩
  · rw [F6 i j hi (by omega)]
    unfold Crout.Out.target CS.ccs
    rw [hI.same _ _ (hpl i (by omega)) (hql _ (by omega))]
  · obtain ⟨a1, a2, a3, -⟩ := T3 (by omega)
    exact ⟨a1, a2, a3⟩
  · obtain ⟨-, -, -, a4, -⟩ := T3 (by omega)
    obtain ⟨-, -, -, b4, -⟩ := S3 hm
    rw [a4 i j hi hj, b4 i j hi hj]
  · have hn1 : (1 : R) ≤ I.n := by exact_mod_cast (show 1 ≤ I.n by omega)
    have hal : (I.n : R) ≤ blockAlpha o piv lvl o.par.alphaL := ha.trans (blockAlpha_ge o piv lvl (by linarith))
    have hpos : 0 < blockAlpha o piv lvl o.par.alphaL := by linarith
    have hlines := le7 (fun x hx => by
      have h1 : (1 : R) ≤ ((e.rows lvl).get x : Nat) := by exact_mod_cast hr.2 x hx
      have h2 : (LE0.ssize : R) ≤ I.n := by exact_mod_cast (show LE0.ssize ≤ I.n by omega)
      nlinarith) hpos i (by omega)
    show LE.entry i c = _
    rw [CS.entry_congr_line (LEw.mono i (by omega)) (le3.mono i (by omega)) hlines, ← le1.entry_snd h.L.wf (show c < r.L.psize by omega)]
    exact le2.entry le1.wf le1.tight (by rw [le1.psize]; omega) (by rw [le1.ssize, if_pos rfl]; omega)
  · have hn1 : (1 : R) ≤ I.n := by exact_mod_cast (show 1 ≤ I.n by omega)
    have hal : (I.n : R) ≤ blockAlpha o piv lvl o.par.alphaU := ha.trans (blockAlpha_ge o piv lvl (by linarith))
    have hpos : 0 < blockAlpha o piv lvl o.par.alphaU := by linarith
    have hlines := uf7 (fun x hx => by
      have h1 : (1 : R) ≤ ((e.cols lvl).get x : Nat) := by exact_mod_cast hc.2 x hx
      have h2 : (UF0.ssize : R) ≤ I.n := by exact_mod_cast (show UF0.ssize ≤ I.n by omega)
      nlinarith) hpos j (by omega)
    show UF.entry c j = _
    rw [uf8.entry uf3 uf4 (by omega) (by omega), CS.entry_congr_line (UFw.mono j (by omega)) (uf3.mono j (by omega)) hlines,
      ← uf1.entry_snd h.U.wf (show c < r.U.psize by omega)]
    exact uf2.entry uf1.wf uf1.tight (by rw [uf1.psize]; omega) (by rw [uf1.ssize, if_pos rfl]; omega)

end Level
end Hif
