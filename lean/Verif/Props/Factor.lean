import Verif.Factor
import Verif.History
import Verif.Props.Valid
import Verif.Props.Prec

set_option linter.unusedSectionVars false
set_option linter.unusedVariables false

/-!
# C26, C39–C42: the factorization driver, its failures, and the queries
-/

namespace Hif.Spec
variable {K : Type _}

/-- `Unfinished n precs k`: the levels `precs` (for an `n × n` system) each eliminated at least one unknown but not all, none has
a dense block, each level works on what the previous one left, and `k` unknowns remain. -/
def Unfinished : Nat → List (Prec K) → Nat → Prop
  | n, [], k => k = n
  | n, P :: ps, k => P.n = n ∧ 1 ≤ P.m ∧ P.m < n ∧ P.isLast = false ∧ Unfinished (n - P.m) ps k

/-- `Finished n precs`: an unfinished chain closed by one last level (everything eliminated, or a dense block). -/
def Finished (n : Nat) (precs : List (Prec K)) : Prop :=
  ∃ ps P k, precs = ps ++ [P] ∧ Unfinished n ps k ∧ P.n = k ∧ P.m ≤ k ∧ P.isLast = true

/-- What the driver relies on: a level kernel returns block sizes `m ≤ m2 ≤ n` and a Schur complement of size `n - m`, or
raises an exception; so does the dense factorization. -/
structure KernelsOK (ker : Kernels K) : Prop where
  size : ∀ kind lvl N m0 A o, A.psize = A.ssize → ker.level kind lvl N m0 A = .ok o → o.m ≤ o.m2 ∧ o.m2 ≤ A.psize ∧
    (o.m ≠ 0 → o.schur.psize = A.psize - o.m ∧ o.schur.ssize = A.psize - o.m)
  raises : ∀ kind lvl N m0 A e, ker.level kind lvl N m0 A = .error e → ∃ msg, e = .hif msg
  denseRaises : ∀ s A e, (ker.dense s A).2 = some e → ∃ msg, e = .hif msg

end Hif.Spec

namespace Hif.Props
open Spec HIF HM
variable {K : Type _}

theorem unfinished_append {n k : Nat} {ps : List (Prec K)} {P : Prec K} (h : Unfinished n ps k) (h1 : P.n = k) (h2 : 1 ≤ P.m)
    (h3 : P.m < k) (h4 : P.isLast = false) : Unfinished n (ps ++ [P]) (k - P.m) := by
  induction ps generalizing n with
  | nil =>
    have h : k = n := h
    subst h
    exact ⟨h1, h2, h3, h4, rfl⟩
  | cons Q ps ih => exact ⟨h.1, h.2.1, h.2.2.1, h.2.2.2.1, ih h.2.2.2.2⟩

theorem unfinished_le {n k : Nat} {ps : List (Prec K)} (h : Unfinished n ps k) : k + ps.length ≤ n ∧ (ps ≠ [] → 1 ≤ k) := by
  induction ps generalizing n with
  | nil => have h : k = n := h; simp [h]
  | cons Q ps ih =>
    obtain ⟨h1, h2, h3, h4, h5⟩ := h
    have := ih h5
    refine ⟨by simp only [List.length_cons]; omega, fun _ => ?_⟩
    cases ps with
    | nil => have : k = n - Q.m := h5; omega
    | cons => exact this.2 (by simp)

theorem unfinished_last {n k : Nat} {ps : List (Prec K)} (h : Unfinished n ps k) (hne : ps ≠ []) :
    ∃ P, ps.getLast? = some P ∧ P.isLast = false := by
  induction ps generalizing n with
  | nil => exact absurd rfl hne
  | cons Q ps ih =>
    cases ps with
    | nil => exact ⟨Q, rfl, h.2.2.2.1⟩
    | cons R ps =>
      obtain ⟨P, e, hP⟩ := ih h.2.2.2.2 (by simp)
      exact ⟨P, by rw [List.getLast?_cons_cons]; exact e, hP⟩

theorem mapLast_append {α : Type _} (l : List α) (a : α) (f : α → α) : mapLast (l ++ [a]) f = l ++ [f a] := by
  induction l with
  | nil => rfl
  | cons b l ih =>
    cases l with
    | nil => rfl
    | cons c l => show b :: mapLast (c :: l ++ [a]) f = _; rw [ih]; rfl

theorem postFlag_cases (m2 m : Nat) : (postFlag m2 m = (2, 0) ∧ 4 * m ≤ m2) ∨ (postFlag m2 m = (-1, m) ∧ m2 < 4 * m) ∨
    (postFlag m2 m = (0, m) ∧ m2 < 4 * m) := by
  unfold postFlag
  split
  · exact Or.inl ⟨rfl, by assumption⟩
  · split
    · exact Or.inr (Or.inl ⟨rfl, by omega⟩)
    · exact Or.inr (Or.inr ⟨rfl, by omega⟩)

section
variable [Zero K] [One K]

theorem toPrec_m (o : CroutOut K) (n m : Nat) : (o.toPrec n m).m = m ∧ (o.toPrec n m).n = n ∧ (o.toPrec n m).last = .none := by
  unfold CroutOut.toPrec
  split
  · exact ⟨rfl, rfl, rfl⟩
  · rename_i h
    exact ⟨by show 0 = m; omega, rfl, rfl⟩

/-- What happens in one level. -/
theorem levelFactorize_spec (ker : Kernels K) (hk : KernelsOK ker) (opts : FacOpts) (kind : LevelKind) (lvl N m0 : Nat) (A : CS K)
    (hsq : A.psize = A.ssize) (n : Nat) (h : HIF K) (hu : Unfinished n h.precs A.psize) :
    (∃ h' msg, levelFactorize ker opts kind lvl N m0 A h = (h', .error (.hif msg)) ∧
      (h' = h ∨ Finished n h'.precs)) ∨
    (levelFactorize ker opts kind lvl N m0 A h = (h, .ok .retry) ∧ (∃ b, kind = .plain b) ∧ opts.pivot = .auto) ∨
    (∃ h' S, levelFactorize ker opts kind lvl N m0 A h = (h', .ok (.next S)) ∧
      (Finished n h'.precs ∨ (∃ P, h'.precs = h.precs ++ [P] ∧ 1 ≤ P.m ∧ P.isLast = false) ∧
        S.psize < A.psize ∧ S.psize = S.ssize ∧ Unfinished n h'.precs S.psize)) := by
  unfold levelFactorize
  rcases hl : ker.level kind lvl N m0 A with e | o
  · obtain ⟨msg, rfl⟩ := hk.raises _ _ _ _ _ _ hl
    exact Or.inl ⟨h, msg, rfl, Or.inl rfl⟩
  obtain ⟨hm, hm2, hS⟩ := hk.size _ _ _ _ _ _ hsq hl
  rw [bind_ok (h' := h) (a := o) rfl]
  simp only
  set pf := postFlag o.m2 o.m with hpf
  have hpf2 : pf.2 ≤ A.psize ∧ (pf.2 ≠ 0 → pf.2 = o.m) := by
    rcases postFlag_cases o.m2 o.m with ⟨e, _⟩ | ⟨e, _⟩ | ⟨e, _⟩ <;> rw [← hpf] at e <;> rw [e] <;> constructor <;> simp <;> omega
  by_cases hg : givesUp kind opts pf.1 = true
  · rw [if_pos hg]
    right; left
    refine ⟨rfl, ?_⟩
    cases kind with
    | plain b =>
      simp only [givesUp, Bool.and_eq_true, beq_iff_eq] at hg
      exact ⟨⟨b, rfl⟩, hg.1⟩
    | pivot => simp [givesUp] at hg
    | symm => simp [givesUp] at hg
  rw [if_neg hg]
  obtain ⟨pm, pn, pl⟩ := toPrec_m o A.psize pf.2
  set P := o.toPrec A.psize pf.2 with hP
  rw [bind_ok (h' := { h with precs := h.precs ++ [P], stats := fun i => h.stats i + o.stats i }) (a := ()) rfl]
  set h1 : HIF K := { h with precs := h.precs ++ [P], stats := fun i => h.stats i + o.stats i } with hh1
  set S := o.rest A pf.2 with hSdef
  have hSz : S.psize = A.psize - pf.2 ∧ S.ssize = A.psize - pf.2 := by
    rw [hSdef]
    unfold CroutOut.rest
    split
    · rename_i h0
      have e := hpf2.2 h0
      rw [e] at h0
      rw [e]
      exact hS h0
    · constructor <;> omega
  by_cases hd : (useDense kind opts o pf.1 A.psize pf.2 && !denseEmpty S) = true
  · rw [if_pos hd]
    have fin : ∀ D : Last K, D.isNone = false → Finished n (mapLast (h.precs ++ [P]) fun Q => { Q with last := D }) := by
      intro D hD
      rw [mapLast_append]
      refine ⟨h.precs, _, A.psize, rfl, hu, pn, by show P.m ≤ _; rw [pm]; exact hpf2.1, ?_⟩
      unfold Prec.isLast
      simp [hD]
    have hD : (mkLast (kind == .symm) (ker.dense (kind == .symm) S).1).isNone = false := by unfold mkLast; split <;> rfl
    rcases he : (ker.dense (kind == .symm) S).2 with _ | e
    · right; right
      rw [bind_ok (h' := { h1 with precs := mapLast h1.precs fun Q => { Q with last := mkLast (kind == .symm) (ker.dense (kind == .symm) S).1 } }) (a := ())
        rfl]
      exact ⟨_, S, rfl, Or.inl (fin _ hD)⟩
    · obtain ⟨msg, rfl⟩ := hk.denseRaises _ _ _ he
      refine Or.inl ⟨{ h1 with precs := mapLast h1.precs fun Q => { Q with last := mkLast (kind == .symm) (ker.dense (kind == .symm) S).1 } }, msg, ?_, Or.inr (fin _ hD)⟩
      exact bind_error rfl
  · rw [if_neg hd]
    right; right
    refine ⟨h1, S, rfl, ?_⟩
    have hlast : P.isLast = (pf.2 == A.psize) := by
      unfold Prec.isLast
      rw [pl, pm, pn]
      rfl
    by_cases hmn : pf.2 = A.psize
    · left
      exact ⟨h.precs, P, A.psize, rfl, hu, pn, by rw [pm]; omega, by rw [hlast]; simp [hmn]⟩
    · right
      have h1m : 1 ≤ pf.2 := by
        by_contra h0
        have h0 : pf.2 = 0 := by omega
        apply hd
        have hs := hSz
        rw [h0] at hs
        have : useDense kind opts o pf.1 A.psize pf.2 = true := by unfold useDense; simp [h0]
        rw [this]
        have hne : S.psize * S.ssize ≠ 0 := by
          rw [hs.1, hs.2]
          have : 0 < A.psize := by omega
          simp; omega
        simp [denseEmpty]
        constructor
        · intro h0; rw [h0] at hne; simp at hne
        · intro h0; rw [h0] at hne; simp at hne
      have hl : P.isLast = false := by rw [hlast]; simp [hmn]
      refine ⟨⟨P, rfl, by rw [pm]; exact h1m, hl⟩, by omega, by omega, ?_⟩
      rw [hSz.1, ← pm]
      exact unfinished_append hu pn (by omega) (by omega) hl

theorem finished_done {n : Nat} {h : HIF K} (hf : Finished n h.precs) : h.unfinished = false := by
  obtain ⟨ps, P, k, e, -, -, -, hl⟩ := hf
  unfold HIF.unfinished
  rw [e]
  simp [hl]

theorem unfinished_more {n k : Nat} {h : HIF K} (hu : Unfinished n h.precs k) : h.unfinished = true := by
  unfold HIF.unfinished
  by_cases he : h.precs = []
  · rw [he]; rfl
  · obtain ⟨P, e, hP⟩ := unfinished_last hu he
    rw [e]; simp [hP]

/-- The driver from any unfinished state: it never runs out of the given recursion depth. -/
theorem factorizeKernel_spec (ker : Kernels K) (hk : KernelsOK ker) (opts : FacOpts) (n : Nat) : ∀ (fuel : Nat) (A : CS K) (m0 : Nat)
    (mp : Bool) (h : HIF K), A.psize = A.ssize → Unfinished n h.precs A.psize → 2 * A.psize + (if mp then 1 else 2) ≤ fuel →
    (∃ h', factorizeKernel ker opts fuel A m0 mp h = (h', .ok ()) ∧ Finished n h'.precs) ∨
    (∃ h' msg, factorizeKernel ker opts fuel A m0 mp h = (h', .error (.hif msg)) ∧
      ((∃ k, Unfinished n h'.precs k) ∨ Finished n h'.precs))
  | 0, A, m0, mp, h, _, _, hf => by split at hf <;> omega
  | fuel + 1, A, m0, mp, h, hsq, hu, hf => by
    rw [factorizeKernel, if_neg (by omega), bind_ok (h' := h) (a := h) rfl]
    rcases levelFactorize_spec ker hk opts (levelKind opts (h.levels + 1 == 1 && decide (0 < m0)) mp) (h.levels + 1) (refSize opts h A)
        (if (h.levels + 1 == 1 && decide (0 < m0)) = true then m0 else A.psize) A hsq n h hu with
      ⟨h', msg, e, hh⟩ | ⟨e, ⟨b, hkind⟩, ha⟩ | ⟨h', S, e, hh⟩
    · right
      refine ⟨h', msg, ?_, ?_⟩
      · exact bind_error e
      · rcases hh with rfl | hh
        · exact Or.inl ⟨_, hu⟩
        · exact Or.inr hh
    · rw [bind_ok e, bind_ok (h' := h) (a := h) rfl, if_pos (unfinished_more hu)]
      have hs : opts.isSymm = false := by
        by_contra hc
        have hc : opts.isSymm = true := by simpa using hc
        simp [levelKind, hc] at hkind
      have hmp : mp = false := by
        by_contra hc
        have hc : mp = true := by simpa using hc
        simp [levelKind, hs, ha, hc] at hkind
      have hpv : pivotFlag opts mp (.retry : LevelRes K) = true := by simp [pivotFlag, hs, ha]
      rw [hpv]
      subst hmp
      have hf : 2 * A.psize + 2 ≤ fuel + 1 := hf
      exact factorizeKernel_spec ker hk opts n fuel A 0 true h hsq hu (by show 2 * A.psize + 1 ≤ fuel; omega)
    · rw [bind_ok e, bind_ok (h' := h') (a := h') rfl]
      rcases hh with hh | ⟨_, h1, h2, h3⟩
      · rw [if_neg (by rw [finished_done hh]; simp)]
        exact Or.inl ⟨h', rfl, hh⟩
      · rw [if_pos (unfinished_more h3)]
        refine factorizeKernel_spec ker hk opts n fuel S 0 _ h' h2 h3 ?_
        split at hf <;> split <;> omega

/-- C26: for every matrix, every option set and every behaviour of the level kernels, `factorize` terminates: it completes, or
raises an exception (it never exceeds the recursion depth `2 n + 2`).  If it completes, the object holds a chain of levels in
which each level works on exactly what the previous one left (`n_{k+1} = n_k - m_k`), every level but the last eliminates at
least one unknown, and the last one is closed; there are at most `max n 1` levels.  If it raises an exception, the levels
present still form such a chain (closed or not). -/
theorem C26_factorize_terminates (junk : Nat → K) (ijunk : Nat → Int) (ker : Kernels K) (hk : KernelsOK ker) (opts : FacOpts)
    (A : Input K) (hsq : A.other = A.raw.psize) (m0 : Nat) (h : HIF K)
    (hv : opts.check = true → ∀ raw, A.toZeroBased ijunk = .ok raw → raw.checkValidity A.other = .ok () ∨
      ∃ msg, raw.checkValidity A.other = .error (.hif msg)) (hb : 0 < A.raw.start.size) :
    let n := A.raw.psize
    (∃ h', factorize junk ijunk ker opts A m0 h = (h', .ok ()) ∧ Finished n h'.precs ∧ h'.precs.length ≤ max n 1) ∨
    (∃ h' msg, factorize junk ijunk ker opts A m0 h = (h', .error (.hif msg)) ∧
      ((∃ k, Unfinished n h'.precs k) ∨ Finished n h'.precs)) := by
  intro n
  unfold factorize
  set h0 : HIF K := { h with nrows := A.nrows, ncols := A.ncols, precs := [], work := if h.empty = true then h.work else ⟨0, junk⟩, stats := fun _ => 0 }
    with hh0
  rw [bind_ok (h' := h0) (a := ()) rfl]
  have hz : (∃ raw, A.toZeroBased ijunk = .ok raw ∧ raw.psize = A.raw.psize) ∨ ∃ msg, A.toZeroBased ijunk = .error (.hif msg) := by
    unfold Input.toZeroBased
    split
    · have : A.raw.start.rd 0 = .ok (A.raw.start.get 0) := by unfold Buf.rd; rw [if_pos hb]; rfl
      rw [this]
      show (∃ raw, (if A.raw.start.get 0 = 0 then pure A.raw else _ : M RawCS) = _ ∧ _) ∨
        ∃ msg, (if A.raw.start.get 0 = 0 then pure A.raw else _ : M RawCS) = _
      split
      · exact Or.inl ⟨_, rfl, rfl⟩
      · split
        · exact Or.inl ⟨_, rfl, rfl⟩
        · exact Or.inr ⟨_, rfl⟩
    · exact Or.inl ⟨_, rfl, rfl⟩
  rcases hz with ⟨raw, e, ep⟩ | ⟨msg, e⟩
  · rw [bind_ok (h' := h0) (a := raw) (by show (h0, _) = _; rw [e])]
    have hc : (if opts.check = true then raw.checkValidity A.other else pure ()) = .ok () ∨
        ∃ msg, (if opts.check = true then raw.checkValidity A.other else pure ()) = .error (.hif msg) := by
      split
      · rename_i hc
        exact hv hc raw e
      · exact Or.inl rfl
    rcases hc with hc | ⟨msg, hc⟩
    swap
    · exact Or.inr ⟨h0, msg, bind_error (by show (h0, _) = _; rw [hc]), Or.inl ⟨n, rfl⟩⟩
    rw [bind_ok (h' := h0) (a := ()) (by show (h0, _) = _; rw [hc])]
    rcases factorizeKernel_spec ker hk opts n (2 * A.raw.psize + 2) (raw.toCS A.other A.vals) m0 false h0
        (by show raw.psize = A.other; omega) (by show raw.psize = n; omega)
        (by show 2 * raw.psize + 2 ≤ _; omega) with ⟨h', e', hf⟩ | ⟨h', msg, e', hf⟩
    · refine Or.inl ⟨h', e', hf, ?_⟩
      obtain ⟨ps, P, k, ee, hu, -, -, -⟩ := hf
      have := unfinished_le hu
      rw [ee, List.length_append]
      by_cases hps : ps = []
      · subst hps; simp
      · have := this.2 hps
        simp only [List.length_cons, List.length_nil]
        omega
    · exact Or.inr ⟨h', msg, e', hf⟩
  · right
    refine ⟨h0, msg, ?_, Or.inl ⟨n, rfl⟩⟩
    exact bind_error (by show (h0, _) = _; rw [e])


/-! ## C39 -/

/-- The matrix with all pointers and indices lowered by one. -/
def lowered (A : Input K) : Input K :=
  { A with raw := { A.raw with
      start := ⟨A.raw.start.size, fun i => A.raw.start.get i - 1⟩
      inds := ⟨A.raw.inds.size, fun i => A.raw.inds.get i - 1⟩ } }

/-- C39: handing over a matrix in one-based form has exactly the same effect on the object, and the same result, as handing over the
zero-based form — for all matrices, options, level kernels and previous states of the object. -/
theorem C39_one_based (junk : Nat → K) (ijunk : Nat → Int) (ker : Kernels K) (opts : FacOpts) (A : Input K) (m0 : Nat) (h : HIF K)
    (hn : A.nrows ≠ 0) (hb : 0 < A.raw.start.size) (h1 : A.raw.start.get 0 = 1) :
    factorize junk ijunk ker opts A m0 h = factorize junk ijunk ker opts (lowered A) m0 h := by
  have e1 : A.toZeroBased ijunk = .ok (lowered A).raw := by
    unfold Input.toZeroBased
    have : A.raw.start.rd 0 = .ok 1 := by unfold Buf.rd; rw [if_pos hb, h1]; rfl
    rw [if_pos hn, this]
    rfl
  have e2 : (lowered A).toZeroBased ijunk = .ok (lowered A).raw := by
    unfold Input.toZeroBased
    have : (lowered A).raw.start.rd 0 = .ok 0 := by
      unfold Buf.rd
      rw [if_pos (show 0 < (lowered A).raw.start.size from hb)]
      show (.ok (A.raw.start.get 0 - 1) : M Int) = _
      rw [h1]; rfl
    rw [if_pos (show (lowered A).nrows ≠ 0 from hn), this]
    rfl
  unfold factorize
  rw [e1, e2]
  rfl

/-- C39 (zero base): the zero-based form reaches the factorization unchanged. -/
theorem C39_zero_based (ijunk : Nat → Int) (A : Input K) (hn : A.nrows ≠ 0) (hb : 0 < A.raw.start.size) (h0 : A.raw.start.get 0 = 0) :
    A.toZeroBased ijunk = .ok A.raw := by
  unfold Input.toZeroBased
  have : A.raw.start.rd 0 = .ok 0 := by unfold Buf.rd; rw [if_pos hb, h0]; rfl
  rw [if_pos hn, this]
  rfl

/-- C39 (other bases): any other base is rejected with an error, and the object is left without levels. -/
theorem C39_other_base (junk : Nat → K) (ijunk : Nat → Int) (ker : Kernels K) (opts : FacOpts) (A : Input K) (m0 : Nat) (h : HIF K)
    (hn : A.nrows ≠ 0) (hb : 0 < A.raw.start.size) (h0 : A.raw.start.get 0 ≠ 0) (h1 : A.raw.start.get 0 ≠ 1) :
    ∃ h' msg, factorize junk ijunk ker opts A m0 h = (h', .error (.hif msg)) ∧ h'.precs = [] := by
  have e1 : A.toZeroBased ijunk = .error (.hif "only {0,1}-based compressed sparse matrices are supported!") := by
    unfold Input.toZeroBased
    have : A.raw.start.rd 0 = .ok (A.raw.start.get 0) := by unfold Buf.rd; rw [if_pos hb]; rfl
    rw [if_pos hn, this]
    show (if A.raw.start.get 0 = 0 then pure A.raw else _ : M RawCS) = _
    rw [if_neg h0, if_neg h1]
    rfl
  unfold factorize
  rw [e1]
  exact ⟨_, _, rfl, rfl⟩

/-! ## C40 -/

/-- `h` with the parts of `g` that the factorization does not look at. -/
def frame (g h : HIF K) : HIF K := { h with work := g.work, nsp := g.nsp, nspTran := g.nspTran, nrows := g.nrows, ncols := g.ncols }

/-- The operation looks at and changes the levels and statistics only. -/
def LocalOp {α : Type _} (m : HM K α) : Prop := ∀ g h, m (frame g h) = (frame g (m h).1, (m h).2)

theorem local_pure {α : Type _} (a : α) : LocalOp (pure a : HM K α) := fun _ _ => rfl
theorem local_lift {α : Type _} (m : M α) : LocalOp (lift m : HM K α) := fun _ _ => rfl
theorem local_bind {α β : Type _} {m : HM K α} {f : α → HM K β} (hm : LocalOp m) (hf : ∀ a, LocalOp (f a)) : LocalOp (m >>= f) := by
  intro g h
  have e := hm g h
  rcases e1 : m h with ⟨h', e' | a⟩
  · rw [e1] at e
    rw [bind_error e, bind_error e1]
  · rw [e1] at e
    rw [bind_ok e, bind_ok e1]
    exact hf a g h'

theorem local_levelFactorize (ker : Kernels K) (opts : FacOpts) (kind : LevelKind) (lvl N m0 : Nat) (A : CS K) :
    LocalOp (levelFactorize ker opts kind lvl N m0 A) := by
  unfold levelFactorize
  refine local_bind (local_lift _) fun o => ?_
  dsimp only
  split
  · exact local_pure _
  refine local_bind (fun _ _ => rfl) fun _ => ?_
  split
  · refine local_bind ?_ fun _ => local_pure _
    intro g h
    unfold setDense
    dsimp only
    split <;> rfl
  · exact local_pure _

theorem local_factorizeKernel (ker : Kernels K) (opts : FacOpts) : ∀ fuel A m0 mp, LocalOp (factorizeKernel ker opts fuel A m0 mp)
  | 0, A, m0, mp => local_lift _
  | fuel + 1, A, m0, mp => by
    intro g h
    rw [factorizeKernel]
    by_cases hsq : A.psize ≠ A.ssize
    · rw [if_pos hsq]; rfl
    rw [if_neg hsq, bind_ok (h' := frame g h) (a := frame g h) rfl, bind_ok (h' := h) (a := h) rfl]
    have hl : (frame g h).levels = h.levels := rfl
    have hr : refSize opts (frame g h) A = refSize opts h A := rfl
    rw [hl, hr]
    have e := local_levelFactorize ker opts (levelKind opts (h.levels + 1 == 1 && decide (0 < m0)) mp) (h.levels + 1) (refSize opts h A)
        (if (h.levels + 1 == 1 && decide (0 < m0)) = true then m0 else A.psize) A g h
    rcases e1 : levelFactorize ker opts (levelKind opts (h.levels + 1 == 1 && decide (0 < m0)) mp) (h.levels + 1) (refSize opts h A)
        (if (h.levels + 1 == 1 && decide (0 < m0)) = true then m0 else A.psize) A h with ⟨h', e' | res⟩
    · rw [e1] at e
      rw [bind_error e, bind_error e1]
    · rw [e1] at e
      rw [bind_ok e, bind_ok e1, bind_ok (h' := frame g h') (a := frame g h') rfl, bind_ok (h' := h') (a := h') rfl]
      have hu : (frame g h').unfinished = h'.unfinished := rfl
      rw [hu]
      split
      · exact local_factorizeKernel ker opts fuel _ _ _ g h'
      · rfl

/-- C40 (nothing old survives): what `factorize` leaves behind — levels, sizes, statistics — and whether and how it fails does not
depend on what the object held before, for all inputs, kernels and failure points. -/
theorem C40_no_stale_levels (junk : Nat → K) (ijunk : Nat → Int) (ker : Kernels K) (opts : FacOpts) (A : Input K) (m0 : Nat) (h g : HIF K) :
    let r := factorize junk ijunk ker opts A m0 h
    let r' := factorize junk ijunk ker opts A m0 g
    r.2 = r'.2 ∧ r.1.precs = r'.1.precs ∧ r.1.stats = r'.1.stats ∧ r.1.nrows = r'.1.nrows ∧ r.1.ncols = r'.1.ncols := by
  intro r r'
  have key : ∀ h : HIF K, ∃ w, factorize junk ijunk ker opts A m0 h =
      ((frame ⟨[], w, h.nsp, h.nspTran, fun _ => 0, A.nrows, A.ncols⟩
        ((HM.lift (A.toZeroBased ijunk) >>= fun raw => HM.lift (if opts.check = true then raw.checkValidity A.other else pure ()) >>= fun _ =>
          factorizeKernel ker opts (2 * A.raw.psize + 2) (raw.toCS A.other A.vals) m0 false)
          (⟨[], ⟨0, junk⟩, none, none, fun _ => 0, A.nrows, A.ncols⟩ : HIF K)).1),
        ((HM.lift (A.toZeroBased ijunk) >>= fun raw => HM.lift (if opts.check = true then raw.checkValidity A.other else pure ()) >>= fun _ =>
          factorizeKernel ker opts (2 * A.raw.psize + 2) (raw.toCS A.other A.vals) m0 false)
          (⟨[], ⟨0, junk⟩, none, none, fun _ => 0, A.nrows, A.ncols⟩ : HIF K)).2) := by
    intro h
    refine ⟨if h.empty = true then h.work else ⟨0, junk⟩, ?_⟩
    unfold factorize
    rw [bind_ok (h' := frame ⟨[], if h.empty = true then h.work else ⟨0, junk⟩, h.nsp, h.nspTran, fun _ => 0, A.nrows, A.ncols⟩
      ⟨[], ⟨0, junk⟩, none, none, fun _ => 0, A.nrows, A.ncols⟩) (a := ()) rfl]
    exact local_bind (local_lift _) (fun raw => local_bind (local_lift _) fun _ => local_factorizeKernel _ _ _ _ _ _) _ _
  obtain ⟨w, e⟩ := key h
  obtain ⟨w', e'⟩ := key g
  have er : r = _ := e
  have er' : r' = _ := e'
  rw [er, er']
  exact ⟨rfl, rfl, rfl, rfl, rfl⟩

end

section
variable [Field K] [StarRing K]

/-- C40 (partial: failures before the first level is finished): if `factorize` throws and leaves no level — which is what happens
when the index base, the validity check, the shape check or the first level fails, see `C40_early_failures` — every later solve or
product raises an error, for all arguments.  Missing: failures after the first level, for which the claim is false
(`C40_witness_level2`, `C40_witness_dense`). -/
theorem C40_empty_safe_partial (junk : Nat → K) (h : HIF K) (he : h.precs = []) (b x : Buf K) (trans : Bool) (r N : Nat) :
    solve junk b x trans r h = (h, .error (.hif "MILU-Prec is empty!")) ∧
    mmultiply junk b x trans r h = (h, .error (.hif "MILU-Prec is empty!")) ∧
    solveMrhs junk N b x r h = (h, .error (.hif "MILU-Prec is empty!")) := by
  have : h.empty = true := by unfold HIF.empty; rw [he]; rfl
  refine ⟨?_, ?_, ?_⟩
  · unfold solve
    rw [bind_ok (h' := h) (a := h) rfl, if_pos this]; rfl
  · unfold mmultiply
    rw [bind_ok (h' := h) (a := h) rfl, if_pos this]; rfl
  · unfold solveMrhs
    rw [bind_ok (h' := h) (a := h) rfl, if_pos this]; rfl

/-- C40: which failures leave no level: a bad index base, a failed validity check, a non-square matrix, a failure of the first
level. -/
theorem C40_early_failures (junk : Nat → K) (ijunk : Nat → Int) (ker : Kernels K) (opts : FacOpts) (A : Input K) (m0 : Nat) (h : HIF K) (e : Err)
    (hfail : A.toZeroBased ijunk = .error e ∨ ∃ raw, A.toZeroBased ijunk = .ok raw ∧
      ((opts.check = true ∧ raw.checkValidity A.other = .error e) ∨
       ((opts.check = true → raw.checkValidity A.other = .ok ()) ∧
        ((raw.psize ≠ A.other ∧ e = .hif "Currently only squared systems are supported") ∨
         (raw.psize = A.other ∧ ∀ kind N m, ker.level kind 1 N m (raw.toCS A.other A.vals) = .error e))))) :
    ∃ h', factorize junk ijunk ker opts A m0 h = (h', .error e) ∧ h'.precs = [] := by
  unfold factorize
  set h0 : HIF K := { h with nrows := A.nrows, ncols := A.ncols, precs := [], work := if h.empty = true then h.work else ⟨0, junk⟩, stats := fun _ => 0 }
    with hh0
  rw [bind_ok (h' := h0) (a := ()) rfl]
  refine ⟨h0, ?_, rfl⟩
  rcases hfail with hz | ⟨raw, hz, hc⟩
  · exact bind_error (by show (h0, _) = _; rw [hz])
  rw [bind_ok (h' := h0) (a := raw) (by show (h0, _) = _; rw [hz])]
  rcases hc with ⟨hc, hcc⟩ | ⟨hc, hcc⟩
  · exact bind_error (by show (h0, _) = _; rw [if_pos hc, hcc])
  rw [bind_ok (h' := h0) (a := ()) (by
    show (h0, _) = _
    split
    · rename_i h1; rw [hc h1]
    · rfl), factorizeKernel]
  rcases hcc with ⟨hsq, rfl⟩ | ⟨hsq, hk⟩
  · rw [if_pos (show (raw.toCS A.other A.vals).psize ≠ (raw.toCS A.other A.vals).ssize from hsq)]; rfl
  · rw [if_neg (show ¬ (raw.toCS A.other A.vals).psize ≠ (raw.toCS A.other A.vals).ssize by show ¬ raw.psize ≠ A.other; simpa using hsq), bind_ok (h' := h0) (a := h0) rfl]
    refine bind_error ?_
    unfold levelFactorize
    exact bind_error (by show (h0, _) = _; rw [show h0.levels = 0 from rfl, hk])

/-- On a chain of levels that was not finished the recursion never completes (it runs past the end of the list of levels, unless an
out-of-bounds access or an error comes first). -/
theorem solve_unfinished (r : Nat) : ∀ (precs : List (Prec K)) (n k : Nat) (b y w : Buf K), Unfinished n precs k →
    ¬ ∃ a, Prec.solve r precs b y w = .ok a
  | [], n, k, b, y, w, hu => by rintro ⟨a, e⟩; cases e
  | P :: ps, n, k, b, y, w, hu => by
    rintro ⟨a, e⟩
    have hr : Runs (Prec.solve r (P :: ps) b y w) fun _ => True := ⟨a, e, trivial⟩
    rw [Prec.solve] at hr
    simp only [runs_bind] at hr
    obtain ⟨w1, -, v1, -, v2, e2, -⟩ := hr
    unfold Prec.schurStage at e2
    rw [if_neg (by rw [hu.2.2.2.1]; simp)] at e2
    have hr : Runs _ fun _ => True := ⟨v2, e2, trivial⟩
    simp only [runs_bind] at hr
    obtain ⟨ymn, -, w2, -, wb, -, wn, -, c, e3, -⟩ := hr
    exact solve_unfinished r ps _ k _ _ _ hu.2.2.2.2 ⟨c, e3⟩

/-- C40 (what happens after a late failure): if `factorize` threw after at least one level and before the last one, a plain solve
never completes normally, whatever the arguments. -/
theorem C40_unfinished_never_completes (junk : Nat → K) (h : HIF K) (n k : Nat) (hu : Unfinished n h.precs k) (b x : Buf K) (r : Nat) :
    ¬ ∃ h' y, solve junk b x false r h = (h', .ok y) := by
  rintro ⟨h', y, e⟩
  have hd : Does (solve junk b x false r) h fun _ _ => True := ⟨h', y, e, trivial⟩
  unfold solve at hd
  rw [does_bind, does_read] at hd
  by_cases h1 : h.empty = true
  · rw [if_pos h1] at hd
    obtain ⟨_, _, e, _⟩ := hd; cases e
  rw [if_neg h1] at hd
  by_cases h2 : b.size ≠ x.size
  · rw [if_pos h2] at hd
    obtain ⟨_, _, e, _⟩ := hd; cases e
  rw [if_neg h2, does_bind] at hd
  obtain ⟨h1, w, e1, hd⟩ := hd
  rw [does_bind] at hd
  obtain ⟨h2, y2, e2, hd⟩ := hd
  unfold withWork at e2
  rcases e3 : Prec.solve r h.precs b x w with er | a
  · simp only [Bool.false_eq_true, if_false, e3] at e2
    cases e2
  · exact solve_unfinished r h.precs n k b x w hu ⟨a, e3⟩

end

/-! ## C41 -/

/-- C41 (partial): `prec(level)` returns the level numbered `level` exactly when there is one, and raises the documented error when
`level ≥ levels()`.  Missing: `level` equal to the number of sparse levels while a dense block is present, which passes the check and
dereferences the end of the list (`C41_witness`); `C41_no_dense` is the full claim for objects without a dense block. -/
theorem C41_prec_partial (h : HIF K) (level : Nat) :
    (∀ P, h.precAt level = .ok P ↔ h.precs[level]? = some P) ∧
    (h.levels ≤ level → ∃ msg, h.precAt level = .error (.hif msg)) := by
  have hle : h.precs.length ≤ h.levels := by
    unfold HIF.levels
    rcases hl : h.precs.getLast? with _ | P
    · rw [List.getLast?_eq_none_iff] at hl; rw [hl]; simp
    · simp
  constructor
  · intro P
    unfold HIF.precAt
    by_cases hlt : h.levels ≤ level
    · rw [if_pos hlt, List.getElem?_eq_none (by omega)]
      constructor <;> intro e <;> cases e
    · rw [if_neg hlt]
      rcases h.precs[level]? with _ | Q
      · constructor <;> intro e <;> cases e
      · constructor <;> intro e <;> cases e <;> rfl
  · intro hl
    unfold HIF.precAt
    rw [if_pos hl]
    exact ⟨_, rfl⟩

/-- C41 without dense block: an error or an existing level, for every level number. -/
theorem C41_no_dense (h : HIF K) (level : Nat) (hnd : ∀ P ∈ h.precs, P.last = .none) :
    (∃ P, h.precAt level = .ok P ∧ h.precs[level]? = some P) ∨ (h.precs.length ≤ level ∧ ∃ msg, h.precAt level = .error (.hif msg)) := by
  have hle : h.levels = h.precs.length := by
    unfold HIF.levels
    rcases hl : h.precs.getLast? with _ | P
    · rw [List.getLast?_eq_none_iff] at hl; rw [hl]; rfl
    · simp [hnd P (List.mem_of_getLast? hl), Last.isNone]
  by_cases hlt : level < h.precs.length
  · left
    exact ⟨h.precs[level], ((C41_prec_partial h level).1 _).2 (by simp [hlt]), by simp [hlt]⟩
  · exact Or.inr ⟨by omega, (C41_prec_partial h level).2 (by omega)⟩

/-! ## C42 -/

theorem foldl_add (f : Prec K → Nat) (ps : List (Prec K)) (a : Nat) : ps.foldl (fun a P => a + f P) a = a + (ps.map f).sum := by
  induction ps generalizing a with
  | nil => simp
  | cons P ps ih => simp [ih]; omega

/-- C42 (nonzero counts): for every object, `nnz = nnz_ldu + nnz_ef`; the subtraction in `nnz_ldu` never wraps around, and it is
the number of entries of the triangular factors, the diagonals and the dense blocks. -/
theorem C42_nnz (h : HIF K) :
    ∃ v, h.nnzLdu = some v ∧ h.nnz = v + h.nnzEf ∧
      v = (h.precs.map fun P => (if P.m = 0 then 0 else P.L.nnz + P.U.nnz + P.m) +
        (if P.last.isNone then 0 else (P.n - P.m) * (P.n - P.m))).sum := by
  have hs : h.nnz = (h.precs.map fun P => (if P.m = 0 then 0 else P.L.nnz + P.U.nnz + P.m) +
        (if P.last.isNone then 0 else (P.n - P.m) * (P.n - P.m))).sum + h.nnzEf := by
    unfold HIF.nnz HIF.nnzEf
    rw [foldl_add, foldl_add]
    induction h.precs with
    | nil => rfl
    | cons P ps ih =>
      simp only [List.map_cons, List.sum_cons] at ih ⊢
      have : P.nnz = (if P.m = 0 then 0 else P.L.nnz + P.U.nnz + P.m) +
        (if P.last.isNone then 0 else (P.n - P.m) * (P.n - P.m)) + P.nnzEf := by
        unfold Prec.nnz Prec.nnzEf
        by_cases h1 : P.m = 0 <;> by_cases h2 : P.n - P.m = 0 <;> cases P.last.isNone <;> simp [h1, h2] <;> omega
      omega
  refine ⟨_, ?_, hs, rfl⟩
  unfold HIF.nnzLdu
  rw [if_pos (by omega)]
  congr 1
  omega

/-- C42 (empty object): zero everywhere. -/
theorem C42_empty (h : HIF K) (he : h.precs = []) :
    h.nnz = 0 ∧ h.nnzEf = 0 ∧ h.nnzLdu = some 0 ∧ h.rank = some 0 ∧ h.schurRank = 0 ∧ h.schurSize = 0 ∧ h.levels = 0 := by
  simp [HIF.nnz, HIF.nnzEf, HIF.nnzLdu, HIF.rank, HIF.schurRank, HIF.schurSize, HIF.levels, he]

/-- Every dense block's rank is at most its size. -/
def RanksOK (h : HIF K) : Prop := ∀ P ∈ h.precs, P.last.rank ≤ P.n - P.m

section
variable [Zero K] [One K]

theorem ranks_level (ker : Kernels K) (hk : KernelsOK ker) (hrk : ∀ s S, (ker.dense s S).1.rank ≤ S.psize) (opts : FacOpts)
    (kind : LevelKind) (lvl N m0 : Nat) (A : CS K) (hsq : A.psize = A.ssize) (h : HIF K) (hi : RanksOK h) :
    RanksOK (levelFactorize ker opts kind lvl N m0 A h).1 := by
  unfold levelFactorize
  rcases hl : ker.level kind lvl N m0 A with e | o
  · exact hi
  obtain ⟨hm, hm2, hS⟩ := hk.size _ _ _ _ _ _ hsq hl
  rw [bind_ok (h' := h) (a := o) rfl]
  dsimp only
  split
  · exact hi
  rw [bind_ok (h' := { h with precs := h.precs ++ [o.toPrec A.psize (postFlag o.m2 o.m).2], stats := fun i => h.stats i + o.stats i }) (a := ()) rfl]
  obtain ⟨pm, pn, pl⟩ := toPrec_m o A.psize (postFlag o.m2 o.m).2
  set m := (postFlag o.m2 o.m).2 with hmdef
  set P := o.toPrec A.psize m with hP
  have hpf2 : m ≤ A.psize ∧ (m ≠ 0 → m = o.m) := by
    rcases postFlag_cases o.m2 o.m with ⟨e, _⟩ | ⟨e, _⟩ | ⟨e, _⟩ <;> rw [hmdef, e] <;> constructor <;> simp <;> omega
  split
  · have hset : ∀ (D : DenseOps K) (sy : Bool), D.rank ≤ A.psize - m →
        RanksOK ({ h with precs := mapLast (h.precs ++ [P]) fun P => { P with last := mkLast sy D }, stats := fun i => h.stats i + o.stats i } : HIF K) := by
      intro D sy hD Q hQ
      have hQ : Q ∈ mapLast (h.precs ++ [P]) fun P => { P with last := mkLast sy D } := hQ
      rw [mapLast_append, List.mem_append, List.mem_singleton] at hQ
      rcases hQ with hQ | rfl
      · exact hi Q hQ
      · show (mkLast sy D).rank ≤ P.n - P.m
        rw [pm, pn]
        unfold mkLast
        split <;> exact hD
    have hSz : (o.rest A m).psize = A.psize - m := by
      unfold CroutOut.rest
      split
      · rename_i h0
        have e := hpf2.2 h0
        rw [e] at h0 ⊢
        exact (hS h0).1
      · omega
    have := hset (ker.dense (kind == .symm) (o.rest A m)).1 (kind == .symm) (by rw [← hSz]; exact hrk _ _)
    · rcases he : (ker.dense (kind == .symm) (o.rest A m)).2 with _ | e
      · rw [bind_ok (h' := { h with precs := mapLast (h.precs ++ [P]) fun P => { P with last := mkLast (kind == .symm) (ker.dense (kind == .symm) (o.rest A m)).1 }, stats := fun i => h.stats i + o.stats i }) (a := ()) rfl]
        exact this
      · rw [bind_error (h' := { h with precs := mapLast (h.precs ++ [P]) fun P => { P with last := mkLast (kind == .symm) (ker.dense (kind == .symm) (o.rest A m)).1 }, stats := fun i => h.stats i + o.stats i }) rfl]
        exact this
  · intro Q hQ
    have hQ : Q ∈ h.precs ++ [P] := hQ
    rw [List.mem_append, List.mem_singleton] at hQ
    rcases hQ with hQ | rfl
    · exact hi Q hQ
    · rw [pl]; exact Nat.zero_le _


theorem ranks_kernel (ker : Kernels K) (hk : KernelsOK ker) (hrk : ∀ s S, (ker.dense s S).1.rank ≤ S.psize) (opts : FacOpts) :
    ∀ fuel A m0 mp (h : HIF K), RanksOK h → RanksOK (factorizeKernel ker opts fuel A m0 mp h).1
  | 0, A, m0, mp, h, hi => hi
  | fuel + 1, A, m0, mp, h, hi => by
    rw [factorizeKernel]
    by_cases hsq : A.psize ≠ A.ssize
    · rw [if_pos hsq]; exact hi
    rw [if_neg hsq, bind_ok (h' := h) (a := h) rfl]
    have := ranks_level ker hk hrk opts (levelKind opts (h.levels + 1 == 1 && decide (0 < m0)) mp) (h.levels + 1) (refSize opts h A)
        (if (h.levels + 1 == 1 && decide (0 < m0)) = true then m0 else A.psize) A (by simpa using hsq) h hi
    rcases e1 : levelFactorize ker opts (levelKind opts (h.levels + 1 == 1 && decide (0 < m0)) mp) (h.levels + 1) (refSize opts h A)
        (if (h.levels + 1 == 1 && decide (0 < m0)) = true then m0 else A.psize) A h with ⟨h', e' | res⟩
    · rw [e1] at this
      rw [bind_error e1]
      exact this
    · rw [e1] at this
      rw [bind_ok e1, bind_ok (h' := h') (a := h') rfl]
      split
      · exact ranks_kernel ker hk hrk opts fuel _ _ _ h' this
      · exact this

/-- The state `factorize` leaves differs from the old one only in levels, sizes, statistics and work space (which is emptied if there
were levels): every real `factorize` is one of the calls `Call.factorize` of the histories in C29 and C30. -/
theorem factorize_frame (junk : Nat → K) (ijunk : Nat → Int) (ker : Kernels K) (opts : FacOpts) (A : Input K) (m0 : Nat) (h : HIF K) :
    ∃ ps st, (factorize junk ijunk ker opts A m0 h).1 =
      { h with precs := ps, nrows := A.nrows, ncols := A.ncols, stats := st, work := if h.empty then h.work else ⟨0, junk⟩ } := by
  unfold factorize
  set h0 : HIF K := { h with nrows := A.nrows, ncols := A.ncols, precs := [], work := if h.empty = true then h.work else ⟨0, junk⟩, stats := fun _ => 0 }
    with hh0
  rw [bind_ok (h' := h0) (a := ()) rfl]
  have : h0 = frame h0 ⟨[], ⟨0, junk⟩, none, none, fun _ => 0, A.nrows, A.ncols⟩ := rfl
  rw [this, local_bind (local_lift _) (fun raw => local_bind (local_lift _) fun _ => local_factorizeKernel _ _ _ _ _ _)]
  exact ⟨_, _, rfl⟩

/-- C42 (ranks): after every completed `factorize` of an `n × n` matrix (the dense solvers reporting ranks no larger than their
blocks), `schur_rank ≤ schur_size ≤ n`, `rank = n - (schur_size - schur_rank)` (no wrap-around), and `levels` counts the sparse
levels plus one if the last one has a dense block. -/
theorem C42_ranks (junk : Nat → K) (ijunk : Nat → Int) (ker : Kernels K) (hk : KernelsOK ker)
    (hrk : ∀ s S, (ker.dense s S).1.rank ≤ S.psize) (opts : FacOpts)
    (A : Input K) (hsq : A.other = A.raw.psize) (m0 : Nat) (h h' : HIF K) (hb : 0 < A.raw.start.size)
    (hv : opts.check = true → ∀ raw, A.toZeroBased ijunk = .ok raw → raw.checkValidity A.other = .ok () ∨
      ∃ msg, raw.checkValidity A.other = .error (.hif msg))
    (hf : factorize junk ijunk ker opts A m0 h = (h', .ok ())) :
    let n := A.raw.psize
    h'.schurRank ≤ h'.schurSize ∧ h'.schurSize ≤ n ∧ h'.rank = some (n - (h'.schurSize - h'.schurRank)) ∧
    ∃ P, h'.precs.getLast? = some P ∧ h'.levels = h'.precs.length + (if P.last.isNone then 0 else 1) := by
  intro n
  have hfin : Finished n h'.precs := by
    rcases C26_factorize_terminates junk ijunk ker hk opts A hsq m0 h hv hb with ⟨h2, e, hfin, -⟩ | ⟨h2, msg, e, -⟩
    · rw [hf] at e; cases e; exact hfin
    · rw [hf] at e; cases e
  have hr : RanksOK h' := by
    unfold factorize at hf
    set h0 : HIF K := { h with nrows := A.nrows, ncols := A.ncols, precs := [], work := if h.empty = true then h.work else ⟨0, junk⟩, stats := fun _ => 0 }
      with hh0
    rw [bind_ok (h' := h0) (a := ()) rfl] at hf
    rcases hz : A.toZeroBased ijunk with e | raw
    · rw [hz, bind_error (h' := h0) (e := e) rfl] at hf; exact absurd (congrArg Prod.snd hf) (by simp)
    rw [hz, bind_ok (h' := h0) (a := raw) rfl] at hf
    rcases hc : (if opts.check = true then raw.checkValidity A.other else pure ()) with e | u
    · rw [hc, bind_error (h' := h0) (e := e) rfl] at hf; exact absurd (congrArg Prod.snd hf) (by simp)
    rw [hc, bind_ok (h' := h0) (a := u) rfl] at hf
    have := ranks_kernel ker hk hrk opts (2 * A.raw.psize + 2) (raw.toCS A.other A.vals) m0 false h0 (fun P hP => by cases hP)
    rw [hf] at this
    exact this
  obtain ⟨ps, st, efr⟩ := factorize_frame junk ijunk ker opts A m0 h
  rw [hf] at efr
  have hnr : h'.nrows = n ∧ h'.ncols = n := by
    have e : h' = _ := efr
    rw [e]
    show A.nrows = _ ∧ A.ncols = _
    unfold Input.nrows Input.ncols
    cases A.rowMajor <;> exact ⟨by simp <;> omega, by simp <;> omega⟩
  obtain ⟨qs, P, k, eq, hu, hPn, hPm, hl⟩ := hfin
  have hk' := (unfinished_le hu).1
  have hlast : h'.precs.getLast? = some P := by rw [eq]; simp
  have hPr : P.lastRank ≤ P.n - P.m := by
    unfold Prec.lastRank
    split
    · omega
    · exact hr P (by rw [eq]; simp)
  have e1 : h'.schurRank = P.lastRank := by unfold HIF.schurRank; rw [hlast]
  have e2 : h'.schurSize = P.n - P.m := by unfold HIF.schurSize; rw [hlast]
  refine ⟨by omega, by omega, ?_, P, hlast, ?_⟩
  · unfold HIF.rank
    rw [hlast, e1, e2]
    dsimp only
    rw [hnr.1, hnr.2, Nat.min_self, if_pos ⟨hPr, by omega⟩]
  · unfold HIF.levels
    rw [hlast]

end

/-! ## Concrete cases -/

namespace Ex
open Hif.Ex

/-- Level kernels for a 3×3 system: the first level produces the factors `P1` and the Schur complement `[7]`; the second one eliminates
nothing (or raises an exception, if `fail2`); the dense solver is `D7` (its factorization raises an exception if `failD`). -/
def ker (fail2 failD : Bool) : Kernels ℚ :=
  { level := fun _ lvl _ _ A =>
      if lvl = 1 ∧ A.psize = 3 then
        .ok { m2 := 3, m := 2, L := P1.L, U := P1.U, E := P1.E, F := P1.F, d := P1.d, s := P1.s, t := P1.t, p := P1.p, pinv := P1.pinv,
              q := P1.q, qinv := P1.qinv, schur := mk 1 1 [0, 1] [0] [7], few := false, fewAll := false, dt2 := 0,
              stats := fun _ => 1 }
      else if fail2 then .error (.hif "bad pivot")
      else .ok { m2 := 0, m := 0, L := CS.zero 0 0, U := CS.zero 0 0, E := CS.zero 0 0, F := CS.zero 0 0, d := Buf.ofList [], s := Buf.ofList [],
                 t := Buf.ofList [], p := Buf.ofList [], pinv := Buf.ofList [], q := Buf.ofList [], qinv := Buf.ofList [],
                 schur := CS.zero 0 0, few := false, fewAll := false, dt2 := 0, stats := fun _ => 1 }
    dense := fun _ S => ({ D7 with rank := min 1 S.psize }, if failD then some (.hif "QRCP failed") else none) }

theorem ker_ok (a b : Bool) : KernelsOK (ker a b) := by
  constructor
  · intro kind lvl N m0 A o hsq h
    simp only [ker] at h
    split at h
    · rename_i hc
      cases h
      exact ⟨by decide, by show 3 ≤ A.psize; omega, fun _ => ⟨by show 1 = A.psize - 2; omega, by show 1 = A.psize - 2; omega⟩⟩
    · split at h
      · cases h
      · cases h
        exact ⟨by decide, by simp, fun h => absurd rfl h⟩
  · intro kind lvl N m0 A e h
    simp only [ker] at h
    split at h
    · cases h
    · split at h
      · cases h; exact ⟨_, rfl⟩
      · cases h
  · intro s A e h
    simp only [ker] at h
    split at h
    · cases h; exact ⟨_, rfl⟩
    · cases h

/-- A 3×3 identity matrix, one-based. -/
def inp : Input ℚ :=
  { raw := { undef := false, psize := 3, start := Buf.ofList [1, 2, 3, 4], inds := Buf.ofList [1, 2, 3], vsize := 3 }, other := 3,
    vals := Buf.ofList [1, 1, 1], rowMajor := true }

/-- Default-like options. -/
def opts : FacOpts := { pivot := .auto, isSymm := false, N := -1, check := true }

/-- A new object. -/
def obj : HIF ℚ := HIF.new (fun _ => 0) 0 0 (fun _ => 0)

/-- The state after `factorize` with these kernels. -/
def after (a b : Bool) : HIF ℚ × M Unit := factorize (fun _ => 0) (fun _ => 0) (ker a b) opts inp 0 obj

/-- With both kernels succeeding, two levels of sizes 3 (two unknowns eliminated) and 1 (dense) are built: the hypotheses of C26, C39
and C42 are met and the conclusions have content. -/
example : (after false false).2 = .ok () ∧ (after false false).1.precs.map (fun P => (P.n, P.m)) = [(3, 2), (1, 0)] ∧
    (after false false).1.levels = 3 ∧ (after false false).1.rank = some 3 ∧ (after false false).1.schurSize = 1 ∧
    (after false false).1.nnzLdu = some 5 := by decide +kernel

example : ∀ s S, ((ker false false).dense s S).1.rank ≤ S.psize := fun s S => Nat.min_le_right _ _

example : (inp.toZeroBased fun _ => 0).map (fun raw => (raw.start.get 0, raw.start.get 3)) = .ok (0, 3) := by decide

/-- The hypotheses about the validity check in C26 and C42 hold for this input. -/
example : ∀ raw, inp.toZeroBased (fun _ => 0) = .ok raw → raw.checkValidity inp.other = .ok () ∨
    ∃ msg, raw.checkValidity inp.other = .error (.hif msg) := by
  intro raw h
  left
  rw [show inp.toZeroBased (fun _ => 0) = .ok (lowered inp).raw from rfl] at h
  cases h
  decide

end Ex

/-- C40 fails if the second level raises an exception: `factorize` throws, the object keeps its first level, and `solve` runs past the
end of the list of levels. -/
theorem C40_witness_level2 : (Ex.after true false).2 = .error (.hif "bad pivot") ∧ (Ex.after true false).1.precs.length = 1 ∧
    (solve (fun _ => 0) ⟨3, fun _ => 1⟩ ⟨3, fun _ => 0⟩ false 0 (Ex.after true false).1).2.map (·.get 0) =
      .error (.ub "dereferencing the end of the level list") := by decide +kernel

/-- C40 fails if the dense factorization raises an exception: `factorize` throws, yet `solve` uses the dense solver as if it were
ready. -/
theorem C40_witness_dense : (Ex.after false true).2 = .error (.hif "QRCP failed") ∧
    ((solve (fun _ => 0) ⟨3, fun _ => 1⟩ ⟨3, fun _ => 0⟩ false 0 (Ex.after false true).1).2.map fun x => x.size) = .ok 3 := by decide +kernel

/-- C41 fails on every object with a dense block: the level number `precs().size()` passes the check. -/
theorem C41_witness {K : Type _} (h : HIF K) (P : Prec K) (hl : h.precs.getLast? = some P) (hd : P.last.isNone = false) :
    h.precAt h.precs.length = .error (.ub "dereferencing the end of the level list") := by
  have : h.levels = h.precs.length + 1 := by unfold HIF.levels; rw [hl]; simp [hd]
  unfold HIF.precAt
  rw [this, if_neg (by omega), List.getElem?_eq_none (Nat.le_refl _)]
  rfl

example : ∃ P, (Ex.after false false).1.precs.getLast? = some P ∧ P.last.isNone = false :=
  ⟨((Ex.after false false).1.precs.getLast?).get (by decide +kernel), (Option.some_get _).symm, by decide +kernel⟩

end Hif.Props
