import Verif.LevelRun
import Verif.Props.Factor
import Verif.Props.Prec

set_option linter.unusedSectionVars false
set_option linter.unusedVariables false

/-!
# The factorization with its own levels

The driver of `Factor.lean` run with the level kernel of `Level.lean`.
-/

namespace Hif
namespace Level
open Finset Spec HIF HM
variable {K R : Type} [Field K] [StarRing K] [DecidableEq K] [Inhabited K] [Field R] [LinearOrder R] [IsStrictOrderedRing R] [FloorSemiring R]

/-- A level that eliminates nothing is a valid level. -/
theorem zero_ok (o : CroutOut K) (n : Nat) : (o.toPrec n 0).OK := by
  unfold CroutOut.toPrec
  rw [if_neg (not_not.mpr rfl)]
  have zw : ∀ a b, (CS.zero a b : CS K).WF := fun a b =>
    ⟨le_refl _, rfl, fun i _ => le_refl _, Nat.zero_le _, Nat.zero_le _, fun k hk => absurd hk (Nat.not_lt_zero _)⟩
  have hinv : Inverse n (eyeBuf n).get (eyeBuf n).get := ⟨fun i hi => ⟨hi, rfl⟩, fun i hi => ⟨hi, rfl⟩⟩
  exact ⟨Nat.zero_le _, zw _ _, rfl, rfl, zw _ _, rfl, rfl, fun _ => ⟨zw _ _, rfl, rfl⟩, fun _ => ⟨zw _ _, rfl⟩, rfl, Nat.zero_le _, le_refl _, le_refl _,
    le_refl _, le_refl _, le_refl _, le_refl _, hinv, hinv, fun i hi => absurd hi (Nat.not_lt_zero _), fun i hi => absurd hi (Nat.not_lt_zero _),
    fun i hi => absurd hi (Nat.not_lt_zero _), fun i _ => one_ne_zero, fun i _ => one_ne_zero⟩

/-- The equations of a level that eliminates nothing. -/
theorem zero_applies (o : CroutOut K) (n : Nat) {S : Nat → Nat → K} {rest : List (Spec.Level K)} {k : Nat} {x b : Nat → K}
    (h : Applies S ((o.toPrec n 0).toLevel :: rest) k x b) : ∃ x' g, Applies S rest n x' g ∧ (∀ i, i < n → x' i = x i) ∧ ∀ i, i < n → g i = b i := by
  obtain ⟨h1, z, g, h2, h3, h4⟩ := h
  have hP : o.toPrec n 0 = Prec.mk 0 n (CS.zero 0 0) o.d (CS.zero 0 0) (CS.zero 0 n) (CS.zero n 0) (onesBuf n) (onesBuf n) (eyeBuf n) (eyeBuf n)
      (eyeBuf n) (eyeBuf n) .none := by
    unfold CroutOut.toPrec
    rw [if_neg (not_not.mpr rfl)]
  rw [hP] at h3 h4
  refine ⟨_, g, h3, fun i hi => ?_, fun i hi => ?_⟩
  · show x (0 + i) / 1 = x i
    rw [Nat.zero_add, div_one]
  · have := h4 i hi
    have h5 : mulVec 0 (CS.zero 0 n : CS K).ccs z i + g i = 1 * b (0 + i) := this
    unfold mulVec at h5
    simpa using h5

/-- The dense factorization either succeeds or raises an exception; `sy`: the symmetric one. -/
def DenseOK (sy : Bool) (dense : Bool → CS K → DenseOps K × Option Err) (G : CS K → Prop) : Prop :=
  ∀ S : CS K, S.WF → S.Sorted → S.ssize = S.psize → 0 < S.psize → G S →
    (∃ msg, (dense sy S).2 = some (.hif msg)) ∨ (dense sy S).2 = none

/-- A block handed to the dense factorization. -/
structure IsBlock (G : CS K → Prop) (S : CS K) : Prop where
  wf : S.WF
  sorted : S.Sorted
  sq : S.ssize = S.psize
  good : G S

/-- Consistent levels of dimension `k`, whose last one leaves a block of size `kf` to a dense solver with the property `Ok`. -/
def Ends (Ok : Last K → Prop) (kf : Nat) : List (Prec K) → Nat → Prop
  | [], _ => False
  | P :: rest, k => P.n = k ∧ P.OK ∧ if P.isLast then rest = [] ∧ P.n - P.m = kf ∧ Ok P.last else Ends Ok kf rest (P.n - P.m)

/-- What the levels `new` made from the matrix `A` are, if `S` is the block left to the dense solver. -/
structure Represents (sy : Bool) (o : Opts R) (dense : Bool → CS K → DenseOps K × Option Err) (rowMajor : Bool) (G : CS K → Prop) (Lv : Spec.Level K → Prop) (A S : CS K)
    (new : List (Prec K)) : Prop where
  size : S.psize ≤ A.psize
  lv : ∀ v ∈ new.map Prec.toLevel, Lv v
  block : 0 < S.psize → IsBlock G S ∧ (dense sy S).2 = none
  good : ∀ rk, (0 < S.psize → Prec.LastOK rk S.psize (mat rowMajor S) (mkLast sy (dense sy S).1)) → Prec.Good rk (mat rowMajor S) S.psize new A.psize
  ends : ∀ Ok : Last K → Prop, (0 < S.psize → Ok (mkLast sy (dense sy S).1)) → (S.psize = 0 → Ok .none) → Ends Ok S.psize new A.psize
  exact : NoDrop o A.psize → ∀ x b, Applies (mat rowMajor S) (new.map Prec.toLevel) A.psize x b → ∀ i, i < A.psize → mulVec A.psize (mat rowMajor A) x i = b i

theorem isLast_of {P : Prec K} (h : P.last = .none) : P.isLast = (P.m == P.n) := by
  unfold Prec.isLast
  rw [h]
  rfl

/-- The equations of a pushed level. -/
theorem step_applies {o : Opts R} {rowMajor : Bool} {A : CS K} {out : CroutOut K} {m0 : Nat} (h : LevelOut m0 o false rowMajor A out) (hnd : NoDrop o A.psize)
    {Sd : Nat → Nat → K} {lvs : List (Spec.Level K)}
    (hrest : ∀ x b, Applies Sd lvs (A.psize - (postFlag out.m2 out.m).2) x b → ∀ i, i < A.psize - (postFlag out.m2 out.m).2 →
      mulVec (A.psize - (postFlag out.m2 out.m).2) (mat rowMajor (out.rest A (postFlag out.m2 out.m).2)) x i = b i)
    {x b : Nat → K} (ha : Applies Sd ((out.toPrec A.psize (postFlag out.m2 out.m).2).toLevel :: lvs) A.psize x b) :
    ∀ i, i < A.psize → mulVec A.psize (mat rowMajor A) x i = b i := by
  by_cases h0 : (postFlag out.m2 out.m).2 = 0
  · rw [h0] at ha hrest
    obtain ⟨x', g, a1, a2, a3⟩ := zero_applies out A.psize ha
    intro i hi
    have := hrest x' g a1 i hi
    unfold CroutOut.rest at this
    rw [if_neg (not_not.mpr rfl), Nat.sub_zero, a3 i hi] at this
    rw [← this]
    exact mulVec_congr' (fun c hc => (a2 c hc).symm) i
  · obtain ⟨hm, hm0⟩ := postFlag_m h0
    obtain ⟨-, -, -, -, hex⟩ := h.kept h0 (fun hc => by cases hc)
    obtain ⟨LE, UF, hl⟩ := hex hnd
    rw [hm] at ha hrest
    obtain ⟨pm, pn, -⟩ := Props.toPrec_m out A.psize out.m
    obtain ⟨h1, z, g, h2, h3, h4⟩ := ha
    have hn' : (out.toPrec A.psize out.m).toLevel.n = A.psize := pn
    have hm' : (out.toPrec A.psize out.m).toLevel.m = out.m := pm
    have := hl.solves h1 h2 (S := mat rowMajor out.schur) (g := g) (by
      rw [hn', hm'] at h3 ⊢
      unfold CroutOut.rest at hrest
      rw [if_pos hm0] at hrest
      exact hrest _ _ h3) h4
    rw [hn'] at this
    exact this

/-- The representation by the levels after this one gives the representation with this one. -/
theorem represents_cons {sy : Bool} {o : Opts R} {dense : Bool → CS K → DenseOps K × Option Err} {rowMajor : Bool} {G : CS K → Prop} {Lv : Spec.Level K → Prop} {A : CS K}
    {out : CroutOut K} {m0 : Nat} (h : LevelOut m0 o false rowMajor A out) (hlv : Lv (out.toPrec A.psize (postFlag out.m2 out.m).2).toLevel)
    (hm0 : (postFlag out.m2 out.m).2 ≠ 0) (hlt : out.m < A.psize) {S : CS K} {rest : List (Prec K)}
    (hr : Represents sy o dense rowMajor G Lv out.schur S rest) :
    Represents sy o dense rowMajor G Lv A S (out.toPrec A.psize (postFlag out.m2 out.m).2 :: rest) := by
  obtain ⟨hm, hne⟩ := postFlag_m hm0
  obtain ⟨hok, hp, hs, -, -⟩ := h.kept hm0 (fun hc => by cases hc)
  obtain ⟨pm, pn, pl⟩ := Props.toPrec_m out A.psize out.m
  refine ⟨by have := hr.size; omega, fun v hv => by
    rw [List.map_cons, List.mem_cons] at hv
    rcases hv with rfl | hv
    · exact hlv
    · exact hr.lv v hv, hr.block, fun rk hx => ?_, fun Ok hx h0 => ?_, fun hnd x b ha => ?_⟩
  · rw [hm]
    refine ⟨pn, hok, ?_⟩
    rw [isLast_of pl, pm, pn, if_neg (by simp; omega), ← hp]
    exact hr.good rk hx
  · rw [hm]
    refine ⟨pn, hok, ?_⟩
    rw [isLast_of pl, pm, pn, if_neg (by simp; omega), ← hp]
    exact hr.ends Ok hx h0
  · refine step_applies h hnd (fun x b hx => ?_) ha
    rw [hm] at hx ⊢
    unfold CroutOut.rest
    rw [if_pos hne, ← hp]
    rw [← hp] at hx
    exact hr.exact (hnd.mono (by rw [hp]; omega)) x b hx

/-- The last level. -/
theorem represents_last {sy : Bool} {o : Opts R} {dense : Bool → CS K → DenseOps K × Option Err} {rowMajor : Bool} {G : CS K → Prop} {Lv : Spec.Level K → Prop} {A : CS K}
    {out : CroutOut K} {m0 : Nat} (h : LevelOut m0 o false rowMajor A out) (hlv : Lv (out.toPrec A.psize (postFlag out.m2 out.m).2).toLevel) {l : Last K} {S : CS K} (hS : S = out.rest A (postFlag out.m2 out.m).2)
    (hSp : S.psize = A.psize - (postFlag out.m2 out.m).2)
    (hb : 0 < S.psize → IsBlock G S ∧ (dense sy S).2 = none)
    (hl : ¬ l.isNone = true ∨ (postFlag out.m2 out.m).2 = A.psize)
    (hD : ∀ rk, (0 < S.psize → Prec.LastOK rk S.psize (mat rowMajor S) (mkLast sy (dense sy S).1)) → Prec.LastOK rk S.psize (mat rowMajor S) l)
    (hE : ∀ Ok : Last K → Prop, (0 < S.psize → Ok (mkLast sy (dense sy S).1)) → (S.psize = 0 → Ok .none) → Ok l) :
    Represents sy o dense rowMajor G Lv A S [{ out.toPrec A.psize (postFlag out.m2 out.m).2 with last := l }] := by
  obtain ⟨pm, pn, pl⟩ := Props.toPrec_m out A.psize (postFlag out.m2 out.m).2
  have hok : (out.toPrec A.psize (postFlag out.m2 out.m).2).OK := by
    by_cases h0 : (postFlag out.m2 out.m).2 = 0
    · rw [h0]; exact zero_ok out A.psize
    · rw [(postFlag_m h0).1]
      exact (h.kept h0 (fun hc => by cases hc)).1
  have hokl : ({ out.toPrec A.psize (postFlag out.m2 out.m).2 with last := l } : Prec K).OK :=
    ⟨hok.le, hok.L_wf, hok.L_p, hok.L_s, hok.U_wf, hok.U_p, hok.U_s, hok.E_wf, hok.F_wf, hok.F_p, hok.d_size, hok.s_size, hok.t_size, hok.p_size,
    hok.pinv_size, hok.q_size, hok.qinv_size, hok.p_inv, hok.q_inv, hok.lower, hok.upper, hok.d_ne, hok.s_ne, hok.t_ne⟩
  have hlast : ({ out.toPrec A.psize (postFlag out.m2 out.m).2 with last := l } : Prec K).isLast = true := by
    unfold Prec.isLast
    show (!l.isNone || (out.toPrec A.psize (postFlag out.m2 out.m).2).m == (out.toPrec A.psize (postFlag out.m2 out.m).2).n) = true
    rw [pm, pn]
    rcases hl with hl | hl
    · simp [hl]
    · simp [hl]
  have hsz : ({ out.toPrec A.psize (postFlag out.m2 out.m).2 with last := l } : Prec K).n - ({ out.toPrec A.psize (postFlag out.m2 out.m).2 with last := l } : Prec K).m = S.psize := by
    show (out.toPrec A.psize (postFlag out.m2 out.m).2).n - (out.toPrec A.psize (postFlag out.m2 out.m).2).m = _
    rw [pm, pn, hSp]
  refine ⟨by omega, fun v hv => by
    rw [List.map_singleton, List.mem_singleton] at hv
    rw [hv]; exact hlv, hb, fun rk hx => ⟨pn, hokl, ?_⟩, fun Ok hx h0 => ⟨pn, hokl, ?_⟩, fun hnd x b ha => ?_⟩
  · rw [if_pos hlast]
    exact ⟨rfl, hsz, hD rk hx⟩
  · rw [if_pos hlast]
    exact ⟨rfl, hsz, hE Ok hx h0⟩
  · exact step_applies h hnd (lvs := []) (Sd := mat rowMajor S) (fun x b hx => by rw [← hS]; exact hx) ha

/-- A level that is not given up: the mode does not matter any more. -/
theorem LevelOut.strip {o : Opts R} {auto rowMajor : Bool} {A : CS K} {out : CroutOut K} {m0 : Nat} (h : LevelOut m0 o auto rowMajor A out)
    (hk : auto = true → (postFlag out.m2 out.m).1 = 0) : LevelOut m0 o false rowMajor A out :=
  ⟨h.mle, h.m2le, h.stats, fun h0 _ => h.kept h0 hk, fun h0 _ => h.tight h0 hk⟩

/-- The level kernels of the driver succeed. -/
theorem kernel_runs {e : Env K R} (he : EnvOK e) (o : Opts R) {G : Nat → (Nat → Nat → K) → Prop} (hp : PrepOK e o G)
    (hGc : ∀ n T T', (∀ i j, i < n → j < n → T i j = T' i j) → G n T → G n T') (auto rowMajor : Bool) (other : Kernels K) (kind : LevelKind)
    (hk : kind = .plain false ∨ kind = .pivot) (lvl N : Nat) (hlvl : 0 < lvl)
    {A : CS K} (h : A.WF) (ht : A.Tight) (hs : A.Sorted) (hsq : A.ssize = A.psize) (hG : G A.psize (mat rowMajor A)) (hsz : SizesOK e A.psize) :
    Runs ((kernels e o auto rowMajor other).level kind lvl N A.psize A) (LevelOut A.psize o (kind == .plain false && auto) rowMajor A) := by
  rcases hk with rfl | rfl
  · exact plainLevel_runs he o hp hGc auto rowMajor lvl N hlvl h ht hs hsq hG hsz
  · exact pivotLevel_runs he o hp hGc rowMajor lvl N hlvl h ht hs hsq hG hsz

/-- The two outcomes of the recursion: completed with levels that represent the matrix, or stopped by the dense factorization of a block. -/
def Outcome (o : Opts R) (G : CS K → Prop) (Lv : Spec.Level K → Prop) (rowMajor : Bool) (ker : Kernels K) (opts : FacOpts) (A : CS K) (h : HIF K)
    (res : HIF K × Except Err Unit) : Prop :=
  (∃ h' S new, res = (h', .ok ()) ∧ h'.precs = h.precs ++ new ∧ Represents opts.isSymm o ker.dense rowMajor G Lv A S new) ∨
  (∃ h' msg S, res = (h', .error (.hif msg)) ∧ 0 < S.psize ∧ S.psize ≤ A.psize ∧ IsBlock G S ∧ (ker.dense opts.isSymm S).2 = some (.hif msg))

set_option maxHeartbeats 2000000 in
/-- One step of the recursion over the levels. -/
theorem factorizeKernel_step (o : Opts R) {G : CS K → Prop} {Lv : Spec.Level K → Prop} (rowMajor : Bool) (ker : Kernels K) (opts : FacOpts)
    (hd : DenseOK opts.isSymm ker.dense G) (hL0 : ∀ (out : CroutOut K) n, Lv (out.toPrec n 0).toLevel) (fuel : Nat) (A : CS K) (m0 : Nat) (mp : Bool) (h : HIF K)
    (hA : A.WF) (hAt : A.Tight) (hAs : A.Sorted) (hsq : A.ssize = A.psize) (hG : G A) (hunf : h.unfinished = true) (sym : Bool)
    (hsym : (h.levels + 1 == 1 && decide (0 < m0)) = sym) (au : Bool) (hau : au = true → opts.pivot = .auto ∧ ∃ b, levelKind opts sym mp = .plain b)
    (hker : Runs (ker.level (levelKind opts sym mp) (h.levels + 1) (refSize opts h A) (if sym = true then m0 else A.psize) A) fun out =>
        LevelOut (if sym = true then m0 else A.psize) o au rowMajor A out ∧
        (LevelOut (if sym = true then m0 else A.psize) o false rowMajor A out → (postFlag out.m2 out.m).2 ≠ 0 →
          Lv (out.toPrec A.psize out.m).toLevel ∧ (out.m < A.psize → G out.schur)))
    (hrec : ∀ (S : CS K) (mp' : Bool) (h' : HIF K), S.WF → S.Tight → S.Sorted → S.ssize = S.psize → G S → S.psize ≤ A.psize → h'.unfinished = true →
      S.psize < A.psize ∨ (S = A ∧ mp = false ∧ mp' = true) → Outcome o G Lv rowMajor ker opts S h' (factorizeKernel ker opts fuel S 0 mp' h')) :
    Outcome o G Lv rowMajor ker opts A h (factorizeKernel ker opts (fuel + 1) A m0 mp h) := by
    rw [factorizeKernel, if_neg (by omega), bind_ok (h' := h) (a := h) rfl]
    simp only [hsym]
    have hkind : (opts.isSymm = false ∧ (levelKind opts sym mp = .plain sym ∨ levelKind opts sym mp = .pivot)) ∨
        (opts.isSymm = true ∧ levelKind opts sym mp = .symm) := by
      unfold levelKind
      cases opts.isSymm <;> cases opts.pivot <;> cases mp <;> simp
    obtain ⟨out, eout, hout, hnext⟩ := hker
    generalize hmm : (if sym = true then m0 else A.psize) = m1 at *
    generalize hkd : levelKind opts sym mp = kind at *
    have hks : (kind == .symm) = opts.isSymm := by rcases hkind with ⟨h1, rfl | rfl⟩ | ⟨h1, rfl⟩ <;> rw [h1] <;> rfl
    by_cases hgu : givesUp kind opts (postFlag out.m2 out.m).1 = true
    · -- the level is given up
      have hlev : levelFactorize ker opts kind (h.levels + 1) (refSize opts h A) m1 A h = (h, .ok .retry) := by
        unfold levelFactorize
        rw [bind_ok (h' := h) (a := out) (by show (h, ker.level kind (h.levels + 1) (refSize opts h A) m1 A) = _; rw [eout])]
        simp only [hgu, if_true]
        rfl
      have hkp : kind = .plain sym ∧ opts.pivot = .auto := by
        rcases hkind with ⟨h1, rfl | rfl⟩ | ⟨h1, rfl⟩
        · unfold givesUp at hgu
          simp only [Bool.and_eq_true, beq_iff_eq] at hgu
          exact ⟨rfl, hgu.1⟩
        · simp [givesUp] at hgu
        · simp [givesUp] at hgu
      have hsy : opts.isSymm = false := by
        rcases hkind with ⟨h1, -⟩ | ⟨-, h1⟩
        · exact h1
        · rw [hkp.1] at h1; cases h1
      have hmp : mp = false := by
        cases mp with
        | false => rfl
        | true =>
          rw [hkp.1] at hkd
          unfold levelKind at hkd
          rw [hsy, hkp.2] at hkd
          simp at hkd
      rw [bind_ok hlev, bind_ok (h' := h) (a := h) rfl]
      simp only [hunf, if_true]
      have hpf : pivotFlag opts mp (.retry : LevelRes K) = true := by unfold pivotFlag; rw [hsy, hkp.2]; simp
      rw [hpf]
      exact hrec A true h hA hAt hAs hsq hG (le_refl _) hunf (Or.inr ⟨rfl, hmp, rfl⟩)
    have hgu : givesUp kind opts (postFlag out.m2 out.m).1 = false := by simpa using hgu
    replace hout := hout.strip fun hk => by
      obtain ⟨k1, b, k2⟩ := hau hk
      rw [k2] at hgu
      unfold givesUp at hgu
      rw [k1] at hgu
      simpa using hgu
    -- the level
    have hlev : levelFactorize ker opts kind (h.levels + 1) (refSize opts h A) m1 A h =
        (do
          HIF.push (out.toPrec A.psize (postFlag out.m2 out.m).2) out.stats
          if useDense kind opts out (postFlag out.m2 out.m).1 A.psize (postFlag out.m2 out.m).2 && !denseEmpty (out.rest A (postFlag out.m2 out.m).2) then do
            HIF.setDense opts.isSymm (ker.dense opts.isSymm (out.rest A (postFlag out.m2 out.m).2)).1 (ker.dense opts.isSymm (out.rest A (postFlag out.m2 out.m).2)).2
            pure (.next (out.rest A (postFlag out.m2 out.m).2))
          else pure (.next (out.rest A (postFlag out.m2 out.m).2)) : HM K (LevelRes K)) h := by
      unfold levelFactorize
      rw [bind_ok (h' := h) (a := out) (by show (h, ker.level kind (h.levels + 1) (refSize opts h A) m1 A) = _; rw [eout])]
      simp only [hgu, hks, Bool.false_eq_true, if_false]
    obtain ⟨pm, pn, pl⟩ := Props.toPrec_m out A.psize (postFlag out.m2 out.m).2
    set m := (postFlag out.m2 out.m).2 with hmdef
    set P := out.toPrec A.psize m with hPdef
    set S := out.rest A m with hSdef
    set h1 : HIF K := { h with precs := h.precs ++ [P], stats := fun i => h.stats i + out.stats i } with hh1
    have hme : m ≠ 0 → m = out.m := fun h0 => (postFlag_m h0).1
    have hmle : m ≤ A.psize := by
      by_cases h0 : m = 0
      · omega
      · have := hme h0; have := hout.mle; have := hout.m2le; omega
    have hSp : S.psize = A.psize - m ∧ S.ssize = A.psize - m := by
      rw [hSdef]
      unfold CroutOut.rest
      split
      · rename_i h0
        obtain ⟨-, a1, a2, -⟩ := hout.kept h0 (fun hc => by cases hc)
        rw [hme h0]
        exact ⟨a1, a2⟩
      · constructor <;> omega
    have hPlv : Lv (out.toPrec A.psize (postFlag out.m2 out.m).2).toLevel := by
      by_cases h0 : (postFlag out.m2 out.m).2 = 0
      · rw [h0]; exact hL0 out A.psize
      · rw [(postFlag_m h0).1]; exact (hnext hout h0).1
    have hSw : m < A.psize → S.WF ∧ S.Tight ∧ S.Sorted ∧ G S := by
      intro hlt
      rw [hSdef]
      unfold CroutOut.rest
      split
      · rename_i h0
        obtain ⟨-, a1, a2, a3, -⟩ := hout.kept h0 (fun hc => by cases hc)
        obtain ⟨b1, b2, b3⟩ := a3 (by rw [← hme h0]; exact hlt)
        refine ⟨b1, b2, b3, ?_⟩
        exact (hnext hout h0).2 (by rw [← hme h0]; exact hlt)
      · exact ⟨hA, hAt, hAs, hG⟩
    rw [bind_ok (h' := h1) (a := ()) rfl] at hlev
    by_cases hdn : (useDense kind opts out (postFlag out.m2 out.m).1 A.psize m && !denseEmpty S) = true
    · have hpos : m < A.psize := by
        simp only [Bool.and_eq_true, Bool.not_eq_true', denseEmpty] at hdn
        by_contra hc
        have : S.psize = 0 := by rw [hSp.1]; omega
        rw [this] at hdn
        simp at hdn
      obtain ⟨s1, s2, s3, s4⟩ := hSw hpos
      simp only [hdn, if_true] at hlev
      rcases hd S s1 s3 (by rw [hSp.1, hSp.2]) (by rw [hSp.1]; omega) s4 with ⟨msg, he⟩ | he
      · right
        have hset : HIF.setDense opts.isSymm (ker.dense opts.isSymm S).1 (ker.dense opts.isSymm S).2 h1 =
            ({ h1 with precs := mapLast h1.precs fun Q => { Q with last := mkLast opts.isSymm (ker.dense opts.isSymm S).1 } }, .error (.hif msg)) := by
          unfold HIF.setDense
          rw [he]
        rw [bind_error hset] at hlev
        refine ⟨{ h1 with precs := mapLast h1.precs fun Q => { Q with last := mkLast opts.isSymm (ker.dense opts.isSymm S).1 } }, msg, S, ?_, by omega, by omega, ⟨s1, s3, by rw [hSp.1, hSp.2], s4⟩, he⟩
        exact bind_error hlev
      · left
        set h2 : HIF K := { h1 with precs := mapLast h1.precs fun Q => { Q with last := mkLast opts.isSymm (ker.dense opts.isSymm S).1 } } with hh2
        have hset : HIF.setDense opts.isSymm (ker.dense opts.isSymm S).1 (ker.dense opts.isSymm S).2 h1 = (h2, .ok ()) := by
          unfold HIF.setDense
          rw [he]
        rw [bind_ok hset] at hlev
        have hprec : h2.precs = h.precs ++ [{ P with last := mkLast opts.isSymm (ker.dense opts.isSymm S).1 }] := by
          show mapLast (h.precs ++ [P]) _ = _
          rw [Props.mapLast_append]
        have hun : h2.unfinished = false := by
          unfold HIF.unfinished
          rw [hprec, List.getLast?_append]
          simp only [List.getLast?_singleton, Option.some_or]
          show (!(!(mkLast opts.isSymm (ker.dense opts.isSymm S).1).isNone || _)) = false
          unfold mkLast
          split <;> simp [Last.isNone]
        rw [bind_ok hlev, bind_ok (h' := h2) (a := h2) rfl]
        simp only [hun, Bool.false_eq_true, if_false]
        refine ⟨h2, S, [{ P with last := mkLast opts.isSymm (ker.dense opts.isSymm S).1 }], rfl, hprec, ?_⟩
        exact represents_last hout hPlv hSdef hSp.1 (fun _ => ⟨⟨s1, s3, by rw [hSp.1, hSp.2], s4⟩, he⟩) (Or.inl (by unfold mkLast; split <;> simp [Last.isNone])) (fun rk hx => hx (by omega))
          (fun Ok hx _ => hx (by omega))
    · simp only [hdn, Bool.false_eq_true, if_false] at hlev
      have hlev : levelFactorize ker opts kind (h.levels + 1) (refSize opts h A) m1 A h = (h1, .ok (.next S)) := hlev
      rw [bind_ok hlev, bind_ok (h' := h1) (a := h1) rfl]
      have hun : h1.unfinished = !P.isLast := by
        unfold HIF.unfinished
        show (match (h.precs ++ [P]).getLast? with | none => true | some P => !P.isLast) = _
        rw [List.getLast?_append]
        simp only [List.getLast?_singleton, Option.some_or]
      have hlast : P.isLast = (m == A.psize) := by rw [isLast_of pl, pm, pn]
      by_cases hmn : m = A.psize
      · left
        rw [hun, hlast]
        simp only [hmn, beq_self_eq_true, Bool.not_true, Bool.false_eq_true, if_false]
        refine ⟨h1, S, [P], rfl, rfl, ?_⟩
        have hS0 : S.psize = 0 := by rw [hSp.1]; omega
        have := represents_last (sy := opts.isSymm) (dense := ker.dense) (G := G) hout hPlv (l := .none) hSdef hSp.1 (fun hc => absurd hc (by omega)) (Or.inr hmn) (fun rk _ => hS0) (fun Ok _ h0 => h0 hS0)
        have hP' : ({ P with last := .none } : Prec K) = P := by rw [← pl]
        rw [← hmdef, ← hPdef, hP'] at this
        exact this
      · have hlt : m < A.psize := by omega
        have hm0 : m ≠ 0 := by
          intro h0
          apply hdn
          have : S.psize * S.ssize ≠ 0 := by rw [hSp.1, hSp.2]; exact Nat.mul_ne_zero (by omega) (by omega)
          simp [useDense, denseEmpty, h0]
          simpa using this
        obtain ⟨s1, s2, s3, s4⟩ := hSw hlt
        have hb : (!(m == A.psize)) = true := by simpa using hmn
        rw [hun, hlast]
        simp only [hb, if_true]
        have hSeq : S = out.schur := by rw [hSdef]; unfold CroutOut.rest; rw [if_pos hm0]
        rcases hrec S (pivotFlag opts mp (.next S : LevelRes K)) h1 s1 s2 s3 (by rw [hSp.1, hSp.2]) s4
            (by rw [hSp.1]; omega) (by rw [hun, hlast]; exact hb) (Or.inl (by rw [hSp.1]; omega)) with ⟨h', Sd, new, k1, k2, k3⟩ | ⟨h', msg, Sd, k1, k2, k3, k4⟩
        · left
          refine ⟨h', Sd, P :: new, k1, ?_, ?_⟩
          · rw [k2]
            show (h.precs ++ [P]) ++ new = _
            rw [List.append_assoc]
            rfl
          · rw [hSeq] at k3
            exact represents_cons hout hPlv hm0 (by rw [← hme hm0]; exact hlt) k3
        · exact Or.inr ⟨h', msg, Sd, k1, k2, by omega, k4⟩

/-- The recursion over the levels, for any level kernel that keeps the contract of a level. -/
theorem factorizeKernel_gen (o : Opts R) {G : CS K → Prop} {Lv : Spec.Level K → Prop} (rowMajor : Bool) (ker : Kernels K) (n0 : Nat) (opts : FacOpts)
    (hd : DenseOK opts.isSymm ker.dense G) (hL0 : ∀ (out : CroutOut K) n, Lv (out.toPrec n 0).toLevel)
    (hker : ∀ mp lvl N A, 0 < lvl → A.WF → A.Tight → A.Sorted → A.ssize = A.psize → G A → A.psize ≤ n0 →
      Runs (ker.level (levelKind opts false mp) lvl N A.psize A) fun out =>
        LevelOut A.psize o (levelKind opts false mp == .plain false && opts.pivot == .auto) rowMajor A out ∧
        (LevelOut A.psize o false rowMajor A out → (postFlag out.m2 out.m).2 ≠ 0 → Lv (out.toPrec A.psize out.m).toLevel ∧ (out.m < A.psize → G out.schur))) :
    ∀ (fuel : Nat) (A : CS K) (mustPivot : Bool) (h : HIF K), A.WF → A.Tight → A.Sorted → A.ssize = A.psize →
      G A → A.psize ≤ n0 → h.unfinished = true → 2 * A.psize + (if mustPivot = true then 0 else 1) + 1 ≤ fuel →
      (∃ h' S new, factorizeKernel ker opts fuel A 0 mustPivot h = (h', .ok ()) ∧ h'.precs = h.precs ++ new ∧
        Represents opts.isSymm o ker.dense rowMajor G Lv A S new) ∨
      (∃ h' msg S, factorizeKernel ker opts fuel A 0 mustPivot h = (h', .error (.hif msg)) ∧ 0 < S.psize ∧ S.psize ≤ A.psize ∧
        IsBlock G S ∧ (ker.dense opts.isSymm S).2 = some (.hif msg))
  | 0, A, mp, h, _, _, _, _, _, _, _, hf => by omega
  | fuel + 1, A, mp, h, hA, hAt, hAs, hsq, hG, hn0, hunf, hf => by
    refine factorizeKernel_step o rowMajor ker opts hd hL0 fuel A 0 mp h hA hAt hAs hsq hG hunf false (by simp)
      (levelKind opts false mp == .plain false && opts.pivot == .auto) (fun hk => ?_) ?_ ?_
    · simp only [Bool.and_eq_true, beq_iff_eq] at hk
      exact ⟨hk.2, false, hk.1⟩
    · exact hker mp (h.levels + 1) (refSize opts h A) A (by omega) hA hAt hAs hsq hG hn0
    · intro S mp' h' s1 s2 s3 s4 s5 s6 s7 s8
      refine factorizeKernel_gen o rowMajor ker n0 opts hd hL0 hker fuel S mp' h' s1 s2 s3 s4 s5 (s6.trans hn0) s7 ?_
      rcases s8 with s8 | ⟨s8, rfl, rfl⟩
      · split <;> split at hf <;> omega
      · rw [s8]; simp at hf ⊢; omega

/-- A property of the dimension and the entries of a matrix. -/
abbrev onMat (rowMajor : Bool) (G : Nat → (Nat → Nat → K) → Prop) : CS K → Prop := fun S => G S.psize (mat rowMajor S)

/-- The recursion over the levels without symmetry. -/
theorem factorizeKernel_runs {e : Env K R} (he : EnvOK e) (o : Opts R) {G : Nat → (Nat → Nat → K) → Prop} (hp : PrepOK e o G)
    (hGc : ∀ n T T', (∀ i j, i < n → j < n → T i j = T' i j) → G n T → G n T') (rowMajor : Bool) (other : Kernels K) (n0 : Nat)
    (hd : DenseOK false other.dense (onMat rowMajor G))
    (hnext : ∀ m0 A out, LevelOut m0 o false rowMajor A out → (postFlag out.m2 out.m).2 ≠ 0 → A.psize ≤ n0 → G A.psize (mat rowMajor A) →
      G (A.psize - out.m) (mat rowMajor out.schur)) (hsz : SizesOK e n0)
    (opts : FacOpts) (hsy : opts.isSymm = false) : ∀ (fuel : Nat) (A : CS K) (mustPivot : Bool) (h : HIF K), A.WF → A.Tight → A.Sorted → A.ssize = A.psize →
      G A.psize (mat rowMajor A) → A.psize ≤ n0 → h.unfinished = true → 2 * A.psize + (if mustPivot = true then 0 else 1) + 1 ≤ fuel →
      (∃ h' S new, factorizeKernel (kernels e o (opts.pivot == .auto) rowMajor other) opts fuel A 0 mustPivot h = (h', .ok ()) ∧ h'.precs = h.precs ++ new ∧
        Represents false o other.dense rowMajor (onMat rowMajor G) (fun _ => True) A S new) ∨
      (∃ h' msg S, factorizeKernel (kernels e o (opts.pivot == .auto) rowMajor other) opts fuel A 0 mustPivot h = (h', .error (.hif msg)) ∧ 0 < S.psize ∧ S.psize ≤ A.psize ∧
        IsBlock (onMat rowMajor G) S ∧ (other.dense false S).2 = some (.hif msg)) := by
  intro fuel A mp h h1 h2 h3 h4 h5 h6 h7 h8
  have := factorizeKernel_gen o rowMajor (kernels e o (opts.pivot == .auto) rowMajor other) n0 opts (G := onMat rowMajor G) (Lv := fun _ => True) (by rw [hsy]; exact hd) (fun _ _ => trivial)
    (fun mp lvl N A hl w t sr sq g hn => ?_) fuel A mp h h1 h2 h3 h4 h5 h6 h7 h8
  · rw [hsy] at this
    exact this
  · have hkind : levelKind opts false mp = .plain false ∨ levelKind opts false mp = .pivot := by
      unfold levelKind
      rw [hsy]
      cases opts.pivot <;> cases mp <;> simp
    exact (kernel_runs he o hp hGc (opts.pivot == .auto) rowMajor other _ hkind lvl N hl w t sr sq g (hsz.mono hn)).mono
      fun out hout => ⟨hout, fun ho h0 => ⟨trivial, fun hlt => by
        obtain ⟨-, a1, -⟩ := ho.kept h0 (fun hc => by cases hc)
        show G out.schur.psize (mat rowMajor out.schur)
        rw [a1]
        exact hnext _ A out ho h0 hn g⟩⟩

end Level
end Hif
