import Verif.Sizes
import Verif.FactorRun

set_option linter.unusedSectionVars false
set_option linter.unusedVariables false

/-!
# The driver with its reference sizes is the driver with given reference sizes
-/

namespace Hif
namespace Level
open HIF HM Props

/-! ### the shape of a level -/

section
variable {K : Type _} [Zero K] [One K]

/-- What a level does with the object: nothing, or one level is pushed. -/
theorem levelFactorize_shape (ker : Kernels K) (opts : FacOpts) (kind : LevelKind) (lvl N m0 : Nat) (A : CS K) (h : HIF K) :
    (∃ err, ker.level kind lvl N m0 A = .error err ∧ levelFactorize ker opts kind lvl N m0 A h = (h, .error err)) ∨
    ∃ out, ker.level kind lvl N m0 A = .ok out ∧
      ((givesUp kind opts (postFlag out.m2 out.m).1 = true ∧ levelFactorize ker opts kind lvl N m0 A h = (h, .ok .retry)) ∨
       (givesUp kind opts (postFlag out.m2 out.m).1 = false ∧ ∃ h' l res, levelFactorize ker opts kind lvl N m0 A h = (h', res) ∧
          h'.precs = h.precs ++ [{ out.toPrec A.psize (postFlag out.m2 out.m).2 with last := l }] ∧
          (l = .none → res = .ok (.next (out.rest A (postFlag out.m2 out.m).2)) ∧
            (useDense kind opts out (postFlag out.m2 out.m).1 A.psize (postFlag out.m2 out.m).2 && !denseEmpty (out.rest A (postFlag out.m2 out.m).2)) = false) ∧
          (l ≠ .none → l.isNone = false) ∧
          ((∃ err, res = .error err) ∨ res = .ok (.next (out.rest A (postFlag out.m2 out.m).2))))) := by
  unfold levelFactorize
  rcases hl : ker.level kind lvl N m0 A with e | o
  · exact Or.inl ⟨e, rfl, rfl⟩
  refine Or.inr ⟨o, rfl, ?_⟩
  rw [bind_ok (h' := h) (a := o) rfl]
  simp only
  set pf := postFlag o.m2 o.m with hpf
  by_cases hg : givesUp kind opts pf.1 = true
  · rw [if_pos hg]
    exact Or.inl ⟨hg, rfl⟩
  rw [if_neg hg]
  refine Or.inr ⟨by simpa using hg, ?_⟩
  obtain ⟨pm, pn, pl⟩ := toPrec_m o A.psize pf.2
  set P := o.toPrec A.psize pf.2 with hP
  rw [bind_ok (h' := { h with precs := h.precs ++ [P], stats := fun i => h.stats i + o.stats i }) (a := ()) rfl]
  set h1 : HIF K := { h with precs := h.precs ++ [P], stats := fun i => h.stats i + o.stats i } with hh1
  set S := o.rest A pf.2 with hSdef
  by_cases hd : (useDense kind opts o pf.1 A.psize pf.2 && !denseEmpty S) = true
  · rw [if_pos hd]
    have hD : (mkLast (kind == .symm) (ker.dense (kind == .symm) S).1).isNone = false := by unfold mkLast; split <;> rfl
    have hD' : mkLast (kind == .symm) (ker.dense (kind == .symm) S).1 ≠ .none := fun h => by rw [h] at hD; cases hD
    rcases he : (ker.dense (kind == .symm) S).2 with _ | e
    · rw [bind_ok (h' := { h1 with precs := mapLast h1.precs fun Q => { Q with last := mkLast (kind == .symm) (ker.dense (kind == .symm) S).1 } }) (a := ())
        rfl]
      exact ⟨_, mkLast (kind == .symm) (ker.dense (kind == .symm) S).1, _, rfl, mapLast_append _ _ _, fun h => absurd h hD', fun _ => hD, Or.inr rfl⟩
    · rw [bind_error (h' := { h1 with precs := mapLast h1.precs fun Q => { Q with last := mkLast (kind == .symm) (ker.dense (kind == .symm) S).1 } }) (e := e)
        rfl]
      exact ⟨_, mkLast (kind == .symm) (ker.dense (kind == .symm) S).1, _, rfl, mapLast_append _ _ _, fun h => absurd h hD', fun _ => hD, Or.inl ⟨e, rfl⟩⟩
  · rw [if_neg hd]
    refine ⟨h1, .none, _, rfl, ?_, fun _ => ⟨rfl, by simpa using hd⟩, fun h => absurd rfl h, Or.inr rfl⟩
    show h.precs ++ [P] = h.precs ++ [{ P with last := .none }]
    rw [← pl]

theorem levels_le (h : HIF K) : h.precs.length ≤ h.levels ∧ h.levels ≤ h.precs.length + 1 := by
  unfold HIF.levels
  rcases hl : h.precs.getLast? with _ | P
  · have : h.precs = [] := List.getLast?_eq_none_iff.1 hl
    simp [this]
  · simp only
    split <;> omega

theorem levels_unfinished {h : HIF K} (hu : h.unfinished = true) : h.levels = h.precs.length := by
  unfold HIF.levels
  unfold HIF.unfinished at hu
  rcases hl : h.precs.getLast? with _ | P
  · have : h.precs = [] := List.getLast?_eq_none_iff.1 hl
    simp [this]
  · rw [hl] at hu
    simp only [Prec.isLast, Bool.not_eq_true', Bool.or_eq_false_iff, Bool.not_eq_false'] at hu
    simp [hu.1]

/-- Levels are only added. -/
theorem levelFactorize_levels (ker : Kernels K) (opts : FacOpts) (kind : LevelKind) (lvl N m0 : Nat) (A : CS K) (h : HIF K) :
    h.levels ≤ (levelFactorize ker opts kind lvl N m0 A h).1.levels := by
  rcases levelFactorize_shape ker opts kind lvl N m0 A h with ⟨err, -, e⟩ | ⟨out, -, ⟨-, e⟩ | ⟨-, h', l, res, e, hp, -⟩⟩
  · rw [e]
  · rw [e]
  · rw [e]
    have h1 := (levels_le h).2
    have h2 := (levels_le h').1
    rw [hp] at h2
    simp at h2
    show h.levels ≤ h'.levels
    omega

/-- … and what is there stays, except that `last` of the new ones may change. -/
theorem factorizeKernel_append (ker : Kernels K) (opts : FacOpts) : ∀ fuel A m0 mp h,
    ∃ new, (factorizeKernel ker opts fuel A m0 mp h).1.precs = h.precs ++ new
  | 0, A, m0, mp, h => ⟨[], by simp [factorizeKernel, HM.lift]⟩
  | fuel + 1, A, m0, mp, h => by
    rw [factorizeKernel]
    by_cases hsq : A.psize ≠ A.ssize
    · rw [if_pos hsq]; exact ⟨[], by simp [HM.fail]⟩
    rw [if_neg hsq, bind_ok (h' := h) (a := h) rfl]
    have shape := levelFactorize_shape ker opts (levelKind opts (h.levels + 1 == 1 && decide (0 < m0)) mp) (h.levels + 1) (refSize opts h A)
        (if (h.levels + 1 == 1 && decide (0 < m0)) = true then m0 else A.psize) A h
    rcases e1 : levelFactorize ker opts (levelKind opts (h.levels + 1 == 1 && decide (0 < m0)) mp) (h.levels + 1) (refSize opts h A)
        (if (h.levels + 1 == 1 && decide (0 < m0)) = true then m0 else A.psize) A h with ⟨h', e' | res⟩
    all_goals
      have hpre : ∃ new, h'.precs = h.precs ++ new := by
        rw [e1] at shape
        rcases shape with ⟨err, -, e⟩ | ⟨out, -, ⟨-, e⟩ | ⟨-, h2, l, res, e, hp, -⟩⟩
        · cases e <;> exact ⟨[], by simp⟩
        · cases e <;> exact ⟨[], by simp⟩
        · cases e; exact ⟨_, hp⟩
    · rw [bind_error e1]
      exact hpre
    · rw [bind_ok e1, bind_ok (h' := h') (a := h') rfl]
      split
      · obtain ⟨n1, h1⟩ := hpre
        have key : ∀ B mp', ∃ new, (factorizeKernel ker opts fuel B 0 mp' h').1.precs = h.precs ++ new := fun B mp' => by
          obtain ⟨n2, h2⟩ := factorizeKernel_append ker opts fuel B 0 mp' h'
          exact ⟨n1 ++ n2, by rw [h2, h1, List.append_assoc]⟩
        exact key _ _
      · exact hpre

/-- The driver reads the kernels of the levels it reaches only. -/
theorem factorizeKernel_congr (ker ker' : Kernels K) (opts : FacOpts) (hd : ker.dense = ker'.dense) : ∀ fuel A m0 mp h,
    (∀ sym mp lvl N m B, h.levels < lvl → ker.level (levelKind opts sym mp) lvl N m B = ker'.level (levelKind opts sym mp) lvl N m B) →
    factorizeKernel ker opts fuel A m0 mp h = factorizeKernel ker' opts fuel A m0 mp h
  | 0, A, m0, mp, h, _ => rfl
  | fuel + 1, A, m0, mp, h, hk => by
    rw [factorizeKernel, factorizeKernel]
    by_cases hsq : A.psize ≠ A.ssize
    · rw [if_pos hsq, if_pos hsq]
    rw [if_neg hsq, if_neg hsq, bind_ok (h' := h) (a := h) rfl, bind_ok (h' := h) (a := h) rfl]
    have hl : levelFactorize ker opts (levelKind opts (h.levels + 1 == 1 && decide (0 < m0)) mp) (h.levels + 1) (refSize opts h A)
        (if (h.levels + 1 == 1 && decide (0 < m0)) = true then m0 else A.psize) A =
        levelFactorize ker' opts (levelKind opts (h.levels + 1 == 1 && decide (0 < m0)) mp) (h.levels + 1) (refSize opts h A)
        (if (h.levels + 1 == 1 && decide (0 < m0)) = true then m0 else A.psize) A := by
      unfold levelFactorize
      rw [hk _ _ _ _ _ _ (Nat.lt_succ_self _), hd]
    rw [hl]
    have hle := levelFactorize_levels ker' opts (levelKind opts (h.levels + 1 == 1 && decide (0 < m0)) mp) (h.levels + 1) (refSize opts h A)
        (if (h.levels + 1 == 1 && decide (0 < m0)) = true then m0 else A.psize) A h
    rcases e1 : levelFactorize ker' opts (levelKind opts (h.levels + 1 == 1 && decide (0 < m0)) mp) (h.levels + 1) (refSize opts h A)
        (if (h.levels + 1 == 1 && decide (0 < m0)) = true then m0 else A.psize) A h with ⟨h', e' | res⟩
    · rw [bind_error e1, bind_error e1]
    · rw [e1] at hle
      rw [bind_ok e1, bind_ok e1, bind_ok (h' := h') (a := h') rfl, bind_ok (h' := h') (a := h') rfl]
      split
      · exact factorizeKernel_congr ker ker' opts hd fuel _ _ _ h' fun sym mp lvl N m B hb => hk sym mp lvl N m B (by have : h.levels ≤ h'.levels := hle; omega)
      · rfl

/-! ### the simulation -/

/-- The kernels when level `l` is given the sizes `Z l`. -/
def atLevels (ker : Sizes → Kernels K) (Z : Nat → Sizes) (d : Sizes) : Kernels K :=
  { level := fun kind lvl => (ker (Z lvl)).level kind lvl, dense := (ker d).dense }

/-- The driver with its sizes is the driver with given sizes, those the code computes, as long as all updates of the sizes succeed.
`Q` is what the sizes always satisfy, `Fine` what a stored level must satisfy for the update. -/
theorem sizedKernel_sim (ker : Sizes → Kernels K) (init : CS K → M Sizes) (next : Sizes → Prec K → M Sizes) (opts : FacOpts) (d : Sizes)
    (hd : ∀ z, (ker z).dense = (ker d).dense) (Q : Sizes → Prop) (Fine : Prec K → Prop)
    (hnext : ∀ z P, Q z → Fine P → ∃ z', next z P = .ok z' ∧ Q z') :
    ∀ fuel A m0 mp sz h, h.unfinished = true → (h.levels = 0 → ∃ z, init A = .ok z ∧ Q z) → (h.levels ≠ 0 → Q sz) →
    ∃ Z : Nat → Sizes, (∀ l, Q (Z l)) ∧ (h.levels = 0 → init A = .ok (Z 1)) ∧ (h.levels ≠ 0 → Z (h.levels + 1) = sz) ∧
      ((∀ P ∈ (factorizeKernel (atLevels ker Z d) opts fuel A m0 mp h).1.precs, Fine P) →
        sizedKernel ker init next opts fuel A m0 mp sz h = factorizeKernel (atLevels ker Z d) opts fuel A m0 mp h ∧
        ∀ k P, (factorizeKernel (atLevels ker Z d) opts fuel A m0 mp h).1.precs[k]? = some P → h.levels ≤ k →
          k + 1 < (factorizeKernel (atLevels ker Z d) opts fuel A m0 mp h).1.precs.length → next (Z (k + 1)) P = .ok (Z (k + 2)))
  | 0, A, m0, mp, sz, h, hun, hi, hs => by
    have hlv := levels_unfinished hun
    obtain ⟨z, hz, hq⟩ : ∃ z, (h.levels = 0 → init A = .ok z) ∧ (h.levels ≠ 0 → z = sz) ∧ Q z := by
      by_cases h0 : h.levels = 0
      · obtain ⟨z, h1, h2⟩ := hi h0
        exact ⟨z, fun _ => h1, fun h => absurd h0 h, h2⟩
      · exact ⟨sz, fun h => absurd h h0, fun _ => rfl, hs h0⟩
    refine ⟨fun _ => z, fun _ => hq.2, hz, hq.1, fun _ => ⟨rfl, fun k P hk hl h1 => ?_⟩⟩
    have h1 : k + 1 < h.precs.length := h1
    omega
  | fuel + 1, A, m0, mp, sz, h, hun, hi, hs => by
    have hlv := levels_unfinished hun
    obtain ⟨z, hz, hzs, hq⟩ : ∃ z, (h.levels = 0 → init A = .ok z) ∧ (h.levels ≠ 0 → z = sz) ∧ Q z := by
      by_cases h0 : h.levels = 0
      · obtain ⟨z, h1, h2⟩ := hi h0
        exact ⟨z, fun _ => h1, fun h => absurd h0 h, h2⟩
      · exact ⟨sz, fun h => absurd h h0, fun _ => rfl, hs h0⟩
    have hlift : (HM.lift (if h.levels + 1 = 1 then init A else pure sz) : HM K Sizes) h = (h, .ok z) := by
      unfold HM.lift
      by_cases h0 : h.levels = 0
      · rw [if_pos (by omega), hz h0]
      · rw [if_neg (by omega), hzs h0]; rfl
    by_cases hsq : A.psize ≠ A.ssize
    · refine ⟨fun _ => z, fun _ => hq, hz, hzs, fun _ => ?_⟩
      rw [factorizeKernel, sizedKernel, if_pos hsq, if_pos hsq]
      refine ⟨rfl, fun k P hk hl h1 => ?_⟩
      have h1 : k + 1 < h.precs.length := h1
      omega
    set kind := levelKind opts (h.levels + 1 == 1 && decide (0 < m0)) mp with hkind
    set m := (if (h.levels + 1 == 1 && decide (0 < m0)) = true then m0 else A.psize) with hm
    -- one step of the driver for any sizes that start with `z`
    have hstep : ∀ Z : Nat → Sizes, Z (h.levels + 1) = z → ∀ h' res, levelFactorize (ker z) opts kind (h.levels + 1) (refSize opts h A) m A h = (h', res) →
        factorizeKernel (atLevels ker Z d) opts (fuel + 1) A m0 mp h = (match res with
          | .error e => (h', .error e)
          | .ok r => if h'.unfinished then factorizeKernel (atLevels ker Z d) opts fuel (match r with | .retry => A | .next S => S) 0 (pivotFlag opts mp r) h' else (h', .ok ())) := by
      intro Z hZ h' res hr
      rw [factorizeKernel, if_neg hsq, bind_ok (h' := h) (a := h) rfl]
      have hl : levelFactorize (atLevels ker Z d) opts kind (h.levels + 1) (refSize opts h A) m A h = (h', res) := by
        rw [← hr]
        unfold levelFactorize atLevels
        simp only [hZ, hd z]
      cases res with
      | error e => rw [bind_error hl]
      | ok r =>
        rw [bind_ok hl, bind_ok (h' := h') (a := h') rfl]
        simp only
        split <;> rfl
    have hstepS : ∀ h' res, levelFactorize (ker z) opts kind (h.levels + 1) (refSize opts h A) m A h = (h', res) →
        sizedKernel ker init next opts (fuel + 1) A m0 mp sz h = (match res with
          | .error e => (h', .error e)
          | .ok r => if h'.unfinished then (match r with
              | .retry => sizedKernel ker init next opts fuel A 0 (pivotFlag opts mp r) z h'
              | .next S => (HM.lift (match h'.precs.getLast? with | some P => next z P | none => pure z) >>= fun sz =>
                  sizedKernel ker init next opts fuel S 0 (pivotFlag opts mp r) sz) h') else (h', .ok ())) := by
      intro h' res hr
      rw [sizedKernel, if_neg hsq, bind_ok (h' := h) (a := h) rfl]
      simp only
      rw [bind_ok hlift]
      cases res with
      | error e => rw [bind_error hr]
      | ok r =>
        rw [bind_ok hr, bind_ok (h' := h') (a := h') rfl]
        simp only
        split
        · cases r <;> rfl
        · rfl
    have shape := levelFactorize_shape (ker z) opts kind (h.levels + 1) (refSize opts h A) m A h
    -- the run ends here
    have hend : ∀ h' res, levelFactorize (ker z) opts kind (h.levels + 1) (refSize opts h A) m A h = (h', res) → h'.precs.length ≤ h.levels + 1 →
        ((∃ e, res = .error e) ∨ (∃ r, res = .ok r) ∧ h'.unfinished = false) →
        ∃ Z : Nat → Sizes, (∀ l, Q (Z l)) ∧ (h.levels = 0 → init A = .ok (Z 1)) ∧ (h.levels ≠ 0 → Z (h.levels + 1) = sz) ∧
          ((∀ P ∈ (factorizeKernel (atLevels ker Z d) opts (fuel + 1) A m0 mp h).1.precs, Fine P) →
            sizedKernel ker init next opts (fuel + 1) A m0 mp sz h = factorizeKernel (atLevels ker Z d) opts (fuel + 1) A m0 mp h ∧
            ∀ k P, (factorizeKernel (atLevels ker Z d) opts (fuel + 1) A m0 mp h).1.precs[k]? = some P → h.levels ≤ k →
              k + 1 < (factorizeKernel (atLevels ker Z d) opts (fuel + 1) A m0 mp h).1.precs.length → next (Z (k + 1)) P = .ok (Z (k + 2))) := by
      intro h' res hr hle hres
      refine ⟨fun _ => z, fun _ => hq, hz, hzs, fun _ => ?_⟩
      rw [hstep (fun _ => z) rfl h' res hr, hstepS h' res hr]
      rcases hres with ⟨e, rfl⟩ | ⟨⟨r, rfl⟩, hu⟩
      · refine ⟨rfl, fun k P hk hl h1 => ?_⟩
        have h1 : k + 1 < h'.precs.length := h1
        omega
      · simp only [hu, Bool.false_eq_true, if_false]
        refine ⟨trivial, fun k P hk hl h1 => ?_⟩
        have h1 : k + 1 < h'.precs.length := h1
        omega
    rcases shape with ⟨err, -, e⟩ | ⟨out, -, ⟨-, e⟩ | ⟨-, h', l, res, e, hp, hl0, hl1, hres⟩⟩
    · exact hend _ _ e (by omega) (Or.inl ⟨err, rfl⟩)
    · -- retry
      by_cases hu : h.unfinished = true
      · obtain ⟨Z, z1, z2, z3, z4⟩ := sizedKernel_sim ker init next opts d hd Q Fine hnext fuel A 0 (pivotFlag opts mp (.retry : LevelRes K)) z h hun hi (fun h0 => hq)
        have hZ : Z (h.levels + 1) = z := by
          by_cases h0 : h.levels = 0
          · have h1 := z2 h0
            have h2 := hz h0
            rw [h1] at h2
            rw [h0]
            exact Except.ok.inj h2
          · exact z3 h0
        refine ⟨Z, z1, z2, fun h0 => by rw [hZ, hzs h0], ?_⟩
        rw [hstep Z hZ h _ e, hstepS h _ e]
        simp only [hu, if_true]
        exact z4
      · exact hend _ _ e (by omega) (Or.inr ⟨⟨_, rfl⟩, by simpa using hu⟩)
    · have hlen : h'.precs.length = h.levels + 1 := by
        rw [hp]; simp [hlv]
      rcases hres with ⟨err, rfl⟩ | rfl
      · exact hend _ _ e (by omega) (Or.inl ⟨err, rfl⟩)
      by_cases hu : h'.unfinished = true
      · have hlen' := levels_unfinished hu
        rw [hlen] at hlen'
        set P := ({ out.toPrec A.psize (postFlag out.m2 out.m).2 with last := l } : Prec K) with hP
        set S := out.rest A (postFlag out.m2 out.m).2 with hS
        have hlast : h'.precs.getLast? = some P := by rw [hp]; simp
        by_cases hf : Fine P
        · obtain ⟨z', n1, n2⟩ := hnext z P hq hf
          obtain ⟨Z, z1, z2, z3, z4⟩ := sizedKernel_sim ker init next opts d hd Q Fine hnext fuel S 0 (pivotFlag opts mp (.next S)) z' h' hu
            (fun h0 => by omega) (fun _ => n2)
          set Z' : Nat → Sizes := fun l => if l = h.levels + 1 then z else Z l with hZ'
          have hZ1 : Z' (h.levels + 1) = z := if_pos rfl
          have hcong : factorizeKernel (atLevels ker Z' d) opts fuel S 0 (pivotFlag opts mp (.next S)) h' =
              factorizeKernel (atLevels ker Z d) opts fuel S 0 (pivotFlag opts mp (.next S)) h' :=
            factorizeKernel_congr (atLevels ker Z' d) (atLevels ker Z d) opts rfl fuel S 0 _ h' fun sy mp lvl N mm B hb => by
              show (ker (Z' lvl)).level (levelKind opts sy mp) lvl N mm B = (ker (Z lvl)).level (levelKind opts sy mp) lvl N mm B
              rw [hZ']
              simp only
              rw [if_neg (by omega)]
          refine ⟨Z', fun l => ?_, fun h0 => ?_, fun h0 => by rw [hZ1, hzs h0], ?_⟩
          · rw [hZ']; simp only; split
            · exact hq
            · exact z1 l
          · have : Z' 1 = z := by rw [← hZ1, h0]
            rw [this]; exact hz h0
          · rw [hstep Z' hZ1 h' _ e, hstepS h' _ e]
            simp only [hu, if_true, hlast]
            have hl2 : (HM.lift (next z P) : HM K Sizes) h' = (h', .ok z') := by unfold HM.lift; rw [n1]
            rw [bind_ok hl2, hcong]
            intro hfin
            obtain ⟨y1, y2⟩ := z4 hfin
            refine ⟨y1, fun k P' hk hle hlt => ?_⟩
            by_cases hk0 : k = h.levels
            · -- this level
              obtain ⟨new, ha⟩ := factorizeKernel_append (atLevels ker Z d) opts fuel S 0 (pivotFlag opts mp (.next S)) h'
              have hPk : P' = P := by
                rw [ha, hp, hk0] at hk
                rw [hlv, List.append_assoc, List.getElem?_append_right (le_refl _)] at hk
                simp at hk
                exact hk.symm
              have e1 : Z' (k + 1) = z := by rw [hk0]; exact hZ1
              have e2 : Z' (k + 2) = z' := by
                rw [hZ']; simp only
                rw [if_neg (by omega), hk0]
                have := z3 (by omega)
                rw [hlen'] at this
                exact this
              rw [e1, e2, hPk]
              exact n1
            · have e1 : Z' (k + 1) = Z (k + 1) := by rw [hZ']; simp only; rw [if_neg (by omega)]
              have e2 : Z' (k + 2) = Z (k + 2) := by rw [hZ']; simp only; rw [if_neg (by omega)]
              rw [e1, e2]
              exact y2 k P' hk (by omega) hlt
        · -- the update cannot be relied on
          refine ⟨fun _ => z, fun _ => hq, hz, hzs, fun hfin => absurd (hfin P ?_) hf⟩
          rw [hstep (fun _ => z) rfl h' _ e]
          simp only [hu, if_true]
          obtain ⟨new, ha⟩ := factorizeKernel_append (atLevels ker (fun _ => z) d) opts fuel S 0 (pivotFlag opts mp (.next S)) h'
          rw [ha, hp]
          simp
      · exact hend _ _ e (by omega) (Or.inr ⟨⟨_, rfl⟩, by simpa using hu⟩)

/-! ### what holds of every level that is stored -/

/-- The levels of a list fit together: each has the size that its predecessor left, and satisfies `Q`. -/
inductive Chain (Q : Nat → Prec K → Prop) : Nat → Nat → List (Prec K) → Prop
  | nil (lvl n : Nat) : Chain Q lvl n []
  | cons {lvl : Nat} {P : Prec K} {l : List (Prec K)} : Q lvl P → P.m ≤ P.n → Chain Q (lvl + 1) (P.n - P.m) l → Chain Q lvl P.n (P :: l)

theorem Chain.mono {Q Q' : Nat → Prec K → Prop} {lvl n : Nat} {l : List (Prec K)} (h : Chain Q lvl n l) (hq : ∀ lvl P, P.n ≤ n → Q lvl P → Q' lvl P) :
    Chain Q' lvl n l := by
  induction h with
  | nil lvl n => exact .nil _ _
  | cons h1 h2 _ ih => exact .cons (hq _ _ (le_refl _) h1) h2 (ih fun lvl P hP => hq lvl P (by omega))

theorem Chain.all {Q : Nat → Prec K → Prop} {lvl n : Nat} {l : List (Prec K)} (h : Chain Q lvl n l) : ∀ P ∈ l, P.n ≤ n ∧ ∃ k, Q k P := by
  induction h with
  | nil lvl n => simp
  | cons h1 h2 _ ih =>
    intro P hP
    rcases List.mem_cons.1 hP with rfl | hP
    · exact ⟨le_refl _, _, h1⟩
    · have := ih P hP
      exact ⟨by omega, this.2⟩

/-- The levels stored by a run of the driver, whether it completes or not. -/
theorem factorizeKernel_chain (ker : Kernels K) (opts : FacOpts) (Q : Nat → Prec K → Prop) (hQ : ∀ lvl P l, Q lvl P → Q lvl { P with last := l })
    (Inv : CS K → Prop) (Lead : Nat → CS K → Prop)
    (hstep : ∀ lvl sym mp N m A out, 0 < lvl → Inv A → (sym = true → Lead m A) → (sym = false → m = A.psize) →
      ker.level (levelKind opts sym mp) lvl N m A = .ok out → givesUp (levelKind opts sym mp) opts (postFlag out.m2 out.m).1 = false →
      Q lvl (out.toPrec A.psize (postFlag out.m2 out.m).2) ∧ (postFlag out.m2 out.m).2 ≤ A.psize ∧
        ((postFlag out.m2 out.m).2 < A.psize → Inv (out.rest A (postFlag out.m2 out.m).2) ∧
          (out.rest A (postFlag out.m2 out.m).2).psize = A.psize - (postFlag out.m2 out.m).2)) :
    ∀ fuel A m0 mp h, h.unfinished = true → Inv A → (0 < m0 → Lead m0 A) →
      ∃ new, (factorizeKernel ker opts fuel A m0 mp h).1.precs = h.precs ++ new ∧ Chain Q (h.levels + 1) A.psize new
  | 0, A, m0, mp, h, _, _, _ => ⟨[], by simp [factorizeKernel, HM.lift], .nil _ _⟩
  | fuel + 1, A, m0, mp, h, hun, hi, hl => by
    have hlv := levels_unfinished hun
    rw [factorizeKernel]
    by_cases hsq : A.psize ≠ A.ssize
    · rw [if_pos hsq]; exact ⟨[], by simp [HM.fail], .nil _ _⟩
    rw [if_neg hsq, bind_ok (h' := h) (a := h) rfl]
    set sym := (h.levels + 1 == 1 && decide (0 < m0)) with hsym
    have shape := levelFactorize_shape ker opts (levelKind opts sym mp) (h.levels + 1) (refSize opts h A) (if sym = true then m0 else A.psize) A h
    rcases shape with ⟨err, -, e⟩ | ⟨out, ho, ⟨-, e⟩ | ⟨hg, h', l, res, e, hp, hl0, hl1, hres⟩⟩
    · rw [bind_error e]
      exact ⟨[], (List.append_nil _).symm, .nil _ _⟩
    · rw [bind_ok e, bind_ok (h' := h) (a := h) rfl]
      simp only [hun, if_true]
      exact factorizeKernel_chain ker opts Q hQ Inv Lead hstep fuel A 0 _ h hun hi (fun h0 => absurd h0 (lt_irrefl _))
    · obtain ⟨q1, q2, q3⟩ := hstep (h.levels + 1) sym mp _ _ A out (by omega) hi (fun hs => by
          rw [if_pos hs]
          refine hl ?_
          rw [hsym] at hs
          simp at hs
          exact hs.2) (fun hs => by rw [hs]; rfl) ho hg
      have q1 := hQ _ _ l q1
      obtain ⟨pm, pn, pl⟩ := toPrec_m out A.psize (postFlag out.m2 out.m).2
      set P := ({ out.toPrec A.psize (postFlag out.m2 out.m).2 with last := l } : Prec K) with hP
      have pm : P.m = (postFlag out.m2 out.m).2 := pm
      have pn : P.n = A.psize := pn
      have one : Chain Q (h.levels + 1) A.psize [P] := by
        rw [← pn]
        exact .cons q1 (by omega) (.nil _ _)
      rcases hres with ⟨err, rfl⟩ | rfl
      · rw [bind_error e]
        exact ⟨[P], hp, one⟩
      rw [bind_ok e, bind_ok (h' := h') (a := h') rfl]
      split
      · rename_i hu
        have hlen' := levels_unfinished hu
        have hlast : h'.precs.getLast? = some P := by rw [hp]; simp
        have hlt : (postFlag out.m2 out.m).2 < A.psize := by
          unfold HIF.unfinished at hu
          rw [hlast] at hu
          simp only [Prec.isLast, Bool.not_eq_true', Bool.or_eq_false_iff, beq_eq_false_iff_ne] at hu
          omega
        obtain ⟨i1, i2⟩ := q3 hlt
        obtain ⟨new, n1, n2⟩ := factorizeKernel_chain ker opts Q hQ Inv Lead hstep fuel _ 0 (pivotFlag opts mp (.next (out.rest A (postFlag out.m2 out.m).2))) h' hu i1
          (fun h0 => absurd h0 (lt_irrefl _))
        refine ⟨P :: new, by rw [n1, hp]; simp, ?_⟩
        rw [← pn]
        refine .cons q1 (by omega) ?_
        rw [hlen', hp] at n2
        rw [i2] at n2
        simp only [List.length_append, List.length_cons, List.length_nil] at n2
        rw [hlv, pn, pm]
        exact n2
      · exact ⟨[P], hp, one⟩

end
end Level
end Hif
