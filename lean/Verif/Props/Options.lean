import Verif.Options
import Mathlib.Data.Rat.Floor
import Mathlib.Tactic.FinCases

set_option linter.unusedSectionVars false
set_option linter.unusedSimpArgs false

/-!
# Properties of the control parameters (C34, C35, C55)
-/

namespace Hif.Spec
variable {D : Type _}

/-- What the user sees of an option record: the documented options, by name, in the order of their declaration
(Options.h 82–118 and the user guide), each a real or an integer. -/
def fields : List (String × (Options D → OptVal D)) :=
  [("tau_L", fun o => .dbl o.tau_L),
   ("tau_U", fun o => .dbl o.tau_U),
   ("kappa_d", fun o => .dbl o.kappa_d),
   ("kappa", fun o => .dbl o.kappa),
   ("alpha_L", fun o => .dbl o.alpha_L),
   ("alpha_U", fun o => .dbl o.alpha_U),
   ("rho", fun o => .dbl o.rho),
   ("c_d", fun o => .dbl o.c_d),
   ("c_h", fun o => .dbl o.c_h),
   ("N", fun o => .int o.N),
   ("verbose", fun o => .int o.verbose),
   ("rf_par", fun o => .int o.rf_par),
   ("reorder", fun o => .int o.reorder),
   ("spd", fun o => .int o.spd),
   ("check", fun o => .int o.check),
   ("pre_scale", fun o => .int o.pre_scale),
   ("symm_pre_lvls", fun o => .int o.symm_pre_lvls),
   ("threads", fun o => .int o.threads),
   ("mumps_blr", fun o => .int o.mumps_blr),
   ("fat_schur_1st", fun o => .int o.fat_schur_1st),
   ("rrqr_cond", fun o => .dbl o.rrqr_cond),
   ("pivot", fun o => .int o.pivot),
   ("gamma", fun o => .dbl o.gamma),
   ("beta", fun o => .dbl o.beta),
   ("is_symm", fun o => .int o.is_symm),
   ("no_pre", fun o => .int o.no_pre),
   ("nzp_thres", fun o => .dbl o.nzp_thres),
   ("dense_thres", fun o => .int o.dense_thres)]

/-- A value converted to the kind of number an option holds. -/
def likewise [Field D] (trunc : D → Int) (old v : OptVal D) : OptVal D :=
  match old with
  | .dbl _ => .dbl v.asD
  | .int _ => .int (v.asI trunc)

/-- The documented slots of the C parameter array, in order (libhifir.h 96–117), and the option each one stands for. -/
def slots : List String :=
  ["tau_L", "tau_U", "kappa_d", "kappa", "alpha_L", "alpha_U", "verbose", "reorder", "symm_pre_lvls", "threads", "rrqr_cond", "pivot", "beta", "is_symm", "no_pre", "nzp_thres", "dense_thres"]

/-- Text output of an option value. -/
structure Writer (D T : Type _) where
  putD : D → T
  putI : Int → T

def Writer.put {T : Type _} (w : Writer D T) : OptVal D → T
  | .dbl x => w.putD x
  | .int z => w.putI z

/-- What is written can be read back; an integer can also be read as a real. -/
structure RoundTrip [Field D] {T : Type _} (w : Writer D T) (r : Options.Reader D T) : Prop where
  dd : ∀ x, r.readD (w.putD x) = some x
  ii : ∀ z, r.readI (w.putI z) = some z
  id : ∀ z, r.readD (w.putI z) = some (z : D)

/-- The options written one after the other, leaving out the names in `skip`. -/
def written {T : Type _} (w : Writer D T) (skip : List String) (o : Options D) : List T :=
  (fields.filter fun f => f.1 ∉ skip).map fun f => w.put (f.2 o)

end Hif.Spec

namespace Hif.Props
open Spec
variable {D : Type _} [Field D]

/-- The list of names is complete: records that agree on every name are equal; no name occurs twice. -/
theorem C34_fields_complete (o o' : Options D) (h : ∀ f ∈ fields, f.2 o = f.2 o') : o = o' := by
  simp only [fields, List.forall_mem_cons, OptVal.dbl.injEq, OptVal.int.injEq] at h
  cases o; cases o'
  simp only [Options.mk.injEq]
  tauto

theorem C34_names_distinct : ((fields (D := D)).map (·.1)).Nodup := by
  simp only [fields, List.map_cons, List.map_nil]
  decide

/-- Setting an option by its name succeeds and changes exactly that option, to the given value (converted to the kind of number
the option holds). -/
theorem C34_set_named (trunc : D → Int) (attr : String) (v : OptVal D) (o : Options D)
    (h : attr ∈ (fields (D := D)).map (·.1)) :
    (Options.setAttr trunc attr v o).1 = false ∧
      ∀ f ∈ fields, f.2 (Options.setAttr trunc attr v o).2 = if f.1 = attr then likewise trunc (f.2 o) v else f.2 o := by
  simp only [fields, List.map_cons, List.map_nil, List.mem_cons, List.not_mem_nil, or_false] at h
  rcases h with h | h | h | h | h | h | h | h | h | h | h | h | h | h | h | h | h | h | h | h | h | h | h | h | h | h | h | h <;>
    subst h <;>
    simp only [Options.setAttr, Options.tag2pos, Options.setPos, true_and, fields, List.forall_mem_cons, likewise] <;>
    simp

/-- An unknown name is reported as a failure and nothing changes. -/
theorem C34_set_unknown (trunc : D → Int) (attr : String) (v : OptVal D) (o : Options D)
    (h : attr ∉ (fields (D := D)).map (·.1)) : Options.setAttr trunc attr v o = (true, o) := by
  have : Options.tag2pos attr = none := by
    unfold Options.tag2pos
    split <;> first | rfl | (exfalso; apply h; simp [fields])
  simp [Options.setAttr, this]

/-- The table of data types agrees with the record. -/
theorem C34_dtypes (o : Options D) :
    Options.dtypes = fields.map fun f => match f.2 o with | .dbl _ => true | .int _ => false := by
  rfl

/-- Reading a stream with the options in declaration order *without* `pivot` restores them all; `pivot` keeps the value it had.
Missing for the full property: `pivot` is never read, see `C34_stream_misreads`. -/
theorem C34_stream_partial {T : Type _} (w : Writer D T) (r : Options.Reader D T) (hwr : RoundTrip w r) (o o₀ : Options D)
    (rest : List T) :
    Options.read r o₀ ⟨written w ["pivot"] o ++ rest, false⟩ = ({ o with pivot := o₀.pivot }, ⟨rest, false⟩) := by
  have e : written w ["pivot"] o = ((fields (D := D)).filter fun f => f.1 ∉ ["pivot"]).map fun f => w.put (f.2 o) := rfl
  simp [e, fields, Options.read, Options.getD', Options.getI', Options.Stream.next, Writer.put, hwr.dd, hwr.ii]

/-- The property itself is false of the code: for every record, writing all options in declaration order and reading them back
stores `pivot` in `gamma`; `pivot` keeps whatever value it had before. -/
theorem C34_stream_misreads {T : Type _} (w : Writer D T) (r : Options.Reader D T) (hwr : RoundTrip w r) (o o₀ : Options D)
    (rest : List T) :
    (Options.read r o₀ ⟨written w [] o ++ rest, false⟩).1.gamma = (o.pivot : D) ∧
      (Options.read r o₀ ⟨written w [] o ++ rest, false⟩).1.pivot = o₀.pivot := by
  have e : written w [] o = ((fields (D := D)).filter fun f => f.1 ∉ ([] : List String)).map fun f => w.put (f.2 o) := rfl
  constructor <;>
  simp [e, fields, Options.read, Options.getD', Options.getI', Options.Stream.next, Writer.put, hwr.dd, hwr.ii, hwr.id]

/-- The default options are not restored. -/
theorem C34_stream_witness {T : Type _} (w : Writer ℚ T) (r : Options.Reader ℚ T) (hwr : RoundTrip w r) (o₀ : Options ℚ) (rest : List T) :
    (Options.read r o₀ ⟨written w [] Options.defaults ++ rest, false⟩).1 ≠ Options.defaults := by
  intro h
  have := (C34_stream_misreads w r hwr (Options.defaults : Options ℚ) o₀ rest).1
  rw [h] at this
  norm_num [Options.defaults] at this

/-- Writers and readers as assumed exist. -/
example : RoundTrip (D := ℚ) (T := ℚ ⊕ Int) ⟨.inl, .inr⟩ ⟨fun t => some (t.elim id (fun z => (z : ℚ))), fun t => t.elim (fun _ => none) some⟩ :=
  ⟨fun _ => rfl, fun _ => rfl, fun _ => rfl⟩

/-! ### The C parameter array -/

/-- Reading the parameter array touches its first seventeen elements only, and the option record obtained has, for every
documented slot, the value of the slot, and the default value for all other options. -/
theorem C35_create_params (trunc : D → Int) (params : Buf D) (hsz : LHF_NUMBER_PARAMS ≤ params.size) :
    Runs (createParams trunc params) fun o =>
      ∀ f ∈ fields, f.2 o = match slots.idxOf? f.1 with
        | some k => likewise trunc (f.2 o) (.dbl (params.get k))
        | none => f.2 Options.defaults := by
  have hs : ∀ k, k < 17 → k < params.size := fun k hk => lt_of_lt_of_le hk hsz
  unfold createParams
  simp only [runs_bind, runs_rd, runs_pure]
  simp only [hs, Nat.reduceLT, true_and]
  simp only [fields, List.forall_mem_cons, slots, likewise]
  simp [List.idxOf?, List.findIdx?_cons, OptVal.asD, OptVal.asI, Options.defaults]

/-- `lhfSetDefaultParams` followed by the conversion gives the default options. -/
theorem C35_defaults (trunc : D → Int) (htr : ∀ z : Int, trunc (z : D) = z) (params : Buf D) (hsz : LHF_NUMBER_PARAMS ≤ params.size) :
    Runs (setDefaultParams params >>= createParams trunc) fun o => o = Options.defaults := by
  have hs : ∀ k, k < 17 → k < params.size := fun k hk => lt_of_lt_of_le hk hsz
  unfold createParams setDefaultParams
  simp only [runs_bind, runs_rd, runs_wr, runs_pure, Buf.set_size]
  simp only [hs, Nat.reduceLT, true_and, Buf.set_get]
  simp [htr]

/-- The elements a call changed: everything except the listed slots is as before. -/
def OnlySlots (ks : List Nat) (v : D) (before after : Buf D) : Prop :=
  after.size = before.size ∧ ∀ i, after.get i = if i ∈ ks then v else before.get i

theorem C35_droptol (v : D) (params : Buf D) (hsz : LHF_NUMBER_PARAMS ≤ params.size) :
    Runs (setDroptol v params) (OnlySlots [slots.idxOf "tau_L", slots.idxOf "tau_U"] v params) := by
  have hs : ∀ k, k < 17 → k < params.size := fun k hk => lt_of_lt_of_le hk hsz
  unfold setDroptol
  simp only [runs_bind, runs_wr, runs_pure, Buf.set_size]
  refine ⟨hs _ (by decide), hs _ (by decide), rfl, fun i => ?_⟩
  have e : [slots.idxOf "tau_L", slots.idxOf "tau_U"] = [0, 1] := by decide
  rw [e]
  simp only [Buf.set_get, List.mem_cons, List.not_mem_nil, or_false]
  split_ifs <;> simp_all

theorem C35_alpha (v : D) (params : Buf D) (hsz : LHF_NUMBER_PARAMS ≤ params.size) :
    Runs (setAlpha v params) (OnlySlots [slots.idxOf "alpha_L", slots.idxOf "alpha_U"] v params) := by
  have hs : ∀ k, k < 17 → k < params.size := fun k hk => lt_of_lt_of_le hk hsz
  unfold setAlpha
  simp only [runs_bind, runs_wr, runs_pure, Buf.set_size]
  refine ⟨hs _ (by decide), hs _ (by decide), rfl, fun i => ?_⟩
  have e : [slots.idxOf "alpha_L", slots.idxOf "alpha_U"] = [4, 5] := by decide
  rw [e]
  simp only [Buf.set_get, List.mem_cons, List.not_mem_nil, or_false]
  split_ifs <;> simp_all

theorem C35_kappa (v : D) (params : Buf D) (hsz : LHF_NUMBER_PARAMS ≤ params.size) :
    Runs (setKappa v params) (OnlySlots [slots.idxOf "kappa", slots.idxOf "kappa_d"] v params) := by
  have hs : ∀ k, k < 17 → k < params.size := fun k hk => lt_of_lt_of_le hk hsz
  unfold setKappa
  simp only [runs_bind, runs_wr, runs_pure, Buf.set_size]
  refine ⟨hs _ (by decide), hs _ (by decide), rfl, fun i => ?_⟩
  have e : [slots.idxOf "kappa", slots.idxOf "kappa_d"] = [3, 2] := by decide
  rw [e]
  simp only [Buf.set_get, List.mem_cons, List.not_mem_nil, or_false]
  split_ifs <;> simp_all

/-- Changing one documented slot changes exactly the corresponding option. -/
theorem C35_one_slot (trunc : D → Int) (params : Buf D) (hsz : LHF_NUMBER_PARAMS ≤ params.size) (k : Nat) (hk : k < slots.length) (v : D) :
    Runs (createParams trunc params) fun o => Runs (createParams trunc (params.set k v)) fun o' =>
      ∀ f ∈ fields, f.2 o' = if slots[k] = f.1 then likewise trunc (f.2 o) (.dbl v) else f.2 o := by
  refine (C35_create_params trunc params hsz).mono fun o ho => ?_
  refine (C35_create_params trunc (params.set k v) (by simpa using hsz)).mono fun o' ho' => ?_
  intro f hf
  have h1 := ho f hf
  have h2 := ho' f hf
  have hlike : ∀ u : OptVal D, likewise trunc (f.2 o) u = likewise trunc (f.2 o') u := by
    intro u
    simp only [fields, List.mem_cons, List.not_mem_nil, or_false] at hf
    rcases hf with hf | hf | hf | hf | hf | hf | hf | hf | hf | hf | hf | hf | hf | hf | hf | hf | hf | hf | hf | hf | hf | hf | hf | hf | hf | hf | hf | hf <;>
      subst hf <;> rfl
  have hnd : slots.Nodup := by decide
  rcases hi : slots.idxOf? f.1 with _ | i
  · rw [hi] at h1 h2
    simp only at h1 h2
    rw [h1, h2, if_neg]
    intro he
    rw [List.idxOf?_eq_none_iff] at hi
    exact hi (he ▸ List.getElem_mem hk)
  · rw [hi] at h1 h2
    simp only at h1 h2
    obtain ⟨hil, hie, -⟩ := List.findIdx?_eq_some_iff_getElem.mp hi
    have hie : slots[i] = f.1 := by simpa using hie
    have hset : (params.set k v).get i = if i = k then v else params.get i := rfl
    rw [hset] at h2
    by_cases hik : i = k
    · subst hik
      rw [if_pos rfl] at h2
      rw [if_pos hie, hlike, ← h2]
    · rw [if_neg hik] at h2
      rw [if_neg, h2, ← hlike, ← h1]
      intro he
      exact hik ((List.Nodup.getElem_inj_iff hnd).mp (hie.trans he.symm))

/-- The hypotheses are met by the documented call sequence. -/
example : Runs (setDefaultParams (⟨17, fun _ => 0⟩ : Buf ℚ)) fun ps => ps.size = 17 ∧ Runs (setDroptol (1 / 100) ps) fun ps =>
    ps.size = 17 ∧ Runs (createParams Int.floor ps) fun o => o.tau_L = 1 / 100 := by
  unfold setDefaultParams
  simp only [runs_bind, runs_wr, runs_pure, Buf.set_size, Nat.reduceLT, true_and]
  refine (C35_droptol (1 / 100 : ℚ) _ (by simp [LHF_NUMBER_PARAMS])).mono fun ps hps => ⟨hps.1, ?_⟩
  refine (C35_create_params _ ps (by rw [hps.1]; simp [LHF_NUMBER_PARAMS])).mono fun o ho => ?_
  have h := ho ("tau_L", fun o => .dbl o.tau_L) (by simp [fields])
  have e : slots.idxOf? "tau_L" = some 0 := by decide
  have e' : (0 : Nat) ∈ [slots.idxOf "tau_L", slots.idxOf "tau_U"] := by decide
  simpa only [e, likewise, OptVal.asD, hps.2, if_pos e', OptVal.dbl.injEq] using h

/-! ### Verbosity -/

/-- The classes of the core that the documented C constants are named after. -/
def sameName : LhfClass → CoreClass
  | .info => .info
  | .pre => .pre
  | .fac => .fac
  | .preTime => .preTime
  | .mem => .mem

/-- `LHF_VERBOSE_NULL` (zero) mutes every class.  Missing for the full property: the other constants, see `C55_shifted`. -/
theorem C55_null_mutes_partial (o : Options D) (h : o.verbose = 0) (c : CoreClass) : verboseOn c o = false := by
  cases c <;> simp [verboseOn, h, CoreClass.const] <;> decide

/-- The class the core actually reports for a C constant. -/
def actual : LhfClass → CoreClass
  | .info => .warn
  | .pre => .info
  | .fac => .pre
  | .preTime => .fac
  | .mem => .preTime

/-- Passing any documented constant through the parameter array enables exactly one class of messages, and never the one of
the same name: the C constants are one bit lower than those of the core. -/
theorem C55_shifted (trunc : D → Int) (htr : ∀ z : Int, trunc (z : D) = z) (params : Buf D) (hsz : LHF_NUMBER_PARAMS ≤ params.size)
    (c : LhfClass) (hv : params.get (slots.idxOf "verbose") = (c.const : D)) :
    Runs (createParams trunc params) fun o =>
      (∀ k, verboseOn k o = true ↔ k = actual c) ∧ verboseOn (sameName c) o = false := by
  refine (C35_create_params trunc params hsz).mono fun o ho => ?_
  have h := ho ("verbose", fun o => .int o.verbose) (by simp [fields])
  have e : slots.idxOf? "verbose" = some 6 := by decide
  have e' : slots.idxOf "verbose" = 6 := by decide
  rw [e'] at hv
  simp only [e, likewise, OptVal.asI, hv, htr, OptVal.int.injEq] at h
  constructor
  · intro k
    unfold verboseOn
    rw [h]
    cases c <;> cases k <;> decide
  · unfold verboseOn
    rw [h]
    cases c <;> decide

/-- The same for any combination of constants: the class of the core with a given name is on exactly if the *next* constant of
the C interface was included (`LHF_VERBOSE_INFO` corresponds to warnings). -/
theorem C55_combined_partial (trunc : D → Int) (htr : ∀ z : Int, trunc (z : D) = z) (params : Buf D) (hsz : LHF_NUMBER_PARAMS ≤ params.size)
    (v : Int) (hv : params.get (slots.idxOf "verbose") = (v : D)) :
    Runs (createParams trunc params) fun o => ∀ c : LhfClass,
      (verboseOn (actual c) o = true ↔ Int.land v c.const ≠ 0) := by
  refine (C35_create_params trunc params hsz).mono fun o ho c => ?_
  have h := ho ("verbose", fun o => .int o.verbose) (by simp [fields])
  have e : slots.idxOf? "verbose" = some 6 := by decide
  have e' : slots.idxOf "verbose" = 6 := by decide
  rw [e'] at hv
  simp only [e, likewise, OptVal.asI, hv, htr, OptVal.int.injEq] at h
  unfold verboseOn
  rw [h]
  cases c <;> simp only [actual, CoreClass.const, LhfClass.const, bne_iff_ne]

end Hif.Props
