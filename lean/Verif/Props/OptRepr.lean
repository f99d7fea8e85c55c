import Verif.OptRepr
import Verif.Props.Options
import Verif.Props.Ascii

set_option linter.unusedVariables false

/-!
# C90: options as text

A text is read as a user reads it: line by line, the name of an option is what stands before the first space, its value what follows the spaces.
-/

namespace Hif
namespace Spec

variable {D : Type}

/-- The lines of a text; `acc` is the part of the current line already met. -/
def linesFrom : List Char → List Char → List (List Char)
  | acc, [] => if acc = [] then [] else [acc]
  | acc, c :: s => if c = '\n' then acc :: linesFrom [] s else linesFrom (acc ++ [c]) s

/-- What stands before the first space of a line. -/
def lineName (l : List Char) : List Char := l.takeWhile (· ≠ ' ')

/-- What follows the spaces after the name. -/
def lineValue (l : List Char) : List Char := (l.dropWhile (· ≠ ' ')).dropWhile (· = ' ')

/-- The value of a named option in a text. -/
def lookup (text : List Char) (name : String) : Option (List Char) := ((linesFrom [] text).find? fun l => lineName l = name.toList).map lineValue

/-- The classes of messages that have a name, with their bits (Options.h 46–55, user guide). -/
def classNames : List (String × CoreClass) := [("warning", .warn), ("info", .info), ("pre", .pre), ("fac", .fac), ("pre_time", .preTime), ("mem", .mem)]

/-- The names of the enabled classes, separated by commas. -/
def classText (o : Options D) : String := ",".intercalate ((classNames.filter fun c => verboseOn c.2 o).map (·.1))

/-- How an option is shown: reals as `pd` prints them, integers as decimal numerals, four options by words. -/
def Shown (pd : D → List Char) (o : Options D) (name : String) (v : OptVal D) (w : List Char) : Prop :=
  if name = "verbose" then w = if o.verbose = 0 then "none".toList else (classText o).toList
  else if name = "reorder" then w = (if o.reorder < 0 then "Null" else ["Off", "Auto", "AMD", "RCM"][o.reorder.toNat]?.getD "Null").toList
  else if name = "check" then w = if o.check = 0 then "no".toList else "yes".toList
  else if name = "pivot" then w = if o.pivot = 0 then "off".toList else if o.pivot = 1 then "on".toList else "auto".toList
  else match v with
    | .dbl x => w = pd x
    | .int z => Ascii.IntNumeral z w

/-- No space and no new line. -/
def Solid (v : List Char) : Prop := ∀ c ∈ v, c ≠ '\n' ∧ c ≠ ' '

end Spec

namespace Props
open Spec Options

variable {D : Type}

theorem linesFrom_line (l : List Char) (hl : ∀ c ∈ l, c ≠ '\n') : ∀ acc s, linesFrom acc (l ++ '\n' :: s) = (acc ++ l) :: linesFrom [] s := by
  induction l with
  | nil => intro acc s; simp [linesFrom]
  | cons c l ih =>
    intro acc s
    rw [List.cons_append, linesFrom, if_neg (hl c (by simp)), ih (fun c hc => hl c (by simp [hc]))]
    simp

/-- A line without its end. -/
def line (p : String × List Char) : List Char := p.1.toList ++ (List.replicate (leadingSize - p.1.toList.length) ' ' ++ p.2)

/-- A name fits into the first column. -/
def NameOK (s : String) : Prop := Solid s.toList ∧ s.toList.length < leadingSize

theorem line_solid {p : String × List Char} (h1 : NameOK p.1) (h2 : Solid p.2) : ∀ c ∈ line p, c ≠ '\n' := by
  intro c hc
  simp only [line, List.mem_append, List.mem_replicate] at hc
  rcases hc with h | ⟨-, rfl⟩ | h
  · exact (h1.1 c h).1
  · decide
  · exact (h2 c h).1

theorem lines_pack : ∀ (l : List (String × List Char)), (∀ p ∈ l, NameOK p.1 ∧ Solid p.2) → linesFrom [] (l.flatMap fun p => pack p.1 p.2) = l.map line := by
  intro l
  induction l with
  | nil => intro _; rfl
  | cons p l ih =>
    intro h
    obtain ⟨h1, h2⟩ := h p (by simp)
    have : pack p.1 p.2 ++ l.flatMap (fun p => pack p.1 p.2) = line p ++ '\n' :: l.flatMap (fun p => pack p.1 p.2) := by
      simp [pack, line]
    rw [List.flatMap_cons, this, linesFrom_line _ (line_solid h1 h2), ih fun q hq => h q (by simp [hq])]
    rfl

theorem takeWhile_solid {v : List Char} (h : Solid v) (s : List Char) : (v ++ ' ' :: s).takeWhile (· ≠ ' ') = v := by
  induction v with
  | nil => rfl
  | cons c v ih =>
    rw [List.cons_append, List.takeWhile_cons_of_pos (by simpa using (h c (by simp)).2), ih fun c hc => h c (by simp [hc])]

theorem dropWhile_solid {v : List Char} (h : Solid v) (s : List Char) : (v ++ ' ' :: s).dropWhile (· ≠ ' ') = ' ' :: s := by
  induction v with
  | nil => rfl
  | cons c v ih =>
    rw [List.cons_append, List.dropWhile_cons_of_pos (by simpa using (h c (by simp)).2), ih fun c hc => h c (by simp [hc])]

theorem dropWhile_blanks {v : List Char} (h : Solid v) (n : Nat) : (List.replicate n ' ' ++ v).dropWhile (· = ' ') = v := by
  induction n with
  | zero =>
    cases v with
    | nil => rfl
    | cons c v => exact List.dropWhile_cons_of_neg (by simpa using (h c (by simp)).2)
  | succ n ih => rw [List.replicate_succ, List.cons_append, List.dropWhile_cons_of_pos (by simp), ih]

theorem line_eq {p : String × List Char} (h1 : NameOK p.1) : line p = p.1.toList ++ ' ' :: (List.replicate (leadingSize - p.1.toList.length - 1) ' ' ++ p.2) := by
  unfold line
  obtain ⟨k, hk⟩ : ∃ k, leadingSize - p.1.toList.length = k + 1 := ⟨leadingSize - p.1.toList.length - 1, by have := h1.2; omega⟩
  rw [hk, List.replicate_succ]
  rfl

theorem line_name {p : String × List Char} (h1 : NameOK p.1) : lineName (line p) = p.1.toList := by
  unfold lineName
  rw [line_eq h1, takeWhile_solid h1.1]

theorem line_value {p : String × List Char} (h1 : NameOK p.1) (h2 : Solid p.2) : lineValue (line p) = p.2 := by
  unfold lineValue
  rw [line_eq h1, dropWhile_solid h1.1, List.dropWhile_cons_of_pos (by simp), dropWhile_blanks h2]

theorem find_line : ∀ (l : List (String × List Char)), (∀ p ∈ l, NameOK p.1 ∧ Solid p.2) → (l.map (·.1)).Nodup → ∀ p ∈ l,
    (l.map line).find? (fun s => lineName s = p.1.toList) = some (line p) := by
  intro l
  induction l with
  | nil => intro _ _ p hp; cases hp
  | cons q l ih =>
    intro h hn p hp
    have hq := h q (by simp)
    rw [List.map_cons, List.nodup_cons] at hn
    rw [List.map_cons]
    rcases List.mem_cons.1 hp with rfl | hp
    · exact List.find?_cons_of_pos (by simpa using line_name hq.1)
    · rw [List.find?_cons_of_neg, ih (fun p hp => h p (by simp [hp])) hn.2 p hp]
      simp only [decide_eq_true_eq]
      rw [line_name hq.1]
      intro he
      exact hn.1 (List.mem_map.2 ⟨p, hp, (String.toList_inj.1 he).symm⟩)

/-! ### The names of the message classes -/

theorem verbose_text (o : Options D) (h0 : o.verbose ≠ 0) (h : verboseOn .warn o = false ∨ verboseOn .info o = false) : getVerbose o = classText o := by
  unfold getVerbose classText
  rw [if_neg h0]
  simp only [classNames, List.filter_cons, List.filter_nil]
  generalize verboseOn .warn o = b1 at h ⊢
  generalize verboseOn .info o = b2 at h ⊢
  generalize verboseOn .pre o = b3
  generalize verboseOn .fac o = b4
  generalize verboseOn .preTime o = b5
  generalize verboseOn .mem o = b6
  revert h
  revert b1 b2 b3 b4 b5 b6
  decide +kernel

/-- C90 (classes): `get_verbose` names the enabled classes of messages, in order, separated by commas, unless warnings and information are both enabled. -/
theorem C90_verbose_partial (o : Options D) (h0 : o.verbose ≠ 0) (h : ¬ (verboseOn .warn o = true ∧ verboseOn .info o = true)) : getVerbose o = classText o :=
  verbose_text o h0 (by
    cases h1 : verboseOn .warn o with
    | false => exact Or.inl rfl
    | true =>
      cases h2 : verboseOn .info o with
      | false => exact Or.inr rfl
      | true => exact absurd ⟨h1, h2⟩ h)

/-- With warnings and information both enabled, the second is not reported. -/
theorem C90_verbose_hides_info (o : Options D) (h1 : verboseOn .warn o = true) (o' : Options D) (h0 : o.verbose ≠ 0) (h0' : o'.verbose ≠ 0)
    (h : ∀ c, c ≠ CoreClass.info → c ≠ CoreClass.info2 → verboseOn c o' = verboseOn c o) : getVerbose o' = getVerbose o := by
  unfold getVerbose
  rw [if_neg h0, if_neg h0', h .warn (by decide) (by decide), h .pre (by decide) (by decide), h .fac (by decide) (by decide), h .preTime (by decide) (by decide),
    h .mem (by decide) (by decide), h1]
  rfl

/-! ### The lines -/

/-- The names and values that are printed. -/
def entries (pd : D → List Char) (o : Options D) : List (String × List Char) :=
  [("tau_L", pd o.tau_L), ("tau_U", pd o.tau_U), ("kappa_d", pd o.kappa_d), ("kappa", pd o.kappa), ("alpha_L", pd o.alpha_L), ("alpha_U", pd o.alpha_U),
   ("rho", pd o.rho), ("c_d", pd o.c_d), ("c_h", pd o.c_h), ("N", Hif.Ascii.showInt o.N), ("verbose", (getVerbose o).toList), ("rf_par", Hif.Ascii.showInt o.rf_par),
   ("reorder", (reorderName o).toList), ("spd", Hif.Ascii.showInt o.spd), ("check", if o.check ≠ 0 then "yes".toList else "no".toList),
   ("pre_scale", Hif.Ascii.showInt o.pre_scale), ("symm_pre_lvls", Hif.Ascii.showInt o.symm_pre_lvls), ("threads", Hif.Ascii.showInt o.threads),
   ("fat_schur_1st", Hif.Ascii.showInt o.fat_schur_1st), ("rrqr_cond", pd o.rrqr_cond),
   ("pivot", if o.pivot = 0 then "off".toList else if o.pivot = 1 then "on".toList else "auto".toList), ("gamma", pd o.gamma), ("beta", pd o.beta),
   ("is_symm", Hif.Ascii.showInt o.is_symm), ("no_pre", Hif.Ascii.showInt o.no_pre), ("nzp_thres", pd o.nzp_thres), ("dense_thres", Hif.Ascii.showInt o.dense_thres)]

theorem foldl_append (l : List (String × List Char)) : ∀ acc : List Char, l.foldl (fun a p => a ++ pack p.1 p.2) acc = acc ++ l.flatMap fun p => pack p.1 p.2 := by
  induction l with
  | nil => intro acc; simp
  | cons p l ih => intro acc; rw [List.foldl_cons, ih, List.flatMap_cons, List.append_assoc]

theorem repr_entries (pd : D → List Char) (o : Options D) : Options.repr pd o = (entries pd o).flatMap fun p => pack p.1 p.2 := by
  have h : Options.repr pd o = (entries pd o).tail.foldl (fun a p => a ++ pack p.1 p.2) (pack "tau_L" (pd o.tau_L)) := rfl
  rw [h, foldl_append]
  rfl

theorem showInt_solid (z : Int) : Solid (Hif.Ascii.showInt z) := fun c hc => by
  have h := (intNumeral_word (showInt_numeral z)).2 c hc
  constructor
  · rintro rfl; exact h (by unfold Spec.MM.Blank; decide)
  · rintro rfl; exact h (by unfold Spec.MM.Blank; decide)

/-- Decision of `Solid`. -/
def solidB (v : List Char) : Bool := v.all fun c => c ≠ '\n' && c ≠ ' '

theorem solidB_sound {v : List Char} (h : solidB v = true) : Solid v := fun c hc => by
  have := List.all_eq_true.1 h c hc
  simpa using this

theorem verbose_solid (o : Options D) : Solid (getVerbose o).toList := by
  apply solidB_sound
  unfold getVerbose
  split
  · decide +kernel
  · generalize verboseOn .warn o = b1
    generalize verboseOn .info o = b2
    generalize verboseOn .pre o = b3
    generalize verboseOn .fac o = b4
    generalize verboseOn .preTime o = b5
    generalize verboseOn .mem o = b6
    revert b1 b2 b3 b4 b5 b6
    decide +kernel

/-- Decision of `NameOK`. -/
def nameB (s : String) : Bool := solidB s.toList && decide (s.toList.length < leadingSize)

theorem nameB_sound {s : String} (h : nameB s = true) : NameOK s := by
  simp only [nameB, Bool.and_eq_true, decide_eq_true_eq] at h
  exact ⟨solidB_sound h.1, h.2⟩

/-- The printed names. -/
def names : List String := ["tau_L", "tau_U", "kappa_d", "kappa", "alpha_L", "alpha_U", "rho", "c_d", "c_h", "N", "verbose", "rf_par", "reorder", "spd", "check",
  "pre_scale", "symm_pre_lvls", "threads", "fat_schur_1st", "rrqr_cond", "pivot", "gamma", "beta", "is_symm", "no_pre", "nzp_thres", "dense_thres"]

theorem entries_names (pd : D → List Char) (o : Options D) : (entries pd o).map (·.1) = names := rfl

theorem names_ok : ∀ s ∈ names, NameOK s := fun s hs => nameB_sound (by
  have h : names.all nameB = true := by decide +kernel
  exact List.all_eq_true.1 h s hs)

theorem names_nodup : names.Nodup := by decide +kernel

theorem reorder_solid (o : Options D) : Solid (reorderName o).toList := by
  apply solidB_sound
  unfold reorderName
  split_ifs <;> decide +kernel

theorem check_solid (o : Options D) : Solid (if o.check ≠ 0 then "yes".toList else "no".toList) := by
  apply solidB_sound
  split_ifs <;> decide +kernel

theorem pivot_solid (o : Options D) : Solid (if o.pivot = 0 then "off".toList else if o.pivot = 1 then "on".toList else "auto".toList) := by
  apply solidB_sound
  split_ifs <;> decide +kernel

theorem entries_ok {pd : D → List Char} (hpd : ∀ x, Solid (pd x)) (o : Options D) : ∀ p ∈ entries pd o, NameOK p.1 ∧ Solid p.2 := by
  intro p hp
  refine ⟨names_ok _ (by rw [← entries_names pd o]; exact List.mem_map.2 ⟨p, hp, rfl⟩), ?_⟩
  have hall : ∀ p ∈ entries pd o, Solid p.2 := by
    unfold entries
    refine List.forall_mem_cons.2 ⟨hpd _, ?_⟩
    refine List.forall_mem_cons.2 ⟨hpd _, ?_⟩
    refine List.forall_mem_cons.2 ⟨hpd _, ?_⟩
    refine List.forall_mem_cons.2 ⟨hpd _, ?_⟩
    refine List.forall_mem_cons.2 ⟨hpd _, ?_⟩
    refine List.forall_mem_cons.2 ⟨hpd _, ?_⟩
    refine List.forall_mem_cons.2 ⟨hpd _, ?_⟩
    refine List.forall_mem_cons.2 ⟨hpd _, ?_⟩
    refine List.forall_mem_cons.2 ⟨hpd _, ?_⟩
    refine List.forall_mem_cons.2 ⟨showInt_solid _, ?_⟩
    refine List.forall_mem_cons.2 ⟨verbose_solid o, ?_⟩
    refine List.forall_mem_cons.2 ⟨showInt_solid _, ?_⟩
    refine List.forall_mem_cons.2 ⟨reorder_solid o, ?_⟩
    refine List.forall_mem_cons.2 ⟨showInt_solid _, ?_⟩
    refine List.forall_mem_cons.2 ⟨check_solid o, ?_⟩
    refine List.forall_mem_cons.2 ⟨showInt_solid _, ?_⟩
    refine List.forall_mem_cons.2 ⟨showInt_solid _, ?_⟩
    refine List.forall_mem_cons.2 ⟨showInt_solid _, ?_⟩
    refine List.forall_mem_cons.2 ⟨showInt_solid _, ?_⟩
    refine List.forall_mem_cons.2 ⟨hpd _, ?_⟩
    refine List.forall_mem_cons.2 ⟨pivot_solid o, ?_⟩
    refine List.forall_mem_cons.2 ⟨hpd _, ?_⟩
    refine List.forall_mem_cons.2 ⟨hpd _, ?_⟩
    refine List.forall_mem_cons.2 ⟨showInt_solid _, ?_⟩
    refine List.forall_mem_cons.2 ⟨showInt_solid _, ?_⟩
    refine List.forall_mem_cons.2 ⟨hpd _, ?_⟩
    refine List.forall_mem_cons.2 ⟨showInt_solid _, ?_⟩
    exact fun p hp => by cases hp
  exact hall p hp

/-- C90 (lines): the text has one line for every option but the deprecated `mumps_blr`, in the order of the declaration. -/
theorem C90_lines_partial {pd : D → List Char} (hpd : ∀ x, Solid (pd x)) (o : Options D) :
    (linesFrom [] (Options.repr pd o)).map lineName = (((fields (D := D)).map (·.1)).filter (· ≠ "mumps_blr")).map String.toList := by
  rw [repr_entries, lines_pack _ (entries_ok hpd o), List.map_map]
  have h : (entries pd o).map (lineName ∘ line) = (entries pd o).map fun p => p.1.toList :=
    List.map_congr_left fun p hp => line_name (entries_ok hpd o p hp).1
  rw [h]
  rfl

theorem lookup_entry {pd : D → List Char} (hpd : ∀ x, Solid (pd x)) (o : Options D) {p : String × List Char} (hp : p ∈ entries pd o) :
    lookup (Options.repr pd o) p.1 = some p.2 := by
  unfold lookup
  rw [repr_entries, lines_pack _ (entries_ok hpd o), find_line _ (entries_ok hpd o) (by rw [entries_names]; exact names_nodup) p hp]
  show some _ = _
  rw [line_value (entries_ok hpd o p hp).1 (entries_ok hpd o p hp).2]

theorem verbose_shown (o : Options D) (h : ¬ (verboseOn .warn o = true ∧ verboseOn .info o = true)) :
    (getVerbose o).toList = if o.verbose = 0 then "none".toList else (classText o).toList := by
  split_ifs with h0
  · unfold getVerbose; rw [if_pos h0]
  · rw [C90_verbose_partial o h0 h]

theorem reorder_shown (o : Options D) : (reorderName o).toList = (if o.reorder < 0 then "Null" else ["Off", "Auto", "AMD", "RCM"][o.reorder.toNat]?.getD "Null").toList := by
  congr 1
  unfold reorderName
  generalize o.reorder = z
  by_cases hz : z < 0
  · rw [if_pos hz, if_neg (by omega), if_neg (by omega), if_neg (by omega), if_neg (by omega)]
  · rw [if_neg hz]
    obtain ⟨n, rfl⟩ : ∃ n : Nat, z = n := ⟨z.toNat, by omega⟩
    rw [Int.toNat_natCast]
    match n with
    | 0 => rfl
    | 1 => rfl
    | 2 => rfl
    | 3 => rfl
    | n + 4 =>
      rw [if_neg (by omega), if_neg (by omega), if_neg (by omega), if_neg (by omega), List.getElem?_eq_none (by simp)]
      rfl

theorem check_shown (o : Options D) : (if o.check ≠ 0 then "yes".toList else "no".toList) = if o.check = 0 then "no".toList else "yes".toList := by
  by_cases h : o.check = 0 <;> simp only [h, ne_eq, not_true_eq_false, not_false_eq_true, if_true, if_false]

/-- The options that are shown as numbers. -/
theorem shown_number {pd : D → List Char} {o : Options D} {n : String} {v : OptVal D} {w : List Char} (hn : n ∉ ["verbose", "reorder", "check", "pivot"])
    (h : match v with | .dbl x => w = pd x | .int z => Ascii.IntNumeral z w) : Shown pd o n v w := by
  simp only [List.mem_cons, List.not_mem_nil, or_false, not_or] at hn
  unfold Shown
  rw [if_neg hn.1, if_neg hn.2.1, if_neg hn.2.2.1, if_neg hn.2.2.2]
  exact h

/-- What the theorem below says about one option. -/
def Told (pd : D → List Char) (o : Options D) (f : String × (Options D → OptVal D)) : Prop :=
  f.1 ≠ "mumps_blr" → ∃ w, lookup (Options.repr pd o) f.1 = some w ∧ Shown pd o f.1 (f.2 o) w

theorem told_of {pd : D → List Char} (hpd : ∀ x, Solid (pd x)) (o : Options D) (i : Nat) (n : String) (g : Options D → OptVal D) (w : List Char)
    (hi : (entries pd o)[i]? = some (n, w)) (hs : Shown pd o n (g o) w) : Told pd o (n, g) := by
  intro _
  have hm : (n, w) ∈ entries pd o := by
    revert hi
    generalize entries pd o = l
    exact List.mem_of_getElem?
  have hl := lookup_entry hpd o hm
  exact ⟨w, hl, hs⟩

theorem told_all {pd : D → List Char} (hpd : ∀ x, Solid (pd x)) (o : Options D) (h : ¬ (verboseOn .warn o = true ∧ verboseOn .info o = true)) :
    ∀ f ∈ fields (D := D), Told pd o f := by
  have h0 := told_of hpd o 0 "tau_L" (fun o => .dbl o.tau_L) (pd o.tau_L) rfl (shown_number (by decide +kernel) rfl)
  have h1 := told_of hpd o 1 "tau_U" (fun o => .dbl o.tau_U) (pd o.tau_U) rfl (shown_number (by decide +kernel) rfl)
  have h2 := told_of hpd o 2 "kappa_d" (fun o => .dbl o.kappa_d) (pd o.kappa_d) rfl (shown_number (by decide +kernel) rfl)
  have h3 := told_of hpd o 3 "kappa" (fun o => .dbl o.kappa) (pd o.kappa) rfl (shown_number (by decide +kernel) rfl)
  have h4 := told_of hpd o 4 "alpha_L" (fun o => .dbl o.alpha_L) (pd o.alpha_L) rfl (shown_number (by decide +kernel) rfl)
  have h5 := told_of hpd o 5 "alpha_U" (fun o => .dbl o.alpha_U) (pd o.alpha_U) rfl (shown_number (by decide +kernel) rfl)
  have h6 := told_of hpd o 6 "rho" (fun o => .dbl o.rho) (pd o.rho) rfl (shown_number (by decide +kernel) rfl)
  have h7 := told_of hpd o 7 "c_d" (fun o => .dbl o.c_d) (pd o.c_d) rfl (shown_number (by decide +kernel) rfl)
  have h8 := told_of hpd o 8 "c_h" (fun o => .dbl o.c_h) (pd o.c_h) rfl (shown_number (by decide +kernel) rfl)
  have h9 := told_of hpd o 9 "N" (fun o => .int o.N) (Hif.Ascii.showInt o.N) rfl (shown_number (by decide +kernel) (showInt_numeral _))
  have h10 := told_of hpd o 10 "verbose" (fun o => .int o.verbose) (getVerbose o).toList rfl (by unfold Shown; rw [if_pos rfl]; exact verbose_shown o h)
  have h11 := told_of hpd o 11 "rf_par" (fun o => .int o.rf_par) (Hif.Ascii.showInt o.rf_par) rfl (shown_number (by decide +kernel) (showInt_numeral _))
  have h12 := told_of hpd o 12 "reorder" (fun o => .int o.reorder) (reorderName o).toList rfl (by unfold Shown; rw [if_neg (by decide +kernel), if_pos rfl]; exact reorder_shown o)
  have h13 := told_of hpd o 13 "spd" (fun o => .int o.spd) (Hif.Ascii.showInt o.spd) rfl (shown_number (by decide +kernel) (showInt_numeral _))
  have h14 := told_of hpd o 14 "check" (fun o => .int o.check) (if o.check ≠ 0 then "yes".toList else "no".toList) rfl (by unfold Shown; rw [if_neg (by decide +kernel), if_neg (by decide +kernel), if_pos rfl]; exact check_shown o)
  have h15 := told_of hpd o 15 "pre_scale" (fun o => .int o.pre_scale) (Hif.Ascii.showInt o.pre_scale) rfl (shown_number (by decide +kernel) (showInt_numeral _))
  have h16 := told_of hpd o 16 "symm_pre_lvls" (fun o => .int o.symm_pre_lvls) (Hif.Ascii.showInt o.symm_pre_lvls) rfl (shown_number (by decide +kernel) (showInt_numeral _))
  have h17 := told_of hpd o 17 "threads" (fun o => .int o.threads) (Hif.Ascii.showInt o.threads) rfl (shown_number (by decide +kernel) (showInt_numeral _))
  have h18 := (fun h => absurd rfl h : Told pd o ("mumps_blr", fun o => .int o.mumps_blr))
  have h19 := told_of hpd o 18 "fat_schur_1st" (fun o => .int o.fat_schur_1st) (Hif.Ascii.showInt o.fat_schur_1st) rfl (shown_number (by decide +kernel) (showInt_numeral _))
  have h20 := told_of hpd o 19 "rrqr_cond" (fun o => .dbl o.rrqr_cond) (pd o.rrqr_cond) rfl (shown_number (by decide +kernel) rfl)
  have h21 := told_of hpd o 20 "pivot" (fun o => .int o.pivot) (if o.pivot = 0 then "off".toList else if o.pivot = 1 then "on".toList else "auto".toList) rfl (by unfold Shown; rw [if_neg (by decide +kernel), if_neg (by decide +kernel), if_neg (by decide +kernel), if_pos rfl])
  have h22 := told_of hpd o 21 "gamma" (fun o => .dbl o.gamma) (pd o.gamma) rfl (shown_number (by decide +kernel) rfl)
  have h23 := told_of hpd o 22 "beta" (fun o => .dbl o.beta) (pd o.beta) rfl (shown_number (by decide +kernel) rfl)
  have h24 := told_of hpd o 23 "is_symm" (fun o => .int o.is_symm) (Hif.Ascii.showInt o.is_symm) rfl (shown_number (by decide +kernel) (showInt_numeral _))
  have h25 := told_of hpd o 24 "no_pre" (fun o => .int o.no_pre) (Hif.Ascii.showInt o.no_pre) rfl (shown_number (by decide +kernel) (showInt_numeral _))
  have h26 := told_of hpd o 25 "nzp_thres" (fun o => .dbl o.nzp_thres) (pd o.nzp_thres) rfl (shown_number (by decide +kernel) rfl)
  have h27 := told_of hpd o 26 "dense_thres" (fun o => .int o.dense_thres) (Hif.Ascii.showInt o.dense_thres) rfl (shown_number (by decide +kernel) (showInt_numeral _))
  unfold fields
  refine List.forall_mem_cons.2 ⟨h0, ?_⟩
  refine List.forall_mem_cons.2 ⟨h1, ?_⟩
  refine List.forall_mem_cons.2 ⟨h2, ?_⟩
  refine List.forall_mem_cons.2 ⟨h3, ?_⟩
  refine List.forall_mem_cons.2 ⟨h4, ?_⟩
  refine List.forall_mem_cons.2 ⟨h5, ?_⟩
  refine List.forall_mem_cons.2 ⟨h6, ?_⟩
  refine List.forall_mem_cons.2 ⟨h7, ?_⟩
  refine List.forall_mem_cons.2 ⟨h8, ?_⟩
  refine List.forall_mem_cons.2 ⟨h9, ?_⟩
  refine List.forall_mem_cons.2 ⟨h10, ?_⟩
  refine List.forall_mem_cons.2 ⟨h11, ?_⟩
  refine List.forall_mem_cons.2 ⟨h12, ?_⟩
  refine List.forall_mem_cons.2 ⟨h13, ?_⟩
  refine List.forall_mem_cons.2 ⟨h14, ?_⟩
  refine List.forall_mem_cons.2 ⟨h15, ?_⟩
  refine List.forall_mem_cons.2 ⟨h16, ?_⟩
  refine List.forall_mem_cons.2 ⟨h17, ?_⟩
  refine List.forall_mem_cons.2 ⟨h18, ?_⟩
  refine List.forall_mem_cons.2 ⟨h19, ?_⟩
  refine List.forall_mem_cons.2 ⟨h20, ?_⟩
  refine List.forall_mem_cons.2 ⟨h21, ?_⟩
  refine List.forall_mem_cons.2 ⟨h22, ?_⟩
  refine List.forall_mem_cons.2 ⟨h23, ?_⟩
  refine List.forall_mem_cons.2 ⟨h24, ?_⟩
  refine List.forall_mem_cons.2 ⟨h25, ?_⟩
  refine List.forall_mem_cons.2 ⟨h26, ?_⟩
  refine List.forall_mem_cons.2 ⟨h27, ?_⟩
  exact fun f hf => by cases hf

/-- C90 (values): the value on the line of an option is the value of this option. -/
theorem C90_lookup_partial {pd : D → List Char} (hpd : ∀ x, Solid (pd x)) (o : Options D) (h : ¬ (verboseOn .warn o = true ∧ verboseOn .info o = true)) :
    ∀ f ∈ fields (D := D), f.1 ≠ "mumps_blr" → ∃ w, lookup (Options.repr pd o) f.1 = some w ∧ Shown pd o f.1 (f.2 o) w :=
  told_all hpd o h

theorem intNumeral_unique {z z' : Int} {w : List Char} (h : Ascii.IntNumeral z w) (h' : Ascii.IntNumeral z' w) : z = z' := by
  have nd : ∀ (n : Nat) (v : List Char), ¬ Spec.MM.Numeral n ('-' :: v) := fun n v hn => absurd (hn.2.1 '-' (by simp)) (by decide)
  rcases h with ⟨n, rfl, h⟩ | ⟨n, v, rfl, rfl, h⟩ <;> rcases h' with ⟨n', rfl, h'⟩ | ⟨n', v', rfl, e, h'⟩
  · rw [← h.2.2, ← h'.2.2]
  · subst e; exact absurd h (nd _ _)
  · exact absurd h' (nd _ _)
  · cases e
    rw [← h.2.2, ← h'.2.2]

/-- C90 (faithful): two option records with the same text have the same integer options (apart from `mumps_blr`, `verbose` and the ones shown by words), and real
options that are printed alike. -/
theorem C90_faithful_partial {pd : D → List Char} (hpd : ∀ x, Solid (pd x)) (o o' : Options D) (e : Options.repr pd o = Options.repr pd o') :
    (o.N = o'.N ∧ o.rf_par = o'.rf_par ∧ o.spd = o'.spd ∧ o.pre_scale = o'.pre_scale ∧ o.symm_pre_lvls = o'.symm_pre_lvls ∧ o.threads = o'.threads ∧
      o.fat_schur_1st = o'.fat_schur_1st ∧ o.is_symm = o'.is_symm ∧ o.no_pre = o'.no_pre ∧ o.dense_thres = o'.dense_thres) ∧
    (pd o.tau_L = pd o'.tau_L ∧ pd o.tau_U = pd o'.tau_U ∧ pd o.kappa_d = pd o'.kappa_d ∧ pd o.kappa = pd o'.kappa ∧ pd o.alpha_L = pd o'.alpha_L ∧
      pd o.alpha_U = pd o'.alpha_U ∧ pd o.rho = pd o'.rho ∧ pd o.c_d = pd o'.c_d ∧ pd o.c_h = pd o'.c_h ∧ pd o.rrqr_cond = pd o'.rrqr_cond ∧
      pd o.gamma = pd o'.gamma ∧ pd o.beta = pd o'.beta ∧ pd o.nzp_thres = pd o'.nzp_thres) := by
  have key : ∀ (i : Nat) (n : String) (w w' : List Char), (entries pd o)[i]? = some (n, w) → (entries pd o')[i]? = some (n, w') → w = w' := by
    intro i n w w' h h'
    have h1 := lookup_entry hpd o (List.mem_of_getElem? h)
    have h2 := lookup_entry hpd o' (List.mem_of_getElem? h')
    rw [e] at h1
    exact Option.some.inj (h1.symm.trans h2)
  have kz : ∀ (i : Nat) (n : String) (z z' : Int), (entries pd o)[i]? = some (n, Hif.Ascii.showInt z) → (entries pd o')[i]? = some (n, Hif.Ascii.showInt z') → z = z' := by
    intro i n z z' h h'
    have := key i n _ _ h h'
    exact intNumeral_unique (showInt_numeral z) (by rw [this]; exact showInt_numeral z')
  refine ⟨⟨kz 9 _ _ _ rfl rfl, kz 11 _ _ _ rfl rfl, kz 13 _ _ _ rfl rfl, kz 15 _ _ _ rfl rfl, kz 16 _ _ _ rfl rfl, kz 17 _ _ _ rfl rfl, kz 18 _ _ _ rfl rfl,
    kz 23 _ _ _ rfl rfl, kz 24 _ _ _ rfl rfl, kz 26 _ _ _ rfl rfl⟩, key 0 _ _ _ rfl rfl, key 1 _ _ _ rfl rfl, key 2 _ _ _ rfl rfl, key 3 _ _ _ rfl rfl,
    key 4 _ _ _ rfl rfl, key 5 _ _ _ rfl rfl, key 6 _ _ _ rfl rfl, key 7 _ _ _ rfl rfl, key 8 _ _ _ rfl rfl, key 19 _ _ _ rfl rfl, key 21 _ _ _ rfl rfl,
    key 22 _ _ _ rfl rfl, key 25 _ _ _ rfl rfl⟩

/-- The deprecated option is not in the text: records that differ in it have the same text. -/
theorem C90_mumps_witness (pd : D → List Char) (hpd : ∀ x, Solid (pd x)) (o : Options D) (z : Int) :
    lookup (Options.repr pd o) "mumps_blr" = none ∧ Options.repr pd { o with mumps_blr := z } = Options.repr pd o := by
  refine ⟨?_, rfl⟩
  unfold lookup
  rw [Option.map_eq_none_iff, List.find?_eq_none]
  intro l hl
  rw [repr_entries, lines_pack _ (entries_ok hpd o)] at hl
  obtain ⟨p, hp, rfl⟩ := List.mem_map.1 hl
  simp only [decide_eq_true_eq]
  rw [line_name (entries_ok hpd o p hp).1]
  intro he
  have : p.1 ∈ names := by rw [← entries_names pd o]; exact List.mem_map.2 ⟨p, hp, rfl⟩
  rw [String.toList_inj.1 he] at this
  revert this
  decide +kernel

/-- The default verbosity is a warning; with warnings and information (1 + 2) the text is `warning`, with `INFO2` alone it is empty. -/
theorem C90_verbose_witness : getVerbose (Options.defaults : Options ℚ) = "warning" ∧ getVerbose { (Options.defaults : Options ℚ) with verbose := 3 } = "warning" ∧
    classText { (Options.defaults : Options ℚ) with verbose := 3 } = "warning,info" ∧ getVerbose { (Options.defaults : Options ℚ) with verbose := 64 } = "" ∧
    getVerbose { (Options.defaults : Options ℚ) with verbose := 62 } = "info,pre,fac,pre_time,mem" := by decide +kernel

-- a printer of reals without spaces, and the text of the defaults
example : (∀ x : ℚ, Solid (Hif.Ascii.showInt x.num)) ∧ lookup (Options.repr (fun x : ℚ => Hif.Ascii.showInt x.num) Options.defaults) "symm_pre_lvls" = some ['-', '2'] ∧
    lookup (Options.repr (fun x : ℚ => Hif.Ascii.showInt x.num) Options.defaults) "reorder" = some "AMD".toList :=
  ⟨fun x => showInt_solid _, by decide +kernel, by decide +kernel⟩

end Props
end Hif
