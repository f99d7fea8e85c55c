import Verif.ArrayRC
import Mathlib.Data.Finset.Card
import Mathlib.Data.Finset.Insert
import Mathlib.Data.Finset.Image
import Mathlib.Logic.Equiv.Basic

set_option linter.unusedVariables false

/-! # Proofs about reference-counted arrays -/

namespace Hif
namespace RC

variable {α : Type _}

@[simp] theorem upd_same {β : Type _} (f : Nat → β) (x : Nat) (v : β) : upd f x v x = v := by simp [upd]
theorem upd_ne {β : Type _} (f : Nat → β) {x y : Nat} (v : β) (h : y ≠ x) : upd f x v y = f y := by simp [upd, h]
theorem upd_apply {β : Type _} (f : Nat → β) (x : Nat) (v : β) (y : Nat) : upd f x v y = if y = x then v else f y := rfl

theorem runs_getCount {c : Nat} {h : Heap α} {r : Nat × Bool} (e : h.cnt c = some r) (Q : Nat × Bool → Prop) : Runs (getCount c h) Q ↔ Q r := by
  unfold getCount; rw [e]; simp

theorem runs_obj {s : State α} {x : Nat} {a : Arr} (e : s.var x = some a) (Q : Arr → Prop) : Runs (obj s x) Q ↔ Q a := by
  unfold obj; rw [e]; simp

/-- The buffer behind a pointer. -/
def Heap.mem (h : Heap α) : Ptr → Option (Buf α)
  | .own b => h.blk b
  | .usr p => some (h.usr p)

/-- Invariant of the memory; `own c` is the set of objects holding counter `c`. -/
structure Inv (s : State α) (own : Nat → Finset Nat) : Prop where
  mem : ∀ c x, x ∈ own c ↔ ∃ a, s.var x = some a ∧ a.counts = some c
  cnt0 : ∀ c, own c = ∅ → s.heap.cnt c = none
  cnt1 : ∀ c, (own c).Nonempty → ∃ i, s.heap.cnt c = some ((own c).card, i)
  nc : ∀ c, s.heap.nc ≤ c → own c = ∅
  nb : ∀ b, s.heap.nb ≤ b → s.heap.blk b = none
  gnb : ∀ b ∈ s.given, b < s.heap.nb ∧ s.heap.blk b ≠ none
  null : ∀ x a, s.var x = some a → a.counts = none → a = nullArr
  undef : ∀ x a, s.var x = some a → a.status = .undef → a.data = none ∧ a.size = 0 ∧ a.cap = 0
  wrap : ∀ x a, s.var x = some a → a.status = .wrap → (∃ p, a.data = some p) ∧ a.size ≤ a.cap
  owned : ∀ x a, s.var x = some a → a.status = .own → ∃ b c B n i, a.data = some (.own b) ∧ a.counts = some c ∧ s.heap.blk b = some B ∧
    a.size ≤ a.cap ∧ a.cap ≤ B.size ∧ s.heap.cnt c = some (n, i) ∧ (i = true ↔ b ∈ s.given)
  uniq : ∀ x y a a', s.var x = some a → s.var y = some a' → a.status = .own → a'.status = .own → a.data = a'.data → a.counts = a'.counts
  share : ∀ x y a a' c n, s.var x = some a → s.var y = some a' → a.counts = some c → a'.counts = some c → s.heap.cnt c = some (n, false) →
    a.data = a'.data ∧ a.status = a'.status
  live : ∀ b B, s.heap.blk b = some B → b ∈ s.given ∨ ∃ x a, s.var x = some a ∧ a.status = .own ∧ a.data = some (.own b)
  frn : s.heap.freed.Nodup
  frd : ∀ b ∈ s.heap.freed, b < s.heap.nb ∧ s.heap.blk b = none
  fra : ∀ b, b < s.heap.nb → s.heap.blk b = none → b ∈ s.heap.freed

theorem init_inv (usr : Nat → Buf α) : Inv (init usr) (fun _ => ∅) := by
  constructor <;> simp [init]

/-- The heap after the destructor of an object holding counter `c` with value `n + 1`. -/
def afterDtor (h : Heap α) (a : Arr) (c n : Nat) (i : Bool) : Heap α :=
  let cnt := upd h.cnt c (if n = 0 then none else some (n, i))
  match a.data with
  | some (.own b) => if a.status = .own ∧ n = 0 ∧ i = false then { h with cnt := cnt, blk := upd h.blk b none, freed := h.freed ++ [b] }
                     else { h with cnt := cnt }
  | _ => { h with cnt := cnt }

theorem upd_upd {β : Type _} (f : Nat → β) (x : Nat) (v w : β) : upd (upd f x v) x w = upd f x w := by
  funext y; simp only [upd]; split <;> rfl

theorem dtor_eq {s : State α} {own : Nat → Finset Nat} (h : Inv s own) {x : Nat} {a : Arr} (hx : s.var x = some a) {c n : Nat} {i : Bool}
    (hc : a.counts = some c) (hn : s.heap.cnt c = some (n + 1, i)) :
    ∃ a', dtor a s.heap = .ok (a', afterDtor s.heap a c n i) ∧ a'.data = none ∧ a'.size = 0 ∧ a'.cap = 0 ∧ a'.status = .undef := by
  have e1 : decCount a.counts s.heap = .ok { s.heap with cnt := upd s.heap.cnt c (some (n, i)) } := by
    unfold decCount getCount; rw [hc]; simp only [hn]; rfl
  set h1 : Heap α := { s.heap with cnt := upd s.heap.cnt c (some (n, i)) } with hh1
  have g1 : h1.cnt c = some (n, i) := by simp [hh1]
  have fc : ∀ h2 : Heap α, h2.cnt = h1.cnt → freeCount a.counts h2 = .ok (if n = 0 then (none, { h2 with cnt := upd s.heap.cnt c none }) else (some c, h2)) := by
    intro h2 e
    unfold freeCount getCount; rw [hc]; simp only [e, g1]
    by_cases hn0 : n = 0
    · simp only [hn0, if_true]
      show Except.ok _ = _
      rw [hh1]; simp only [upd_upd]
    · rw [if_neg hn0]
      show (if n = 0 then _ else _) = _
      rw [if_neg hn0]; rfl
  have fin : ∀ h2 : Heap α, h2.cnt = h1.cnt → freeData a h1 = .ok h2 →
      dtor a s.heap = .ok ({ data := none, size := 0, cap := 0, status := .undef, counts := if n = 0 then none else some c },
        if n = 0 then { h2 with cnt := upd s.heap.cnt c none } else h2) := by
    intro h2 e ef
    unfold dtor
    rw [e1]
    show (freeData a h1 >>= fun h => freeCount a.counts h >>= fun r =>
      pure (({ data := none, size := 0, cap := 0, status := .undef, counts := r.1 } : Arr), r.2)) = _
    rw [ef]
    show (freeCount a.counts h2 >>= fun r =>
      pure (({ data := none, size := 0, cap := 0, status := .undef, counts := r.1 } : Arr), r.2)) = _
    rw [fc h2 e]
    by_cases hn0 : n = 0
    · simp only [hn0, if_true]; rfl
    · simp only [hn0, if_false]; rfl
  have stay : freeData a h1 = .ok h1 → (∀ b, a.data = some (.own b) → ¬ (a.status = .own ∧ n = 0 ∧ i = false)) →
      ∃ a', dtor a s.heap = .ok (a', afterDtor s.heap a c n i) ∧ a'.data = none ∧ a'.size = 0 ∧ a'.cap = 0 ∧ a'.status = .undef := by
    intro ef hno
    refine ⟨{ data := none, size := 0, cap := 0, status := .undef, counts := if n = 0 then none else some c }, (fin h1 rfl ef).trans ?_, rfl, rfl, rfl, rfl⟩
    congr 2
    unfold afterDtor
    have : (if n = 0 then ({ h1 with cnt := upd s.heap.cnt c none } : Heap α) else h1) =
        { s.heap with cnt := upd s.heap.cnt c (if n = 0 then none else some (n, i)) } := by
      split <;> rfl
    rw [this]
    cases hd : a.data with
    | none => rfl
    | some p =>
      cases p with
      | usr u => rfl
      | own b =>
        show _ = if a.status = .own ∧ n = 0 ∧ i = false then _ else _
        rw [if_neg (hno b hd)]
  by_cases hst : a.status = .own
  · obtain ⟨b, c', B, n', i', d1, d2, d3, d4, d5, d6, d7⟩ := h.owned x a hx hst
    rw [hc] at d2; injection d2 with d2; subst d2
    by_cases hcond : n = 0 ∧ i = false
    · have hdel : freeData a h1 = .ok { h1 with blk := upd h1.blk b none, freed := h1.freed ++ [b] } := by
        unfold freeData getCount delBlk
        rw [d1, hc]
        simp only [hst, if_true, g1]
        show (if n = 0 ∧ i = false then _ else _) = _
        rw [if_pos hcond]
        show (match s.heap.blk b with | none => _ | some _ => _) = _
        rw [d3]; rfl
      refine ⟨{ data := none, size := 0, cap := 0, status := .undef, counts := if n = 0 then none else some c },
        (fin { h1 with blk := upd h1.blk b none, freed := h1.freed ++ [b] } rfl hdel).trans ?_, rfl, rfl, rfl, rfl⟩
      congr 2
      rw [if_pos hcond.1]
      unfold afterDtor
      rw [d1]
      show _ = if a.status = .own ∧ n = 0 ∧ i = false then _ else _
      rw [if_pos ⟨hst, hcond⟩, if_pos hcond.1]
    · refine stay ?_ (fun b _ hh => hcond hh.2)
      unfold freeData getCount
      rw [d1, hc]
      simp only [hst, if_true, g1]
      show (if n = 0 ∧ i = false then _ else _) = _
      rw [if_neg hcond]; rfl
  · refine stay ?_ (fun b _ hh => hst hh.1)
    unfold freeData
    split
    · rw [if_neg hst]; rfl
    · rfl

theorem afterDtor_nb (h : Heap α) (a : Arr) (c n : Nat) (i : Bool) : (afterDtor h a c n i).nb = h.nb := by
  unfold afterDtor; simp only; split
  · split <;> rfl
  · rfl
theorem afterDtor_nc (h : Heap α) (a : Arr) (c n : Nat) (i : Bool) : (afterDtor h a c n i).nc = h.nc := by
  unfold afterDtor; simp only; split
  · split <;> rfl
  · rfl
theorem afterDtor_usr (h : Heap α) (a : Arr) (c n : Nat) (i : Bool) : (afterDtor h a c n i).usr = h.usr := by
  unfold afterDtor; simp only; split
  · split <;> rfl
  · rfl
theorem afterDtor_cnt (h : Heap α) (a : Arr) (c n : Nat) (i : Bool) : (afterDtor h a c n i).cnt = upd h.cnt c (if n = 0 then none else some (n, i)) := by
  unfold afterDtor; simp only; split
  · split <;> rfl
  · rfl
/-- Either nothing is freed, or the buffer of the object is. -/
theorem afterDtor_blk (h : Heap α) (a : Arr) (c n : Nat) (i : Bool) :
    ((∀ b, a.data = some (.own b) → ¬ (a.status = .own ∧ n = 0 ∧ i = false)) ∧ (afterDtor h a c n i).blk = h.blk ∧ (afterDtor h a c n i).freed = h.freed) ∨
    ∃ b, a.data = some (.own b) ∧ a.status = .own ∧ n = 0 ∧ i = false ∧ (afterDtor h a c n i).blk = upd h.blk b none ∧
      (afterDtor h a c n i).freed = h.freed ++ [b] := by
  unfold afterDtor; simp only; split
  · rename_i b eb
    split
    · rename_i hc
      right
      exact ⟨b, eb, hc.1, hc.2.1, hc.2.2, rfl, rfl⟩
    · rename_i hc
      left
      exact ⟨fun b' _ => hc, rfl, rfl⟩
  · rename_i hne
    left
    exact ⟨fun b hb => absurd hb (hne b), rfl, rfl⟩

/-- Destruction of an object keeps the invariant. -/
theorem dtor_inv {s : State α} {own : Nat → Finset Nat} (h : Inv s own) {x : Nat} {a : Arr} (hx : s.var x = some a) :
    Runs (dtor a s.heap) fun r => r.1.data = none ∧ r.1.size = 0 ∧ r.1.cap = 0 ∧ r.1.status = .undef ∧ r.2.nb = s.heap.nb ∧ r.2.nc = s.heap.nc ∧
      r.2.usr = s.heap.usr ∧ (∀ b, r.2.blk b ≠ none → r.2.blk b = s.heap.blk b) ∧
      ∃ own', Inv { s with var := upd s.var x none, heap := r.2 } own' := by
  cases hc : a.counts with
  | none =>
    have ha := h.null x a hx hc
    subst ha
    refine ⟨(nullArr, s.heap), rfl, rfl, rfl, rfl, rfl, rfl, rfl, rfl, fun _ _ => rfl, own, ?_⟩
    have hv : ∀ y a', upd s.var x none y = some a' → s.var y = some a' := by
      intro y a' hy
      by_cases e : y = x
      · subst e; simp at hy
      · rwa [upd_ne _ _ e] at hy
    refine ⟨fun c y => ?_, h.cnt0, h.cnt1, h.nc, h.nb, h.gnb, fun y a' hy => h.null y a' (hv y a' hy), fun y a' hy => h.undef y a' (hv y a' hy),
      fun y a' hy => h.wrap y a' (hv y a' hy), fun y a' hy => h.owned y a' (hv y a' hy),
      fun y z a' a'' hy hz => h.uniq y z a' a'' (hv _ _ hy) (hv _ _ hz), fun y z a' a'' c n hy hz => h.share y z a' a'' c n (hv _ _ hy) (hv _ _ hz),
      fun b B hb => ?_, h.frn, h.frd, h.fra⟩
    · rw [h.mem]
      by_cases e : y = x
      · subst e; simp [hx, nullArr]
      · simp only [upd_ne _ _ e]
    · rcases h.live b B hb with hg | ⟨y, a', hy, h1, h2⟩
      · exact Or.inl hg
      · right
        refine ⟨y, a', ?_, h1, h2⟩
        simp only
        rw [upd_ne]
        · exact hy
        · rintro rfl; rw [hx] at hy; injection hy with hy; subst hy; simp [nullArr] at h1
  | some c =>
    have hxc : x ∈ own c := (h.mem c x).2 ⟨a, hx, hc⟩
    obtain ⟨i, hi⟩ := h.cnt1 c ⟨x, hxc⟩
    obtain ⟨n, hn⟩ : ∃ n, (own c).card = n + 1 := ⟨(own c).card - 1, by have := Finset.card_pos.2 ⟨x, hxc⟩; omega⟩
    rw [hn] at hi
    obtain ⟨a', e, a1, a2, a3, a4⟩ := dtor_eq h hx hc hi
    rw [e, runs_ok]
    have hblk := afterDtor_blk s.heap a c n i
    refine ⟨a1, a2, a3, a4, afterDtor_nb .., afterDtor_nc .., afterDtor_usr .., fun b hb => ?_, upd own c ((own c).erase x), ?_⟩
    · rcases hblk with ⟨-, h1, -⟩ | ⟨b', -, -, -, -, h1, -⟩
      · exact congrFun h1 b
      · simp only [h1] at hb ⊢
        by_cases eb : b = b'
        · subst eb; simp at hb
        · rw [upd_ne _ _ eb]
    have hv : ∀ y a', upd s.var x none y = some a' → y ≠ x ∧ s.var y = some a' := by
      intro y a' hy
      by_cases e : y = x
      · subst e; simp at hy
      · rw [upd_ne _ _ e] at hy; exact ⟨e, hy⟩
    have hcard : ((own c).erase x).card = n := by rw [Finset.card_erase_of_mem hxc]; omega
    -- another object of the group
    have hother : ∀ y a', y ≠ x → s.var y = some a' → a'.counts = some c → n ≠ 0 := by
      intro y a' hne hy hcy hn0
      have : y ∈ (own c).erase x := Finset.mem_erase.2 ⟨hne, (h.mem c y).2 ⟨a', hy, hcy⟩⟩
      rw [hn0, Finset.card_eq_zero] at hcard
      rw [hcard] at this; simp at this
    -- what remains of the counters for a surviving object
    have hcnt : ∀ y a' d r, y ≠ x → s.var y = some a' → a'.counts = some d → s.heap.cnt d = some r →
        ∃ n', (afterDtor s.heap a c n i).cnt d = some (n', r.2) := by
      intro y a' d r hne hy hcy hr
      rw [afterDtor_cnt]
      by_cases ed : d = c
      · subst ed
        have := hother y a' hne hy hcy
        rw [upd_same, if_neg this]
        rw [hi] at hr; injection hr with hr; subst hr
        exact ⟨n, rfl⟩
      · rw [upd_ne _ _ ed]; exact ⟨r.1, hr⟩
    have hkeep : ∀ y a' b B, y ≠ x → s.var y = some a' → a'.status = .own → a'.data = some (.own b) → s.heap.blk b = some B →
        (afterDtor s.heap a c n i).blk b = some B := by
      intro y a' b B hne hy hs hd hB
      rcases hblk with ⟨-, h1, -⟩ | ⟨b', g1, g2, g3, g4, h1, -⟩
      · rw [h1]; exact hB
      · rw [h1, upd_ne]
        · exact hB
        · rintro rfl
          have := h.uniq y x a' a hy hx hs g2 (by rw [hd, g1])
          exact hother y a' hne hy (by rw [this, hc]) g3
    refine ⟨fun d y => ?_, fun d hd => ?_, fun d hd => ?_, fun d hd => ?_, fun b hb => ?_, fun b hb => ?_, fun y a' hy => h.null y a' (hv y a' hy).2,
      fun y a' hy => h.undef y a' (hv y a' hy).2, fun y a' hy => h.wrap y a' (hv y a' hy).2, fun y a' hy hs => ?_,
      fun y z a' a'' hy hz => h.uniq y z a' a'' (hv _ _ hy).2 (hv _ _ hz).2, fun y z a' a'' d m hy hz c1 c2 hm => ?_, fun b B hb => ?_, ?_, fun b hb => ?_,
      fun b hb hb' => ?_⟩
    · by_cases ed : d = c
      · subst ed
        rw [upd_same, Finset.mem_erase, h.mem]
        by_cases ey : y = x
        · subst ey; simp
        · simp [ey, upd_ne]
      · rw [upd_ne _ _ ed, h.mem]
        by_cases ey : y = x
        · subst ey; simp only [upd_same, hx]
          constructor
          · rintro ⟨a', h1, h2⟩; injection h1 with h1; subst h1; rw [hc] at h2; injection h2 with h2; exact absurd h2.symm ed
          · rintro ⟨a', h1, -⟩; simp at h1
        · simp only [upd_ne _ _ ey]
    · simp only [afterDtor_cnt]
      by_cases ed : d = c
      · subst ed
        rw [upd_same] at hd
        rw [hd] at hcard; simp at hcard
        rw [upd_same, if_pos hcard.symm]
      · rw [upd_ne _ _ ed] at hd
        rw [upd_ne _ _ ed]; exact h.cnt0 d hd
    · simp only [afterDtor_cnt]
      by_cases ed : d = c
      · subst ed
        rw [upd_same] at hd ⊢
        have hne : n ≠ 0 := by rw [← hcard]; exact Finset.card_ne_zero.2 hd
        rw [upd_same, if_neg hne, hcard]
        exact ⟨i, rfl⟩
      · rw [upd_ne _ _ ed] at hd ⊢
        rw [upd_ne _ _ ed]; exact h.cnt1 d hd
    · simp only [afterDtor_nc] at hd
      have := h.nc d hd
      by_cases ed : d = c
      · subst ed; rw [this] at hxc; simp at hxc
      · rw [upd_ne _ _ ed]; exact this
    · simp only [afterDtor_nb] at hb
      have := h.nb b hb
      rcases hblk with ⟨-, h1, -⟩ | ⟨b', -, -, -, -, h1, -⟩
      · simp only [h1]; exact this
      · simp only [h1, upd_apply]; split
        · rfl
        · exact this
    · refine ⟨by simp only [afterDtor_nb]; exact (h.gnb b hb).1, ?_⟩
      rcases hblk with ⟨-, h1, -⟩ | ⟨b', g1, g2, g3, g4, h1, -⟩
      · simp only [h1]; exact (h.gnb b hb).2
      · simp only [h1]
        rw [upd_ne]
        · exact (h.gnb b hb).2
        · rintro rfl
          obtain ⟨b2, c2, B2, n2, i2, d1, d2, d3, d4, d5, d6, d7⟩ := h.owned x a hx g2
          rw [g1] at d1; injection d1 with d1; injection d1 with d1; subst d1
          rw [hc] at d2; injection d2 with d2; subst d2
          rw [hi] at d6; injection d6 with d6; injection d6 with d6 d8; subst d8
          rw [d7.2 hb] at g4; simp at g4
    · obtain ⟨hne, hy'⟩ := hv y a' hy
      obtain ⟨b, d, B, n', i', d1, d2, d3, d4, d5, d6, d7⟩ := h.owned y a' hy' hs
      obtain ⟨n'', hn''⟩ := hcnt y a' d (n', i') hne hy' d2 d6
      exact ⟨b, d, B, n'', i', d1, d2, hkeep y a' b B hne hy' hs d1 d3, d4, d5, hn'', d7⟩
    · obtain ⟨hne, hy'⟩ := hv y a' hy
      obtain ⟨hne', hz'⟩ := hv z a'' hz
      obtain ⟨j, hj⟩ := h.cnt1 d ⟨y, (h.mem d y).2 ⟨a', hy', c1⟩⟩
      obtain ⟨n'', hn''⟩ := hcnt y a' d _ hne hy' c1 hj
      simp only [hn''] at hm
      injection hm with hm
      injection hm with _ hm
      subst hm
      exact h.share y z a' a'' d _ hy' hz' c1 c2 hj
    · have hb0 : s.heap.blk b = some B := by
        rcases hblk with ⟨-, h1, -⟩ | ⟨b', -, -, -, -, h1, -⟩
        · simp only [h1] at hb; exact hb
        · simp only [h1, upd_apply] at hb
          split at hb
          · simp at hb
          · exact hb
      rcases h.live b B hb0 with hg | ⟨y, a', hy, h1, h2⟩
      · exact Or.inl hg
      by_cases ey : y = x
      · subst ey
        rw [hx] at hy; injection hy with hy; subst hy
        obtain ⟨b'', d, B', n', i', d1, d2, d3, d4, d5, d6, d7⟩ := h.owned y a hx h1
        rw [h2] at d1; injection d1 with d1; injection d1 with d1; subst d1
        rw [hc] at d2; injection d2 with d2; subst d2
        rw [hi] at d6; injection d6 with d6; injection d6 with d6 d6'; subst d6'
        cases i with
        | true => exact Or.inl (d7.1 rfl)
        | false =>
          right
          have hn0 : n ≠ 0 := by
            intro hn0
            rcases hblk with ⟨g, -, -⟩ | ⟨b', g1, -, -, -, g, -⟩
            · exact g b h2 ⟨h1, hn0, rfl⟩
            · rw [h2] at g1; injection g1 with g1; injection g1 with g1; subst g1
              simp only [g, upd_same] at hb
              simp at hb
          have : ((own c).erase y).Nonempty := by rw [← Finset.card_ne_zero, hcard]; exact hn0
          obtain ⟨z, hz⟩ := this
          obtain ⟨hz1, hz2⟩ := Finset.mem_erase.1 hz
          obtain ⟨a'', hz3, hz4⟩ := (h.mem c z).1 hz2
          obtain ⟨s1, s2⟩ := h.share y z a a'' c _ hx hz3 hc hz4 hi
          refine ⟨z, a'', ?_, by rw [← s2]; exact h1, by rw [← s1]; exact h2⟩
          simp only
          rw [upd_ne _ _ hz1]; exact hz3
      · right
        refine ⟨y, a', ?_, h1, h2⟩
        simp only
        rw [upd_ne _ _ ey]; exact hy
    · rcases hblk with ⟨-, -, h1⟩ | ⟨b', g1, g2, g3, g4, -, h1⟩
      · simp only [h1]; exact h.frn
      · simp only [h1]
        rw [List.nodup_append]
        refine ⟨h.frn, List.nodup_singleton _, fun u hu v hv' e => ?_⟩
        rw [List.mem_singleton] at hv'
        subst hv'; subst e
        obtain ⟨b'', d, B', n', i', d1, d2, d3, -⟩ := h.owned x a hx g2
        rw [g1] at d1; injection d1 with d1; injection d1 with d1; subst d1
        rw [(h.frd _ hu).2] at d3; simp at d3
    · simp only [afterDtor_nb]
      rcases hblk with ⟨-, h2, h1⟩ | ⟨b', g1, g2, g3, g4, h2, h1⟩
      · simp only [h1] at hb; simp only [h2]; exact h.frd b hb
      · simp only [h1] at hb
        simp only [h2, upd_apply]
        rcases List.mem_append.1 hb with hb | hb
        · refine ⟨(h.frd b hb).1, ?_⟩
          split
          · rfl
          · exact (h.frd b hb).2
        · rw [List.mem_singleton] at hb
          subst hb
          refine ⟨?_, if_pos rfl⟩
          obtain ⟨b'', d, B', n', i', d1, d2, d3, -⟩ := h.owned x a hx g2
          rw [g1] at d1; injection d1 with d1; injection d1 with d1; subst d1
          by_contra hge
          rw [h.nb b (by omega)] at d3; simp at d3
    · simp only [afterDtor_nb] at hb
      rcases hblk with ⟨-, h2, h1⟩ | ⟨b', g1, g2, g3, g4, h2, h1⟩
      · simp only [h1]; simp only [h2] at hb'; exact h.fra b hb hb'
      · simp only [h1]; simp only [h2, upd_apply] at hb'
        split at hb'
        · rename_i e; rw [e]; simp
        · exact List.mem_append_left _ (h.fra b hb hb')

theorem upd_none {s : State α} {x : Nat} (hx : s.var x = none) : upd s.var x none = s.var := by
  funext y; simp only [upd]; split
  · rename_i e; rw [e, hx]
  · rfl

/-- A new buffer, for the moment handed out to nobody. -/
theorem blk_inv {s : State α} {own : Nat → Finset Nat} (h : Inv s own) (B : Buf α) :
    Inv { s with heap := (newBlk B s.heap).2, given := s.heap.nb :: s.given } own ∧ s.heap.nb ∉ s.given ∧
      ∀ y a, s.var y = some a → a.status = .own → a.data ≠ some (.own s.heap.nb) := by
  have hg : s.heap.nb ∉ s.given := fun hb => by have := (h.gnb _ hb).1; omega
  have hno : ∀ y a, s.var y = some a → a.status = .own → a.data ≠ some (.own s.heap.nb) := by
    intro y a hy hs e
    obtain ⟨b, d, B', n', i', d1, d2, d3, -⟩ := h.owned y a hy hs
    rw [e] at d1; injection d1 with d1; injection d1 with d1; subst d1
    rw [h.nb _ (le_refl _)] at d3; simp at d3
  refine ⟨⟨h.mem, h.cnt0, h.cnt1, h.nc, fun b hb => ?_, fun b hb => ?_, h.null, h.undef, h.wrap, fun y a hy hs => ?_, h.uniq, h.share, fun b B' hb => ?_, h.frn,
    fun b hb => ?_, fun b hb hb' => ?_⟩, hg, hno⟩
  · have hb' : s.heap.nb + 1 ≤ b := hb
    show upd s.heap.blk s.heap.nb (some B) b = none
    rw [upd_ne _ _ (by omega)]; exact h.nb b (by omega)
  · show b < s.heap.nb + 1 ∧ upd s.heap.blk s.heap.nb (some B) b ≠ none
    rcases List.mem_cons.1 hb with hb | hb
    · rw [hb, upd_same]; exact ⟨by omega, by simp⟩
    · have := h.gnb b hb
      rw [upd_ne _ _ (by omega)]; exact ⟨by omega, this.2⟩
  · obtain ⟨b, d, B', n', i', d1, d2, d3, d4, d5, d6, d7⟩ := h.owned y a hy hs
    have hne : b ≠ s.heap.nb := by rintro rfl; exact hno y a hy hs d1
    refine ⟨b, d, B', n', i', d1, d2, ?_, d4, d5, d6, ?_⟩
    · show upd s.heap.blk s.heap.nb (some B) b = some B'
      rw [upd_ne _ _ hne]; exact d3
    · rw [d7, List.mem_cons]; simp [hne]
  · have hb' : upd s.heap.blk s.heap.nb (some B) b = some B' := hb
    by_cases e : b = s.heap.nb
    · left; rw [e]; exact List.mem_cons_self
    · rw [upd_ne _ _ e] at hb'
      rcases h.live b B' hb' with hg | hg
      · exact Or.inl (List.mem_cons_of_mem _ hg)
      · exact Or.inr hg
  · have := h.frd b hb
    refine ⟨by show b < s.heap.nb + 1; omega, ?_⟩
    show upd s.heap.blk s.heap.nb (some B) b = none
    rw [upd_ne _ _ (by omega)]; exact this.2
  · have hb1 : b < s.heap.nb + 1 := hb
    have hb2 : upd s.heap.blk s.heap.nb (some B) b = none := hb'
    by_cases e : b = s.heap.nb
    · rw [e, upd_same] at hb2; simp at hb2
    · rw [upd_ne _ _ e] at hb2
      exact h.fra b (by omega) hb2

/-- A new object with its own counter. -/
theorem fresh_inv {s : State α} {own : Nat → Finset Nat} (h : Inv s own) {x : Nat} (hx : s.var x = none) {a : Arr} (hc : a.counts = some s.heap.nc)
    (g : List Nat)
    (hst : (a.status = .undef ∧ a.data = none ∧ a.size = 0 ∧ a.cap = 0 ∧ s.given = g) ∨ (a.status = .wrap ∧ (∃ p, a.data = some p) ∧ a.size ≤ a.cap ∧ s.given = g) ∨
      (a.status = .own ∧ ∃ b B, a.data = some (.own b) ∧ s.heap.blk b = some B ∧ a.size ≤ a.cap ∧ a.cap ≤ B.size ∧ s.given = b :: g ∧ b ∉ g ∧
        ∀ y a', s.var y = some a' → a'.status = .own → a'.data ≠ some (.own b))) :
    ∃ own', Inv { var := upd s.var x (some a), heap := (newCount s.heap).2, given := g } own' := by
  have hv : ∀ y a', upd s.var x (some a) y = some a' → (y = x ∧ a' = a) ∨ (y ≠ x ∧ s.var y = some a') := by
    intro y a' hy
    by_cases e : y = x
    · subst e; rw [upd_same] at hy; injection hy with hy; exact Or.inl ⟨rfl, hy.symm⟩
    · rw [upd_ne _ _ e] at hy; exact Or.inr ⟨e, hy⟩
  have hcn : ∀ y a' c, s.var y = some a' → a'.counts = some c → c ≠ s.heap.nc := by
    rintro y a' c hy hcy rfl
    have : y ∈ own s.heap.nc := (h.mem _ y).2 ⟨a', hy, hcy⟩
    rw [h.nc _ (le_refl _)] at this; simp at this
  have hsub : ∀ b ∈ g, b ∈ s.given := by
    intro b hb
    rcases hst with ⟨-, -, -, -, e⟩ | ⟨-, -, -, e⟩ | ⟨-, b', B, -, -, -, -, e, -⟩
    · rw [e]; exact hb
    · rw [e]; exact hb
    · rw [e]; exact List.mem_cons_of_mem _ hb
  have hx' : ∀ c, x ∉ own c := by
    intro c hc'
    obtain ⟨a', h1, -⟩ := (h.mem c x).1 hc'
    rw [hx] at h1; simp at h1
  refine ⟨upd own s.heap.nc {x}, ⟨fun c y => ?_, fun c hc' => ?_, fun c hc' => ?_, fun c hc' => ?_, h.nb, fun b hb => h.gnb b (hsub b hb), fun y a' hy hn => ?_,
    fun y a' hy hs => ?_, fun y a' hy hs => ?_, fun y a' hy hs => ?_, fun y z a' a'' hy hz hs hs' hd => ?_, fun y z a' a'' c n hy hz c1 c2 hn => ?_,
    fun b B hb => ?_, h.frn, h.frd, h.fra⟩⟩
  · by_cases e : c = s.heap.nc
    · rw [e, upd_same, Finset.mem_singleton]
      constructor
      · rintro rfl; exact ⟨a, upd_same _ _ _, hc⟩
      · rintro ⟨a', h1, h2⟩
        rcases hv y a' h1 with ⟨e1, -⟩ | ⟨-, h3⟩
        · exact e1
        · exact absurd rfl (hcn y a' _ h3 h2)
    · rw [upd_ne _ _ e, h.mem]
      constructor
      · rintro ⟨a', h1, h2⟩
        refine ⟨a', ?_, h2⟩
        simp only
        rw [upd_ne]
        · exact h1
        · rintro rfl; rw [hx] at h1; simp at h1
      · rintro ⟨a', h1, h2⟩
        rcases hv y a' h1 with ⟨-, e2⟩ | ⟨-, h3⟩
        · rw [e2, hc] at h2; injection h2 with h2; exact absurd h2.symm e
        · exact ⟨a', h3, h2⟩
  · show upd s.heap.cnt s.heap.nc (some (1, false)) c = none
    by_cases e : c = s.heap.nc
    · rw [e, upd_same] at hc'; simp at hc'
    · rw [upd_ne _ _ e] at hc' ⊢; exact h.cnt0 c hc'
  · show ∃ i, upd s.heap.cnt s.heap.nc (some (1, false)) c = some ((upd own s.heap.nc {x} c).card, i)
    by_cases e : c = s.heap.nc
    · rw [e, upd_same, upd_same]; exact ⟨false, by simp⟩
    · rw [upd_ne _ _ e] at hc'
      rw [upd_ne _ _ e, upd_ne _ _ e]; exact h.cnt1 c hc'
  · have hc'' : s.heap.nc + 1 ≤ c := hc'
    rw [upd_ne _ _ (by omega)]; exact h.nc c (by omega)
  · rcases hv y a' hy with ⟨-, e⟩ | ⟨-, h3⟩
    · rw [e, hc] at hn; simp at hn
    · exact h.null y a' h3 hn
  · rcases hv y a' hy with ⟨-, e⟩ | ⟨-, h3⟩
    · subst e
      rcases hst with ⟨-, h1, h2, h3, -⟩ | ⟨h1, -⟩ | ⟨h1, -⟩
      · exact ⟨h1, h2, h3⟩
      · rw [h1] at hs; simp at hs
      · rw [h1] at hs; simp at hs
    · exact h.undef y a' h3 hs
  · rcases hv y a' hy with ⟨-, e⟩ | ⟨-, h3⟩
    · subst e
      rcases hst with ⟨h1, -⟩ | ⟨-, h1, h2, -⟩ | ⟨h1, -⟩
      · rw [h1] at hs; simp at hs
      · exact ⟨h1, h2⟩
      · rw [h1] at hs; simp at hs
    · exact h.wrap y a' h3 hs
  · rcases hv y a' hy with ⟨-, e⟩ | ⟨-, h3⟩
    · subst e
      rcases hst with ⟨h1, -⟩ | ⟨h1, -⟩ | ⟨-, b, B, h1, h2, h3, h4, h5, h6, h7⟩
      · rw [h1] at hs; simp at hs
      · rw [h1] at hs; simp at hs
      · exact ⟨b, s.heap.nc, B, 1, false, h1, hc, h2, h3, h4, by show upd s.heap.cnt s.heap.nc (some (1, false)) s.heap.nc = _; rw [upd_same], by simp [h6]⟩
    · obtain ⟨b, d, B', n', i', d1, d2, d3, d4, d5, d6, d7⟩ := h.owned y a' h3 hs
      refine ⟨b, d, B', n', i', d1, d2, d3, d4, d5, ?_, ?_⟩
      · show upd s.heap.cnt s.heap.nc (some (1, false)) d = _
        rw [upd_ne _ _ (hcn y a' d h3 d2)]; exact d6
      · rw [d7]
        rcases hst with ⟨-, -, -, -, e⟩ | ⟨-, -, -, e⟩ | ⟨-, b', B, -, -, -, -, e, -, h7⟩
        · rw [e]
        · rw [e]
        · rw [e, List.mem_cons]
          have : b ≠ b' := by rintro rfl; exact h7 y a' h3 hs d1
          simp [this]
  · have key : ∀ z a'', s.var z = some a'' → a''.status = .own → a.status = .own → a.data = a''.data → False := by
      intro z a'' hz hs' hs hd
      rcases hst with ⟨h1, -⟩ | ⟨h1, -⟩ | ⟨-, b, B, h1, h2, h3, h4, h5, h6, h7⟩
      · rw [h1] at hs; simp at hs
      · rw [h1] at hs; simp at hs
      · exact h7 z a'' hz hs' (by rw [← hd, h1])
    rcases hv y a' hy with ⟨-, e⟩ | ⟨-, h3⟩ <;> rcases hv z a'' hz with ⟨-, e'⟩ | ⟨-, h3'⟩
    · rw [e, e']
    · subst e; exact absurd (key z a'' h3' hs' hs hd) id
    · subst e'; exact absurd (key y a' h3 hs hs' hd.symm) id
    · exact h.uniq y z a' a'' h3 h3' hs hs' hd
  · have hn' : upd s.heap.cnt s.heap.nc (some (1, false)) c = some (n, false) := hn
    rcases hv y a' hy with ⟨-, e⟩ | ⟨-, h3⟩ <;> rcases hv z a'' hz with ⟨-, e'⟩ | ⟨-, h3'⟩
    · rw [e, e']; exact ⟨rfl, rfl⟩
    · rw [e, hc] at c1; injection c1 with c1; exact absurd c1.symm (hcn z a'' c h3' c2)
    · rw [e', hc] at c2; injection c2 with c2; exact absurd c2.symm (hcn y a' c h3 c1)
    · rw [upd_ne _ _ (hcn y a' c h3 c1)] at hn'
      exact h.share y z a' a'' c n h3 h3' c1 c2 hn'
  · have lift : (∃ x a, s.var x = some a ∧ a.status = .own ∧ a.data = some (.own b)) →
        ∃ x_1 a_1, upd s.var x (some a) x_1 = some a_1 ∧ a_1.status = .own ∧ a_1.data = some (.own b) := by
      rintro ⟨y, a', h1, h2, h3⟩
      refine ⟨y, a', ?_, h2, h3⟩
      rw [upd_ne]
      · exact h1
      · rintro rfl; rw [hx] at h1; simp at h1
    rcases h.live b B hb with hg | hg
    · rcases hst with ⟨-, -, -, -, e⟩ | ⟨-, -, -, e⟩ | ⟨h0, b', B, h1, -, -, -, e, -, h7⟩
      · exact Or.inl (e ▸ hg)
      · exact Or.inl (e ▸ hg)
      · rw [e, List.mem_cons] at hg
        rcases hg with rfl | hg
        · exact Or.inr ⟨x, a, upd_same _ _ _, h0, h1⟩
        · exact Or.inl hg
    · exact Or.inr (lift hg)

/-- A further object sharing the counter of `o`. -/
theorem share_inv {s : State α} {own : Nat → Finset Nat} (h : Inv s own) {x y : Nat} (hx : s.var x = none) {o : Arr} (hy : s.var y = some o) {c n : Nat} {i : Bool}
    (hc : o.counts = some c) (hn : s.heap.cnt c = some (n, i)) :
    ∃ own', Inv { s with var := upd s.var x (some o), heap := { s.heap with cnt := upd s.heap.cnt c (some (n + 1, i)) } } own' := by
  have hv : ∀ z a', upd s.var x (some o) z = some a' → ∃ w, s.var w = some a' := by
    intro z a' hz
    by_cases e : z = x
    · subst e; rw [upd_same] at hz; injection hz with hz; subst hz; exact ⟨y, hy⟩
    · rw [upd_ne _ _ e] at hz; exact ⟨z, hz⟩
  have hx' : ∀ c, x ∉ own c := by
    intro c hc'
    obtain ⟨a', h1, -⟩ := (h.mem c x).1 hc'
    rw [hx] at h1; simp at h1
  have hyc : y ∈ own c := (h.mem c y).2 ⟨o, hy, hc⟩
  have hcnt : ∀ d r, s.heap.cnt d = some r → ∃ m, upd s.heap.cnt c (some (n + 1, i)) d = some (m, r.2) := by
    intro d r hr
    by_cases e : d = c
    · subst e; rw [hn] at hr; injection hr with hr; subst hr; exact ⟨n + 1, upd_same _ _ _⟩
    · exact ⟨r.1, by rw [upd_ne _ _ e]; exact hr⟩
  have hcard : (own c).card = n := by
    obtain ⟨j, hj⟩ := h.cnt1 c ⟨y, hyc⟩
    rw [hn] at hj; injection hj with hj; injection hj with hj; exact hj.symm
  refine ⟨upd own c (insert x (own c)), ⟨fun d z => ?_, fun d hd => ?_, fun d hd => ?_, fun d hd => ?_, h.nb, h.gnb, fun z a' hz => ?_,
    fun z a' hz => ?_, fun z a' hz => ?_, fun z a' hz hs => ?_, fun z w a' a'' hz hw => ?_, fun z w a' a'' d m hz hw c1 c2 hm => ?_,
    fun b B hb => ?_, h.frn, h.frd, h.fra⟩⟩
  · by_cases e : d = c
    · subst e
      rw [upd_same, Finset.mem_insert, h.mem]
      by_cases ez : z = x
      · subst ez; simp only [upd_same]
        exact ⟨fun _ => ⟨o, rfl, hc⟩, fun _ => Or.inl (by tt)⟩
      · simp [ez, upd_ne]
    · rw [upd_ne _ _ e, h.mem]
      by_cases ez : z = x
      · subst ez; simp only [upd_same, hx]
        constructor
        · rintro ⟨a', h1, -⟩; simp at h1
        · rintro ⟨a', h1, h2⟩; injection h1 with h1; subst h1; rw [hc] at h2; injection h2 with h2; exact absurd h2.symm e
      · simp only [upd_ne _ _ ez]
  · show upd s.heap.cnt c (some (n + 1, i)) d = none
    by_cases e : d = c
    · subst e; rw [upd_same] at hd; simp at hd
    · rw [upd_ne _ _ e] at hd ⊢; exact h.cnt0 d hd
  · show ∃ j, upd s.heap.cnt c (some (n + 1, i)) d = some ((upd own c (insert x (own c)) d).card, j)
    by_cases e : d = c
    · subst e; rw [upd_same, upd_same, Finset.card_insert_of_notMem (hx' _), hcard]; exact ⟨i, rfl⟩
    · rw [upd_ne _ _ e] at hd
      rw [upd_ne _ _ e, upd_ne _ _ e]; exact h.cnt1 d hd
  · have hd' : s.heap.nc ≤ d := hd
    have := h.nc d hd'
    by_cases e : d = c
    · subst e; rw [this] at hyc; simp at hyc
    · rw [upd_ne _ _ e]; exact this
  · obtain ⟨w, hw⟩ := hv z a' hz; exact h.null w a' hw
  · obtain ⟨w, hw⟩ := hv z a' hz; exact h.undef w a' hw
  · obtain ⟨w, hw⟩ := hv z a' hz; exact h.wrap w a' hw
  · obtain ⟨w, hw⟩ := hv z a' hz
    obtain ⟨b, d, B', n', i', d1, d2, d3, d4, d5, d6, d7⟩ := h.owned w a' hw hs
    obtain ⟨m, hm⟩ := hcnt d _ d6
    exact ⟨b, d, B', m, i', d1, d2, d3, d4, d5, hm, d7⟩
  · obtain ⟨z', hz'⟩ := hv z a' hz
    obtain ⟨w', hw'⟩ := hv w a'' hw
    exact h.uniq z' w' a' a'' hz' hw'
  · obtain ⟨z', hz'⟩ := hv z a' hz
    obtain ⟨w', hw'⟩ := hv w a'' hw
    obtain ⟨j, hj⟩ := h.cnt1 d ⟨z', (h.mem d z').2 ⟨a', hz', c1⟩⟩
    obtain ⟨m', hm'⟩ := hcnt d _ hj
    have hm2 : upd s.heap.cnt c (some (n + 1, i)) d = some (m, false) := hm
    rw [hm'] at hm2
    injection hm2 with hm2
    injection hm2 with _ hm2
    have hm3 : j = false := hm2
    subst hm3
    exact h.share z' w' a' a'' d _ hz' hw' c1 c2 hj
  · rcases h.live b B hb with hg | ⟨z, a', h1, h2, h3⟩
    · exact Or.inl hg
    · refine Or.inr ⟨z, a', ?_, h2, h3⟩
      show upd s.var x (some o) z = some a'
      rw [upd_ne]
      · exact h1
      · rintro rfl; rw [hx] at h1; simp at h1

/-- A moved-from object. -/
theorem null_inv {s : State α} {own : Nat → Finset Nat} (h : Inv s own) {x : Nat} (hx : s.var x = none) :
    Inv { s with var := upd s.var x (some nullArr) } own := by
  have hv : ∀ y a', upd s.var x (some nullArr) y = some a' → a' = nullArr ∨ s.var y = some a' := by
    intro y a' hy
    by_cases e : y = x
    · subst e; rw [upd_same] at hy; injection hy with hy; exact Or.inl hy.symm
    · rw [upd_ne _ _ e] at hy; exact Or.inr hy
  refine ⟨fun c y => ?_, h.cnt0, h.cnt1, h.nc, h.nb, h.gnb, fun y a' hy hc => ?_, fun y a' hy hs => ?_, fun y a' hy hs => ?_, fun y a' hy hs => ?_,
    fun y z a' a'' hy hz hs hs' hd => ?_, fun y z a' a'' c n hy hz c1 c2 hn => ?_, fun b B hb => ?_, h.frn, h.frd, h.fra⟩
  · rw [h.mem]
    by_cases e : y = x
    · subst e; simp [hx, nullArr]
    · simp only [upd_ne _ _ e]
  · rcases hv y a' hy with rfl | h1
    · rfl
    · exact h.null y a' h1 hc
  · rcases hv y a' hy with rfl | h1
    · exact ⟨rfl, rfl, rfl⟩
    · exact h.undef y a' h1 hs
  · rcases hv y a' hy with rfl | h1
    · simp [nullArr] at hs
    · exact h.wrap y a' h1 hs
  · rcases hv y a' hy with rfl | h1
    · simp [nullArr] at hs
    · exact h.owned y a' h1 hs
  · rcases hv y a' hy with rfl | h1
    · simp [nullArr] at hs
    rcases hv z a'' hz with rfl | h2
    · simp [nullArr] at hs'
    exact h.uniq y z a' a'' h1 h2 hs hs' hd
  · rcases hv y a' hy with rfl | h1
    · simp [nullArr] at c1
    rcases hv z a'' hz with rfl | h2
    · simp [nullArr] at c2
    exact h.share y z a' a'' c n h1 h2 c1 c2 hn
  · rcases h.live b B hb with hg | ⟨z, a', h1, h2, h3⟩
    · exact Or.inl hg
    · refine Or.inr ⟨z, a', ?_, h2, h3⟩
      show upd s.var x (some nullArr) z = some a'
      rw [upd_ne]
      · exact h1
      · rintro rfl; rw [hx] at h1; simp at h1

/-- Exchanging names. -/
theorem perm_inv {s : State α} {own : Nat → Finset Nat} (h : Inv s own) (π : Equiv.Perm Nat) :
    Inv { s with var := fun z => s.var (π z) } (fun c => (own c).map π.symm.toEmbedding) := by
  refine ⟨fun c y => ?_, fun c hc => ?_, fun c hc => ?_, fun c hc => ?_, h.nb, h.gnb, fun y a' hy => h.null _ a' hy, fun y a' hy => h.undef _ a' hy,
    fun y a' hy => h.wrap _ a' hy, fun y a' hy => h.owned _ a' hy, fun y z a' a'' hy hz => h.uniq _ _ a' a'' hy hz,
    fun y z a' a'' c n hy hz => h.share _ _ a' a'' c n hy hz, fun b B hb => ?_, h.frn, h.frd, h.fra⟩
  · rw [Finset.mem_map_equiv, Equiv.symm_symm, h.mem]
  · exact h.cnt0 c (Finset.map_eq_empty.1 hc)
  · rw [Finset.card_map]; exact h.cnt1 c (Finset.map_nonempty.1 hc)
  · show (own c).map _ = ∅
    rw [h.nc c hc]; rfl
  · rcases h.live b B hb with hg | ⟨z, a', h1, h2, h3⟩
    · exact Or.inl hg
    · exact Or.inr ⟨π.symm z, a', by simpa using h1, h2, h3⟩

/-- Change of the size within the capacity. -/
theorem size_inv {s : State α} {own : Nat → Finset Nat} (h : Inv s own) {x : Nat} {a : Arr} (hx : s.var x = some a) {n : Nat} (hn : n ≤ a.cap) :
    Inv { s with var := upd s.var x (some { a with size := n }) } own := by
  have hv : ∀ y a', upd s.var x (some { a with size := n }) y = some a' → (y = x ∧ a' = { a with size := n }) ∨ s.var y = some a' := by
    intro y a' hy
    by_cases e : y = x
    · subst e; rw [upd_same] at hy; injection hy with hy; exact Or.inl ⟨rfl, hy.symm⟩
    · rw [upd_ne _ _ e] at hy; exact Or.inr hy
  have hv' : ∀ y a', upd s.var x (some { a with size := n }) y = some a' → ∃ a0, s.var y = some a0 ∧ a'.data = a0.data ∧ a'.status = a0.status ∧ a'.counts = a0.counts := by
    intro y a' hy
    rcases hv y a' hy with ⟨rfl, rfl⟩ | h1
    · exact ⟨a, hx, rfl, rfl, rfl⟩
    · exact ⟨a', h1, rfl, rfl, rfl⟩
  have hvr : ∀ y a0, s.var y = some a0 → ∃ a', upd s.var x (some { a with size := n }) y = some a' ∧ a'.data = a0.data ∧ a'.status = a0.status ∧ a'.counts = a0.counts := by
    intro y a0 hy
    by_cases e : y = x
    · subst e; rw [hx] at hy; injection hy with hy; subst hy; exact ⟨_, upd_same _ _ _, rfl, rfl, rfl⟩
    · exact ⟨a0, by rw [upd_ne _ _ e]; exact hy, rfl, rfl, rfl⟩
  refine ⟨fun c y => ?_, h.cnt0, h.cnt1, h.nc, h.nb, h.gnb, fun y a' hy hc => ?_, fun y a' hy hs => ?_, fun y a' hy hs => ?_, fun y a' hy hs => ?_,
    fun y z a' a'' hy hz hs hs' hd => ?_, fun y z a' a'' c m hy hz c1 c2 hm => ?_, fun b B hb => ?_, h.frn, h.frd, h.fra⟩
  · rw [h.mem]
    constructor
    · rintro ⟨a0, h1, h2⟩
      obtain ⟨a', g1, -, -, g2⟩ := hvr y a0 h1
      exact ⟨a', g1, by rw [g2]; exact h2⟩
    · rintro ⟨a', h1, h2⟩
      obtain ⟨a0, g1, -, -, g2⟩ := hv' y a' h1
      exact ⟨a0, g1, by rw [← g2]; exact h2⟩
  · rcases hv y a' hy with ⟨-, rfl⟩ | h1
    · have := h.null x a hx hc
      subst this
      have : n = 0 := Nat.le_zero.1 hn
      subst this; rfl
    · exact h.null y a' h1 hc
  · rcases hv y a' hy with ⟨-, rfl⟩ | h1
    · obtain ⟨g1, g2, g3⟩ := h.undef x a hx hs
      exact ⟨g1, by rw [g3] at hn; exact Nat.le_zero.1 hn, g3⟩
    · exact h.undef y a' h1 hs
  · rcases hv y a' hy with ⟨-, rfl⟩ | h1
    · exact ⟨(h.wrap x a hx hs).1, hn⟩
    · exact h.wrap y a' h1 hs
  · rcases hv y a' hy with ⟨-, rfl⟩ | h1
    · obtain ⟨b, d, B', n', i', d1, d2, d3, d4, d5, d6, d7⟩ := h.owned x a hx hs
      exact ⟨b, d, B', n', i', d1, d2, d3, hn, d5, d6, d7⟩
    · exact h.owned y a' h1 hs
  · obtain ⟨a0, g1, g2, g3, g4⟩ := hv' y a' hy
    obtain ⟨b0, k1, k2, k3, k4⟩ := hv' z a'' hz
    rw [g4, k4]
    exact h.uniq y z a0 b0 g1 k1 (by rw [← g3]; exact hs) (by rw [← k3]; exact hs') (by rw [← g2, ← k2]; exact hd)
  · obtain ⟨a0, g1, g2, g3, g4⟩ := hv' y a' hy
    obtain ⟨b0, k1, k2, k3, k4⟩ := hv' z a'' hz
    rw [g2, g3, k2, k3]
    exact h.share y z a0 b0 c m g1 k1 (by rw [← g4]; exact c1) (by rw [← k4]; exact c2) hm
  · rcases h.live b B hb with hg | ⟨z, a', h1, h2, h3⟩
    · exact Or.inl hg
    · obtain ⟨a'', g1, g2, g3, -⟩ := hvr z a' h1
      exact Or.inr ⟨z, a'', g1, by rw [g3]; exact h2, by rw [g2]; exact h3⟩

/-- Overwriting contents. -/
theorem write_inv {s : State α} {own : Nat → Finset Nat} (h : Inv s own) {b : Nat} {B B' : Buf α} (hb : s.heap.blk b = some B) (hsz : B'.size = B.size) :
    Inv { s with heap := { s.heap with blk := upd s.heap.blk b (some B') } } own := by
  have hb' : b < s.heap.nb := by
    by_contra hc
    rw [h.nb b (by omega)] at hb; simp at hb
  refine ⟨h.mem, h.cnt0, h.cnt1, h.nc, fun d hd => ?_, fun d hd => ⟨(h.gnb d hd).1, by
      show upd s.heap.blk b (some B') d ≠ none
      by_cases ed : d = b
      · rw [ed, upd_same]; simp
      · rw [upd_ne _ _ ed]; exact (h.gnb d hd).2⟩, h.null, h.undef, h.wrap, fun y a' hy hs => ?_, h.uniq, h.share, fun d D hd => ?_, h.frn, fun d hd => ?_, fun d hd hd' => ?_⟩
  · have hd' : s.heap.nb ≤ d := hd
    show upd s.heap.blk b (some B') d = none
    rw [upd_ne _ _ (by omega)]; exact h.nb d hd'
  · obtain ⟨d, e, D, n', i', d1, d2, d3, d4, d5, d6, d7⟩ := h.owned y a' hy hs
    by_cases ed : d = b
    · subst ed
      rw [hb] at d3; injection d3 with d3; subst d3
      exact ⟨d, e, B', n', i', d1, d2, upd_same _ _ _, d4, by omega, d6, d7⟩
    · exact ⟨d, e, D, n', i', d1, d2, by show upd s.heap.blk b (some B') d = _; rw [upd_ne _ _ ed]; exact d3, d4, d5, d6, d7⟩
  · have hd' : upd s.heap.blk b (some B') d = some D := hd
    by_cases ed : d = b
    · rw [ed]; exact h.live b B hb
    · rw [upd_ne _ _ ed] at hd'; exact h.live d D hd'
  · refine ⟨(h.frd d hd).1, ?_⟩
    show upd s.heap.blk b (some B') d = none
    have : d ≠ b := by rintro rfl; rw [(h.frd d hd).2] at hb; simp at hb
    rw [upd_ne _ _ this]; exact (h.frd d hd).2
  · have hd2 : upd s.heap.blk b (some B') d = none := hd'
    by_cases ed : d = b
    · rw [ed, upd_same] at hd2; simp at hd2
    · rw [upd_ne _ _ ed] at hd2; exact h.fra d hd hd2

theorem usr_inv {s : State α} {own : Nat → Finset Nat} (h : Inv s own) (usr : Nat → Buf α) : Inv { s with heap := { s.heap with usr := usr } } own :=
  ⟨h.mem, h.cnt0, h.cnt1, h.nc, h.nb, h.gnb, h.null, h.undef, h.wrap, h.owned, h.uniq, h.share, h.live, h.frn, h.frd, h.fra⟩

/-- Handing out the buffer of an object. -/
theorem steal_inv {s : State α} {own : Nat → Finset Nat} (h : Inv s own) {x : Nat} {a : Arr} (hx : s.var x = some a) (hs : a.status = .own) {b c n : Nat}
    {i : Bool} (hd : a.data = some (.own b)) (hc : a.counts = some c) (hn : s.heap.cnt c = some (n, i)) (hb : b ∉ s.given) :
    Inv { var := upd s.var x (some { data := none, size := 0, cap := 0, status := .undef, counts := some c }),
          heap := { s.heap with cnt := upd s.heap.cnt c (some (n, true)) }, given := b :: s.given } own := by
  have hv : ∀ y a', upd s.var x (some { data := none, size := 0, cap := 0, status := .undef, counts := some c }) y = some a' →
      (y = x ∧ a' = { data := none, size := 0, cap := 0, status := .undef, counts := some c }) ∨ (y ≠ x ∧ s.var y = some a') := by
    intro y a' hy
    by_cases e : y = x
    · subst e; rw [upd_same] at hy; injection hy with hy; exact Or.inl ⟨rfl, hy.symm⟩
    · rw [upd_ne _ _ e] at hy; exact Or.inr ⟨e, hy⟩
  obtain ⟨b', c', B, n', i', d1, d2, d3, d4, d5, d6, d7⟩ := h.owned x a hx hs
  rw [hd] at d1; injection d1 with d1; injection d1 with d1; subst d1
  rw [hc] at d2; injection d2 with d2; subst d2
  rw [hn] at d6; injection d6 with d6; injection d6 with d6 d6'; subst d6'
  have hi : i = false := by
    cases i with
    | false => rfl
    | true => exact absurd (d7.1 rfl) hb
  subst hi
  refine ⟨fun d y => ?_, fun d hd => ?_, fun d hd => ?_, h.nc, h.nb, fun d hd => ?_, fun y a' hy hc' => ?_, fun y a' hy hs' => ?_, fun y a' hy hs' => ?_, fun y a' hy hs' => ?_,
    fun y z a' a'' hy hz hs1 hs2 hd => ?_, fun y z a' a'' d m hy hz c1 c2 hm => ?_, fun d D hD => ?_, h.frn, h.frd, h.fra⟩
  · rw [h.mem]
    by_cases e : y = x
    · subst e; simp only [upd_same, hx, Option.some.injEq, exists_eq_left', hc]
    · simp only [upd_ne _ _ e]
  · show upd s.heap.cnt c (some (n, true)) d = none
    by_cases e : d = c
    · have : x ∈ own c := (h.mem c x).2 ⟨a, hx, hc⟩
      rw [← e, hd] at this; simp at this
    · rw [upd_ne _ _ e]; exact h.cnt0 d hd
  · show ∃ j, upd s.heap.cnt c (some (n, true)) d = some ((own d).card, j)
    obtain ⟨j, hj⟩ := h.cnt1 d hd
    by_cases e : d = c
    · subst e; rw [hn] at hj; injection hj with hj; injection hj with hj hj'
      rw [upd_same, ← hj]; exact ⟨true, rfl⟩
    · rw [upd_ne _ _ e]; exact ⟨j, hj⟩
  · rcases List.mem_cons.1 hd with rfl | hd
    · refine ⟨?_, by show s.heap.blk d ≠ none; rw [d3]; simp⟩
      show d < s.heap.nb
      by_contra hcon
      rw [h.nb d (by omega)] at d3; simp at d3
    · exact h.gnb d hd
  · rcases hv y a' hy with ⟨-, rfl⟩ | ⟨-, h1⟩
    · simp at hc'
    · exact h.null y a' h1 hc'
  · rcases hv y a' hy with ⟨-, rfl⟩ | ⟨-, h1⟩
    · exact ⟨rfl, rfl, rfl⟩
    · exact h.undef y a' h1 hs'
  · rcases hv y a' hy with ⟨-, rfl⟩ | ⟨-, h1⟩
    · simp at hs'
    · exact h.wrap y a' h1 hs'
  · rcases hv y a' hy with ⟨-, rfl⟩ | ⟨-, h1⟩
    · simp at hs'
    · obtain ⟨d, e, D, m, j, e1, e2, e3, e4, e5, e6, e7⟩ := h.owned y a' h1 hs'
      by_cases ec : e = c
      · subst ec
        obtain ⟨s1, -⟩ := h.share y x a' a e n h1 hx e2 hc hn
        rw [e1, hd] at s1; injection s1 with s1; injection s1 with s1; subst s1
        exact ⟨d, e, D, n, true, e1, e2, e3, e4, e5, upd_same _ _ _, by simp⟩
      · refine ⟨d, e, D, m, j, e1, e2, e3, e4, e5, by show upd s.heap.cnt c _ e = _; rw [upd_ne _ _ ec]; exact e6, ?_⟩
        rw [e7, List.mem_cons]
        have : d ≠ b := by
          rintro rfl
          have := h.uniq y x a' a h1 hx hs' hs (by rw [e1, hd])
          rw [e2, hc] at this; injection this with this; exact ec this
        simp [this]
  · rcases hv y a' hy with ⟨-, rfl⟩ | ⟨-, h1⟩
    · simp at hs1
    rcases hv z a'' hz with ⟨-, rfl⟩ | ⟨-, h2⟩
    · simp at hs2
    exact h.uniq y z a' a'' h1 h2 hs1 hs2 hd
  · have hm' : upd s.heap.cnt c (some (n, true)) d = some (m, false) := hm
    have ed : d ≠ c := by
      rintro rfl
      rw [upd_same] at hm'; simp at hm'
    rw [upd_ne _ _ ed] at hm'
    rcases hv y a' hy with ⟨-, rfl⟩ | ⟨-, h1⟩
    · simp only [Option.some.injEq] at c1; exact absurd c1.symm ed
    rcases hv z a'' hz with ⟨-, rfl⟩ | ⟨-, h2⟩
    · simp only [Option.some.injEq] at c2; exact absurd c2.symm ed
    exact h.share y z a' a'' d m h1 h2 c1 c2 hm'
  · rcases h.live d D hD with hg | ⟨z, a', h1, h2, h3⟩
    · exact Or.inl (List.mem_cons_of_mem _ hg)
    · by_cases ez : z = x
      · subst ez
        rw [hx] at h1; injection h1 with h1; subst h1
        rw [hd] at h3; injection h3 with h3; injection h3 with h3; subst h3
        exact Or.inl List.mem_cons_self
      · refine Or.inr ⟨z, a', ?_, h2, h3⟩
        show upd s.var x _ z = _
        rw [upd_ne _ _ ez]; exact h1

end RC
end Hif
