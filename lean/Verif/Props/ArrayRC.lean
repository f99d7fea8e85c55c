import Verif.ArrayRCValues

set_option linter.unusedVariables false

/-!
# C17: reference-counted arrays

`Legal l s` (ArrayRCStep.lean) says that a program executing the operations `l` respects the rules of `Array`: constructors make new objects, other
operations act on existing ones, no shallow copy of a moved-from object, wrapped memory is there when it is read, indices in range, `push_back` and
`Array(n, data)` do not run out of memory, no second `steal_array_ownership` of one buffer.  The outcomes `ub` of the model are: double free, freeing user memory,
use after free, use of a null pointer or null counter, access out of bounds.
-/

namespace Hif
namespace Spec

open RC

variable {α : Type _}

/-- What a state of memory has to satisfy. -/
structure SoundMemory (s : State α) : Prop where
  /-- an owning object has a live buffer that is large enough -/
  owned : ∀ x a, s.var x = some a → a.status = .own → a.size ≤ a.cap ∧ ∃ b B, a.data = some (.own b) ∧ s.heap.blk b = some B ∧ a.cap ≤ B.size
  /-- a counter counts the objects holding it -/
  counted : ∀ x a c, s.var x = some a → a.counts = some c →
    ∃ (S : Finset Nat) (i : Bool), (∀ y, y ∈ S ↔ ∃ a', s.var y = some a' ∧ a'.counts = some c) ∧ s.heap.cnt c = some (S.card, i)
  /-- no buffer is freed twice -/
  once : s.heap.freed.Nodup
  /-- the dead buffers are the freed ones -/
  dead : ∀ b, b ∈ s.heap.freed ↔ b < s.heap.nb ∧ s.heap.blk b = none
  /-- a live buffer is owned by an object, or its ownership has been handed to the caller -/
  noLeak : ∀ b B, s.heap.blk b = some B → b ∈ s.given ∨ ∃ x a, s.var x = some a ∧ a.status = .own ∧ a.data = some (.own b)
  /-- a live counter is held by an object -/
  noCounterLeak : ∀ c, s.heap.cnt c ≠ none → ∃ x a, s.var x = some a ∧ a.counts = some c
  /-- a buffer handed to the caller is never freed -/
  given : ∀ b ∈ s.given, b ∉ s.heap.freed

/-- The states reached by permitted histories. -/
def Reached [Inhabited α] (usr : Nat → Buf α) (s : State α) : Prop := ∃ l, Legal l (init usr) ∧ run l (init usr) = .ok s

end Spec

namespace Props

open RC

variable {α : Type} [Inhabited α]

theorem rc_inv {usr : Nat → Buf α} {s : State α} (h : Spec.Reached usr s) : ∃ own, Inv s own := by
  obtain ⟨l, hl, e⟩ := h
  obtain ⟨s', e', own, hi⟩ := run_runs l (init_inv usr) hl
  rw [e] at e'; injection e' with e'; subst e'
  exact ⟨own, hi⟩

/-- Every permitted history runs without undefined behaviour and leaves the memory sound: no double free, no leak, counters exact. -/
theorem C17_history_safe_partial (usr : Nat → Buf α) (l : List (Op α)) (h : Legal l (init usr)) :
    ∃ s, run l (init usr) = .ok s ∧ Spec.SoundMemory s := by
  obtain ⟨s, e, own, hi⟩ := run_runs l (init_inv usr) h
  refine ⟨s, e, ?_, ?_, hi.frn, fun b => ⟨hi.frd b, fun hb => hi.fra b hb.1 hb.2⟩, hi.live, ?_, fun b hb hf => (hi.gnb b hb).2 (hi.frd b hf).2⟩
  · intro x a hx hs
    obtain ⟨b, c, B, n, i, d1, d2, d3, d4, d5, -⟩ := hi.owned x a hx hs
    exact ⟨d4, b, B, d1, d3, d5⟩
  · intro x a c hx hc
    obtain ⟨i, hi'⟩ := hi.cnt1 c ⟨x, (hi.mem c x).2 ⟨a, hx, hc⟩⟩
    exact ⟨own c, i, hi.mem c, hi'⟩
  · intro c hc
    by_cases he : (own c).Nonempty
    · obtain ⟨x, hx⟩ := he
      obtain ⟨a, h1, h2⟩ := (hi.mem c x).1 hx
      exact ⟨x, a, h1, h2⟩
    · exact absurd (hi.cnt0 c (Finset.not_nonempty_iff_eq_empty.1 he)) hc

/-- When all objects are gone, every buffer was freed exactly once, unless its ownership was handed to the caller (then it was not freed), and no counter is left. -/
theorem C17_no_leak_partial (usr : Nat → Buf α) (l : List (Op α)) (h : Legal l (init usr)) {s : State α} (e : run l (init usr) = .ok s) (hv : ∀ x, s.var x = none) :
    (∀ b, b < s.heap.nb → s.heap.freed.count b = if b ∈ s.given then 0 else 1) ∧ ∀ c, s.heap.cnt c = none := by
  obtain ⟨s', e', h1⟩ := C17_history_safe_partial usr l h
  rw [e] at e'; injection e' with e'; subst e'
  constructor
  · intro b hb
    split
    · rename_i hg
      exact List.count_eq_zero.2 (h1.given b hg)
    · rename_i hg
      refine List.count_eq_one_of_mem h1.once ((h1.dead b).2 ⟨hb, ?_⟩)
      by_contra hne
      obtain ⟨B, hB⟩ := Option.ne_none_iff_exists'.1 hne
      rcases h1.noLeak b B hB with hg' | ⟨x, a, hx, -⟩
      · exact hg hg'
      · rw [hv x] at hx; simp at hx
  · intro c
    by_contra hne
    obtain ⟨x, a, hx, -⟩ := h1.noCounterLeak c hne
    rw [hv x] at hx; simp at hx

theorem rd_ok {β : Type} {B : Buf β} {i : Nat} (h : i < B.size) : B.rd i = .ok (B.get i) := by
  unfold Buf.rd; rw [if_pos h]; rfl

omit [Inhabited α] in
theorem peek_mem {s : State α} {x : Nat} {a : Arr} (hx : s.var x = some a) {p : Ptr} (hp : a.data = some p) {B : Buf α} (hB : s.heap.mem p = some B) (i : Nat) :
    peek s x i = B.rd i := by
  unfold peek obj
  rw [hx]
  show load a.data i s.heap = _
  rw [hp, load_runs hB]

/-- Elements of an owning object, or of an object wrapping usable memory, can be read. -/
theorem C17_read_safe {usr : Nat → Buf α} {s : State α} (hs : Spec.Reached usr s) {x : Nat} {a : Arr} (hx : s.var x = some a) (hu : Usable a s.heap)
    {i : Nat} (hi : i < a.size) : ∃ v, peek s x i = .ok v := by
  obtain ⟨own, h⟩ := rc_inv hs
  obtain ⟨h1, h2⟩ := readable h hx hu
  obtain ⟨p, B, e1, e2, e3⟩ := h2.resolve_left (by omega)
  rw [peek_mem hx e1 e2, rd_ok (by omega)]
  exact ⟨_, rfl⟩

/-- An operation that writes no elements does not change other objects; the contents of those that own their memory, or wrap user memory, are unchanged. -/
theorem C17_frame {usr : Nat → Buf α} {s s' : State α} (hs : Spec.Reached usr s) {o : Op α} (ho : Legit s o) (hw : ¬ writes o) (e : step o s = .ok s')
    {y : Nat} (hy : y ∉ targets o) {a : Arr} (hya : s.var y = some a) (hst : a.status = .own ∨ ∃ u, a.data = some (.usr u)) :
    s'.var y = some a ∧ ∀ i, peek s' y i = peek s y i := by
  obtain ⟨own, h⟩ := rc_inv hs
  obtain ⟨s'', e', own', h'⟩ := step_runs h o ho
  rw [e] at e'; injection e' with e'; subst e'
  have hv := (step_var e hy).trans hya
  refine ⟨hv, fun i => ?_⟩
  have k := step_kp hw e
  rcases hst with hst | ⟨u, hu⟩
  · obtain ⟨b, c, B, n, j, d1, d2, d3, -⟩ := h.owned y a hya hst
    obtain ⟨b', c', B', n', j', d1', d2', d3', -⟩ := h'.owned y a hv hst
    rw [d1] at d1'; injection d1' with d1'; injection d1' with d1'; subst d1'
    have hb : b < s.heap.nb := by by_contra hc; rw [h.nb b (by omega)] at d3; simp at d3
    have := k.mem hb d3'
    rw [peek_mem hv d1 (B := B') d3', peek_mem hya d1 (B := B') this]
  · rw [peek_mem hv hu (B := s'.heap.usr u) rfl, peek_mem hya hu (B := s.heap.usr u) rfl, k.usr]

/-- A shallow copy is the same array. -/
theorem C17_share {s s' : State α} {x y : Nat} (e : step (.share x y) s = .ok s') {o : Arr} (hy : s.var y = some o) :
    s'.var x = some o ∧ ∀ i, peek s' x i = peek s y i := by
  obtain ⟨o', e1, e⟩ := bind_ok e
  unfold obj at e1; rw [hy] at e1
  have := pure_ok e1; subst this
  obtain ⟨r, e1, e⟩ := bind_ok e
  have := pure_ok e; subst this
  obtain ⟨h1, e2, e1⟩ := bind_ok e1
  have := pure_ok e1; subst this
  have hv : (s.put x (o, h1)).var x = some o := upd_same _ _ _
  have hh : h1.blk = s.heap.blk ∧ h1.usr = s.heap.usr := by
    unfold incCount at e2
    split at e2
    · simp [throw, throwThe, MonadExceptOf.throw] at e2
    · obtain ⟨q, -, e2⟩ := bind_ok e2
      have := pure_ok e2; subst this; exact ⟨rfl, rfl⟩
  refine ⟨hv, fun i => ?_⟩
  unfold peek obj
  rw [hv, hy]
  show load o.data i h1 = load o.data i s.heap
  unfold load
  rw [hh.1, hh.2]

/-- A write is seen by the objects with the same data pointer, and by no others. -/
theorem C17_write {usr : Nat → Buf α} {s s' : State α} (hs : Spec.Reached usr s) {x i : Nat} {v : α} (ho : Legit s (.write x i v))
    (e : step (.write x i v) s = .ok s') {a : Arr} (hx : s.var x = some a) {y : Nat} {a' : Arr} (hy : s.var y = some a') :
    s'.var y = some a' ∧
    (a'.data = a.data → peek s' y i = .ok v ∧ ∀ j, j ≠ i → peek s' y j = peek s y j) ∧
    (a'.data ≠ a.data → ∀ j, peek s' y j = peek s y j) := by
  obtain ⟨own, h⟩ := rc_inv hs
  obtain ⟨a0, hx0, hu, hi⟩ := ho
  rw [hx] at hx0; injection hx0 with hx0; subst hx0
  obtain ⟨h1, h2⟩ := readable h hx hu
  obtain ⟨p, B, g1, g2, g3⟩ := h2.resolve_left (by omega)
  obtain ⟨h', e', k1, k2, k3, k4⟩ := store_runs h g2 (i := i) (by omega) v
  obtain ⟨a0, e1, e⟩ := bind_ok e
  unfold obj at e1; rw [hx] at e1
  have := pure_ok e1; subst this
  obtain ⟨h'', e2, e⟩ := bind_ok e
  rw [g1, e'] at e2; injection e2 with e2; subst e2
  have := pure_ok e; subst this
  refine ⟨hy, fun hd => ?_, fun hd => ?_⟩
  · have hd' : a'.data = some p := hd.trans g1
    constructor
    · rw [peek_mem (s := { s with heap := h' }) hy hd' k2, rd_ok (by simp; omega)]
      simp [Buf.set_get]
    · intro j hj
      rw [peek_mem (s := { s with heap := h' }) hy hd' k2, peek_mem hy hd' g2]
      simp only [Buf.rd, Buf.set_size, Buf.set_get, if_neg hj]
  · intro j
    unfold peek obj
    simp only [hy]
    show load a'.data j h' = load a'.data j s.heap
    cases hq : a'.data with
    | none => rfl
    | some q =>
      have := k3 q (fun e => hd (by rw [hq, g1, e]))
      cases q with
      | own b =>
        have this : h'.blk b = s.heap.blk b := this
        unfold load; simp only [this]
      | usr u =>
        have this : some (h'.usr u) = some (s.heap.usr u) := this
        injection this with this
        unfold load; simp only [this]

/-- `resize(n)` without allocation failure: the array has size `n` and its values. -/
theorem C17_resize {usr : Nat → Buf α} {s s' : State α} (hs : Spec.Reached usr s) {x n : Nat} {ok : Bool} (ho : Legit s (.resize x n true ok))
    (e : step (.resize x n true ok) s = .ok s') {a : Arr} (hx : s.var x = some a) (hok : ok = true ∨ n ≤ a.cap) :
    ∃ a', s'.var x = some a' ∧ a'.size = n ∧ ∀ i, i < n → i < a.size → peek s' x i = peek s x i := by
  obtain ⟨own, h⟩ := rc_inv hs
  obtain ⟨a0, hx0, hu⟩ := ho
  rw [hx] at hx0; injection hx0 with hx0; subst hx0
  obtain ⟨h1, h2⟩ := readable h hx hu
  obtain ⟨r, er, -, k⟩ := resize_runs h hx hu n true default ok
  obtain ⟨k1, k2⟩ := k hok
  obtain ⟨a0, e1, e⟩ := bind_ok e
  unfold obj at e1; rw [hx] at e1
  have := pure_ok e1; subst this
  obtain ⟨r', e2, e⟩ := bind_ok e
  rw [er] at e2; injection e2 with e2; subst e2
  have := pure_ok e; subst this
  have hv : (s.put x r).var x = some r.1 := upd_same _ _ _
  refine ⟨r.1, hv, k1, fun i hi hi' => ?_⟩
  obtain ⟨p, B, g1, g2, g3⟩ := h2.resolve_left (by omega)
  rcases k2 with ⟨rfl, -⟩ | ⟨q1, q2, q3, ⟨D, q4, q5, q6⟩, -⟩
  · rw [peek_mem (s := s.put x _) hv (p := p) g1 g2, peek_mem hx g1 g2]
  · rw [peek_mem hv q2 (B := D) q4, peek_mem hx g1 g2, rd_ok (by omega), rd_ok (by omega), q6 rfl p B g1 g2 i hi']

/-- `reserve(n)` without allocation failure: same size and values, and the capacity is at least `n`. -/
theorem C17_reserve {usr : Nat → Buf α} {s s' : State α} (hs : Spec.Reached usr s) {x n : Nat} {ok : Bool} (ho : Legit s (.reserve x n ok))
    (e : step (.reserve x n ok) s = .ok s') {a : Arr} (hx : s.var x = some a) (hok : ok = true ∨ n ≤ a.cap) :
    ∃ a', s'.var x = some a' ∧ a'.size = a.size ∧ n ≤ a'.cap ∧ ∀ i, i < a.size → peek s' x i = peek s x i := by
  obtain ⟨own, h⟩ := rc_inv hs
  obtain ⟨a0, hx0, hu⟩ := ho
  rw [hx] at hx0; injection hx0 with hx0; subst hx0
  obtain ⟨h1, h2⟩ := readable h hx hu
  obtain ⟨r, er, ⟨own', hi'⟩, k⟩ := reserve_runs h hx hu n default ok
  obtain ⟨k1, k1', k2⟩ := k hok
  obtain ⟨a0, e1, e⟩ := bind_ok e
  unfold obj at e1; rw [hx] at e1
  have := pure_ok e1; subst this
  obtain ⟨r', e2, e⟩ := bind_ok e
  rw [er] at e2; injection e2 with e2; subst e2
  have := pure_ok e; subst this
  have hv : (s.put x r).var x = some r.1 := upd_same _ _ _
  refine ⟨r.1, hv, k1, k1', fun i hi => ?_⟩
  obtain ⟨p, B, g1, g2, g3⟩ := h2.resolve_left (by omega)
  rcases k2 with rfl | ⟨q1, q2, D, q4, q6⟩
  · rw [peek_mem (s := s.put x _) hv (p := p) g1 g2, peek_mem hx g1 g2]
  · obtain ⟨b, c, B', n', i', d1, d2, d3, d4, d5, -⟩ := hi'.owned x r.1 hv q1
    rw [q2] at d1; injection d1 with d1; injection d1 with d1; subst d1
    have q4' : (s.put x r).heap.blk s.heap.nb = some D := q4
    rw [q4'] at d3; injection d3 with d3; subst d3
    rw [peek_mem hv q2 (B := D) q4, peek_mem hx g1 g2, rd_ok (by omega), rd_ok (by omega), q6 p B g1 g2 i hi]

/-- A deep copy has the values of the original and memory that no owning object and no wrapper of user memory shares. -/
theorem C17_clone {usr : Nat → Buf α} {s s' : State α} (hs : Spec.Reached usr s) {x y : Nat} (ho : Legit s (.clone x y)) (e : step (.clone x y) s = .ok s')
    {o : Arr} (hy : s.var y = some o) :
    ∃ a, s'.var x = some a ∧ a.status = .own ∧ a.size = o.size ∧ (∀ i, i < o.size → peek s' x i = peek s y i) ∧
      ∀ z a', z ≠ x → s'.var z = some a' → (a'.status = .own ∨ ∃ u, a'.data = some (.usr u)) → a'.data ≠ a.data := by
  obtain ⟨own, h⟩ := rc_inv hs
  obtain ⟨hx, o0, hy0, hu⟩ := ho
  rw [hy] at hy0; injection hy0 with hy0; subst hy0
  obtain ⟨h1, h2⟩ := readable h hy hu
  obtain ⟨o0, e1, e⟩ := bind_ok e
  unfold obj at e1; rw [hy] at e1
  have := pure_ok e1; subst this
  obtain ⟨r, e2, e⟩ := bind_ok e
  have := pure_ok e; subst this
  have hcp := copyN_runs (h := (newCount s.heap).2) (p := o.data) (n := o.size) (h2.imp (fun h => by omega)
    (by rintro ⟨p, B, g1, g2, g3⟩; exact ⟨p, B, g1, by cases p <;> exact g2, by omega⟩)) (Buf.mk' o.size default) (le_refl _)
  obtain ⟨D, eD, hD, hDv⟩ := hcp
  unfold ctorClone at e2
  simp only [eD] at e2
  have e2 := pure_ok e2
  subst e2
  have hv : (s.put x ({ data := some (.own (newBlk D (newCount s.heap).2).1), size := o.size, cap := o.size, status := .own, counts := some (newCount s.heap).1 },
    (newBlk D (newCount s.heap).2).2)).var x = some { data := some (.own s.heap.nb), size := o.size, cap := o.size, status := .own, counts := some s.heap.nc } := upd_same _ _ _
  refine ⟨_, hv, rfl, rfl, fun i hi => ?_, fun z a' hz hza hst => ?_⟩
  · obtain ⟨p, B, g1, g2, g3⟩ := h2.resolve_left (by omega)
    rw [peek_mem hv (p := .own s.heap.nb) rfl (B := D) (upd_same _ _ _), peek_mem hy g1 g2, rd_ok (by simp at hD; omega), rd_ok (by omega),
      hDv p B g1 (by cases p <;> exact g2) i hi]
  · have hza' : s.var z = some a' := (upd_ne _ _ hz).symm.trans hza
    rcases hst with hst | ⟨u, hu'⟩
    · exact (blk_inv h D).2.2 z a' hza' hst
    · rw [hu']; simp

/-- `push_back(v)` without allocation failure appends the value. -/
theorem C17_push {usr : Nat → Buf α} {s s' : State α} (hs : Spec.Reached usr s) {x : Nat} {v : α} {ok : Bool} (ho : Legit s (.push x v ok))
    (e : step (.push x v ok) s = .ok s') {a : Arr} (hx : s.var x = some a) :
    ∃ a', s'.var x = some a' ∧ a'.size = a.size + 1 ∧ peek s' x a.size = .ok v ∧ ∀ i, i < a.size → peek s' x i = peek s x i := by
  obtain ⟨own, h⟩ := rc_inv hs
  obtain ⟨a0, hx0, hu, hok⟩ := ho
  rw [hx] at hx0; injection hx0 with hx0; subst hx0
  obtain ⟨h1, h2⟩ := readable h hx hu
  obtain ⟨r, er, ⟨own', hi'⟩, k⟩ := resize_runs h hx hu (a.size + 1) true default ok
  obtain ⟨k1, k2⟩ := k (hok.imp id (fun h => by omega))
  obtain ⟨a0, e1, e⟩ := bind_ok e
  unfold obj at e1; rw [hx] at e1
  have := pure_ok e1; subst this
  obtain ⟨r', e2, e⟩ := bind_ok e
  have := pure_ok e; subst this
  obtain ⟨r2, e3, e2⟩ := bind_ok e2
  rw [er] at e3; injection e3 with e3; subst e3
  obtain ⟨h3, e4, e2⟩ := bind_ok e2
  have := pure_ok e2; subst this
  have hv : (s.put x (r.1, h3)).var x = some r.1 := upd_same _ _ _
  have hm : ∃ p B, r.1.data = some p ∧ r.2.mem p = some B ∧ a.size < B.size ∧ ∀ i, i < a.size → peek s x i = B.rd i := by
    rcases k2 with ⟨rfl, hle⟩ | ⟨q1, q2, q3, ⟨D, q4, q5, q6⟩, -⟩
    · obtain ⟨p, B, g1, g2, g3⟩ := h2.resolve_left (by omega)
      exact ⟨p, B, g1, g2, by omega, fun i hi => peek_mem hx g1 g2 i⟩
    · refine ⟨_, D, q2, q4, by omega, fun i hi => ?_⟩
      obtain ⟨p, B, g1, g2, g3⟩ := h2.resolve_left (by omega)
      rw [peek_mem hx g1 g2, rd_ok (by omega), rd_ok (by omega), q6 rfl p B g1 g2 i hi]
  obtain ⟨p, B, g1, g2, g3, g4⟩ := hm
  obtain ⟨h', e', l1, l2, l3, l4⟩ := store_runs hi' (p := p) (B := B) g2 (i := r.1.size - 1) (by omega) v
  have e4' : store r.1.data (r.1.size - 1) v r.2 = .ok h3 := e4
  have e5 : store (some p) (r.1.size - 1) v r.2 = .ok h' := e'
  rw [g1, e5] at e4'; injection e4' with e4'; subst e4'
  refine ⟨r.1, hv, k1, ?_, fun i hi => ?_⟩
  · rw [peek_mem hv g1 (B := B.set (r.1.size - 1) v) l2, rd_ok (by simp; omega)]
    rw [Buf.set_get, if_pos (by omega)]
  · rw [peek_mem hv g1 (B := B.set (r.1.size - 1) v) l2, g4 i hi]
    simp only [Buf.rd, Buf.set_size, Buf.set_get, if_neg (show ¬ i = r.1.size - 1 by omega)]

/-! Checked access. -/

/-- `at(i)` (Array.hpp 308–315). -/
def rcAt (s : State α) (x i : Nat) : M α := do
  let a ← obj s x
  if a.size ≤ i then throw (.hif "exceeds the size bound") else load a.data i s.heap

/-- `at(i)` gives the element, or an error that can be caught, for every index. -/
theorem C17_at {usr : Nat → Buf α} {s : State α} (hs : Spec.Reached usr s) {x : Nat} {a : Arr} (hx : s.var x = some a) (hu : Usable a s.heap) (i : Nat) :
    (i < a.size → ∃ v, rcAt s x i = .ok v ∧ peek s x i = .ok v) ∧ (a.size ≤ i → rcAt s x i = .error (.hif "exceeds the size bound")) := by
  constructor
  · intro hi
    obtain ⟨v, hv⟩ := C17_read_safe hs hx hu hi
    refine ⟨v, ?_, hv⟩
    unfold peek at hv
    unfold rcAt
    unfold obj at hv ⊢
    rw [hx] at hv ⊢
    show (if a.size ≤ i then _ else _) = _
    rw [if_neg (by omega)]
    exact hv
  · intro hi
    unfold rcAt obj
    rw [hx]
    show (if a.size ≤ i then _ else _) = _
    rw [if_pos hi]
    rfl

namespace ExRC

/-- Memory of the user. -/
def usr : Nat → Buf Nat := fun _ => Buf.ofList [7, 8, 9]

/-- A history with sharing, copies, wrapping, growth, moving and stealing. -/
def hist : List (Op Nat) :=
  [.newN 0 3 5 true, .share 1 0, .write 1 2 6, .clone 2 0, .write 0 0 4, .push 1 9 true, .wrap 3 3 (.usr 0), .append 3 [1, 2] true, .move 4 2, .steal 4,
   .swap 0 3, .assign 2 0, .moveAssign 4 3, .resize 1 2 true true, .new 5, .assign 5 1, .reserve 5 20 true]

/-- Decision of `Usable`. -/
def usableB (a : Arr) (h : Heap Nat) : Bool :=
  match a.status, a.data with
  | .wrap, some (.usr u) => a.cap ≤ (h.usr u).size
  | .wrap, _ => false
  | _, _ => true

/-- Decision of `Legit`, for the operations of the example. -/
def legitB (s : State Nat) : Op Nat → Bool
  | .new x => (s.var x).isNone
  | .newN x _ _ _ => (s.var x).isNone
  | .wrap x _ _ => (s.var x).isNone
  | .share x y => (s.var x).isNone && (match s.var y with | some o => o.counts.isSome | none => false)
  | .clone x y => (s.var x).isNone && (match s.var y with | some o => usableB o s.heap | none => false)
  | .move x y => (s.var x).isNone && (s.var y).isSome
  | .assign x y => (s.var x).isSome && (match s.var y with | some o => o.counts.isSome | none => false)
  | .moveAssign x y => (s.var x).isSome && (s.var y).isSome
  | .swap x y => (s.var x).isSome && (s.var y).isSome
  | .resize x _ _ _ => match s.var x with | some a => usableB a s.heap | none => false
  | .reserve x _ _ => match s.var x with | some a => usableB a s.heap | none => false
  | .push x _ ok => match s.var x with | some a => usableB a s.heap && ok | none => false
  | .append x _ ok => match s.var x with | some a => usableB a s.heap && ok | none => false
  | .write x i _ => match s.var x with | some a => usableB a s.heap && decide (i < a.size) | none => false
  | .steal x => match s.var x with | some a => s.given.all (fun b => decide (a.data ≠ some (.own b))) | none => false
  | .destroy x => (s.var x).isSome
  | .newCopy _ _ _ _ => false

/-- Decision of `Legal`. -/
def legalB : List (Op Nat) → State Nat → Bool
  | [], _ => true
  | o :: l, s => legitB s o && (match step o s with | .ok s' => legalB l s' | .error _ => true)

theorem usableB_sound {a : Arr} {h : Heap Nat} (e : usableB a h = true) : Usable a h := by
  intro hw
  unfold usableB at e
  rw [hw] at e
  split at e
  · rename_i u _ hd
    exact ⟨_, _, hd, rfl, by simpa using e⟩
  · simp at e
  · rename_i h1 h2
    exact absurd rfl h1

theorem legitB_sound {s : State Nat} {o : Op Nat} (e : legitB s o = true) : Legit s o := by
  cases o <;> simp only [legitB, Bool.and_eq_true, Option.isNone_iff_eq_none, Option.isSome_iff_exists] at e <;> simp only [Legit]
  case new => exact e
  case newN => exact e
  case wrap => exact e
  case share x y =>
    refine ⟨e.1, ?_⟩
    cases h : s.var y with
    | none => simp [h] at e
    | some o => simp only [h] at e; exact ⟨o, rfl, by intro hc; simp [hc] at e⟩
  case clone x y =>
    refine ⟨e.1, ?_⟩
    cases h : s.var y with
    | none => simp [h] at e
    | some o => simp only [h] at e; exact ⟨o, rfl, usableB_sound e.2⟩
  case move => exact e
  case assign x y =>
    obtain ⟨⟨a, ha⟩, e⟩ := e
    cases h : s.var y with
    | none => simp [h] at e
    | some o => simp only [h] at e; exact ⟨a, o, ha, rfl, Or.inl (by intro hc; simp [hc] at e)⟩
  case moveAssign => obtain ⟨⟨a, ha⟩, b, hb⟩ := e; exact ⟨a, b, ha, hb⟩
  case swap => obtain ⟨⟨a, ha⟩, b, hb⟩ := e; exact ⟨a, b, ha, hb⟩
  case resize x _ _ _ =>
    cases h : s.var x with
    | none => simp [h] at e
    | some a => simp only [h] at e; exact ⟨a, rfl, usableB_sound e⟩
  case reserve x _ _ =>
    cases h : s.var x with
    | none => simp [h] at e
    | some a => simp only [h] at e; exact ⟨a, rfl, usableB_sound e⟩
  case push x _ _ =>
    cases h : s.var x with
    | none => simp [h] at e
    | some a => simp only [h, Bool.and_eq_true] at e; exact ⟨a, rfl, usableB_sound e.1, Or.inl e.2⟩
  case append x _ _ =>
    cases h : s.var x with
    | none => simp [h] at e
    | some a => simp only [h, Bool.and_eq_true] at e; exact ⟨a, rfl, usableB_sound e.1, Or.inl e.2⟩
  case write x _ _ =>
    cases h : s.var x with
    | none => simp [h] at e
    | some a => simp only [h, Bool.and_eq_true, decide_eq_true_eq] at e; exact ⟨a, rfl, usableB_sound e.1, e.2⟩
  case steal x =>
    cases h : s.var x with
    | none => simp [h] at e
    | some a => simp only [h, List.all_eq_true, decide_eq_true_eq] at e; exact ⟨a, rfl, e⟩
  case destroy => exact e
  case newCopy => simp at e

theorem legalB_sound : ∀ (l : List (Op Nat)) (s : State Nat), legalB l s = true → Legal l s := by
  intro l
  induction l with
  | nil => intro s _; trivial
  | cons o l ih =>
    intro s h
    simp only [legalB, Bool.and_eq_true] at h
    refine ⟨legitB_sound h.1, fun s' e => ih s' ?_⟩
    have h2 := h.2
    rw [e] at h2
    exact h2

theorem hist_legal : Legal hist (init usr) := legalB_sound _ _ (by decide +kernel)

/-- The whole history with destruction of all objects. -/
def histEnd : List (Op Nat) := hist ++ [.destroy 0, .destroy 1, .destroy 2, .destroy 3, .destroy 4, .destroy 5]

theorem histEnd_legal : Legal histEnd (init usr) := legalB_sound _ _ (by decide +kernel)

/-- An observation at the end of a history. -/
def obs {β : Type} (l : List (Op Nat)) (f : State Nat → M β) : M β := do
  let s ← run l (init usr)
  f s

-- the example ends without objects; four buffers were freed and one, the stolen one, was not
example : obs histEnd (fun s => pure (s.heap.nb, s.heap.freed, s.given)) = .ok (5, [2, 3, 0, 4], [1]) := by decide +kernel

-- the values before the end: object 0 is the grown copy of the user memory, object 5 a grown copy of object 1
example : obs hist (fun s => do
    let a ← obj s 0
    let b ← peek s 0 4
    let c ← peek s 5 1
    pure (a.size, b, c)) = .ok (5, 2, 5) := by decide +kernel

-- the hypotheses of the theorems about single operations are met
example : ∃ s, Spec.Reached usr s ∧ Legit s (.push 5 3 true) ∧ Legit s (.clone 6 0) ∧ Legit s (.write 0 4 1) ∧ Legit s (.resize 0 20 true true) := by
  obtain ⟨s, e, -⟩ := C17_history_safe_partial usr hist hist_legal
  refine ⟨s, ⟨hist, hist_legal, e⟩, ?_⟩
  have h : obs hist (fun s => pure (legitB s (.push 5 3 true) && legitB s (.clone 6 0) && legitB s (.write 0 4 1) && legitB s (.resize 0 20 true true))) = .ok true := by
    decide +kernel
  unfold obs at h
  rw [e] at h
  have h := pure_ok h
  simp only [Bool.and_eq_true] at h
  exact ⟨legitB_sound h.1.1.1, legitB_sound h.1.1.2, legitB_sound h.1.2, legitB_sound h.2⟩

end ExRC

open ExRC

/-- Copying a moved-from array dereferences its null counter (Array.hpp 217–223). -/
theorem C17_moved_from_witness : obs [.newN 0 2 1 true, .move 1 0, .share 2 0] (fun _ => pure 0) = .error (.ub "null counter") ∧
    obs [.newN 0 2 1 true, .move 1 0, .newN 2 2 1 true, .assign 2 0] (fun _ => pure 0) = .error (.ub "null counter") := by
  decide +kernel

/-- Assigning an array with the same data but another size does nothing: the size stays (Array.hpp 261). -/
theorem C17_assign_size_witness :
    obs [.newN 0 3 1 true, .share 1 0, .resize 1 2 true true, .assign 0 1] (fun s => do
      let a ← obj s 0
      let b ← obj s 1
      pure (a.size, b.size)) = .ok (3, 2) := by decide +kernel

/-- Two shallow copies with spare capacity that both append write to the same place: the second `push_back` changes the first array. -/
theorem C17_push_alias_witness :
    obs [.newN 0 2 1 true, .reserve 0 8 true, .share 1 0, .push 0 5 true, .push 1 6 true] (fun s => peek s 0 2) = .ok 6 := by decide +kernel

/-- `Array(n, data)` whose allocation fails has size `n` and no memory: the first access is a null dereference (Array.hpp 160–171). -/
theorem C17_failed_copy_witness :
    obs [.newCopy 0 3 (.usr 0) false] (fun s => do
      let a ← obj s 0
      pure (a.size, a.status)) = .ok (3, .undef) ∧
    obs [.newCopy 0 3 (.usr 0) false] (fun s => peek s 0 0) = .error (.ub "null data") := by decide +kernel

/-- `push_back` whose allocation fails writes through a null pointer (Array.hpp 407–410). -/
theorem C17_failed_push_witness : obs [.newN 0 2 1 true, .push 0 5 false] (fun _ => pure 0) = .error (.ub "null data") := by decide +kernel

/-- Two shallow copies can both be asked for ownership: the same pointer is handed out twice, so the caller frees it twice. -/
theorem C17_steal_twice_witness : obs [.newN 0 2 1 true, .share 1 0, .steal 0, .steal 1] (fun s => pure s.given) = .ok [0, 0] := by decide +kernel

end Props
end Hif
