import Verif.ArrayRCLemmas

set_option linter.unusedVariables false

/-! # Histories of reference-counted arrays -/

namespace Hif
namespace RC

variable {α : Type _}

/-- The memory wrapped by an object is still there (owned memory always is, see the theorems). -/
def Usable (a : Arr) (h : Heap α) : Prop :=
  a.status = .wrap → ∃ p B, a.data = some p ∧ h.mem p = some B ∧ a.cap ≤ B.size

/-- The use of `Array` permitted to a program: constructors act on new names, other operations on existing objects; a shallow copy is not taken of a moved-from
object; wrapped memory is there when it is accessed; indices are in range; allocations that the code does not check do not fail;
the same buffer is not taken over twice. -/
def Legit (s : State α) : Op α → Prop
  | .new x => s.var x = none
  | .newN x _ _ _ => s.var x = none
  | .newCopy x n p ok => s.var x = none ∧ ok = true ∧ ∃ B, s.heap.mem p = some B ∧ n ≤ B.size
  | .wrap x _ _ => s.var x = none
  | .share x y => s.var x = none ∧ ∃ o, s.var y = some o ∧ o.counts ≠ none
  | .clone x y => s.var x = none ∧ ∃ o, s.var y = some o ∧ Usable o s.heap
  | .move x y => s.var x = none ∧ ∃ o, s.var y = some o
  | .assign x y => ∃ a o, s.var x = some a ∧ s.var y = some o ∧ (o.counts ≠ none ∨ a.data = o.data)
  | .moveAssign x y => ∃ a o, s.var x = some a ∧ s.var y = some o
  | .swap x y => ∃ a o, s.var x = some a ∧ s.var y = some o
  | .resize x _ _ _ => ∃ a, s.var x = some a ∧ Usable a s.heap
  | .reserve x _ _ => ∃ a, s.var x = some a ∧ Usable a s.heap
  | .push x _ ok => ∃ a, s.var x = some a ∧ Usable a s.heap ∧ (ok = true ∨ a.size < a.cap)
  | .append x vs ok => ∃ a, s.var x = some a ∧ Usable a s.heap ∧ (ok = true ∨ a.size + vs.length ≤ a.cap)
  | .write x i _ => ∃ a, s.var x = some a ∧ Usable a s.heap ∧ i < a.size
  | .steal x => ∃ a, s.var x = some a ∧ ∀ b ∈ s.given, a.data ≠ some (.own b)
  | .destroy x => ∃ a, s.var x = some a

/-- Every operation of the history is permitted when it is executed. -/
def Legal [Inhabited α] : List (Op α) → State α → Prop
  | [], _ => True
  | o :: l, s => Legit s o ∧ ∀ s', step o s = .ok s' → Legal l s'

/-- An object whose first `size` elements are in memory: owned, or wrapped and usable. -/
theorem readable {s : State α} {own : Nat → Finset Nat} (h : Inv s own) {x : Nat} {a : Arr} (hx : s.var x = some a) (hu : Usable a s.heap) :
    a.size ≤ a.cap ∧ (a.cap = 0 ∨ ∃ p B, a.data = some p ∧ s.heap.mem p = some B ∧ a.cap ≤ B.size) := by
  cases hs : a.status with
  | undef => obtain ⟨-, h2, h3⟩ := h.undef x a hx hs; omega
  | wrap => exact ⟨(h.wrap x a hx hs).2, Or.inr (hu hs)⟩
  | own =>
    obtain ⟨b, c, B, n, i, d1, d2, d3, d4, d5, -⟩ := h.owned x a hx hs
    exact ⟨d4, Or.inr ⟨.own b, B, d1, d3, d5⟩⟩

theorem load_runs {h : Heap α} {p : Ptr} {B : Buf α} (e : h.mem p = some B) (i : Nat) : load (some p) i h = B.rd i := by
  cases p with
  | own b => simp only [Heap.mem] at e; unfold load; simp only [e]
  | usr u => simp only [Heap.mem, Option.some.injEq] at e; unfold load; simp only [e]

theorem copyN_runs {h : Heap α} {p : Option Ptr} {n : Nat} (hp : n = 0 ∨ ∃ q B, p = some q ∧ h.mem q = some B ∧ n ≤ B.size) (D : Buf α) (hD : n ≤ D.size) :
    Runs (copyN p n h D) fun r => r.size = D.size ∧ ∀ q B, p = some q → h.mem q = some B → ∀ i, i < n → r.get i = B.get i := by
  unfold copyN
  refine forUp_runs' (fun k (r : Buf α) => r.size = D.size ∧ ∀ q B, p = some q → h.mem q = some B → ∀ i, i < k → r.get i = B.get i)
    (Nat.zero_le _) ⟨rfl, fun _ _ _ _ i hi => by omega⟩ ?_ (fun _ h => h)
  rintro k r - hk ⟨r1, r2⟩
  obtain ⟨q, B, e1, e2, e3⟩ := hp.resolve_left (by omega)
  rw [e1, runs_bind, load_runs e2]
  simp only [runs_rd, runs_wr, Buf.set_size, Buf.set_get]
  refine ⟨by omega, by omega, r1, fun q' B' e1' e2' i hi => ?_⟩
  have : q = q' := by simpa using e1'
  subst this
  rw [e2] at e2'; injection e2' with e2'; subst e2'
  by_cases e : i = k
  · rw [if_pos e, e]
  · rw [if_neg e]; exact r2 q B e1 e2 i (by omega)

theorem store_runs {s : State α} {own : Nat → Finset Nat} (h : Inv s own) {p : Ptr} {B : Buf α} (e : s.heap.mem p = some B) {i : Nat} (hi : i < B.size) (v : α) :
    Runs (store (some p) i v s.heap) fun h' => Inv { s with heap := h' } own ∧ h'.mem p = some (B.set i v) ∧ (∀ q, q ≠ p → h'.mem q = s.heap.mem q) ∧
      h'.freed = s.heap.freed := by
  cases p with
  | own b =>
    simp only [Heap.mem] at e
    unfold store
    simp only [e, runs_bind, runs_wr, runs_pure]
    refine ⟨hi, write_inv h e rfl, upd_same _ _ _, fun q hq => ?_, trivial⟩
    cases q with
    | own b' => show upd s.heap.blk b _ b' = _; rw [upd_ne _ _ (fun e => hq (by rw [e]))]; rfl
    | usr _ => rfl
  | usr u =>
    simp only [Heap.mem, Option.some.injEq] at e
    unfold store
    simp only [e, runs_bind, runs_wr, runs_pure]
    refine ⟨hi, usr_inv h _, by show some (upd s.heap.usr u _ u) = _; rw [upd_same], fun q hq => ?_, trivial⟩
    cases q with
    | own b' => rfl
    | usr u' => show some (upd s.heap.usr u _ u') = _; rw [upd_ne _ _ (fun e => hq (by rw [e]))]; rfl

/-- Replacement of an object by a new owner of a new buffer (the second half of `resize` and `reserve`). -/
theorem regrow {s : State α} {own : Nat → Finset Nat} (h : Inv s own) {x : Nat} {a : Arr} (hx : s.var x = some a) (B : Buf α) {n cap : Nat} (hn : n ≤ cap) (hc : cap ≤ B.size) :
    Runs (dtor a (newBlk B s.heap).2) fun r =>
      (∃ own', Inv { s with var := upd s.var x (some { data := some (.own s.heap.nb), size := n, cap := cap, status := .own, counts := some r.2.nc }), heap := (newCount r.2).2 } own') ∧
      r.2.blk s.heap.nb = some B ∧ r.2.usr = s.heap.usr ∧ r.2.nb = s.heap.nb + 1 ∧ (∀ b, b ≠ s.heap.nb → r.2.blk b ≠ none → r.2.blk b = s.heap.blk b) := by
  obtain ⟨h1, h2, h3⟩ := blk_inv h B
  obtain ⟨r, e, r1, r2, r3, r4, r5, r6, r7, r8, own', r9⟩ := dtor_inv (s := { s with heap := (newBlk B s.heap).2, given := s.heap.nb :: s.given }) h1 hx
  refine ⟨r, e, ?_⟩
  -- the new buffer has not been freed: it was handed out, not owned
  have hlive : r.2.blk s.heap.nb = some B := by
    by_contra hne
    have hnone : r.2.blk s.heap.nb = none := by
      by_contra hc'
      exact hne ((r8 _ hc').trans (upd_same _ _ _))
    have hcnt : ∀ c n i, a.counts = some c → (newBlk B s.heap).2.cnt c = some (n + 1, i) → False := by
      intro c m i hc' hm
      obtain ⟨a', ea, -⟩ := dtor_eq h1 hx hc' hm
      have ea' : dtor a (newBlk B s.heap).2 = .ok (a', afterDtor (newBlk B s.heap).2 a c m i) := ea
      rw [e] at ea'
      injection ea' with ea'
      rw [ea'] at hnone
      rcases afterDtor_blk (newBlk B s.heap).2 a c m i with ⟨-, g1, -⟩ | ⟨b', g1, g2, -, -, g3, -⟩
      · simp only [g1] at hnone
        have : (some B : Option (Buf α)) = none := (upd_same _ _ _).symm.trans hnone
        simp at this
      · simp only [g3] at hnone
        by_cases eb : s.heap.nb = b'
        · subst eb; exact h3 x a hx g2 g1
        · rw [upd_ne _ _ eb] at hnone
          have : (some B : Option (Buf α)) = none := (upd_same _ _ _).symm.trans hnone
          simp at this
    cases hc' : a.counts with
    | none =>
      have := h.null x a hx hc'
      subst this
      have e' : dtor nullArr (newBlk B s.heap).2 = .ok (nullArr, (newBlk B s.heap).2) := rfl
      have e0 : dtor nullArr (newBlk B s.heap).2 = .ok r := e
      rw [e'] at e0; injection e0 with e0
      rw [← e0] at hnone
      have : (some B : Option (Buf α)) = none := (upd_same _ _ _).symm.trans hnone
      simp at this
    | some c =>
      have hxc : x ∈ own c := (h.mem c x).2 ⟨a, hx, hc'⟩
      obtain ⟨i, hi⟩ := h.cnt1 c ⟨x, hxc⟩
      have := Finset.card_pos.2 ⟨x, hxc⟩
      exact hcnt c ((own c).card - 1) i hc' (by rw [show (own c).card - 1 + 1 = (own c).card by omega]; exact hi)
  have hr7 : r.2.usr = s.heap.usr := r7
  have hr5 : r.2.nb = s.heap.nb + 1 := r5
  refine ⟨?_, hlive, hr7, hr5, fun b hb hb' => (r8 b hb').trans (upd_ne _ _ hb)⟩
  obtain ⟨own'', k⟩ := fresh_inv (s := { s with var := upd s.var x none, heap := r.2, given := s.heap.nb :: s.given }) r9 (x := x) (upd_same _ _ _)
    (a := { data := some (.own s.heap.nb), size := n, cap := cap, status := .own, counts := some r.2.nc }) rfl s.given
    (Or.inr (Or.inr ⟨rfl, s.heap.nb, B, rfl, hlive, hn, hc, rfl, h2, fun y a' hy hs => by
      have hy' : upd s.var x none y = some a' := hy
      by_cases ey : y = x
      · subst ey; simp at hy'
      · rw [upd_ne _ _ ey] at hy'; exact h3 y a' hy' hs⟩))
  refine ⟨own'', ?_⟩
  simp only [upd_upd] at k
  exact k

/-- An allocation failure turns the object into an empty one. -/
theorem refail {s : State α} {own : Nat → Finset Nat} (h : Inv s own) {x : Nat} {a : Arr} (hx : s.var x = some a) :
    Runs (dtor a s.heap) fun r => ∃ own', Inv { s with var := upd s.var x (some { r.1 with counts := some r.2.nc }), heap := (newCount r.2).2 } own' := by
  obtain ⟨r, e, r1, r2, r3, r4, r5, r6, r7, r8, own', r9⟩ := dtor_inv h hx
  refine ⟨r, e, ?_⟩
  obtain ⟨own'', k⟩ := fresh_inv r9 (x := x) (upd_same _ _ _) (a := { r.1 with counts := some r.2.nc }) rfl s.given (Or.inl ⟨r4, r1, r2, r3, rfl⟩)
  exact ⟨own'', by simp only [upd_upd] at k; exact k⟩

theorem growCap_le (size n : Nat) : n ≤ growCap size n := by unfold growCap; split <;> omega

theorem put_eq (s : State α) (x : Nat) (r : Arr × Heap α) : s.put x r = { s with var := upd s.var x (some r.1), heap := r.2 } := rfl

/-- The result of `resize`: invariant, and an object of size `n`, or the empty object after a failure. -/
theorem resize_runs {s : State α} {own : Nat → Finset Nat} (h : Inv s own) {x : Nat} {a : Arr} (hx : s.var x = some a) (hu : Usable a s.heap) (n : Nat) (presv : Bool) (d : α) (ok : Bool) :
    Runs (resize n presv d ok a s.heap) fun r => (∃ own', Inv (s.put x r) own') ∧
      (ok = true ∨ n ≤ a.cap → r.1.size = n ∧ (r = ({ a with size := n }, s.heap) ∧ n ≤ a.cap ∨
        (r.1.status = .own ∧ r.1.data = some (.own s.heap.nb) ∧ r.2.usr = s.heap.usr ∧
          (∃ B, r.2.blk s.heap.nb = some B ∧ n ≤ B.size ∧ (presv = true → ∀ p C, a.data = some p → s.heap.mem p = some C → ∀ i, i < a.size → B.get i = C.get i)) ∧
          (∀ b, b ≠ s.heap.nb → r.2.blk b ≠ none → r.2.blk b = s.heap.blk b)))) := by
  obtain ⟨hr1, hr2⟩ := readable h hx hu
  unfold resize
  split
  · rename_i hle
    rw [runs_pure]
    refine ⟨⟨own, size_inv h hx hle⟩, fun _ => ⟨rfl, Or.inl ⟨rfl, hle⟩⟩⟩
  rename_i hgt
  cases ok with
  | true =>
    simp only [if_true, runs_bind]
    have hg := growCap_le a.size n
    have hcopy : Runs (copyIf presv a.data a.size s.heap (Buf.mk' (growCap a.size n) d)) fun B => B.size = growCap a.size n ∧
        (presv = true → ∀ p C, a.data = some p → s.heap.mem p = some C → ∀ i, i < a.size → B.get i = C.get i) := by
      unfold copyIf
      split
      · refine (copyN_runs (hr2.imp (fun h => by omega) ?_) (Buf.mk' (growCap a.size n) d) (by simp; omega)).mono (fun B hB => ⟨hB.1, fun _ => hB.2⟩)
        rintro ⟨p, B, h1, h2, h3⟩; exact ⟨p, B, h1, h2, by omega⟩
      · rename_i hp
        rw [runs_pure]; exact ⟨rfl, fun h => absurd h hp⟩
    refine hcopy.mono ?_
    rintro B ⟨hB, hv⟩
    refine (regrow h hx B hg (le_of_eq hB.symm)).mono ?_
    rintro r ⟨k1, k2, k3, k4, k5⟩
    rw [runs_pure]
    exact ⟨k1, fun _ => ⟨rfl, Or.inr ⟨rfl, rfl, k3, ⟨B, k2, by omega, hv⟩, k5⟩⟩⟩
  | false =>
    simp only [Bool.false_eq_true, if_false, runs_bind]
    refine (refail h hx).mono ?_
    rintro r hr
    rw [runs_pure]
    exact ⟨hr, fun hc => by rcases hc with hc | hc; (simp at hc); exact absurd hc hgt⟩

theorem reserve_runs {s : State α} {own : Nat → Finset Nat} (h : Inv s own) {x : Nat} {a : Arr} (hx : s.var x = some a) (hu : Usable a s.heap) (n : Nat) (d : α) (ok : Bool) :
    Runs (reserve n d ok a s.heap) fun r => (∃ own', Inv (s.put x r) own') ∧
      (ok = true ∨ n ≤ a.cap → r.1.size = a.size ∧ n ≤ r.1.cap ∧ (r = (a, s.heap) ∨
        (r.1.status = .own ∧ r.1.data = some (.own s.heap.nb) ∧
          (∃ B, r.2.blk s.heap.nb = some B ∧ (∀ p C, a.data = some p → s.heap.mem p = some C → ∀ i, i < a.size → B.get i = C.get i))))) := by
  obtain ⟨hr1, hr2⟩ := readable h hx hu
  unfold reserve
  split
  · rename_i hle
    rw [runs_pure]
    refine ⟨⟨own, ?_⟩, fun _ => ⟨rfl, hle, Or.inl rfl⟩⟩
    have := size_inv h hx hr1
    exact this
  rename_i hgt
  cases ok with
  | true =>
    simp only [if_true, runs_bind]
    have hcopy : Runs (copyN a.data a.size s.heap (Buf.mk' n d)) fun B => B.size = n ∧
        ∀ p C, a.data = some p → s.heap.mem p = some C → ∀ i, i < a.size → B.get i = C.get i := by
      refine (copyN_runs (hr2.imp (fun h => by omega) ?_) (Buf.mk' n d) (by simp; omega)).mono (fun B hB => hB)
      rintro ⟨p, B, h1, h2, h3⟩; exact ⟨p, B, h1, h2, by omega⟩
    refine hcopy.mono ?_
    rintro B ⟨hB, hv⟩
    refine (regrow h hx B (n := a.size) (cap := n) (by omega) (le_of_eq hB.symm)).mono ?_
    rintro r ⟨k1, k2, -⟩
    rw [runs_pure]
    exact ⟨k1, fun _ => ⟨rfl, le_refl _, Or.inr ⟨rfl, rfl, B, k2, hv⟩⟩⟩
  | false =>
    simp only [Bool.false_eq_true, if_false, runs_bind]
    refine (refail h hx).mono ?_
    rintro r hr
    rw [runs_pure]
    exact ⟨hr, fun hc => by rcases hc with hc | hc; (simp at hc); exact absurd hc hgt⟩

theorem swap_var (s : State α) {x y : Nat} {a o : Arr} (hx : s.var x = some a) (hy : s.var y = some o) :
    upd (upd s.var x (some o)) y (some a) = fun z => s.var (Equiv.swap x y z) := by
  funext z
  simp only [upd, Equiv.swap_apply_def]
  by_cases h1 : z = y
  · by_cases h2 : z = x
    · rw [if_pos h1, if_pos h2, hy]; rw [← h1, h2, hx] at hy; exact hy
    · rw [if_pos h1, if_neg h2, if_pos h1, hx]
  · by_cases h2 : z = x
    · rw [if_neg h1, if_pos h2, if_pos h2, hy]
    · rw [if_neg h1, if_neg h2, if_neg h2, if_neg h1]

/-- Moving an object to a free name. -/
theorem move_inv {s : State α} {own : Nat → Finset Nat} (h : Inv s own) {x y : Nat} {o : Arr} (hx : s.var x = none) (hy : s.var y = some o) :
    ∃ own', Inv { s with var := upd (upd s.var x (some o)) y (some nullArr) } own' := by
  have hne : y ≠ x := by rintro rfl; rw [hx] at hy; simp at hy
  have h1 := perm_inv h (Equiv.swap x y)
  have h2 := null_inv h1 (x := y) (by simp [hx])
  refine ⟨fun c => Finset.map (Equiv.symm (Equiv.swap x y)).toEmbedding (own c), ?_⟩
  have hv : upd (upd s.var x (some o)) y (some nullArr) = upd (fun z => s.var (Equiv.swap x y z)) y (some nullArr) := by
    funext z
    simp only [upd, Equiv.swap_apply_def]
    by_cases e1 : z = y
    · rw [if_pos e1, if_pos e1]
    · by_cases e2 : z = x
      · rw [if_neg e1, if_neg e1, if_pos e2, if_pos e2, hy]
      · rw [if_neg e1, if_neg e1, if_neg e2, if_neg e2, if_neg e1]
  rw [hv]
  exact h2

variable [Inhabited α]

/-- Every permitted operation succeeds and keeps the invariant. -/
theorem step_runs {s : State α} {own : Nat → Finset Nat} (h : Inv s own) (o : Op α) (ho : Legit s o) : Runs (step o s) fun s' => ∃ own', Inv s' own' := by
  cases o with
  | new x =>
    simp only [step, runs_pure]
    obtain ⟨own', k⟩ := fresh_inv h ho (a := (ctor0 s.heap).1) rfl s.given (Or.inl ⟨rfl, rfl, rfl, rfl, rfl⟩)
    exact ⟨own', k⟩
  | newN x n v ok =>
    simp only [step, runs_pure]
    cases ok with
    | false =>
      obtain ⟨own', k⟩ := fresh_inv h ho (a := (ctorN n v false s.heap).1) rfl s.given (Or.inl ⟨rfl, rfl, rfl, rfl, rfl⟩)
      exact ⟨own', k⟩
    | true =>
      obtain ⟨h1, h2, h3⟩ := blk_inv h (Buf.mk' n v)
      obtain ⟨own', k⟩ := fresh_inv h1 ho (a := (ctorN n v true s.heap).1) rfl s.given
        (Or.inr (Or.inr ⟨rfl, s.heap.nb, Buf.mk' n v, rfl, upd_same _ _ _, le_refl _, le_refl _, rfl, h2, h3⟩))
      exact ⟨own', k⟩
  | newCopy x n p ok =>
    obtain ⟨hx, rfl, B, hB, hn⟩ := ho
    simp only [step, ctorCopy, if_true, runs_bind]
    refine (copyN_runs (h := (newCount s.heap).2) (Or.inr ⟨p, B, rfl, by cases p <;> exact hB, hn⟩) (Buf.mk' n default) (le_refl _)).mono ?_
    rintro D ⟨hD, -⟩
    simp only [runs_pure]
    obtain ⟨h1, h2, h3⟩ := blk_inv h D
    obtain ⟨own', k⟩ := fresh_inv h1 hx (a := { data := some (.own s.heap.nb), size := n, cap := n, status := .own, counts := some s.heap.nc }) rfl s.given
        (Or.inr (Or.inr ⟨rfl, s.heap.nb, D, rfl, upd_same _ _ _, le_refl _, by simpa using le_of_eq hD.symm, rfl, h2, h3⟩))
    exact ⟨own', k⟩
  | wrap x n p =>
    simp only [step, runs_pure]
    obtain ⟨own', k⟩ := fresh_inv h ho (a := (ctorWrap n p s.heap).1) rfl s.given (Or.inr (Or.inl ⟨rfl, ⟨p, rfl⟩, le_refl _, rfl⟩))
    exact ⟨own', k⟩
  | share x y =>
    obtain ⟨hx, o, hy, hc⟩ := ho
    simp only [step, runs_bind, runs_obj hy, ctorShare]
    obtain ⟨c, hc⟩ := Option.ne_none_iff_exists'.1 hc
    obtain ⟨i, hi⟩ := h.cnt1 c ⟨y, (h.mem c y).2 ⟨o, hy, hc⟩⟩
    simp only [incCount, hc, runs_bind, runs_getCount hi, runs_pure]
    exact share_inv h hx hy hc hi
  | clone x y =>
    obtain ⟨hx, o, hy, hu⟩ := ho
    simp only [step, runs_bind, runs_obj hy, ctorClone]
    obtain ⟨hr1, hr2⟩ := readable h hy hu
    refine (copyN_runs (h := (newCount s.heap).2) (n := o.size) (hr2.imp (fun h => by omega) ?_) (Buf.mk' o.size default) (le_refl _)).mono ?_
    · rintro ⟨p, B, h1, h2, h3⟩; exact ⟨p, B, h1, by cases p <;> exact h2, by omega⟩
    rintro D ⟨hD, -⟩
    simp only [runs_pure]
    obtain ⟨h1, h2, h3⟩ := blk_inv h D
    obtain ⟨own', k⟩ := fresh_inv h1 hx (a := { data := some (.own s.heap.nb), size := o.size, cap := o.size, status := .own, counts := some s.heap.nc }) rfl s.given
        (Or.inr (Or.inr ⟨rfl, s.heap.nb, D, rfl, upd_same _ _ _, le_refl _, by simpa using le_of_eq hD.symm, rfl, h2, h3⟩))
    exact ⟨own', k⟩
  | move x y =>
    obtain ⟨hx, o, hy⟩ := ho
    simp only [step, runs_bind, runs_obj hy, runs_pure]
    exact move_inv h hx hy
  | assign x y =>
    obtain ⟨a, o, hx, hy, hc⟩ := ho
    simp only [step, runs_bind, runs_obj hy, runs_obj hx, assign]
    by_cases hd : a.data = o.data
    · rw [if_neg (by simpa using hd), runs_pure, runs_pure]
      refine ⟨own, ?_⟩
      have : upd s.var x (some a) = s.var := by
        funext z; simp only [upd]; split
        · rename_i e; rw [e, hx]
        · rfl
      rw [put_eq]
      simp only [this]
      exact h
    · rw [if_pos hd]
      simp only [runs_bind]
      obtain ⟨r, e, r1, r2, r3, r4, r5, r6, r7, r8, own', r9⟩ := dtor_inv h hx
      refine ⟨r, e, ?_⟩
      obtain ⟨c, hc⟩ := Option.ne_none_iff_exists'.1 (hc.resolve_right hd)
      have hne : y ≠ x := by rintro rfl; rw [hx] at hy; injection hy with hy; exact hd (by rw [hy])
      have hy' : upd s.var x none y = some o := by rw [upd_ne _ _ hne]; exact hy
      obtain ⟨i, hi⟩ := r9.cnt1 c ⟨y, (r9.mem c y).2 ⟨o, hy', hc⟩⟩
      have hi' : r.2.cnt c = some ((own' c).card, i) := hi
      simp only [incCount, hc, runs_bind, runs_getCount hi', runs_pure]
      obtain ⟨own'', k⟩ := share_inv r9 (x := x) (upd_same _ _ _) hy' hc hi
      exact ⟨own'', by simp only [upd_upd] at k; exact k⟩
  | moveAssign x y =>
    obtain ⟨a, o, hx, hy⟩ := ho
    simp only [step, runs_bind, runs_obj hy, runs_obj hx, moveAssign]
    by_cases hd : a.data = o.data
    · rw [if_neg (by simpa using hd), runs_pure]
      rw [runs_pure]
      refine ⟨own, ?_⟩
      have : upd (upd s.var x (some a)) y (some o) = s.var := by
        funext z; simp only [upd]; split
        · rename_i e; rw [e, hy]
        · split
          · rename_i e; rw [e, hx]
          · rfl
      simp only [this]
      exact h
    · rw [if_pos hd]
      simp only [runs_bind]
      obtain ⟨r, e, r1, r2, r3, r4, r5, r6, r7, r8, own', r9⟩ := dtor_inv h hx
      refine ⟨r, e, ?_⟩
      simp only [runs_pure]
      have hne : y ≠ x := by rintro rfl; rw [hx] at hy; injection hy with hy; exact hd (by rw [hy])
      have hy' : upd s.var x none y = some o := by rw [upd_ne _ _ hne]; exact hy
      obtain ⟨own'', k⟩ := move_inv r9 (x := x) (upd_same _ _ _) hy'
      exact ⟨own'', by simp only [upd_upd] at k; exact k⟩
  | swap x y =>
    obtain ⟨a, o, hx, hy⟩ := ho
    simp only [step, runs_bind, runs_obj hy, runs_obj hx, runs_pure]
    rw [swap_var s hx hy]
    exact ⟨_, perm_inv h (Equiv.swap x y)⟩
  | resize x n presv ok =>
    obtain ⟨a, hx, hu⟩ := ho
    simp only [step, runs_bind, runs_obj hx]
    exact (resize_runs h hx hu n presv default ok).mono fun r hr => by rw [runs_pure]; exact hr.1
  | reserve x n ok =>
    obtain ⟨a, hx, hu⟩ := ho
    simp only [step, runs_bind, runs_obj hx]
    exact (reserve_runs h hx hu n default ok).mono fun r hr => by rw [runs_pure]; exact hr.1
  | push x v ok =>
    obtain ⟨a, hx, hu, hok⟩ := ho
    simp only [step, runs_bind, runs_obj hx, pushBack]
    obtain ⟨hr1, hr2⟩ := readable h hx hu
    refine (resize_runs h hx hu (a.size + 1) true default ok).mono ?_
    rintro ⟨a', h'⟩ ⟨⟨own', k⟩, k2⟩
    obtain ⟨k3, k4⟩ := k2 (hok.imp id (fun h => by omega))
    simp only at k3 k4 ⊢
    have hm : ∃ p B, a'.data = some p ∧ h'.mem p = some B ∧ a'.size - 1 < B.size := by
      rcases k4 with ⟨e, hle⟩ | ⟨e1, e2, -, ⟨B, e3, e4, -⟩, -⟩
      · injection e with e1 e2
        subst e1 e2
        obtain ⟨p, B, g1, g2, g3⟩ := hr2.resolve_left (by omega)
        exact ⟨p, B, g1, g2, by simp only; omega⟩
      · exact ⟨_, B, e2, e3, by omega⟩
    obtain ⟨p, B, g1, g2, g3⟩ := hm
    rw [g1]
    refine (store_runs k g2 g3 v).mono ?_
    rintro h'' ⟨q1, -⟩
    simp only [runs_pure]
    exact ⟨own', q1⟩
  | append x vs ok =>
    obtain ⟨a, hx, hu, hok⟩ := ho
    simp only [step, runs_bind, runs_obj hx, pushRange]
    obtain ⟨hr1, hr2⟩ := readable h hx hu
    refine (resize_runs h hx hu (a.size + vs.length) true default ok).mono ?_
    rintro ⟨a', h'⟩ ⟨⟨own', k⟩, k2⟩
    obtain ⟨k3, k4⟩ := k2 hok
    simp only at k3 k4 ⊢
    have hm : vs.length = 0 ∨ ∃ p B, a'.data = some p ∧ h'.mem p = some B ∧ a.size + vs.length ≤ B.size := by
      rcases k4 with ⟨e, hle⟩ | ⟨e1, e2, -, ⟨B, e3, e4, -⟩, -⟩
      · injection e with e1 e2
        subst e1 e2
        rcases hr2 with hr2 | ⟨p, B, g1, g2, g3⟩
        · exact Or.inl (by omega)
        · exact Or.inr ⟨p, B, g1, g2, by omega⟩
      · exact Or.inr ⟨_, B, e2, e3, by omega⟩
    refine forUp_runs' (fun _ (h'' : Heap α) => Inv { s.put x (a', h') with heap := h'' } own' ∧ (vs.length = 0 ∨ ∃ p B, a'.data = some p ∧ h''.mem p = some B ∧ a.size + vs.length ≤ B.size))
      (Nat.zero_le _) ⟨k, hm⟩ ?_ ?_
    · rintro i h'' - hi ⟨q1, q2⟩
      obtain ⟨p, B, g1, g2, g3⟩ := q2.resolve_left (by omega)
      rw [g1]
      refine (store_runs (s := { s.put x (a', h') with heap := h'' }) q1 g2 (by omega) _).mono ?_
      rintro h3 ⟨q3, q4, -⟩
      exact ⟨q3, Or.inr ⟨p, _, rfl, q4, by simpa using g3⟩⟩
    · rintro h'' ⟨q1, -⟩
      simp only [runs_pure]
      exact ⟨own', q1⟩
  | write x i v =>
    obtain ⟨a, hx, hu, hi⟩ := ho
    simp only [step, runs_bind, runs_obj hx]
    obtain ⟨hr1, hr2⟩ := readable h hx hu
    obtain ⟨p, B, g1, g2, g3⟩ := hr2.resolve_left (by omega)
    rw [g1]
    refine (store_runs h g2 (by omega) v).mono ?_
    rintro h'' ⟨q1, -⟩
    rw [runs_pure]
    exact ⟨own, q1⟩
  | steal x =>
    obtain ⟨a, hx, hg⟩ := ho
    simp only [step, runs_bind, runs_obj hx, steal]
    by_cases hs : a.status = .own
    · rw [if_neg (by simpa using hs)]
      obtain ⟨b, c, B, n, i, d1, d2, d3, d4, d5, d6, d7⟩ := h.owned x a hx hs
      simp only [d2, runs_bind, runs_getCount d6, runs_pure, d1]
      exact ⟨own, steal_inv h hx hs d1 d2 d6 (fun hb => hg b hb d1)⟩
    · rw [if_pos hs, runs_pure, runs_pure]
      refine ⟨own, ?_⟩
      have : upd s.var x (some a) = s.var := by
        funext z; simp only [upd]; split
        · rename_i e; rw [e, hx]
        · rfl
      simp only [this, handOut]
      exact h
  | destroy x =>
    obtain ⟨a, hx⟩ := ho
    simp only [step, runs_bind, runs_obj hx]
    refine (dtor_inv h hx).mono ?_
    rintro r ⟨-, -, -, -, -, -, -, -, hr⟩
    rw [runs_pure]
    exact hr

theorem run_runs : ∀ (l : List (Op α)) {s : State α} {own : Nat → Finset Nat}, Inv s own → Legal l s → Runs (run l s) fun s' => ∃ own', Inv s' own' := by
  intro l
  induction l with
  | nil => intro s own h _; exact ⟨s, rfl, own, h⟩
  | cons o l ih =>
    intro s own h hl
    obtain ⟨s', e, own', h'⟩ := step_runs h o hl.1
    simp only [run, runs_bind]
    refine ⟨s', e, ?_⟩
    exact ih h' (hl.2 s' e)

end RC
end Hif
