import Verif.AugLists

set_option linter.unusedVariables false

/-! # Augmented storage: assembly, traversal -/

namespace Hif
namespace Aug
variable {K : Type _} {V : Nat → Prop}

/-- Invariant while nodes of the stored entries are being appended. -/
structure Mid (V : Nat → Prop) (m : Nat) (A : Aug K) (L : Nat → List Nat) : Prop where
  asm : Crout.Asm m A.cs
  le : A.ninds.size ≤ A.cs.inds.size
  szp : A.vpos.size = A.ninds.size
  szv : A.vinv.size = A.ninds.size
  szn : A.nnext.size = A.ninds.size
  pi : ∀ n, n < A.ninds.size → A.vpos.get n < A.ninds.size ∧ A.vinv.get (A.vpos.get n) = n
  ip : ∀ p, p < A.ninds.size → A.vinv.get p < A.ninds.size ∧ A.vpos.get (A.vinv.get p) = p
  row : ∀ n, n < A.ninds.size → A.ninds.get n < m ∧ A.cs.start.get (A.ninds.get n) ≤ A.vpos.get n ∧ A.vpos.get n < A.cs.start.get (A.ninds.get n + 1)
  sorted : ∀ r, r < m → ∀ x y, A.cs.start.get r ≤ x → x < y → y < A.cs.start.get (r + 1) → A.cs.inds.get x < A.cs.inds.get y
  lt : ∀ p, p < A.cs.inds.size → A.cs.inds.get p < A.cs.ssize
  lists : Lists V A L

theorem Mid.inv {m : Nat} {A : Aug K} {L : Nat → List Nat} (h : Mid V m A L) (he : A.cs.inds.size = A.ninds.size) : Inv V m A L :=
  ⟨⟨h.asm, he, h.szp, h.szv, h.szn, h.pi, h.ip, h.row, h.sorted, fun p hp => h.lt p (by omega)⟩, h.lists⟩

theorem push_get {α : Type _} (b : Buf α) (v : α) (i : Nat) : (b.push v).get i = if i = b.size then v else b.get i := rfl
theorem push_size {α : Type _} (b : Buf α) (v : α) : (b.push v).size = b.size + 1 := rfl

theorem linkEnd_runs (next : Buf (Option Nat)) (e : Option Nat) (i : Nat) (he : ∀ x, e = some x → x < next.size) :
    Runs (linkEnd next e i) fun r => r.size = next.size ∧ ∀ x, r.get x = if some x = e then some i else next.get x := by
  cases e with
  | none => rw [linkEnd, runs_pure]; exact ⟨rfl, fun x => by simp⟩
  | some e =>
    rw [linkEnd, runs_wr]
    refine ⟨he e rfl, by simp, fun x => ?_⟩
    simp only [Buf.set_get, Option.some.injEq]

theorem linkStart_runs (start : Buf (Option Nat)) (j i : Nat) (hj : j < start.size) :
    Runs (linkStart start j i) fun r => r.size = start.size ∧ ∀ x, r.get x = if x = j then (if start.get j = none then some i else start.get j) else start.get x := by
  unfold linkStart
  rw [runs_bind, runs_rd]
  refine ⟨hj, ?_⟩
  split
  · rename_i h
    rw [runs_wr]
    exact ⟨hj, by simp, fun x => by simp only [Buf.set_get]⟩
  · rename_i h
    rw [runs_pure]
    refine ⟨rfl, fun x => ?_⟩
    split
    · rename_i e; rw [e]
    · rfl

/-- One node. -/
theorem pushNode_runs {m : Nat} {A : Aug K} {L : Nat → List Nat} (h : Mid V m A L) {entry j : Nat} (he : entry < m) (hlo : A.cs.start.get entry ≤ A.ninds.size)
    (hhi : A.ninds.size < A.cs.start.get (entry + 1)) (hj : A.cs.inds.get A.ninds.size = j) (hjs : V j) (hle : ∀ n, n < A.ninds.size → A.ninds.get n ≤ entry) :
    Runs (pushNode entry j A) fun A' => (∃ L', Mid V m A' L') ∧ A'.cs = A.cs ∧ A'.ninds.size = A.ninds.size + 1 ∧ ∀ n, n < A'.ninds.size → A'.ninds.get n ≤ entry := by
  have hl := h.lists
  have hNs : A.ninds.size < A.cs.inds.size := by
    have := (h.asm.lt_size he hhi).1; exact this
  have hjb := hl.vl j hjs
  unfold pushNode
  simp only [runs_bind, runs_rd, runs_wr]
  refine ⟨by rw [hl.se]; exact hjb, ?_⟩
  have hlast := hl.last j hjs
  have hend : ∀ x, A.nend.get j = some x → x ∈ L j := fun x hx => List.mem_of_getLast? (by rw [← hlast]; exact hx)
  refine (linkEnd_runs _ _ _ ?_).mono ?_
  · intro x hx
    rw [push_size, h.szn]
    have := ((hl.mem j hjs x).mp (hend x hx)).1
    omega
  rintro nx ⟨nx1, nx2⟩
  refine ⟨by rw [hl.se]; exact hjb, ?_⟩
  refine (linkStart_runs _ j _ (by rw [hl.ss]; exact hjb)).mono ?_
  rintro ns ⟨ns1, ns2⟩
  refine ⟨by rw [hl.sc]; exact hjb, by rw [hl.sc]; exact hjb, ?_⟩
  rw [runs_pure]
  set N := A.ninds.size with hN
  -- the other nodes of the list are in earlier lines
  have hrow : ∀ n, n ∈ L j → A.ninds.get n < entry := by
    intro n hn
    obtain ⟨n1, n2⟩ := (hl.mem j hjs n).mp hn
    refine lt_of_le_of_ne (hle n n1) fun e => ?_
    obtain ⟨_, q2, q3⟩ := h.row n n1
    rw [e] at q2 q3
    have := h.sorted entry he _ N q2 (h.pi n n1).1 hhi
    rw [hj] at this
    unfold colOf at n2
    omega
  have gni : ∀ n, n < N → (A.ninds.push entry).get n = A.ninds.get n := fun n hn => by rw [push_get, if_neg (by omega)]
  have gvp : ∀ n, n < N → (A.vpos.push N).get n = A.vpos.get n := fun n hn => by rw [push_get, if_neg (by rw [h.szp]; omega)]
  have gvi : ∀ n, n < N → (A.vinv.push N).get n = A.vinv.get n := fun n hn => by rw [push_get, if_neg (by rw [h.szv]; omega)]
  have gni' : (A.ninds.push entry).get N = entry := by rw [push_get, if_pos rfl]
  have gvp' : (A.vpos.push N).get N = N := by rw [push_get, if_pos h.szp.symm]
  have gvi' : (A.vinv.push N).get N = N := by rw [push_get, if_pos h.szv.symm]
  have gnx : ∀ x, nx.get x = if some x = A.nend.get j then some N else if x = N then none else A.nnext.get x := fun x => by
    rw [nx2 x, push_get, h.szn]
  have hmemN : ∀ j', V j' → N ∉ L j' := fun j' hj' hx => by
    have := ((hl.mem j' hj' N).mp hx).1; omega
  refine ⟨⟨fun j' => if j' = j then L j ++ [N] else L j', ?_⟩, rfl, rfl, ?_⟩
  · refine ⟨h.asm, by show N + 1 ≤ _; exact hNs, by show _ + 1 = _ + 1; rw [h.szp], by show _ + 1 = _ + 1; rw [h.szv], by show nx.size = N + 1; rw [nx1, push_size, h.szn],
      fun n hn => ?_, fun p hp => ?_, fun n hn => ?_, h.sorted, h.lt, ?_⟩
    · change n < N + 1 at hn
      show (A.vpos.push N).get n < N + 1 ∧ (A.vinv.push N).get ((A.vpos.push N).get n) = n
      by_cases e : n = N
      · rw [e, gvp', gvi']; exact ⟨by omega, rfl⟩
      · have hn' : n < N := by omega
        have := h.pi n hn'
        rw [gvp n hn', gvi _ this.1]; exact ⟨by omega, this.2⟩
    · change p < N + 1 at hp
      show (A.vinv.push N).get p < N + 1 ∧ (A.vpos.push N).get ((A.vinv.push N).get p) = p
      by_cases e : p = N
      · rw [e, gvi', gvp']; exact ⟨by omega, rfl⟩
      · have hn' : p < N := by omega
        have := h.ip p hn'
        rw [gvi p hn', gvp _ this.1]; exact ⟨by omega, this.2⟩
    · change n < N + 1 at hn
      show (A.ninds.push entry).get n < m ∧ A.cs.start.get ((A.ninds.push entry).get n) ≤ (A.vpos.push N).get n ∧ (A.vpos.push N).get n < A.cs.start.get ((A.ninds.push entry).get n + 1)
      by_cases e : n = N
      · rw [e, gvp', gni']; exact ⟨he, hlo, hhi⟩
      · have hn' : n < N := by omega
        rw [gvp n hn', gni n hn']; exact h.row n hn'
    · refine ⟨hl.vl, ?_, ?_, ?_, fun j' hj' => ?_, fun j' hj' n => ?_, fun j' hj' => ?_, fun j' hj' => ?_, fun j' hj' => ?_⟩
      · show ns.size = _; rw [ns1, hl.ss]
      · show (A.nend.set j (some N)).size = _; rw [Buf.set_size, hl.se]
      · show (A.counts.set j _).size = _; rw [Buf.set_size, hl.sc]
      · show Chain nx.get (ns.get j') (if j' = j then L j ++ [N] else L j')
        rw [ns2]
        by_cases e : j' = j
        · rw [if_pos e, if_pos e]
          refine Chain.snoc (f := A.nnext.get) ?_ (asc_nodup (hl.asc j hjs)) (fun x hx hne => ?_) (fun x hx => ?_) (hl.chain j hjs)
          · rw [gnx, if_neg, if_pos rfl]
            intro e'
            exact hmemN j hjs (hend N e'.symm)
          · have hxN := ((hl.mem j hjs x).mp hx).1
            rw [gnx, hlast, if_neg hne, if_neg (by omega)]
          · rw [gnx, hlast, if_pos hx.symm]
        · rw [if_neg e, if_neg e]
          refine Chain.congr (fun x hx => ?_) (hl.chain j' hj')
          have hxN := (hl.mem j' hj' x).mp hx
          rw [gnx, if_neg, if_neg (by omega)]
          intro e'
          have := ((hl.mem j hjs x).mp (hend x e'.symm)).2
          exact e (hxN.2.symm.trans this)
      · show n ∈ (if j' = j then L j ++ [N] else L j') ↔ n < N + 1 ∧ A.cs.inds.get ((A.vpos.push N).get n) = j'
        have key : ∀ j'', V j'' → n < N → (n ∈ L j'' ↔ A.cs.inds.get ((A.vpos.push N).get n) = j'') := fun j'' hj'' hn => by
          rw [gvp n hn, hl.mem j'' hj'']
          exact ⟨fun h => h.2, fun h => ⟨hn, h⟩⟩
        by_cases eN : n = N
        · rw [eN, gvp', hj]
          by_cases e : j' = j
          · rw [if_pos e, e]; simp
          · rw [if_neg e]
            exact ⟨fun h => (hmemN j' hj' h).elim, fun h => (e h.2.symm).elim⟩
        · by_cases hn : n < N
          · by_cases e : j' = j
            · rw [if_pos e, List.mem_append, key j hjs hn, e]
              simp only [List.mem_singleton, eN, or_false]
              exact ⟨fun h => ⟨by omega, h⟩, fun h => h.2⟩
            · rw [if_neg e, key j' hj' hn]
              exact ⟨fun h => ⟨by omega, h⟩, fun h => h.2⟩
          · refine ⟨fun hx => ?_, fun h => by omega⟩
            exfalso
            split at hx
            · rw [List.mem_append, List.mem_singleton] at hx
              rcases hx with hx | hx
              · exact hn ((hl.mem j hjs n).mp hx).1
              · exact eN hx
            · exact hn ((hl.mem j' hj' n).mp hx).1
      · show List.Pairwise (fun a b => (A.ninds.push entry).get a < (A.ninds.push entry).get b) (if j' = j then L j ++ [N] else L j')
        have key : ∀ j'', V j'' → (L j'').Pairwise fun a b => (A.ninds.push entry).get a < (A.ninds.push entry).get b := fun j'' hj'' => by
          refine (hl.asc j'' hj'').imp_of_mem fun {a b} ha hb hab => ?_
          rw [gni a ((hl.mem j'' hj'' a).mp ha).1, gni b ((hl.mem j'' hj'' b).mp hb).1]; exact hab
        split
        · rw [List.pairwise_append]
          refine ⟨key j hjs, List.pairwise_singleton _ _, fun a ha b hb => ?_⟩
          rw [List.mem_singleton] at hb
          rw [hb, gni', gni a ((hl.mem j hjs a).mp ha).1]
          exact hrow a ha
        · exact key j' hj'
      · show (A.nend.set j (some N)).get j' = (if j' = j then L j ++ [N] else L j').getLast?
        rw [Buf.set_get]
        split
        · simp
        · exact hl.last j' hj'
      · show (A.counts.set j (A.counts.get j + 1)).get j' = (if j' = j then L j ++ [N] else L j').length
        rw [Buf.set_get]
        split
        · rw [List.length_append, hl.cnt j hjs]; rfl
        · exact hl.cnt j' hj'
  · intro n hn
    change n < N + 1 at hn
    show (A.ninds.push entry).get n ≤ entry
    by_cases e : n = N
    · rw [e, gni']
    · rw [gni n (by omega)]; exact hle n (by omega)

/-- All nodes of a part of a line. -/
theorem pushNodes_runs {m entry : Nat} (he : entry < m) : ∀ (l : List Nat) (A : Aug K), (∃ L, Mid V m A L) → A.cs.start.get entry ≤ A.ninds.size →
    A.ninds.size + l.length ≤ A.cs.start.get (entry + 1) → (∀ t (ht : t < l.length), A.cs.inds.get (A.ninds.size + t) = l[t]) → (∀ j ∈ l, V j) →
    (∀ n, n < A.ninds.size → A.ninds.get n ≤ entry) →
    Runs (pushNodes entry l A) fun A' => (∃ L', Mid V m A' L') ∧ A'.cs = A.cs ∧ A'.ninds.size = A.ninds.size + l.length ∧ ∀ n, n < A'.ninds.size → A'.ninds.get n ≤ entry := by
  intro l
  induction l with
  | nil => intro A h _ _ _ _ hle; rw [pushNodes, runs_pure]; exact ⟨h, rfl, rfl, hle⟩
  | cons j l ih =>
    rintro A ⟨L, h⟩ hlo hhi hl hV hle
    simp only [List.length_cons] at hhi hl
    rw [pushNodes, runs_bind]
    refine (pushNode_runs h he hlo (by omega) (hl 0 (by omega)) (hV j List.mem_cons_self) hle).mono ?_
    rintro A' ⟨h', c, s, hle'⟩
    refine (ih A' h' (by rw [c, s]; omega) (by rw [c, s]; omega) (fun t ht => ?_) (fun j hj => hV j (List.mem_cons_of_mem _ hj)) hle').mono ?_
    · rw [c, s]
      have := hl (t + 1) (by omega)
      rw [show A.ninds.size + 1 + t = A.ninds.size + (t + 1) by omega, this]; rfl
    · rintro A'' ⟨h'', c', s', hle''⟩
      exact ⟨h'', c'.trans c, by rw [s', s, List.length_cons]; omega, hle''⟩

/-- A line appended to the storage: arrays. -/
structure Grown (m : Nat) (T T' : CS K) (l : List (Nat × K)) : Prop where
  asm : Crout.Asm (m + 1) T'
  psize : T'.psize = T.psize
  ssize : T'.ssize = T.ssize
  start : ∀ i, i ≤ m → T'.start.get i = T.start.get i
  fin : T'.start.get (m + 1) = T.start.get m + l.length
  old : ∀ x, x < T.inds.size → T'.inds.get x = T.inds.get x ∧ T'.vals.get x = T.vals.get x
  new : ∀ t (ht : t < l.length), (T'.inds.get (T.start.get m + t), T'.vals.get (T.start.get m + t)) = l[t]

theorem grown_of {m : Nat} {T : CS K} (h : Crout.Asm m T) {l : List (Nat × K)} {oi : Buf Nat} {ov : Buf K} (r1 : oi.size = T.inds.size + l.length)
    (r2 : ov.size = T.inds.size + l.length) (r3 : ∀ x, x < T.inds.size → oi.get x = T.inds.get x ∧ ov.get x = T.vals.get x)
    (r4 : ∀ t (ht : t < l.length), (oi.get (T.inds.size + t), ov.get (T.inds.size + t)) = l[t]) :
    Grown m T { T with start := T.start.push (T.start.get m + l.length), inds := oi, vals := ov } l := by
  have hs := h.ssz
  have hst : ∀ i, i ≤ m → (T.start.push (T.start.get m + l.length)).get i = T.start.get i := fun i hi => by
    rw [push_get, if_neg (by omega)]
  have hst' : (T.start.push (T.start.get m + l.length)).get (m + 1) = T.start.get m + l.length := by
    rw [push_get, if_pos hs.symm]
  refine ⟨⟨?_, ?_, ?_, ?_, ?_⟩, rfl, rfl, hst, hst', r3, fun t ht => ?_⟩
  · show _ + 1 = _; rw [hs]
  · show (T.start.push _).get 0 = 0; rw [hst 0 (by omega)]; exact h.zero
  · intro i hi
    show (T.start.push _).get i ≤ (T.start.push _).get (i + 1)
    by_cases e : i = m
    · subst e; rw [hst i (by omega), hst']; omega
    · rw [hst i (by omega), hst (i + 1) (by omega)]; exact h.mono i (by omega)
  · show oi.size = (T.start.push _).get (m + 1); rw [hst', r1, h.isz]
  · show ov.size = (T.start.push _).get (m + 1); rw [hst', r2, h.isz]
  · have := r4 t ht
    rw [h.isz] at this; exact this

theorem asm_back {m : Nat} {T : CS K} (h : Crout.Asm m T) : T.start.back = .ok (T.start.get m) := by
  have hs := h.ssz
  unfold Buf.back Buf.rd
  rw [if_neg (by omega), if_pos (by omega), hs]; rfl

theorem csPush_runs {m : Nat} {T : CS K} (h : Crout.Asm m T) (l : List Nat) (v : Buf K) (hl : ∀ j ∈ l, j < v.size) :
    Runs (T.pushLine l v) fun T' => Grown m T T' (l.map fun j => (j, v.get j)) := by
  unfold CS.pushLine
  simp only [runs_bind]
  refine (CS.pushRange_runs v l hl (T.inds, T.vals) (by rw [h.isz, h.vsz])).mono ?_
  rintro ⟨oi, ov⟩ ⟨r1, r2, r3, r4⟩
  rw [asm_back h]
  simp only [runs_ok, runs_pure]
  have := grown_of h (l := l.map fun j => (j, v.get j)) (oi := oi) (ov := ov) (by simpa using r1) (by simpa using r2) r3
    (fun t ht => by rw [List.length_map] at ht; rw [List.getElem_map, (r4 t ht).1, (r4 t ht).2])
  rw [List.length_map] at this
  exact this

theorem csPush2_runs {m : Nat} {T : CS K} (h : Crout.Asm m T) (l1 : List Nat) (v1 : Buf K) (l2 : List Nat) (v2 : Buf K) (h1 : ∀ j ∈ l1, j < v1.size)
    (h2 : ∀ j ∈ l2, j < v2.size) :
    Runs (T.pushLine2 l1 v1 l2 v2) fun T' => Grown m T T' ((l1.map fun j => (j, v1.get j)) ++ l2.map fun j => (j, v2.get j)) := by
  unfold CS.pushLine2
  simp only [runs_bind]
  refine (CS.pushRange_runs v1 l1 h1 (T.inds, T.vals) (by rw [h.isz, h.vsz])).mono ?_
  rintro ⟨oi, ov⟩ ⟨r1, r2, r3, r4⟩
  simp only at r1 r2 r3 r4
  refine (CS.pushRange_runs v2 l2 h2 (oi, ov) (by rw [r1, r2])).mono ?_
  rintro ⟨pi, pv⟩ ⟨q1, q2, q3, q4⟩
  simp only at q1 q2 q3 q4
  rw [asm_back h]
  simp only [runs_ok, runs_pure]
  have := grown_of h (l := (l1.map fun j => (j, v1.get j)) ++ l2.map fun j => (j, v2.get j)) (oi := pi) (ov := pv)
    (by simp only [List.length_append, List.length_map]; omega) (by simp only [List.length_append, List.length_map]; omega)
    (fun x hx => ⟨(q3 x (by omega)).1.trans (r3 x hx).1, (q3 x (by omega)).2.trans (r3 x hx).2⟩)
    (fun t ht => by
      rw [List.length_append, List.length_map, List.length_map] at ht
      by_cases ht1 : t < l1.length
      · rw [List.getElem_append_left (by rw [List.length_map]; exact ht1), List.getElem_map, (q3 _ (by omega)).1, (q3 _ (by omega)).2, (r4 t ht1).1, (r4 t ht1).2]
      · rw [List.getElem_append_right (by rw [List.length_map]; omega), List.getElem_map]
        simp only [List.length_map]
        have := q4 (t - l1.length) (by omega)
        rw [r1, show T.inds.size + l1.length + (t - l1.length) = T.inds.size + t by omega] at this
        rw [this.1, this.2])
  rw [List.length_append, List.length_map, List.length_map, ← Nat.add_assoc] at this
  exact this

/-- The grown storage, before its nodes are appended. -/
theorem mid_grown {m : Nat} {A : Aug K} {L : Nat → List Nat} (h : Inv V m A L) {T' : CS K} {l : List (Nat × K)} (hg : Grown m A.cs T' l)
    (hs : (l.map Prod.fst).Pairwise (· < ·)) (hl : ∀ e ∈ l, e.1 < A.cs.ssize) : Mid V (m + 1) { A with cs := T' } L := by
  have st := h.store
  have hl' := h.lists
  have hisz := st.asm.isz
  have hszi := st.szi
  have row : ∀ n, n < A.ninds.size → A.vpos.get n < A.cs.inds.size := fun n hn => by rw [st.szi]; exact (st.pi n hn).1
  have hsz : T'.inds.size = A.cs.start.get m + l.length := by rw [hg.asm.isz, hg.fin]
  refine ⟨hg.asm, by show A.ninds.size ≤ T'.inds.size; omega, st.szp, st.szv, st.szn, st.pi, st.ip, fun n hn => ?_, fun r hr x y hx hxy hy => ?_, fun p hp => ?_, ?_⟩
  · obtain ⟨a, b, c⟩ := st.row n hn
    show A.ninds.get n < m + 1 ∧ T'.start.get (A.ninds.get n) ≤ A.vpos.get n ∧ A.vpos.get n < T'.start.get (A.ninds.get n + 1)
    rw [hg.start _ (by omega), hg.start _ (by omega)]
    exact ⟨by omega, b, c⟩
  · change T'.start.get r ≤ x at hx
    change y < T'.start.get (r + 1) at hy
    show T'.inds.get x < T'.inds.get y
    by_cases e : r = m
    · subst e
      rw [hg.fin] at hy
      rw [hg.start _ (le_refl _)] at hx
      have e1 := hg.new (x - A.cs.start.get r) (by omega)
      have e2 := hg.new (y - A.cs.start.get r) (by omega)
      rw [show A.cs.start.get r + (x - A.cs.start.get r) = x by omega] at e1
      rw [show A.cs.start.get r + (y - A.cs.start.get r) = y by omega] at e2
      rw [List.pairwise_iff_getElem] at hs
      have := hs (x - A.cs.start.get r) (y - A.cs.start.get r) (by rw [List.length_map]; omega) (by rw [List.length_map]; omega) (by omega)
      rw [List.getElem_map, List.getElem_map, ← e1, ← e2] at this
      exact this
    · have hr' : r < m := by omega
      rw [hg.start _ (by omega)] at hx hy
      have := st.line_le hr'
      rw [(hg.old x (by omega)).1, (hg.old y (by omega)).1]
      exact st.sorted r hr' x y hx hxy hy
  · change p < T'.inds.size at hp
    show T'.inds.get p < T'.ssize
    rw [hg.ssize]
    by_cases hp' : p < A.cs.inds.size
    · rw [(hg.old p hp').1]; exact st.lt p (by omega)
    · have e1 := hg.new (p - A.cs.start.get m) (by omega)
      rw [show A.cs.start.get m + (p - A.cs.start.get m) = p by omega] at e1
      have := hl _ (List.getElem_mem (by omega : p - A.cs.start.get m < l.length))
      rw [← e1] at this
      exact this
  · refine ⟨?_, ?_, ?_, ?_, ?_, ?_, ?_, ?_, ?_⟩ <;> show _ <;> simp only [hg.ssize]
    · exact hl'.vl
    · exact hl'.ss
    · exact hl'.se
    · exact hl'.sc
    · exact hl'.chain
    · intro j hj n
      rw [hl'.mem j hj n]
      refine and_congr_right fun hn => ?_
      unfold colOf
      rw [(hg.old _ (row n hn)).1]
    · exact hl'.asc
    · exact hl'.last
    · exact hl'.cnt

/-- The lines after an append. -/
theorem Grown.lines {m : Nat} {T T' : CS K} {l : List (Nat × K)} (h : Crout.Asm m T) (hg : Grown m T T' l) :
    (∀ i, i < m → T'.line i = T.line i) ∧ T'.line m = l := by
  constructor
  · intro i hi
    refine Crout.line_eq_of (hg.start i (by omega)) (hg.start (i + 1) (by omega)) fun x h1 h2 => ?_
    exact hg.old x (h.lt_size hi h2).1
  · refine List.ext_getElem ?_ fun t t1 t2 => ?_
    · rw [Crout.line_length, hg.fin, hg.start m (le_refl _)]; omega
    · rw [Crout.line_getElem, hg.start m (le_refl _)]
      exact hg.new t t2

theorem pushLine_runs {m : Nat} {A : Aug K} (h : ∃ L, Inv V m A L) (l : List Nat) (v : Buf K) (hv : ∀ j ∈ l, j < v.size) (hs : l.Pairwise (· < ·)) (hl : ∀ j ∈ l, V j) :
    Runs (pushLine A m l v) fun A' => (∃ L, Inv V (m + 1) A' L) ∧ A'.cs.psize = A.cs.psize ∧ A'.cs.ssize = A.cs.ssize ∧ (∀ i, i < m → A'.cs.line i = A.cs.line i) ∧
      A'.cs.line m = l.map fun j => (j, v.get j) := by
  obtain ⟨L, h⟩ := h
  have hszi := h.store.szi
  have hisz := h.store.asm.isz
  unfold pushLine
  rw [runs_bind]
  refine (csPush_runs h.store.asm l v hv).mono fun T' hg => ?_
  have hm := mid_grown h hg (by rw [List.map_map]; simpa [Function.comp_def] using hs) (by simp only [List.mem_map]; rintro e ⟨j, hj, rfl⟩; exact h.lists.vl _ (hl j hj))
  have hfin := hg.fin
  rw [List.length_map] at hfin
  refine (pushNodes_runs (by omega) l _ ⟨L, hm⟩ (by show T'.start.get m ≤ A.ninds.size; rw [hg.start m (le_refl _)]; omega)
    (by show A.ninds.size + l.length ≤ T'.start.get (m + 1); omega) (fun t ht => ?_) (by first | exact hl | exact fun j hj => hl j (by simp [hj])) (fun n hn => (h.store.row n hn).1.le)).mono ?_
  · show T'.inds.get (A.ninds.size + t) = l[t]
    have := hg.new t (by rw [List.length_map]; exact ht)
    rw [List.getElem_map] at this
    rw [show A.ninds.size = A.cs.start.get m by omega]
    exact congrArg Prod.fst this
  · rintro A' ⟨⟨L', h'⟩, c, s, -⟩
    change A'.cs = T' at c
    change A'.ninds.size = A.ninds.size + l.length at s
    obtain ⟨g1, g2⟩ := hg.lines h.store.asm
    refine ⟨⟨L', h'.inv ?_⟩, by rw [c, hg.psize], by rw [c, hg.ssize], by rw [c]; exact g1, by rw [c, g2]⟩
    rw [c, s, hg.asm.isz]; omega

theorem pushLine2_runs {m : Nat} {A : Aug K} (h : ∃ L, Inv V m A L) (l1 : List Nat) (v1 : Buf K) (l2 : List Nat) (v2 : Buf K) (hv1 : ∀ j ∈ l1, j < v1.size)
    (hv2 : ∀ j ∈ l2, j < v2.size) (hs : (l1 ++ l2).Pairwise (· < ·)) (hl : ∀ j ∈ l1 ++ l2, V j) :
    Runs (pushLine2 A m l1 v1 l2 v2) fun A' => (∃ L, Inv V (m + 1) A' L) ∧ A'.cs.psize = A.cs.psize ∧ A'.cs.ssize = A.cs.ssize ∧ (∀ i, i < m → A'.cs.line i = A.cs.line i) ∧
      A'.cs.line m = (l1.map fun j => (j, v1.get j)) ++ l2.map fun j => (j, v2.get j) := by
  obtain ⟨L, h⟩ := h
  have hszi := h.store.szi
  have hisz := h.store.asm.isz
  unfold pushLine2
  rw [runs_bind]
  refine (csPush2_runs h.store.asm l1 v1 l2 v2 hv1 hv2).mono fun T' hg => ?_
  have hm := mid_grown h hg (by rw [List.map_append, List.map_map, List.map_map]; simpa [Function.comp_def] using hs)
    (by simp only [List.mem_append, List.mem_map]
        rintro e (⟨j, hj, rfl⟩ | ⟨j, hj, rfl⟩)
        · exact h.lists.vl _ (hl j (by simp [hj]))
        · exact h.lists.vl _ (hl j (by simp [hj])))
  have hfin := hg.fin
  simp only [List.length_append, List.length_map] at hfin
  have hnew : ∀ t (ht : t < (l1 ++ l2).length), T'.inds.get (A.ninds.size + t) = (l1 ++ l2)[t] := fun t ht => by
    have := hg.new t (by simpa using ht)
    rw [show A.ninds.size = A.cs.start.get m by omega]
    have := congrArg Prod.fst this
    simp only at this
    rw [this]
    by_cases ht1 : t < l1.length
    · rw [List.getElem_append_left (by rw [List.length_map]; exact ht1), List.getElem_append_left ht1, List.getElem_map]
    · rw [List.getElem_append_right (by rw [List.length_map]; omega), List.getElem_append_right (by omega), List.getElem_map]
      simp only [List.length_map]
  simp only [List.length_append] at hnew
  rw [runs_bind]
  refine (pushNodes_runs (by omega) l1 _ ⟨L, hm⟩ (by show T'.start.get m ≤ A.ninds.size; rw [hg.start m (le_refl _)]; omega)
    (by show A.ninds.size + l1.length ≤ T'.start.get (m + 1); omega) (fun t ht => ?_) (by first | exact hl | exact fun j hj => hl j (by simp [hj])) (fun n hn => (h.store.row n hn).1.le)).mono ?_
  · show T'.inds.get (A.ninds.size + t) = l1[t]
    rw [hnew t (by omega), List.getElem_append_left ht]
  · rintro A' ⟨hm', c, s, hle⟩
    change A'.cs = T' at c
    change A'.ninds.size = A.ninds.size + l1.length at s
    refine (pushNodes_runs (by omega) l2 _ hm' (by rw [c, s, hg.start m (le_refl _)]; omega)
      (by rw [c, s]; omega) (fun t ht => ?_) (fun j hj => hl j (by simp [hj])) hle).mono ?_
    · rw [c, s, Nat.add_assoc, hnew _ (by omega), List.getElem_append_right (by omega)]
      simp only [Nat.add_sub_cancel_left]
    · rintro A'' ⟨⟨L', h'⟩, c', s', -⟩
      rw [c] at c'
      obtain ⟨g1, g2⟩ := hg.lines h.store.asm
      refine ⟨⟨L', h'.inv ?_⟩, by rw [c', hg.psize], by rw [c', hg.ssize], by rw [c']; exact g1, by rw [c', g2]⟩
      rw [c', s', s, hg.asm.isz]; omega

/-- The empty structure. -/
theorem begin_inv [Inhabited K] (A : Aug K) : ∃ L, Inv (· < A.cs.ssize) 0 (begin A) L := by
  refine ⟨fun _ => [], ⟨⟨rfl, rfl, fun i hi => by omega, rfl, rfl⟩, rfl, rfl, rfl, rfl, fun n hn => ?_, fun n hn => ?_, fun n hn => ?_, fun r hr => by omega, fun p hp => ?_⟩,
    ⟨fun j hj => hj, rfl, rfl, rfl, fun j hj => trivial, fun j hj n => ?_, fun j hj => List.Pairwise.nil, fun j hj => rfl, fun j hj => rfl⟩⟩
  · exact absurd hn (Nat.not_lt_zero _)
  · exact absurd hn (Nat.not_lt_zero _)
  · exact absurd hn (Nat.not_lt_zero _)
  · exact absurd hp (Nat.not_lt_zero _)
  · simp only [List.not_mem_nil, false_iff]
    rintro ⟨hn, -⟩
    exact absurd hn (Nat.not_lt_zero _)

/-- Taking over a compressed matrix. -/
theorem buildAug_runs (A : Aug K) {B : CS K} {m : Nat} (hm : B.psize = m) (hB : Crout.Asm m B)
    (hs : ∀ r, r < m → ∀ x y, B.start.get r ≤ x → x < y → y < B.start.get (r + 1) → B.inds.get x < B.inds.get y) (hl : ∀ p, p < B.inds.size → B.inds.get p < B.ssize) :
    Runs (buildAug A B) fun A' => (∃ L, Inv (· < B.ssize) m A' L) ∧ A'.cs = B := by
  unfold buildAug
  rw [if_neg (by have := hB.ssz; omega), runs_bind, asm_back hB, runs_ok]
  rw [if_neg (by have := hB.isz; omega)]
  have hssz := hB.ssz
  have hst : B.start.size - 1 = m := by omega
  rw [hst]
  refine forUp_runs' (I := fun i A' => (∃ L, Mid (· < B.ssize) m A' L) ∧ A'.cs = B ∧ A'.ninds.size = B.start.get i ∧ ∀ n, n < A'.ninds.size → A'.ninds.get n < i) (by omega) ?_ ?_ ?_
  · refine ⟨⟨fun _ => [], hB, Nat.zero_le _, rfl, rfl, rfl, fun n hn => ?_, fun n hn => ?_, fun n hn => ?_, hs, hl, ?_⟩, rfl, hB.zero.symm, fun n hn => ?_⟩
    · exact absurd hn (Nat.not_lt_zero _)
    · exact absurd hn (Nat.not_lt_zero _)
    · exact absurd hn (Nat.not_lt_zero _)
    · refine ⟨fun j hj => hj, rfl, rfl, rfl, fun j hj => trivial, fun j hj n => ?_, fun j hj => List.Pairwise.nil, fun j hj => rfl, fun j hj => rfl⟩
      simp only [List.not_mem_nil, false_iff]
      rintro ⟨hn, -⟩
      exact absurd hn (Nat.not_lt_zero _)
    · exact absurd hn (Nat.not_lt_zero _)
  · rintro i A' _ hi ⟨h1, h2, h3, h4⟩
    simp only [runs_bind, runs_rd]
    refine ⟨by omega, by omega, ?_⟩
    have hmono := hB.mono i hi
    have hlen : (B.inds.slice (B.start.get i) (B.start.get (i + 1))).length = B.start.get (i + 1) - B.start.get i := Buf.slice_length _ _ _
    refine (pushNodes_runs hi _ A' h1 (by rw [h2, h3]) (by rw [h2, h3, hlen]; omega) (fun t ht => ?_) (fun j hj => by
      obtain ⟨x, x1, x2, rfl⟩ := Buf.mem_slice.mp hj
      exact hl x (hB.lt_size hi x2).1) (fun n hn => (h4 n hn).le)).mono ?_
    · rw [h2, h3, Buf.slice_getElem]
    · rintro A'' ⟨g1, g2, g3, g4⟩
      exact ⟨g1, g2.trans h2, by rw [g3, h3, hlen]; omega, fun n hn => Nat.lt_succ_of_le (g4 n hn)⟩
  · rintro A' ⟨⟨L, h1⟩, h2, h3, -⟩
    exact ⟨⟨L, h1.inv (by rw [h2, h3, hB.isz])⟩, h2⟩

/-! ## Reading -/

/-- The entries of a line are those of the nodes. -/
theorem Store.mem_line {m : Nat} {A : Aug K} (h : Store m A) {r : Nat} (hr : r < m) (j : Nat) (v : K) :
    (j, v) ∈ A.cs.line r ↔ ∃ n, n < A.ninds.size ∧ A.ninds.get n = r ∧ A.colOf n = j ∧ A.valOf n = v := by
  unfold CS.line
  rw [CS.mem_seg]
  constructor
  · rintro ⟨x, x1, x2, e⟩
    have hx : x < A.ninds.size := lt_of_lt_of_le x2 (h.line_le hr)
    obtain ⟨a, b⟩ := h.ip x hx
    refine ⟨A.vinv.get x, a, h.row_eq a hr (by rw [b]; exact x1) (by rw [b]; exact x2), ?_, ?_⟩
    · unfold colOf; rw [b]; exact congrArg Prod.fst e
    · unfold valOf; rw [b]; exact congrArg Prod.snd e
  · rintro ⟨n, n1, rfl, rfl, rfl⟩
    obtain ⟨_, b, c⟩ := h.row n n1
    exact ⟨A.vpos.get n, b, c, rfl⟩

theorem walkFrom_runs {m : Nat} {A : Aug K} (h : Store m A) : ∀ (fuel : Nat) (s : Option Nat) (l : List Nat), (∀ n ∈ l, n < A.ninds.size) → Chain A.nnext.get s l → l.length < fuel →
    walkFrom A fuel s = .ok (l.map fun n => (A.ninds.get n, A.valOf n)) := by
  intro fuel
  induction fuel with
  | zero => intro _ _ _ _ hf; omega
  | succ fuel ih =>
    intro s l hl hc hf
    have hvs : A.cs.vals.size = A.ninds.size := by rw [h.asm.vsz, ← h.asm.isz, h.szi]
    cases s with
    | none => obtain rfl := chain_none hc; rfl
    | some a =>
      obtain ⟨l, rfl, hc'⟩ := chain_some hc
      have ha := hl a List.mem_cons_self
      have hp := h.pi a ha
      have := ih (A.nnext.get a) l (fun n hn => hl n (List.mem_cons_of_mem _ hn)) hc' (by simp only [List.length_cons] at hf; omega)
      have goal : Runs (walkFrom A (fuel + 1) (some a)) fun r => r = (a :: l).map fun n => (A.ninds.get n, A.valOf n) := by
        rw [walkFrom]
        simp only [runs_bind, runs_rd]
        refine ⟨ha, by rw [h.szp]; exact ha, by rw [hvs]; exact hp.1, by rw [h.szn]; exact ha, ?_⟩
        rw [this]
        simp only [runs_ok, runs_pure, List.map_cons]
      obtain ⟨r, e, rfl⟩ := goal; exact e

/-- Traversal of a secondary list. -/
theorem walk_eq {m : Nat} {A : Aug K} {L : Nat → List Nat} (h : Inv V m A L) {j : Nat} (hj : V j) :
    walk A j = .ok ((L j).map fun n => (A.ninds.get n, A.valOf n)) := by
  have goal : Runs (walk A j) fun r => r = (L j).map fun n => (A.ninds.get n, A.valOf n) := by
    unfold walk
    simp only [runs_bind, runs_rd]
    refine ⟨by rw [h.lists.ss]; exact h.lists.vl _ hj, ?_⟩
    have := h.len_le hj
    rw [walkFrom_runs h.store _ _ _ (fun n hn => ((h.lists.mem j hj n).mp hn).1) (h.lists.chain j hj) (by omega)]
    rw [runs_ok]
  obtain ⟨r, e, rfl⟩ := goal; exact e

end Aug
end Hif
