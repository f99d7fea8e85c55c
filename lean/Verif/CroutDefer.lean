import Verif.CroutList

set_option linter.unusedSectionVars false
set_option linter.unusedVariables false
set_option linter.unusedSimpArgs false

/-! # Crout phase: deferral, compression and the estimator on one factor (proofs) -/

namespace Hif.Crout
variable {K : Type _}

theorem rotateLeft_runs {α : Type _} (b : Buf α) {lo hi : Nat} (h1 : lo < hi) (h2 : hi ≤ b.size) :
    Runs (b.rotateLeft lo hi) fun r => r.size = b.size ∧
      ∀ i, r.get i = if lo ≤ i ∧ i < hi then (if i + 1 < hi then b.get (i + 1) else b.get lo) else b.get i := by
  unfold Buf.rotateLeft
  rw [if_pos ⟨h1, h2⟩, runs_pure]
  exact ⟨rfl, fun _ => rfl⟩

/-- Effect of the index write and the two rotations of `defer_entry` on the lines. -/
theorem rot_line {k : Nat} {T : CS K} (h : Asm k T) {i st toIdx : Nat} (hi : i < k) {x0 : Nat} {v : K}
    (hst : (T.line i)[st]? = some (x0, v))
    {oi : Buf Nat} {ov : Buf K} (s1 : oi.size = T.inds.size) (s2 : ov.size = T.vals.size)
    (g1 : ∀ x, oi.get x = if T.start.get i + st ≤ x ∧ x < T.start.get (i + 1) then
      (if x + 1 < T.start.get (i + 1) then (T.inds.set (T.start.get i + st) toIdx).get (x + 1)
        else (T.inds.set (T.start.get i + st) toIdx).get (T.start.get i + st))
      else (T.inds.set (T.start.get i + st) toIdx).get x)
    (g2 : ∀ x, ov.get x = if T.start.get i + st ≤ x ∧ x < T.start.get (i + 1) then
      (if x + 1 < T.start.get (i + 1) then T.vals.get (x + 1) else T.vals.get (T.start.get i + st)) else T.vals.get x) :
    Asm k { T with inds := oi, vals := ov } ∧
      (∀ i', i' < k → i' ≠ i → ({ T with inds := oi, vals := ov } : CS K).line i' = T.line i') ∧
      ({ T with inds := oi, vals := ov } : CS K).line i =
        (T.line i).take st ++ ((T.line i).drop (st + 1) ++ [(toIdx, v)]) := by
  have hlen := line_length T i
  have hlt : st < (T.line i).length := by
    by_contra hc
    rw [List.getElem?_eq_none (by omega)] at hst; cases hst
  have hv : T.vals.get (T.start.get i + st) = v := by
    rw [List.getElem?_eq_getElem hlt, line_getElem] at hst
    simp only [Option.some.injEq, Prod.mk.injEq] at hst
    exact hst.2
  refine ⟨⟨h.ssz, h.zero, h.mono, by rw [← h.isz]; exact s1, by rw [← h.vsz]; exact s2⟩, fun i' hi' hne => ?_, ?_⟩
  · refine line_eq_of rfl rfl fun x h1 h2 => ?_
    have hd : ∀ y, T.start.get i ≤ y → y < T.start.get (i + 1) → x ≠ y := fun y a b => h.disj hi' hi hne h1 h2 a b
    have hx1 : x ≠ T.start.get i + st := hd _ (by omega) (by omega)
    have hx2 : ¬ (T.start.get i + st ≤ x ∧ x < T.start.get (i + 1)) := fun hc => hd x (by omega) hc.2 rfl
    show oi.get x = _ ∧ ov.get x = _
    rw [g1, g2, if_neg hx2, if_neg hx2, Buf.set_get_ne _ _ hx1]
    exact ⟨rfl, rfl⟩
  · refine List.ext_getElem ?_ fun t t1 t2 => ?_
    · rw [line_length]; simp; omega
    · rw [line_getElem]
      have ht : t < T.start.get (i + 1) - T.start.get i := by rw [line_length] at t1; exact t1
      show (oi.get (T.start.get i + t), ov.get (T.start.get i + t)) = _
      rcases Nat.lt_or_ge t st with hlt | hge
      · rw [g1, g2, if_neg (by omega), if_neg (by omega), Buf.set_get_ne _ _ (by omega),
          List.getElem_append_left (by simp; omega), List.getElem_take, line_getElem]
      · by_cases hl : t + 1 < (T.line i).length
        · rw [g1, g2, if_pos (by omega), if_pos (by omega), if_pos (by omega), if_pos (by omega), Buf.set_get_ne _ _ (by omega),
            List.getElem_append_right (by simp; omega), List.getElem_append_left (by simp; omega), List.getElem_drop, line_getElem]
          simp only [List.length_take]
          rw [show T.start.get i + (st + 1 + (t - min st (T.line i).length)) = T.start.get i + t + 1 by omega]
        · rw [g1, g2, if_pos (by omega), if_neg (by omega), if_pos (by omega), if_neg (by omega), Buf.set_get_self,
            List.getElem_append_right (by simp; omega), List.getElem_append_right (by simp; omega), hv]
          simp

theorem headOf_congr {F G : FacSide K} {i : Nat} (h1 : G.T.line i = F.T.line i) (h2 : G.start.get i = F.start.get i) :
    headOf G i = headOf F i := by unfold headOf; rw [h1, h2]

/-- A finite list of distinct numbers below `k` has length at most `k`. -/
theorem length_le_of_nodup {c : List Nat} (hn : c.Nodup) {k : Nat} (h : ∀ i ∈ c, i < k) : c.length ≤ k := by
  have := (hn.subperm (fun i hi => List.mem_range.2 (h i hi))).length_le
  rwa [List.length_range] at this

/-- What holds while `defer_entry` runs through the list `c` of the current position: `a` has been visited. -/
def DeferI (n k δ : Nat) (F : FacSide K) (c a : List Nat) (G : FacSide K) : Prop :=
  G.start = F.start ∧ G.T.start = F.T.start ∧ G.T.psize = F.T.psize ∧ G.T.ssize = F.T.ssize ∧
    Asm k G.T ∧ G.list.size = F.list.size ∧
    (∀ i, i < k → i ∉ a → G.T.line i = F.T.line i) ∧
    (∀ i, i ∈ c → i ∉ a → G.list.get i = F.list.get i) ∧
    (∀ i, i ∈ a → ∃ v r, F.T.line i = (F.T.line i).take (F.start.get i) ++ (k + δ, v) :: r ∧
      G.T.line i = (F.T.line i).take (F.start.get i) ++ (r ++ [(n + δ, v)])) ∧
    Links (k + δ + 1) (2 * n) k G.list (headOf G)

theorem deferI_init {n m2 k δ : Nat} {F : FacSide K} (h : Side n m2 k δ F) (c : List Nat) : DeferI n k δ F c [] F :=
  ⟨rfl, rfl, rfl, rfl, h.asm, rfl, fun _ _ _ => rfl, fun _ _ _ => rfl, fun i hi => by simp at hi, h.links.mono (by omega)⟩

/-- One node of `defer_entry`. -/
theorem deferBody_step {n m2 k δ : Nat} {F : FacSide K} (h : Side n m2 k δ F) (hds : k + δ < m2) {c : List Nat}
    (hc : Chain F.list.get (F.list.get (k + δ)) c) (hnd : c.Nodup) (hmem : ∀ i, i ∈ c ↔ i < k ∧ headOf F i = some (k + δ))
    {a b : List Nat} {i : Nat} {G : FacSide K} (hab : c = a ++ i :: b) (hG : DeferI n k δ F c a G) :
    Runs (deferBody (n + δ) i G) fun r => r.1 = b.head? ∧ DeferI n k δ F c (a ++ [i]) r.2 := by
  have hmn := h.mle
  have hasm := h.asm
  have hlz := h.lsz
  have hsz := h.stz
  obtain ⟨g1, g2, g3, g4, g5, g6, g7, g8, g9, g10⟩ := hG
  have hic : i ∈ c := by rw [hab]; simp
  obtain ⟨hik, hhead⟩ := (hmem i).1 hic
  have hia : i ∉ a := by
    rw [hab, List.nodup_append] at hnd
    exact fun hc => hnd.2.2 i hc i (by simp) rfl
  obtain ⟨v, r, e1, e2, e3, e4⟩ := (h.lines i hik).head_split hhead
  have hrest := (h.lines i hik).rest_gt e1
  have hGl := g7 i hik hia
  have hlen := line_length G.T i
  rw [hGl] at hlen
  have hm := g5.le (show i + 1 ≤ k by omega) (le_refl _)
  have gi := g5.isz
  have gv := g5.vsz
  have hssz := g5.ssz
  unfold deferBody
  simp only [runs_bind, runs_rd, runs_wr, g1]
  refine ⟨by omega, by omega, by omega, by omega, ?_⟩
  refine (rotateLeft_runs _ (show G.T.start.get i + F.start.get i < G.T.start.get (i + 1) by omega)
    (by rw [Buf.set_size]; omega)).mono ?_
  rintro oi ⟨o1, o2⟩
  refine (rotateLeft_runs _ (show G.T.start.get i + F.start.get i < G.T.start.get (i + 1) by omega) (by omega)).mono ?_
  rintro ov ⟨p1, p2⟩
  rw [Buf.set_size] at o1
  obtain ⟨q1, q2, q3⟩ := rot_line (T := G.T) g5 hik (st := F.start.get i) (toIdx := n + δ) (x0 := k + δ) (v := v)
    (by rw [hGl]; exact e3) o1 p1 o2 p2
  rw [hGl, e4] at q3
  set T' : CS K := { G.T with inds := oi, vals := ov } with hT'
  have hst' : (F.T.line i).length = F.start.get i + 1 + r.length := by
    conv_lhs => rw [e1]
    rw [List.length_append, List.length_take, min_eq_left (h.lines i hik).st_le, List.length_cons]; omega
  -- the new head
  obtain ⟨j, hj, hjlo, hjhi⟩ : ∃ j, (r ++ [(n + δ, v)]).head?.map Prod.fst = some j ∧ k + δ < j ∧ j ≤ n + δ := by
    cases r with
    | nil => exact ⟨n + δ, rfl, by omega, le_refl _⟩
    | cons x r =>
      have := hrest x (by simp)
      exact ⟨x.1, rfl, by omega, by omega⟩
  have hjget : oi.get (G.T.start.get i + F.start.get i) = j := by
    have hl : F.start.get i < (T'.line i).length := by
      rw [q3]; simp only [List.length_append, List.length_take, List.length_singleton, min_eq_left (h.lines i hik).st_le]; omega
    have h1 := line_getElem T' i (F.start.get i) hl
    have h2 : (T'.line i)[F.start.get i]? = (r ++ [(n + δ, v)]).head? := by
      rw [q3, List.getElem?_append_right (by rw [List.length_take, min_eq_left (h.lines i hik).st_le]),
        List.length_take, min_eq_left (h.lines i hik).st_le, Nat.sub_self, List.head?_eq_getElem?]
    rw [List.getElem?_eq_getElem hl, h1] at h2
    rw [← h2] at hj
    simp only [Option.map_some, Option.some.injEq] at hj
    exact hj
  refine ⟨by rw [o1]; omega, ?_⟩
  rw [hjget]
  simp only [runs_bind, runs_rd, runs_wr, runs_pure, Buf.set_size]
  refine ⟨by omega, by omega, by omega, by omega, ?_, rfl, g2, g3, g4, q1, g6, ?_, ?_, ?_, ?_⟩
  · rw [g8 i hic hia]; exact hc.2 a i b hab
  · intro i' hi' hni
    rw [List.mem_append, List.mem_singleton, not_or] at hni
    rw [q2 i' hi' hni.2]; exact g7 i' hi' hni.1
  · intro i' hi' hni
    rw [List.mem_append, List.mem_singleton, not_or] at hni
    have := ((hmem i').1 hi').1
    rw [Buf.set_get_ne _ _ (by omega), Buf.set_get_ne _ _ hni.2]
    exact g8 i' hi' hni.1
  · intro i' hi'
    rw [List.mem_append, List.mem_singleton] at hi'
    by_cases e : i' = i
    · subst e; exact ⟨v, r, e1, q3⟩
    · obtain ⟨v', r', x1, x2⟩ := g9 i' (hi'.resolve_right e)
      have hk' : i' < k := ((hmem i').1 (by rw [hab]; simp [hi'.resolve_right e])).1
      exact ⟨v', r', x1, by rw [q2 i' hk' e]; exact x2⟩
  · refine (g10.push (by omega) hik (show k + δ + 1 ≤ j by omega) (by omega) ?_).congr ?_
    · intro j' h1 h2
      rw [headOf_congr hGl (by rw [g1])]
      rw [hhead]; simp only [ne_eq, Option.some.injEq]; omega
    · intro i' hi'
      by_cases e : i' = i
      · subst e
        rw [if_pos rfl]
        unfold headOf
        show Option.map Prod.fst ((T'.line i').drop (F.start.get i')).head? = some j
        rw [q3, List.drop_append_of_le_length (by rw [List.length_take, min_eq_left (h.lines i' hik).st_le]),
          List.drop_of_length_le (by rw [List.length_take]; omega)]
        exact hj
      · rw [if_neg e]
        exact headOf_congr (q2 i' hi' e) (by rw [g1])

/-- The end of `defer_entry`. -/
theorem defer_done {n m2 k δ : Nat} {F : FacSide K} (h : Side n m2 k δ F) (hds : k + δ < m2) {c : List Nat}
    (hmem : ∀ i, i ∈ c ↔ i < k ∧ headOf F i = some (k + δ)) {G : FacSide K} (hG : DeferI n k δ F c c G) :
    Runs (G.list.wr k none) fun list => Side n m2 k (δ + 1) { G with list := list } ∧ G.start = F.start ∧
      ∀ i, i < k → (G.T.line i).Perm ((F.T.line i).map (ren (k + δ) (n + δ))) := by
  have hmn := h.mle
  have hasm := h.asm
  have hlz := h.lsz
  have hsz := h.stz
  obtain ⟨g1, g2, g3, g4, g5, g6, g7, g8, g9, g10⟩ := hG
  simp only [runs_wr]
  have hnot : ∀ i, i < k → i ∉ c → ∀ e ∈ F.T.line i, e.1 ≠ k + δ := fun i hik hic =>
    (h.lines i hik).no_ds (by omega) fun hh => hic ((hmem i).2 ⟨hik, hh⟩)
  refine ⟨by omega, ⟨by omega, hmn, g5, by rw [← h.psz]; exact g3, by rw [← h.ssz]; exact g4, by rw [← hlz]; exact g6,
    by rw [← hsz]; exact congrArg Buf.size g1, ?_, ?_⟩, g1, ?_⟩
  · intro i hik
    show LineOK k (k + (δ + 1)) (n + (δ + 1)) i (G.T.line i) (G.start.get i)
    have ho := h.lines i hik
    rw [g1]
    by_cases hic : i ∈ c
    · obtain ⟨v, r, e1, e2⟩ := g9 i hic
      have hr := ho.rest_gt e1
      have hb := ho.before
      have hs := ho.sorted
      rw [e1, List.pairwise_append, List.pairwise_cons] at hs
      obtain ⟨s1, ⟨s2, s3⟩, s4⟩ := hs
      have hlt : ((F.T.line i).take (F.start.get i)).length = F.start.get i := by
        rw [List.length_take, min_eq_left ho.st_le]
      refine ⟨?_, ?_, ?_, ?_⟩
      · rw [e2, List.pairwise_append, List.pairwise_append]
        refine ⟨s1, ⟨s3, List.pairwise_singleton _ _, ?_⟩, ?_⟩
        · intro x hx y hy
          rw [List.mem_singleton] at hy; subst hy
          exact (hr x hx).2
        · intro x hx y hy
          have := hb x hx
          rw [List.mem_append, List.mem_singleton] at hy
          rcases hy with hy | rfl
          · have := hr y hy; omega
          · show x.1 < n + δ; omega
      · rw [e2, List.length_append, hlt]; omega
      · intro x hx
        rw [e2, List.take_append_of_le_length (by omega), List.take_of_length_le (by omega)] at hx
        exact hb x hx
      · intro x hx
        rw [e2, List.drop_append_of_le_length (by omega), List.drop_of_length_le (by omega),
          List.nil_append, List.mem_append, List.mem_singleton] at hx
        rcases hx with hx | rfl
        · have := hr x hx; omega
        · show _ ≤ n + δ ∧ n + δ < _; omega
    · rw [g7 i hik hic]
      refine ⟨ho.sorted, ho.st_le, ho.before, fun x hx => ?_⟩
      have h1 := ho.after x hx
      have h2 := hnot i hik hic x (List.mem_of_mem_drop hx)
      omega
  · have hfin := g10.set_free (x := k) (by omega) (fun j _ _ hkk => absurd hkk (by omega)) none
    rw [show k + (δ + 1) = k + δ + 1 by omega]
    exact hfin.congr fun i _ => rfl
  · intro i hik
    show (G.T.line i).Perm _
    by_cases hic : i ∈ c
    · obtain ⟨v, r, e1, e2⟩ := g9 i hic
      have hr := (h.lines i hik).rest_gt e1
      have hb := (h.lines i hik).before
      have m1 : ((F.T.line i).take (F.start.get i)).map (ren (k + δ) (n + δ)) = (F.T.line i).take (F.start.get i) := by
        conv_rhs => rw [← List.map_id ((F.T.line i).take (F.start.get i))]
        refine List.map_congr_left fun x hx => ?_
        have := hb x hx
        unfold ren; rw [if_neg (by omega)]; rfl
      have m2 : r.map (ren (k + δ) (n + δ)) = r := by
        conv_rhs => rw [← List.map_id r]
        refine List.map_congr_left fun x hx => ?_
        have := hr x hx
        unfold ren; rw [if_neg (by omega)]; rfl
      have m3 : (F.T.line i).map (ren (k + δ) (n + δ)) = (F.T.line i).take (F.start.get i) ++ (n + δ, v) :: r := by
        conv_lhs => rw [e1]
        rw [List.map_append, List.map_cons, m1, m2]
        simp [ren]
      rw [m3, e2]
      exact List.Perm.append_left _ (List.perm_append_singleton _ _)
    · rw [g7 i hik hic]
      have : (F.T.line i).map (ren (k + δ) (n + δ)) = F.T.line i := by
        conv_rhs => rw [← List.map_id (F.T.line i)]
        refine List.map_congr_left fun x hx => ?_
        unfold ren; rw [if_neg (hnot i hik hic x hx)]; rfl
      rw [this]

/-- `defer_entry`: every stored entry at the current position moves to the tail position; the factor invariant holds with one
more deferral. -/
theorem deferEntry_runs {n m2 k δ : Nat} {F : FacSide K} (h : Side n m2 k δ F) (hds : k + δ < m2) :
    Runs (deferEntry k δ (n + δ) F) fun G => Side n m2 k (δ + 1) G ∧ G.start = F.start ∧
      ∀ i, i < k → (G.T.line i).Perm ((F.T.line i).map (ren (k + δ) (n + δ))) := by
  have hmn := h.mle
  obtain ⟨c, hc, hnd, hmem⟩ := h.links (k + δ) (le_refl _) (by omega)
  have hlz := h.lsz
  unfold deferEntry
  simp only [runs_bind, runs_rd]
  refine ⟨by omega, ?_⟩
  have hcl : c.length ≤ F.list.size := by
    have := length_le_of_nodup hnd fun i hi => ((hmem i).1 hi).1
    omega
  refine chase_runs c (DeferI n k δ F c) F.list.size hcl _ hc.1 F (deferI_init h c) (fun a i b G hab hG => deferBody_step h hds hc hnd hmem hab hG) ?_
  intro G hG
  refine (defer_done h hds hmem hG).mono fun list q => ?_
  rw [runs_pure]
  exact q

/-- Effect of an index write on the lines. -/
theorem set_line {k : Nat} {T : CS K} (h : Asm k T) {i st x : Nat} (hi : i < k) {x0 : Nat} {v : K}
    (hst : (T.line i)[st]? = some (x0, v)) :
    Asm k { T with inds := T.inds.set (T.start.get i + st) x } ∧
      (∀ i', i' < k → i' ≠ i → ({ T with inds := T.inds.set (T.start.get i + st) x } : CS K).line i' = T.line i') ∧
      ({ T with inds := T.inds.set (T.start.get i + st) x } : CS K).line i =
        (T.line i).take st ++ (x, v) :: (T.line i).drop (st + 1) := by
  have hlen := line_length T i
  have hlt : st < (T.line i).length := by
    by_contra hc
    rw [List.getElem?_eq_none (by omega)] at hst; cases hst
  have hv : T.vals.get (T.start.get i + st) = v := by
    rw [List.getElem?_eq_getElem hlt, line_getElem] at hst
    simp only [Option.some.injEq, Prod.mk.injEq] at hst
    exact hst.2
  refine ⟨⟨h.ssz, h.zero, h.mono, h.isz, h.vsz⟩, fun i' hi' hne => ?_, ?_⟩
  · refine line_eq_of rfl rfl fun y h1 h2 => ⟨?_, rfl⟩
    exact Buf.set_get_ne _ _ (h.disj hi' hi hne h1 h2 (by omega) (by omega))
  · refine List.ext_getElem ?_ fun t t1 t2 => ?_
    · rw [line_length]; simp; omega
    · rw [line_getElem]
      show ((T.inds.set _ _).get (T.start.get i + t), T.vals.get (T.start.get i + t)) = _
      rcases Nat.lt_trichotomy t st with hlt | rfl | hgt
      · rw [Buf.set_get_ne _ _ (by omega), List.getElem_append_left (by simp; omega), List.getElem_take, line_getElem]
      · rw [Buf.set_get_self, List.getElem_append_right (by simp), hv]
        simp [min_eq_left (le_of_lt hlt)]
      · rw [Buf.set_get_ne _ _ (by omega), List.getElem_append_right (by simp; omega)]
        simp only [List.length_take, min_eq_left (le_of_lt hlt)]
        rw [List.getElem_cons, dif_neg (by omega), List.getElem_drop, line_getElem]
        rw [show T.start.get i + (st + 1 + (t - st - 1)) = T.start.get i + t by omega]

theorem map_ren_of_ne {l : List (Nat × K)} {a b : Nat} (h : ∀ e ∈ l, e.1 ≠ a) : l.map (ren a b) = l := by
  conv_rhs => rw [← List.map_id l]
  refine List.map_congr_left fun x hx => ?_
  unfold ren; rw [if_neg (h x hx)]; rfl

/-- `update_compress`: entries at the current position receive their final index, the new line `k` is linked, and the factor
invariant holds for the next step. -/
theorem updateCompress_runs {n m2 k δ : Nat} {F : FacSide K} (hkm : k + δ < m2) (hmn : m2 ≤ n) (hasm : Asm (k + 1) F.T)
    (hps : F.T.psize = m2) (hss : F.T.ssize = 2 * n) (hlz : F.list.size = 2 * n) (hsz : F.start.size = m2)
    (hlines : ∀ i, i < k → LineOK k (k + δ) (n + δ) i (F.T.line i) (F.start.get i))
    (hlinks : Links (k + δ) (2 * n) k F.list (headOf F))
    (hnew : (F.T.line k).Pairwise fun a b => a.1 < b.1) (hnew' : ∀ e ∈ F.T.line k, k + δ < e.1 ∧ e.1 < n + δ) :
    Runs (updateCompress k δ F) fun G => Side n m2 (k + 1) δ G ∧
      (∀ i, i < k → G.T.line i = (F.T.line i).map (ren (k + δ) k)) ∧ G.T.line k = F.T.line k := by
  obtain ⟨c, hc, hnd, hmem⟩ := hlinks (k + δ) (le_refl _) (by omega)
  unfold updateCompress
  simp only [runs_bind, runs_rd]
  refine ⟨by omega, ?_⟩
  have hcl : c.length ≤ F.list.size := by
    have := length_le_of_nodup hnd fun i hi => ((hmem i).1 hi).1
    omega
  refine chase_runs c (fun a G => G.start.size = F.start.size ∧ G.T.start = F.T.start ∧ G.T.psize = F.T.psize ∧
      G.T.ssize = F.T.ssize ∧ Asm (k + 1) G.T ∧ G.list.size = F.list.size ∧
      (∀ i, i ≤ k → i ∉ a → G.T.line i = F.T.line i ∧ G.start.get i = F.start.get i) ∧
      (∀ i, i ∈ c → i ∉ a → G.list.get i = F.list.get i) ∧
      (∀ i, i ∈ a → ∃ v r, F.T.line i = (F.T.line i).take (F.start.get i) ++ (k + δ, v) :: r ∧
        G.T.line i = (F.T.line i).take (F.start.get i) ++ (k, v) :: r ∧ G.start.get i = F.start.get i + 1) ∧
      Links (k + δ + 1) (2 * n) k G.list (headOf G)) F.list.size hcl _ hc.1 F ?_ ?_ ?_
  · exact ⟨rfl, rfl, rfl, rfl, hasm, rfl, fun _ _ _ => ⟨rfl, rfl⟩, fun _ _ _ => rfl, fun i hi => by simp at hi,
      hlinks.mono (by omega)⟩
  · rintro a i b G hab ⟨g1, g2, g3, g4, g5, g6, g7, g8, g9, g10⟩
    have hic : i ∈ c := by rw [hab]; simp
    obtain ⟨hik, hhead⟩ := (hmem i).1 hic
    have hia : i ∉ a := by
      rw [hab, List.nodup_append] at hnd
      exact fun hc => hnd.2.2 i hc i (by simp) rfl
    obtain ⟨v, r, e1, e2, e3, e4⟩ := (hlines i hik).head_split hhead
    have hrest := (hlines i hik).rest_gt e1
    obtain ⟨hGl, hGs⟩ := g7 i (by omega) hia
    have hlen := line_length G.T i
    rw [hGl] at hlen
    have hm := g5.le (show i + 1 ≤ k + 1 by omega) (le_refl _)
    have gi := g5.isz
    have gv := g5.vsz
    have hssz := g5.ssz
    obtain ⟨q1, q2, q3⟩ := set_line (T := G.T) (i := i) (st := F.start.get i) (x := k) g5 (by omega) (by rw [hGl]; exact e3)
    rw [hGl, e4] at q3
    have hold : G.T.inds.get (G.T.start.get i + F.start.get i) = k + δ := by
      have := line_getElem G.T i (F.start.get i) (by rw [hGl]; exact e2)
      rw [List.getElem?_eq_getElem e2] at e3
      simp only [hGl] at this
      rw [this] at e3
      simp only [Option.some.injEq, Prod.mk.injEq] at e3
      exact e3.1
    set T' : CS K := { G.T with inds := G.T.inds.set (G.T.start.get i + F.start.get i) k } with hT'
    have hst' : (F.T.line i).length = F.start.get i + 1 + r.length := by
      conv_lhs => rw [e1]
      rw [List.length_append, List.length_take, min_eq_left (hlines i hik).st_le, List.length_cons]; omega
    have hhd : ((T'.line i).drop (F.start.get i + 1)).head?.map Prod.fst = r.head?.map Prod.fst := by
      rw [q3, List.drop_append, List.drop_of_length_le (by rw [List.length_take]; omega), List.length_take,
        min_eq_left (hlines i hik).st_le, Nat.add_sub_cancel_left]; rfl
    unfold compressBody
    simp only [runs_bind, runs_rd, runs_wr, hGs, hold, Nat.add_sub_cancel]
    refine ⟨by omega, by omega, by omega, by omega, by omega, by omega, by omega, ?_⟩
    rw [← hT']
    have hfree : ∀ j, k + δ + 1 ≤ j → j < 2 * n → headOf G i ≠ some j := by
      intro j' h1 h2
      rw [headOf_congr hGl hGs, hhead]; simp only [ne_eq, Option.some.injEq]; omega
    have hlinesG : ∀ i', i' ≤ k → i' ∉ a ++ [i] → T'.line i' = F.T.line i' ∧
        (G.start.set i (F.start.get i + 1)).get i' = F.start.get i' := by
      intro i' hi' hni
      rw [List.mem_append, List.mem_singleton, not_or] at hni
      rw [q2 i' (by omega) hni.2, Buf.set_get_ne _ _ hni.2]; exact g7 i' hi' hni.1
    have hdone : ∀ i', i' ∈ a ++ [i] → ∃ v r, F.T.line i' = (F.T.line i').take (F.start.get i') ++ (k + δ, v) :: r ∧
        T'.line i' = (F.T.line i').take (F.start.get i') ++ (k, v) :: r ∧
        (G.start.set i (F.start.get i + 1)).get i' = F.start.get i' + 1 := by
      intro i' hi'
      rw [List.mem_append, List.mem_singleton] at hi'
      by_cases e : i' = i
      · subst e; exact ⟨v, r, e1, q3, Buf.set_get_self _ _ _⟩
      · obtain ⟨v', r', x1, x2, x3⟩ := g9 i' (hi'.resolve_right e)
        have hk' : i' < k := ((hmem i').1 (by rw [hab]; simp [hi'.resolve_right e])).1
        exact ⟨v', r', x1, by rw [q2 i' (by omega) e]; exact x2, by rw [Buf.set_get_ne _ _ e]; exact x3⟩
    have hheads : ∀ (hd : Option Nat), r.head?.map Prod.fst = hd → ∀ (L : Buf (Option Nat)) i', i' < k →
        headOf { T := T', list := L, start := G.start.set i (F.start.get i + 1) } i' = if i' = i then hd else headOf G i' := by
      intro hd hhd' L i' hi'
      by_cases e : i' = i
      · subst e
        rw [if_pos rfl]
        unfold headOf
        simp only [Buf.set_get_self]
        rw [hhd, hhd']
      · rw [if_neg e]
        exact headOf_congr (F := G) (q2 i' (by omega) e) (Buf.set_get_ne _ _ e)
    cases r with
    | nil =>
      have hpos : G.T.start.get i + F.start.get i + 1 = G.T.start.get (i + 1) := by simp at hst'; omega
      have hr : relink T' G.list i (G.T.start.get i + F.start.get i + 1) (G.T.start.get (i + 1)) = G.list.wr i none := by
        unfold relink; rw [if_neg (not_not.2 hpos)]
      rw [hr]
      simp only [runs_wr, runs_pure]
      refine ⟨by omega, ?_, g1, g2, g3, g4, q1, g6, hlinesG, ?_, hdone, ?_⟩
      · rw [g8 i hic hia]; exact hc.2 a i b hab
      · intro i' hi' hni
        rw [List.mem_append, List.mem_singleton, not_or] at hni
        rw [Buf.set_get_ne _ _ hni.2]
        exact g8 i' hi' hni.1
      · exact (g10.drop (by omega) hfree none).congr fun i' hi' => hheads none rfl _ i' hi'
    | cons x r =>
      have hx := hrest x (by simp)
      have hpos : G.T.start.get i + F.start.get i + 1 ≠ G.T.start.get (i + 1) := by
        rw [List.length_cons] at hst'; omega
      have hj : T'.inds.get (G.T.start.get i + F.start.get i + 1) = x.1 := by
        have hl : F.start.get i + 1 < (T'.line i).length := by
          rw [line_length]; show _ < G.T.start.get (i + 1) - G.T.start.get i
          rw [List.length_cons] at hst'; omega
        rw [List.head?_drop, List.getElem?_eq_getElem hl, line_getElem] at hhd
        simp only [Option.map_some, List.head?_cons, Option.some.injEq] at hhd
        exact hhd
      have hr : Runs (relink T' G.list i (G.T.start.get i + F.start.get i + 1) (G.T.start.get (i + 1))) fun L =>
          L = (G.list.set i (G.list.get x.1)).set x.1 (some i) := by
        unfold relink
        rw [if_pos hpos]
        simp only [runs_bind, runs_rd, runs_wr, hj, Buf.set_size]
        refine ⟨?_, by omega, by omega, by omega, trivial⟩
        show _ < (G.T.inds.set _ _).size
        rw [Buf.set_size]; rw [List.length_cons] at hst'; omega
      refine hr.mono ?_
      rintro L rfl
      simp only [runs_pure, Buf.set_size]
      refine ⟨?_, g1, g2, g3, g4, q1, g6, hlinesG, ?_, hdone, ?_⟩
      · rw [g8 i hic hia]; exact hc.2 a i b hab
      · intro i' hi' hni
        rw [List.mem_append, List.mem_singleton, not_or] at hni
        have := ((hmem i').1 hi').1
        rw [Buf.set_get_ne _ _ (by omega), Buf.set_get_ne _ _ hni.2]
        exact g8 i' hi' hni.1
      · exact (g10.push (by omega) hik (show k + δ + 1 ≤ x.1 by omega) (by omega) hfree).congr
          fun i' hi' => hheads (some x.1) rfl _ i' hi'
  · rintro G ⟨g1, g2, g3, g4, g5, g6, g7, g8, g9, g10⟩
    have hkc : k ∉ c := fun hc => absurd ((hmem k).1 hc).1 (lt_irrefl k)
    obtain ⟨hkl, -⟩ := g7 k (le_refl _) hkc
    have hlen := line_length G.T k
    rw [hkl] at hlen
    have gi := g5.isz
    have gv := g5.vsz
    have hssz := g5.ssz
    have hmono := g5.mono k (by omega)
    have hnot : ∀ i, i < k → i ∉ c → ∀ e ∈ F.T.line i, e.1 ≠ k + δ := fun i hik hic =>
      (hlines i hik).no_ds (by omega) fun hh => hic ((hmem i).2 ⟨hik, hh⟩)
    -- what does not depend on the links
    have hlinesG : ∀ i, i < k → LineOK (k + 1) (k + δ + 1) (n + δ) i (G.T.line i) (G.start.get i) := by
      intro i hik
      have ho := hlines i hik
      by_cases hic : i ∈ c
      · obtain ⟨v, r, e1, e2, e3⟩ := g9 i hic
        have hr := ho.rest_gt e1
        have hb := ho.before
        have hs := ho.sorted
        rw [e1, List.pairwise_append, List.pairwise_cons] at hs
        obtain ⟨s1, ⟨s2, s3⟩, s4⟩ := hs
        have hlt : ((F.T.line i).take (F.start.get i)).length = F.start.get i := by
          rw [List.length_take, min_eq_left ho.st_le]
        have e2' : G.T.line i = ((F.T.line i).take (F.start.get i) ++ [(k, v)]) ++ r := by rw [e2]; simp
        have hlt' : ((F.T.line i).take (F.start.get i) ++ [(k, v)]).length = F.start.get i + 1 := by
          rw [List.length_append, hlt]; rfl
        refine ⟨?_, ?_, ?_, ?_⟩
        · rw [e2, List.pairwise_append, List.pairwise_cons]
          refine ⟨s1, ⟨fun y hy => ?_, s3⟩, fun x hx y hy => ?_⟩
          · have := hr y hy; show k < y.1; omega
          · have := hb x hx
            rw [List.mem_cons] at hy
            rcases hy with rfl | hy
            · exact this.2
            · have := hr y hy; omega
        · rw [e2', e3, List.length_append, hlt']; omega
        · intro x hx
          rw [e2', e3, List.take_append_of_le_length (by omega), List.take_of_length_le (by omega), List.mem_append,
            List.mem_singleton] at hx
          rcases hx with hx | rfl
          · have := hb x hx; omega
          · show i < k ∧ k < k + 1; omega
        · intro x hx
          rw [e2', e3, List.drop_append_of_le_length (by omega), List.drop_of_length_le (by omega), List.nil_append] at hx
          have := hr x hx; omega
      · obtain ⟨a1, a2⟩ := g7 i (by omega) hic
        rw [a1, a2]
        refine ⟨ho.sorted, ho.st_le, fun x hx => ?_, fun x hx => ?_⟩
        · have := ho.before x hx; omega
        · have h1 := ho.after x hx
          have h2 := hnot i hik hic x (List.mem_of_mem_drop hx)
          omega
    have hval : ∀ i, i < k → G.T.line i = (F.T.line i).map (ren (k + δ) k) := by
      intro i hik
      by_cases hic : i ∈ c
      · obtain ⟨v, r, e1, e2, -⟩ := g9 i hic
        have hr := (hlines i hik).rest_gt e1
        have hb := (hlines i hik).before
        have m3 : (F.T.line i).map (ren (k + δ) k) = (F.T.line i).take (F.start.get i) ++ (k, v) :: r := by
          conv_lhs => rw [e1]
          rw [List.map_append, List.map_cons, map_ren_of_ne, map_ren_of_ne]
          · simp [ren]
          · intro x hx; have := hr x hx; omega
          · intro x hx; have := hb x hx; omega
        rw [m3, e2]
      · rw [(g7 i (by omega) hic).1, map_ren_of_ne (hnot i hik hic)]
    have hmk : ∀ (L : Buf (Option Nat)), L.size = 2 * n →
        Links (k + δ + 1) (2 * n) (k + 1) L (fun i => if i = k then (F.T.line k).head?.map Prod.fst else headOf G i) →
        Side n m2 (k + 1) δ { T := G.T, list := L, start := G.start.set k 0 } := by
      intro L hL hlk
      refine ⟨by omega, hmn, g5, by rw [← hps]; exact g3, by rw [← hss]; exact g4, hL, ?_, ?_, ?_⟩
      · show (G.start.set k 0).size = m2
        rw [Buf.set_size]; omega
      · intro i hi
        show LineOK (k + 1) (k + 1 + δ) (n + δ) i (G.T.line i) ((G.start.set k 0).get i)
        rw [show k + 1 + δ = k + δ + 1 by omega]
        by_cases e : i = k
        · subst e
          rw [Buf.set_get_self, hkl]
          refine ⟨hnew, Nat.zero_le _, fun x hx => by simp at hx, fun x hx => ?_⟩
          rw [List.drop_zero] at hx
          have := hnew' x hx; omega
        · rw [Buf.set_get_ne _ _ e]; exact hlinesG i (by omega)
      · rw [show k + 1 + δ = k + δ + 1 by omega]
        refine hlk.congr fun i hi => ?_
        by_cases e : i = k
        · subst e
          rw [if_pos rfl]
          unfold headOf
          simp only [Buf.set_get_self]
          rw [hkl, List.drop_zero]
        · rw [if_neg e]
          exact headOf_congr (F := G) rfl (Buf.set_get_ne _ _ e)
    have hbase : ∀ hd, Links (k + δ + 1) (2 * n) k (G.list.set k none) (fun i => if i = k then hd else headOf G i) := fun hd =>
      (g10.set_free (x := k) (by omega) (fun j _ _ hkk => absurd hkk (lt_irrefl k)) none).congr fun i hi => by
        rw [if_neg (by omega)]
    unfold linkNew
    simp only [runs_bind, runs_rd, runs_wr, runs_ite, runs_pure]
    refine ⟨by omega, by omega, by omega, by omega, ?_⟩
    rcases hl : F.T.line k with _ | ⟨x, r⟩
    · rw [hl] at hlen
      simp only [List.length_nil] at hlen
      rw [if_neg (by omega)]
      refine ⟨hmk _ (by rw [Buf.set_size]; omega) ?_, hval, by rw [hkl, hl]⟩
      rw [hl]
      exact (hbase none).succ (if_pos rfl)
    · have hx := hnew' x (by rw [hl]; simp)
      have hlen' : 0 < G.T.start.get (k + 1) - G.T.start.get k := by rw [← hlen, hl]; simp
      rw [if_pos (by omega)]
      have hfirst : G.T.inds.get (G.T.start.get k) = x.1 := by
        have h1 := line_getElem G.T k 0 (by rw [line_length]; exact hlen')
        simp only [hkl, hl, List.getElem_cons_zero, Nat.add_zero] at h1
        rw [h1]
      simp only [hfirst]
      have hxl : (G.list.set k none).get x.1 = G.list.get x.1 := Buf.set_get_ne _ _ (by omega)
      have hpush := ((hbase none).succ (if_pos rfl)).push (by omega) (x := k) (j := x.1) (by omega) (by omega) (by omega)
        (fun j _ _ => by simp)
      have hgoal : ∀ L : Buf (Option Nat), L.size = 2 * n →
          (∀ i, L.get i = (((G.list.set k none).set k ((G.list.set k none).get x.1)).set x.1 (some k)).get i) →
          Side n m2 (k + 1) δ { T := G.T, list := L, start := G.start.set k 0 } := by
        intro L hL hLg
        refine hmk L hL ?_
        intro j h1 h2
        obtain ⟨c', c1, c2, c3⟩ := hpush j h1 h2
        refine ⟨c', ?_, c2, fun i => (c3 i).trans ?_⟩
        · rw [hLg]; exact c1.congr fun i _ => hLg i
        · beta_reduce
          by_cases e : i = k
          · subst e; rw [if_pos rfl, if_pos rfl, hl]; rfl
          · rw [if_neg e, if_neg e, if_neg e]
      refine ⟨by omega, by rw [Buf.set_size]; omega, ?_⟩
      by_cases hnn : (G.list.set k none).get x.1 ≠ none
      · rw [if_pos hnn]
        simp only [Buf.set_size]
        refine ⟨by omega, by omega, hgoal _ (by simp only [Buf.set_size]; omega) (fun i => rfl), hval, by rw [hkl, hl]⟩
      · rw [if_neg hnn]
        rw [not_not] at hnn
        simp only [Buf.set_size]
        refine ⟨by omega, hgoal _ (by simp only [Buf.set_size]; omega) (fun i => ?_), hval, by rw [hkl, hl]⟩
        rw [hnn]
        simp only [Buf.set_get]
        split
        · rfl
        · split <;> rfl

end Hif.Crout
