import Verif.PreLemmas

set_option linter.unusedSectionVars false
set_option linter.unusedVariables false

/-! # Proofs about the pattern of the leading block -/

namespace Hif
namespace Pre
variable {K : Type _}

/-- Stored secondary indices of line `i`. -/
def ids (A : CS K) (i : Nat) : List Nat := A.inds.slice (A.start.get i) (A.start.get (i + 1))

theorem ids_eq (A : CS K) (i : Nat) : ids A i = (A.line i).map Prod.fst := (CS.seg_fst A _ _).symm

theorem forInds_runs {σ : Type _} {A : CS K} (h : A.WF) {i : Nat} (hi : i < A.psize) {s : σ}
    {f : Nat → σ → M σ} {Q : σ → Prop} (I : List Nat → σ → Prop) (h0 : I [] s)
    (hstep : ∀ l x r s, ids A i = l ++ x :: r → I l s → Runs (f x s) (I (l ++ [x])))
    (hQ : ∀ s, I (ids A i) s → Q s) :
    Runs (forInds A i s f) Q := by
  unfold forInds
  have hs := h.start_size
  simp only [runs_bind, runs_rd]
  refine ⟨by omega, by omega, ?_⟩
  refine forUp_runs' (fun k s => I (A.inds.slice (A.start.get i) k) s) (h.mono i hi)
    (by rw [Buf.slice_empty _ _ _ (le_refl _)]; exact h0) (fun k s h1 h2 h3 => ?_) hQ
  simp only [runs_bind, runs_rd]
  refine ⟨h.line_inds hi h2, ?_⟩
  rw [Buf.slice_succ _ h1]
  refine hstep _ _ (A.inds.slice (k + 1) (A.start.get (i + 1))) s ?_ h3
  unfold ids
  rw [← Buf.slice_append A.inds h1 (le_of_lt h2), Buf.slice_cons _ h2]

/-- Images of the indices of a list, restricted to the leading block. -/
def lead (m : Nat) (inv : Nat → Nat) (l : List Nat) : List Nat := (l.map inv).filter (· < m)

theorem lead_append (m : Nat) (inv : Nat → Nat) (l r : List Nat) : lead m inv (l ++ r) = lead m inv l ++ lead m inv r := by
  simp [lead]

theorem lead_single (m : Nat) (inv : Nat → Nat) (x : Nat) : lead m inv [x] = if inv x < m then [inv x] else [] := by
  unfold lead
  by_cases h : inv x < m <;> simp [h]

theorem mem_lead {m : Nat} {inv : Nat → Nat} {l : List Nat} {r : Nat} : r ∈ lead m inv l ↔ r < m ∧ ∃ x ∈ l, inv x = r := by
  unfold lead
  rw [List.mem_filter, List.mem_map, decide_eq_true_eq]
  exact and_comm

/-- The pattern has the (sorted) lines `L`. -/
def PatIs (m : Nat) (L : Nat → List Nat) (b : Pat) : Prop :=
  b.start.size = m + 1 ∧ (∀ c, c ≤ m → b.start.get c = CS.off (fun c => (L c).length) c) ∧
  b.inds.size = CS.off (fun c => (L c).length) m ∧
  ∀ c, c < m → b.inds.slice (b.start.get c) (b.start.get (c + 1)) = (L c).insertionSort (· ≤ ·)

theorem leadPlain_runs {A : CS K} (hA : A.WF) (m : Nat) (q pinv : Buf Nat) (hq : m ≤ q.size)
    (hqb : ∀ c, c < m → q.get c < A.psize) (hp : A.ssize ≤ pinv.size) :
    Runs (leadPlain A m q pinv) fun b => PatIs m (fun c => lead m pinv.get (ids A (q.get c))) b := by
  set L := fun c => lead m pinv.get (ids A (q.get c)) with hL
  set len := fun c => (L c).length with hlen
  have hx : ∀ c, c < m → ∀ l x r, ids A (q.get c) = l ++ x :: r → x < A.ssize := by
    intro c hc l x r e
    have : x ∈ ids A (q.get c) := by rw [e]; simp
    obtain ⟨k, k1, k2, rfl⟩ := Buf.mem_slice.1 this
    exact hA.line_lt (hqb c hc) k2
  unfold leadPlain
  simp only [runs_bind, runs_wr]
  refine ⟨by simp, ?_⟩
  refine forUp_runs' (fun c (st : Buf Nat) => st.size = m + 1 ∧ ∀ j, j ≤ c → st.get j = CS.off len j) (Nat.zero_le _)
    ⟨rfl, fun j hj => by rw [show j = 0 by omega]; simp [CS.off]⟩ ?_ ?_
  · rintro c st - hc ⟨s1, s2⟩
    simp only [runs_bind, runs_rd]
    refine ⟨by omega, ?_⟩
    refine forInds_runs hA (hqb c hc) (fun l cnt => cnt = (lead m pinv.get l).length) rfl ?_ ?_
    · rintro l x r cnt e rfl
      have hxx := hx c hc l x r e
      simp only [runs_bind, runs_rd, runs_pure]
      refine ⟨by omega, ?_⟩
      rw [lead_append, lead_single, List.length_append]
      split <;> simp
    · rintro cnt rfl
      simp only [runs_wr, Buf.set_size, Buf.set_get]
      refine ⟨by omega, by omega, s1, fun j hj => ?_⟩
      by_cases e : j = c + 1
      · rw [if_pos e, e, s2 c (le_refl _)]; rfl
      · rw [if_neg e]; exact s2 j (by omega)
  rintro st ⟨s1, s2⟩
  simp only [runs_rd]
  refine ⟨by omega, ?_⟩
  rw [s2 m (le_refl _)]
  refine forUp_runs' (fun c (s : Nat × Buf Nat) => s.1 = CS.off len c ∧ s.2.size = CS.off len m ∧
    ∀ j, j < c → s.2.slice (CS.off len j) (CS.off len (j + 1)) = (L j).insertionSort (· ≤ ·)) (Nat.zero_le _)
    ⟨by simp [CS.off], rfl, fun j hj => by omega⟩ ?_ ?_
  · rintro c ⟨pos, b⟩ - hc ⟨h1, h2, h3⟩
    simp only at h1 h2 h3
    simp only [runs_bind, runs_rd]
    refine ⟨by omega, ?_⟩
    have htot : CS.off len (c + 1) ≤ CS.off len m := CS.off_mono len (by omega)
    have hstep : CS.off len (c + 1) = CS.off len c + (L c).length := rfl
    refine forInds_runs hA (hqb c hc) (fun l (s : Nat × Buf Nat) => s.1 = CS.off len c + (lead m pinv.get l).length ∧
      s.2.size = CS.off len m ∧ (∀ k, k < CS.off len c → s.2.get k = b.get k) ∧
      s.2.slice (CS.off len c) s.1 = lead m pinv.get l) ⟨by simp [lead, h1], h2, fun _ _ => rfl, by
        rw [h1, Buf.slice_empty _ _ _ (le_refl _)]; rfl⟩ ?_ ?_
    · rintro l x r ⟨pos', b'⟩ e ⟨g1, g2, g3, g4⟩
      simp only at g1 g2 g3 g4
      have hxx := hx c hc l x r e
      simp only [runs_bind, runs_rd, runs_ite, runs_pure]
      refine ⟨by omega, ?_⟩
      rw [lead_append, lead_single]
      by_cases hlt : pinv.get x < m
      · rw [if_pos hlt, if_pos hlt]
        have hroom : (L c).length = (lead m pinv.get l).length + ((lead m pinv.get r).length + 1) := by
          simp only [hL]
          rw [e, lead_append, show x :: r = [x] ++ r from rfl, lead_append, lead_single, if_pos hlt]
          simp
        unfold push
        simp only [runs_bind, runs_wr, runs_pure, Buf.set_size, Buf.set_get]
        refine ⟨by omega, by simp [g1]; omega, g2, fun k hk => ?_, ?_⟩
        · rw [if_neg (by omega)]; exact g3 k hk
        · rw [Buf.slice_set_succ _ _ (by omega), g4]
      · rw [if_neg hlt, if_neg hlt, List.append_nil]
        exact ⟨g1, g2, g3, g4⟩
    · rintro ⟨pos', b'⟩ ⟨g1, g2, g3, g4⟩
      simp only at g1 g2 g3 g4 ⊢
      refine ⟨by omega, ?_⟩
      rw [s2 c (by omega)]
      have e1 : pos' = CS.off len (c + 1) := g1
      have hmo : CS.off len c ≤ CS.off len (c + 1) := CS.off_mono len (by omega)
      refine (CS.sortRange_runs b' (CS.off len c) pos' (by omega) (by omega)).mono ?_
      rintro b'' ⟨k1, k2, k3⟩
      rw [runs_pure]
      refine ⟨e1, k1.trans g2, fun j hj => ?_⟩
      simp only
      by_cases e : j = c
      · subst e
        rw [← e1, k3, g4]
      · have : CS.off len (j + 1) ≤ CS.off len c := CS.off_mono len (by omega)
        rw [← h3 j (by omega)]
        refine Buf.slice_congr fun k hk1 hk2 => ?_
        rw [k2 k (by omega), g3 k (by omega)]
  · rintro ⟨pos, b⟩ ⟨h1, h2, h3⟩
    rw [runs_pure]
    refine ⟨s1, s2, h2, fun c hc => ?_⟩
    show b.slice (st.get c) (st.get (c + 1)) = _
    rw [s2 c (by omega), s2 (c + 1) (by omega)]
    exact h3 c hc

/-! ### Symmetrised pattern -/

/-- State after the indices `l` have been recorded, starting at position `p0` of an array with contents `b0`. -/
structure AInv (m p0 sz : Nat) (b0 : Buf Nat) (l : List Nat) (s : Apat) : Prop where
  msz : s.masks.size = m
  mask : ∀ r, r < m → (s.masks.get r = true ↔ r ∈ l)
  pos : s.pos = p0 + l.length
  bsz : s.buf.size = sz
  old : ∀ k, k < p0 → s.buf.get k = b0.get k
  new : s.buf.slice p0 s.pos = l
  lt : ∀ r ∈ l, r < m

theorem AInv.add {m p0 sz : Nat} {b0 : Buf Nat} {l : List Nat} {s : Apat} (h : AInv m p0 sz b0 l s) {r : Nat} (hr : r < m) :
    AInv m p0 sz b0 (l ++ [r]) { masks := s.masks.set r true, pos := s.pos + 1, buf := s.buf.set s.pos r } := by
  have hp := h.pos
  refine ⟨h.msz, fun r' hr' => ?_, ?_, h.bsz, fun k hk => ?_, ?_, ?_⟩
  · simp only [Buf.set_get, List.mem_append, List.mem_singleton]
    by_cases e : r' = r
    · simp [e]
    · simp only [e, or_false]; exact h.mask r' hr'
  · simp [hp]; omega
  · simp only [Buf.set_get]
    rw [if_neg (by omega)]; exact h.old k hk
  · show (s.buf.set s.pos r).slice p0 (s.pos + 1) = _
    rw [Buf.slice_set_succ _ _ (by omega), h.new]
  · intro r' hr'
    rcases List.mem_append.1 hr' with h1 | h1
    · exact h.lt r' h1
    · rw [List.mem_singleton.1 h1]; exact hr

/-- Union of the column pattern and the row pattern in the order of discovery. -/
def addNew : List Nat → List Nat → List Nat
  | l, [] => l
  | l, x :: r => if x ∈ l then addNew l r else addNew (l ++ [x]) r

theorem mem_addNew {r : Nat} : ∀ (b a : List Nat), r ∈ addNew a b ↔ r ∈ a ∨ r ∈ b := by
  intro b
  induction b with
  | nil => intro a; simp [addNew]
  | cons x b ih =>
    intro a
    rw [addNew]
    split
    · rename_i h
      rw [ih, List.mem_cons]
      constructor
      · rintro (h1 | h1)
        · exact Or.inl h1
        · exact Or.inr (Or.inr h1)
      · rintro (h1 | rfl | h1)
        · exact Or.inl h1
        · exact Or.inl h
        · exact Or.inr h1
    · rw [ih, List.mem_append, List.mem_singleton, List.mem_cons, or_assoc]

theorem nodup_addNew : ∀ (b a : List Nat), a.Nodup → (addNew a b).Nodup := by
  intro b
  induction b with
  | nil => intro a h; exact h
  | cons x b ih =>
    intro a h
    rw [addNew]
    split
    · exact ih a h
    · rename_i hx
      refine ih _ ?_
      rw [List.nodup_append]
      refine ⟨h, by simp, ?_⟩
      intro y hy z hz e
      rw [List.mem_singleton] at hz
      subst hz; subst e; exact hx hy

theorem addNew_append : ∀ (b c a : List Nat), addNew a (b ++ c) = addNew (addNew a b) c := by
  intro b
  induction b with
  | nil => intro c a; rfl
  | cons x b ih =>
    intro c a
    rw [List.cons_append, addNew, addNew]
    split
    · exact ih c a
    · exact ih c _

theorem addNew_length_le : ∀ (b a : List Nat), a.length ≤ (addNew a b).length := by
  intro b
  induction b with
  | nil => intro a; exact le_refl _
  | cons x b ih =>
    intro a
    rw [addNew]
    split
    · exact ih a
    · have := ih (a ++ [x]); simp at this; omega

section symm
variable {Accs Acrs : CS K} {m : Nat} {p q pinv qinv : Buf Nat}

/-- Arguments are in range; all column images of the rows of the leading block lie inside the block. -/
structure SymIn (Accs Acrs : CS K) (m : Nat) (p q pinv qinv : Buf Nat) : Prop where
  cwf : Accs.WF
  rwf : Acrs.WF
  qsz : m ≤ q.size
  psz : m ≤ p.size
  qb : ∀ c, c < m → q.get c < Accs.psize
  pb : ∀ c, c < m → p.get c < Acrs.psize
  pi : Accs.ssize ≤ pinv.size
  qi : Acrs.ssize ≤ qinv.size
  cnd : ∀ c, c < m → (lead m pinv.get (ids Accs (q.get c))).Nodup
  inside : ∀ c, c < m → ∀ x ∈ ids Acrs (p.get c), qinv.get x < m

/-- Pattern of line `i` of `A + A^T` in the order in which the code finds it. -/
def uni (Accs Acrs : CS K) (m : Nat) (p q pinv qinv : Buf Nat) (i : Nat) : List Nat :=
  addNew (lead m pinv.get (ids Accs (q.get i))) (lead m qinv.get (ids Acrs (p.get i)))

theorem uni_lt {i r : Nat} (h : r ∈ uni Accs Acrs m p q pinv qinv i) : r < m := by
  rcases (mem_addNew _ _).1 h with h | h
  · exact (mem_lead.1 h).1
  · exact (mem_lead.1 h).1

theorem uni_nodup (h : SymIn Accs Acrs m p q pinv qinv) {i : Nat} (hi : i < m) : (uni Accs Acrs m p q pinv qinv i).Nodup :=
  nodup_addNew _ _ (h.cnd i hi)

theorem uni_length (h : SymIn Accs Acrs m p q pinv qinv) {i : Nat} (hi : i < m) : (uni Accs Acrs m p q pinv qinv i).length ≤ m := by
  have h1 : uni Accs Acrs m p q pinv qinv i ⊆ List.range m := fun r hr => List.mem_range.2 (uni_lt hr)
  have := (uni_nodup h hi).subperm h1
  have := this.length_le
  rwa [List.length_range] at this

theorem apatLine_runs (h : SymIn Accs Acrs m p q pinv qinv) {i : Nat} (hi : i < m) (p0 sz : Nat) (b0 : Buf Nat) (s : Apat)
    (hs : AInv m p0 sz b0 [] s) (hroom : p0 + (uni Accs Acrs m p q pinv qinv i).length ≤ sz) :
    Runs (apatLine Accs Acrs m p q pinv qinv i s) (AInv m p0 sz b0 (uni Accs Acrs m p q pinv qinv i)) := by
  have hq := h.qsz
  have hp := h.psz
  have hpi := h.pi
  have hqi := h.qi
  unfold apatLine
  simp only [runs_bind, runs_rd]
  refine ⟨by omega, ?_⟩
  refine forInds_runs h.cwf (h.qb i hi) (fun l s => AInv m p0 sz b0 (lead m pinv.get l) s) hs ?_ ?_
  · intro l x r s e hI
    have hx : x < Accs.ssize := by
      have : x ∈ ids Accs (q.get i) := by rw [e]; simp
      obtain ⟨k, k1, k2, rfl⟩ := Buf.mem_slice.1 this
      exact h.cwf.line_lt (h.qb i hi) k2
    unfold apatCol
    simp only [runs_bind, runs_rd, runs_ite, runs_pure, runs_wr]
    refine ⟨by omega, ?_⟩
    rw [lead_append, lead_single]
    by_cases hlt : pinv.get x < m
    · rw [if_pos hlt, if_pos hlt]
      have h1 : (lead m pinv.get l).length + 1 ≤ (lead m pinv.get (ids Accs (q.get i))).length := by
        rw [e, lead_append, show x :: r = [x] ++ r from rfl, lead_append, lead_single, if_pos hlt]
        simp
      have h2 := addNew_length_le (lead m qinv.get (ids Acrs (p.get i))) (lead m pinv.get (ids Accs (q.get i)))
      have h3 := hI.pos
      have h4 := hI.bsz
      have h5 := hI.msz
      unfold uni at hroom
      exact ⟨by omega, by omega, hI.add hlt⟩
    · rw [if_neg hlt, if_neg hlt, List.append_nil]
      exact hI
  intro s hs
  refine ⟨by omega, ?_⟩
  refine forInds_runs h.rwf (h.pb i hi)
    (fun l s => AInv m p0 sz b0 (addNew (lead m pinv.get (ids Accs (q.get i))) (lead m qinv.get l)) s) hs ?_ (fun _ h => h)
  intro l x r s e hI
  have hx : x < Acrs.ssize := by
    have : x ∈ ids Acrs (p.get i) := by rw [e]; simp
    obtain ⟨k, k1, k2, rfl⟩ := Buf.mem_slice.1 this
    exact h.rwf.line_lt (h.pb i hi) k2
  have hxm : qinv.get x < m := h.inside i hi x (by rw [e]; simp)
  unfold apatRow
  simp only [runs_bind, runs_rd, runs_ite, runs_pure, runs_wr]
  have h5 := hI.msz
  refine ⟨by omega, by omega, ?_⟩
  rw [lead_append, lead_single, if_pos hxm, addNew_append]
  have hmk := hI.mask _ hxm
  by_cases hin : qinv.get x ∈ addNew (lead m pinv.get (ids Accs (q.get i))) (lead m qinv.get l)
  · rw [if_neg (by rw [hmk.2 hin]; simp), addNew, if_pos hin]
    exact hI
  · rw [if_pos ⟨by rw [← Bool.not_eq_true]; exact fun h => hin (hmk.1 h), hxm⟩, addNew, if_neg hin]
    have h3 := hI.pos
    have h4 := hI.bsz
    have h1 : (addNew (lead m pinv.get (ids Accs (q.get i))) (lead m qinv.get l)).length + 1 ≤
        (uni Accs Acrs m p q pinv qinv i).length := by
      unfold uni
      rw [e, lead_append, show x :: r = [x] ++ r from rfl, lead_append, lead_single, if_pos hxm, addNew_append, List.cons_append,
        List.nil_append, addNew, if_neg hin]
      have := addNew_length_le (lead m qinv.get r) (addNew (lead m pinv.get (ids Accs (q.get i))) (lead m qinv.get l) ++ [qinv.get x])
      simp at this
      omega
    exact ⟨by omega, by omega, hI.add hxm⟩

theorem apatReset_runs (lo hi : Nat) (h : lo ≤ hi) (buf : Buf Nat) (masks : Buf Bool) (hb : hi ≤ buf.size) (hms : masks.size = m)
    (hlt : ∀ r ∈ buf.slice lo hi, r < m) (hmask : ∀ r, r < m → masks.get r = true → r ∈ buf.slice lo hi) :
    Runs (apatReset lo hi buf masks) fun mk => mk.size = m ∧ ∀ r, r < m → mk.get r = false := by
  unfold apatReset
  refine forUp_runs' (fun k (mk : Buf Bool) => mk.size = m ∧ ∀ r, r < m → mk.get r = true → r ∈ buf.slice k hi) h
    ⟨hms, hmask⟩ ?_ ?_
  · rintro k mk h1 h2 ⟨m1, m2⟩
    have hk : buf.get k < m := hlt _ (Buf.mem_slice.2 ⟨k, h1, h2, rfl⟩)
    simp only [runs_bind, runs_rd, runs_wr, Buf.set_size, Buf.set_get]
    refine ⟨by omega, by omega, m1, fun r hr hr' => ?_⟩
    by_cases e : r = buf.get k
    · rw [if_pos e] at hr'; simp at hr'
    · rw [if_neg e] at hr'
      have := m2 r hr hr'
      rw [Buf.slice_cons _ h2, List.mem_cons] at this
      exact this.resolve_left e
  · rintro mk ⟨m1, m2⟩
    refine ⟨m1, fun r hr => ?_⟩
    rw [← Bool.not_eq_true]
    intro h'
    have := m2 r hr h'
    rw [Buf.slice_empty _ _ _ (le_refl _)] at this
    simp at this

theorem leadSymm_runs (h : SymIn Accs Acrs m p q pinv qinv) :
    Runs (leadSymm Accs Acrs m p q pinv qinv) fun b => PatIs m (uni Accs Acrs m p q pinv qinv) b := by
  set L := uni Accs Acrs m p q pinv qinv with hL
  set len := fun c => (L c).length with hlen
  have hstart : ∀ (mk : Buf Bool) (pos : Nat) (b : Buf Nat), mk.size = m → (∀ r, r < m → mk.get r = false) →
      AInv m pos b.size b [] { masks := mk, pos := pos, buf := b } := by
    intro mk pos b h1 h2
    exact ⟨h1, fun r hr => by simp [h2 r hr], rfl, rfl, fun _ _ => rfl, Buf.slice_empty _ _ _ (le_refl _), by simp⟩
  unfold leadSymm
  simp only [runs_bind, runs_wr]
  refine ⟨by simp, ?_⟩
  refine forUp_runs' (fun c (r : Buf Nat × Buf Bool × Buf Nat) => r.1.size = m + 1 ∧ (∀ j, j ≤ c → r.1.get j = CS.off len j) ∧
    r.2.1.size = m ∧ (∀ x, x < m → r.2.1.get x = false) ∧ r.2.2.size = m) (Nat.zero_le _)
    ⟨rfl, fun j hj => by rw [show j = 0 by omega]; simp [CS.off], rfl, fun _ _ => rfl, rfl⟩ ?_ ?_
  · rintro c ⟨st, mk, b⟩ - hc ⟨s1, s2, s3, s4, s5⟩
    simp only at s1 s2 s3 s4 s5
    simp only [runs_bind]
    have hul := uni_length h hc
    refine (apatLine_runs h hc 0 b.size b _ (hstart mk 0 b s3 s4) (by omega)).mono ?_
    intro s hs
    have hpos := hs.pos
    have hbs := hs.bsz
    simp only [runs_rd, runs_wr]
    refine ⟨by omega, by omega, ?_⟩
    refine (apatReset_runs (m := m) 0 s.pos (Nat.zero_le _) s.buf s.masks (by omega) hs.msz ?_ ?_).mono ?_
    · intro r hr; rw [hs.new] at hr; exact hs.lt r hr
    · intro r hr hr'; rw [hs.new]; exact (hs.mask r hr).1 hr'
    rintro mk' ⟨k1, k2⟩
    rw [runs_pure]
    refine ⟨s1, fun j hj => ?_, k1, k2, by simp only; omega⟩
    simp only [Buf.set_get]
    by_cases e : j = c + 1
    · rw [if_pos e, e, s2 c (le_refl _), hpos, Nat.zero_add]; rfl
    · rw [if_neg e]; exact s2 j (by omega)
  rintro ⟨st, mk, b⟩ ⟨s1, s2, s3, s4, s5⟩
  simp only at s1 s2 s3 s4 s5 ⊢
  simp only [runs_rd]
  refine ⟨by omega, ?_⟩
  rw [s2 m (le_refl _)]
  refine forUp_runs' (fun c (s : Apat) => s.masks.size = m ∧ (∀ x, x < m → s.masks.get x = false) ∧ s.pos = CS.off len c ∧
    s.buf.size = CS.off len m ∧ ∀ j, j < c → s.buf.slice (CS.off len j) (CS.off len (j + 1)) = (L j).insertionSort (· ≤ ·))
    (Nat.zero_le _) ⟨s3, s4, by simp [CS.off], rfl, fun j hj => by omega⟩ ?_ ?_
  · rintro c ⟨mk, pos, b⟩ - hc ⟨h1, h2, h3, h4, h5⟩
    simp only at h1 h2 h3 h4 h5
    simp only [runs_bind]
    have htot : CS.off len (c + 1) ≤ CS.off len m := CS.off_mono len (by omega)
    have hstep : CS.off len (c + 1) = CS.off len c + (L c).length := rfl
    refine (apatLine_runs h hc pos b.size b _ (hstart mk pos b h1 h2) (by simp only [← hL]; omega)).mono ?_
    intro s hs
    have hpos := hs.pos
    rw [← hL] at hpos
    have hbs := hs.bsz
    simp only [runs_rd]
    refine ⟨by omega, ?_⟩
    rw [s2 c (by omega), s2 (c + 1) (by omega)]
    refine (CS.sortRange_runs s.buf (CS.off len c) s.pos (by omega) (by omega)).mono ?_
    rintro b'' ⟨k1, k2, k3⟩
    have e1 : s.pos = CS.off len (c + 1) := by omega
    have hnew := hs.new
    rw [h3, e1] at hnew
    rw [e1, hnew] at k3
    refine ⟨by omega, ?_⟩
    have hmem : ∀ r, r ∈ b''.slice (CS.off len c) (CS.off len (c + 1)) ↔ r ∈ L c := by
      intro r
      rw [k3]
      exact List.mem_insertionSort (r := (· ≤ ·))
    refine (apatReset_runs (m := m) (CS.off len c) (CS.off len (c + 1)) (by omega) b'' s.masks (by omega) hs.msz ?_ ?_).mono ?_
    · intro r hr; exact hs.lt r ((hmem r).1 hr)
    · intro r hr hr'; exact (hmem r).2 ((hs.mask r hr).1 hr')
    rintro mk' ⟨g1, g2⟩
    rw [runs_pure]
    refine ⟨g1, g2, e1, by simp only; omega, fun j hj => ?_⟩
    simp only
    by_cases e : j = c
    · subst e; exact k3
    · have : CS.off len (j + 1) ≤ CS.off len c := CS.off_mono len (by omega)
      rw [← h5 j (by omega)]
      refine Buf.slice_congr fun k hk1 hk2 => ?_
      rw [k2 k (by omega), hs.old k (by omega)]
  · rintro ⟨mk, pos, b⟩ ⟨h1, h2, h3, h4, h5⟩
    rw [runs_pure]
    refine ⟨s1, s2, h4, fun c hc => ?_⟩
    show b.slice (st.get c) (st.get (c + 1)) = _
    rw [s2 c (by omega), s2 (c + 1) (by omega)]
    exact h5 c hc

end symm

end Pre
end Hif
