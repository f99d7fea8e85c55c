import Verif.AmdScan

set_option linter.unusedVariables false

/-! # Compression of the lists of the nodes of the new element -/

namespace Hif
namespace Amd

/-- Elements that stay in the lists. -/
def keepE (aggressive : Bool) (w : Int → Int) (wflg e : Int) : Bool := decide (w e ≠ 0 ∧ (aggressive = false ∨ 0 < w e - wflg))

theorem keepE_iff {a : Bool} {w : Int → Int} {f e : Int} : keepE a w f e = true ↔ w e ≠ 0 ∧ (a = false ∨ 0 < w e - f) := by unfold keepE; rw [decide_eq_true_iff]

/-- The first entry goes to the end. -/
def rot : List Int → List Int
  | [] => []
  | x :: l => l ++ [x]

@[simp] theorem rot_length (l : List Int) : (rot l).length = l.length := by cases l <;> simp [rot]

theorem mem_rot {l : List Int} {x : Int} : x ∈ rot l ↔ x ∈ l := by
  cases l with
  | nil => simp [rot]
  | cons y l => simp [rot, or_comm]

theorem rot_perm (l : List Int) : (rot l).Perm l := by
  cases l with
  | nil => exact List.Perm.refl _
  | cons y l => exact List.perm_append_singleton y l

section
variable {n : Nat} {iwlen : Int} {aggressive : Bool} {me p1 : Int} {c : St} {Z : Finset Int} {w2 : Int → Int}

/-- During the compression of the elements. -/
structure CE (n : Nat) (iwlen : Int) (aggressive : Bool) (me p1 : Int) (c : St) (Z : Finset Int) (w2 : Int → Int) (done : List Int) (Z' : Finset Int) (r : Cmp) : Prop where
  eq : r.c = { c with iw := r.c.iw, pe := r.c.pe, w := r.c.w }
  is : r.c.iw.size = iwlen
  ps : r.c.pe.size = n
  ws : r.c.w.size = n
  pn : r.pn = p1 + (done.filter (keepE aggressive w2 c.wflg)).length
  seg : Seg r.c.iw.get p1 (done.filter (keepE aggressive w2 c.wflg))
  iw : ∀ q, q < p1 ∨ p1 + done.length ≤ q → r.c.iw.get q = c.iw.get q
  w : ∀ x : Int, 0 ≤ x → x < n → r.c.w.get x = if x ∈ Z' then 0 else w2 x
  z : ∀ x, x ∈ Z' ↔ x ∈ Z ∨ (x ∈ done ∧ w2 x ≠ 0 ∧ keepE aggressive w2 c.wflg x = false)
  pe : ∀ x, r.c.pe.get x = if x ∈ Z' ∧ x ∉ Z then flip me else c.pe.get x
  dg : 0 ≤ r.deg
  nn : ∀ q, 0 ≤ c.iw.get q → 0 ≤ r.c.iw.get q

theorem cmpElem_runs {done todo : List Int} {e : Int} {Z' : Finset Int} {r : Cmp} (hZ : ∀ z ∈ Z, keepE aggressive w2 c.wflg z = false)
    (he : 0 ≤ e ∧ e < (n : Int)) (hge : w2 e ≠ 0 → c.wflg ≤ w2 e) (hseg : Seg c.iw.get p1 (done ++ e :: todo)) (hp0 : 0 ≤ p1) (hpl : p1 + (done ++ e :: todo).length ≤ iwlen)
    (I : CE n iwlen aggressive me p1 c Z w2 done Z' r) :
    Runs (cmpElem aggressive me (p1 + done.length) r) fun r' => ∃ Z'', CE n iwlen aggressive me p1 c Z w2 (done ++ [e]) Z'' r' := by
  have hpl' := hpl
  rw [List.length_append, List.length_cons] at hpl'
  push_cast at hpl'
  have hfl : (done.filter (keepE aggressive w2 c.wflg)).length ≤ done.length := List.length_filter_le _ _
  have hwf : r.c.wflg = c.wflg := by rw [I.eq]
  have hse : r.c.iw.get (p1 + done.length) = e := by
    rw [I.iw _ (Or.inr (le_refl _))]; exact (seg_append.1 hseg).2.1
  unfold cmpElem
  rw [runs_bind, runs_rdZ]
  refine ⟨⟨by omega, by rw [I.is]; omega⟩, ?_⟩
  rw [hse, runs_bind, runs_rdZ]
  refine ⟨⟨he.1, by rw [I.ws]; exact he.2⟩, ?_⟩
  rw [I.w e he.1 he.2, hwf]
  have hfa : ∀ (h : keepE aggressive w2 c.wflg e = true), (done ++ [e]).filter (keepE aggressive w2 c.wflg) = done.filter (keepE aggressive w2 c.wflg) ++ [e] := fun h => by
    rw [List.filter_append, List.filter_singleton, h]; rfl
  have hfb : ∀ (h : keepE aggressive w2 c.wflg e = false), (done ++ [e]).filter (keepE aggressive w2 c.wflg) = done.filter (keepE aggressive w2 c.wflg) := fun h => by
    rw [List.filter_append, List.filter_singleton, h]; simp
  have hnk : e ∈ Z' → keepE aggressive w2 c.wflg e = false := fun u => by
    rcases (I.z e).1 u with v | v
    · exact hZ e v
    · exact v.2.2
  have hiw' : ∀ q, q < p1 ∨ p1 + (done ++ [e]).length ≤ q → q < p1 ∨ p1 + (done.length : Int) ≤ q := fun q hq => by
    rw [List.length_append, List.length_singleton] at hq; push_cast at hq; omega
  have hskip : keepE aggressive w2 c.wflg e = false → (w2 e ≠ 0 → e ∈ Z') → CE n iwlen aggressive me p1 c Z w2 (done ++ [e]) Z' r := fun hk hz =>
    ⟨I.eq, I.is, I.ps, I.ws, by rw [hfb hk]; exact I.pn, by rw [hfb hk]; exact I.seg, fun q hq => I.iw q (hiw' q hq), I.w, fun x => by
      rw [I.z x, List.mem_append, List.mem_singleton]
      constructor
      · rintro (u | u)
        · exact Or.inl u
        · exact Or.inr ⟨Or.inl u.1, u.2⟩
      · rintro (u | ⟨u1 | u1, u2⟩)
        · exact Or.inl u
        · exact Or.inr ⟨u1, u2⟩
        · rw [u1] at u2 ⊢; exact (I.z e).1 (hz u2.1), I.pe, I.dg, I.nn⟩
  by_cases hz : e ∈ Z'
  · rw [if_pos hz, if_neg (fun u => u rfl), runs_pure]
    exact ⟨Z', hskip (hnk hz) fun _ => hz⟩
  · rw [if_neg hz]
    by_cases hw0 : w2 e = 0
    · rw [if_neg (fun u => u hw0), runs_pure]
      refine ⟨Z', hskip ?_ fun u => absurd hw0 u⟩
      rw [← Bool.not_eq_true, keepE_iff]
      exact fun u => u.1 hw0
    · rw [if_pos hw0]
      by_cases hk : aggressive = false ∨ 0 < w2 e - c.wflg
      · rw [if_pos hk]
        have hke : keepE aggressive w2 c.wflg e = true := keepE_iff.2 ⟨hw0, hk⟩
        simp only [runs_bind, runs_wrZ, runs_pure]
        have hpn := I.pn
        refine ⟨⟨by omega, by rw [I.is]; omega⟩, Z', ?_, I.is, I.ps, I.ws, ?_, ?_, fun q hq => ?_, I.w, fun x => ?_, I.pe, ?_, fun q hq => ?_⟩
        · exact congrArg (fun t : St => { t with iw := r.c.iw.set r.pn e }) I.eq
        · rw [hfa hke, List.length_append, List.length_singleton]; push_cast; show r.pn + 1 = _; omega
        · rw [hfa hke, seg_append]
          refine ⟨I.seg.congr fun q h0 h1 => Arr.set_ne _ _ (by omega), ?_, trivial⟩
          show (r.c.iw.set r.pn e).get _ = e
          rw [← hpn, Arr.set_same]
        · show (r.c.iw.set r.pn e).get q = _
          rw [Arr.set_ne _ _ (by have := hiw' q hq; rw [List.length_append, List.length_singleton] at hq; push_cast at hq; omega)]
          exact I.iw q (hiw' q hq)
        · rw [I.z x, List.mem_append, List.mem_singleton]
          constructor
          · rintro (u | u)
            · exact Or.inl u
            · exact Or.inr ⟨Or.inl u.1, u.2⟩
          · rintro (u | ⟨u1 | u1, u2⟩)
            · exact Or.inl u
            · exact Or.inr ⟨u1, u2⟩
            · rw [u1, hke] at u2; exact absurd u2.2 (by simp)
        · have := I.dg
          have := hge hw0
          show 0 ≤ r.deg + (w2 e - c.wflg)
          omega
        · show 0 ≤ (r.c.iw.set r.pn e).get q
          rw [Arr.set_get]
          split
          · exact he.1
          · exact I.nn q hq
      · rw [if_neg hk]
        have hke : keepE aggressive w2 c.wflg e = false := by
          rw [← Bool.not_eq_true, keepE_iff]; exact fun u => hk u.2
        simp only [runs_bind, runs_wrZ, runs_pure]
        have heZ : e ∉ Z := fun u => hz ((I.z e).2 (Or.inl u))
        refine ⟨⟨he.1, by rw [I.ps]; exact he.2⟩, ⟨he.1, by rw [I.ws]; exact he.2⟩, insert e Z', ?_, I.is, I.ps, I.ws, by rw [hfb hke]; exact I.pn, by rw [hfb hke]; exact I.seg,
          fun q hq => I.iw q (hiw' q hq), fun x h0 h1 => ?_, fun x => ?_, fun x => ?_, I.dg, I.nn⟩
        · exact congrArg (fun t : St => { t with pe := r.c.pe.set e (flip me), w := r.c.w.set e 0 }) I.eq
        · show (r.c.w.set e 0).get x = _
          rw [Arr.set_get]
          by_cases hx : x = e
          · rw [if_pos hx, if_pos (by rw [hx]; simp)]
          · rw [if_neg hx, I.w x h0 h1]
            have : x ∈ insert e Z' ↔ x ∈ Z' := by simp [hx]
            simp only [this]
        · rw [Finset.mem_insert, I.z x, List.mem_append, List.mem_singleton]
          constructor
          · rintro (u | u | u)
            · rw [u]; exact Or.inr ⟨Or.inr rfl, hw0, hke⟩
            · exact Or.inl u
            · exact Or.inr ⟨Or.inl u.1, u.2⟩
          · rintro (u | ⟨u1 | u1, u2⟩)
            · exact Or.inr (Or.inl u)
            · exact Or.inr (Or.inr ⟨u1, u2⟩)
            · exact Or.inl u1
        · show (r.c.pe.set e (flip me)).get x = _
          rw [Arr.set_get]
          by_cases hx : x = e
          · rw [if_pos hx, if_pos ⟨by rw [hx]; simp, by rw [hx]; exact heZ⟩]
          · rw [if_neg hx, I.pe x]
            have : x ∈ insert e Z' ↔ x ∈ Z' := by simp [hx]
            simp only [this]

theorem cmpElems_runs {L : List Int} (hps : c.pe.size = n) (hws : c.w.size = n)
    (his : c.iw.size = iwlen) (hw : ∀ x : Int, 0 ≤ x → x < n → c.w.get x = if x ∈ Z then 0 else w2 x) (hZ : ∀ z ∈ Z, keepE aggressive w2 c.wflg z = false)
    (hL : ∀ e ∈ L, (0 ≤ e ∧ e < (n : Int)) ∧ (w2 e ≠ 0 → c.wflg ≤ w2 e)) (hseg : Seg c.iw.get p1 L) (hp0 : 0 ≤ p1) (hpl : p1 + L.length ≤ iwlen) :
    Runs (forZ p1 (p1 + L.length) (⟨p1, 0, 0, c⟩ : Cmp) fun p r => cmpElem aggressive me p r) fun r => ∃ Z', CE n iwlen aggressive me p1 c Z w2 L Z' r := by
  refine forZ_runs (fun k r => ∃ done todo Z', L = done ++ todo ∧ k = p1 + done.length ∧ CE n iwlen aggressive me p1 c Z w2 done Z' r) (by omega)
    ⟨[], L, Z, rfl, by simp, rfl, his, hps, hws, by simp, trivial, fun q _ => rfl, hw, fun x => by simp, fun x => by
      show c.pe.get x = _
      rw [if_neg (fun u => u.2 u.1)], le_refl _, fun q h => h⟩ ?_ ?_
  · rintro k r h1 h2 ⟨done, todo, Z', e1, e2, I⟩
    cases todo with
    | nil => rw [e1] at h2; simp at h2; omega
    | cons e todo =>
      rw [e2]
      have he := hL e (by rw [e1]; simp)
      refine Runs.mono (cmpElem_runs (todo := todo) hZ he.1 he.2 (by rw [← e1]; exact hseg) hp0 (by rw [← e1]; exact hpl) I) fun r' ⟨Z'', I'⟩ =>
        ⟨done ++ [e], todo, Z'', by rw [e1]; simp, by simp; ring, I'⟩
  · rintro r ⟨done, todo, Z', e1, e2, I⟩
    have ht : todo = [] := by
      rw [← List.length_eq_zero_iff]
      rw [e1, List.length_append] at e2
      push_cast at e2
      omega
    rw [ht, List.append_nil] at e1
    rw [e1]; exact ⟨Z', I⟩

/-- The nodes that stay. -/
def keepV (nv : Int → Int) (j : Int) : Bool := decide (0 < nv j)

/-- During the compression of the nodes. -/
structure CV (iwlen : Int) (p0 p2 : Int) (r0 : Cmp) (done : List Int) (r : Cmp) : Prop where
  eq : r.c = { r0.c with iw := r.c.iw }
  is : r.c.iw.size = iwlen
  pn : r.pn = p0 + (done.filter (keepV r0.c.nv.get)).length
  seg : Seg r.c.iw.get p0 (done.filter (keepV r0.c.nv.get))
  iw : ∀ q, q < p0 ∨ p2 + done.length ≤ q → r.c.iw.get q = r0.c.iw.get q
  dg : r0.deg ≤ r.deg
  nn : ∀ q, 0 ≤ r0.c.iw.get q → 0 ≤ r.c.iw.get q

theorem cmpVars_runs {L : List Int} {r0 : Cmp} {p2 : Int} (hns : r0.c.nv.size = n) (his : r0.c.iw.size = iwlen) (hL : ∀ e ∈ L, 0 ≤ e ∧ e < (n : Int)) (hseg : Seg r0.c.iw.get p2 L)
    (hp0 : 0 ≤ r0.pn) (hp : r0.pn ≤ p2) (hpl : p2 + L.length ≤ iwlen) :
    Runs (forZ p2 (p2 + L.length) r0 fun p r => cmpVar p r) fun r => CV iwlen r0.pn p2 r0 L r := by
  refine forZ_runs (fun k r => ∃ done todo, L = done ++ todo ∧ k = p2 + done.length ∧ CV iwlen r0.pn p2 r0 done r) (by omega)
    ⟨[], L, rfl, by simp, rfl, his, by simp, trivial, fun q _ => rfl, le_refl _, fun q h => h⟩ ?_ ?_
  · rintro k r h1 h2 ⟨done, todo, e1, e2, I⟩
    cases todo with
    | nil => rw [e1] at h2; simp at h2; omega
    | cons j todo =>
      have hj := hL j (by rw [e1]; simp)
      rw [e1] at hseg hpl
      rw [List.length_append, List.length_cons] at hpl
      push_cast at hpl
      have hse : r.c.iw.get k = j := by
        rw [I.iw _ (Or.inr (by omega)), e2]; exact (seg_append.1 hseg).2.1
      have hnv : r.c.nv = r0.c.nv := by rw [I.eq]
      have hfl : (done.filter (keepV r0.c.nv.get)).length ≤ done.length := List.length_filter_le _ _
      have hpn := I.pn
      have hiw' : ∀ q, q < r0.pn ∨ p2 + (done ++ [j]).length ≤ q → q < r0.pn ∨ p2 + (done.length : Int) < q := fun q hq => by
        rw [List.length_append, List.length_singleton] at hq; push_cast at hq; omega
      unfold cmpVar
      rw [runs_bind, runs_rdZ]
      refine ⟨⟨by omega, by rw [I.is]; omega⟩, ?_⟩
      rw [hse, runs_bind, runs_rdZ]
      refine ⟨⟨hj.1, by rw [hnv, hns]; exact hj.2⟩, ?_⟩
      rw [hnv]
      by_cases hk : 0 < r0.c.nv.get j
      · have hf : (done ++ [j]).filter (keepV r0.c.nv.get) = done.filter (keepV r0.c.nv.get) ++ [j] := by
          have : keepV r0.c.nv.get j = true := by unfold keepV; exact decide_eq_true hk
          rw [List.filter_append, List.filter_singleton, this]; rfl
        rw [if_pos hk]
        simp only [runs_bind, runs_wrZ, runs_pure]
        refine ⟨⟨by omega, by rw [I.is]; omega⟩, done ++ [j], todo, by rw [e1]; simp, by simp; omega, ?_, I.is, ?_, ?_, fun q hq => ?_, ?_, fun q hq => ?_⟩
        · exact congrArg (fun t : St => { t with iw := r.c.iw.set r.pn j }) I.eq
        · rw [hf, List.length_append, List.length_singleton]; push_cast; show r.pn + 1 = _; omega
        · rw [hf, seg_append]
          refine ⟨I.seg.congr fun q h0 h1 => Arr.set_ne _ _ (by omega), ?_, trivial⟩
          show (r.c.iw.set r.pn j).get _ = j
          rw [← hpn, Arr.set_same]
        · show (r.c.iw.set r.pn j).get q = _
          have := hiw' q hq
          rw [Arr.set_ne _ _ (by omega)]
          exact I.iw q (by omega)
        · have := I.dg
          show r0.deg ≤ r.deg + r0.c.nv.get j
          omega
        · show 0 ≤ (r.c.iw.set r.pn j).get q
          rw [Arr.set_get]
          split
          · exact hj.1
          · exact I.nn q hq
      · have hf : (done ++ [j]).filter (keepV r0.c.nv.get) = done.filter (keepV r0.c.nv.get) := by
          have : keepV r0.c.nv.get j = false := by unfold keepV; exact decide_eq_false hk
          rw [List.filter_append, List.filter_singleton, this]; simp
        rw [if_neg hk, runs_pure]
        exact ⟨done ++ [j], todo, by rw [e1]; simp, by simp; omega, I.eq, I.is, by rw [hf]; exact I.pn, by rw [hf]; exact I.seg, fun q hq => I.iw q (by have := hiw' q hq; omega), I.dg, I.nn⟩
  · rintro r ⟨done, todo, e1, e2, I⟩
    have ht : todo = [] := by
      rw [← List.length_eq_zero_iff]
      rw [e1, List.length_append] at e2
      push_cast at e2
      omega
    rw [ht, List.append_nil] at e1
    rw [e1]; exact I

/-- The new element becomes the first entry. -/
theorem rot_runs {iw : Arr} {p1 : Int} {Ek Ak : List Int} (hne : ¬ (Ek = [] ∧ Ak = [])) (hseg : Seg iw.get p1 (Ek ++ Ak)) (hp0 : 0 ≤ p1) (hpl : p1 + Ek.length + Ak.length < iw.size)
    (hme : 0 ≤ me) {Q : Arr → Prop} (hQ : ∀ iw' : Arr, iw'.size = iw.size → Seg iw'.get p1 (me :: rot Ek ++ rot Ak) →
      (∀ q, q < p1 ∨ p1 + Ek.length + Ak.length < q → iw'.get q = iw.get q) → (∀ q, (∀ x ∈ Ek ++ Ak, 0 ≤ x) → 0 ≤ iw.get q → 0 ≤ iw'.get q) → Q iw') :
    Runs (do
      let x3 ← iw.rd (p1 + Ek.length)
      let iw ← iw.wr (p1 + Ek.length + Ak.length) x3
      let x1 ← iw.rd p1
      let iw ← iw.wr (p1 + Ek.length) x1
      iw.wr p1 me) Q := by
  simp only [runs_bind, runs_rdZ, runs_wrZ, Arr.set_size]
  refine ⟨⟨by omega, by omega⟩, ⟨by omega, by omega⟩, ⟨by omega, by omega⟩, ⟨by omega, by omega⟩, ⟨by omega, by omega⟩, ?_⟩
  have hgen : ∀ q, (((iw.set (p1 + Ek.length + Ak.length) (iw.get (p1 + Ek.length))).set (p1 + Ek.length) ((iw.set (p1 + Ek.length + Ak.length) (iw.get (p1 + Ek.length))).get p1)).set p1 me).get q =
      if q = p1 then me else if q = p1 + Ek.length then (if p1 = p1 + Ek.length + Ak.length then iw.get (p1 + Ek.length) else iw.get p1) else
        if q = p1 + Ek.length + Ak.length then iw.get (p1 + Ek.length) else iw.get q := fun q => by simp only [Arr.set_get]
  have hsz : (((iw.set (p1 + Ek.length + Ak.length) (iw.get (p1 + Ek.length))).set (p1 + Ek.length) ((iw.set (p1 + Ek.length + Ak.length) (iw.get (p1 + Ek.length))).get p1)).set p1 me).size = iw.size := rfl
  revert hgen hsz
  generalize (((iw.set (p1 + Ek.length + Ak.length) (iw.get (p1 + Ek.length))).set (p1 + Ek.length) ((iw.set (p1 + Ek.length + Ak.length) (iw.get (p1 + Ek.length))).get p1)).set p1 me) = iw'
  intro hgen hsz
  refine hQ iw' hsz ?_ (fun q hq => ?_) fun q hx hq => ?_
  · rw [seg_append] at hseg
    cases Ek with
    | nil =>
      cases Ak with
      | nil => exact absurd ⟨rfl, rfl⟩ hne
      | cons a Ak =>
        simp only [List.length_nil, Nat.cast_zero, add_zero, List.length_cons, Nat.cast_add, Nat.cast_one] at hgen hseg
        refine ⟨by rw [hgen, if_pos rfl], ?_⟩
        show Seg _ (p1 + 1) (Ak ++ [a])
        rw [seg_append]
        refine ⟨hseg.2.2.congr fun q h0 h1 => ?_, ?_, trivial⟩
        · rw [hgen, if_neg (by omega), if_neg (by omega), if_neg (by omega)]
        · rw [hgen, if_neg (by omega), if_neg (by omega), if_pos (by ring)]; exact hseg.2.1
    | cons e Ek =>
      cases Ak with
      | nil =>
        simp only [List.length_nil, Nat.cast_zero, add_zero, List.length_cons, Nat.cast_add, Nat.cast_one] at hgen hseg
        refine ⟨by rw [hgen, if_pos rfl], ?_⟩
        show Seg _ (p1 + 1) ((Ek ++ [e]) ++ [])
        rw [List.append_nil, seg_append]
        refine ⟨hseg.1.2.congr fun q h0 h1 => ?_, ?_, trivial⟩
        · rw [hgen, if_neg (by omega), if_neg (by omega), if_neg (by omega)]
        · rw [hgen, if_neg (by omega), if_pos (by ring), if_neg (by omega)]; exact hseg.1.1
      | cons a Ak =>
        simp only [List.length_cons, Nat.cast_add, Nat.cast_one] at hgen hseg
        refine ⟨by rw [hgen, if_pos rfl], ?_⟩
        show Seg _ (p1 + 1) ((Ek ++ [e]) ++ (Ak ++ [a]))
        rw [seg_append, seg_append, seg_append]
        refine ⟨⟨hseg.1.2.congr fun q h0 h1 => ?_, ?_, trivial⟩, ?_, ?_, trivial⟩
        · rw [hgen, if_neg (by omega), if_neg (by omega), if_neg (by omega)]
        · rw [hgen, if_neg (by omega), if_pos (by ring), if_neg (by omega)]; exact hseg.1.1
        · rw [List.length_append, List.length_singleton]
          push_cast
          have := hseg.2.2
          rw [show p1 + 1 + ((Ek.length : Int) + 1) = p1 + (Ek.length + 1) + 1 by ring]
          refine this.congr fun q h0 h1 => ?_
          rw [hgen, if_neg (by omega), if_neg (by omega), if_neg (by omega)]
        · rw [List.length_append, List.length_singleton]
          push_cast
          rw [hgen, if_neg (by omega), if_neg (by omega), if_pos (by ring)]; exact hseg.2.1
  · rw [hgen, if_neg (by omega), if_neg (by omega), if_neg (by omega)]
  · have hmem : ∀ k : Int, 0 ≤ k → k < (Ek ++ Ak).length → 0 ≤ iw.get (p1 + k) := fun k h0 h1 => hx _ (hseg.get_mem h0 h1)
    have hlen : 0 < (Ek ++ Ak).length := List.length_pos_iff.2 fun u => hne (List.append_eq_nil_iff.1 u)
    have h1 : 0 ≤ iw.get p1 := by have := hmem 0 (le_refl _) (by omega); rwa [add_zero] at this
    rw [hgen]
    split
    · exact hme
    · split
      · split
        · rename_i u v w
          have : Ek.length = 0 ∧ Ak.length = 0 := by omega
          rw [List.length_append] at hlen; omega
        · exact h1
      · split
        · rename_i u v w
          by_cases hA : Ak = []
          · rw [hA] at w; simp only [List.length_nil, Nat.cast_zero, add_zero] at w; exact absurd w v
          · refine hmem _ (by omega) ?_
            have : 0 < Ak.length := List.length_pos_iff.2 hA
            rw [List.length_append]; push_cast; omega
        · exact hq

end

end Amd
end Hif
