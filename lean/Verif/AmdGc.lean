import Verif.AmdBase

set_option linter.unusedVariables false

/-! # The lists of neighbours in the workspace and their compression (amd.hpp 481–516) -/

namespace Hif
namespace Amd

/-- The list starts at the position `p`. -/
def Seg (iw : Int → Int) : Int → List Int → Prop
  | _, [] => True
  | p, x :: l => iw p = x ∧ Seg iw (p + 1) l

theorem Seg.congr {f g : Int → Int} : ∀ {l : List Int} {p : Int}, Seg f p l → (∀ q : Int, p ≤ q → q < p + l.length → g q = f q) → Seg g p l
  | [], _, _, _ => trivial
  | x :: l, p, h, e => ⟨(e p (le_refl _) (by simp)).trans h.1, Seg.congr h.2 fun q h1 h2 => e q (by omega) (by simp; omega)⟩

/-- The same list at another position. -/
theorem Seg.move {f g : Int → Int} : ∀ {l : List Int} {p p' : Int}, Seg f p l → (∀ k : Int, 0 ≤ k → k < l.length → g (p' + k) = f (p + k)) → Seg g p' l
  | [], _, _, _, _ => trivial
  | x :: l, p, p', h, e => by
    refine ⟨?_, Seg.move h.2 fun k h1 h2 => ?_⟩
    · have := e 0 (le_refl _) (by simp)
      rw [add_zero, add_zero] at this
      rw [this]; exact h.1
    · have := e (1 + k) (by omega) (by simp; omega)
      rw [← add_assoc, ← add_assoc] at this
      exact this

theorem seg_append {f : Int → Int} {b : List Int} : ∀ {a : List Int} {p : Int}, Seg f p (a ++ b) ↔ Seg f p a ∧ Seg f (p + a.length) b
  | [], p => by simp [Seg]
  | x :: a, p => by
    rw [List.cons_append]
    show (_ ∧ Seg f (p + 1) (a ++ b)) ↔ ((_ ∧ _) ∧ _)
    rw [seg_append, and_assoc, List.length_cons]
    push_cast
    rw [show p + 1 + (a.length : Int) = p + (a.length + 1) by ring]

theorem Seg.mem {f : Int → Int} : ∀ {l : List Int} {p x : Int}, Seg f p l → x ∈ l → ∃ k : Int, (0 ≤ k ∧ k < l.length) ∧ f (p + k) = x
  | [], _, _, _, h => absurd h List.not_mem_nil
  | y :: l, p, x, hs, h => by
    rcases List.mem_cons.1 h with rfl | h
    · exact ⟨0, ⟨le_refl _, by simp⟩, by rw [add_zero]; exact hs.1⟩
    · obtain ⟨k, h1, h2⟩ := Seg.mem hs.2 h
      exact ⟨1 + k, ⟨by omega, by simp; omega⟩, by rw [← add_assoc]; exact h2⟩

theorem Seg.get_mem {f : Int → Int} : ∀ {l : List Int} {p k : Int}, Seg f p l → 0 ≤ k → k < l.length → f (p + k) ∈ l
  | [], _, _, _, _, h => by simp at h; omega
  | y :: l, p, k, hs, h0, h => by
    by_cases hk : k = 0
    · rw [hk, add_zero, hs.1]; simp
    · have := Seg.get_mem hs.2 (k := k - 1) (by omega) (by simp at h; omega)
      rw [show p + 1 + (k - 1) = p + k by ring] at this
      exact List.mem_cons_of_mem _ this

/-- The lists of the nodes in `live` are in the first `bd` places of the workspace and do not meet. -/
structure Lay (n : Nat) (live : Finset Int) (lf : Int → List Int) (pe len iw : Int → Int) (bd : Int) : Prop where
  sub : ∀ x ∈ live, 0 ≤ x ∧ x < n
  pos : ∀ x ∈ live, 0 ≤ pe x
  len : ∀ x ∈ live, len x = (lf x).length
  ne : ∀ x ∈ live, lf x ≠ []
  bd : ∀ x ∈ live, pe x + (lf x).length ≤ bd
  disj : ∀ x ∈ live, ∀ y ∈ live, x ≠ y → pe x + (lf x).length ≤ pe y ∨ pe y + (lf y).length ≤ pe x
  val : ∀ x ∈ live, Seg iw (pe x) (lf x)

theorem Lay.lpos {n : Nat} {live : Finset Int} {lf : Int → List Int} {pe len iw : Int → Int} {bd : Int} (h : Lay n live lf pe len iw bd) {x : Int} (hx : x ∈ live) :
    1 ≤ (lf x).length := List.length_pos_iff.2 (h.ne x hx)

section
variable {n : Nat} {live : Finset Int} {lf : Int → List Int}

/-- After the first pass of the compression. -/
structure Marked (n : Nat) (live : Finset Int) (c0 c : St) (k : Int) : Prop where
  eq : c = { c0 with pe := c.pe, iw := c.iw }
  psz : c.pe.size = c0.pe.size
  isz : c.iw.size = c0.iw.size
  pe1 : ∀ x ∈ live, x < k → c.pe.get x = c0.iw.get (c0.pe.get x)
  pe2 : ∀ x, (x ∈ live → k ≤ x) → c.pe.get x = c0.pe.get x
  iw1 : ∀ x ∈ live, x < k → c.iw.get (c0.pe.get x) = flip x
  iw2 : ∀ q, (∀ x ∈ live, x < k → c0.pe.get x ≠ q) → c.iw.get q = c0.iw.get q

theorem Lay.start_ne {pe len iw : Int → Int} {bd : Int} (hL : Lay n live lf pe len iw bd) {x y : Int} (hx : x ∈ live) (hy : y ∈ live) (h : x ≠ y) : pe x ≠ pe y := by
  have h1 := hL.disj x hx y hy h
  have h2 := hL.lpos hx
  have h3 := hL.lpos hy
  omega

theorem gcMark_runs {c : St} {bd : Int} (hL : Lay n live lf c.pe.get c.len.get c.iw.get bd) (hp : c.pe.size = n) (hb : bd ≤ c.iw.size)
    (hneg : ∀ x : Int, 0 ≤ x → x < n → x ∉ live → c.pe.get x ≤ -1) :
    Runs (forZ 0 n c fun j c => gcMark j c) fun c' => Marked n live c c' n := by
  refine forZ_runs (fun k c' => Marked n live c c' k) (by omega)
    ⟨rfl, rfl, rfl, fun x hx h => absurd h (by have := hL.sub x hx; omega), fun x _ => rfl, fun x hx h => absurd h (by have := hL.sub x hx; omega), fun q _ => rfl⟩ ?_ fun c' h => h
  intro k c' h1 h2 I
  unfold gcMark
  simp only [runs_bind, runs_rdZ]
  refine ⟨⟨h1, by rw [I.psz]; omega⟩, ?_⟩
  have hpk : c'.pe.get k = c.pe.get k := I.pe2 k fun _ => le_refl _
  rw [hpk]
  by_cases hk : k ∈ live
  · have hpos := hL.pos k hk
    have hbd := hL.bd k hk
    have hl := hL.lpos hk
    rw [if_pos hpos]
    simp only [runs_bind, runs_rdZ, runs_wrZ, runs_pure]
    refine ⟨⟨hpos, by rw [I.isz]; omega⟩, ⟨h1, by rw [I.psz]; omega⟩, ⟨hpos, by rw [I.isz]; omega⟩, ?_⟩
    have hiw : c'.iw.get (c.pe.get k) = c.iw.get (c.pe.get k) := I.iw2 _ fun x hx hxk => hL.start_ne hx hk (by omega)
    refine ⟨by rw [I.eq], I.psz, I.isz, fun x hx hxk => ?_, fun x hx => ?_, fun x hx hxk => ?_, fun q hq => ?_⟩
    · simp only [Arr.set_get]
      by_cases hxe : x = k
      · rw [if_pos hxe, hxe, hiw]
      · rw [if_neg hxe]; exact I.pe1 x hx (by omega)
    · simp only [Arr.set_get]
      by_cases hxe : x = k
      · have := hx (by rw [hxe]; exact hk); omega
      · rw [if_neg hxe]; exact I.pe2 x fun h => by have := hx h; omega
    · simp only [Arr.set_get]
      by_cases hxe : x = k
      · rw [if_pos (by rw [hxe]), hxe]
      · rw [if_neg (hL.start_ne hx hk hxe)]; exact I.iw1 x hx (by omega)
    · simp only [Arr.set_get]
      rw [if_neg fun h => hq k hk (by omega) h.symm]
      exact I.iw2 q fun x hx hxk => hq x hx (by omega)
  · have hn := hneg k h1 h2 hk
    rw [if_neg (by omega), runs_pure]
    refine ⟨I.eq, I.psz, I.isz, fun x hx hxk => I.pe1 x hx ?_, fun x hx => I.pe2 x fun h => by have := hx h; omega, fun x hx hxk => I.iw1 x hx ?_,
      fun q hq => I.iw2 q fun x hx hxk => hq x hx (by omega)⟩
    · have : x ≠ k := fun h => hk (h ▸ hx)
      omega
    · have : x ≠ k := fun h => hk (h ▸ hx)
      omega

/-- During the second pass: the lists that start before `psrc` have moved. -/
structure Swept (n : Nat) (live : Finset Int) (lf : Int → List Int) (c0 cM c : St) (bd psrc pdst : Int) : Prop where
  eq : c = { cM with pe := c.pe, iw := c.iw }
  psz : c.pe.size = c0.pe.size
  isz : c.iw.size = c0.iw.size
  le : 0 ≤ pdst ∧ pdst ≤ psrc
  srcle : psrc ≤ bd
  lay : Lay n (live.filter fun x => c0.pe.get x < psrc) lf c.pe.get c0.len.get c.iw.get pdst
  sum : pdst = ∑ x ∈ live.filter fun x => c0.pe.get x < psrc, ((lf x).length : Int)
  pe : ∀ x, (x ∈ live → psrc ≤ c0.pe.get x) → c.pe.get x = cM.pe.get x
  iw : ∀ q, psrc ≤ q → c.iw.get q = cM.iw.get q
  nn : ∀ q : Int, 0 ≤ q → q < pdst → 0 ≤ c.iw.get q
  past : ∀ x ∈ live, c0.pe.get x < psrc → c0.pe.get x + (lf x).length ≤ psrc

theorem gcSweep_runs {c cM : St} {bd : Int} (hL : Lay n live lf c.pe.get c.len.get c.iw.get bd) (hp : c.pe.size = n) (hl : c.len.size = n) (hb : bd ≤ c.iw.size)
    (hnn : ∀ q : Int, 0 ≤ q → q < bd → 0 ≤ c.iw.get q) (hM : Marked n live c cM n) :
    ∀ (f : Nat) (psrc pdst : Int) (s : St), bd - psrc ≤ f → Swept n live lf c cM s bd psrc pdst →
      Runs (gcSweep (bd - 1) f psrc pdst s) fun r => Swept n live lf c cM r.2 bd bd r.1 := by
  intro f
  induction f with
  | zero =>
    intro psrc pdst s hf I
    have := I.srcle
    push_cast at hf
    unfold gcSweep
    rw [if_pos (by omega), runs_pure]
    obtain rfl : psrc = bd := by omega
    exact I
  | succ f ih =>
    intro psrc pdst s hf I
    have h1 := I.srcle
    unfold gcSweep
    by_cases hend : bd - 1 < psrc
    · rw [if_pos hend, runs_pure]
      obtain rfl : psrc = bd := by omega
      exact I
    · rw [if_neg hend]
      push_cast at hf
      have hle := I.le
      simp only [runs_bind, runs_rdZ]
      refine ⟨⟨by omega, by rw [I.isz]; omega⟩, ?_⟩
      rw [I.iw psrc (le_refl _)]
      by_cases hst : ∃ j ∈ live, c.pe.get j = psrc
      · obtain ⟨j, hj, hpj⟩ := hst
        have hjr := hL.sub j hj
        have hx : cM.iw.get psrc = flip j := by rw [← hpj]; exact hM.iw1 j hj hjr.2
        have hff : flip (flip j) = j := by unfold flip; ring
        rw [hx, hff, if_pos hjr.1]
        have hln := hL.len j hj
        have hlp := hL.lpos hj
        have hbd := hL.bd j hj
        have hslen : s.len = c.len := by rw [I.eq, hM.eq]
        simp only [runs_bind, runs_rdZ, runs_wrZ]
        refine ⟨⟨hjr.1, by rw [I.psz]; omega⟩, ⟨by omega, by rw [I.isz]; omega⟩, ⟨hjr.1, by rw [I.psz]; omega⟩, ⟨hjr.1, by rw [hslen]; omega⟩, ?_⟩
        have hpe0 : s.pe.get j = c.iw.get psrc := by rw [I.pe j fun _ => by omega, hM.pe1 j hj hjr.2, hpj]
        rw [show s.len.get j = ((lf j).length : Int) by rw [hslen]; exact hln, hpe0]
        set L : Int := ((lf j).length : Int) with hLd
        refine forZ_runs (fun k (iw : Arr) => iw.size = c.iw.size ∧ iw.get pdst = c.iw.get psrc ∧ (∀ t : Int, 0 ≤ t → t < k → iw.get (pdst + 1 + t) = cM.iw.get (psrc + 1 + t)) ∧
          (∀ q, q < pdst → iw.get q = s.iw.get q) ∧ ∀ q, pdst + 1 + k ≤ q → psrc + 1 ≤ q → iw.get q = cM.iw.get q) (by omega) ?_ ?_ ?_
        · refine ⟨I.isz, by simp, fun t a b => by omega, fun q hq => Arr.set_ne _ _ (by omega), fun q hq hq2 => ?_⟩
          rw [Arr.set_ne _ _ (by omega)]; exact I.iw q (by omega)
        · rintro k iw a b ⟨g1, g2, g3, g4, g5⟩
          simp only [runs_bind, runs_rdZ, runs_wrZ]
          refine ⟨⟨by omega, by omega⟩, ⟨by omega, by omega⟩, g1, ?_, fun t u v => ?_, fun q hq => ?_, fun q hq hq2 => ?_⟩
          · rw [Arr.set_ne _ _ (by omega)]; exact g2
          · rw [Arr.set_get]
            by_cases ht : t = k
            · rw [if_pos (by rw [ht]), ht]; exact g5 _ (by omega) (by omega)
            · rw [if_neg (by omega)]; exact g3 t u (by omega)
          · rw [Arr.set_ne _ _ (by omega)]; exact g4 q hq
          · rw [Arr.set_ne _ _ (by omega)]; exact g5 q (by omega) hq2
        · rintro iw ⟨g1, g2, g3, g4, g5⟩
          rw [show max 0 (L - 1) = L - 1 by omega, show psrc + 1 + (L - 1) = psrc + L by ring, show pdst + 1 + (L - 1) = pdst + L by ring]
          -- the values of the moved list
          have hval : ∀ t : Int, 0 ≤ t → t < L → iw.get (pdst + t) = c.iw.get (psrc + t) := fun t a b => by
            by_cases ht : t = 0
            · rw [ht, add_zero, add_zero]; exact g2
            · have := g3 (t - 1) (by omega) (by omega)
              rw [show pdst + 1 + (t - 1) = pdst + t by ring, show psrc + 1 + (t - 1) = psrc + t by ring] at this
              rw [this]
              refine hM.iw2 _ fun x hx hxn hxe => ?_
              have hxj : x ≠ j := by rintro rfl; omega
              have := hL.disj x hx j hj hxj
              have := hL.lpos hx
              omega
          have hset : live.filter (fun x => c.pe.get x < psrc + L) = insert j (live.filter fun x => c.pe.get x < psrc) := by
            ext x
            simp only [Finset.mem_filter, Finset.mem_insert]
            constructor
            · rintro ⟨a, b⟩
              by_cases hxj : x = j
              · exact Or.inl hxj
              · refine Or.inr ⟨a, ?_⟩
                have := hL.disj x a j hj hxj
                have := hL.lpos a
                omega
            · rintro (rfl | ⟨a, b⟩)
              · exact ⟨hj, by omega⟩
              · exact ⟨a, by omega⟩
          have hjn : j ∉ live.filter fun x => c.pe.get x < psrc := by simp [hpj]
          have hne : ∀ x ∈ live.filter (fun x => c.pe.get x < psrc), x ≠ j := fun x hx e => hjn (e ▸ hx)
          refine ih (psrc + L) (pdst + L) _ (by omega) ⟨congrArg (fun t : St => { t with pe := s.pe.set j pdst, iw := iw }) I.eq, I.psz, g1, by omega, by omega, ?_, ?_, fun x hx => ?_, fun q hq => ?_, fun q a b => ?_, fun x hx hlt => ?_⟩
          · rw [hset]
            have K := I.lay
            refine ⟨fun x hx => ?_, fun x hx => ?_, fun x hx => ?_, fun x hx => ?_, fun x hx => ?_, fun x hx y hy hxy => ?_, fun x hx => ?_⟩
            · rcases Finset.mem_insert.1 hx with rfl | h
              · exact hjr
              · exact K.sub x h
            · rcases Finset.mem_insert.1 hx with rfl | h
              · simp; omega
              · simp only; rw [Arr.set_ne _ _ (hne x h)]; exact K.pos x h
            · rcases Finset.mem_insert.1 hx with rfl | h
              · exact hln
              · exact K.len x h
            · rcases Finset.mem_insert.1 hx with rfl | h
              · exact hL.ne _ hj
              · exact K.ne x h
            · rcases Finset.mem_insert.1 hx with rfl | h
              · simp; omega
              · simp only; rw [Arr.set_ne _ _ (hne x h)]; have := K.bd x h; omega
            · rcases Finset.mem_insert.1 hx with hx | hx
              · rcases Finset.mem_insert.1 hy with hy | hy
                · exact absurd (hx.trans hy.symm) hxy
                · right
                  rw [hx]
                  simp only [Arr.set_same]
                  rw [Arr.set_ne _ _ (hne y hy)]
                  exact K.bd y hy
              · rcases Finset.mem_insert.1 hy with hy | hy
                · left
                  rw [hy]
                  simp only [Arr.set_same]
                  rw [Arr.set_ne _ _ (hne x hx)]
                  exact K.bd x hx
                · simp only
                  rw [Arr.set_ne _ _ (hne x hx), Arr.set_ne _ _ (hne y hy)]
                  exact K.disj x hx y hy hxy
            · rcases Finset.mem_insert.1 hx with rfl | h
              · simp only [Arr.set_same]
                refine (hL.val _ hj).move fun k a b => ?_
                rw [hpj]; exact hval k a b
              · simp only
                rw [Arr.set_ne _ _ (hne x h)]
                refine (K.val x h).congr fun q a b => g4 q ?_
                have := K.bd x h
                omega
          · rw [hset, Finset.sum_insert hjn, ← I.sum]; ring
          · simp only
            have hxj : x ≠ j := by rintro rfl; have := hx hj; omega
            rw [Arr.set_ne _ _ hxj]
            exact I.pe x fun h => by have := hx h; omega
          · exact g5 q (by omega) (by omega)
          · by_cases hq : q < pdst
            · simp only; rw [g4 q hq]; exact I.nn q a hq
            · have := hval (q - pdst) (by omega) (by omega)
              rw [show pdst + (q - pdst) = q by ring] at this
              simp only
              rw [this]
              exact hnn _ (by omega) (by omega)
          · by_cases hxj : x = j
            · rw [hxj, hpj]
            · have := hL.disj x hx j hj hxj
              have := hL.lpos hx
              omega
      · have hst' : ∀ j ∈ live, c.pe.get j ≠ psrc := fun j hj h => hst ⟨j, hj, h⟩
        have hx : cM.iw.get psrc = c.iw.get psrc := hM.iw2 _ fun x hx _ => hst' x hx
        have hnx := hnn psrc (by omega) (by omega)
        rw [hx, if_neg (by unfold flip; omega)]
        have hset : live.filter (fun x => c.pe.get x < psrc + 1) = live.filter fun x => c.pe.get x < psrc := by
          ext x
          simp only [Finset.mem_filter]
          constructor
          · rintro ⟨a, b⟩; have := hst' x a; exact ⟨a, by omega⟩
          · rintro ⟨a, b⟩; exact ⟨a, by omega⟩
        refine ih (psrc + 1) pdst s (by omega) ⟨I.eq, I.psz, I.isz, by omega, by omega, by rw [hset]; exact I.lay, by rw [hset]; exact I.sum,
          fun x hx => I.pe x fun h => by have := hx h; omega, fun q hq => I.iw q (by omega), I.nn, fun x hx hlt => ?_⟩
        have := hst' x hx
        have := I.past x hx (by omega)
        omega

/-- **The compression keeps every list** (488–514). -/
theorem gcMove_runs {c : St} {bd : Int} {M : List Int} (hL : Lay n live lf c.pe.get c.len.get c.iw.get bd) (hp : c.pe.size = n) (hl : c.len.size = n) (hb0 : 0 ≤ bd)
    (hpf : c.pfree = bd + M.length) (hb : c.pfree ≤ c.iw.size) (hneg : ∀ x : Int, 0 ≤ x → x < n → x ∉ live → c.pe.get x ≤ -1)
    (hnn : ∀ q : Int, 0 ≤ q → q < c.pfree → 0 ≤ c.iw.get q) (hM : Seg c.iw.get bd M) :
    Runs (gcMove n bd c) fun r => r.2 = { c with pe := r.2.pe, iw := r.2.iw, pfree := r.1 + M.length } ∧ r.2.pe.size = n ∧ r.2.iw.size = c.iw.size ∧
      (0 ≤ r.1 ∧ r.1 ≤ bd) ∧ r.1 = ∑ x ∈ live, ((lf x).length : Int) ∧ Lay n live lf r.2.pe.get c.len.get r.2.iw.get r.1 ∧ Seg r.2.iw.get r.1 M ∧
      (∀ x, x ∉ live → r.2.pe.get x = c.pe.get x) ∧ ∀ q : Int, 0 ≤ q → q < r.1 + M.length → 0 ≤ r.2.iw.get q := by
  unfold gcMove
  rw [runs_bind]
  have hbs : bd ≤ c.iw.size := by omega
  have hnn' : ∀ q : Int, 0 ≤ q → q < bd → 0 ≤ c.iw.get q := fun q a b => hnn q a (by omega)
  refine Runs.mono (gcMark_runs hL hp hbs hneg) fun cM hM1 => ?_
  rw [runs_bind]
  have hnot : ∀ x ∈ live, ¬ c.pe.get x < 0 := fun x hx => by have := hL.pos x hx; omega
  have hf0 : live.filter (fun x => c.pe.get x < 0) = ∅ := by rw [Finset.filter_eq_empty_iff]; exact fun x hx => hnot x hx
  refine Runs.mono (gcSweep_runs hL hp hl hbs hnn' hM1 bd.toNat 0 0 cM (by omega) ⟨rfl, hM1.psz, hM1.isz, by omega, hb0, ?_, ?_, fun x _ => rfl, fun q _ => rfl, fun q a b => by omega,
    fun x hx h => absurd h (hnot x hx)⟩) fun r hr => ?_
  · rw [hf0]
    exact ⟨fun x hx => absurd hx (by simp), fun x hx => absurd hx (by simp), fun x hx => absurd hx (by simp), fun x hx => absurd hx (by simp), fun x hx => absurd hx (by simp),
      fun x hx => absurd hx (by simp), fun x hx => absurd hx (by simp)⟩
  · rw [hf0]; simp
  have hfl : live.filter (fun x => c.pe.get x < bd) = live := by
    rw [Finset.filter_eq_self]
    intro x hx
    have := hL.bd x hx
    have := hL.lpos hx
    omega
  have hlay := hr.lay
  have hsum := hr.sum
  rw [hfl] at hlay hsum
  have hle := hr.le
  have hcpf : cM.pfree = bd + M.length := by rw [hM1.eq]; exact hpf
  have hcM : ∀ q : Int, bd ≤ q → cM.iw.get q = c.iw.get q := fun q hq => hM1.iw2 q fun x hx _ h => by
    have := hL.bd x hx
    have := hL.lpos hx
    omega
  have hisz := hr.isz
  rw [runs_bind, hcpf]
  refine forZ_runs (fun q (iw : Arr) => iw.size = c.iw.size ∧ (∀ t : Int, t < r.1 → iw.get t = r.2.iw.get t) ∧ (∀ t : Int, bd ≤ t → t < q → iw.get (r.1 + (t - bd)) = c.iw.get t) ∧
    ∀ t : Int, q ≤ t → iw.get t = c.iw.get t) (by omega) ⟨hisz, fun t _ => rfl, fun t a b => by omega, fun t ht => by rw [hr.iw t ht]; exact hcM t ht⟩ ?_ ?_
  · rintro q iw a b ⟨g1, g2, g3, g4⟩
    simp only [runs_bind, runs_rdZ, runs_wrZ]
    refine ⟨⟨by omega, by omega⟩, ⟨by omega, by omega⟩, g1, fun t ht => ?_, fun t u v => ?_, fun t ht => ?_⟩
    · rw [Arr.set_ne _ _ (by omega)]; exact g2 t ht
    · rw [Arr.set_get]
      by_cases htq : t = q
      · rw [if_pos (by rw [htq]), htq]; exact g4 q (le_refl _)
      · rw [if_neg (by omega)]; exact g3 t u (by omega)
    · rw [Arr.set_ne _ _ (by omega)]; exact g4 t (by omega)
  · rintro iw ⟨g1, g2, g3, g4⟩
    rw [runs_pure]
    have hval : ∀ k : Int, 0 ≤ k → k < M.length → iw.get (r.1 + k) = c.iw.get (bd + k) := fun k a b => by
      have := g3 (bd + k) (by omega) (by omega)
      rw [show r.1 + (bd + k - bd) = r.1 + k by ring] at this
      exact this
    refine ⟨?_, by rw [← hp]; exact hr.psz, g1, hle, hsum, ⟨hlay.sub, hlay.pos, hlay.len, hlay.ne, hlay.bd, hlay.disj, fun x hx => (hlay.val x hx).congr fun q a b => g2 q ?_⟩,
      hM.move hval, fun x hx => ?_, fun q a b => ?_⟩
    · simp only
      rw [show bd + (M.length : Int) - bd = M.length by ring]
      rw [hM1.eq] at hr
      have := hr.eq
      exact congrArg (fun t : St => { t with iw := iw, pfree := r.1 + M.length }) this
    · have := hlay.bd x hx
      omega
    · simp only
      rw [hr.pe x fun h => absurd h hx]
      exact hM1.pe2 x fun h => absurd h hx
    · simp only
      by_cases hq : q < r.1
      · rw [g2 q hq]; exact hr.nn q a hq
      · have := hval (q - r.1) (by omega) (by omega)
        rw [show r.1 + (q - r.1) = q by ring] at this
        rw [this]
        exact hnn _ (by omega) (by omega)

end

end Amd
end Hif
