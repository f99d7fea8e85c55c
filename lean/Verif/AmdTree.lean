import Verif.AmdBase

set_option linter.unusedVariables false

/-! # The postordering of the assembly tree (amd.hpp 257–347) -/

namespace Hif
namespace Amd

/-- A forest on the nodes with `0 < nv`; the number `rk` grows towards the roots. -/
structure Forest (n : Nat) (par nv : Int → Int) (rk : Int → Nat) : Prop where
  up : ∀ x : Int, 0 ≤ x → x < n → 0 < nv x → par x ≠ -1 → (0 ≤ par x ∧ par x < n) ∧ 0 < nv (par x) ∧ rk x < rk (par x)

/-- Lists of children: `child` is the first, `sib` the next. -/
structure Kids (n : Nat) (P : Int → Int → Prop) (ch : Int → List Int) (child sib : Arr) : Prop where
  csz : child.size = n
  ssz : sib.size = n
  hd : ∀ i : Int, 0 ≤ i → i < n → child.get i = hd (ch i) (-1)
  ln : ∀ i : Int, 0 ≤ i → i < n → Chain sib.get (ch i) (-1)
  nd : ∀ i : Int, 0 ≤ i → i < n → (ch i).Nodup
  mem : ∀ i : Int, 0 ≤ i → i < n → ∀ x, x ∈ ch i ↔ P x i

theorem buildLists_runs {n : Nat} {parent nv child sib : Arr} {rk : Int → Nat} (hF : Forest n parent.get nv.get rk) (hp : parent.size = n)
    (hv : nv.size = n) (hc : child.size = n) (hs : sib.size = n) :
    Runs (buildLists n parent nv child sib) fun r => ∃ ch, Kids n (fun x i => (0 ≤ x ∧ x < n) ∧ 0 < nv.get x ∧ parent.get x = i) ch r.1 r.2 := by
  unfold buildLists
  rw [runs_bind]
  refine forZ_runs (fun k (r : Arr × Arr) => r.1.size = n ∧ r.2.size = n ∧ ∀ i : Int, 0 ≤ i → i < k → r.1.get i = -1) (by omega)
    ⟨hc, hs, fun i h1 h2 => absurd h2 (by omega)⟩ ?_ ?_
  · rintro k ⟨c, s⟩ h1 h2 ⟨g1, g2, g3⟩
    simp only at g1 g2 g3
    simp only [runs_bind, runs_wrZ, runs_pure, Arr.set_size]
    refine ⟨⟨h1, by omega⟩, ⟨h1, by omega⟩, g1, g2, fun i hi hik => ?_⟩
    rw [Arr.set_get]
    split
    · rfl
    · exact g3 i hi (by omega)
  · rintro ⟨c, s⟩ ⟨g1, g2, g3⟩
    refine forDown_runs' (fun j (r : Arr × Arr) => ∃ ch, Kids n (fun x i => ((j : Int) ≤ x ∧ x < n) ∧ 0 < nv.get x ∧ parent.get x = i) ch r.1 r.2)
      ⟨fun _ => [], g1, g2, fun i h1 h2 => g3 i h1 h2, fun _ _ _ => trivial, fun _ _ _ => List.nodup_nil, fun i h1 h2 x => by
        simp⟩ ?_ ?_
    · rintro j ⟨c, s⟩ hj ⟨ch, K⟩
      simp only [runs_bind, runs_rdZ]
      refine ⟨⟨by omega, by omega⟩, ?_⟩
      by_cases hvj : 0 < nv.get j
      · rw [if_pos hvj, runs_bind, runs_rdZ]
        refine ⟨⟨by omega, by omega⟩, ?_⟩
        by_cases hpj : parent.get j ≠ -1
        · obtain ⟨⟨q0, qn⟩, qv, qr⟩ := hF.up j (by omega) (by omega) hvj hpj
          rw [if_pos hpj]
          simp only [runs_bind, runs_rdZ, runs_wrZ, runs_pure]
          refine ⟨⟨q0, by rw [K.csz]; exact qn⟩, ⟨by omega, by rw [K.ssz]; omega⟩, ⟨q0, by rw [K.csz]; exact qn⟩, ?_⟩
          have hnot : ∀ i : Int, 0 ≤ i → i < n → (j : Int) ∉ ch i := fun i h1 h2 hm => by
            have := (K.mem i h1 h2 j).1 hm; omega
          refine ⟨fun i => if i = parent.get j then (j : Int) :: ch i else ch i, K.csz, K.ssz, fun i h1 h2 => ?_, fun i h1 h2 => ?_, fun i h1 h2 => ?_,
            fun i h1 h2 x => ?_⟩
          · rw [Arr.set_get]
            split
            · rfl
            · exact K.hd i h1 h2
          · split
            · rename_i he
              refine ⟨?_, (K.ln i h1 h2).congr fun x hx => Arr.set_ne _ _ fun e => hnot i h1 h2 (e ▸ hx)⟩
              rw [Arr.set_same, ← he, K.hd i h1 h2]
            · exact (K.ln i h1 h2).congr fun x hx => Arr.set_ne _ _ fun e => hnot i h1 h2 (e ▸ hx)
          · split
            · exact List.nodup_cons.2 ⟨hnot i h1 h2, K.nd i h1 h2⟩
            · exact K.nd i h1 h2
          · have hm := K.mem i h1 h2 x
            split
            · rename_i he
              rw [List.mem_cons, hm]
              constructor
              · rintro (rfl | hh)
                · exact ⟨⟨le_refl _, by omega⟩, hvj, he.symm⟩
                · exact ⟨⟨by omega, by omega⟩, hh.2⟩
              · rintro ⟨⟨h3, h4⟩, h5⟩
                by_cases hx : x = j
                · exact Or.inl hx
                · exact Or.inr ⟨⟨by omega, h4⟩, h5⟩
            · rename_i he
              rw [hm]
              constructor
              · exact fun hh => ⟨⟨by omega, by omega⟩, hh.2⟩
              · rintro ⟨⟨h3, h4⟩, h5⟩
                have hx : x ≠ j := by rintro rfl; exact he h5.2.symm
                exact ⟨⟨by omega, h4⟩, h5⟩
        · rw [if_neg hpj, runs_pure]
          refine ⟨ch, K.csz, K.ssz, K.hd, K.ln, K.nd, fun i h1 h2 x => (K.mem i h1 h2 x).trans ⟨fun hh => ⟨⟨by omega, by omega⟩, hh.2⟩, ?_⟩⟩
          rintro ⟨⟨h3, h4⟩, h5⟩
          have hx : x ≠ j := by rintro rfl; have := not_not.1 hpj; omega
          exact ⟨⟨by omega, h4⟩, h5⟩
      · rw [if_neg hvj, runs_pure]
        refine ⟨ch, K.csz, K.ssz, K.hd, K.ln, K.nd, fun i h1 h2 x => (K.mem i h1 h2 x).trans ⟨fun hh => ⟨⟨by omega, by omega⟩, hh.2⟩, ?_⟩⟩
        rintro ⟨⟨h3, h4⟩, h5⟩
        have hx : x ≠ j := by rintro rfl; exact hvj h5.1
        exact ⟨⟨by omega, h4⟩, h5⟩
    · rintro ⟨c, s⟩ ⟨ch, K⟩
      exact ⟨ch, K.csz, K.ssz, K.hd, K.ln, K.nd, fun i h1 h2 x => by have := K.mem i h1 h2 x; simpa using this⟩

/-- The largest child found so far. -/
def BigOK (pre : List Int) (b : Big) : Prop :=
  -1 ≤ b.maxf ∧ b.fprev = lst pre (-1) ∧ (pre = [] → b.maxf = -1) ∧ (pre ≠ [] → ∃ a c, pre = a ++ b.big :: c ∧ b.bigprev = lst a (-1))

theorem findBig_runs {n : Nat} {fsize sib : Arr} (hf : fsize.size = n) (hs : sib.size = n) :
    ∀ (k : Nat) (pre rest : List Int) (b : Big), rest.length ≤ k → b.f = hd rest (-1) → Chain sib.get rest (-1) →
      (∀ x ∈ rest, (0 ≤ x ∧ x < n) ∧ -1 ≤ fsize.get x) → BigOK pre b → Runs (findBig fsize sib k b) fun b' => BigOK (pre ++ rest) b' := by
  intro k
  induction k with
  | zero =>
    intro pre rest b hk hb hc hr hO
    obtain rfl : rest = [] := List.length_eq_zero_iff.1 (by omega)
    unfold findBig
    rw [if_pos (by simpa using hb), runs_pure]
    simpa using hO
  | succ k ih =>
    intro pre rest b hk hb hc hr hO
    unfold findBig
    cases rest with
    | nil =>
      rw [if_pos (by simpa using hb), runs_pure]
      simpa using hO
    | cons x rest =>
      have hx := hr x (by simp)
      have hbx : b.f = x := hb
      rw [if_neg (by omega)]
      simp only [runs_bind, runs_rdZ, hbx]
      refine ⟨⟨hx.1.1, by omega⟩, ⟨hx.1.1, by omega⟩, ?_⟩
      have hrest : ∀ y ∈ rest, (0 ≤ y ∧ y < n) ∧ -1 ≤ fsize.get y := fun y hy => hr y (by simp [hy])
      rw [show pre ++ x :: rest = (pre ++ [x]) ++ rest by simp]
      refine ih (pre ++ [x]) rest _ (by simpa using hk) ?_ hc.2 hrest ?_
      · split
        · exact hc.1
        · exact hc.1
      · split
        · exact ⟨hx.2, by simp, by simp, fun _ => ⟨pre, [], rfl, hO.2.1⟩⟩
        · rename_i hlt
          refine ⟨hO.1, by simp, by simp, fun _ => ?_⟩
          have hpre : pre ≠ [] := fun h => hlt (by rw [hO.2.2.1 h]; exact hx.2)
          obtain ⟨a, c, h1, h2⟩ := hO.2.2.2 hpre
          exact ⟨a, c ++ [x], by simp [h1], h2⟩

theorem bigLast_runs {n : Nat} {P : Int → Int → Prop} {ch : Int → List Int} {nv fsize : Arr} {r : Arr × Arr} {i : Int} (K : Kids n P ch r.1 r.2)
    (hv : nv.size = n) (hf : fsize.size = n) (hin : ∀ x j, P x j → (0 ≤ x ∧ x < n) ∧ 0 < nv.get x)
    (huni : ∀ x j j', P x j → P x j' → j = j') (hfs : ∀ x : Int, 0 ≤ x → x < n → 0 < nv.get x → -1 ≤ fsize.get x) (i0 : 0 ≤ i) (hi : i < n) :
    Runs (bigLast n nv fsize i r) fun r => ∃ ch, Kids n P ch r.1 r.2 := by
  obtain ⟨child, sib⟩ := r
  unfold bigLast
  simp only [runs_bind, runs_rdZ]
  refine ⟨⟨i0, by omega⟩, ⟨i0, by rw [K.csz]; exact hi⟩, ?_⟩
  by_cases hc : 0 < nv.get i ∧ child.get i ≠ -1
  swap
  · rw [if_neg hc, runs_pure]; exact ⟨ch, K⟩
  rw [if_pos hc, runs_bind]
  have hr : ∀ x ∈ ch i, (0 ≤ x ∧ x < n) ∧ 0 < nv.get x := fun x hx => hin x i ((K.mem i i0 hi x).1 hx)
  have hne : ch i ≠ [] := fun h => hc.2 (by have := K.hd i i0 hi; rw [h] at this; exact this)
  have hlen : (ch i).length ≤ n := length_le_of_nodup (K.nd i i0 hi) fun x hx => (hr x hx).1
  refine Runs.mono (findBig_runs hf K.ssz n [] (ch i) _ hlen (K.hd i i0 hi) (K.ln i i0 hi)
    (fun x hx => ⟨(hr x hx).1, hfs x (hr x hx).1.1 (hr x hx).1.2 (hr x hx).2⟩) ⟨le_refl _, rfl, fun _ => rfl, fun h => absurd rfl h⟩) ?_
  rintro ⟨bf, bfp, bm, bbp, big⟩ ⟨-, hfp, -, hb⟩
  obtain ⟨a, c, hl, hbp⟩ := hb (by simpa using hne)
  simp only [List.nil_append] at hfp hl
  simp only at hbp
  have hbig : big ∈ ch i := by rw [hl]; simp
  have hbr := hr big hbig
  rw [runs_bind, runs_rdZ]
  refine ⟨⟨hbr.1.1, by rw [K.ssz]; exact hbr.1.2⟩, ?_⟩
  have hln := K.ln i i0 hi
  have hnd := K.nd i i0 hi
  rw [hl] at hln hnd
  rw [chain_append] at hln
  have hsb : sib.get big = hd c (-1) := hln.2.1
  have hcc : Chain sib.get c (-1) := hln.2.2
  have hca : Chain sib.get a big := hln.1
  by_cases hfn : sib.get big ≠ -1
  swap
  · rw [if_neg hfn, runs_pure]; exact ⟨ch, K⟩
  rw [if_pos hfn]
  have hcne : c ≠ [] := fun h => hfn (by rw [hsb, h]; rfl)
  have hnda : a.Nodup := (List.nodup_append.1 hnd).1
  have hndc : (big :: c).Nodup := (List.nodup_append.1 hnd).2.1
  have hac : ∀ x ∈ a, ∀ y ∈ big :: c, x ≠ y := fun x hx y hy => (List.nodup_append.1 hnd).2.2 x hx y hy
  have hba : big ∉ a := fun h => hac big h big (by simp) rfl
  have hbc : big ∉ c := (List.nodup_cons.1 hndc).1
  have hfpc : bfp = lst c big := by rw [hfp, hl, lst_append]; rfl
  have hfpm : bfp ∈ c := by rw [hfpc]; exact lst_mem hcne
  have hfpi : bfp ∈ ch i := by rw [hl]; simp [hfpm]
  have hother : ∀ j : Int, 0 ≤ j → j < n → j ≠ i → ∀ x ∈ ch j, x ∉ ch i := fun j j0 hj hji x hx hxi =>
    hji (huni x j i ((K.mem j j0 hj x).1 hx) ((K.mem i i0 hi x).1 hxi))
  -- the new list
  have hmem' : ∀ x, x ∈ a ++ (c ++ [big]) ↔ P x i := fun x => by
    rw [← K.mem i i0 hi x, hl]; simp; tauto
  have hnd' : (a ++ (c ++ [big])).Nodup := by
    have hp : (a ++ (c ++ [big])).Perm (a ++ big :: c) := List.Perm.append_left a (List.perm_append_singleton big c)
    exact hp.nodup_iff.2 hnd
  have hfin : ∀ (child' sib1 : Arr), child'.size = n → sib1.size = n → child'.get i = hd a (hd c (-1)) → (∀ j, j ≠ i → child'.get j = child.get j) →
      Chain sib1.get a (hd c (-1)) → (∀ x, x ∉ a → sib1.get x = sib.get x) →
      Kids n P (fun j => if j = i then a ++ (c ++ [big]) else ch j) child' ((sib1.set big (-1)).set bfp big) := by
    intro child' sib1 hs1 hs2 h1 h2 h3 h4
    refine ⟨hs1, hs2, fun j j0 hj => ?_, fun j j0 hj => ?_, fun j j0 hj => ?_, fun j j0 hj x => ?_⟩
    · by_cases hji : j = i
      · rw [if_pos hji, hji, h1, hd_append, hd_append]
        cases c with
        | nil => exact absurd rfl hcne
        | cons y c => rfl
      · rw [if_neg hji, h2 j hji]; exact K.hd j j0 hj
    · by_cases hji : j = i
      · rw [if_pos hji, chain_append, chain_append]
        refine ⟨?_, ?_, ?_⟩
        · have e : hd (c ++ [big]) (-1) = hd c (-1) := by
            cases c with
            | nil => exact absurd rfl hcne
            | cons y c => rfl
          rw [e]
          refine h3.congr fun x hx => ?_
          rw [Arr.set_ne _ _ (fun e => hac x hx bfp (by simp [hfpm]) e), Arr.set_ne _ _ (fun e => hac x hx big (by simp) e)]
        · show Chain ((sib1.set big (-1)).set bfp big).get c big
          rw [hfpc]
          refine Chain.setLast (e := -1) hcne (hcc.congr fun x hx => ?_) (List.nodup_cons.1 hndc).2
          rw [Arr.set_ne (k := x) _ _ (fun e : x = big => hbc (e ▸ hx)), h4 x fun hxa => hac x hxa x (by simp [hx]) rfl]
        · refine ⟨?_, trivial⟩
          rw [Arr.set_ne _ _ (fun e => hbc (by rw [e]; exact hfpm)), Arr.set_same]; rfl
      · rw [if_neg hji]
        refine (K.ln j j0 hj).congr fun x hx => ?_
        have hxi := hother j j0 hj hji x hx
        rw [Arr.set_ne (k := x) _ _ (fun e : x = bfp => hxi (e ▸ hfpi)), Arr.set_ne (k := x) _ _ (fun e : x = big => hxi (e ▸ hbig)), h4 x fun hxa => hxi (by rw [hl]; simp [hxa])]
    · by_cases hji : j = i
      · rw [if_pos hji]; exact hnd'
      · rw [if_neg hji]; exact K.nd j j0 hj
    · by_cases hji : j = i
      · rw [if_pos hji, hji]; exact hmem' x
      · rw [if_neg hji]; exact K.mem j j0 hj x
  have hfpr := (hr bfp hfpi).1
  by_cases hbp1 : bbp = -1
  · have ha : a = [] := by
      by_contra hne
      have := lst_mem (e := -1) hne
      rw [← hbp, hbp1] at this
      have := (hr (-1) (by rw [hl]; simp [this])).1.1
      omega
    simp only [hbp1, if_true, runs_bind, runs_wrZ, runs_pure, Arr.set_size]
    refine ⟨⟨i0, by rw [K.csz]; exact hi⟩, ⟨hbr.1.1, by rw [K.ssz]; exact hbr.1.2⟩, ⟨hfpr.1, by rw [K.ssz]; exact hfpr.2⟩, _,
      hfin _ sib K.csz K.ssz ?_ (fun j hj => Arr.set_ne _ _ hj) ?_ fun x _ => rfl⟩
    · rw [ha, Arr.set_same]; exact hsb
    · rw [ha]; trivial
  · have ha : a ≠ [] := fun h => hbp1 (by rw [hbp, h]; rfl)
    have hbpm : bbp ∈ a := by rw [hbp]; exact lst_mem ha
    have hbpr := (hr bbp (by rw [hl]; simp [hbpm])).1
    simp only [if_neg hbp1, runs_bind, runs_wrZ, runs_pure, Arr.set_size]
    refine ⟨⟨hbpr.1, by rw [K.ssz]; exact hbpr.2⟩, ⟨hbr.1.1, by rw [K.ssz]; exact hbr.1.2⟩, ⟨hfpr.1, by rw [K.ssz]; exact hfpr.2⟩, _,
      hfin child _ K.csz K.ssz ?_ (fun j hj => rfl) ?_ fun x hx => ?_⟩
    · rw [K.hd i i0 hi, hl, hd_append]
      cases a with
      | nil => exact absurd rfl ha
      | cons y a => rfl
    · rw [hbp, hsb]; exact hca.setLast ha hnda
    · exact Arr.set_ne _ _ fun e => hx (by rw [e]; exact hbpm)

end Amd
end Hif
