import Verif.AmdCmp

set_option linter.unusedVariables false

/-! # Buckets of nodes with the same hash value -/

namespace Hif
namespace Amd

/-- The nodes of `S` are in the buckets. -/
structure BKs (n : Nat) (S : Finset Int) (Bl : Int → List Int) (next last : Int → Int) : Prop where
  nx : ∀ d : Int, 0 ≤ d → d < n → Chain next (Bl d) (-1)
  nd : ∀ d : Int, 0 ≤ d → d < n → (Bl d).Nodup
  mem : ∀ d : Int, 0 ≤ d → d < n → ∀ x, x ∈ Bl d ↔ x ∈ S ∧ last x = d
  rng : ∀ x ∈ S, (0 ≤ x ∧ x < n) ∧ 0 ≤ last x ∧ last x < n

section
variable {n : Nat} {Vd S : Finset Int} {Dl Bl : Int → List Int}

theorem DLs.neg {head next last degree : Int → Int} (hD : DLs n Vd Dl Bl head next last degree) (hB : BKs n S Bl next last) {h : Int} (h0 : 0 ≤ h) (h1 : h < n) :
    (head h ≤ -1 → Dl h = [] ∧ head h = flip (Amd.hd (Bl h) (-1))) ∧ (¬ head h ≤ -1 → Dl h ≠ [] ∧ head h = Amd.hd (Dl h) (-1) ∧ head h ∈ Vd ∧ last (head h) = Amd.hd (Bl h) (-1) ∧ head h ∈ Dl h) := by
  have hh := hD.hd h h0 h1
  by_cases hd0 : Dl h = []
  · rw [if_pos hd0] at hh
    have hge : -1 ≤ Amd.hd (Bl h) (-1) := by
      by_cases hb : Bl h = []
      · rw [hb]; simp
      · have := hB.rng _ ((hB.mem h h0 h1 _).1 (hd_mem (-1) hb)).1
        omega
    have hle : head h ≤ -1 := by rw [hh]; unfold flip; omega
    exact ⟨fun _ => ⟨hd0, hh⟩, fun u => absurd hle u⟩
  · rw [if_neg hd0] at hh
    have hm := hd_mem (-1) hd0
    have := hD.nn h0 h1 hm
    rw [← hh] at this hm
    refine ⟨fun u => by omega, fun _ => ⟨hd0, hh, this.2.1, ?_, hm⟩⟩
    have hb := hD.bk h h0 h1
    obtain ⟨x, l, hl⟩ := List.exists_cons_of_ne_nil hd0
    rw [hl] at hb hh
    rw [hh]; exact hb.1

theorem toBucket_runs {c : St} {i hash : Int} (hD : DLs n Vd Dl Bl c.head.get c.next.get c.last.get c.degree.get) (hB : BKs n S Bl c.next.get c.last.get) (hVS : ∀ x ∈ Vd, x ∉ S)
    (hiV : i ∉ Vd) (hiS : i ∉ S) (hi : 0 ≤ i ∧ i < (n : Int)) (s1 : c.head.size = n) (s2 : c.next.size = n) (s3 : c.last.size = n) :
    Runs (toBucket n i hash c) fun c' => c' = { c with head := c'.head, next := c'.next, last := c'.last } ∧ c'.head.size = n ∧ c'.next.size = n ∧ c'.last.size = n ∧
      ∃ Bl', DLs n Vd Dl Bl' c'.head.get c'.next.get c'.last.get c'.degree.get ∧ BKs n (insert i S) Bl' c'.next.get c'.last.get := by
  have hn : 0 < (n : Int) := by omega
  have h0 : 0 ≤ hash % n := Int.emod_nonneg _ (by omega)
  have h1 : hash % n < n := Int.emod_lt_of_pos _ hn
  unfold toBucket
  dsimp only
  revert h0 h1
  generalize hash % (n : Int) = h
  intro h0 h1
  rw [runs_bind, runs_rdZ]
  refine ⟨⟨h0, by rw [s1]; exact h1⟩, ?_⟩
  obtain ⟨k1, k2⟩ := hD.neg hB h0 h1
  -- the common end
  have fin : ∀ head' next' last' : Arr, head'.size = n → next'.size = n → last'.size = n → next'.get i = hd (Bl h) (-1) → (∀ x, x ≠ i → next'.get x = c.next.get x) →
      (∀ d, d ≠ h → head'.get d = c.head.get d) → (Dl h = [] → head'.get h = flip i) → (Dl h ≠ [] → head'.get h = c.head.get h ∧ last'.get (c.head.get h) = i) →
      (∀ x, x ≠ i → x ∈ S → last'.get x = c.last.get x) → (∀ x ∈ Vd, (Dl h ≠ [] → x ≠ c.head.get h) → last'.get x = c.last.get x) → last'.get i = h →
      ∃ Bl', DLs n Vd Dl Bl' head'.get next'.get last'.get c.degree.get ∧ BKs n (insert i S) Bl' next'.get last'.get := by
    intro head' next' last' t1 t2 t3 q1 q2 q3 q4 q5 q6 q7 q8
    have hBi : ∀ d : Int, 0 ≤ d → d < n → i ∉ Bl d := fun d a b u => hiS ((hB.mem d a b i).1 u).1
    refine ⟨fun d => if d = h then i :: Bl h else Bl d, ⟨fun d a b => ?_, fun d a b => ?_, fun d a b => ?_, hD.nd, hD.mem, hD.rng⟩, ⟨fun d a b => ?_, fun d a b => ?_, fun d a b x => ?_, fun x hx => ?_⟩⟩
    · by_cases hd : d = h
      · subst hd
        rw [if_pos rfl]
        by_cases hz : Dl d = []
        · rw [if_pos hz, q4 hz]; rfl
        · rw [if_neg hz, (q5 hz).1]
          have := hD.hd d a b
          rw [if_neg hz] at this
          exact this
      · rw [if_neg hd, q3 d hd]; exact hD.hd d a b
    · exact (hD.nx d a b).congr fun x hx => q2 x fun u => hiV (u ▸ (hD.nn a b hx).2.1)
    · by_cases hd : d = h
      · subst hd
        rw [if_pos rfl]
        by_cases hz : Dl d = []
        · rw [hz]; trivial
        · have hh := hD.hd d a b
          rw [if_neg hz] at hh
          refine (hD.bk d a b).relink (hD.nd d a b) (fun _ => ?_) fun x hx hne => ?_
          · rw [← hh]; exact (q5 hz).2
          · exact q7 x (hD.nn a b hx).2.1 fun _ => by rw [hh]; exact hne
      · rw [if_neg hd]
        refine (hD.bk d a b).congr fun x hx => q7 x (hD.nn a b hx).2.1 fun hz e => hd ?_
        have hh := hD.hd h h0 h1
        rw [if_neg hz] at hh
        have h2 := (hD.nn h0 h1 (hd_mem (-1) hz)).2.2
        have h3 := (hD.nn a b hx).2.2
        rw [e, hh, h2] at h3
        exact h3.symm
    · by_cases hd : d = h
      · subst hd
        rw [if_pos rfl]
        exact ⟨q1, (hB.nx d a b).congr fun x hx => q2 x fun u => hBi d a b (u ▸ hx)⟩
      · rw [if_neg hd]
        exact (hB.nx d a b).congr fun x hx => q2 x fun u => hBi d a b (u ▸ hx)
    · by_cases hd : d = h
      · subst hd
        rw [if_pos rfl, List.nodup_cons]
        exact ⟨hBi d a b, hB.nd d a b⟩
      · rw [if_neg hd]; exact hB.nd d a b
    · rw [Finset.mem_insert]
      by_cases hxi : x = i
      · subst hxi
        rw [q8]
        by_cases hd : d = h
        · rw [if_pos hd, hd]; simp
        · rw [if_neg hd]
          exact ⟨fun u => absurd u (hBi d a b), fun u => absurd u.2.symm hd⟩
      · have hmem : x ∈ (if d = h then i :: Bl h else Bl d) ↔ x ∈ Bl d := by
          by_cases hd : d = h
          · rw [if_pos hd, hd]; simp [hxi]
          · rw [if_neg hd]
        rw [hmem, hB.mem d a b x]
        constructor
        · rintro ⟨u, v⟩; exact ⟨Or.inr u, (q6 x hxi u).trans v⟩
        · rintro ⟨u, v⟩
          have u := u.resolve_left hxi
          exact ⟨u, (q6 x hxi u).symm.trans v⟩
    · rcases Finset.mem_insert.1 hx with u | u
      · rw [u, q8]; exact ⟨hi, h0, h1⟩
      · have hxi : x ≠ i := fun e => hiS (e ▸ u)
        rw [q6 x hxi u]; exact hB.rng x u
  by_cases hj : c.head.get h ≤ -1
  · obtain ⟨z1, z2⟩ := k1 hj
    rw [if_pos hj]
    simp only [runs_bind, runs_wrZ, runs_pure, Arr.set_size]
    refine ⟨⟨hi.1, by rw [s2]; exact hi.2⟩, ⟨h0, by rw [s1]; exact h1⟩, ⟨hi.1, by rw [s3]; exact hi.2⟩, trivial, s1, s2, s3, fin _ _ _ s1 s2 s3 ?_ (fun x hx => Arr.set_ne _ _ hx)
      (fun d hd => Arr.set_ne _ _ hd) (fun _ => Arr.set_same _ _ _) (fun u => absurd z1 u) (fun x hx _ => Arr.set_ne _ _ hx) (fun x hx _ => Arr.set_ne (k := x) _ _ fun e : x = i => hiV (e ▸ hx)) (Arr.set_same _ _ _)⟩
    rw [Arr.set_same, z2, flip_flip]
  · obtain ⟨z1, z2, z3, z4, z5⟩ := k2 hj
    have hjr := (hD.rng _ z3).1
    have hji : c.head.get h ≠ i := fun e => hiV (e ▸ z3)
    rw [if_neg hj]
    simp only [runs_bind, runs_rdZ, runs_wrZ, runs_pure, Arr.set_size]
    refine ⟨⟨hjr.1, by rw [s3]; exact hjr.2⟩, ⟨hi.1, by rw [s2]; exact hi.2⟩, ⟨hjr.1, by rw [s3]; exact hjr.2⟩, ⟨hi.1, by rw [s3]; exact hi.2⟩, trivial, s1, s2, s3,
      fin _ _ _ s1 s2 s3 ?_ (fun x hx => Arr.set_ne _ _ hx) (fun d _ => rfl) (fun u => absurd u z1) (fun _ => ⟨rfl, ?_⟩) (fun x hx hxS => ?_) (fun x hx hne => ?_) (Arr.set_same _ _ _)⟩
    · rw [Arr.set_same]; exact z4
    · rw [Arr.set_ne _ _ hji, Arr.set_same]
    · rw [Arr.set_ne _ _ hx, Arr.set_ne (k := x) _ _ fun e : x = _ => hVS x (e ▸ z3) hxS]
    · rw [Arr.set_ne (k := x) _ _ fun e : x = i => hiV (e ▸ hx), Arr.set_ne _ _ (hne z1)]

/-- A bucket is taken out; `l` are its nodes. -/
theorem takeBucket {head next last degree head' last' : Int → Int} (hD : DLs n Vd Dl Bl head next last degree) (hB : BKs n S Bl next last) (hVS : ∀ x ∈ Vd, x ∉ S) {h : Int} (h0 : 0 ≤ h) (h1 : h < n)
    (q1 : ∀ d : Int, d ≠ h → head' d = head d) (q2 : head h ≤ -1 → head' h = -1 ∧ ∀ x, last' x = last x)
    (q3 : ¬ head h ≤ -1 → head' h = head h ∧ last' (head h) = -1 ∧ ∀ x, x ≠ head h → last' x = last x) :
    ∃ Bl', DLs n Vd Dl Bl' head' next last' degree ∧ BKs n (S.filter fun x => last x ≠ h) Bl' next last' ∧ Bl' h = [] := by
  obtain ⟨k1, k2⟩ := hD.neg hB h0 h1
  have hlS : ∀ x ∈ S, last' x = last x := fun x hx => by
    by_cases hj : head h ≤ -1
    · exact (q2 hj).2 x
    · exact (q3 hj).2.2 x fun e => hVS x (e ▸ (k2 hj).2.2.1) hx
  refine ⟨fun d => if d = h then [] else Bl d, ⟨fun d a b => ?_, hD.nx, fun d a b => ?_, hD.nd, hD.mem, hD.rng⟩, ⟨fun d a b => ?_, fun d a b => ?_, fun d a b x => ?_, fun x hx => ?_⟩, if_pos rfl⟩
  · by_cases hd : d = h
    · subst hd
      rw [if_pos rfl]
      by_cases hj : head d ≤ -1
      · rw [if_pos (k1 hj).1, (q2 hj).1]; rfl
      · rw [if_neg (k2 hj).1, (q3 hj).1]; exact (k2 hj).2.1
    · rw [if_neg hd, q1 d hd]; exact hD.hd d a b
  · by_cases hd : d = h
    · subst hd
      rw [if_pos rfl]
      by_cases hj : head d ≤ -1
      · rw [(k1 hj).1]; trivial
      · refine (hD.bk d a b).relink (hD.nd d a b) (fun _ => ?_) fun x hx hne => ?_
        · rw [← (k2 hj).2.1]; exact (q3 hj).2.1
        · exact (q3 hj).2.2 x (by rw [(k2 hj).2.1]; exact hne)
    · rw [if_neg hd]
      refine (hD.bk d a b).congr fun x hx => ?_
      by_cases hj : head h ≤ -1
      · exact (q2 hj).2 x
      · refine (q3 hj).2.2 x fun e => hd ?_
        have h2 := (hD.nn h0 h1 (k2 hj).2.2.2.2).2.2
        have h3 := (hD.nn a b hx).2.2
        rw [e, h2] at h3
        exact h3.symm
  · by_cases hd : d = h
    · rw [if_pos hd]; trivial
    · rw [if_neg hd]; exact hB.nx d a b
  · by_cases hd : d = h
    · rw [if_pos hd]; exact List.nodup_nil
    · rw [if_neg hd]; exact hB.nd d a b
  · rw [Finset.mem_filter]
    by_cases hd : d = h
    · rw [if_pos hd]
      refine ⟨fun u => absurd u (by simp), fun ⟨⟨u, v⟩, w⟩ => absurd ((hlS x u).symm.trans (w.trans hd)) v⟩
    · rw [if_neg hd, hB.mem d a b x]
      constructor
      · rintro ⟨u, v⟩; exact ⟨⟨u, fun e => hd (v.symm.trans e)⟩, (hlS x u).trans v⟩
      · rintro ⟨⟨u, v⟩, w⟩; exact ⟨u, (hlS x u).symm.trans w⟩
  · rw [Finset.mem_filter] at hx
    rw [hlS x hx.1]; exact hB.rng x hx.1

end

end Amd
end Hif
