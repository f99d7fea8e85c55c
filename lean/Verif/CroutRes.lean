import Verif.PCroutFin

set_option linter.unusedVariables false
set_option linter.unusedSectionVars false
set_option linter.unusedSimpArgs false

/-!
# What the two Crout phases have in common

`Res` says what the rest of a level needs to know about the result of the Crout phase, in terms of the result only; the
phase without pivoting (`Crout.croutPhase`) and the one with pivoting (`PCrout.croutPhase`) both establish it.
-/

namespace Hif
namespace Crout
open Finset
variable {K : Type} [Field K] [DecidableEq K] {R : Type _} [LinearOrder R]

/-- The result of a Crout phase. -/
structure Res (pr : Par K R) (I : In K) (ΦU ΦL : Nat → Nat → Prop) (r : Out K) : Prop where
  tot : r.m + r.defers = I.m2
  cnt : r.nDiag + r.nCond = r.defers
  psz : r.p.p.size = I.n
  qsz : r.q.p.size = I.n
  pinv : r.p.inv.size = I.n ∧ Spec.Inverse I.n r.p.p.get r.p.inv.get
  qinv : r.q.inv.size = I.n ∧ Spec.Inverse I.n r.q.p.get r.q.inv.get
  dsz : r.d.size = I.m2
  U : FinOK I.n r.m r.U r.Ustart r.U.entry id (fun i => ΦU (r.p.p.get i))
  L : FinOK I.n r.m r.L r.Lstart r.L.entry id (fun i => ΦL (r.q.p.get i))
  good : ∀ h, h < r.m → badDiag pr (r.d.get h) = false
  kapU : ∀ h, h < r.m → r.kU.get h = (if h = 0 then 1 else kappaPick pr.nrm (∑ i ∈ range h, r.kU.get i * r.Ubar i h)) ∧ pr.nrm (r.kU.get h) ≤ pr.kappa
  kapL : ∀ h, h < r.m → r.kL.get h = (if h = 0 then 1 else kappaPick pr.nrm (∑ i ∈ range h, r.kL.get i * r.Lbar h i)) ∧ pr.nrm (r.kL.get h) ≤ pr.kappa
  exact : KeepsAll I.n pr.dropU → KeepsAll I.n pr.dropL → ∀ i j, i < I.n → j < I.n → min i j < r.m →
    ∑ b ∈ range r.m, r.Lbar i b * r.d.get b * r.Ubar b j = Out.target I r i j
  lR : SV.Ready (2 * I.n) I.n r.l ∧ r.l.vals.size = 2 * I.n
  utR : SV.Ready (2 * I.n) I.n r.ut ∧ r.ut.vals.size = 2 * I.n

theorem FinOK.toEntry {n m : Nat} {T : CS K} {st : Buf Nat} {S : Nat → Nat → K} {w : Nat → Nat} {Φ Φ' : Nat → Nat → Prop} (h : FinOK n m T st S w Φ)
    (hΦ : ∀ i, i < m → ∀ l, Φ i l → Φ' i l) : FinOK n m T st T.entry id Φ' :=
  ⟨h.wf, h.tight, h.psz, h.ssz, h.sorted, h.upper, h.stsz, h.st, fun i hi x hx => by
    rw [CS.entry_eq_line _ _ _ (h.wf.mono i (by rw [h.psz]; exact hi))]; rfl, fun i hi => hΦ i hi _ (h.cnt i hi)⟩

theorem ready_le {N a b : Nat} {v : SV K} (h : SV.Ready N a v) (hab : a ≤ b) : SV.Ready N b v :=
  ⟨h.tags_size, h.inds_size, h.drop_size, h.drop_false, fun i hi => by
    obtain ⟨h1, h2⟩ := h.old i hi
    exact ⟨fun e => by have := h2 _ e; omega, fun t e => by have := h2 _ e; omega⟩⟩

/-- The phase without pivoting. -/
theorem Final.res {pr : Par K R} {I : In K} {ΦU ΦL : Nat → Nat → Prop} {r : Out K} {g : Gh K} (hI : InOK I) (h : Final pr I ΦU ΦL r g) : Res pr I ΦU ΦL r := by
  have hmle := hI.mle
  have htot := h.tot
  obtain ⟨z, z1, z2, z3, z4, z5⟩ := h.back hI
  exact {
    tot := h.tot, cnt := h.cnt, psz := h.psz, qsz := h.qsz, pinv := h.pinv, qinv := h.qinv, dsz := h.dsz
    U := h.U.toEntry fun i hi l hl => by rw [(z3 i (by omega)).1, z2 i hi]; exact hl
    L := h.L.toEntry fun i hi l hl => by rw [(z3 i (by omega)).2, z2 i hi]; exact hl
    good := h.num.good
    kapU := fun a ha => by
      obtain ⟨k1, k2⟩ := h.kapU a ha
      refine ⟨?_, k2⟩
      rw [k1]
      split
      · rfl
      · refine congrArg _ (sum_congr rfl fun i hi => ?_)
        have hi := mem_range.1 hi
        unfold Out.Ubar
        rw [if_neg (by omega), (z5 i (by omega) a (by omega)).1, z2 a ha]
    kapL := fun a ha => by
      obtain ⟨k1, k2⟩ := h.kapL a ha
      refine ⟨?_, k2⟩
      rw [k1]
      split
      · rfl
      · refine congrArg _ (sum_congr rfl fun i hi => ?_)
        have hi := mem_range.1 hi
        unfold Out.Lbar
        rw [if_neg (by omega), (z5 i (by omega) a (by omega)).2, z2 a ha]
    exact := fun kU kL i j hi hj hm => h.exact hI kU kL hi hj hm
    lR := ⟨ready_le h.lR.1 (by omega), h.lR.2⟩
    utR := ⟨ready_le h.utR.1 (by omega), h.utR.2⟩ }

end Crout

namespace PCrout
open Finset Crout
variable {K : Type} [Field K] [DecidableEq K] {R : Type _} [Mul R] [LinearOrder R] {pr : Par K R} {I : In K} {ΦU ΦL : Nat → Nat → Prop}

/-- Going back from final positions: one of the two permutations. -/
theorem back_one {n m δ : Nat} {v o : Nat → Nat} {p p0 : Buf Nat} (hp : PPos n m δ v o) (hkn : m + δ ≤ n) (he : ∀ x, x < n → p.get (place m δ v x) = p0.get x) :
    ∃ z : Nat → Nat, (∀ j, j < n → z j < n ∧ place m δ v (z j) = j) ∧ (∀ a, a < m → z a = o a) ∧ (∀ j, j < n → p.get j = p0.get (z j)) ∧
      (∀ a, a < m → ∀ j, j < n → (a < v (z j) ↔ a < j)) ∧ (∀ j, m + δ ≤ j → j < n → o j = j → z (j - δ) = j) := by
  have hpl := place_perm hp hkn
  have hz : ∀ j, ∃ x, j < n → x < n ∧ place m δ v x = j := by
    intro j
    by_cases hj : j < n
    · obtain ⟨x, hx⟩ := isPerm_surj hpl hj; exact ⟨x, fun _ => hx⟩
    · exact ⟨0, fun hc => absurd hc hj⟩
  choose z hz using hz
  refine ⟨z, hz, fun a ha => ?_, fun j hj => ?_, fun a ha j hj => ?_, fun j h1 h2 h3 => ?_⟩
  · obtain ⟨z1, z2⟩ := hz a (by omega)
    obtain ⟨o1, o2⟩ := hp.from_pos a (Or.inl ha)
    refine hpl.2 _ _ z1 o1 ?_
    rw [z2]; unfold place; rw [o2, if_pos ha]
  · obtain ⟨z1, z2⟩ := hz j hj
    have e1 := he _ z1
    rw [z2] at e1
    exact e1
  · obtain ⟨z1, z2⟩ := hz j hj
    unfold place at z2
    rcases hp.cases z1 with c | c
    · rw [if_pos c] at z2; rw [z2]
    · rw [if_neg (by omega)] at z2; omega
  · obtain ⟨z1, z2⟩ := hz (j - δ) (by omega)
    have hv : v j = j := by
      have := (hp.from_pos j (Or.inr ⟨h1, by omega⟩)).2
      rw [h3] at this; exact this
    refine hpl.2 _ _ z1 h2 ?_
    rw [z2]; unfold place; rw [hv, if_neg (by omega)]

/-- The recurrences in the final ordering. -/
theorem PFinal.recs {r : Out K} {g : Gh K} (hI : InOK I) (h : PFinal pr I ΦU ΦL r g) :
    ∃ Ut Lt : Nat → Nat → K,
      (∀ a, a < r.m → ∀ j, j < I.n → a < j →
        r.d.get a * Ut a j = Out.target I r a j - ∑ b ∈ range a, r.Lbar a b * r.d.get b * r.Ubar b j) ∧
      (∀ a, a < r.m → ∀ i, i < I.n → a < i →
        Lt i a * r.d.get a = Out.target I r i a - ∑ b ∈ range a, r.Lbar i b * r.d.get b * r.Ubar b a) ∧
      (∀ a, a < r.m → r.d.get a = Out.target I r a a - ∑ b ∈ range a, r.Lbar a b * r.d.get b * r.Ubar b a) ∧
      (∀ a, a < r.m → ∀ j, j < I.n → a < j → (r.Ubar a j = Ut a j ∨ r.Ubar a j = 0) ∧ (r.Lbar j a = Lt j a ∨ r.Lbar j a = 0)) ∧
      (KeepsAll I.n pr.dropU → ∀ a, a < r.m → ∀ j, j < I.n → a < j → r.Ubar a j = Ut a j) ∧
      (KeepsAll I.n pr.dropL → ∀ a, a < r.m → ∀ j, j < I.n → a < j → r.Lbar j a = Lt j a) ∧
      (∀ Ψ, DropRule I.n pr.dropU Ψ → ∀ a, a < r.m → ∀ j, j < I.n → a < j →
        r.Ubar a j = Ut a j ∨ (r.Ubar a j = 0 ∧ Ψ (r.kU.get a) (r.p.p.get a) (Ut a j))) ∧
      (∀ Ψ, DropRule I.n pr.dropL Ψ → ∀ a, a < r.m → ∀ j, j < I.n → a < j →
        r.Lbar j a = Lt j a ∨ (r.Lbar j a = 0 ∧ Ψ (r.kL.get a) (r.q.p.get a) (Lt j a))) := by
  have hmle := hI.mle
  have htot := h.tot
  obtain ⟨zr, r1, r2, r3, r4, -⟩ := back_one h.rpos (by omega) h.p
  obtain ⟨zc, c1, c2, c3, c4, -⟩ := back_one h.cpos (by omega) h.q
  have hB : ∀ i j, i < I.n → j < I.n → Out.target I r i j = I.B (zr i) (zc j) := by
    intro i j hi hj
    unfold Out.target In.B; rw [r3 i hi, c3 j hj]
  have hUb : ∀ a j, a < r.m → j < I.n → a < j → r.Ubar a j = g.Us a (zc j) := by
    intro a j ha hj hlt
    have e1 := h.U.entry ha (c1 j hj).1
    rw [(c1 j hj).2] at e1
    unfold Out.Ubar; rw [if_neg (by omega)]; exact e1
  have hLb : ∀ a j, a < r.m → j < I.n → a < j → r.Lbar j a = g.Ls a (zr j) := by
    intro a j ha hj hlt
    have e1 := h.L.entry ha (r1 j hj).1
    rw [(r1 j hj).2] at e1
    unfold Out.Lbar; rw [if_neg (by omega)]; exact e1
  have N := h.num
  have hres : ∀ a i j, a < r.m → i < I.n → j < I.n → a ≤ i → a ≤ j → res I.B g.Ls g.Us r.d.get a (zr i) (zc j) =
      Out.target I r i j - ∑ b ∈ range a, r.Lbar i b * r.d.get b * r.Ubar b j := by
    intro a i j ha hi hj h1 h2
    unfold res
    rw [hB i j hi hj]
    congr 1
    refine sum_congr rfl fun b hb => ?_
    have hb := mem_range.1 hb
    rw [hLb b i (by omega) hi (by omega), hUb b j (by omega) hj (by omega)]
  refine ⟨fun a j => g.Ut a (zc j), fun i a => g.Lt a (zr i), ?_, ?_, ?_, ?_, ?_, ?_, ?_, ?_⟩
  · intro a ha j hj hlt
    rw [N.recU a ha (zc j) (c1 j hj).1 ((c4 a ha j hj).2 hlt), ← r2 a ha]
    exact hres a a j ha (by omega) hj (le_refl _) (by omega)
  · intro a ha i hi hlt
    rw [N.recL a ha (zr i) (r1 i hi).1 ((r4 a ha i hi).2 hlt), ← c2 a ha]
    exact hres a i a ha hi (by omega) (by omega) (le_refl _)
  · intro a ha
    rw [← hres a a a ha (by omega) (by omega) (le_refl _) (le_refl _), r2 a ha, c2 a ha]
    exact N.diag a ha
  · intro a ha j hj hlt
    rw [hUb a j ha hj hlt, hLb a j ha hj hlt]
    exact ⟨N.keepU a ha _ (c1 j hj).1, N.keepL a ha _ (r1 j hj).1⟩
  · intro hk a ha j hj hlt
    rw [hUb a j ha hj hlt]; exact N.allU hk a ha _ (c1 j hj).1
  · intro hk a ha j hj hlt
    rw [hLb a j ha hj hlt]; exact N.allL hk a ha _ (r1 j hj).1
  · intro Ψ hΨ a ha j hj hlt
    rw [hUb a j ha hj hlt, r3 a (by omega), r2 a ha]; exact h.rulU Ψ hΨ a ha _ (c1 j hj).1
  · intro Ψ hΨ a ha j hj hlt
    rw [hLb a j ha hj hlt, c3 a (by omega), c2 a ha]; exact h.rulL Ψ hΨ a ha _ (r1 j hj).1

/-- The product of the factors in terms of the sum up to the smaller index. -/
theorem PFinal.prod {r : Out K} {g : Gh K} (h : PFinal pr I ΦU ΦL r g) {i j a : Nat} (ha : a < r.m) (hmin : a = min i j) :
    ∑ b ∈ range r.m, r.Lbar i b * r.d.get b * r.Ubar b j =
      (∑ b ∈ range a, r.Lbar i b * r.d.get b * r.Ubar b j) + r.Lbar i a * r.d.get a * r.Ubar a j := by
  refine sum_upto ha _ fun b h1 h2 => ?_
  rcases Nat.lt_or_ge i b with hc | hc
  · have : r.Lbar i b = 0 := by
      unfold Out.Lbar; rw [if_neg (by omega)]; exact h.L.zero h2 (by omega)
    rw [this, zero_mul, zero_mul]
  · have : r.Ubar b j = 0 := by
      unfold Out.Ubar; rw [if_neg (by omega)]; exact h.U.zero h2 (by omega)
    rw [this, mul_zero]

/-- Exactness of the rows of `U` (of the columns of `L`) when nothing is dropped in it; the diagonal is exact in any case. -/
theorem PFinal.exact {r : Out K} {g : Gh K} (hI : InOK I) (h : PFinal pr I ΦU ΦL r g) {i j : Nat} (hi : i < I.n) (hj : j < I.n) (hm : min i j < r.m)
    (kU : i < j → KeepsAll I.n pr.dropU) (kL : j < i → KeepsAll I.n pr.dropL) :
    ∑ b ∈ range r.m, r.Lbar i b * r.d.get b * r.Ubar b j = Out.target I r i j := by
  obtain ⟨Ut, Lt, e1, e2, e3, -, e5, e6, -, -⟩ := h.recs hI
  rw [h.prod hm rfl]
  rcases Nat.lt_trichotomy i j with hlt | heq | hgt
  · rw [show min i j = i by omega] at hm ⊢
    have hL1 : r.Lbar i i = 1 := if_pos rfl
    rw [hL1, one_mul, e5 (kU hlt) i hm j hj hlt, e1 i hm j hj hlt]; ring
  · subst heq
    rw [show min i i = i by omega] at hm ⊢
    have hL1 : r.Lbar i i = 1 := if_pos rfl
    have hU1 : r.Ubar i i = 1 := if_pos rfl
    rw [hL1, hU1, one_mul, mul_one]
    have := e3 i hm
    linear_combination this
  · rw [show min i j = j by omega] at hm ⊢
    have hU1 : r.Ubar j j = 1 := if_pos rfl
    rw [hU1, mul_one, e6 (kL hgt) j hm i hi hgt, e2 j hm i hi hgt]; ring

/-- The phase with pivoting. -/
theorem PFinal.res {r : Out K} {g : Gh K} (hI : InOK I) (h : PFinal pr I ΦU ΦL r g) : Res pr.toPar I ΦU ΦL r := by
  have hmle := hI.mle
  have htot := h.tot
  obtain ⟨zr, r1, r2, r3, r4, -⟩ := back_one h.rpos (by omega) h.p
  obtain ⟨zc, c1, c2, c3, c4, -⟩ := back_one h.cpos (by omega) h.q
  exact {
    tot := h.tot, cnt := h.cnt, psz := h.psz, qsz := h.qsz, pinv := h.pinv, qinv := h.qinv, dsz := h.dsz
    U := h.U.toEntry fun i hi l hl => by rw [r3 i (by omega), r2 i hi]; exact hl
    L := h.L.toEntry fun i hi l hl => by rw [c3 i (by omega), c2 i hi]; exact hl
    good := h.num.good
    kapU := fun a ha => by
      obtain ⟨k1, k2⟩ := h.kapU a ha
      refine ⟨?_, k2⟩
      rw [k1]
      split
      · rfl
      · refine congrArg _ (sum_congr rfl fun i hi => ?_)
        have hi := mem_range.1 hi
        have e1 := h.U.entry (show i < r.m by omega) (c1 a (by omega)).1
        rw [(c1 a (by omega)).2, c2 a ha] at e1
        unfold Out.Ubar
        rw [if_neg (by omega), e1]
    kapL := fun a ha => by
      obtain ⟨k1, k2⟩ := h.kapL a ha
      refine ⟨?_, k2⟩
      rw [k1]
      split
      · rfl
      · refine congrArg _ (sum_congr rfl fun i hi => ?_)
        have hi := mem_range.1 hi
        have e1 := h.L.entry (show i < r.m by omega) (r1 a (by omega)).1
        rw [(r1 a (by omega)).2, r2 a ha] at e1
        unfold Out.Lbar
        rw [if_neg (by omega), e1]
    exact := fun kU kL i j hi hj hm => h.exact hI hi hj hm (fun _ => kU) (fun _ => kL)
    lR := h.lR
    utR := h.utR }

end PCrout
end Hif
