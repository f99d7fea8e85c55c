import Verif.PCroutVec
import Verif.CroutFin

set_option linter.unusedVariables false
set_option linter.unusedSectionVars false
set_option linter.unusedSimpArgs false

/-!
# The Crout update with pivoting: positions, permutations and invariant (proofs)

Ghost state: rows and columns move separately.  `vr x` is the present position of the row that preprocessing put at position
`x` and `orow j` the row at position `j` (`vc`, `ocol` for columns).  Positions in use are `[0,k)` (eliminated) and `[k+δ, n+δ)`.
Every operation of the loop exchanges two positions.
-/

namespace Hif.PCrout
open Finset Crout
variable {K : Type _}

/-- Positions in use. -/
def Live (n k δ j : Nat) : Prop := j < k ∨ (k + δ ≤ j ∧ j < n + δ)

/-- Positions of the rows (or columns). -/
structure PPos (n k δ : Nat) (v o : Nat → Nat) : Prop where
  to_pos : ∀ x, x < n → Live n k δ (v x) ∧ o (v x) = x
  from_pos : ∀ j, Live n k δ j → o j < n ∧ v (o j) = j

theorem swap_below {a b M : Nat} (ha : a < M) (hb : b < M) (j : Nat) : Equiv.swap a b j < M ↔ j < M := by
  by_cases h1 : j = a
  · rw [h1, Equiv.swap_apply_left]; omega
  · by_cases h2 : j = b
    · rw [h2, Equiv.swap_apply_right]; omega
    · rw [Equiv.swap_apply_of_ne_of_ne h1 h2]

theorem swap_low {k a b j : Nat} (ha : k ≤ a) (hb : k ≤ b) (hj : j < k) : Equiv.swap a b j = j :=
  Equiv.swap_apply_of_ne_of_ne (by omega) (by omega)

theorem lt_swap {k a b j h : Nat} (ha : k ≤ a) (hb : k ≤ b) (hh : h < k) : h < Equiv.swap a b j ↔ h < j := by
  rw [Equiv.swap_apply_def]
  split
  · omega
  · split <;> omega

section pos
variable {n k δ k' δ' : Nat} {v o : Nat → Nat}

theorem PPos.init (n : Nat) : PPos n 0 0 (fun x => x) (fun x => x) :=
  ⟨fun x hx => ⟨Or.inr ⟨by omega, by omega⟩, rfl⟩, fun j hj => ⟨by rcases hj with h | h <;> omega, rfl⟩⟩

/-- Exchange of two positions. -/
theorem PPos.swap (h : PPos n k δ v o) (a b : Nat) (hl : ∀ j, Live n k' δ' j ↔ Live n k δ (Equiv.swap a b j)) :
    PPos n k' δ' (fun x => Equiv.swap a b (v x)) (fun j => o (Equiv.swap a b j)) := by
  refine ⟨fun x hx => ?_, fun j hj => ?_⟩
  · obtain ⟨h1, h2⟩ := h.to_pos x hx
    refine ⟨?_, by simp only [Equiv.swap_apply_self]; exact h2⟩
    rw [hl, Equiv.swap_apply_self]; exact h1
  · obtain ⟨h1, h2⟩ := h.from_pos _ ((hl j).1 hj)
    exact ⟨h1, by simp only [h2, Equiv.swap_apply_self]⟩

theorem PPos.inj (h : PPos n k δ v o) {x y : Nat} (hx : x < n) (hy : y < n) (e : v x = v y) : x = y := by
  rw [← (h.to_pos x hx).2, ← (h.to_pos y hy).2, e]

theorem PPos.oinj (h : PPos n k δ v o) {i j : Nat} (hi : Live n k δ i) (hj : Live n k δ j) (e : o i = o j) : i = j := by
  rw [← (h.from_pos i hi).2, ← (h.from_pos j hj).2, e]

theorem live_swap {a b : Nat} (ha : k + δ ≤ a) (ha' : a < n + δ) (hb : k + δ ≤ b) (hb' : b < n + δ) (j : Nat) :
    Live n k δ j ↔ Live n k δ (Equiv.swap a b j) := by
  unfold Live
  rw [Equiv.swap_apply_def]
  split
  · omega
  · split <;> omega

theorem live_defer (h : k + δ < n) (j : Nat) : Live n k (δ + 1) j ↔ Live n k δ (Equiv.swap (k + δ) (n + δ) j) := by
  unfold Live
  rw [Equiv.swap_apply_def]
  split
  · omega
  · split <;> omega

theorem live_keep (h : k + δ < n) (j : Nat) : Live n (k + 1) δ j ↔ Live n k δ (Equiv.swap k (k + δ) j) := by
  unfold Live
  rw [Equiv.swap_apply_def]
  split
  · omega
  · split <;> omega

theorem PPos.other (h : PPos n k δ v o) (hlt : k + δ < n) {x : Nat} (hx : x < n) (hne : v x ≠ k + δ) : v x < k ∨ (k + δ < v x ∧ v x < n + δ) := by
  rcases (h.to_pos x hx).1 with h1 | h1
  · exact Or.inl h1
  · exact Or.inr ⟨by omega, h1.2⟩

end pos

/-- One permutation with its inverse and the widened copy; the copy is in use for positions `≥ m2` only. -/
structure PPerm (n m2 k δ : Nat) (o : Nat → Nat) (p0 p pinv : Buf Nat) (P : Buf (Option Nat)) : Prop where
  psz : p.size = n
  isz : pinv.size = n
  Psz : P.size = 2 * n
  kept : ∀ j, j < k → p.get j = p0.get (o j)
  pend : ∀ j, k + δ ≤ j → j < n → p.get j = p0.get (o j)
  big : ∀ j, m2 ≤ j → j < n + δ → P.get j = some (p0.get (o j))
  inv : ∀ j, k + δ ≤ j → j < n + δ → pinv.get (p0.get (o j)) = j
  small : ∀ j, j < k → pinv.get (p0.get (o j)) < k + δ
  fix : ∀ j, m2 ≤ j → j < n → o j = j

section perm
variable {n m2 k δ : Nat} {v o : Nat → Nat} {p0 p pinv : Buf Nat} {P : Buf (Option Nat)}

theorem PPerm.defer (h : PPerm n m2 k δ o p0 p pinv P) (hp : PPos n k δ v o) (hlt : k + δ < m2) (hmle : m2 ≤ n) (h0 : Spec.IsPerm n p0.get) :
    PPerm n m2 k (δ + 1) (fun j => o (Equiv.swap (k + δ) (n + δ) j)) p0 p (pinv.set (p0.get (o (k + δ))) (n + δ))
      ((P.set (n + δ) (some (p0.get (o (k + δ))))).set (k + δ) none) := by
  have hds : Live n k δ (k + δ) := Or.inr ⟨le_refl _, by omega⟩
  have hd : ∀ j, Live n k δ j → j ≠ k + δ → p0.get (o j) ≠ p0.get (o (k + δ)) := fun j hj hne e =>
    hne (hp.oinj hj hds (h0.2 _ _ (hp.from_pos j hj).1 (hp.from_pos _ hds).1 e))
  have hsw : ∀ j, j ≠ k + δ → j ≠ n + δ → Equiv.swap (k + δ) (n + δ) j = j := fun j h1 h2 => Equiv.swap_apply_of_ne_of_ne h1 h2
  refine ⟨h.psz, by rw [Buf.set_size]; exact h.isz, by simp only [Buf.set_size]; exact h.Psz, ?_, ?_, ?_, ?_, ?_,
    fun j h1 h2 => by simp only [hsw j (by omega) (by omega)]; exact h.fix j h1 h2⟩
  · intro j hj
    simp only [hsw j (by omega) (by omega)]; exact h.kept j hj
  · intro j h1 h2
    simp only [hsw j (by omega) (by omega)]; exact h.pend j (by omega) h2
  · intro j h1 h2
    rw [Buf.set_get_ne _ _ (by omega)]
    by_cases e : j = n + δ
    · simp only [e, Equiv.swap_apply_right, Buf.set_get_self]
    · simp only [hsw j (by omega) e]
      rw [Buf.set_get_ne _ _ e]; exact h.big j h1 (by omega)
  · intro j h1 h2
    by_cases e : j = n + δ
    · simp only [e, Equiv.swap_apply_right, Buf.set_get_self]
    · simp only [hsw j (by omega) e]
      rw [Buf.set_get_ne _ _ (hd j (Or.inr ⟨by omega, by omega⟩) (by omega))]; exact h.inv j (by omega) (by omega)
  · intro j hj
    simp only [hsw j (by omega) (by omega)]
    rw [Buf.set_get_ne _ _ (hd j (Or.inl hj) (by omega))]
    have := h.small j hj; omega

theorem PPerm.keep (h : PPerm n m2 k δ o p0 p pinv P) (hlt : k + δ < m2) (hmle : m2 ≤ n) :
    PPerm n m2 (k + 1) δ (fun j => o (Equiv.swap k (k + δ) j)) p0 (p.set k (p.get (k + δ))) pinv P := by
  have hsw : ∀ j, j ≠ k → j ≠ k + δ → Equiv.swap k (k + δ) j = j := fun j h1 h2 => Equiv.swap_apply_of_ne_of_ne h1 h2
  refine ⟨by rw [Buf.set_size]; exact h.psz, h.isz, h.Psz, ?_, ?_, ?_, ?_, ?_,
    fun j h1 h2 => by simp only [hsw j (by omega) (by omega)]; exact h.fix j h1 h2⟩
  · intro j hj
    by_cases e : j = k
    · simp only [e, Equiv.swap_apply_left, Buf.set_get_self]; exact h.pend _ (le_refl _) (by omega)
    · simp only [hsw j e (by omega)]
      rw [Buf.set_get_ne _ _ e]; exact h.kept j (by omega)
  · intro j h1 h2
    simp only [hsw j (by omega) (by omega)]
    rw [Buf.set_get_ne _ _ (by omega)]; exact h.pend j (by omega) h2
  · intro j h1 h2
    simp only [hsw j (by omega) (by omega)]; exact h.big j h1 h2
  · intro j h1 h2
    simp only [hsw j (by omega) (by omega)]; exact h.inv j (by omega) h2
  · intro j hj
    by_cases e : j = k
    · simp only [e, Equiv.swap_apply_left]; rw [h.inv _ (le_refl _) (by omega)]; omega
    · simp only [hsw j e (by omega)]
      have := h.small j (by omega); omega

theorem PPerm.swap (h : PPerm n m2 k δ o p0 p pinv P) (hp : PPos n k δ v o) {pv : Nat} (h1 : k + δ ≤ pv) (h2 : pv < m2) (hmle : m2 ≤ n)
    (h0 : Spec.IsPerm n p0.get) {p' pinv' : Buf Nat} (hp1 : p'.size = n) (hp2 : ∀ i, p'.get i = p.get (Equiv.swap (k + δ) pv i))
    (hi1 : pinv'.size = n) (hi2 : ∀ i, pinv'.get i = pinv.get (Equiv.swap (p0.get (o pv)) (p0.get (o (k + δ))) i)) :
    PPerm n m2 k δ (fun j => o (Equiv.swap (k + δ) pv j)) p0 p' pinv' P := by
  have hds : Live n k δ (k + δ) := Or.inr ⟨le_refl _, by omega⟩
  have hpv : Live n k δ pv := Or.inr ⟨h1, by omega⟩
  have hinj : ∀ i j, Live n k δ i → Live n k δ j → p0.get (o i) = p0.get (o j) → i = j := fun i j hi hj e =>
    hp.oinj hi hj (h0.2 _ _ (hp.from_pos _ hi).1 (hp.from_pos _ hj).1 e)
  have hsw : ∀ j, j ≠ k + δ → j ≠ pv → Equiv.swap (k + δ) pv j = j := fun j h1 h2 => Equiv.swap_apply_of_ne_of_ne h1 h2
  refine ⟨hp1, hi1, h.Psz, ?_, ?_, ?_, ?_, ?_,
    fun j h1 h2 => by simp only [hsw j (by omega) (by omega)]; exact h.fix j h1 h2⟩
  · intro j hj
    simp only [hp2, hsw j (by omega) (by omega)]; exact h.kept j hj
  · intro j g1 g2
    rw [hp2]
    refine h.pend _ ?_ ?_ <;> rw [Equiv.swap_apply_def] <;> split <;> try omega
    all_goals split <;> omega
  · intro j g1 g2
    simp only [hsw j (by omega) (by omega)]; exact h.big j g1 g2
  · intro j g1 g2
    rw [hi2]
    by_cases e1 : j = k + δ
    · simp only [e1, Equiv.swap_apply_left]; exact h.inv _ (le_refl _) (by omega)
    · by_cases e2 : j = pv
      · simp only [e2, Equiv.swap_apply_right]; exact h.inv _ h1 (by omega)
      · simp only [hsw j e1 e2]
        have hj : Live n k δ j := Or.inr ⟨g1, g2⟩
        rw [Equiv.swap_apply_of_ne_of_ne (fun e => e2 (hinj _ _ hj hpv e)) (fun e => e1 (hinj _ _ hj hds e))]
        exact h.inv j g1 g2
  · intro j hj
    simp only [hsw j (by omega) (by omega), hi2]
    have hjl : Live n k δ j := Or.inl hj
    rw [Equiv.swap_apply_of_ne_of_ne (fun e => by have := hinj _ _ hjl hpv e; omega) (fun e => by have := hinj _ _ hjl hds e; omega)]
    exact h.small j hj

/-- Values of the inverse permutation. -/
theorem PPerm.inv_facts (h : PPerm n m2 k δ o p0 p pinv P) (hp : PPos n k δ v o) {pinv0 : Buf Nat} (h0 : Spec.Inverse n p0.get pinv0.get) (hlt : k + δ < n) :
    (∀ a, a < n → pinv.get a < n + δ) ∧ (∀ a b, a < n → b < n → k + δ ≤ pinv.get a → pinv.get a = pinv.get b → a = b) := by
  have hcase : ∀ a, a < n → (pinv.get a < k + δ) ∨ (k + δ ≤ pinv.get a ∧ pinv.get a < n + δ ∧ p0.get (o (pinv.get a)) = a) := by
    intro a ha
    obtain ⟨h1, h2⟩ := h0.2 a ha
    obtain ⟨h3, h4⟩ := hp.to_pos _ h1
    rcases h3 with h3 | h3
    · have := h.small _ h3
      rw [h4, h2] at this; exact Or.inl this
    · have := h.inv _ h3.1 h3.2
      rw [h4, h2] at this
      rw [this]
      exact Or.inr ⟨h3.1, h3.2, by rw [h4, h2]⟩
  constructor
  · intro a ha
    rcases hcase a ha with h1 | h1 <;> omega
  · intro a b ha hb hge e
    rcases hcase a ha with h1 | ⟨h1, h2, h3⟩
    · omega
    · rcases hcase b hb with g1 | ⟨g1, g2, g3⟩
      · omega
      · rw [← h3, ← g3, e]

end perm

section main
variable [Field K] [DecidableEq K] {R : Type _} [Mul R] [LinearOrder R]

/-- What is left of the entry `(a, b)` after `h` steps. -/
def res (B Ls Us : Nat → Nat → K) (d : Nat → K) (h a b : Nat) : K := B a b - ∑ g ∈ range h, Ls g a * d g * Us g b

/-- Recurrences satisfied by the factors. -/
structure PNum (pr : Crout.Par K R) (n k : Nat) (B : Nat → Nat → K) (vr orow vc ocol : Nat → Nat) (Us Ut Ls Lt : Nat → Nat → K) (d : Nat → K) : Prop where
  recU : ∀ h, h < k → ∀ x, x < n → h < vc x → d h * Ut h x = res B Ls Us d h (orow h) x
  recL : ∀ h, h < k → ∀ x, x < n → h < vr x → Lt h x * d h = res B Ls Us d h x (ocol h)
  diag : ∀ h, h < k → d h = res B Ls Us d h (orow h) (ocol h)
  keepU : ∀ h, h < k → ∀ x, x < n → Us h x = Ut h x ∨ Us h x = 0
  keepL : ∀ h, h < k → ∀ x, x < n → Ls h x = Lt h x ∨ Ls h x = 0
  allU : KeepsAll n pr.dropU → ∀ h, h < k → ∀ x, x < n → Us h x = Ut h x
  allL : KeepsAll n pr.dropL → ∀ h, h < k → ∀ x, x < n → Ls h x = Lt h x
  zeroU : ∀ h, h < k → ∀ x, x < n → vc x ≤ h → Ut h x = 0
  zeroL : ∀ h, h < k → ∀ x, x < n → vr x ≤ h → Lt h x = 0
  good : ∀ h, h < k → badDiag pr (d h) = false

theorem res_congr {B Ls Us Ls' Us' : Nat → Nat → K} {d d' : Nat → K} {h a b : Nat} (h1 : ∀ g, g < h → Ls' g a = Ls g a) (h2 : ∀ g, g < h → Us' g b = Us g b)
    (h3 : ∀ g, g < h → d' g = d g) : res B Ls' Us' d' h a b = res B Ls Us d h a b := by
  unfold res
  congr 1
  refine sum_congr rfl fun g hg => ?_
  have hg := mem_range.1 hg
  rw [h1 g hg, h2 g hg, h3 g hg]

theorem PNum.move {pr : Crout.Par K R} {n k : Nat} {B : Nat → Nat → K} {vr orow vc ocol : Nat → Nat} {Us Ut Ls Lt : Nat → Nat → K} {d d' : Nat → K}
    (h : PNum pr n k B vr orow vc ocol Us Ut Ls Lt d) (hd : ∀ i, i < k → d' i = d i) {a b a' b' : Nat} (ha : k ≤ a) (hb : k ≤ b) (ha' : k ≤ a') (hb' : k ≤ b') :
    PNum pr n k B (fun x => Equiv.swap a b (vr x)) (fun j => orow (Equiv.swap a b j)) (fun x => Equiv.swap a' b' (vc x)) (fun j => ocol (Equiv.swap a' b' j))
      Us Ut Ls Lt d' := by
  have hres : ∀ i x y, i < k → res B Ls Us d' i x y = res B Ls Us d i x y := fun i x y hi =>
    res_congr (fun _ _ => rfl) (fun _ _ => rfl) (fun g hg => hd g (by omega))
  refine ⟨fun i hi x hx hv => ?_, fun i hi x hx hv => ?_, fun i hi => ?_, h.keepU, h.keepL, h.allU, h.allL, fun i hi x hx hv => ?_, fun i hi x hx hv => ?_, fun i hi => ?_⟩
  · rw [hres _ _ _ hi, hd i hi, swap_low ha hb hi]; exact h.recU i hi x hx ((lt_swap ha' hb' hi).1 hv)
  · rw [hres _ _ _ hi, hd i hi, swap_low ha' hb' hi]; exact h.recL i hi x hx ((lt_swap ha hb hi).1 hv)
  · rw [hres _ _ _ hi, hd i hi, swap_low ha hb hi, swap_low ha' hb' hi]; exact h.diag i hi
  · refine h.zeroU i hi x hx ?_
    have := lt_swap (j := vc x) ha' hb' hi; omega
  · refine h.zeroL i hi x hx ?_
    have := lt_swap (j := vr x) ha hb hi; omega
  · rw [hd i hi]; exact h.good i hi

/-- Ghost variables. -/
structure Gh (K : Type _) where
  vr : Nat → Nat
  orow : Nat → Nat
  vc : Nat → Nat
  ocol : Nat → Nat
  Us : Nat → Nat → K
  Ut : Nat → Nat → K
  Ls : Nat → Nat → K
  Lt : Nat → Nat → K
  /-- Steps whose pivot need not satisfy the threshold. -/
  S : Finset Nat

/-- The ghost variables after an exchange of rows `a`, `b` and of columns `a'`, `b'`. -/
def Gh.swap (g : Gh K) (a b a' b' : Nat) : Gh K :=
  { g with vr := fun x => Equiv.swap a b (g.vr x), orow := fun j => g.orow (Equiv.swap a b j), vc := fun x => Equiv.swap a' b' (g.vc x), ocol := fun j => g.ocol (Equiv.swap a' b' j) }

/-- The estimate that the line `x` would have at step `a`. -/
def est (nrm : K → R) (kap : Nat → K) (T : Nat → Nat → K) (a x : Nat) : K := if a = 0 then 1 else kappaPick nrm (∑ i ∈ range a, kap i * T i x)

/-- What the threshold test needs to know about threshold, magnitude and sorting. -/
structure RookPar (pr : Par K R) : Prop where
  zero : ∀ k, pr.gamma * pr.nrm 0 ≤ pr.nrm k
  no : ∀ a b k, pr.nrm a ≤ pr.nrm b → pr.gamma * max (pr.nrm b) (pr.nrm k) ≤ pr.nrm k → pr.gamma * pr.nrm a ≤ pr.nrm k
  le : ∀ a b, pr.nrm a ≤ pr.nrm b → pr.gamma * pr.nrm a ≤ pr.nrm b
  yes : ∀ b k, pr.nrm k < pr.gamma * max (pr.nrm b) (pr.nrm k) → pr.nrm k ≤ pr.nrm b
  sort : ∀ f l, (pr.srt f l).Pairwise fun a b => f b ≤ f a

/-- The pivots of one factor satisfy the threshold: for the lines at positions in the leading block whose estimate is acceptable. -/
def Thres (pr : Par K R) (n m2 k : Nat) (S : Finset Nat) (v : Nat → Nat) (kap : Nat → K) (T Tt : Nat → Nat → K) (d : Nat → K) : Prop :=
  ∀ a, a < k → a ∉ S → ∀ x, x < n → a < v x → v x < m2 → pr.nrm (est pr.nrm kap T a x) ≤ pr.kappa → pr.gamma * pr.nrm (Tt a x * d a) ≤ pr.nrm (d a)

theorem est_congr {nrm : K → R} {kap kap' : Nat → K} {T T' : Nat → Nat → K} {a x : Nat} (h1 : ∀ i, i < a → kap' i = kap i) (h2 : ∀ i, i < a → T' i x = T i x) :
    est nrm kap' T' a x = est nrm kap T a x := by
  unfold est
  rw [sum_congr rfl fun i hi => by rw [h1 i (mem_range.1 hi), h2 i (mem_range.1 hi)]]

theorem Thres.move {pr : Par K R} {n m2 k : Nat} {S : Finset Nat} {v v' : Nat → Nat} {kap kap' : Nat → K} {T Tt : Nat → Nat → K} {d d' : Nat → K}
    (h : Thres pr n m2 k S v kap T Tt d) (hd : ∀ i, i < k → d' i = d i) (hk : ∀ i, i < k → kap' i = kap i)
    (hv : ∀ a x, a < k → x < n → a < v' x → v' x < m2 → a < v x ∧ v x < m2) : Thres pr n m2 k S v' kap' T Tt d' := by
  intro a ha hS x hx h1 h2 h3
  obtain ⟨h4, h5⟩ := hv a x ha hx h1 h2
  rw [est_congr (fun i hi => hk i (by omega)) (fun _ _ => rfl)] at h3
  rw [hd a ha]
  exact h a ha hS x hx h4 h5 h3

/-- Loop invariant, except for the two work vectors. -/
structure PInv (pr : Par K R) (I : In K) (ΦU ΦL : Nat → Nat → Prop) (c : St K) (g : Gh K) : Prop where
  le : c.step + c.defers ≤ I.m2
  m : c.m = I.m2 - c.defers
  rpos : PPos I.n c.step c.defers g.vr g.orow
  cpos : PPos I.n c.step c.defers g.vc g.ocol
  perm : PPerm I.n I.m2 c.step c.defers g.orow I.p0 c.p c.pinv c.P
  qerm : PPerm I.n I.m2 c.step c.defers g.ocol I.q0 c.q c.qinv c.Q
  U : PSideOK I.n I.m2 c.step c.defers c.U
  L : PSideOK I.n I.m2 c.step c.defers c.L
  dsz : c.d.size = I.m2
  kUsz : c.kU.size = I.m2
  kLsz : c.kL.size = I.m2
  entU : ∀ h, h < c.step → ∀ x, x < I.n → ent (c.U.A.cs.line h) (g.vc x) = g.Us h x
  entL : ∀ h, h < c.step → ∀ x, x < I.n → ent (c.L.A.cs.line h) (g.vr x) = g.Ls h x
  num : PNum pr.toPar I.n c.step I.B g.vr g.orow g.vc g.ocol g.Us g.Ut g.Ls g.Lt c.d.get
  kapU : Kap pr.toPar c.step c.kU g.Us g.ocol
  kapL : Kap pr.toPar c.step c.kL g.Ls g.orow
  rulU : ∀ Ψ, DropRule I.n pr.dropU Ψ → ∀ h, h < c.step → ∀ x, x < I.n →
    g.Us h x = g.Ut h x ∨ (g.Us h x = 0 ∧ Ψ (c.kU.get h) (I.p0.get (g.orow h)) (g.Ut h x))
  rulL : ∀ Ψ, DropRule I.n pr.dropL Ψ → ∀ h, h < c.step → ∀ x, x < I.n →
    g.Ls h x = g.Lt h x ∨ (g.Ls h x = 0 ∧ Ψ (c.kL.get h) (I.q0.get (g.ocol h)) (g.Lt h x))
  cntU : ∀ h, h < c.step → ΦU (I.p0.get (g.orow h)) (c.U.A.cs.line h).length
  cntL : ∀ h, h < c.step → ΦL (I.q0.get (g.ocol h)) (c.L.A.cs.line h).length
  thrU : RookPar pr → Thres pr I.n I.m2 c.step g.S g.vc c.kU.get g.Us g.Ut c.d.get
  thrL : RookPar pr → Thres pr I.n I.m2 c.step g.S g.vr c.kL.get g.Ls g.Lt c.d.get
  slack : 4 * g.S.card ≤ 4 * c.defers + c.nU
  idle : (∀ k b, ¬ pr.nrm k < pr.gamma * max (pr.nrm b) (pr.nrm k)) → c.nL = 0 ∧ c.nU = 0

variable {pr : Par K R} {I : In K} {ΦU ΦL : Nat → Nat → Prop}

/-- A change that touches neither factors nor permutations. -/
theorem PInv.same {c : St K} {g : Gh K} (h : PInv pr I ΦU ΦL c g) {d kU kL : Buf K} {ut l : SV K} {a b : Nat} (hds : d.size = I.m2) (hd : ∀ i, i < c.step → d.get i = c.d.get i)
    (hus : kU.size = I.m2) (hu : ∀ i, i < c.step → kU.get i = c.kU.get i) (hls : kL.size = I.m2) (hl : ∀ i, i < c.step → kL.get i = c.kL.get i) :
    PInv pr I ΦU ΦL { c with d := d, kU := kU, kL := kL, ut := ut, l := l, nDiag := a, nCond := b } g := by
  have hN := h.num.move hd (le_refl _) (le_refl _) (le_refl _) (le_refl _)
  simp only [Equiv.swap_self, Equiv.refl_apply] at hN
  exact { h with
    dsz := hds, kUsz := hus, kLsz := hls
    num := hN
    kapU := h.kapU.congr hu (fun _ _ _ _ => rfl)
    kapL := h.kapL.congr hl (fun _ _ _ _ => rfl)
    rulU := fun Ψ hΨ i hi x hx => by
      have hi : i < c.step := hi
      show _ ∨ (_ ∧ Ψ (kU.get i) _ _)
      rw [hu i hi]; exact h.rulU Ψ hΨ i hi x hx
    rulL := fun Ψ hΨ i hi x hx => by
      have hi : i < c.step := hi
      show _ ∨ (_ ∧ Ψ (kL.get i) _ _)
      rw [hl i hi]; exact h.rulL Ψ hΨ i hi x hx
    thrU := fun hr => (h.thrU hr).move hd hu (fun _ _ _ _ h1 h2 => ⟨h1, h2⟩)
    thrL := fun hr => (h.thrL hr).move hd hl (fun _ _ _ _ h1 h2 => ⟨h1, h2⟩) }

theorem ent_swap {n k : Nat} {S S' : PSide K} {T : Nat → Nat → K} {v : Nat → Nat} {a b : Nat}
    (hp : ∀ i, i < k → (S'.A.cs.line i).Perm ((S.A.cs.line i).map (mapF (Equiv.swap a b)))) (he : ∀ h, h < k → ∀ x, x < n → ent (S.A.cs.line h) (v x) = T h x) :
    ∀ h, h < k → ∀ x, x < n → ent (S'.A.cs.line h) (Equiv.swap a b (v x)) = T h x := by
  intro i hi x hx
  rw [ent_perm (hp i hi), ent_mapF (Equiv.injective _)]
  exact he i hi x hx

/-- An exchange of positions. -/
theorem PInv.move {c c' : St K} {g : Gh K} (h : PInv pr I ΦU ΦL c g) {a b a' b' : Nat} (ha : c.step ≤ a) (hb : c.step ≤ b) (ha' : c.step ≤ a') (hb' : c.step ≤ b')
    (hk : c'.step = c.step) (hle : c'.step + c'.defers ≤ I.m2) (hm : c'.m = I.m2 - c'.defers)
    (hr : ∀ j, Live I.n c'.step c'.defers j ↔ Live I.n c.step c.defers (Equiv.swap a b j))
    (hcl : ∀ j, Live I.n c'.step c'.defers j ↔ Live I.n c.step c.defers (Equiv.swap a' b' j))
    (hp : PPerm I.n I.m2 c'.step c'.defers (fun j => g.orow (Equiv.swap a b j)) I.p0 c'.p c'.pinv c'.P)
    (hq : PPerm I.n I.m2 c'.step c'.defers (fun j => g.ocol (Equiv.swap a' b' j)) I.q0 c'.q c'.qinv c'.Q)
    (hU : PSideOK I.n I.m2 c'.step c'.defers c'.U) (hUp : ∀ i, i < c.step → (c'.U.A.cs.line i).Perm ((c.U.A.cs.line i).map (mapF (Equiv.swap a' b'))))
    (hL : PSideOK I.n I.m2 c'.step c'.defers c'.L) (hLp : ∀ i, i < c.step → (c'.L.A.cs.line i).Perm ((c.L.A.cs.line i).map (mapF (Equiv.swap a b))))
    (hds : c'.d.size = I.m2) (hd : ∀ i, i < c.step → c'.d.get i = c.d.get i) (hkU : c'.kU = c.kU) (hkL : c'.kL = c.kL)
    (hbr : ∀ j, Live I.n c.step c.defers j → Equiv.swap a b j < I.m2 → j < I.m2) (hbc : ∀ j, Live I.n c.step c.defers j → Equiv.swap a' b' j < I.m2 → j < I.m2)
    (hsl : 4 * c.defers + c.nU ≤ 4 * c'.defers + c'.nU)
    (hid : (∀ k b, ¬ pr.nrm k < pr.gamma * max (pr.nrm b) (pr.nrm k)) → c'.nL = c.nL ∧ c'.nU = c.nU) :
    PInv pr I ΦU ΦL c' (g.swap a b a' b') := by
  have hlow : ∀ i, i < c.step → (g.swap a b a' b').orow i = g.orow i ∧ (g.swap a b a' b').ocol i = g.ocol i := fun i hi =>
    ⟨congrArg _ (swap_low ha hb hi), congrArg _ (swap_low ha' hb' hi)⟩
  obtain ⟨step, defers, m, d, p, q, pinv, qinv, P, Q, U, L, kU, kL, ut, l, nd, nc, nL, nU⟩ := c'
  simp only at hk hle hm hr hcl hp hq hU hUp hL hLp hds hd hkU hkL hsl hid
  subst hk hkU hkL
  exact {
    le := hle, m := hm
    rpos := h.rpos.swap a b hr
    cpos := h.cpos.swap a' b' hcl
    perm := hp, qerm := hq, U := hU, L := hL, dsz := hds, kUsz := h.kUsz, kLsz := h.kLsz
    entU := ent_swap hUp h.entU
    entL := ent_swap hLp h.entL
    num := h.num.move hd ha hb ha' hb'
    kapU := h.kapU.congr (fun _ _ => rfl) (fun i _ j hj => by rw [(hlow j hj).2]; rfl)
    kapL := h.kapL.congr (fun _ _ => rfl) (fun i _ j hj => by rw [(hlow j hj).1]; rfl)
    rulU := fun Ψ hΨ i hi x hx => by rw [(hlow i hi).1]; exact h.rulU Ψ hΨ i hi x hx
    rulL := fun Ψ hΨ i hi x hx => by rw [(hlow i hi).2]; exact h.rulL Ψ hΨ i hi x hx
    cntU := fun i hi => by
      rw [(hlow i hi).1]
      show ΦU _ (U.A.cs.line i).length
      rw [(hUp i hi).length_eq, List.length_map]; exact h.cntU i hi
    cntL := fun i hi => by
      rw [(hlow i hi).2]
      show ΦL _ (L.A.cs.line i).length
      rw [(hLp i hi).length_eq, List.length_map]; exact h.cntL i hi
    thrU := fun hR => (h.thrU hR).move hd (fun _ _ => rfl) (fun i x hi hx h1 h2 =>
      ⟨(lt_swap ha' hb' hi).1 h1, hbc _ (h.cpos.to_pos x hx).1 h2⟩)
    thrL := fun hR => (h.thrL hR).move hd (fun _ _ => rfl) (fun i x hi hx h1 h2 =>
      ⟨(lt_swap ha hb hi).1 h1, hbr _ (h.rpos.to_pos x hx).1 h2⟩)
    slack := le_trans h.slack hsl
    idle := fun hi => by
      obtain ⟨h1, h2⟩ := hid hi
      obtain ⟨h3, h4⟩ := h.idle hi
      exact ⟨h1.trans h3, h2.trans h4⟩ }

end main
end Hif.PCrout
