import Verif.CroutVec
import Verif.Spec

set_option linter.unusedVariables false
set_option linter.unusedSectionVars false
set_option linter.unusedSimpArgs false

/-!
# The main loop of the Crout update (proofs)

Ghost state: `v x` is the present position of the row/column that preprocessing put at position `x` (`< k` eliminated, in order;
`[k+δ, n)` pending and static tail, unmoved; `[n, n+δ)` deferred, in order); `o h` is the original position of the `h`-th
pivot.  `Ut`, `Lt` are the computed rows of `U` and columns of `L` before dropping, `Us`, `Ls` the stored ones, addressed by
original positions.
-/

namespace Hif.Crout
open Finset
variable {K : Type _}

/-- Function update. -/
def upd {α : Type _} (f : Nat → α) (a : Nat) (b : α) : Nat → α := fun x => if x = a then b else f x

theorem upd_self {α : Type _} (f : Nat → α) (a : Nat) (b : α) : upd f a b a = b := if_pos rfl
theorem upd_ne {α : Type _} (f : Nat → α) {a x : Nat} (b : α) (h : x ≠ a) : upd f a b x = f x := if_neg h

/-- Positions. -/
structure Pos (n k δ : Nat) (v o : Nat → Nat) : Prop where
  past : ∀ x, x < k + δ → (v x < k ∧ o (v x) = x) ∨ (n ≤ v x ∧ v x < n + δ)
  pend : ∀ x, k + δ ≤ x → v x = x
  orig : ∀ h, h < k → o h < k + δ ∧ v (o h) = h
  inj : ∀ x y, x < n → y < n → v x = v y → x = y
  surj : ∀ j, n ≤ j → j < n + δ → ∃ x, x < k + δ ∧ v x = j
  omono : ∀ h h', h < h' → h' < k → o h < o h'
  dmono : ∀ x y, x < y → y < k + δ → n ≤ v x → n ≤ v y → v x < v y

theorem Pos.cases {n k δ : Nat} {v o : Nat → Nat} (h : Pos n k δ v o) (hkn : k + δ ≤ n) {x : Nat} (hx : x < n) :
    v x < k ∨ (k + δ ≤ v x ∧ v x < n + δ) := by
  rcases Nat.lt_or_ge x (k + δ) with h1 | h1
  · rcases h.past x h1 with ⟨h2, -⟩ | h2
    · exact Or.inl h2
    · exact Or.inr ⟨by omega, h2.2⟩
  · rw [h.pend x h1]; exact Or.inr ⟨h1, by omega⟩

/-- A position distinct from the current one keeps away from it. -/
theorem Pos.other {n k δ : Nat} {v o : Nat → Nat} (h : Pos n k δ v o) (hkn : k + δ < n) {x : Nat} (hx : x < n)
    (hne : x ≠ k + δ) : v x < k ∨ (k + δ < v x ∧ v x < n + δ) := by
  rcases h.cases (by omega) hx with h1 | h1
  · exact Or.inl h1
  · refine Or.inr ⟨?_, h1.2⟩
    rcases Nat.lt_or_ge (k + δ) (v x) with h2 | h2
    · exact h2
    · have := h.inj x (k + δ) hx hkn (by rw [h.pend (k + δ) (le_refl _)]; omega)
      omega

theorem Pos.init (n : Nat) (o : Nat → Nat) : Pos n 0 0 (fun x => x) o :=
  ⟨fun x hx => by omega, fun x _ => rfl, fun h hh => by omega, fun x y _ _ e => e, fun j h1 h2 => by omega,
    fun h h' _ h2 => by omega, fun x y _ h2 => by omega⟩

theorem Pos.defer {n k δ : Nat} {v o : Nat → Nat} (h : Pos n k δ v o) (hkn : k + δ < n) :
    Pos n k (δ + 1) (upd v (k + δ) (n + δ)) o := by
  have hne : ∀ x, x < n → x ≠ k + δ → v x ≠ n + δ := by
    intro x hx _
    rcases h.cases (by omega) hx with h1 | h1 <;> omega
  refine ⟨fun x hx => ?_, fun x hx => ?_, fun g hg => ?_, fun x y hx hy e => ?_, fun j h1 h2 => ?_, h.omono, fun x y h1 h2 h3 h4 => ?_⟩
  · by_cases e : x = k + δ
    · rw [e, upd_self]; exact Or.inr ⟨by omega, by omega⟩
    · rw [upd_ne _ _ e]
      rcases h.past x (by omega) with h1 | h1
      · exact Or.inl h1
      · exact Or.inr ⟨h1.1, by omega⟩
  · rw [upd_ne _ _ (by omega)]; exact h.pend x (by omega)
  · obtain ⟨h1, h2⟩ := h.orig g hg
    exact ⟨by omega, by rw [upd_ne _ _ (by omega)]; exact h2⟩
  · by_cases e1 : x = k + δ <;> by_cases e2 : y = k + δ
    · rw [e1, e2]
    · rw [e1, upd_self, upd_ne _ _ e2] at e; exact absurd e.symm (hne y hy e2)
    · rw [e2, upd_self, upd_ne _ _ e1] at e; exact absurd e (hne x hx e1)
    · rw [upd_ne _ _ e1, upd_ne _ _ e2] at e; exact h.inj x y hx hy e
  · by_cases e : j = n + δ
    · exact ⟨k + δ, by omega, by rw [upd_self, e]⟩
    · obtain ⟨x, x1, x2⟩ := h.surj j h1 (by omega)
      exact ⟨x, by omega, by rw [upd_ne _ _ (by omega)]; exact x2⟩
  · rw [upd_ne _ _ (show x ≠ k + δ by omega)] at h3 ⊢
    by_cases e : y = k + δ
    · rw [e, upd_self]
      rcases h.past x (by omega) with h5 | h5 <;> omega
    · rw [upd_ne _ _ e] at h4 ⊢
      exact h.dmono x y h1 (by omega) h3 h4

theorem Pos.keep {n k δ : Nat} {v o : Nat → Nat} (h : Pos n k δ v o) (hkn : k + δ < n) :
    Pos n (k + 1) δ (upd v (k + δ) k) (upd o k (k + δ)) := by
  have hne : ∀ x, x < n → x ≠ k + δ → v x ≠ k := by
    intro x hx e
    rcases h.other hkn hx e with h1 | h1 <;> omega
  refine ⟨fun x hx => ?_, fun x hx => ?_, fun g hg => ?_, fun x y hx hy e => ?_, fun j h1 h2 => ?_, fun g g' h1 h2 => ?_, fun x y h1 h2 h3 h4 => ?_⟩
  · by_cases e : x = k + δ
    · rw [e, upd_self, upd_self]; exact Or.inl ⟨by omega, by tt⟩
    · rw [upd_ne _ _ e]
      rcases h.past x (by omega) with h1 | h1
      · rw [upd_ne _ _ (show v x ≠ k by omega)]; exact Or.inl ⟨by omega, h1.2⟩
      · exact Or.inr h1
  · rw [upd_ne _ _ (by omega)]; exact h.pend x (by omega)
  · by_cases e : g = k
    · rw [e, upd_self]; exact ⟨by omega, upd_self _ _ _⟩
    · obtain ⟨h1, h2⟩ := h.orig g (by omega)
      rw [upd_ne _ _ e]
      exact ⟨by omega, by rw [upd_ne _ _ (by omega)]; exact h2⟩
  · by_cases e1 : x = k + δ <;> by_cases e2 : y = k + δ
    · rw [e1, e2]
    · rw [e1, upd_self, upd_ne _ _ e2] at e; exact absurd e.symm (hne y hy e2)
    · rw [e2, upd_self, upd_ne _ _ e1] at e; exact absurd e (hne x hx e1)
    · rw [upd_ne _ _ e1, upd_ne _ _ e2] at e; exact h.inj x y hx hy e
  · obtain ⟨x, x1, x2⟩ := h.surj j h1 h2
    exact ⟨x, by omega, by rw [upd_ne _ _ (by omega)]; exact x2⟩
  · rw [upd_ne _ _ (show g ≠ k by omega)]
    by_cases e : g' = k
    · rw [e, upd_self]; exact (h.orig g (by omega)).1
    · rw [upd_ne _ _ e]; exact h.omono g g' h1 (by omega)
  · by_cases e1 : x = k + δ
    · rw [e1, upd_self] at h3; omega
    · by_cases e2 : y = k + δ
      · rw [e2, upd_self] at h4; omega
      · rw [upd_ne _ _ e1] at h3 ⊢
        rw [upd_ne _ _ e2] at h4 ⊢
        exact h.dmono x y h1 (by omega) h3 h4

/-- One permutation with its inverse and the widened copy. -/
structure PermI (n k δ : Nat) (v : Nat → Nat) (p0 p pinv : Buf Nat) (P : Buf (Option Nat)) : Prop where
  psz : p.size = n
  isz : pinv.size = n
  Psz : P.size = 2 * n
  kept : ∀ x, x < n → v x < k → p.get (v x) = p0.get x
  pend : ∀ x, k + δ ≤ x → x < n → p.get x = p0.get x
  big : ∀ x, x < n → k + δ ≤ v x → P.get (v x) = some (p0.get x)
  inv : ∀ x, x < n → k + δ ≤ v x → pinv.get (p0.get x) = v x
  small : ∀ x, x < n → v x < k → pinv.get (p0.get x) < k + δ

theorem PermI.defer {n k δ : Nat} {v o : Nat → Nat} {p0 p pinv : Buf Nat} {P : Buf (Option Nat)} (h : PermI n k δ v p0 p pinv P)
    (hp : Pos n k δ v o) (hkn : k + δ < n) (h0 : Spec.IsPerm n p0.get) :
    PermI n k (δ + 1) (upd v (k + δ) (n + δ)) p0 p (pinv.set (p0.get (k + δ)) (n + δ))
      ((P.set (n + δ) (some (p0.get (k + δ)))).set (k + δ) none) := by
  have hd : ∀ x, x < n → x ≠ k + δ → p0.get x ≠ p0.get (k + δ) := fun x hx hne e => hne (h0.2 _ _ hx hkn e)
  refine ⟨h.psz, by rw [Buf.set_size]; exact h.isz, by simp only [Buf.set_size]; exact h.Psz, ?_, ?_, ?_, ?_, ?_⟩
  · intro x hx hv
    by_cases e : x = k + δ
    · rw [e, upd_self] at hv; omega
    · rw [upd_ne _ _ e] at hv ⊢; exact h.kept x hx hv
  · intro x h1 h2; exact h.pend x (by omega) h2
  · intro x hx hv
    by_cases e : x = k + δ
    · rw [e, upd_self, Buf.set_get_ne _ _ (by omega), Buf.set_get_self]
    · rw [upd_ne _ _ e] at hv ⊢
      rcases hp.other hkn hx e with h1 | h1
      · omega
      · rw [Buf.set_get_ne _ _ (by omega), Buf.set_get_ne _ _ (by omega)]; exact h.big x hx (by omega)
  · intro x hx hv
    by_cases e : x = k + δ
    · rw [e, upd_self, Buf.set_get_self]
    · rw [upd_ne _ _ e] at hv ⊢
      rw [Buf.set_get_ne _ _ (hd x hx e)]; exact h.inv x hx (by omega)
  · intro x hx hv
    by_cases e : x = k + δ
    · rw [e, upd_self] at hv; omega
    · rw [upd_ne _ _ e] at hv
      rw [Buf.set_get_ne _ _ (hd x hx e)]
      have := h.small x hx hv; omega

theorem PermI.keep {n k δ : Nat} {v o : Nat → Nat} {p0 p pinv : Buf Nat} {P : Buf (Option Nat)} (h : PermI n k δ v p0 p pinv P)
    (hp : Pos n k δ v o) (hkn : k + δ < n) :
    PermI n (k + 1) δ (upd v (k + δ) k) p0 (p.set k (p0.get (k + δ))) pinv P := by
  refine ⟨by rw [Buf.set_size]; exact h.psz, h.isz, h.Psz, ?_, ?_, ?_, ?_, ?_⟩
  · intro x hx hv
    by_cases e : x = k + δ
    · rw [e, upd_self, Buf.set_get_self]
    · rw [upd_ne _ _ e] at hv ⊢
      rcases hp.other hkn hx e with h1 | h1
      · rw [Buf.set_get_ne _ _ (by omega)]; exact h.kept x hx h1
      · omega
  · intro x h1 h2
    rw [Buf.set_get_ne _ _ (by omega)]; exact h.pend x (by omega) h2
  · intro x hx hv
    by_cases e : x = k + δ
    · rw [e, upd_self] at hv; omega
    · rw [upd_ne _ _ e] at hv ⊢; exact h.big x hx (by omega)
  · intro x hx hv
    by_cases e : x = k + δ
    · rw [e, upd_self] at hv; omega
    · rw [upd_ne _ _ e] at hv ⊢; exact h.inv x hx (by omega)
  · intro x hx hv
    by_cases e : x = k + δ
    · rw [e, h.inv _ (by omega) (by rw [hp.pend _ (le_refl _)]), hp.pend _ (le_refl _)]; omega
    · rw [upd_ne _ _ e] at hv
      rcases hp.other hkn hx e with h1 | h1
      · have := h.small x hx h1; omega
      · omega

section main
variable [Field K] [DecidableEq K] {R : Type _} [LinearOrder R]

/-- What the Crout phase is promised by the caller. -/
structure InOK (I : In K) : Prop where
  mle : I.m2 ≤ I.n
  rwf : I.Acrs.WF
  rsorted : I.Acrs.Sorted
  rp : I.Acrs.psize = I.n
  rs : I.Acrs.ssize = I.n
  cwf : I.Accs.WF
  csorted : I.Accs.Sorted
  cp : I.Accs.psize = I.n
  cs : I.Accs.ssize = I.n
  same : ∀ i j, i < I.n → j < I.n → I.Accs.entry j i = I.Acrs.entry i j
  ssz : I.s.size = I.n
  tsz : I.t.size = I.n
  psz : I.p0.size = I.n
  pisz : I.pinv0.size = I.n
  qsz : I.q0.size = I.n
  qisz : I.qinv0.size = I.n
  pinv : Spec.Inverse I.n I.p0.get I.pinv0.get
  qinv : Spec.Inverse I.n I.q0.get I.qinv0.get

/-- The scaled and permuted matrix handed to the Crout phase. -/
def In.B (I : In K) (x y : Nat) : K :=
  I.s.get (I.p0.get x) * I.Acrs.entry (I.p0.get x) (I.q0.get y) * I.t.get (I.q0.get y)

/-- A dropping routine keeps a subset of the entries of the vector; `Φ` is what else it promises about label and count. -/
def DropOK (n : Nat) (Φ : Nat → Nat → Prop) (f : K → Nat → SV K → M (SV K)) : Prop :=
  ∀ kap lab v N step, lab < n → SV.Busy N step v → v.vals.size = N → Runs (f kap lab v) fun r =>
    r.vals = v.vals ∧ r.tags = v.tags ∧ r.inds.size = v.inds.size ∧ r.drop.size = v.drop.size ∧ (∀ i, r.drop.get i = false) ∧
    r.list.Nodup ∧ r.list ⊆ v.list ∧ Φ lab r.counts

/-- A dropping routine that drops nothing from the vectors of a level of size `n` (they have `2 n` places). -/
def KeepsAll (n : Nat) (f : K → Nat → SV K → M (SV K)) : Prop :=
  ∀ kap lab v r N step, lab < n → N ≤ 2 * n → SV.Busy N step v → v.vals.size = N → f kap lab v = .ok r → v.list ⊆ r.list

/-- Whatever the routine drops satisfies `Ψ`, a relation between the estimate, the label and the dropped value. -/
def DropRule (n : Nat) (f : K → Nat → SV K → M (SV K)) (Ψ : K → Nat → K → Prop) : Prop :=
  ∀ kap lab v r N step, lab < n → SV.Busy N step v → v.vals.size = N → f kap lab v = .ok r → ∀ x ∈ v.list, x ∉ r.list → Ψ kap lab (v.vals.get x)

/-- Recurrences satisfied by the factors. -/
structure Num (pr : Par K R) (n m2 k δ : Nat) (B : Nat → Nat → K) (v o : Nat → Nat) (Us Ut Ls Lt : Nat → Nat → K) (d : Nat → K) :
    Prop where
  recU : ∀ h, h < k → ∀ x, x < n → h < v x →
    d h * Ut h x = B (o h) x - ∑ g ∈ range h, Ls g (o h) * d g * Us g x
  recL : ∀ h, h < k → ∀ x, x < n → h < v x →
    Lt h x * d h = B x (o h) - ∑ g ∈ range h, Ls g x * d g * Us g (o h)
  pend : ∀ j, k + δ ≤ j → j < m2 → d j = B j j - ∑ g ∈ range k, Lt g j * d g * Ut g j
  diag : ∀ h, h < k → d h = B (o h) (o h) - ∑ g ∈ range h, Lt g (o h) * d g * Ut g (o h)
  keepU : ∀ h, h < k → ∀ x, x < n → Us h x = Ut h x ∨ Us h x = 0
  keepL : ∀ h, h < k → ∀ x, x < n → Ls h x = Lt h x ∨ Ls h x = 0
  allU : KeepsAll n pr.dropU → ∀ h, h < k → ∀ x, x < n → Us h x = Ut h x
  allL : KeepsAll n pr.dropL → ∀ h, h < k → ∀ x, x < n → Ls h x = Lt h x
  zeroU : ∀ h, h < k → ∀ x, x < n → v x ≤ h → Ut h x = 0
  zeroL : ∀ h, h < k → ∀ x, x < n → v x ≤ h → Lt h x = 0
  good : ∀ h, h < k → badDiag pr (d h) = false

/-- A condition estimate vector: each component solves the triangular system and is acceptable. -/
def Kap (pr : Par K R) (k : Nat) (kap : Buf K) (T : Nat → Nat → K) (o : Nat → Nat) : Prop :=
  ∀ h, h < k → kap.get h = (if h = 0 then 1 else kappaPick pr.nrm (∑ i ∈ range h, kap.get i * T i (o h))) ∧
    pr.nrm (kap.get h) ≤ pr.kappa

/-- Ghost variables. -/
structure Gh (K : Type _) where
  v : Nat → Nat
  o : Nat → Nat
  Us : Nat → Nat → K
  Ut : Nat → Nat → K
  Ls : Nat → Nat → K
  Lt : Nat → Nat → K

/-- Loop invariant. -/
structure Inv (pr : Par K R) (I : In K) (ΦU ΦL : Nat → Nat → Prop) (c : St K) (g : Gh K) : Prop where
  le : c.step + c.defers ≤ I.m2
  m : c.m = I.m2 - c.defers
  pos : Pos I.n c.step c.defers g.v g.o
  perm : PermI I.n c.step c.defers g.v I.p0 c.p c.pinv c.P
  qerm : PermI I.n c.step c.defers g.v I.q0 c.q c.qinv c.Q
  U : Side I.n I.m2 c.step c.defers c.U
  L : Side I.n I.m2 c.step c.defers c.L
  dsz : c.d.size = I.m2
  kUsz : c.kU.size = I.m2
  kLsz : c.kL.size = I.m2
  utR : SV.Ready (2 * I.n) c.step c.ut
  lR : SV.Ready (2 * I.n) c.step c.l
  utsz : c.ut.vals.size = 2 * I.n
  lsz : c.l.vals.size = 2 * I.n
  entU : ∀ h, h < c.step → ∀ x, x < I.n → ent (c.U.T.line h) (g.v x) = g.Us h x
  entL : ∀ h, h < c.step → ∀ x, x < I.n → ent (c.L.T.line h) (g.v x) = g.Ls h x
  num : Num pr I.n I.m2 c.step c.defers I.B g.v g.o g.Us g.Ut g.Ls g.Lt c.d.get
  kapU : Kap pr c.step c.kU g.Us g.o
  kapL : Kap pr c.step c.kL g.Ls g.o
  rulU : ∀ Ψ, DropRule I.n pr.dropU Ψ → ∀ h, h < c.step → ∀ x, x < I.n →
    g.Us h x = g.Ut h x ∨ (g.Us h x = 0 ∧ Ψ (c.kU.get h) (I.p0.get (g.o h)) (g.Ut h x))
  rulL : ∀ Ψ, DropRule I.n pr.dropL Ψ → ∀ h, h < c.step → ∀ x, x < I.n →
    g.Ls h x = g.Lt h x ∨ (g.Ls h x = 0 ∧ Ψ (c.kL.get h) (I.q0.get (g.o h)) (g.Lt h x))
  cntU : ∀ h, h < c.step → ΦU (I.p0.get (g.o h)) (c.U.T.line h).length
  cntL : ∀ h, h < c.step → ΦL (I.q0.get (g.o h)) (c.L.T.line h).length

/-- The estimates of the current candidate. -/
def KapNow (pr : Par K R) (c : St K) (g : Gh K) : Prop :=
  c.kU.get c.step = (if c.step = 0 then 1 else
    kappaPick pr.nrm (∑ i ∈ range c.step, c.kU.get i * g.Us i (c.step + c.defers))) ∧
  c.kL.get c.step = (if c.step = 0 then 1 else
    kappaPick pr.nrm (∑ i ∈ range c.step, c.kL.get i * g.Ls i (c.step + c.defers)))

/-- The current candidate is acceptable. -/
def Accepted (pr : Par K R) (c : St K) (g : Gh K) : Prop :=
  badDiag pr (c.d.get (c.step + c.defers)) = false ∧ KapNow pr c g ∧
    pr.nrm (c.kU.get c.step) ≤ pr.kappa ∧ pr.nrm (c.kL.get c.step) ≤ pr.kappa

theorem InOK.perm_p {I : In K} (h : InOK I) : Spec.IsPerm I.n I.p0.get :=
  ⟨fun i hi => (h.pinv.1 i hi).1, fun i j hi hj e => by
    rw [← (h.pinv.1 i hi).2, ← (h.pinv.1 j hj).2, e]⟩
theorem InOK.perm_q {I : In K} (h : InOK I) : Spec.IsPerm I.n I.q0.get :=
  ⟨fun i hi => (h.qinv.1 i hi).1, fun i j hi hj e => by
    rw [← (h.qinv.1 i hi).2, ← (h.qinv.1 j hj).2, e]⟩

theorem Kap.congr {pr : Par K R} {k : Nat} {kap kap' : Buf K} {T T' : Nat → Nat → K} {o o' : Nat → Nat} (h : Kap pr k kap T o)
    (e1 : ∀ i, i < k → kap'.get i = kap.get i) (e2 : ∀ i, i < k → ∀ j, j < k → T' i (o' j) = T i (o j)) : Kap pr k kap' T' o' := by
  intro i hi
  obtain ⟨h1, h2⟩ := h i hi
  rw [e1 i hi]
  refine ⟨h1.trans ?_, h2⟩
  split
  · rfl
  · refine congrArg _ (sum_congr rfl fun a ha => ?_)
    have := mem_range.1 ha
    rw [e1 a (by omega), e2 a (by omega) i hi]

variable {pr : Par K R} {I : In K} {ΦU ΦL : Nat → Nat → Prop}

/-- Deferral of the current candidate. -/
theorem deferOne_runs (hI : InOK I) {c : St K} {g : Gh K} (h : Inv pr I ΦU ΦL c g) (hlt : c.step + c.defers < I.m2) :
    Runs (deferOne I.n c) fun r => Inv pr I ΦU ΦL r { g with v := upd g.v (c.step + c.defers) (I.n + c.defers) } ∧
      r.step = c.step ∧ r.defers = c.defers + 1 ∧ r.nDiag = c.nDiag ∧ r.nCond = c.nCond ∧ r.kU = c.kU ∧ r.kL = c.kL := by
  obtain ⟨v, o, Us, Ut, Ls, Lt⟩ := g
  have hmle := hI.mle
  unfold deferOne
  simp only [runs_bind]
  refine (deferEntry_runs h.U hlt).mono ?_
  rintro U' ⟨u1, u2, u3⟩
  refine (deferEntry_runs h.L hlt).mono ?_
  rintro L' ⟨l1, l2, l3⟩
  have hpp := h.perm.pend _ (le_refl _) (show c.step + c.defers < I.n by omega)
  have hqq := h.qerm.pend _ (le_refl _) (show c.step + c.defers < I.n by omega)
  have hpl := (hI.pinv.1 _ (show c.step + c.defers < I.n by omega)).1
  have hql := (hI.qinv.1 _ (show c.step + c.defers < I.n by omega)).1
  simp only [runs_rd, runs_wr, runs_pure, Buf.set_size, hpp, hqq]
  rw [h.perm.psz, h.qerm.psz, h.perm.Psz, h.qerm.Psz, h.perm.isz, h.qerm.isz]
  refine ⟨by omega, by omega, by omega, by omega, hpl, hql, by omega, by omega, ?_, by tt, by tt, by tt, by tt, by tt, by tt⟩
  have hent : ∀ (F F' : FacSide K) (T : Nat → Nat → K), Side I.n I.m2 c.step c.defers F →
      (∀ i, i < c.step → (F'.T.line i).Perm ((F.T.line i).map (ren (c.step + c.defers) (I.n + c.defers)))) →
      (∀ h, h < c.step → ∀ x, x < I.n → ent (F.T.line h) (v x) = T h x) →
      ∀ h, h < c.step → ∀ x, x < I.n → ent (F'.T.line h) (upd v (c.step + c.defers) (I.n + c.defers) x) = T h x := by
    intro F F' T hF hp he i hi x hx
    have hline := hF.lines i hi
    have hlt : ∀ e ∈ F.T.line i, e.1 < I.n + c.defers := by
      intro e hm
      rw [← List.take_append_drop (F.start.get i) (F.T.line i), List.mem_append] at hm
      rcases hm with hm | hm
      · have := hline.before e hm; omega
      · exact (hline.after e hm).2
    rw [ent_perm (hp i hi), ent_ren (fun e hm e2 => by have := hlt e hm; omega)]
    by_cases e : x = c.step + c.defers
    · rw [e, upd_self, if_pos rfl]
      have := he i hi x hx
      have hv : v (c.step + c.defers) = c.step + c.defers := h.pos.pend _ (le_refl _)
      rw [e, hv] at this
      exact this
    · rw [upd_ne _ _ e]
      rcases h.pos.other (by omega) hx e with h1 | h1 <;>
        (simp only at h1; rw [if_neg (by omega), if_neg (by omega)]; exact he i hi x hx)
  have hcnt : ∀ (F F' : FacSide K) (i : Nat),
      (F'.T.line i).Perm ((F.T.line i).map (ren (c.step + c.defers) (I.n + c.defers))) →
      (F'.T.line i).length = (F.T.line i).length := by
    intro F F' i hp; rw [hp.length_eq, List.length_map]
  have hvlt : ∀ i, i < c.step → ∀ x, i < upd v (c.step + c.defers) (I.n + c.defers) x ↔ i < v x := by
    intro i hi x
    by_cases e : x = c.step + c.defers
    · rw [e, upd_self]
      have := h.pos.pend _ (le_refl (c.step + c.defers))
      simp only at this
      rw [this]; omega
    · rw [upd_ne _ _ e]
  have N := h.num
  exact {
    le := by show c.step + (c.defers + 1) ≤ I.m2; omega
    m := by show c.m - 1 = I.m2 - (c.defers + 1); rw [h.m]; omega
    pos := h.pos.defer (by omega)
    perm := h.perm.defer h.pos (by omega) hI.perm_p
    qerm := h.qerm.defer h.pos (by omega) hI.perm_q
    U := u1, L := l1, dsz := h.dsz, kUsz := h.kUsz, kLsz := h.kLsz, utR := h.utR, lR := h.lR, utsz := h.utsz, lsz := h.lsz
    entU := hent c.U U' Us h.U u3 h.entU
    entL := hent c.L L' Ls h.L l3 h.entL
    num := {
      recU := fun i hi x hx hv => N.recU i hi x hx ((hvlt i hi x).1 hv)
      recL := fun i hi x hx hv => N.recL i hi x hx ((hvlt i hi x).1 hv)
      pend := fun j h1 h2 => N.pend j (by simp only at h1 ⊢; omega) h2
      diag := N.diag, keepU := N.keepU, keepL := N.keepL, allU := N.allU, allL := N.allL
      zeroU := fun i hi x hx hv => N.zeroU i hi x hx (by have := hvlt i hi x; simp only at hv ⊢; omega)
      zeroL := fun i hi x hx hv => N.zeroL i hi x hx (by have := hvlt i hi x; simp only at hv ⊢; omega)
      good := N.good }
    kapU := h.kapU, kapL := h.kapL, rulU := h.rulU, rulL := h.rulL
    cntU := fun i hi => by show ΦU _ (U'.T.line i).length; rw [hcnt _ _ i (u3 i hi)]; exact h.cntU i hi
    cntL := fun i hi => by show ΦL _ (L'.T.line i).length; rw [hcnt _ _ i (l3 i hi)]; exact h.cntL i hi }

/-- Both condition estimates. -/
theorem kappas_runs (hI : InOK I) {c : St K} {g : Gh K} (h : Inv pr I ΦU ΦL c g) (hlt : c.step + c.defers < I.m2) :
    Runs (kappas pr c) fun r => Inv pr I ΦU ΦL r g ∧ KapNow pr r g ∧ (∃ a b, r = { c with kU := a, kL := b }) := by
  have hmle := hI.mle
  unfold kappas
  simp only [runs_bind]
  refine (updateKappa_runs pr.nrm h.U hlt h.kUsz).mono ?_
  rintro a ⟨a1, a2, a3⟩
  refine (updateKappa_runs pr.nrm h.L hlt h.kLsz).mono ?_
  rintro b ⟨b1, b2, b3⟩
  rw [runs_pure]
  have hnow : ∀ (T : Nat → Nat → K) (F : FacSide K) (kap kap' : Buf K),
      (∀ h, h < c.step → ∀ x, x < I.n → ent (F.T.line h) (g.v x) = T h x) → (∀ i, i ≠ c.step → kap'.get i = kap.get i) →
      kap'.get c.step = (if c.step = 0 then 1 else
        kappaPick pr.nrm (∑ i ∈ range c.step, kap.get i * ent (F.T.line i) (c.step + c.defers))) →
      kap'.get c.step = (if c.step = 0 then 1 else
        kappaPick pr.nrm (∑ i ∈ range c.step, kap'.get i * T i (c.step + c.defers))) := by
    intro T F kap kap' h1 h2 h3
    rw [h3]
    split
    · rfl
    · refine congrArg _ (sum_congr rfl fun i hi => ?_)
      have hi := mem_range.1 hi
      have h4 := h1 i hi (c.step + c.defers) (by omega)
      rw [h.pos.pend _ (le_refl _)] at h4
      rw [h2 i (by omega), h4]
  refine ⟨{ h with kUsz := a1, kLsz := b1, kapU := ?_, kapL := ?_, rulU := ?_, rulL := ?_ }, ⟨?_, ?_⟩, a, b, rfl⟩
  · exact h.kapU.congr (fun i hi => a2 i (Nat.ne_of_lt hi)) (fun _ _ _ _ => rfl)
  · exact h.kapL.congr (fun i hi => b2 i (Nat.ne_of_lt hi)) (fun _ _ _ _ => rfl)
  · intro Ψ hΨ i hi x hx
    have hi : i < c.step := hi
    rw [a2 i (by omega)]; exact h.rulU Ψ hΨ i hi x hx
  · intro Ψ hΨ i hi x hx
    have hi : i < c.step := hi
    rw [b2 i (by omega)]; exact h.rulL Ψ hΨ i hi x hx
  · exact hnow g.Us c.U c.kU a h.entU a2 a3
  · exact hnow g.Ls c.L c.kL b h.entL b2 b3

theorem Inv.counters {c : St K} {g : Gh K} (h : Inv pr I ΦU ΦL c g) (a b : Nat) :
    Inv pr I ΦU ΦL { c with nDiag := a, nCond := b } g :=
  { h with }

theorem bigKappa_runs {c : St K} {g : Gh K} (h : Inv pr I ΦU ΦL c g) (hlt : c.step + c.defers < I.m2) :
    Runs (bigKappa pr c) fun r => r = false ↔ pr.nrm (c.kU.get c.step) ≤ pr.kappa ∧ pr.nrm (c.kL.get c.step) ≤ pr.kappa := by
  unfold bigKappa
  simp only [runs_bind, runs_rd, runs_pure]
  refine ⟨by rw [h.kUsz]; omega, by rw [h.kLsz]; omega, ?_⟩
  simp

/-- First test of a step: `true` means the candidate is rejected. -/
theorem firstTest_runs (hI : InOK I) {c : St K} {g : Gh K} (h : Inv pr I ΦU ΦL c g) (hlt : c.step + c.defers < I.m2)
    (hc : c.nDiag + c.nCond = c.defers) :
    Runs (firstTest pr c) fun r => Inv pr I ΦU ΦL r.2 g ∧ r.2.step = c.step ∧ r.2.defers = c.defers ∧
      r.2.nDiag + r.2.nCond = r.2.defers + (if r.1 then 1 else 0) ∧ (r.1 = false → Accepted pr r.2 g) := by
  unfold firstTest
  simp only [runs_bind, runs_rd]
  refine ⟨by rw [h.dsz]; omega, ?_⟩
  have h' := h.counters (if badDiag pr (c.d.get (c.step + c.defers)) then c.nDiag + 1 else c.nDiag) c.nCond
  refine (kappas_runs hI h' hlt).mono ?_
  rintro r ⟨r1, r2, a, b, rfl⟩
  by_cases hb : badDiag pr (c.d.get (c.step + c.defers)) = true
  · simp only [hb, if_true, runs_pure] at r1 r2 ⊢
    exact ⟨r1, trivial, trivial, by omega, fun hc => by simp at hc⟩
  · rw [Bool.not_eq_true] at hb
    simp only [hb, Bool.false_eq_true, if_false, runs_bind] at r1 r2 ⊢
    refine (bigKappa_runs r1 hlt).mono ?_
    intro bb hbb
    simp only [runs_pure]
    refine ⟨r1.counters _ _, trivial, trivial, ?_, fun hc => ⟨hb, r2, hbb.1 hc⟩⟩
    cases bb <;> simp <;> omega

/-- Test after a deferral. -/
theorem retest_runs (hI : InOK I) {c : St K} {g : Gh K} (h : Inv pr I ΦU ΦL c g) (hlt : c.step + c.defers < I.m2)
    (hc : c.nDiag + c.nCond = c.defers) :
    Runs (retest pr c) fun r => Inv pr I ΦU ΦL r.2 g ∧ r.2.step = c.step ∧ r.2.defers = c.defers ∧
      r.2.nDiag + r.2.nCond = r.2.defers + (if r.1 then 1 else 0) ∧ (r.1 = false → Accepted pr r.2 g) := by
  unfold retest
  simp only [runs_bind, runs_rd]
  refine ⟨by rw [h.dsz]; omega, ?_⟩
  by_cases hb : badDiag pr (c.d.get (c.step + c.defers)) = true
  · simp only [hb, if_true, runs_pure]
    exact ⟨h.counters _ _, trivial, trivial, by omega, fun hc => by simp at hc⟩
  · rw [Bool.not_eq_true] at hb
    simp only [hb, Bool.false_eq_true, if_false, runs_bind]
    refine (kappas_runs hI h hlt).mono ?_
    rintro r ⟨r1, r2, a, b, rfl⟩
    refine (bigKappa_runs r1 hlt).mono ?_
    intro bb hbb
    simp only [runs_pure]
    refine ⟨r1.counters _ _, trivial, trivial, ?_, fun hc => ⟨hb, r2, hbb.1 hc⟩⟩
    cases bb <;> simp <;> omega

/-- The deferral loop. -/
theorem deferLoop_runs (hI : InOK I) (f : Nat) : ∀ {c : St K} {g : Gh K}, Inv pr I ΦU ΦL c g → c.step + c.defers < I.m2 →
    c.nDiag + c.nCond = c.defers + 1 → I.m2 - c.defers - c.step ≤ f →
    Runs (deferLoop pr I.n I.m2 f c) fun r => (∃ g', Inv pr I ΦU ΦL r g' ∧
      (r.step + r.defers < I.m2 → Accepted pr r g')) ∧ r.step = c.step ∧ r.nDiag + r.nCond = r.defers := by
  induction f with
  | zero => intro c g h hlt hc hf; omega
  | succ f ih =>
    intro c g h hlt hc hf
    rw [deferLoop, if_pos (by rw [h.m]; omega), runs_bind]
    refine (deferOne_runs hI h hlt).mono ?_
    rintro r ⟨r1, r2, r3, r4, r5, -, -⟩
    simp only [runs_ite, runs_pure, runs_bind]
    by_cases hend : I.m2 ≤ r.step + r.defers
    · rw [if_pos hend]
      refine ⟨⟨_, { r1 with m := ?_ }, fun hc => ?_⟩, r2, by omega⟩
      · show r.step = I.m2 - r.defers
        have := r1.le; omega
      · omega
    · rw [if_neg hend]
      refine (retest_runs hI r1 (by omega) (by omega)).mono ?_
      rintro ⟨b, r'⟩ ⟨q1, q2, q3, q4, q5⟩
      simp only at q1 q2 q3 q4 q5 ⊢
      cases b with
      | true =>
        simp only [if_true] at q4 ⊢
        refine (ih q1 (by omega) q4 (by omega)).mono ?_
        rintro r'' ⟨w1, w2, w3⟩
        exact ⟨w1, by omega, w3⟩
      | false =>
        simp only [Bool.false_eq_true, if_false, add_zero] at q4 ⊢
        exact ⟨⟨_, q1, fun _ => q5 rfl⟩, by omega, q4⟩

/-- Tests and deferrals of a step: either an acceptable candidate is found or all candidates are used up. -/
theorem pivotPhase_runs (hI : InOK I) {c : St K} {g : Gh K} (h : Inv pr I ΦU ΦL c g) (hlt : c.step + c.defers < I.m2)
    (hc : c.nDiag + c.nCond = c.defers) :
    Runs (pivotPhase pr I.n I.m2 c) fun r => (∃ g', Inv pr I ΦU ΦL r g' ∧
      (r.step + r.defers < I.m2 → Accepted pr r g')) ∧ r.step = c.step ∧ r.nDiag + r.nCond = r.defers := by
  unfold pivotPhase
  rw [runs_bind]
  refine (firstTest_runs hI h hlt hc).mono ?_
  rintro ⟨b, r⟩ ⟨q1, q2, q3, q4, q5⟩
  simp only at q1 q2 q3 q4 q5 ⊢
  cases b with
  | true =>
    simp only [if_true] at q4 ⊢
    refine (deferLoop_runs hI r.m q1 (by omega) q4 (by have := q1.m; omega)).mono ?_
    rintro r'' ⟨w1, w2, w3⟩
    exact ⟨w1, by omega, w3⟩
  | false =>
    simp only [Bool.false_eq_true, if_false, add_zero, runs_pure] at q4 ⊢
    exact ⟨⟨_, q1, fun _ => q5 rfl⟩, by omega, q4⟩

end main
end Hif.Crout
