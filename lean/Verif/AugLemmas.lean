import Verif.Aug
import Verif.CroutFin

set_option linter.unusedVariables false

/-! # Augmented storage: the arrays -/

namespace Hif
namespace Aug
variable {K : Type _}

/-- Position map of a left rotation of `[lo,hi)`. -/
def rho (lo hi x : Nat) : Nat := if lo ≤ x ∧ x < hi then (if x + 1 < hi then x + 1 else lo) else x

/-- Position map of a right rotation of `[lo,hi)`. -/
def sig (lo hi x : Nat) : Nat := if lo ≤ x ∧ x < hi then (if x = lo then hi - 1 else x - 1) else x

theorem rho_sig (lo hi x : Nat) : rho lo hi (sig lo hi x) = x := by
  unfold rho sig; repeat' split
  all_goals omega

theorem sig_rho (lo hi x : Nat) : sig lo hi (rho lo hi x) = x := by
  unfold rho sig; repeat' split
  all_goals omega

theorem rho_range {lo hi x s e : Nat} (h1 : s ≤ lo) (h2 : hi ≤ e) : (s ≤ rho lo hi x ∧ rho lo hi x < e) ↔ (s ≤ x ∧ x < e) := by
  unfold rho; repeat' split
  all_goals omega

theorem sig_range {lo hi x s e : Nat} (h1 : s ≤ lo) (h2 : hi ≤ e) : (s ≤ sig lo hi x ∧ sig lo hi x < e) ↔ (s ≤ x ∧ x < e) := by
  unfold sig; repeat' split
  all_goals omega

theorem rho_out {lo hi x : Nat} (h : x < lo ∨ hi ≤ x) : rho lo hi x = x := by unfold rho; rw [if_neg (by omega)]
theorem sig_out {lo hi x : Nat} (h : x < lo ∨ hi ≤ x) : sig lo hi x = x := by unfold sig; rw [if_neg (by omega)]

theorem rotateLeft_runs {α : Type _} (b : Buf α) {lo hi : Nat} (h1 : lo < hi) (h2 : hi ≤ b.size) :
    Runs (b.rotateLeft lo hi) fun r => r.size = b.size ∧ ∀ i, r.get i = b.get (rho lo hi i) := by
  unfold Buf.rotateLeft
  rw [if_pos ⟨h1, h2⟩, runs_pure]
  refine ⟨rfl, fun i => ?_⟩
  unfold rho; simp only
  repeat' split
  all_goals rfl

theorem rotateRight_runs {α : Type _} (b : Buf α) {lo hi : Nat} (h1 : lo < hi) (h2 : hi ≤ b.size) :
    Runs (b.rotateRight lo hi) fun r => r.size = b.size ∧ ∀ i, r.get i = b.get (sig lo hi i) := by
  unfold Buf.rotateRight
  rw [if_pos ⟨h1, h2⟩, runs_pure]
  refine ⟨rfl, fun i => ?_⟩
  unfold sig; simp only
  repeat' split
  all_goals rfl

theorem swapBuf_runs {α : Type _} (b : Buf α) {x y : Nat} (hx : x < b.size) (hy : y < b.size) :
    Runs (swapBuf b x y) fun r => r.size = b.size ∧ ∀ i, r.get i = b.get (Equiv.swap x y i) := by
  unfold swapBuf
  simp only [runs_bind, runs_rd, runs_wr, Buf.set_size, Buf.set_get]
  refine ⟨hx, hy, hx, hy, trivial, fun i => ?_⟩
  rw [Equiv.swap_apply_def]
  by_cases h1 : i = y
  · rw [if_pos h1]
    by_cases h2 : i = x
    · rw [if_pos h2, ← h1, h2]
    · rw [if_neg h2, if_pos h1]
  · rw [if_neg h1]
    by_cases h2 : i = x
    · rw [if_pos h2, if_pos h2]
    · rw [if_neg h2, if_neg h2, if_neg h1]

/-- Number of nodes. -/
abbrev nnz (A : Aug K) : Nat := A.ninds.size
/-- Secondary index of the entry of node `n`. -/
abbrev colOf (A : Aug K) (n : Nat) : Nat := A.cs.inds.get (A.vpos.get n)
/-- Value of the entry of node `n`. -/
abbrev valOf (A : Aug K) (n : Nat) : K := A.cs.vals.get (A.vpos.get n)

/-- Invariant of the arrays, `m` lines assembled. -/
structure Store (m : Nat) (A : Aug K) : Prop where
  asm : Crout.Asm m A.cs
  szi : A.cs.inds.size = A.ninds.size
  szp : A.vpos.size = A.ninds.size
  szv : A.vinv.size = A.ninds.size
  szn : A.nnext.size = A.ninds.size
  pi : ∀ n, n < A.ninds.size → A.vpos.get n < A.ninds.size ∧ A.vinv.get (A.vpos.get n) = n
  ip : ∀ p, p < A.ninds.size → A.vinv.get p < A.ninds.size ∧ A.vpos.get (A.vinv.get p) = p
  row : ∀ n, n < A.ninds.size → A.ninds.get n < m ∧ A.cs.start.get (A.ninds.get n) ≤ A.vpos.get n ∧ A.vpos.get n < A.cs.start.get (A.ninds.get n + 1)
  sorted : ∀ r, r < m → ∀ x y, A.cs.start.get r ≤ x → x < y → y < A.cs.start.get (r + 1) → A.cs.inds.get x < A.cs.inds.get y
  lt : ∀ p, p < A.ninds.size → A.cs.inds.get p < A.cs.ssize

/-- What stays the same during an exchange. -/
structure Same (A A' : Aug K) : Prop where
  ninds : A'.ninds = A.ninds
  nnext : A'.nnext = A.nnext
  nstart : A'.nstart = A.nstart
  nend : A'.nend = A.nend
  counts : A'.counts = A.counts
  start : A'.cs.start = A.cs.start
  psize : A'.cs.psize = A.cs.psize
  ssize : A'.cs.ssize = A.cs.ssize

theorem Same.refl (A : Aug K) : Same A A := ⟨rfl, rfl, rfl, rfl, rfl, rfl, rfl, rfl⟩
theorem Same.trans {A B C : Aug K} (h : Same A B) (g : Same B C) : Same A C :=
  ⟨g.ninds.trans h.ninds, g.nnext.trans h.nnext, g.nstart.trans h.nstart, g.nend.trans h.nend, g.counts.trans h.counts, g.start.trans h.start,
   g.psize.trans h.psize, g.ssize.trans h.ssize⟩

theorem Store.row_eq {m : Nat} {A : Aug K} (h : Store m A) {n r : Nat} (hn : n < A.ninds.size) (hr : r < m) (h1 : A.cs.start.get r ≤ A.vpos.get n)
    (h2 : A.vpos.get n < A.cs.start.get (r + 1)) : A.ninds.get n = r := by
  obtain ⟨k1, k2, k3⟩ := h.row n hn
  by_contra hne
  exact h.asm.disj k1 hr hne k2 k3 h1 h2 rfl

/-- Two entries of a line with the same index are the same. -/
theorem Store.inj {m : Nat} {A : Aug K} (h : Store m A) {a b : Nat} (ha : a < A.ninds.size) (hb : b < A.ninds.size) (hr : A.ninds.get a = A.ninds.get b)
    (hc : A.colOf a = A.colOf b) : a = b := by
  obtain ⟨a1, a2, a3⟩ := h.row a ha
  obtain ⟨b1, b2, b3⟩ := h.row b hb
  rw [← hr] at b2 b3
  rcases Nat.lt_trichotomy (A.vpos.get a) (A.vpos.get b) with hlt | he | hgt
  · have := h.sorted _ a1 _ _ a2 hlt b3
    unfold colOf at hc; omega
  · rw [← (h.pi a ha).2, he, (h.pi b hb).2]
  · have := h.sorted _ a1 _ _ b2 hgt a3
    unfold colOf at hc; omega

/-- A rearrangement of the positions inside line `r`, after the index at position `p` was set to `k`. -/
theorem permute {m : Nat} {A A' : Aug K} (h : Store m A) (hs : Same A A') {r : Nat} (hr : r < m) {f g : Nat → Nat} (fg : ∀ x, f (g x) = x) (gf : ∀ x, g (f x) = x)
    (hin : ∀ x, (A.cs.start.get r ≤ f x ∧ f x < A.cs.start.get (r + 1)) ↔ (A.cs.start.get r ≤ x ∧ x < A.cs.start.get (r + 1)))
    (hout : ∀ x, ¬ (A.cs.start.get r ≤ x ∧ x < A.cs.start.get (r + 1)) → f x = x)
    {n0 k : Nat} (hn0 : n0 < A.ninds.size) (hr0 : A.ninds.get n0 = r) (hk : k < A.cs.ssize)
    (si : A'.cs.inds.size = A.cs.inds.size) (sv : A'.cs.vals.size = A.cs.vals.size) (sp : A'.vpos.size = A.vpos.size) (sq : A'.vinv.size = A.vinv.size)
    (ei : ∀ x, x < A.ninds.size → A'.cs.inds.get x = if f x = A.vpos.get n0 then k else A.cs.inds.get (f x))
    (ev : ∀ x, x < A.ninds.size → A'.cs.vals.get x = A.cs.vals.get (f x))
    (eq : ∀ x, x < A.ninds.size → A'.vinv.get x = A.vinv.get (f x))
    (ep : ∀ n, n < A.ninds.size → A'.vpos.get n = g (A.vpos.get n))
    (hsort : ∀ x y, A.cs.start.get r ≤ x → x < y → y < A.cs.start.get (r + 1) → A'.cs.inds.get x < A'.cs.inds.get y) :
    Store m A' ∧ (∀ n, n < A.ninds.size → A'.colOf n = if n = n0 then k else A.colOf n) ∧ ∀ n, n < A.ninds.size → A'.valOf n = A.valOf n := by
  have hle : A.cs.start.get (r + 1) ≤ A.ninds.size := by
    have := h.asm.le (show r + 1 ≤ m by omega) (le_refl _)
    have := h.asm.isz
    have := h.szi
    omega
  have gin : ∀ x, (A.cs.start.get r ≤ g x ∧ g x < A.cs.start.get (r + 1)) ↔ (A.cs.start.get r ≤ x ∧ x < A.cs.start.get (r + 1)) := fun x => by
    rw [← hin (g x), fg]
  have gout : ∀ x, ¬ (A.cs.start.get r ≤ x ∧ x < A.cs.start.get (r + 1)) → g x = x := fun x hx => by
    have := hout x hx
    rw [← this, gf, this]
  have flt : ∀ x, x < A.ninds.size → f x < A.ninds.size := fun x hx => by
    by_cases hc : A.cs.start.get r ≤ x ∧ x < A.cs.start.get (r + 1)
    · have := (hin x).2 hc; omega
    · rw [hout x hc]; exact hx
  have glt : ∀ x, x < A.ninds.size → g x < A.ninds.size := fun x hx => by
    by_cases hc : A.cs.start.get r ≤ x ∧ x < A.cs.start.get (r + 1)
    · have := (gin x).2 hc; omega
    · rw [gout x hc]; exact hx
  have hcol : ∀ n, n < A.ninds.size → A'.colOf n = if n = n0 then k else A.colOf n := by
    intro n hn
    unfold colOf
    rw [ep n hn, ei _ (glt _ (h.pi n hn).1), fg]
    by_cases e : n = n0
    · rw [if_pos e, if_pos (by rw [e])]
    · rw [if_neg e, if_neg (fun e' => e (by rw [← (h.pi n hn).2, e', (h.pi n0 hn0).2]))]
  have hval : ∀ n, n < A.ninds.size → A'.valOf n = A.valOf n := by
    intro n hn
    unfold valOf
    rw [ep n hn, ev _ (glt _ (h.pi n hn).1), fg]
  refine ⟨⟨⟨?_, ?_, ?_, ?_, ?_⟩, ?_, ?_, ?_, ?_, ?_, ?_, ?_, ?_, ?_⟩, hcol, hval⟩
  · rw [hs.start]; exact h.asm.ssz
  · rw [hs.start]; exact h.asm.zero
  · rw [hs.start]; exact h.asm.mono
  · rw [hs.start, si]; exact h.asm.isz
  · rw [hs.start, sv]; exact h.asm.vsz
  · rw [si, hs.ninds]; exact h.szi
  · rw [sp, hs.ninds]; exact h.szp
  · rw [sq, hs.ninds]; exact h.szv
  · rw [hs.nnext, hs.ninds]; exact h.szn
  · rw [hs.ninds]
    intro n hn
    have h1 := glt _ (h.pi n hn).1
    rw [ep n hn, eq _ h1, fg]
    exact ⟨h1, (h.pi n hn).2⟩
  · rw [hs.ninds]
    intro p hp
    have h1 := h.ip _ (flt p hp)
    rw [eq p hp, ep _ h1.1, h1.2, gf]
    exact ⟨h1.1, rfl⟩
  · rw [hs.ninds, hs.start]
    intro n hn
    obtain ⟨r1, r2, r3⟩ := h.row n hn
    refine ⟨r1, ?_⟩
    rw [ep n hn]
    by_cases e : A.ninds.get n = r
    · rw [e] at r2 r3 ⊢
      exact (gin _).2 ⟨r2, r3⟩
    · rw [gout]
      · exact ⟨r2, r3⟩
      · rintro ⟨c1, c2⟩
        exact e (h.row_eq hn hr c1 c2)
  · rw [hs.start]
    intro r' hr' x y hx hxy hy
    by_cases e : r' = r
    · rw [e] at hx hy; exact hsort x y hx hxy hy
    · have hle' : A.cs.start.get (r' + 1) ≤ A.ninds.size := by
        have := h.asm.le (show r' + 1 ≤ m by omega) (le_refl _)
        have := h.asm.isz
        have := h.szi
        omega
      have hx' : f x = x := hout x fun c => h.asm.disj hr' hr e hx (by omega) c.1 c.2 rfl
      have hy' : f y = y := hout y fun c => h.asm.disj hr' hr e (by omega) hy c.1 c.2 rfl
      have n1 : ∀ z, A.cs.start.get r' ≤ z → z < A.cs.start.get (r' + 1) → z ≠ A.vpos.get n0 := fun z z1 z2 => by
        obtain ⟨r1, r2, r3⟩ := h.row n0 hn0
        rw [hr0] at r2 r3
        exact h.asm.disj hr' hr e z1 z2 r2 r3
      rw [ei x (by omega), ei y (by omega), hx', hy', if_neg (n1 x hx (by omega)), if_neg (n1 y (by omega) hy)]
      exact h.sorted r' hr' x y hx hxy hy
  · rw [hs.ninds, hs.ssize]
    intro p hp
    rw [ei p hp]
    split
    · exact hk
    · exact h.lt _ (flt p hp)

theorem repos_runs {N : Nat} {vpos vinv vinv' : Buf Nat} {f g : Nat → Nat} (fg : ∀ x, f (g x) = x) (gf : ∀ x, g (f x) = x) {lo hi : Nat} (hlo : lo ≤ hi) (hhi : hi ≤ N)
    (hin : ∀ x, (lo ≤ f x ∧ f x < hi) ↔ (lo ≤ x ∧ x < hi)) (hout : ∀ x, ¬ (lo ≤ x ∧ x < hi) → f x = x)
    (szp : vpos.size = N) (szq : vinv'.size = N) (pi : ∀ n, n < N → vpos.get n < N ∧ vinv.get (vpos.get n) = n)
    (ip : ∀ p, p < N → vinv.get p < N ∧ vpos.get (vinv.get p) = p) (e : ∀ x, vinv'.get x = vinv.get (f x)) :
    Runs (repos vinv' lo hi vpos) fun r => r.size = N ∧ ∀ n, n < N → r.get n = g (vpos.get n) := by
  unfold repos
  refine forUp_runs' (fun t (v : Buf Nat) => v.size = N ∧ ∀ n, n < N → v.get n = if lo ≤ g (vpos.get n) ∧ g (vpos.get n) < t then g (vpos.get n) else vpos.get n)
    hlo ⟨szp, fun n hn => by rw [if_neg (by omega)]⟩ ?_ ?_
  · rintro t v ht1 ht2 ⟨h1, h2⟩
    have hf : f t < N := by have := (hin t).2 ⟨ht1, ht2⟩; omega
    simp only [runs_bind, runs_rd, runs_wr, Buf.set_size, Buf.set_get]
    rw [e t]
    refine ⟨by omega, by have := (ip _ hf).1; omega, h1, fun n hn => ?_⟩
    by_cases en : n = vinv.get (f t)
    · rw [if_pos en]
      have : g (vpos.get n) = t := by rw [en, (ip _ hf).2, gf]
      rw [this, if_pos (by omega)]
    · rw [if_neg en, h2 n hn]
      have hne : g (vpos.get n) ≠ t := fun e' => en (by rw [← e', fg, (pi n hn).2])
      by_cases c : lo ≤ g (vpos.get n) ∧ g (vpos.get n) < t
      · rw [if_pos c, if_pos (by omega)]
      · rw [if_neg c, if_neg (by omega)]
  · rintro v ⟨h1, h2⟩
    refine ⟨h1, fun n hn => ?_⟩
    rw [h2 n hn]
    by_cases c : lo ≤ g (vpos.get n) ∧ g (vpos.get n) < hi
    · rw [if_pos c]
    · rw [if_neg c]
      have := hout _ c
      rw [fg] at this; exact this

/-- Effect of a rotation of the three arrays. -/
structure Rotated (A A' : Aug K) (f g : Nat → Nat) : Prop where
  same : Same A A'
  si : A'.cs.inds.size = A.cs.inds.size
  sv : A'.cs.vals.size = A.cs.vals.size
  sp : A'.vpos.size = A.vpos.size
  sq : A'.vinv.size = A.vinv.size
  ei : ∀ x, A'.cs.inds.get x = A.cs.inds.get (f x)
  ev : ∀ x, A'.cs.vals.get x = A.cs.vals.get (f x)
  eq : ∀ x, A'.vinv.get x = A.vinv.get (f x)
  ep : ∀ n, n < A.ninds.size → A'.vpos.get n = g (A.vpos.get n)

/-- Sizes and inverse maps (part of `Store` that survives a change of the indices). -/
structure Pos (A : Aug K) : Prop where
  szi : A.cs.inds.size = A.ninds.size
  szw : A.cs.vals.size = A.ninds.size
  szp : A.vpos.size = A.ninds.size
  szv : A.vinv.size = A.ninds.size
  pi : ∀ n, n < A.ninds.size → A.vpos.get n < A.ninds.size ∧ A.vinv.get (A.vpos.get n) = n
  ip : ∀ p, p < A.ninds.size → A.vinv.get p < A.ninds.size ∧ A.vpos.get (A.vinv.get p) = p

theorem Store.pos {m : Nat} {A : Aug K} (h : Store m A) : Pos A :=
  ⟨h.szi, by rw [h.asm.vsz, ← h.asm.isz]; exact h.szi, h.szp, h.szv, h.pi, h.ip⟩

theorem rotL_runs {A : Aug K} (h : Pos A) {lo hi : Nat} (h1 : lo < hi) (h2 : hi ≤ A.ninds.size) : Runs (rotL A lo hi) fun A' => Rotated A A' (rho lo hi) (sig lo hi) := by
  unfold rotL
  simp only [runs_bind]
  refine (rotateLeft_runs _ h1 (by rw [h.szv]; exact h2)).mono ?_
  rintro w ⟨w1, w2⟩
  refine (repos_runs (vinv := A.vinv) (rho_sig lo hi) (sig_rho lo hi) h1.le h2 (fun x => rho_range (le_refl _) (le_refl _)) (fun x hx => rho_out (by omega)) h.szp
    (w1.trans h.szv) h.pi h.ip w2).mono ?_
  rintro v ⟨v1, v2⟩
  refine (rotateLeft_runs _ h1 (by rw [h.szi]; exact h2)).mono ?_
  rintro i ⟨i1, i2⟩
  refine (rotateLeft_runs _ h1 (by rw [h.szw]; exact h2)).mono ?_
  rintro u ⟨u1, u2⟩
  rw [runs_pure]
  exact ⟨⟨rfl, rfl, rfl, rfl, rfl, rfl, rfl, rfl⟩, i1, u1, v1.trans h.szp.symm, w1, i2, u2, w2, v2⟩

theorem rotR_runs {A : Aug K} (h : Pos A) {lo hi : Nat} (h1 : lo < hi) (h2 : hi ≤ A.ninds.size) : Runs (rotR A lo hi) fun A' => Rotated A A' (sig lo hi) (rho lo hi) := by
  unfold rotR
  simp only [runs_bind]
  refine (rotateRight_runs _ h1 (by rw [h.szv]; exact h2)).mono ?_
  rintro w ⟨w1, w2⟩
  refine (repos_runs (vinv := A.vinv) (sig_rho lo hi) (rho_sig lo hi) h1.le h2 (fun x => sig_range (le_refl _) (le_refl _)) (fun x hx => sig_out (by omega)) h.szp
    (w1.trans h.szv) h.pi h.ip w2).mono ?_
  rintro v ⟨v1, v2⟩
  refine (rotateRight_runs _ h1 (by rw [h.szi]; exact h2)).mono ?_
  rintro i ⟨i1, i2⟩
  refine (rotateRight_runs _ h1 (by rw [h.szw]; exact h2)).mono ?_
  rintro u ⟨u1, u2⟩
  rw [runs_pure]
  exact ⟨⟨rfl, rfl, rfl, rfl, rfl, rfl, rfl, rfl⟩, i1, u1, v1.trans h.szp.symm, w1, i2, u2, w2, v2⟩

/-- The effect of moving the entry of node `n0` to index `k`. -/
structure Moved (m : Nat) (A A' : Aug K) (n0 k : Nat) : Prop where
  store : Store m A'
  same : Same A A'
  col : ∀ n, n < A.ninds.size → A'.colOf n = if n = n0 then k else A.colOf n
  val : ∀ n, n < A.ninds.size → A'.valOf n = A.valOf n

theorem Store.line_le {m : Nat} {A : Aug K} (h : Store m A) {r : Nat} (hr : r < m) : A.cs.start.get (r + 1) ≤ A.ninds.size := by
  have := h.asm.le (show r + 1 ≤ m by omega) (le_refl _)
  have := h.asm.isz
  have := h.szi
  omega

/-- No entry of line `r` has index `k`: in terms of positions. -/
theorem Store.absent {m : Nat} {A : Aug K} (h : Store m A) {r k : Nat} (hr : r < m) (hk : ∀ n, n < A.ninds.size → A.ninds.get n = r → A.colOf n ≠ k) (x : Nat)
    (h1 : A.cs.start.get r ≤ x) (h2 : x < A.cs.start.get (r + 1)) : A.cs.inds.get x ≠ k := by
  have hx : x < A.ninds.size := lt_of_lt_of_le h2 (h.line_le hr)
  obtain ⟨a, b⟩ := h.ip x hx
  have := hk _ a (h.row_eq a hr (by rw [b]; exact h1) (by rw [b]; exact h2))
  unfold colOf at this
  rwa [b] at this

/-- The rotation part: index at the position of `n0` replaced by `k`, then a rotation inside the line. -/
theorem moved_of_rot {m : Nat} {A A' : Aug K} (h : Store m A) {n0 r k : Nat} (hn : n0 < A.ninds.size) (hr : A.ninds.get n0 = r) (hk : k < A.cs.ssize)
    {f g : Nat → Nat} (hrot : Rotated { A with cs := { A.cs with inds := A.cs.inds.set (A.vpos.get n0) k } } A' f g)
    (fg : ∀ x, f (g x) = x) (gf : ∀ x, g (f x) = x)
    (hin : ∀ x, (A.cs.start.get r ≤ f x ∧ f x < A.cs.start.get (r + 1)) ↔ (A.cs.start.get r ≤ x ∧ x < A.cs.start.get (r + 1)))
    (hout : ∀ x, ¬ (A.cs.start.get r ≤ x ∧ x < A.cs.start.get (r + 1)) → f x = x)
    (hsort : ∀ x y, A.cs.start.get r ≤ x → x < y → y < A.cs.start.get (r + 1) →
      (if f x = A.vpos.get n0 then k else A.cs.inds.get (f x)) < (if f y = A.vpos.get n0 then k else A.cs.inds.get (f y))) :
    Moved m A A' n0 k := by
  have hs : Same A A' := ⟨hrot.same.ninds, hrot.same.nnext, hrot.same.nstart, hrot.same.nend, hrot.same.counts, hrot.same.start, hrot.same.psize, hrot.same.ssize⟩
  have ei : ∀ x, A'.cs.inds.get x = if f x = A.vpos.get n0 then k else A.cs.inds.get (f x) := fun x => by
    rw [hrot.ei x]; simp only [Buf.set_get]
  have hrm : r < m := by rw [← hr]; exact (h.row n0 hn).1
  obtain ⟨k1, k2, k3⟩ := permute h hs hrm fg gf hin hout hn hr hk (by rw [hrot.si]; simp) hrot.sv hrot.sp hrot.sq (fun x _ => ei x) (fun x _ => hrot.ev x)
    (fun x _ => hrot.eq x) hrot.ep (fun x y hx hxy hy => by rw [ei x, ei y]; exact hsort x y hx hxy hy)
  exact ⟨k1, hs, k2, k3⟩

theorem Store.pos_set {m : Nat} {A : Aug K} (h : Store m A) (p k : Nat) : Pos { A with cs := { A.cs with inds := A.cs.inds.set p k } } := by
  have := h.pos
  exact ⟨by simp only [Buf.set_size]; exact this.szi, this.szw, this.szp, this.szv, this.pi, this.ip⟩

theorem moveTo_runs {m : Nat} {A : Aug K} (h : Store m A) {n0 r k : Nat} (hn : n0 < A.ninds.size) (hr : A.ninds.get n0 = r) (hk : k < A.cs.ssize)
    (habs : ∀ n, n < A.ninds.size → A.ninds.get n = r → A.colOf n ≠ k) : Runs (moveTo A r (A.vpos.get n0) k) fun A' => Moved m A A' n0 k := by
  obtain ⟨r1, r2, r3⟩ := h.row n0 hn
  rw [hr] at r1 r2 r3
  have hle := h.line_le r1
  have hss := h.asm.ssz
  have hab := h.absent r1 habs
  unfold moveTo
  simp only [runs_bind, runs_rd]
  refine ⟨by omega, by omega, ?_⟩
  refine (Crout.lowerBound_runs A.cs.inds k _ _ (by rw [h.szi]; omega) (fun x y a b c => h.sorted r r1 x y a b (by omega))).mono ?_
  rintro q ⟨q1, q2, q3, q4⟩
  set p := A.vpos.get n0 with hp
  simp only [runs_wr]
  refine ⟨by rw [h.szi]; omega, ?_⟩
  have hgt : ∀ z, q ≤ z → z < A.cs.start.get (r + 1) → k < A.cs.inds.get z := fun z z1 z2 =>
    lt_of_le_of_ne (q4 z z1 (by omega)) (Ne.symm (hab z (by omega) z2))
  have hso := h.sorted r r1
  split
  · rename_i hpq
    refine (rotL_runs (h.pos_set p k) hpq (by show q ≤ A.ninds.size; omega)).mono fun A' hrot => ?_
    refine moved_of_rot h hn hr hk hrot (rho_sig p q) (sig_rho p q) (fun x => rho_range r2 (by omega)) (fun x hx => rho_out (by omega)) ?_
    intro x y hx hxy hy
    rw [← hp]
    by_cases hyq : y < q
    · have hfx : rho p q x ≠ p := by unfold rho; repeat' split
                                     all_goals omega
      have hfx2 : A.cs.start.get r ≤ rho p q x ∧ rho p q x < q := by unfold rho; repeat' split
                                                                     all_goals omega
      rw [if_neg hfx]
      split
      · exact q3 _ hfx2.1 hfx2.2
      · rename_i hfy
        refine hso _ _ hfx2.1 ?_ ?_
        · revert hfy; unfold rho; repeat' split
          all_goals omega
        · unfold rho; repeat' split
          all_goals omega
    · have hfy : rho p q y = y := rho_out (by omega)
      rw [hfy, if_neg (by omega : ¬ y = p)]
      split
      · exact hgt y (by omega) hy
      · by_cases hxq : x < q
        · refine hso _ _ ?_ ?_ hy
          · unfold rho; repeat' split
            all_goals omega
          · unfold rho; repeat' split
            all_goals omega
        · rw [rho_out (by omega)]; exact hso _ _ hx hxy hy
  · split
    · rename_i hqp
      refine (rotR_runs (h.pos_set p k) (show q < p + 1 by omega) (by show p + 1 ≤ A.ninds.size; omega)).mono fun A' hrot => ?_
      refine moved_of_rot h hn hr hk hrot (sig_rho q (p + 1)) (rho_sig q (p + 1)) (fun x => sig_range q1 (by omega)) (fun x hx => sig_out (by omega)) ?_
      intro x y hx hxy hy
      rw [← hp]
      by_cases hxq : x < q
      · have hfx : sig q (p + 1) x = x := sig_out (by omega)
        rw [hfx, if_neg (by omega : ¬ x = p)]
        split
        · exact q3 x hx hxq
        · refine hso _ _ hx ?_ ?_
          · unfold sig; repeat' split
            all_goals omega
          · unfold sig; repeat' split
            all_goals omega
      · have hfy : sig q (p + 1) y ≠ p := by unfold sig; repeat' split
                                             all_goals omega
        have hfy2 : q ≤ sig q (p + 1) y ∧ sig q (p + 1) y < A.cs.start.get (r + 1) := by unfold sig; repeat' split
                                                                                         all_goals omega
        rw [if_neg hfy]
        split
        · exact hgt _ hfy2.1 hfy2.2
        · rename_i hfx
          refine hso _ _ ?_ ?_ hfy2.2
          · unfold sig; repeat' split
            all_goals omega
          · revert hfx; unfold sig; repeat' split
            all_goals omega
    · rw [runs_pure]
      have hpq : p = q := by omega
      refine moved_of_rot h hn hr hk (f := id) (g := id)
        (A' := { A with cs := { A.cs with inds := A.cs.inds.set (A.vpos.get n0) k } })
        ⟨Same.refl _, rfl, rfl, rfl, rfl, fun _ => rfl, fun _ => rfl, fun _ => rfl, fun _ _ => rfl⟩ (fun _ => rfl) (fun _ => rfl) (fun _ => Iff.rfl) (fun _ _ => rfl) ?_
      intro x y hx hxy hy
      rw [← hp]
      simp only [id]
      by_cases hxp : x = p
      · rw [if_pos hxp, if_neg (by omega)]; exact hgt y (by omega) hy
      · rw [if_neg hxp]
        split
        · exact q3 x hx (by omega)
        · exact hso x y hx hxy hy

/-- Deferring: the rotation to the end of the line. -/
theorem moveEnd_runs {m : Nat} {A : Aug K} (h : Store m A) {n0 r k : Nat} (hn : n0 < A.ninds.size) (hr : A.ninds.get n0 = r) (hk : k < A.cs.ssize)
    (habs : ∀ n, n < A.ninds.size → A.ninds.get n = r → n ≠ n0 → A.colOf n < k) :
    Runs (rotL { A with cs := { A.cs with inds := A.cs.inds.set (A.vpos.get n0) k } } (A.vpos.get n0) (A.cs.start.get (r + 1))) fun A' => Moved m A A' n0 k := by
  obtain ⟨r1, r2, r3⟩ := h.row n0 hn
  rw [hr] at r1 r2 r3
  have hle := h.line_le r1
  set p := A.vpos.get n0 with hp
  refine (rotL_runs (h.pos_set p k) r3 (by show A.cs.start.get (r + 1) ≤ A.ninds.size; omega)).mono fun A' hrot => ?_
  refine moved_of_rot h hn hr hk hrot (rho_sig p _) (sig_rho p _) (fun x => rho_range r2 (by omega)) (fun x hx => rho_out (by omega)) ?_
  intro x y hx hxy hy
  rw [← hp]
  have hlt : ∀ z, A.cs.start.get r ≤ z → z < A.cs.start.get (r + 1) → z ≠ p → A.cs.inds.get z < k := by
    intro z z1 z2 z3
    have hz : z < A.ninds.size := by omega
    obtain ⟨a, b⟩ := h.ip z hz
    have := habs _ a (h.row_eq a r1 (by rw [b]; exact z1) (by rw [b]; exact z2)) (fun e => z3 (by rw [hp, ← e, b]))
    unfold colOf at this
    rwa [b] at this
  have hfx : rho p (A.cs.start.get (r + 1)) x ≠ p := by
    unfold rho
    repeat' split
    all_goals omega
  have hfx2 : A.cs.start.get r ≤ rho p (A.cs.start.get (r + 1)) x ∧ rho p (A.cs.start.get (r + 1)) x < A.cs.start.get (r + 1) := by
    unfold rho
    repeat' split
    all_goals omega
  rw [if_neg hfx]
  split
  · exact hlt _ hfx2.1 hfx2.2 hfx
  · rename_i hfy
    refine h.sorted r r1 _ _ hfx2.1 ?_ ?_
    · revert hfy; unfold rho; repeat' split
      all_goals omega
    · unfold rho; repeat' split
      all_goals omega

/-- The effect of exchanging the entries of nodes `a` and `b` of one line. -/
structure Swapped (m : Nat) (A A' : Aug K) (a b : Nat) : Prop where
  store : Store m A'
  same : Same A A'
  col : ∀ n, n < A.ninds.size → A'.colOf n = if n = a then A.colOf b else if n = b then A.colOf a else A.colOf n
  val : ∀ n, n < A.ninds.size → A'.valOf n = A.valOf n

theorem swapBoth_runs {m : Nat} {A : Aug K} (h : Store m A) {a b : Nat} (ha : a < A.ninds.size) (hb : b < A.ninds.size) (hab : A.ninds.get a = A.ninds.get b) :
    Runs (swapBoth A (A.vpos.get a) (A.vpos.get b)) fun A' => Swapped m A A' a b := by
  have hp := h.pos
  have pa := h.pi a ha
  have pb := h.pi b hb
  unfold swapBoth swapPos
  simp only [runs_bind]
  refine (swapBuf_runs _ (by rw [hp.szw]; exact pa.1) (by rw [hp.szw]; exact pb.1)).mono ?_
  rintro u ⟨u1, u2⟩
  simp only [runs_rd]
  rw [pa.2, pb.2]
  refine ⟨by rw [h.szv]; exact pa.1, by rw [h.szv]; exact pb.1, ?_⟩
  refine (swapBuf_runs _ (by rw [h.szp]; exact ha) (by rw [h.szp]; exact hb)).mono ?_
  rintro v ⟨v1, v2⟩
  refine (swapBuf_runs _ (by rw [h.szv]; exact pa.1) (by rw [h.szv]; exact pb.1)).mono ?_
  rintro w ⟨w1, w2⟩
  rw [runs_pure]
  have inj : ∀ n n', n < A.ninds.size → n' < A.ninds.size → A.vpos.get n = A.vpos.get n' → n = n' := fun n n' hn hn' e => by
    rw [← (h.pi n hn).2, e, (h.pi n' hn').2]
  have swlt : ∀ n, n < A.ninds.size → Equiv.swap a b n < A.ninds.size := fun n hn => by
    rw [Equiv.swap_apply_def]; repeat' split
    all_goals assumption
  have key : ∀ n, n < A.ninds.size → Equiv.swap (A.vpos.get a) (A.vpos.get b) (A.vpos.get (Equiv.swap a b n)) = A.vpos.get n := by
    intro n hn
    by_cases e1 : n = a
    · rw [e1, Equiv.swap_apply_left, Equiv.swap_apply_right]
    · by_cases e2 : n = b
      · rw [e2, Equiv.swap_apply_right, Equiv.swap_apply_left]
      · rw [Equiv.swap_apply_of_ne_of_ne e1 e2, Equiv.swap_apply_of_ne_of_ne (fun e => e1 (inj _ _ hn ha e)) (fun e => e2 (inj _ _ hn hb e))]
  have key2 : ∀ n, n < A.ninds.size → Equiv.swap (A.vpos.get a) (A.vpos.get b) (A.vpos.get n) = A.vpos.get (Equiv.swap a b n) := by
    intro n hn
    have := key _ (swlt n hn)
    rwa [Equiv.swap_apply_self] at this
  refine ⟨⟨⟨h.asm.ssz, h.asm.zero, h.asm.mono, h.asm.isz, ?_⟩, h.szi, v1.trans h.szp, w1.trans h.szv, h.szn, fun n hn => ?_, fun p hpn => ?_, fun n hn => ?_, h.sorted, h.lt⟩,
    ⟨rfl, rfl, rfl, rfl, rfl, rfl, rfl, rfl⟩, fun n hn => ?_, fun n hn => ?_⟩
  · exact u1.trans h.asm.vsz
  · simp only
    rw [v2, w2]
    refine ⟨(h.pi _ (swlt n hn)).1, ?_⟩
    rw [key n hn, (h.pi n hn).2]
  · simp only
    rw [w2, v2]
    obtain ⟨q1, q2⟩ := h.ip p hpn
    have e1 : Equiv.swap (A.vpos.get a) (A.vpos.get b) p = A.vpos.get (Equiv.swap a b (A.vinv.get p)) := by
      conv_lhs => rw [← q2]
      exact key2 _ q1
    have q3 := h.pi _ (swlt _ q1)
    rw [e1, q3.2, Equiv.swap_apply_self, q2]
    exact ⟨swlt _ q1, rfl⟩
  · simp only
    rw [v2]
    obtain ⟨r1, r2, r3⟩ := h.row n hn
    refine ⟨r1, ?_⟩
    obtain ⟨a1, a2, a3⟩ := h.row a ha
    obtain ⟨b1, b2, b3⟩ := h.row b hb
    by_cases e1 : n = a
    · rw [e1, Equiv.swap_apply_left, hab]; exact ⟨b2, b3⟩
    · by_cases e2 : n = b
      · rw [e2, Equiv.swap_apply_right, ← hab]; exact ⟨a2, a3⟩
      · rw [Equiv.swap_apply_of_ne_of_ne e1 e2]; exact ⟨r2, r3⟩
  · unfold colOf
    simp only
    rw [v2, Equiv.swap_apply_def]
    repeat' split
    all_goals rfl
  · unfold valOf
    simp only
    rw [v2, u2, key n hn]

end Aug
end Hif
