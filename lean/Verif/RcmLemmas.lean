import Verif.Rcm
import Verif.PreDrive
import Mathlib.Data.List.Perm.Basic

set_option linter.unusedVariables false
set_option linter.unusedSectionVars false

/-! # Proofs about reverse Cuthill–McKee -/

namespace Hif
namespace Rcm

section acc
variable {α : Type _}

theorem runs_rd1 (b : Buf α) (i : Nat) (Q : α → Prop) : Runs (rd1 b i) Q ↔ (1 ≤ i ∧ i ≤ b.size) ∧ Q (b.get (i - 1)) := by
  unfold rd1
  by_cases h : i = 0
  · rw [if_pos h]; simp [h]
  · rw [if_neg h, runs_rd]
    constructor
    · rintro ⟨a, b⟩; exact ⟨by omega, b⟩
    · rintro ⟨a, b⟩; exact ⟨by omega, b⟩

theorem runs_wr1 (b : Buf α) (i : Nat) (v : α) (Q : Buf α → Prop) :
    Runs (wr1 b i v) Q ↔ (1 ≤ i ∧ i ≤ b.size) ∧ Q (b.set (i - 1) v) := by
  unfold wr1
  by_cases h : i = 0
  · rw [if_pos h]; simp [h]
  · rw [if_neg h, runs_wr]
    constructor
    · rintro ⟨a, b⟩; exact ⟨by omega, b⟩
    · rintro ⟨a, b⟩; exact ⟨by omega, b⟩

end acc

theorem runs_toIdx (z : Int) (Q : Nat → Prop) : Runs (toIdx z) Q ↔ 0 ≤ z ∧ Q z.toNat := by
  unfold toIdx
  by_cases h : z < 0
  · rw [if_pos h]; simp; intro h'; omega
  · rw [if_neg h]; simp only [runs_pure]; constructor
    · intro q; exact ⟨by omega, q⟩
    · exact fun q => q.2

/-- Neighbours of vertex `v` (one-based). -/
def Graph.adj (G : Graph) (v : Nat) : List Nat := G.adjncy.slice ((G.xadj.get (v - 1)).toNat - 1) ((G.xadj.get v).toNat - 1)

/-- A valid graph. -/
structure Graph.OK (G : Graph) : Prop where
  xsz : G.xadj.size = G.n + 1
  pos : ∀ i, i ≤ G.n → 1 ≤ G.xadj.get i
  mono : ∀ i, i < G.n → G.xadj.get i ≤ G.xadj.get (i + 1)
  top : ∀ i, i ≤ G.n → (G.xadj.get i).toNat - 1 ≤ G.adjncy.size
  vert : ∀ v, 1 ≤ v → v ≤ G.n → ∀ w ∈ G.adj v, 1 ≤ w ∧ w ≤ G.n

theorem forAdj_runs {σ : Type _} {G : Graph} (hG : G.OK) {v : Nat} (h1 : 1 ≤ v) (h2 : v ≤ G.n) {s : σ} {f : Nat → σ → M σ} {Q : σ → Prop}
    {a b : Nat} (ha : a = (G.xadj.get (v - 1)).toNat) (hb : b = (G.xadj.get v).toNat)
    (I : List Nat → σ → Prop) (h0 : I [] s)
    (hstep : ∀ l x r s, G.adj v = l ++ x :: r → I l s → Runs (f x s) (I (l ++ [x])))
    (hQ : ∀ s, I (G.adj v) s → Q s) : Runs (forAdj G.adjncy a b s f) Q := by
  unfold forAdj
  have p1 := hG.pos (v - 1) (by omega)
  have p2 := hG.pos v h2
  have hm := hG.mono (v - 1) (by omega)
  rw [show v - 1 + 1 = v by omega] at hm
  have ht := hG.top v h2
  refine forUp_runs' (fun k s => I (G.adjncy.slice (a - 1) (k - 1)) s) (by omega)
    (by rw [Buf.slice_empty _ _ _ (le_refl _)]; exact h0) (fun k s k1 k2 h3 => ?_) (fun s hs => hQ s (by unfold Graph.adj; rw [← ha, ← hb]; exact hs))
  simp only [runs_bind, runs_rd1]
  refine ⟨by omega, ?_⟩
  have e : G.adjncy.slice (a - 1) (k + 1 - 1) = G.adjncy.slice (a - 1) (k - 1) ++ [G.adjncy.get (k - 1)] := by
    rw [show k + 1 - 1 = (k - 1) + 1 by omega, Buf.slice_succ _ (by omega)]
  rw [e]
  refine hstep _ _ (G.adjncy.slice k (b - 1)) s ?_ h3
  unfold Graph.adj
  rw [← ha, ← hb, ← Buf.slice_append G.adjncy (show a - 1 ≤ k - 1 by omega) (show k - 1 ≤ b - 1 by omega), Buf.slice_cons G.adjncy (lo := k - 1) (hi := b - 1) (by omega),
    show k - 1 + 1 = k by omega]

theorem forNbr_runs {σ : Type _} {G : Graph} (hG : G.OK) {v : Nat} (h1 : 1 ≤ v) (h2 : v ≤ G.n) {s : σ} {f : Nat → σ → M σ} {Q : σ → Prop}
    (I : List Nat → σ → Prop) (h0 : I [] s)
    (hstep : ∀ l x r s, G.adj v = l ++ x :: r → I l s → Runs (f x s) (I (l ++ [x])))
    (hQ : ∀ s, I (G.adj v) s → Q s) : Runs (forNbr G v s f) Q := by
  unfold forNbr
  have p1 := hG.pos (v - 1) (by omega)
  have p2 := hG.pos v h2
  have hx := hG.xsz
  simp only [runs_bind, runs_rd1, runs_toIdx, Nat.add_sub_cancel]
  exact ⟨by omega, by omega, by omega, by omega, forAdj_runs hG h1 h2 rfl rfl I h0 hstep hQ⟩

/-- `x` can be reached from `root` through vertices of `U`. -/
inductive Reach (adj : Nat → List Nat) (U : Nat → Prop) (root : Nat) : Nat → Prop
  | refl : Reach adj U root root
  | step {v w : Nat} : Reach adj U root v → w ∈ adj v → U w → Reach adj U root w

theorem Reach.inU {adj : Nat → List Nat} {U : Nat → Prop} {root x : Nat} (h : Reach adj U root x) (hr : U root) : U x := by
  cases h with
  | refl => exact hr
  | step _ _ h => exact h

theorem Reach.trans {adj : Nat → List Nat} {U : Nat → Prop} {a b c : Nat} (h1 : Reach adj U a b) (h2 : Reach adj U b c) : Reach adj U a c := by
  induction h2 with
  | refl => exact h1
  | step _ h3 h4 ih => exact .step ih h3 h4

theorem Reach.symm {adj : Nat → List Nat} {U : Nat → Prop} {a b : Nat} (hs : ∀ v w, U v → U w → w ∈ adj v → v ∈ adj w) (ha : U a)
    (h : Reach adj U a b) : Reach adj U b a := by
  induction h with
  | refl => exact .refl
  | @step v w h1 h2 h3 ih =>
    exact (Reach.step .refl (hs v w (h1.inU ha) h3 h2) (h1.inU ha)).trans ih

/-! ### Generic breadth-first search -/

section bfs
variable {σ : Type _}

/-- How a search state stores the visited vertices. -/
structure View (σ : Type _) where
  ls : σ → Buf Nat
  cc : σ → Nat

def View.V (vw : View σ) (o : Nat) (s : σ) : List Nat := (vw.ls s).slice o (o + vw.cc s)

/-- All neighbours (in `U`) of the first `k` visited vertices have been visited. -/
def View.Scanned (vw : View σ) (adj : Nat → List Nat) (U : Nat → Prop) (o k : Nat) (s : σ) : Prop :=
  ∀ i, i < k → ∀ w ∈ adj ((vw.ls s).get (o + i)), U w → w ∈ vw.V o s

/-- Effect of processing one visited vertex. -/
def View.NodeSpec (vw : View σ) (adj : Nat → List Nat) (U : Nat → Prop) (o : Nat) (Inv : σ → Prop) (f : Nat → σ → M σ) : Prop :=
  ∀ i s, Inv s → 1 ≤ i → i ≤ vw.cc s → Runs (f i s) fun s' => Inv s' ∧ vw.cc s ≤ vw.cc s' ∧
    (∀ k, k < o + vw.cc s → (vw.ls s').get k = (vw.ls s).get k) ∧ ∀ w ∈ adj ((vw.ls s).get (o + (i - 1))), U w → w ∈ vw.V o s'

theorem View.V_sub {vw : View σ} {o : Nat} {s s' : σ} (hc : vw.cc s ≤ vw.cc s') (hp : ∀ k, k < o + vw.cc s → (vw.ls s').get k = (vw.ls s).get k)
    {x : Nat} (h : x ∈ vw.V o s) : x ∈ vw.V o s' := by
  obtain ⟨k, k1, k2, rfl⟩ := Buf.mem_slice.1 h
  exact Buf.mem_slice.2 ⟨k, k1, by omega, hp k k2⟩

theorem View.level_runs {vw : View σ} {adj : Nat → List Nat} {U : Nat → Prop} {o : Nat} {Inv : σ → Prop} {f : Nat → σ → M σ}
    (hf : vw.NodeSpec adj U o Inv f) {s : σ} (hI : Inv s) {l : Nat} (hl : l ≤ vw.cc s) (hs : vw.Scanned adj U o l s) :
    Runs (forUp (l + 1) (vw.cc s + 1) s f) fun s' => Inv s' ∧ vw.cc s ≤ vw.cc s' ∧
      (∀ k, k < o + vw.cc s → (vw.ls s').get k = (vw.ls s).get k) ∧ vw.Scanned adj U o (vw.cc s) s' := by
  refine forUp_runs' (fun i s' => Inv s' ∧ vw.cc s ≤ vw.cc s' ∧
    (∀ k, k < o + vw.cc s → (vw.ls s').get k = (vw.ls s).get k) ∧ vw.Scanned adj U o (i - 1) s') (by omega)
    ⟨hI, le_refl _, fun _ _ => rfl, hs⟩ ?_ (fun s' h => h)
  rintro i t i1 i2 ⟨t1, t2, t3, t4⟩
  refine (hf i t t1 (by omega) (by omega)).mono ?_
  rintro t' ⟨u1, u2, u3, u4⟩
  refine ⟨u1, by omega, fun k hk => by rw [u3 k (by omega), t3 k hk], fun k hk w hw hU => ?_⟩
  rw [u3 _ (by omega)] at hw
  by_cases e : k = i - 1
  · rw [e] at hw; exact u4 w hw hU
  · exact View.V_sub u2 u3 (t4 k (by omega) w hw hU)

/-- A completed search has found exactly the reachable vertices. -/
theorem View.complete {vw : View σ} {adj : Nat → List Nat} {U : Nat → Prop} {o root : Nat} {s : σ} (hr : root ∈ vw.V o s)
    (hv : ∀ x ∈ vw.V o s, Reach adj U root x) (hs : vw.Scanned adj U o (vw.cc s) s) (x : Nat) : x ∈ vw.V o s ↔ Reach adj U root x := by
  refine ⟨hv x, fun h => ?_⟩
  induction h with
  | refl => exact hr
  | @step v w h1 h2 h3 ih =>
    obtain ⟨k, k1, k2, e⟩ := Buf.mem_slice.1 ih
    refine hs (k - o) (by omega) w ?_ h3
    rw [show o + (k - o) = k by omega, e]; exact h2

end bfs

/-! ### Level structure -/

def lsView : View LsSt := ⟨LsSt.ls, LsSt.cc⟩

section ls
variable {G : Graph} {o root : Nat} {U : Nat → Prop} {ls0 : Buf Nat}

/-- The setting of one search: `U` are the vertices not yet numbered, there is room for them behind position `o`. -/
structure Setting (G : Graph) (o root : Nat) (U : Nat → Prop) : Prop where
  ok : G.OK
  valid : ∀ v, U v → 1 ≤ v ∧ v ≤ G.n
  root : U root
  cap : ∀ V : List Nat, V.Nodup → (∀ v ∈ V, U v) → o + V.length ≤ G.n

/-- Invariant of the searches with a mask. -/
structure LInv (G : Graph) (o root : Nat) (U : Nat → Prop) (ls0 : Buf Nat) (s : LsSt) : Prop where
  msz : s.mask.size = G.n + 1
  lsz : s.ls.size = G.n
  pos : 0 < s.cc
  head : s.ls.get o = root
  mask : ∀ v, 1 ≤ v → v ≤ G.n → (s.mask.get v = true ↔ U v ∧ v ∉ lsView.V o s)
  nodup : (lsView.V o s).Nodup
  reach : ∀ v ∈ lsView.V o s, Reach G.adj U root v
  pre : ∀ k, k < o → s.ls.get k = ls0.get k

theorem LInv.inU (h0 : Setting G o root U) {s : LsSt} (h : LInv G o root U ls0 s) {v : Nat} (hv : v ∈ lsView.V o s) : U v :=
  (h.reach v hv).inU h0.root

theorem LInv.le (h0 : Setting G o root U) {s : LsSt} (h : LInv G o root U ls0 s) : o + s.cc ≤ G.n := by
  have := h0.cap _ h.nodup (fun v hv => h.inU h0 hv)
  unfold View.V at this
  rw [Buf.slice_length] at this
  have e : lsView.cc s = s.cc := rfl
  rw [e] at this
  omega

theorem lsVisit_runs (h0 : Setting G o root U) {s : LsSt} (h : LInv G o root U ls0 s) {v w : Nat} (hv : v ∈ lsView.V o s) (hw : w ∈ G.adj v) :
    Runs (lsVisit o w s) fun s' => LInv G o root U ls0 s' ∧ s.cc ≤ s'.cc ∧ (∀ k, k < o + s.cc → s'.ls.get k = s.ls.get k) ∧
      (U w → w ∈ lsView.V o s') := by
  have hvU := h0.valid v (h.inU h0 hv)
  have hwv := h0.ok.vert v hvU.1 hvU.2 w hw
  unfold lsVisit
  have hm := h.mask w hwv.1 hwv.2
  have hmsz := h.msz
  have hlsz := h.lsz
  have hpos := h.pos
  simp only [runs_bind, runs_rd]
  refine ⟨by omega, ?_⟩
  split
  · rename_i hc
    obtain ⟨hU, hn⟩ := hm.1 hc
    have hVe : (s.ls.set (o + s.cc) w).slice o (o + (s.cc + 1)) = lsView.V o s ++ [w] := by
      rw [← Nat.add_assoc, Buf.slice_set_succ _ _ (by omega)]; rfl
    have hnd : (lsView.V o s ++ [w]).Nodup := by
      rw [List.nodup_append]
      refine ⟨h.nodup, List.nodup_singleton _, fun a ha b hb e => ?_⟩
      rw [List.mem_singleton] at hb
      rw [e, hb] at ha; exact hn ha
    have hr : ∀ x ∈ lsView.V o s ++ [w], Reach G.adj U root x := by
      intro x hx
      rcases List.mem_append.1 hx with hx | hx
      · exact h.reach x hx
      · rw [List.mem_singleton] at hx
        rw [hx]; exact .step (h.reach v hv) hw hU
    have hcap := h0.cap _ hnd (fun x hx => (hr x hx).inU h0.root)
    have hlen : (lsView.V o s ++ [w]).length = s.cc + 1 := by
      rw [← hVe, Buf.slice_length]; omega
    simp only [runs_bind, runs_pure, wrAt, runs_wr1, runs_wr]
    refine ⟨by omega, by omega, ?_⟩
    rw [show o + (s.cc + 1) - 1 = o + s.cc by omega]
    refine ⟨⟨hmsz, hlsz, Nat.succ_pos _, ?_, ?_, ?_, ?_, ?_⟩, Nat.le_succ _, ?_, ?_⟩
    · simp only [Buf.set_get]; rw [if_neg (by omega)]; exact h.head
    · intro x x1 x2
      show (if x = w then false else s.mask.get x) = true ↔ U x ∧ x ∉ (s.ls.set (o + s.cc) w).slice o (o + (s.cc + 1))
      rw [hVe, List.mem_append, List.mem_singleton]
      by_cases e : x = w
      · rw [if_pos e]; simp [e]
      · rw [if_neg e, h.mask x x1 x2]; simp [e]
    · show ((s.ls.set (o + s.cc) w).slice o (o + (s.cc + 1))).Nodup
      rw [hVe]; exact hnd
    · show ∀ x ∈ (s.ls.set (o + s.cc) w).slice o (o + (s.cc + 1)), _
      rw [hVe]; exact hr
    · intro k hk; simp only [Buf.set_get]; rw [if_neg (by omega)]; exact h.pre k hk
    · intro k hk; simp only [Buf.set_get]; rw [if_neg (by omega)]
    · intro _
      show w ∈ (s.ls.set (o + s.cc) w).slice o (o + (s.cc + 1))
      rw [hVe]; simp
  · rename_i hc
    rw [runs_pure]
    refine ⟨h, le_refl _, fun _ _ => rfl, fun hU => ?_⟩
    by_contra hn
    exact hc (hm.2 ⟨hU, hn⟩)

theorem lsNode_spec (h0 : Setting G o root U) : lsView.NodeSpec G.adj U o (LInv G o root U ls0) (lsNode G o) := by
  intro i s h i1 i2
  have hle := h.le h0
  have hlsz := h.lsz
  have i2' : i ≤ s.cc := i2
  unfold lsNode
  simp only [runs_bind, rdAt, runs_rd1]
  refine ⟨by omega, ?_⟩
  rw [show o + i - 1 = o + (i - 1) by omega]
  have hv : s.ls.get (o + (i - 1)) ∈ lsView.V o s := Buf.mem_slice.2 ⟨_, by omega, by show _ < o + s.cc; omega, rfl⟩
  have hvU := h0.valid _ (h.inU h0 hv)
  refine forNbr_runs h0.ok hvU.1 hvU.2 (fun l s' => LInv G o root U ls0 s' ∧ s.cc ≤ s'.cc ∧ (∀ k, k < o + s.cc → s'.ls.get k = s.ls.get k) ∧
    ∀ w ∈ l, U w → w ∈ lsView.V o s') ⟨h, le_refl _, fun _ _ => rfl, by simp⟩ ?_ (fun s' hs => hs)
  rintro l x r t el ⟨t1, t2, t3, t4⟩
  have hv' : s.ls.get (o + (i - 1)) ∈ lsView.V o t := View.V_sub (vw := lsView) t2 t3 hv
  refine (lsVisit_runs h0 t1 hv' (by rw [el]; simp)).mono ?_
  rintro t' ⟨u1, u2, u3, u4⟩
  refine ⟨u1, by omega, fun k hk => by rw [u3 k (by omega), t3 k hk], fun w hw hU => ?_⟩
  rcases List.mem_append.1 hw with hw | hw
  · exact View.V_sub (vw := lsView) u2 u3 (t4 w hw hU)
  · rw [List.mem_singleton] at hw
    rw [hw] at hU ⊢; exact u4 hU

theorem lsLevels_runs (h0 : Setting G o root U) : ∀ f l nlvl (xls : Buf Nat) (s : LsSt), LInv G o root U ls0 s → lsView.Scanned G.adj U o l s →
    l < s.cc → nlvl ≤ l → xls.size = G.n + 1 → G.n + 1 ≤ s.cc + f →
    Runs (lsLevels G o f l nlvl xls s) fun r => LInv G o root U ls0 r.1 ∧ lsView.Scanned G.adj U o r.1.cc r.1 ∧ r.2.2.size = G.n + 1 ∧
      1 ≤ r.2.1 ∧ r.2.1 ≤ r.1.cc ∧ 1 ≤ r.2.2.get (r.2.1 - 1) ∧ r.2.2.get (r.2.1 - 1) ≤ r.1.cc ∧ r.2.2.get r.2.1 = r.1.cc + 1 := by
  intro f
  induction f with
  | zero =>
    intro l nlvl xls s h _ _ _ _ hf
    have := h.le h0
    omega
  | succ f ih =>
    intro l nlvl xls s h hs hl hn hx hf
    have hle := h.le h0
    unfold lsLevels
    simp only [runs_bind, runs_wr1]
    refine ⟨by omega, ?_⟩
    refine (View.level_runs (vw := lsView) (lsNode_spec h0) h (by show l ≤ s.cc; omega) hs).mono ?_
    rintro s' ⟨u1, u2, u3, u4⟩
    have u2' : s.cc ≤ s'.cc := u2
    split
    · rename_i hc
      exact ih s.cc (nlvl + 1) _ s' u1 u4 hc (by omega) hx (by omega)
    · rename_i hc
      have e : s'.cc = s.cc := by omega
      simp only [runs_bind, runs_wr1, runs_pure, Buf.set_size]
      refine ⟨by omega, u1, by rw [e]; exact u4, hx, by omega, by omega, ?_, ?_, ?_⟩ <;> simp only [Buf.set_get]
      · rw [if_neg (by omega), if_true]; omega
      · rw [if_neg (by omega), if_true]; omega
      · rw [if_pos (by omega), e]

/-- The visited vertices form a list of the component of the root. -/
def IsComp (G : Graph) (U : Nat → Prop) (root : Nat) (V : List Nat) : Prop := V.Nodup ∧ ∀ x, x ∈ V ↔ Reach G.adj U root x

/-- Result of `rootls`. -/
structure LvlOK (G : Graph) (o root : Nat) (U : Nat → Prop) (ls0 : Buf Nat) (cc : Nat) (v : Lvl) : Prop where
  msz : v.mask.size = G.n + 1
  lsz : v.ls.size = G.n
  xsz : v.xls.size = G.n + 1
  mask : ∀ x, 1 ≤ x → x ≤ G.n → (v.mask.get x = true ↔ U x)
  pre : ∀ k, k < o → v.ls.get k = ls0.get k
  comp : IsComp G U root (v.ls.slice o (o + cc))
  room : o + cc ≤ G.n
  nlvl : 1 ≤ v.nlvl ∧ v.nlvl ≤ cc
  last : 1 ≤ v.xls.get (v.nlvl - 1) ∧ v.xls.get (v.nlvl - 1) ≤ cc
  stop : v.xls.get v.nlvl = cc + 1

theorem lsRestore_runs (o cc : Nat) (ls : Buf Nat) (mask : Buf Bool) (h1 : o + cc ≤ ls.size) (h2 : ∀ x ∈ ls.slice o (o + cc), x < mask.size) :
    Runs (lsRestore o cc ls mask) fun m => m.size = mask.size ∧ ∀ x, m.get x = if x ∈ ls.slice o (o + cc) then true else mask.get x := by
  unfold lsRestore
  refine forUp_runs' (fun i (m : Buf Bool) => m.size = mask.size ∧ ∀ x, m.get x = if x ∈ ls.slice o (o + (i - 1)) then true else mask.get x)
    (by omega) ⟨rfl, fun x => by rw [Buf.slice_empty _ _ _ (by omega)]; simp⟩ ?_ (fun m h => h)
  rintro i m i1 i2 ⟨m1, m2⟩
  simp only [runs_bind, rdAt, runs_rd1, runs_wr, Buf.set_size, Buf.set_get]
  have hm : ls.get (o + i - 1) ∈ ls.slice o (o + cc) := Buf.mem_slice.2 ⟨_, by omega, by omega, rfl⟩
  refine ⟨by omega, by rw [m1]; exact h2 _ hm, m1, fun x => ?_⟩
  rw [show o + (i + 1 - 1) = (o + (i - 1)) + 1 by omega, Buf.slice_succ _ (by omega), m2, show o + i - 1 = o + (i - 1) by omega]
  simp only [List.mem_append, List.mem_singleton]
  by_cases e : x = ls.get (o + (i - 1))
  · rw [if_pos e, if_pos (Or.inr e)]
  · rw [if_neg e]; simp only [e, or_false]

theorem rootls_runs (h0 : Setting G o root U) (mask : Buf Bool) (xls ls : Buf Nat) (hm : mask.size = G.n + 1) (hx : xls.size = G.n + 1)
    (hl : ls.size = G.n) (hmU : ∀ x, 1 ≤ x → x ≤ G.n → (mask.get x = true ↔ U x)) :
    Runs (rootls G o root mask xls ls) fun v => ∃ cc, LvlOK G o root U ls cc v := by
  have hr := h0.valid root h0.root
  have hc1 := h0.cap [root] (List.nodup_singleton _) (fun v hv => by rw [List.mem_singleton] at hv; rw [hv]; exact h0.root)
  rw [List.length_singleton] at hc1
  unfold rootls
  simp only [runs_bind, runs_wr, wrAt, runs_wr1]
  refine ⟨by omega, by omega, ?_⟩
  rw [show o + 1 - 1 = o by omega]
  have hV : lsView.V o ⟨mask.set root false, ls.set o root, 1⟩ = [root] := by
    show (ls.set o root).slice o (o + 1) = _
    rw [Buf.slice_set_succ _ _ (le_refl _), Buf.slice_empty _ _ _ (le_refl _)]; rfl
  have hI : LInv G o root U ls ⟨mask.set root false, ls.set o root, 1⟩ := by
    refine ⟨hm, hl, Nat.one_pos, by simp, fun x x1 x2 => ?_, by rw [hV]; exact List.nodup_singleton _, ?_, fun k hk => ?_⟩
    · rw [hV]
      simp only [Buf.set_get, List.mem_singleton]
      by_cases e : x = root
      · rw [if_pos e]; simp [e]
      · rw [if_neg e, hmU x x1 x2]; simp [e]
    · intro x hx; rw [hV, List.mem_singleton] at hx; rw [hx]; exact .refl
    · simp only [Buf.set_get]; rw [if_neg (by omega)]
  refine (lsLevels_runs h0 (G.n + 1) 0 0 xls _ hI (fun i hi => by omega) Nat.one_pos (le_refl _) hx (by simp only; omega)).mono ?_
  rintro ⟨s, nlvl, xls'⟩ ⟨s1, s2, s3, s4, s5, s6, s7, s8⟩
  simp only at s1 s2 s3 s4 s5 s6 s7 s8 ⊢
  have hle := s1.le h0
  have hlsz := s1.lsz
  have hmem : ∀ x, x ∈ s.ls.slice o (o + s.cc) ↔ Reach G.adj U root x :=
    View.complete (vw := lsView) (Buf.mem_slice.2 ⟨o, le_refl _, by show o < o + s.cc; have := s1.pos; omega, s1.head⟩) s1.reach s2
  refine (lsRestore_runs o s.cc s.ls s.mask (by omega) (fun x hx => by
    have := h0.valid x (s1.inU h0 hx); rw [s1.msz]; omega)).mono ?_
  rintro m ⟨m1, m2⟩
  rw [runs_pure]
  refine ⟨s.cc, by rw [m1]; exact s1.msz, hlsz, s3, fun x x1 x2 => ?_, s1.pre, ⟨s1.nodup, hmem⟩, hle, ⟨s4, s5⟩, ⟨s6, s7⟩, s8⟩
  rw [m2]
  have hk := s1.mask x x1 x2
  by_cases e : x ∈ s.ls.slice o (o + s.cc)
  · rw [if_pos e]; simp [s1.inU h0 e]
  · rw [if_neg e, hk]
    exact ⟨fun h => h.1, fun h => ⟨h, e⟩⟩

/-! ### Pseudo-peripheral root -/

theorem maskDeg_runs (hG : G.OK) (mask : Buf Bool) (hm : mask.size = G.n + 1) {v : Nat} (h1 : 1 ≤ v) (h2 : v ≤ G.n) :
    Runs (maskDeg G mask v) fun _ => True := by
  unfold maskDeg
  refine forNbr_runs hG h1 h2 (fun _ _ => True) trivial ?_ (fun _ _ => trivial)
  rintro l x r s e -
  have := hG.vert v h1 h2 x (by rw [e]; simp)
  simp only [runs_bind, runs_rd, runs_pure]
  exact ⟨by omega, trivial⟩

theorem pickRoot_runs (hG : G.OK) (o jstrt cc : Nat) (mask : Buf Bool) (ls : Buf Nat) (hm : mask.size = G.n + 1) (hl : o + cc ≤ ls.size)
    (hv : ∀ x ∈ ls.slice o (o + cc), 1 ≤ x ∧ x ≤ G.n) (j1 : 1 ≤ jstrt) (j2 : jstrt ≤ cc) :
    Runs (pickRoot G o jstrt cc mask ls) fun r => r ∈ ls.slice o (o + cc) := by
  unfold pickRoot
  have hmem : ∀ j, 1 ≤ j → j ≤ cc → ls.get (o + j - 1) ∈ ls.slice o (o + cc) := fun j a b => Buf.mem_slice.2 ⟨_, by omega, by omega, rfl⟩
  simp only [runs_bind, rdAt, runs_rd1]
  refine ⟨by omega, ?_⟩
  split
  · rw [runs_bind]
    refine forUp_runs' (fun _ (r : Nat × Nat) => r.1 ∈ ls.slice o (o + cc)) (by omega) (hmem _ j1 j2) ?_ (fun r h => by rw [runs_pure]; exact h)
    rintro j r a b hr
    simp only [runs_bind, runs_rd1, runs_pure]
    refine ⟨by omega, ?_⟩
    have hj := hmem j (by omega) (by omega)
    refine (maskDeg_runs hG mask hm (hv _ hj).1 (hv _ hj).2).mono ?_
    intro d _
    split
    · exact hj
    · exact hr
  · rw [runs_pure]; exact hmem _ j1 j2

theorem IsComp.length_eq {r r' : Nat} {V V' : List Nat} (hs : ∀ v w, U v → U w → w ∈ G.adj v → v ∈ G.adj w) (hU : U r) (h : IsComp G U r V)
    (h' : IsComp G U r' V') (hr : r' ∈ V) : V.length = V'.length := by
  have hrr := (h.2 r').1 hr
  refine List.Perm.length_eq ((List.perm_ext_iff_of_nodup h.1 h'.1).2 fun x => ?_)
  rw [h.2, h'.2]
  exact ⟨fun g => (hrr.symm hs hU).trans g, fun g => hrr.trans g⟩

theorem Setting.move {r' : Nat} (h0 : Setting G o root U) (h : U r') : Setting G o r' U := ⟨h0.ok, h0.valid, h, h0.cap⟩

theorem fnLoop_runs (hs : ∀ v w, U v → U w → w ∈ G.adj v → v ∈ G.adj w) (h0 : Setting G o root U) (cc : Nat) : ∀ f r v,
    Reach G.adj U root r → LvlOK G o r U ls0 cc v → G.n + 1 ≤ v.nlvl + f →
    Runs (fnLoop G o cc f v) fun p => Reach G.adj U root p.1 ∧ LvlOK G o p.1 U ls0 cc p.2 := by
  intro f
  induction f with
  | zero =>
    intro r v hr h hf
    have := h.nlvl
    have := h.room
    omega
  | succ f ih =>
    intro r v hr h hf
    have hn := h.nlvl
    have hroom := h.room
    have hx := h.xsz
    have hlsz := h.lsz
    have hrU := hr.inU h0.root
    have hval : ∀ x ∈ v.ls.slice o (o + cc), 1 ≤ x ∧ x ≤ G.n := fun x hx => h0.valid x (((h.comp.2 x).1 hx).inU hrU)
    unfold fnLoop
    simp only [runs_bind, runs_rd1]
    refine ⟨by omega, ?_⟩
    refine (pickRoot_runs h0.ok o (v.xls.get (v.nlvl - 1)) cc v.mask v.ls h.msz (by omega) hval h.last.1 h.last.2).mono ?_
    intro r' hr'
    have hrr' := (h.comp.2 r').1 hr'
    have hr'U := hrr'.inU hrU
    refine (rootls_runs (h0.move hr'U) v.mask v.xls v.ls h.msz hx hlsz h.mask).mono ?_
    rintro v' ⟨cc', hv'⟩
    have ecc : cc' = cc := by
      have := IsComp.length_eq hs hrU h.comp hv'.comp hr'
      rw [Buf.slice_length, Buf.slice_length] at this
      omega
    rw [ecc] at hv'
    have hv'' : LvlOK G o r' U ls0 cc v' :=
      ⟨hv'.msz, hv'.lsz, hv'.xsz, hv'.mask, fun k hk => by rw [hv'.pre k hk, h.pre k hk], hv'.comp, hv'.room, hv'.nlvl, hv'.last, hv'.stop⟩
    split
    · rw [runs_pure]; exact ⟨hr.trans hrr', hv''⟩
    · rename_i hc
      split
      · exact ih r' v' (hr.trans hrr') hv'' (by omega)
      · rw [runs_pure]; exact ⟨hr.trans hrr', hv''⟩

theorem fnroot_runs (hs : ∀ v w, U v → U w → w ∈ G.adj v → v ∈ G.adj w) (h0 : Setting G o root U) (mask : Buf Bool) (xls ls : Buf Nat)
    (hm : mask.size = G.n + 1) (hx : xls.size = G.n + 1) (hl : ls.size = G.n) (hmU : ∀ x, 1 ≤ x → x ≤ G.n → (mask.get x = true ↔ U x)) :
    Runs (fnroot G o root mask xls ls) fun p => Reach G.adj U root p.1 ∧ ∃ cc, LvlOK G o p.1 U ls cc p.2 := by
  unfold fnroot
  simp only [runs_bind, runs_rd1]
  refine (rootls_runs h0 mask xls ls hm hx hl hmU).mono ?_
  rintro v ⟨cc, hv⟩
  have hn := hv.nlvl
  have hroom := hv.room
  have hxs := hv.xsz
  refine ⟨by omega, ?_⟩
  rw [Nat.add_sub_cancel, hv.stop, Nat.add_sub_cancel]
  split
  · rw [runs_pure]; exact ⟨.refl, cc, hv⟩
  · exact (fnLoop_runs hs h0 cc (G.n + 1) root v .refl hv (by omega)).mono fun p hp => ⟨hp.1, cc, hp.2⟩

/-! ### Degrees -/

def dgView : View DegSt := ⟨DegSt.ls, DegSt.cc⟩

/-- Invariant of `degree_`: exactly the starts of visited vertices are negated. -/
structure DInv (G : Graph) (o root : Nat) (U : Nat → Prop) (ls0 : Buf Nat) (s : DegSt) : Prop where
  xsz : s.xadj.size = G.n + 1
  lsz : s.ls.size = G.n
  dsz : s.deg.size = G.n + 1
  pos : 0 < s.cc
  head : s.ls.get o = root
  sign : ∀ k, s.xadj.get k = if k + 1 ∈ dgView.V o s then - G.xadj.get k else G.xadj.get k
  nodup : (dgView.V o s).Nodup
  reach : ∀ v ∈ dgView.V o s, Reach G.adj U root v
  pre : ∀ k, k < o → s.ls.get k = ls0.get k

theorem DInv.inU (h0 : Setting G o root U) {s : DegSt} (h : DInv G o root U ls0 s) {v : Nat} (hv : v ∈ dgView.V o s) : U v :=
  (h.reach v hv).inU h0.root

theorem DInv.le (h0 : Setting G o root U) {s : DegSt} (h : DInv G o root U ls0 s) : o + s.cc ≤ G.n := by
  have := h0.cap _ h.nodup (fun v hv => h.inU h0 hv)
  unfold View.V at this
  rw [Buf.slice_length] at this
  have e : dgView.cc s = s.cc := rfl
  rw [e] at this
  omega

theorem degVisit_runs (h0 : Setting G o root U) (mask : Buf Bool) (hm : mask.size = G.n + 1) (hmU : ∀ x, 1 ≤ x → x ≤ G.n → (mask.get x = true ↔ U x))
    {s : DegSt} (d : Nat) (h : DInv G o root U ls0 s) {v w : Nat} (hv : v ∈ dgView.V o s) (hw : w ∈ G.adj v) :
    Runs (degVisit o mask w (d, s)) fun r => DInv G o root U ls0 r.2 ∧ s.cc ≤ r.2.cc ∧ (∀ k, k < o + s.cc → r.2.ls.get k = s.ls.get k) ∧
      (U w → w ∈ dgView.V o r.2) := by
  have hvU := h0.valid v (h.inU h0 hv)
  have hwv := h0.ok.vert v hvU.1 hvU.2 w hw
  have hpos := h.pos
  have hlsz := h.lsz
  have hxsz := h.xsz
  have hgp := h0.ok.pos (w - 1) (by omega)
  have hsg := h.sign (w - 1)
  rw [show w - 1 + 1 = w by omega] at hsg
  have hmw := hmU w hwv.1 hwv.2
  unfold degVisit
  simp only [runs_bind, runs_rd]
  refine ⟨by omega, ?_⟩
  split
  · rename_i hc
    have hU := hmw.1 hc
    simp only [runs_bind, runs_rd1]
    refine ⟨by omega, ?_⟩
    by_cases hin : w ∈ dgView.V o s
    · rw [if_pos hin] at hsg
      rw [if_pos (by omega), runs_pure]
      exact ⟨h, le_refl _, fun _ _ => rfl, fun _ => hin⟩
    · rw [if_neg hin] at hsg
      rw [if_neg (by omega)]
      have hVe : (s.ls.set (o + s.cc) w).slice o (o + (s.cc + 1)) = dgView.V o s ++ [w] := by
        rw [← Nat.add_assoc, Buf.slice_set_succ _ _ (by omega)]; rfl
      have hnd : (dgView.V o s ++ [w]).Nodup := by
        rw [List.nodup_append]
        refine ⟨h.nodup, List.nodup_singleton _, fun a ha b hb e => ?_⟩
        rw [List.mem_singleton] at hb
        rw [e, hb] at ha; exact hin ha
      have hr : ∀ x ∈ dgView.V o s ++ [w], Reach G.adj U root x := by
        intro x hx
        rcases List.mem_append.1 hx with hx | hx
        · exact h.reach x hx
        · rw [List.mem_singleton] at hx
          rw [hx]; exact .step (h.reach v hv) hw hU
      have hcap := h0.cap _ hnd (fun x hx => (hr x hx).inU h0.root)
      have hlen : (dgView.V o s ++ [w]).length = s.cc + 1 := by
        rw [← hVe, Buf.slice_length]; omega
      simp only [runs_bind, runs_pure, wrAt, runs_wr1]
      refine ⟨by omega, by omega, ?_⟩
      rw [show o + (s.cc + 1) - 1 = o + s.cc by omega]
      refine ⟨⟨hxsz, hlsz, h.dsz, Nat.succ_pos _, ?_, ?_, ?_, ?_, ?_⟩, Nat.le_succ _, ?_, ?_⟩
      · simp only [Buf.set_get]; rw [if_neg (by omega)]; exact h.head
      · intro k
        show (s.xadj.set (w - 1) (- s.xadj.get (w - 1))).get k =
          if k + 1 ∈ (s.ls.set (o + s.cc) w).slice o (o + (s.cc + 1)) then - G.xadj.get k else G.xadj.get k
        rw [hVe, Buf.set_get]
        by_cases e : k = w - 1
        · rw [if_pos e, e, hsg, if_pos (by rw [show w - 1 + 1 = w by omega]; simp)]
        · rw [if_neg e, h.sign k]
          have e' : k + 1 ≠ w := by omega
          simp only [List.mem_append, List.mem_singleton, e', or_false]
      · show ((s.ls.set (o + s.cc) w).slice o (o + (s.cc + 1))).Nodup
        rw [hVe]; exact hnd
      · show ∀ x ∈ (s.ls.set (o + s.cc) w).slice o (o + (s.cc + 1)), _
        rw [hVe]; exact hr
      · intro k hk; simp only [Buf.set_get]; rw [if_neg (by omega)]; exact h.pre k hk
      · intro k hk; simp only [Buf.set_get]; rw [if_neg (by omega)]
      · intro _
        show w ∈ (s.ls.set (o + s.cc) w).slice o (o + (s.cc + 1))
        rw [hVe]; simp
  · rename_i hc
    rw [runs_pure]
    exact ⟨h, le_refl _, fun _ _ => rfl, fun hU => absurd (hmw.2 hU) hc⟩

theorem degNode_spec (h0 : Setting G o root U) (mask : Buf Bool) (hm : mask.size = G.n + 1) (hmU : ∀ x, 1 ≤ x → x ≤ G.n → (mask.get x = true ↔ U x)) :
    dgView.NodeSpec G.adj U o (DInv G o root U ls0) (degNode G.adjncy o mask) := by
  intro i s h i1 i2
  have hle := h.le h0
  have hlsz := h.lsz
  have hxsz := h.xsz
  have i2' : i ≤ s.cc := i2
  unfold degNode
  simp only [runs_bind, rdAt, runs_rd1]
  refine ⟨by omega, ?_⟩
  rw [show o + i - 1 = o + (i - 1) by omega]
  have hv : s.ls.get (o + (i - 1)) ∈ dgView.V o s := Buf.mem_slice.2 ⟨_, by omega, by show _ < o + s.cc; omega, rfl⟩
  have hvU := h0.valid _ (h.inU h0 hv)
  have hs1 := h.sign (s.ls.get (o + (i - 1)) - 1)
  rw [if_pos (by rw [show s.ls.get (o + (i - 1)) - 1 + 1 = s.ls.get (o + (i - 1)) by omega]; exact hv)] at hs1
  have hs2 := h.sign (s.ls.get (o + (i - 1)))
  have p1 := h0.ok.pos (s.ls.get (o + (i - 1)) - 1) (by omega)
  have p2 := h0.ok.pos (s.ls.get (o + (i - 1))) hvU.2
  have hb : (s.xadj.get (s.ls.get (o + (i - 1)))).natAbs = (G.xadj.get (s.ls.get (o + (i - 1)))).toNat := by
    split at hs2 <;> omega
  refine ⟨by omega, by omega, ?_⟩
  rw [runs_toIdx, hs1, neg_neg, Nat.add_sub_cancel, hb]
  refine ⟨by omega, ?_⟩
  refine forAdj_runs h0.ok hvU.1 hvU.2 rfl rfl (fun l (r : Nat × DegSt) => DInv G o root U ls0 r.2 ∧ s.cc ≤ r.2.cc ∧
    (∀ k, k < o + s.cc → r.2.ls.get k = s.ls.get k) ∧ ∀ w ∈ l, U w → w ∈ dgView.V o r.2) ⟨h, le_refl _, fun _ _ => rfl, by simp⟩ ?_ ?_
  · rintro l x r ⟨d, t⟩ el ⟨t1, t2, t3, t4⟩
    have hv' : s.ls.get (o + (i - 1)) ∈ dgView.V o t := View.V_sub (vw := dgView) t2 t3 hv
    refine (degVisit_runs h0 mask hm hmU d t1 hv' (by rw [el]; simp)).mono ?_
    rintro t' ⟨u1, u2, u3, u4⟩
    simp only at t2 t3
    have u2' : t.cc ≤ t'.2.cc := u2
    refine ⟨u1, by omega, fun k hk => by rw [u3 k (Nat.lt_of_lt_of_le hk (Nat.add_le_add_left t2 o)), t3 k hk], fun w hw hU => ?_⟩
    rcases List.mem_append.1 hw with hw | hw
    · exact View.V_sub (vw := dgView) u2 u3 (t4 w hw hU)
    · rw [List.mem_singleton] at hw
      rw [hw] at hU ⊢; exact u4 hU
  · rintro ⟨d, t⟩ ⟨t1, t2, t3, t4⟩
    have := t1.dsz
    simp only at this
    simp only [runs_wr1, runs_pure]
    exact ⟨by omega, ⟨t1.xsz, t1.lsz, t1.dsz, t1.pos, t1.head, t1.sign, t1.nodup, t1.reach, t1.pre⟩, t2, t3, t4⟩

theorem degLevels_runs (h0 : Setting G o root U) (mask : Buf Bool) (hm : mask.size = G.n + 1) (hmU : ∀ x, 1 ≤ x → x ≤ G.n → (mask.get x = true ↔ U x)) :
    ∀ f l (s : DegSt), DInv G o root U ls0 s → dgView.Scanned G.adj U o l s → l < s.cc → G.n + 1 ≤ s.cc + f →
    Runs (degLevels G.adjncy o mask f l s) fun r => DInv G o root U ls0 r ∧ dgView.Scanned G.adj U o r.cc r := by
  intro f
  induction f with
  | zero =>
    intro l s h _ _ hf
    have := h.le h0
    omega
  | succ f ih =>
    intro l s h hs hl hf
    unfold degLevels
    simp only [runs_bind]
    refine (View.level_runs (vw := dgView) (degNode_spec h0 mask hm hmU) h (by show l ≤ s.cc; omega) hs).mono ?_
    rintro s' ⟨u1, u2, u3, u4⟩
    have u2' : s.cc ≤ s'.cc := u2
    split
    · rename_i hc
      exact ih s.cc s' u1 u4 hc (by omega)
    · rename_i hc
      have e : s'.cc = s.cc := by omega
      rw [runs_pure]
      exact ⟨u1, by rw [e]; exact u4⟩

theorem degRestore_runs (o cc : Nat) (ls : Buf Nat) (x0 xadj : Buf Int) (h1 : o + cc ≤ ls.size) (hnd : (ls.slice o (o + cc)).Nodup)
    (h2 : ∀ x ∈ ls.slice o (o + cc), 1 ≤ x ∧ x ≤ xadj.size)
    (hs : ∀ k, xadj.get k = if k + 1 ∈ ls.slice o (o + cc) then - x0.get k else x0.get k) (hsz : xadj.size = x0.size) :
    Runs (degRestore o cc ls xadj) fun m => m = x0 := by
  unfold degRestore
  refine forUp_runs' (fun i (m : Buf Int) => m.size = x0.size ∧ ∀ k, m.get k = if k + 1 ∈ ls.slice (o + (i - 1)) (o + cc) then - x0.get k else x0.get k)
    (by omega) ⟨hsz, hs⟩ ?_ ?_
  · rintro i m i1 i2 ⟨m1, m2⟩
    simp only [runs_bind, rdAt, runs_rd1, runs_wr1, Buf.set_size, Buf.set_get]
    have hm : ls.get (o + i - 1) ∈ ls.slice o (o + cc) := Buf.mem_slice.2 ⟨_, by omega, by omega, rfl⟩
    have hv := h2 _ hm
    refine ⟨by omega, by omega, by omega, m1, fun k => ?_⟩
    have hcons := Buf.slice_cons ls (lo := o + (i - 1)) (hi := o + cc) (by omega)
    rw [show o + (i - 1) + 1 = o + (i + 1 - 1) by omega] at hcons
    have hnd' : (ls.slice (o + (i - 1)) (o + cc)).Nodup := by
      rw [← Buf.slice_append ls (show o ≤ o + (i - 1) by omega) (show o + (i - 1) ≤ o + cc by omega)] at hnd
      exact (List.nodup_append.1 hnd).2.1
    rw [hcons, List.nodup_cons] at hnd'
    rw [show o + i - 1 = o + (i - 1) by omega] at hv ⊢
    by_cases e : k = ls.get (o + (i - 1)) - 1
    · rw [if_pos e, e, m2, show ls.get (o + (i - 1)) - 1 + 1 = ls.get (o + (i - 1)) by omega, if_pos (by rw [hcons]; simp), if_neg hnd'.1, neg_neg]
    · rw [if_neg e, m2, hcons]
      have e' : k + 1 ≠ ls.get (o + (i - 1)) := by omega
      simp only [List.mem_cons, e', false_or]
  · rintro m ⟨m1, m2⟩
    have hg : m.get = x0.get := by
      funext k
      rw [m2, Buf.slice_empty _ _ _ (by omega)]; simp
    cases m; cases x0
    simp only at m1 hg
    rw [m1, hg]

/-- `degree_` leaves the starts unchanged and lists the component of the root, the root first. -/
theorem degree_runs (h0 : Setting G o root U) (mask : Buf Bool) (deg ls : Buf Nat) (hm : mask.size = G.n + 1) (hd : deg.size = G.n + 1)
    (hl : ls.size = G.n) (hmU : ∀ x, 1 ≤ x → x ≤ G.n → (mask.get x = true ↔ U x)) :
    Runs (degree G o root mask deg ls) fun d => d.xadj = G.xadj ∧ d.ls.size = G.n ∧ d.deg.size = G.n + 1 ∧ 0 < d.cc ∧ o + d.cc ≤ G.n ∧
      d.ls.get o = root ∧ IsComp G U root (d.ls.slice o (o + d.cc)) ∧ ∀ k, k < o → d.ls.get k = ls.get k := by
  have hr := h0.valid root h0.root
  have hx := h0.ok.xsz
  have hc1 := h0.cap [root] (List.nodup_singleton _) (fun v hv => by rw [List.mem_singleton] at hv; rw [hv]; exact h0.root)
  rw [List.length_singleton] at hc1
  unfold degree
  simp only [runs_bind, wrAt, runs_wr1, runs_rd1]
  refine ⟨by omega, by omega, by omega, ?_⟩
  rw [show o + 1 - 1 = o by omega]
  have hV : dgView.V o ⟨G.xadj.set (root - 1) (- G.xadj.get (root - 1)), ls.set o root, 1, deg⟩ = [root] := by
    show (ls.set o root).slice o (o + 1) = _
    rw [Buf.slice_set_succ _ _ (le_refl _), Buf.slice_empty _ _ _ (le_refl _)]; rfl
  have hI : DInv G o root U ls ⟨G.xadj.set (root - 1) (- G.xadj.get (root - 1)), ls.set o root, 1, deg⟩ := by
    refine ⟨hx, hl, hd, Nat.one_pos, by simp, fun k => ?_, by rw [hV]; exact List.nodup_singleton _, ?_, fun k hk => ?_⟩
    · rw [hV]
      simp only [Buf.set_get, List.mem_singleton]
      by_cases e : k = root - 1
      · rw [if_pos e, if_pos (by omega), e]
      · rw [if_neg e, if_neg (by omega)]
    · intro x hx; rw [hV, List.mem_singleton] at hx; rw [hx]; exact .refl
    · simp only [Buf.set_get]; rw [if_neg (by omega)]
  refine (degLevels_runs h0 mask hm hmU (G.n + 1) 0 _ hI (fun i hi => by omega) Nat.one_pos (by simp only; omega)).mono ?_
  rintro s ⟨s1, s2⟩
  have hle := s1.le h0
  have hmem : ∀ x, x ∈ s.ls.slice o (o + s.cc) ↔ Reach G.adj U root x :=
    View.complete (vw := dgView) (Buf.mem_slice.2 ⟨o, le_refl _, by show o < o + s.cc; have := s1.pos; omega, s1.head⟩) s1.reach s2
  refine (degRestore_runs o s.cc s.ls G.xadj s.xadj (by rw [s1.lsz]; omega) s1.nodup (fun x hx => by
    have := h0.valid x (s1.inU h0 hx); rw [s1.xsz]; omega) s1.sign (by rw [s1.xsz, h0.ok.xsz])).mono ?_
  intro m hm'
  rw [runs_pure]
  exact ⟨hm', s1.lsz, s1.dsz, s1.pos, hle, s1.head, ⟨s1.nodup, hmem⟩, s1.pre⟩

/-! ### Sorting and reversal -/

theorem slice_swap_perm (b c : Buf Nat) {lo hi l : Nat} (h1 : lo ≤ l) (h2 : l + 1 < hi) (e1 : c.get l = b.get (l + 1)) (e2 : c.get (l + 1) = b.get l)
    (e3 : ∀ k, k ≠ l → k ≠ l + 1 → c.get k = b.get k) : (c.slice lo hi).Perm (b.slice lo hi) := by
  have split : ∀ d : Buf Nat, d.slice lo hi = d.slice lo l ++ (d.get l :: d.get (l + 1) :: d.slice (l + 2) hi) := by
    intro d
    rw [← Buf.slice_append d h1 (show l ≤ hi by omega), Buf.slice_cons d (lo := l) (hi := hi) (by omega),
      Buf.slice_cons d (lo := l + 1) (hi := hi) (by omega)]
  rw [split b, split c, e1, e2, Buf.slice_congr (b := c) (c := b) (fun k k1 k2 => e3 k (by omega) (by omega)),
    Buf.slice_congr (b := c) (c := b) (lo := l + 2) (fun k k1 k2 => e3 k (by omega) (by omega))]
  exact List.Perm.append_left _ (List.Perm.swap _ _ _)

theorem insLoop_runs (o : Nat) (deg : Buf Nat) (fnbr nbr hi : Nat) (hf : 1 ≤ fnbr) (hn : 1 ≤ nbr ∧ nbr ≤ deg.size) (c0 : Buf Nat)
    (hc0 : hi ≤ c0.size) (hv : ∀ x ∈ c0.slice (o + fnbr - 1) hi, 1 ≤ x ∧ x ≤ deg.size) : ∀ t (perm : Buf Nat), o + fnbr + t ≤ hi → perm.size = c0.size →
    ((perm.set (o + fnbr + t - 1) nbr).slice (o + fnbr - 1) hi).Perm (c0.slice (o + fnbr - 1) hi) →
    (∀ k, (k < o + fnbr - 1 ∨ hi ≤ k) → perm.get k = c0.get k) →
    Runs (insLoop o deg fnbr nbr t perm) fun r => r.1 ≤ t ∧ r.2.size = c0.size ∧
      ((r.2.set (o + fnbr + r.1 - 1) nbr).slice (o + fnbr - 1) hi).Perm (c0.slice (o + fnbr - 1) hi) ∧
      ∀ k, (k < o + fnbr - 1 ∨ hi ≤ k) → r.2.get k = c0.get k := by
  intro t
  induction t with
  | zero =>
    intro perm h1 h2 h3 h4
    unfold insLoop
    rw [runs_pure]
    exact ⟨le_refl _, h2, h3, h4⟩
  | succ t ih =>
    intro perm h1 h2 h3 h4
    unfold insLoop
    have hmem : perm.get (o + (fnbr + t) - 1) ∈ c0.slice (o + fnbr - 1) hi := by
      rw [← h3.mem_iff]
      refine Buf.mem_slice.2 ⟨o + (fnbr + t) - 1, by omega, by omega, ?_⟩
      rw [Buf.set_get, if_neg (by omega)]
    have hd := hv _ hmem
    simp only [runs_bind, rdAt, runs_rd1, wrAt, runs_wr1]
    refine ⟨by omega, hd, hn, ?_⟩
    split
    · rw [runs_pure]
      exact ⟨le_refl _, h2, h3, h4⟩
    · simp only [runs_bind, runs_wr1]
      refine ⟨by omega, ?_⟩
      refine (ih (perm.set (o + (fnbr + t + 1) - 1) (perm.get (o + (fnbr + t) - 1))) (by omega) h2 ?_ ?_).mono ?_
      · refine List.Perm.trans (slice_swap_perm (perm.set (o + fnbr + (t + 1) - 1) nbr) _ (l := o + fnbr + t - 1) (by omega) (by omega) ?_ ?_ ?_) h3
        · simp only [Buf.set_get]
          rw [if_true, if_pos (by omega)]
        · simp only [Buf.set_get]
          rw [if_neg (by omega), if_pos (by omega), if_neg (by omega), show o + (fnbr + t) - 1 = o + fnbr + t - 1 by omega]
        · intro k k1 k2
          simp only [Buf.set_get]
          rw [if_neg k1, if_neg (by omega), if_neg (by omega)]
      · intro k hk
        simp only [Buf.set_get]
        rw [if_neg (by omega)]; exact h4 k hk
      · rintro r ⟨r1, r2, r3, r4⟩
        exact ⟨by omega, r2, r3, r4⟩

theorem insSort_runs (o : Nat) (deg : Buf Nat) (fnbr lnbr : Nat) (perm : Buf Nat) (hf : 1 ≤ fnbr) (hfl : fnbr ≤ lnbr) (hs : o + lnbr ≤ perm.size)
    (hv : ∀ x ∈ perm.slice (o + fnbr - 1) (o + lnbr), 1 ≤ x ∧ x ≤ deg.size) :
    Runs (insSort o deg fnbr lnbr perm) fun c => c.size = perm.size ∧ (c.slice (o + fnbr - 1) (o + lnbr)).Perm (perm.slice (o + fnbr - 1) (o + lnbr)) ∧
      ∀ k, (k < o + fnbr - 1 ∨ o + lnbr ≤ k) → c.get k = perm.get k := by
  unfold insSort
  refine forUp_runs' (fun _ (c : Buf Nat) => c.size = perm.size ∧ (c.slice (o + fnbr - 1) (o + lnbr)).Perm (perm.slice (o + fnbr - 1) (o + lnbr)) ∧
      ∀ k, (k < o + fnbr - 1 ∨ o + lnbr ≤ k) → c.get k = perm.get k) hfl ⟨rfl, List.Perm.refl _, fun _ _ => rfl⟩ ?_ (fun c h => h)
  rintro k c k1 k2 ⟨c1, c2, c3⟩
  simp only [runs_bind, rdAt, runs_rd1, wrAt, runs_wr1]
  refine ⟨by omega, ?_⟩
  rw [show o + (k + 1) - 1 = o + k by omega]
  have hmem : c.get (o + k) ∈ perm.slice (o + fnbr - 1) (o + lnbr) := by
    rw [← c2.mem_iff]; exact Buf.mem_slice.2 ⟨_, by omega, by omega, rfl⟩
  refine (insLoop_runs o deg fnbr (c.get (o + k)) (o + lnbr) hf (hv _ hmem) perm hs hv (k + 1 - fnbr) c (by omega) c1 ?_ c3).mono ?_
  · rw [Buf.slice_congr (b := c.set _ _) (c := c) (fun j j1 j2 => ?_)]
    · exact c2
    · rw [Buf.set_get]
      split
      · rename_i e; rw [e, show o + fnbr + (k + 1 - fnbr) - 1 = o + k by omega]
      · rfl
  · rintro r ⟨r1, r2, r3, r4⟩
    refine ⟨by omega, r2, ?_, fun j hj => ?_⟩
    · rw [← Nat.add_assoc]; exact r3
    · rw [Buf.set_get, if_neg (by omega)]; exact r4 j hj

theorem rcmNode_spec (h0 : Setting G o root U) (deg : Buf Nat) (hd : deg.size = G.n + 1) :
    lsView.NodeSpec G.adj U o (LInv G o root U ls0) (rcmNode G o deg) := by
  intro i s h i1 i2
  unfold rcmNode
  rw [runs_bind]
  refine (lsNode_spec h0 i s h i1 i2).mono ?_
  rintro s' ⟨u1, u2, u3, u4⟩
  have u2' : s.cc ≤ s'.cc := u2
  have u3' : ∀ k, k < o + s.cc → s'.ls.get k = s.ls.get k := u3
  split
  · rw [runs_pure]; exact ⟨u1, u2, u3, u4⟩
  · rename_i hc
    rw [runs_bind]
    have hle := u1.le h0
    have hlsz := u1.lsz
    have hpos := h.pos
    refine (insSort_runs o deg (s.cc + 1) s'.cc s'.ls (by omega) (by omega) (by omega) (fun x hx => ?_)).mono ?_
    · have hx' : x ∈ lsView.V o s' := by
        obtain ⟨k, k1, k2, rfl⟩ := Buf.mem_slice.1 hx
        exact Buf.mem_slice.2 ⟨k, by omega, k2, rfl⟩
      have := h0.valid x (u1.inU h0 hx')
      omega
    rintro c ⟨c1, c2, c3⟩
    rw [runs_pure]
    rw [show o + (s.cc + 1) - 1 = o + s.cc by omega] at c2 c3
    have hperm : (c.slice o (o + s'.cc)).Perm (lsView.V o s') := by
      show (c.slice o (o + s'.cc)).Perm (s'.ls.slice o (o + s'.cc))
      rw [← Buf.slice_append c (show o ≤ o + s.cc by omega) (show o + s.cc ≤ o + s'.cc by omega),
        ← Buf.slice_append s'.ls (show o ≤ o + s.cc by omega) (show o + s.cc ≤ o + s'.cc by omega),
        Buf.slice_congr (b := c) (c := s'.ls) (lo := o) (fun k k1 k2 => c3 k (Or.inl k2))]
      exact List.Perm.append_left _ c2
    refine ⟨⟨u1.msz, by rw [← hlsz]; exact c1, u1.pos, ?_, fun v v1 v2 => ?_, ?_, fun v hv => ?_, fun k hk => ?_⟩, u2, fun k hk => ?_, fun w hw hU => ?_⟩
    · show c.get o = root
      rw [c3 o (Or.inl (by omega))]; exact u1.head
    · show s'.mask.get v = true ↔ U v ∧ v ∉ c.slice o (o + s'.cc)
      rw [hperm.mem_iff]; exact u1.mask v v1 v2
    · exact hperm.nodup_iff.2 u1.nodup
    · exact u1.reach v (hperm.mem_iff.1 hv)
    · show c.get k = ls0.get k
      rw [c3 k (Or.inl (by omega))]; exact u1.pre k hk
    · have hk' : k < o + s.cc := hk
      show c.get k = s.ls.get k
      rw [c3 k (Or.inl hk')]; exact u3' k hk'
    · exact hperm.mem_iff.2 (u4 w hw hU)

theorem rcmLevels_runs (h0 : Setting G o root U) (deg : Buf Nat) (hd : deg.size = G.n + 1) : ∀ f l (s : LsSt), LInv G o root U ls0 s →
    lsView.Scanned G.adj U o l s → l < s.cc → G.n + 1 ≤ s.cc + f →
    Runs (rcmLevels G o deg f l s) fun r => LInv G o root U ls0 r ∧ lsView.Scanned G.adj U o r.cc r := by
  intro f
  induction f with
  | zero =>
    intro l s h _ _ hf
    have := h.le h0
    omega
  | succ f ih =>
    intro l s h hs hl hf
    unfold rcmLevels
    simp only [runs_bind]
    refine (View.level_runs (vw := lsView) (rcmNode_spec h0 deg hd) h (by show l ≤ s.cc; omega) hs).mono ?_
    rintro s' ⟨u1, u2, u3, u4⟩
    have u2' : s.cc ≤ s'.cc := u2
    split
    · rename_i hc
      exact ih s.cc s' u1 u4 hc (by omega)
    · rename_i hc
      have e : s'.cc = s.cc := by omega
      rw [runs_pure]
      exact ⟨u1, by rw [e]; exact u4⟩

theorem rcmReverse_runs (o cc : Nat) (perm : Buf Nat) (hs : o + cc ≤ perm.size) :
    Runs (rcmReverse o cc perm) fun c => c.size = perm.size ∧ c.slice o (o + cc) = (perm.slice o (o + cc)).reverse ∧
      ∀ k, k < o → c.get k = perm.get k := by
  unfold rcmReverse
  refine forUp_runs' (fun i (c : Buf Nat) => c.size = perm.size ∧ (∀ k, k < o → c.get k = perm.get k) ∧
    ∀ k, k < cc → c.get (o + k) = if k + 1 < i ∨ cc < k + i then perm.get (o + (cc - 1 - k)) else perm.get (o + k)) (by omega)
    ⟨rfl, fun _ _ => rfl, fun k hk => by rw [if_neg (by omega)]⟩ ?_ ?_
  · rintro i c i1 i2 ⟨c1, c2, c3⟩
    simp only [runs_bind, rdAt, runs_rd1, wrAt, runs_wr1, Buf.set_size, Buf.set_get]
    refine ⟨by omega, by omega, by omega, by omega, c1, fun k hk => ?_, fun k hk => ?_⟩
    · rw [if_neg (by omega), if_neg (by omega)]; exact c2 k hk
    · have ha := c3 (i - 1) (by omega)
      have hb := c3 (cc - i) (by omega)
      rw [if_neg (by omega)] at ha hb
      by_cases e1 : k = i - 1
      · rw [if_pos (by omega), if_pos (by omega), show o + (cc + 1 - i) - 1 = o + (cc - i) by omega, hb, show cc - 1 - k = cc - i by omega]
      · rw [if_neg (by omega)]
        by_cases e2 : k = cc - i
        · rw [if_pos (by omega), if_pos (by omega), show o + i - 1 = o + (i - 1) by omega, ha, show cc - 1 - k = i - 1 by omega]
        · rw [if_neg (by omega), c3 k hk]
          by_cases e3 : k + 1 < i ∨ cc < k + i
          · rw [if_pos e3, if_pos (by omega)]
          · rw [if_neg e3, if_neg (by omega)]
  · rintro c ⟨c1, c2, c3⟩
    refine ⟨c1, List.ext_getElem (by simp [Buf.slice_length]) fun k k1 k2 => ?_, c2⟩
    rw [Buf.slice_length] at k1
    rw [List.getElem_reverse, Buf.slice_getElem, Buf.slice_getElem]
    simp only [Buf.slice_length]
    rw [c3 k (by omega), show o + cc - o - 1 - k = cc - 1 - k by omega]
    split
    · rfl
    · rename_i hn
      rw [show cc - 1 - k = k by omega]

/-- `rcm_` numbers exactly the component of the root. -/
theorem rcm_runs (h0 : Setting G o root U) (mask : Buf Bool) (perm deg : Buf Nat) (hm : mask.size = G.n + 1) (hd : deg.size = G.n + 1)
    (hl : perm.size = G.n) (hmU : ∀ x, 1 ≤ x → x ≤ G.n → (mask.get x = true ↔ U x)) :
    Runs (rcm G o root mask perm deg) fun c => c.xadj = G.xadj ∧ c.mask.size = G.n + 1 ∧ c.perm.size = G.n ∧ c.deg.size = G.n + 1 ∧ 0 < c.cc ∧
      o + c.cc ≤ G.n ∧ IsComp G U root (c.perm.slice o (o + c.cc)) ∧ (∀ k, k < o → c.perm.get k = perm.get k) ∧
      ∀ x, 1 ≤ x → x ≤ G.n → (c.mask.get x = true ↔ U x ∧ x ∉ c.perm.slice o (o + c.cc)) := by
  unfold rcm
  have hr := h0.valid root h0.root
  simp only [runs_bind, runs_wr]
  refine (degree_runs h0 mask deg perm hm hd hl hmU).mono ?_
  rintro d ⟨d1, d2, d3, d4, d5, d6, d7, d8⟩
  refine ⟨by omega, ?_⟩
  have hV : d.ls.slice o (o + 1) = [root] := by
    rw [Buf.slice_succ _ (le_refl _), Buf.slice_empty _ _ _ (le_refl _), d6]; rfl
  have hmask : ∀ x, 1 ≤ x → x ≤ G.n → ((mask.set root false).get x = true ↔ U x ∧ x ∉ d.ls.slice o (o + 1)) := by
    intro x x1 x2
    rw [hV, Buf.set_get, List.mem_singleton]
    by_cases e : x = root
    · rw [if_pos e]; simp [e]
    · rw [if_neg e, hmU x x1 x2]; simp [e]
  split
  · rename_i hc
    rw [runs_pure]
    have e1 : d.cc = 1 := by omega
    refine ⟨d1, hm, d2, d3, d4, d5, d7, d8, ?_⟩
    simp only [e1]
    exact hmask
  · simp only [runs_bind]
    have hGe : ({ G with xadj := d.xadj } : Graph) = G := by rw [d1]
    rw [hGe]
    have hI : LInv G o root U perm ⟨mask.set root false, d.ls, 1⟩ := by
      refine ⟨hm, d2, Nat.one_pos, d6, hmask, ?_, ?_, d8⟩
      · show (d.ls.slice o (o + 1)).Nodup
        rw [hV]; exact List.nodup_singleton _
      · show ∀ v ∈ d.ls.slice o (o + 1), _
        rw [hV]; intro v hv; rw [List.mem_singleton] at hv; rw [hv]; exact .refl
    refine (rcmLevels_runs h0 d.deg d3 (G.n + 1) 0 _ hI (fun i hi => by omega) Nat.one_pos (by simp only; omega)).mono ?_
    rintro s ⟨s1, s2⟩
    have hmem : ∀ x, x ∈ s.ls.slice o (o + s.cc) ↔ Reach G.adj U root x :=
      View.complete (vw := lsView) (Buf.mem_slice.2 ⟨o, le_refl _, by show o < o + s.cc; have := s1.pos; omega, s1.head⟩) s1.reach s2
    have hcomp : IsComp G U root (s.ls.slice o (o + s.cc)) := ⟨s1.nodup, hmem⟩
    have ecc : s.cc = d.cc := by
      have := List.Perm.length_eq ((List.perm_ext_iff_of_nodup hcomp.1 d7.1).2 fun x => by rw [hcomp.2, d7.2])
      rw [Buf.slice_length, Buf.slice_length] at this
      omega
    have hle := s1.le h0
    have hlsz := s1.lsz
    refine (rcmReverse_runs o d.cc s.ls (by omega)).mono ?_
    rintro c ⟨c1, c2, c3⟩
    rw [runs_pure]
    rw [ecc] at hcomp
    refine ⟨d1, s1.msz, by rw [← hlsz]; exact c1, d3, d4, d5, ?_, fun k hk => by rw [c3 k hk]; exact s1.pre k hk, fun x x1 x2 => ?_⟩
    · show IsComp G U root (c.slice o (o + d.cc))
      rw [c2]
      exact ⟨List.nodup_reverse.2 hcomp.1, fun x => by rw [List.mem_reverse]; exact hcomp.2 x⟩
    · show s.mask.get x = true ↔ U x ∧ x ∉ c.slice o (o + d.cc)
      rw [c2, List.mem_reverse, ← ecc]
      exact s1.mask x x1 x2

end ls

/-! ### The whole ordering -/

/-- The adjacency is symmetric. -/
def Graph.Symm (G : Graph) : Prop := ∀ v w, 1 ≤ v → v ≤ G.n → 1 ≤ w → w ≤ G.n → w ∈ G.adj v → v ∈ G.adj w

theorem length_le_of_bounded {n : Nat} {l : List Nat} (hn : l.Nodup) (h : ∀ x ∈ l, 1 ≤ x ∧ x ≤ n) : l.length ≤ n := by
  have hs : l.toFinset ⊆ Finset.Icc 1 n := fun x hx => Finset.mem_Icc.2 (h x (List.mem_toFinset.1 hx))
  have := Finset.card_le_card hs
  rw [List.toFinset_card_of_nodup hn, Nat.card_Icc] at this
  omega

theorem genLoop_runs {G : Graph} (hG : G.OK) (hs : G.Symm) : ∀ k i o (mask : Buf Bool) (xls perm : Buf Nat), i + k = G.n + 1 → 1 ≤ i →
    mask.size = G.n + 1 → xls.size = G.n + 1 → perm.size = G.n → o ≤ G.n → (perm.slice 0 o).Nodup →
    (∀ x ∈ perm.slice 0 o, 1 ≤ x ∧ x ≤ G.n) → (∀ x, 1 ≤ x → x ≤ G.n → (mask.get x = true ↔ x ∉ perm.slice 0 o)) →
    (∀ x, 1 ≤ x → x < i → x ∈ perm.slice 0 o) →
    Runs (genLoop G k i o mask xls perm) fun P => P.size = G.n ∧ (P.slice 0 G.n).Nodup ∧ ∀ x ∈ P.slice 0 G.n, 1 ≤ x ∧ x ≤ G.n := by
  intro k
  induction k with
  | zero =>
    intro i o mask xls perm hi _ _ _ hp ho hnd hv _ hall
    unfold genLoop
    rw [runs_pure]
    have : o = G.n := by
      have h1 : (Finset.Icc 1 G.n) ⊆ (perm.slice 0 o).toFinset := fun x hx => by
        rw [Finset.mem_Icc] at hx
        exact List.mem_toFinset.2 (hall x hx.1 (by omega))
      have := Finset.card_le_card h1
      rw [List.toFinset_card_of_nodup hnd, Nat.card_Icc, Buf.slice_length] at this
      omega
    rw [← this]
    rw [← this] at hp hv
    exact ⟨hp, hnd, hv⟩
  | succ k ih =>
    intro i o mask xls perm hi i1 hm hx hp ho hnd hv hmk hall
    unfold genLoop
    simp only [runs_bind, runs_rd]
    refine ⟨by omega, ?_⟩
    split
    · rename_i hc
      let U : Nat → Prop := fun x => (1 ≤ x ∧ x ≤ G.n) ∧ x ∉ perm.slice 0 o
      have hmU : ∀ x, 1 ≤ x → x ≤ G.n → (mask.get x = true ↔ U x) := fun x x1 x2 => by
        rw [hmk x x1 x2]; exact ⟨fun h => ⟨⟨x1, x2⟩, h⟩, fun h => h.2⟩
      have h0 : Setting G o i U := by
        refine ⟨hG, fun v hv => hv.1, (hmU i i1 (by omega)).1 hc, fun V hV hVU => ?_⟩
        have hnd' : (perm.slice 0 o ++ V).Nodup := by
          rw [List.nodup_append]
          exact ⟨hnd, hV, fun a ha b hb e => (hVU b hb).2 (e ▸ ha)⟩
        have := length_le_of_bounded hnd' (fun x hx => by
          rcases List.mem_append.1 hx with h | h
          · exact hv x h
          · exact (hVU x h).1)
        rw [List.length_append, Buf.slice_length] at this
        omega
      have hsU : ∀ v w, U v → U w → w ∈ G.adj v → v ∈ G.adj w := fun v w h1 h2 h3 => hs v w h1.1.1 h1.1.2 h2.1.1 h2.1.2 h3
      simp only [runs_bind]
      refine (fnroot_runs hsU h0 mask xls perm hm hx hp hmU).mono ?_
      rintro ⟨r, v⟩ ⟨hr, cc, hl⟩
      simp only at hr hl ⊢
      have hrU := hr.inU h0.root
      refine (rcm_runs (h0.move hrU) v.mask v.ls v.xls hl.msz hl.xsz hl.lsz hl.mask).mono ?_
      rintro c ⟨c1, c2, c3, c4, c5, c6, c7, c8, c9⟩
      have hsl : c.perm.slice 0 (o + c.cc) = perm.slice 0 o ++ c.perm.slice o (o + c.cc) := by
        rw [← Buf.slice_append c.perm (Nat.zero_le o) (show o ≤ o + c.cc by omega)]
        rw [Buf.slice_congr (b := c.perm) (c := perm) (lo := 0) (fun j _ j2 => by rw [c8 j j2, hl.pre j j2])]
      have hcU : ∀ x ∈ c.perm.slice o (o + c.cc), U x := fun x hx => ((c7.2 x).1 hx).inU hrU
      have hnd' : (c.perm.slice 0 (o + c.cc)).Nodup := by
        rw [hsl, List.nodup_append]
        exact ⟨hnd, c7.1, fun a ha b hb e => (hcU b hb).2 (e ▸ ha)⟩
      have hv' : ∀ x ∈ c.perm.slice 0 (o + c.cc), 1 ≤ x ∧ x ≤ G.n := by
        rw [hsl]
        intro x hx
        rcases List.mem_append.1 hx with h | h
        · exact hv x h
        · exact (hcU x h).1
      have himem : i ∈ c.perm.slice o (o + c.cc) := (c7.2 i).2 (hr.symm hsU h0.root)
      split
      · rename_i hfin
        have e : o + c.cc = G.n := by omega
        rw [runs_pure]
        rw [e] at hnd' hv'
        exact ⟨c3, hnd', hv'⟩
      · have hGe : ({ G with xadj := c.xadj } : Graph) = G := by rw [c1]
        rw [hGe]
        refine ih (i + 1) (o + c.cc) c.mask c.deg c.perm (by omega) (by omega) c2 c4 c3 c6 hnd' hv' (fun x x1 x2 => ?_) (fun x x1 x2 => ?_)
        · rw [c9 x x1 x2, hsl, List.mem_append]
          constructor
          · rintro ⟨h1, h2⟩ (h | h)
            · exact h1.2 h
            · exact h2 h
          · intro h
            exact ⟨⟨⟨x1, x2⟩, fun h' => h (Or.inl h')⟩, fun h' => h (Or.inr h')⟩
        · rw [hsl, List.mem_append]
          by_cases e : x = i
          · rw [e]; exact Or.inr himem
          · exact Or.inl (hall x x1 (by omega))
    · rename_i hc
      refine ih (i + 1) o mask xls perm (by omega) (by omega) hm hx hp ho hnd hv hmk (fun x x1 x2 => ?_)
      by_cases e : x = i
      · rw [e]
        by_contra hn
        exact hc ((hmk i i1 (by omega)).2 hn)
      · exact hall x x1 (by omega)

theorem apply_runs {G : Graph} (hG : G.OK) (hs : G.Symm) (perm : Buf Nat) (hp : perm.size = G.n) :
    Runs (apply G perm) fun P => P.size = G.n ∧ (P.slice 0 G.n).Nodup ∧ ∀ x ∈ P.slice 0 G.n, 1 ≤ x ∧ x ≤ G.n := by
  unfold apply
  split
  · rename_i h
    rw [runs_pure, h]
    rw [h] at hp
    refine ⟨hp, ?_, ?_⟩ <;> rw [Buf.slice_empty _ _ _ (le_refl _)]
    · exact List.nodup_nil
    · intro x hx; cases hx
  · unfold genrcm
    rw [runs_bind]
    refine forUp_runs' (fun i (m : Buf Bool) => m.size = G.n + 1 ∧ ∀ x, 1 ≤ x → x < i → m.get x = true) (by omega) ⟨rfl, fun x a b => by omega⟩ ?_ ?_
    · rintro i m i1 i2 ⟨m1, m2⟩
      rw [runs_wr]
      refine ⟨by omega, m1, fun x x1 x2 => ?_⟩
      rw [Buf.set_get]
      split
      · rfl
      · exact m2 x x1 (by omega)
    · rintro m ⟨m1, m2⟩
      have he : perm.slice 0 0 = [] := Buf.slice_empty _ _ _ (le_refl _)
      refine genLoop_runs hG hs G.n 1 0 m _ perm (by omega) (le_refl _) m1 rfl hp (Nat.zero_le _) (by rw [he]; exact List.nodup_nil)
        (by rw [he]; intro x hx; cases hx) (fun x x1 x2 => ?_) (fun x x1 x2 => by omega)
      rw [he, m2 x x1 (by omega)]
      simp


theorem graphOf_adj (m : Nat) (b : Pre.Pat) (v : Nat) (hv : 1 ≤ v) :
    (graphOf m b).adj v = (b.inds.slice (b.start.get (v - 1)) (b.start.get v)).map (· + 1) := by
  unfold Graph.adj graphOf
  simp only
  rw [show ((b.start.get (v - 1) : Int) + 1).toNat - 1 = b.start.get (v - 1) by omega, show ((b.start.get v : Int) + 1).toNat - 1 = b.start.get v by omega]
  unfold Buf.slice
  rw [List.map_map]
  rfl

/-- `run_rcm` on a valid symmetric pattern returns a permutation. -/
theorem runRcm_runs {m : Nat} {b : Pre.Pat} (hb : Pre.PatWF m b) (hs : Pre.PatSymm m b) :
    Runs (runRcm m b) fun P => P.size = m ∧ Spec.IsPerm m P.get := by
  obtain ⟨b1, b2, b3, b4, b5, -⟩ := hb
  have hmono : ∀ i, i ≤ m → b.start.get i ≤ b.start.get m := by
    intro i hi
    induction hd : m - i generalizing i with
    | zero => rw [show i = m by omega]
    | succ d ih => exact (b3 i (by omega)).trans (ih (i + 1) (by omega) (by omega))
  have hmemv : ∀ v, 1 ≤ v → v ≤ m → ∀ w, w ∈ (graphOf m b).adj v ↔ 1 ≤ w ∧ w - 1 ∈ b.inds.slice (b.start.get (v - 1)) (b.start.get (v - 1 + 1)) := by
    intro v v1 v2 w
    rw [graphOf_adj m b v v1, show v - 1 + 1 = v by omega, List.mem_map]
    constructor
    · rintro ⟨a, ha, rfl⟩; exact ⟨by omega, by simpa using ha⟩
    · rintro ⟨h1, h2⟩; exact ⟨w - 1, h2, by omega⟩
  have hin : ∀ i, i < m → ∀ x ∈ b.inds.slice (b.start.get i) (b.start.get (i + 1)), x < m := by
    intro i hi x hx
    obtain ⟨k, k1, k2, rfl⟩ := Buf.mem_slice.1 hx
    have := hmono (i + 1) (by omega)
    exact b5 k (by omega)
  have hG : (graphOf m b).OK := by
    refine ⟨b1, fun i _ => ?_, fun i hi => ?_, fun i hi => ?_, fun v v1 v2 w hw => ?_⟩
    · show (1 : Int) ≤ (b.start.get i : Int) + 1
      omega
    · show (b.start.get i : Int) + 1 ≤ (b.start.get (i + 1) : Int) + 1
      have := b3 i hi
      omega
    · show ((b.start.get i : Int) + 1).toNat - 1 ≤ b.inds.size
      have := hmono i hi
      omega
    · have v2' : v ≤ m := v2
      obtain ⟨h1, h2⟩ := (hmemv v v1 v2' w).1 hw
      have := hin (v - 1) (by omega) _ h2
      exact ⟨h1, by show w ≤ m; omega⟩
  have hS : (graphOf m b).Symm := by
    intro v w v1 v2 w1 w2 hw
    have v2' : v ≤ m := v2
    have w2' : w ≤ m := w2
    obtain ⟨-, h2⟩ := (hmemv v v1 v2' w).1 hw
    exact (hmemv w w1 w2' v).2 ⟨v1, hs (v - 1) (by omega) (w - 1) (by omega) h2⟩
  unfold runRcm
  rw [runs_bind]
  refine (apply_runs hG hS (Buf.mk' m 0) rfl).mono ?_
  rintro P ⟨p1, p2, p3⟩
  have e : (graphOf m b).n = m := rfl
  rw [e] at p1 p2 p3
  rw [runs_pure]
  have hval : ∀ i, i < m → 1 ≤ P.get i ∧ P.get i ≤ m := fun i hi => p3 _ (Buf.mem_slice.2 ⟨i, Nat.zero_le _, hi, rfl⟩)
  refine ⟨p1, fun i hi => ?_, fun i j hi hj e => ?_⟩
  · have := hval i hi
    simp only; omega
  · simp only at e
    have h1 := hval i hi
    have h2 := hval j hj
    have e' : P.get i = P.get j := by omega
    have l1 : i < (P.slice 0 m).length := by rw [Buf.slice_length]; omega
    have l2 : j < (P.slice 0 m).length := by rw [Buf.slice_length]; omega
    refine (List.Nodup.getElem_inj_iff p2 (hi := l1) (hj := l2)).1 ?_
    rw [Buf.slice_getElem, Buf.slice_getElem, Nat.zero_add, Nat.zero_add]
    exact e'

end Rcm
end Hif
