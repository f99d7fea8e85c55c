import Verif.DropOff
import Verif.MT
import Verif.SchurRes

set_option linter.unusedSectionVars false
set_option linter.unusedVariables false

/-!
# Threaded dropping in the off-diagonal blocks (model)

Model of `mt::drop_L_E_and_U_F` (src/hif/alg/Schur.hpp 404–565).  `T` is the argument `nthreads`, `team` the number of threads OpenMP delivers for the region (it may deliver fewer
than `num_threads` asks for).

Simplifications.
* One step of a thread is one line of one block.  A step reads and writes only the segment of its line, its entry of `gaps_L` or `gaps_U`, and the buffer of its own thread, so the
  granularity does not matter.
* The two calls of the region for two or three threads (444–454) touch disjoint data (`L_E`, `buf_L`, `ibuf_L` and `U_F`, `buf_U`, `ibuf_U`): they appear one after the other, in both orders.  So do the two
  compressions (517–562).
* The message of the assertions (433, 441) is not modelled.
-/

namespace Hif
open Finset
namespace Drop
variable {K R : Type}

/-- Arguments (422–429). -/
structure In (K R : Type) where
  refL : Buf Nat
  alphaL : R
  refU : Buf Nat
  alphaU : R
  L : CS K
  U : CS K

/-- Shared state of the region for four or more threads (459–513): program counters, buffers of the threads, `gaps_L`, `gaps_U`, and the arrays of the two blocks. -/
structure Sh (K : Type) where
  pc : Nat → Nat
  bufs : Nat → Buf K
  gl : Buf Nat
  gu : Buf Nat
  li : Buf Nat
  lv : Buf K
  ui : Buf Nat
  uv : Buf K

/-- The compression of one block (517–538, 539–560), the same loop as in `drop_offsets_kernel`; `n` lines. -/
def compress (n : Nat) (A : CS K) (gaps inds : Buf Nat) (vals : Buf K) : M (CS K) := do
  let prev ← A.start.rd 0
  let c ← forUp 0 n (⟨0, 0, prev, A.start, inds, vals⟩ : Cst K) (compressLine gaps)
  let nnz ← c.start.rd n
  pure ⟨A.psize, A.ssize, c.start, ⟨nnz, c.inds.get⟩, ⟨nnz, c.vals.get⟩⟩

section
variable [Field R] [LinearOrder R] [FloorSemiring R]

/-- One step of thread `t` (472–512): line `start_idx + pc / 2` of `L_E`, then the same line of `U_F`. -/
def parStep (nth : (Nat → R) → Nat → List Nat → List Nat) (nrm : K → R) (a : In K R) (T t : Nat) (s : Sh K) : M (Sh K) :=
  let lo := (MT.uniformPartition a.L.psize T t).1
  let hi := (MT.uniformPartition a.L.psize T t).2
  if s.pc t < 2 * (hi - lo) then
    let i := lo + s.pc t / 2
    let pc := fun u => if u = t then s.pc t + 1 else s.pc u
    if s.pc t % 2 = 0 then do
      let r ← dropLine nth nrm a.refL a.alphaL a.L.start i ⟨s.gl, s.bufs t, s.li, s.lv⟩
      pure { s with pc := pc, bufs := fun u => if u = t then r.buf else s.bufs u, gl := r.gaps, li := r.inds, lv := r.vals }
    else do
      let r ← dropLine nth nrm a.refU a.alphaU a.U.start i ⟨s.gu, s.bufs t, s.ui, s.uv⟩
      pure { s with pc := pc, bufs := fun u => if u = t then r.buf else s.bufs u, gu := r.gaps, ui := r.inds, uv := r.vals }
  else pure s

/-- A schedule of the team. -/
def parRun (nth : (Nat → R) → Nat → List Nat → List Nat) (nrm : K → R) (a : In K R) (T team : Nat) : List Nat → Sh K → M (Sh K)
  | [], s => pure s
  | t :: ts, s => if t < team then parStep nth nrm a T t s >>= parRun nth nrm a T team ts else parRun nth nrm a T team ts s

/-- All threads of the team are at the barrier (515). -/
def parDone (a : In K R) (T team : Nat) (s : Sh K) : Prop :=
  ∀ t, t < team → s.pc t = 2 * ((MT.uniformPartition a.L.psize T t).2 - (MT.uniformPartition a.L.psize T t).1)

/-- Entering the region; thread 0 works with `buf_L`, thread 1 with `buf_U`, the others with new arrays (456–457, 469). -/
def parInit (a : In K R) (bufL bufU : Buf K) (junk : Nat → Nat → K) (ibufL ibufU : Buf Nat) : Sh K :=
  { pc := fun _ => 0, bufs := fun t => if t = 0 then bufL else if t = 1 then bufU else ⟨a.L.ssize, junk t⟩, gl := ibufL, gu := ibufU,
    li := a.L.inds, lv := a.L.vals, ui := a.U.inds, uv := a.U.vals }

/-- Outcomes of `drop_L_E_and_U_F` (421–565): the new `L_E` and `U_F`, or an error. -/
inductive MtDrop (nth : (Nat → R) → Nat → List Nat → List Nat) (nrm : K → R) (a : In K R) (T team : Nat) (bufL bufU : Buf K) (junk : Nat → Nat → K)
    (ibufL ibufU : Buf Nat) : M (CS K × CS K) → Prop
  | serial (h : T = 1 ∨ a.L.psize ≤ 200) : MtDrop nth nrm a T team bufL bufU junk ibufL ibufU (do
      let L ← dropBlock nth nrm a.refL a.alphaL a.L bufL ibufL
      let U ← dropBlock nth nrm a.refU a.alphaU a.U bufU ibufU
      pure (L, U))
  | one (h : T ≠ 1) (h' : 200 < a.L.psize) (hT : T ≤ 3) (ht : team = 1) : MtDrop nth nrm a T team bufL bufU junk ibufL ibufU (do
      let U ← dropBlock nth nrm a.refU a.alphaU a.U bufU ibufU
      pure (a.L, U))
  | twoLU (h : T ≠ 1) (h' : 200 < a.L.psize) (hT : T ≤ 3) (ht : 2 ≤ team) : MtDrop nth nrm a T team bufL bufU junk ibufL ibufU (do
      let L ← dropBlock nth nrm a.refL a.alphaL a.L bufL ibufL
      let U ← dropBlock nth nrm a.refU a.alphaU a.U bufU ibufU
      pure (L, U))
  | twoUL (h : T ≠ 1) (h' : 200 < a.L.psize) (hT : T ≤ 3) (ht : 2 ≤ team) : MtDrop nth nrm a T team bufL bufU junk ibufL ibufU (do
      let U ← dropBlock nth nrm a.refU a.alphaU a.U bufU ibufU
      let L ← dropBlock nth nrm a.refL a.alphaL a.L bufL ibufL
      pure (L, U))
  | fail (sched e) (h' : 200 < a.L.psize) (hT : 4 ≤ T) (hr : parRun nth nrm a T team sched (parInit a bufL bufU junk ibufL ibufU) = .error e) :
      MtDrop nth nrm a T team bufL bufU junk ibufL ibufU (.error e)
  | full (sched s) (h' : 200 < a.L.psize) (hT : 4 ≤ T) (hr : parRun nth nrm a T team sched (parInit a bufL bufU junk ibufL ibufU) = .ok s)
      (hd : parDone a T team s) : MtDrop nth nrm a T team bufL bufU junk ibufL ibufU (do
      let L ← compress a.L.psize a.L s.gl s.li s.lv
      let U ← (if 2 ≤ team then compress a.L.psize a.U s.gu s.ui s.uv else pure { a.U with inds := s.ui, vals := s.uv })
      pure (L, U))
  | fullUL (sched s) (h' : 200 < a.L.psize) (hT : 4 ≤ T) (hr : parRun nth nrm a T team sched (parInit a bufL bufU junk ibufL ibufU) = .ok s)
      (hd : parDone a T team s) : MtDrop nth nrm a T team bufL bufU junk ibufL ibufU (do
      let U ← (if 2 ≤ team then compress a.L.psize a.U s.gu s.ui s.uv else pure { a.U with inds := s.ui, vals := s.uv })
      let L ← compress a.L.psize a.L s.gl s.li s.lv
      pure (L, U))

/-! ### proofs -/

/-- The outcome of a selection depends on the keys of the elements of the range only (`std::nth_element` compares nothing else). -/
def NthLocal (nth : (Nat → R) → Nat → List Nat → List Nat) : Prop := ∀ w w' k l, (∀ x ∈ l, w x = w' x) → nth w k l = nth w' k l

variable [IsStrictOrderedRing R]

/-- What is needed of one block, its reference pointers and the work space. -/
structure BlockOK (ref : Buf Nat) (alpha : R) (A : CS K) (gaps : Buf Nat) : Prop where
  wf : A.WF
  st : A.start.size = A.psize + 1
  rf : A.psize + 1 ≤ ref.size
  gp : A.psize ≤ gaps.size
  nd : ∀ i, i < A.psize → (A.inds.slice (A.start.get i) (A.start.get (i + 1))).Nodup
  pos : ∀ i, i < A.psize → lim ref alpha i = 0 → A.start.get i = A.start.get (i + 1)

/-- The result of line `i` in detail. -/
structure LineRes (nth : (Nat → R) → Nat → List Nat → List Nat) (nrm : K → R) (sz lo hi : Nat) (st r : St K) : Prop where
  short : hi - lo ≤ sz → r.inds = st.inds ∧ r.vals = st.vals
  long : sz < hi - lo → ∃ buf : Buf K, (∀ k, lo ≤ k → k < hi → buf.get (st.inds.get k) = st.vals.get k) ∧
    (∀ k, lo ≤ k → k < hi → r.inds.get k = (nth (fun x => nrm (buf.get x)) (sz - 1) (st.inds.slice lo hi)).getD (k - lo) 0) ∧
    (∀ k, lo ≤ k → k < lo + sz → r.vals.get k = buf.get (r.inds.get k)) ∧ (∀ k, lo + sz ≤ k → k < hi → r.vals.get k = st.vals.get k)

theorem dropLine_res (nth : (Nat → R) → Nat → List Nat → List Nat) (hnth : SV.NthSpec nth) (nrm : K → R) (ref : Buf Nat) (alpha : R)
    (start : Buf Nat) (i : Nat) (st : St K) (hr : i + 1 < ref.size) (hs : i + 1 < start.size) (hg : i < st.gaps.size)
    (hle : start.get i ≤ start.get (i + 1)) (h1 : start.get (i + 1) ≤ st.inds.size) (h2 : start.get (i + 1) ≤ st.vals.size)
    (hb : ∀ k, start.get i ≤ k → k < start.get (i + 1) → st.inds.get k < st.buf.size)
    (hn : (st.inds.slice (start.get i) (start.get (i + 1))).Nodup)
    (hz : lim ref alpha i = 0 → start.get i = start.get (i + 1)) :
    Runs (dropLine nth nrm ref alpha start i st) fun r => LineRes nth nrm (lim ref alpha i) (start.get i) (start.get (i + 1)) st r := by
  have el : ⌈alpha * ((ref.get (i + 1) - ref.get i : Nat) : R)⌉₊ = lim ref alpha i := rfl
  unfold dropLine
  simp only [runs_bind, runs_rd, runs_ite, runs_wr, runs_pure, runs_throw]
  refine ⟨hr, by omega, hs, by omega, ?_⟩
  rw [el]
  split
  · rename_i h
    exact ⟨hg, fun _ => ⟨rfl, rfl⟩, fun h' => by omega⟩
  rename_i h
  refine ⟨hg, (scatter_runs st hle h1 h2 hb hn).mono ?_⟩
  rintro buf ⟨b1, b2⟩
  have hz' : lim ref alpha i ≠ 0 := fun e => by have := hz e; omega
  rw [if_neg hz']
  generalize hsz : lim ref alpha i = sz at *
  generalize hlo : start.get i = lo at *
  generalize hhi : start.get (i + 1) = hi at *
  obtain ⟨p1, p2⟩ := hnth (fun x => nrm (buf.get x)) (sz - 1) (st.inds.slice lo hi) (by rw [Buf.slice_length]; omega)
  rw [show sz - 1 + 1 = sz by omega] at p2
  have hlen : (nth (fun x => nrm (buf.get x)) (sz - 1) (st.inds.slice lo hi)).length = hi - lo := by rw [p1.length_eq, Buf.slice_length]
  have hget : ∀ k, lo ≤ k → k < hi → (putList st.inds lo hi (nth (fun x => nrm (buf.get x)) (sz - 1) (st.inds.slice lo hi))).get k =
      (nth (fun x => nrm (buf.get x)) (sz - 1) (st.inds.slice lo hi)).getD (k - lo) 0 := by
    intro k k1 k2; show (if lo ≤ k ∧ k < hi then _ else _) = _; rw [if_pos ⟨k1, k2⟩]
  have hmem : ∀ k, lo ≤ k → k < hi → (nth (fun x => nrm (buf.get x)) (sz - 1) (st.inds.slice lo hi)).getD (k - lo) 0 < buf.size := by
    intro k k1 k2
    have hk : k - lo < (nth (fun x => nrm (buf.get x)) (sz - 1) (st.inds.slice lo hi)).length := by omega
    rw [List.getD_eq_getElem?_getD, List.getElem?_eq_getElem hk, Option.getD_some]
    have := p1.mem_iff.1 (List.getElem_mem hk)
    obtain ⟨j, j1, j2, j3⟩ := Buf.mem_slice.1 this
    rw [← j3, b1]; exact hb j j1 j2
  refine (gather_runs (putList st.inds lo hi _) buf st.vals (by omega) (by show _ ≤ st.inds.size; omega) (by omega)
    (fun k k1 k2 => by rw [hget k k1 (by omega)]; exact hmem k k1 (by omega))).mono ?_
  rintro v ⟨v1, v2, v3⟩
  exact ⟨fun h' => absurd h' h, fun _ => ⟨buf, b2, hget, v2, fun k k1 k2 => v3 k (Or.inr k1)⟩⟩

/-- Two runs of a line that start with the same segment end with the same segment. -/
theorem lineRes_det {nth : (Nat → R) → Nat → List Nat → List Nat} (hnth : SV.NthSpec nth) (hloc : NthLocal nth) {nrm : K → R} {sz lo hi : Nat} {st r st' r' : St K}
    (h : LineRes nth nrm sz lo hi st r) (h' : LineRes nth nrm sz lo hi st' r')
    (hs : ∀ k, lo ≤ k → k < hi → st.inds.get k = st'.inds.get k ∧ st.vals.get k = st'.vals.get k) :
    ∀ k, lo ≤ k → k < hi → r.inds.get k = r'.inds.get k ∧ r.vals.get k = r'.vals.get k := by
  intro k k1 k2
  by_cases hle : hi - lo ≤ sz
  · rw [(h.short hle).1, (h.short hle).2, (h'.short hle).1, (h'.short hle).2]
    exact hs k k1 k2
  obtain ⟨b, b1, b2, b3, b4⟩ := h.long (by omega)
  obtain ⟨c, c1, c2, c3, c4⟩ := h'.long (by omega)
  have hsl : st.inds.slice lo hi = st'.inds.slice lo hi := Buf.slice_congr fun k k1 k2 => (hs k k1 k2).1
  have hbc : ∀ x ∈ st.inds.slice lo hi, b.get x = c.get x := by
    intro x hx
    obtain ⟨j, j1, j2, rfl⟩ := Buf.mem_slice.1 hx
    rw [b1 j j1 j2, (hs j j1 j2).1, c1 j j1 j2, (hs j j1 j2).2]
  have hn : nth (fun x => nrm (b.get x)) (sz - 1) (st.inds.slice lo hi) = nth (fun x => nrm (c.get x)) (sz - 1) (st'.inds.slice lo hi) := by
    rw [← hsl]
    exact hloc _ _ _ _ fun x hx => by rw [hbc x hx]
  have hi' : r.inds.get k = r'.inds.get k := by rw [b2 k k1 k2, c2 k k1 k2, hn]
  refine ⟨hi', ?_⟩
  by_cases hk : k < lo + sz
  · rw [b3 k k1 hk, c3 k k1 hk, ← hi']
    refine hbc _ ?_
    have hp := (hnth (fun x => nrm (b.get x)) (sz - 1) (st.inds.slice lo hi) (by rw [Buf.slice_length]; omega)).1
    rw [b2 k k1 k2]
    have hk' : k - lo < (nth (fun x => nrm (b.get x)) (sz - 1) (st.inds.slice lo hi)).length := by rw [hp.length_eq, Buf.slice_length]; omega
    rw [List.getD_eq_getElem?_getD, List.getElem?_eq_getElem hk', Option.getD_some]
    exact hp.mem_iff.1 (List.getElem_mem hk')
  · rw [b4 k (by omega) k2, c4 k (by omega) k2]
    exact (hs k k1 k2).2

/-- Phase 1 of one block when exactly the lines in `D` are done; `tgt j` is the result of line `j` on the original arrays. -/
structure Ph (ref : Buf Nat) (alpha : R) (A : CS K) (gaps : Buf Nat) (tgt : Nat → St K) (D : Nat → Prop) (g inds : Buf Nat) (vals : Buf K) : Prop where
  gsz : g.size = gaps.size
  isz : inds.size = A.inds.size
  vsz : vals.size = A.vals.size
  done : ∀ j, j < A.psize → D j → (∀ k, A.start.get j ≤ k → k < A.start.get (j + 1) → inds.get k = (tgt j).inds.get k ∧ vals.get k = (tgt j).vals.get k) ∧
    g.get j = (A.start.get (j + 1) - A.start.get j) - min (A.start.get (j + 1) - A.start.get j) (lim ref alpha j)
  todo : ∀ j, j < A.psize → ¬ D j → (∀ k, A.start.get j ≤ k → k < A.start.get (j + 1) → inds.get k = A.inds.get k ∧ vals.get k = A.vals.get k) ∧ g.get j = gaps.get j
  tail : ∀ k, A.start.get A.psize ≤ k → inds.get k = A.inds.get k ∧ vals.get k = A.vals.get k
  gtail : ∀ j, A.psize ≤ j → g.get j = gaps.get j

/-- `tgt` are the results on the original arrays. -/
def Tgt (nth : (Nat → R) → Nat → List Nat → List Nat) (nrm : K → R) (ref : Buf Nat) (alpha : R) (A : CS K) (tgt : Nat → St K) : Prop :=
  ∀ i, i < A.psize → ∃ g b, LineRes nth nrm (lim ref alpha i) (A.start.get i) (A.start.get (i + 1)) ⟨g, b, A.inds, A.vals⟩ (tgt i)

theorem start_mono {A : CS K} (hA : A.WF) : ∀ i j, i ≤ j → j ≤ A.psize → A.start.get i ≤ A.start.get j := by
  intro i j hij
  induction hij with
  | refl => intro _; exact le_refl _
  | step _ ih => intro hj; exact le_trans (ih (by omega)) (hA.mono _ (by omega))

/-- There are such results. -/
theorem tgt_exists (nth : (Nat → R) → Nat → List Nat → List Nat) (hnth : SV.NthSpec nth) (nrm : K → R) {ref : Buf Nat} {alpha : R} {A : CS K} {gaps : Buf Nat}
    (h : BlockOK ref alpha A gaps) (buf : Buf K) (hb : A.ssize ≤ buf.size) : ∃ tgt, Tgt nth nrm ref alpha A tgt := by
  have : ∀ i, ∃ r : St K, i < A.psize → LineRes nth nrm (lim ref alpha i) (A.start.get i) (A.start.get (i + 1)) ⟨gaps, buf, A.inds, A.vals⟩ r := by
    intro i
    by_cases hi : i < A.psize
    · have hm1 := start_mono h.wf (i + 1) A.psize (by omega) (le_refl _)
      have := h.wf.nnz_inds
      have := h.wf.nnz_vals
      have h1 := h.rf
      have h2 := h.st
      have h3 := h.gp
      obtain ⟨r, -, hr⟩ := dropLine_res nth hnth nrm ref alpha A.start i (⟨gaps, buf, A.inds, A.vals⟩ : St K) (by omega) (by omega) (by show i < gaps.size; omega) (h.wf.mono i hi)
        (by show _ ≤ A.inds.size; omega) (by show _ ≤ A.vals.size; omega) (fun k k1 k2 => lt_of_lt_of_le (h.wf.line_lt hi k2) hb) (h.nd i hi) (h.pos i hi)
      exact ⟨r, fun _ => hr⟩
    · exact ⟨⟨gaps, buf, A.inds, A.vals⟩, fun h => absurd h hi⟩
  choose tgt htgt using this
  exact ⟨tgt, fun i hi => ⟨gaps, buf, htgt i hi⟩⟩

/-- One more line. -/
theorem ph_step {nth : (Nat → R) → Nat → List Nat → List Nat} (hnth : SV.NthSpec nth) (hloc : NthLocal nth) {nrm : K → R} {ref : Buf Nat} {alpha : R} {A : CS K} {gaps : Buf Nat}
    (h : BlockOK ref alpha A gaps) {tgt : Nat → St K} (ht : Tgt nth nrm ref alpha A tgt) {D : Nat → Prop} {g inds : Buf Nat} {vals : Buf K}
    (hp : Ph ref alpha A gaps tgt D g inds vals) (buf : Buf K) (hb : A.ssize ≤ buf.size) {i : Nat} (hi : i < A.psize) (hD : ¬ D i) :
    Runs (dropLine nth nrm ref alpha A.start i ⟨g, buf, inds, vals⟩) fun r => r.buf.size = buf.size ∧ Ph ref alpha A gaps tgt (fun j => D j ∨ j = i) r.gaps r.inds r.vals := by
  have hm1 := start_mono h.wf (i + 1) A.psize (by omega) (le_refl _)
  have n1 := h.wf.nnz_inds
  have n2 := h.wf.nnz_vals
  have h1 := h.rf
  have h2 := h.st
  have h3 := h.gp
  have p1 := hp.gsz
  have p2 := hp.isz
  have p3 := hp.vsz
  have hseg := (hp.todo i hi hD).1
  have hsl : inds.slice (A.start.get i) (A.start.get (i + 1)) = A.inds.slice (A.start.get i) (A.start.get (i + 1)) :=
    Buf.slice_congr fun k k1 k2 => (hseg k k1 k2).1
  have c1 : ∀ k, A.start.get i ≤ k → k < A.start.get (i + 1) → inds.get k < buf.size := fun k k1 k2 => by
    rw [(hseg k k1 k2).1]; exact lt_of_lt_of_le (h.wf.line_lt hi k2) hb
  obtain ⟨r, e, r1, r2, r3, r4, r5, r6, r7, -⟩ := dropLine_runs nth hnth nrm ref alpha A.start i (⟨g, buf, inds, vals⟩ : St K) (by omega) (by omega) (by show i < g.size; omega)
    (h.wf.mono i hi) (by show _ ≤ inds.size; omega) (by show _ ≤ vals.size; omega) c1 (by show (inds.slice _ _).Nodup; rw [hsl]; exact h.nd i hi) (h.pos i hi)
  obtain ⟨r', e', hr'⟩ := dropLine_res nth hnth nrm ref alpha A.start i (⟨g, buf, inds, vals⟩ : St K) (by omega) (by omega) (by show i < g.size; omega)
    (h.wf.mono i hi) (by show _ ≤ inds.size; omega) (by show _ ≤ vals.size; omega) c1 (by show (inds.slice _ _).Nodup; rw [hsl]; exact h.nd i hi) (h.pos i hi)
  have : r' = r := by rw [e] at e'; exact (Except.ok.inj e').symm
  subst this
  refine ⟨r', e, r2, ⟨by rw [r1]; exact p1, by rw [r3]; exact p2, by rw [r4]; exact p3, ?_, ?_, ?_, ?_⟩⟩
  · intro j hj hjD
    by_cases eji : j = i
    · subst eji
      refine ⟨?_, r7⟩
      obtain ⟨g', b', hl⟩ := ht j hj
      exact lineRes_det hnth hloc hr' hl hseg
    · have hjD' : D j := hjD.resolve_right eji
      obtain ⟨d1, d2⟩ := hp.done j hj hjD'
      refine ⟨fun k k1 k2 => ?_, by rw [r6 j eji]; exact d2⟩
      have hout : k < A.start.get i ∨ A.start.get (i + 1) ≤ k := by
        rcases Nat.lt_or_gt_of_ne eji with hlt | hlt
        · left; exact lt_of_lt_of_le k2 (start_mono h.wf (j + 1) i (by omega) (by omega))
        · right; exact le_trans (start_mono h.wf (i + 1) j (by omega) (by omega)) k1
      rw [(r5 k hout).1, (r5 k hout).2]
      exact d1 k k1 k2
  · intro j hj hjD
    have eji : j ≠ i := fun e => hjD (Or.inr e)
    obtain ⟨d1, d2⟩ := hp.todo j hj (fun hd => hjD (Or.inl hd))
    refine ⟨fun k k1 k2 => ?_, by rw [r6 j eji]; exact d2⟩
    have hout : k < A.start.get i ∨ A.start.get (i + 1) ≤ k := by
      rcases Nat.lt_or_gt_of_ne eji with hlt | hlt
      · left; exact lt_of_lt_of_le k2 (start_mono h.wf (j + 1) i (by omega) (by omega))
      · right; exact le_trans (start_mono h.wf (i + 1) j (by omega) (by omega)) k1
    rw [(r5 k hout).1, (r5 k hout).2]
    exact d1 k k1 k2
  · intro k hk
    rw [(r5 k (Or.inr (by omega))).1, (r5 k (Or.inr (by omega))).2]
    exact hp.tail k hk
  · intro j hj
    rw [r6 j (by omega)]
    exact hp.gtail j hj

theorem ph_init {ref : Buf Nat} {alpha : R} {A : CS K} {gaps : Buf Nat} (tgt : Nat → St K) {D : Nat → Prop} (hD : ∀ j, ¬ D j) :
    Ph ref alpha A gaps tgt D gaps A.inds A.vals :=
  ⟨rfl, rfl, rfl, fun j _ h => absurd h (hD j), fun j _ _ => ⟨fun _ _ _ => ⟨rfl, rfl⟩, rfl⟩, fun _ _ => ⟨rfl, rfl⟩, fun _ _ => rfl⟩

theorem ph_congr {ref : Buf Nat} {alpha : R} {A : CS K} {gaps : Buf Nat} {tgt : Nat → St K} {D D' : Nat → Prop} {g inds : Buf Nat} {vals : Buf K}
    (hp : Ph ref alpha A gaps tgt D g inds vals) (hD : ∀ j, j < A.psize → (D j ↔ D' j)) : Ph ref alpha A gaps tgt D' g inds vals :=
  ⟨hp.gsz, hp.isz, hp.vsz, fun j hj h => hp.done j hj ((hD j hj).2 h), fun j hj h => hp.todo j hj (fun h' => h ((hD j hj).1 h')), hp.tail, hp.gtail⟩

/-- When all lines are done the arrays are determined. -/
theorem ph_unique {ref : Buf Nat} {alpha : R} {A : CS K} (hA : A.WF) {gaps : Buf Nat} {tgt : Nat → St K} {D D' : Nat → Prop} {g inds g' inds' : Buf Nat} {vals vals' : Buf K}
    (h : Ph ref alpha A gaps tgt D g inds vals) (h' : Ph ref alpha A gaps tgt D' g' inds' vals') (hD : ∀ j, j < A.psize → D j) (hD' : ∀ j, j < A.psize → D' j) :
    g = g' ∧ inds = inds' ∧ vals = vals' := by
  have hfind : ∀ k n, n ≤ A.psize → k < A.start.get n → ∃ i, i < n ∧ A.start.get i ≤ k ∧ k < A.start.get (i + 1) := by
    intro k n
    induction n with
    | zero => intro _ h; rw [hA.start_zero] at h; omega
    | succ n ih =>
      intro hn' h
      by_cases h' : k < A.start.get n
      · obtain ⟨i, i1, i2⟩ := ih (by omega) h'
        exact ⟨i, by omega, i2⟩
      · exact ⟨n, by omega, by omega, h⟩
  have hk : ∀ k, inds.get k = inds'.get k ∧ vals.get k = vals'.get k := by
    intro k
    by_cases hk : k < A.start.get A.psize
    · obtain ⟨i, i1, i2, i3⟩ := hfind k _ (le_refl _) hk
      have a1 := (h.done i i1 (hD i i1)).1 k i2 i3
      have a2 := (h'.done i i1 (hD' i i1)).1 k i2 i3
      exact ⟨a1.1.trans a2.1.symm, a1.2.trans a2.2.symm⟩
    · have a1 := h.tail k (by omega)
      have a2 := h'.tail k (by omega)
      exact ⟨a1.1.trans a2.1.symm, a1.2.trans a2.2.symm⟩
  have hg : ∀ j, g.get j = g'.get j := by
    intro j
    by_cases hj : j < A.psize
    · rw [(h.done j hj (hD j hj)).2, (h'.done j hj (hD' j hj)).2]
    · rw [h.gtail j (by omega), h'.gtail j (by omega)]
  have e1 := h.gsz.trans h'.gsz.symm
  have e2 := h.isz.trans h'.isz.symm
  have e3 := h.vsz.trans h'.vsz.symm
  cases g; cases g'; cases inds; cases inds'; cases vals; cases vals'
  simp only at e1 e2 e3 hk hg
  subst e1 e2 e3
  refine ⟨?_, ?_, ?_⟩
  · congr 1; exact funext hg
  · congr 1; exact funext fun k => (hk k).1
  · congr 1; exact funext fun k => (hk k).2

/-- The serial kernel: phase 1 completes with all lines done, then the compression. -/
theorem kernel_eq {nth : (Nat → R) → Nat → List Nat → List Nat} (hnth : SV.NthSpec nth) (hloc : NthLocal nth) {nrm : K → R} {ref : Buf Nat} {alpha : R} {A : CS K} {gaps : Buf Nat}
    (h : BlockOK ref alpha A gaps) {tgt : Nat → St K} (ht : Tgt nth nrm ref alpha A tgt) (buf : Buf K) (hb : A.ssize ≤ buf.size) :
    ∃ g inds vals, Ph ref alpha A gaps tgt (fun j => j < A.psize) g inds vals ∧ kernel nth nrm ref alpha A buf gaps = compress A.psize A g inds vals := by
  have hrun : Runs (forUp 0 A.psize (⟨gaps, buf, A.inds, A.vals⟩ : St K) (dropLine nth nrm ref alpha A.start)) fun st => st.buf.size = buf.size ∧
      Ph ref alpha A gaps tgt (fun j => j < A.psize) st.gaps st.inds st.vals := by
    refine forUp_runs' (fun i (st : St K) => st.buf.size = buf.size ∧ Ph ref alpha A gaps tgt (fun j => j < i) st.gaps st.inds st.vals) (Nat.zero_le _)
      ⟨rfl, ph_init tgt fun j => Nat.not_lt_zero j⟩ ?_ (fun st hst => hst)
    rintro i st - hi ⟨s1, s2⟩
    refine (ph_step hnth hloc h ht s2 st.buf (by omega) hi (lt_irrefl i)).mono ?_
    rintro r ⟨r1, r2⟩
    exact ⟨r1.trans s1, ph_congr r2 fun j _ => by omega⟩
  obtain ⟨st, e, -, hp⟩ := hrun
  refine ⟨st.gaps, st.inds, st.vals, hp, ?_⟩
  unfold kernel compress
  rw [h.st, Nat.add_sub_cancel]
  dsimp only
  rw [e]
  rfl

end
end Drop
end Hif
