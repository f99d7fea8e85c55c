import Verif.Mc64Begin

set_option linter.unusedVariables false
set_option linter.unusedSectionVars false

/-!
# The weighted matching: the search loop
-/

namespace Hif
namespace Mc64
variable {R : Type} [Field R] [LinearOrder R] [IsStrictOrderedRing R]

theorem Lay.pendEq {n : Nat} {ip : Buf Nat} {pend pend' : Nat → Prop} {d : Buf (D R)} {q l : Buf Nat} {qlen low up : Nat} {dmin : D R}
    (h : Lay n ip pend d q l qlen low up dmin) (hp : ∀ i, pend i ↔ pend' i) : Lay n ip pend' d q l qlen low up dmin := by
  have : pend = pend' := funext fun i => propext (hp i)
  rw [← this]; exact h

/-- Another bound `dmin`, when no row has the smallest key yet. -/
theorem Lay.dminTo {n : Nat} {ip : Buf Nat} {pend : Nat → Prop} {d : Buf (D R)} {q l : Buf Nat} {qlen low up : Nat} {dmin dm : D R}
    (h : Lay n ip pend d q l qlen low up dmin) (he : low = up) (h1 : dmin ≤ dm) (h2 : ∀ p, 1 ≤ p → p ≤ qlen → dm ≤ d.get (q.get p)) :
    Lay n ip pend d q l qlen low up dm :=
  ⟨h.dsz, h.qsz, h.lsz, h.low1, h.lu, h.un, h.ql, h.at_, h.lab, h.unl, h.pnd, h.ord, fun p a b => le_trans (h.fin p a b) h1,
    fun p a b => absurd a (by omega), h2⟩

/-- The next row gets its final distance. -/
theorem Lay.upTo {n : Nat} {ip : Buf Nat} {pend : Nat → Prop} {d : Buf (D R)} {q l : Buf Nat} {qlen low up : Nat} {dmin : D R}
    (h : Lay n ip pend d q l qlen low up dmin) (he : low < up) : Lay n ip pend d q l qlen low (up - 1) dmin := by
  have a1 := h.un
  refine ⟨h.dsz, h.qsz, h.lsz, h.low1, by omega, by omega, h.ql, h.at_, h.lab, h.unl, h.pnd, h.ord, ?_, fun p a b => h.mid p a (by omega), h.hp⟩
  intro p a b
  rcases Nat.lt_or_ge p up with g | g
  · exact le_of_eq (h.mid p (by omega) g)
  · exact h.fin p g b

theorem extract_runs {A : Mat R} {ne : Nat} (hA : A.OK ne) {v : Nat → R} {jord : Nat} {c0 : St R} (f : Nat) :
    ∀ (i : Nat) (w : W R), Inv A ne v jord c0 (fun _ => False) (fun _ _ => False) w → 1 ≤ w.qlen → w.qlen ≤ f → i = w.c.q.get 1 →
      w.c.d.get i = w.dmin →
      Runs (extract A.n f i w) fun w' => Inv A ne v jord c0 (fun _ => False) (fun _ _ => False) w' ∧ w'.up = w.up ∧ w'.low < w'.up := by
  induction f with
  | zero => intro i w h a b; omega
  | succ f ih =>
    intro i w h hq hf hi hd
    have core := h.core
    have lay := h.lay
    have l1 := lay.ql
    have l2 := lay.lu
    have l3 := lay.un
    have e5 := core.dsz
    have x := lay.at_ 1 (Or.inl ⟨le_rfl, hq⟩)
    rw [← hi] at x
    unfold extract pushLow
    simp only [runs_bind]
    have hp := lay.pop hq (by rw [← hi]; exact hd)
    rw [← hi] at hp
    refine hp.mono ?_
    rintro r ⟨r1, r2, r3, r4, r5⟩
    simp only [runs_wr1, runs_pure]
    refine ⟨by omega, by omega, by omega, by omega, ?_⟩
    have inv : Inv A ne v jord c0 (fun _ => False) (fun _ _ => False) (⟨w.dmin, w.csp, w.isp, w.jsp, w.qlen - 1, w.low - 1, w.up,
        { w.c with q := r.1.set (w.low - 1) i, l := r.2.set i (w.low - 1) }⟩ : W R) := by
      refine ⟨⟨core.mt, core.num, core.usz, core.u, core.tight, core.osz, core.prsz, r4, r5, core.dsz⟩,
        ⟨h.same.ip, h.same.jp, h.same.u, h.same.num⟩, ?_, ?_, h.jo⟩
      · exact r1.pendEq (fun i => by simp)
      · exact h.sem.move (by exact rfl) (by exact rfl) (by exact rfl) (by exact rfl) (by exact rfl) (by exact rfl) (by exact rfl) (by exact rfl)
          (by exact rfl) (i := i) (by rw [x.2.2.1]; omega) (by exact r2)
    split
    · simp only [runs_pure]
      exact ⟨inv, (by trivial), by show w.low - 1 < w.up; omega⟩
    · rename_i hz
      have hz : w.qlen - 1 ≠ 0 := hz
      have y := inv.lay.at_ 1 (Or.inl ⟨le_rfl, by show 1 ≤ w.qlen - 1; omega⟩)
      have y1 : 1 ≤ (r.1.set (w.low - 1) i).get 1 := y.1
      have y2 : (r.1.set (w.low - 1) i).get 1 ≤ A.n := y.2.1
      simp only [runs_bind, runs_rd1]
      refine ⟨by omega, ?_, by omega, ?_, ?_⟩
      · show 1 < r.1.size; omega
      · show _ < w.c.d.size; omega
      split
      · simp only [runs_pure]
        exact ⟨inv, (by trivial), by show w.low - 1 < w.up; omega⟩
      · rename_i hdm
        have hp1 := inv.lay.hp 1 le_rfl (by show 1 ≤ w.qlen - 1; omega)
        refine (ih _ _ inv (by show 1 ≤ w.qlen - 1; omega) (by show w.qlen - 1 ≤ f; omega) rfl (le_antisymm (not_lt.1 hdm) hp1)).mono ?_
        rintro w' ⟨a, b, c⟩
        exact ⟨a, b, c⟩

/-- The column being scanned: `j` belongs to the row `q0`, its distance is `b`. -/
structure Cur (A : Mat R) (v : Nat → R) (j q0 : Nat) (b : R) (w : W R) : Prop where
  r1 : 1 ≤ q0
  r2 : q0 ≤ A.n
  fin : w.up ≤ w.c.l.get q0
  col : w.c.iperm.get q0 = j
  d : w.c.d.get q0 = ((b + rc A v (w.c.jperm.get j) : R) : D R)
  dmin : w.dmin = ((b + rc A v (w.c.jperm.get j) : R) : D R)
  lt : w.dmin ≤ w.csp

/-- What `relax` keeps. -/
def Kept (w w' : W R) : Prop := w'.up = w.up ∧ w'.dmin = w.dmin

theorem relax_runs {A : Mat R} {ne : Nat} (hA : A.OK ne) {v : Nat → R} {jord : Nat} {c0 : St R} {j q0 : Nat} {b : R} {k : Nat} (hk : A.col j k)
    {w : W R} (h : Inv A ne v jord c0 (fun _ => False) (fun j' k' => j' = j ∧ k ≤ k') w) (hc : Cur A v j q0 b w) (hup1 : 1 ≤ w.up) :
    Runs (relax A j (b : D R) k w) fun w' => Inv A ne v jord c0 (fun _ => False) (fun j' k' => j' = j ∧ k + 1 ≤ k') w' ∧ Cur A v j q0 b w' ∧
      w'.up = w.up := by
  have core := h.core
  have lay := h.lay
  have l1 := lay.ql
  have l2 := lay.lu
  have l3 := lay.un
  have hf0 := hc.fin
  have hq0 := h.fin hc.r1 hc.r2 (by omega)
  have hj := core.mt.row q0 hc.r1 hc.r2 hq0.1
  rw [hc.col] at hj
  have hkr := hA.col_rng hj.1 hj.2.1 hk
  have hrow := hA.col_row hj.1 hj.2.1 hk
  have hcj := core.mt.col j hj.1 hj.2.1 hj.2.2.1
  have hjo : j ≠ jord := fun e => hj.2.2.1 (by rw [e]; exact h.jo.2.2)
  have e1 := hA.irsz
  have e2 := hA.asz
  have e3 := core.usz
  have e4 := core.mt.isz
  have e5 := core.dsz
  have e6 := core.qsz
  have e7 := core.lsz
  have e8 := core.osz
  have e9 := core.prsz
  have hreach : Reach A v jord w 0 j b := Or.inr ⟨q0, hc.r1, hc.r2, hc.fin, by omega, hc.col, hc.d⟩
  have huniq : ∀ b', Reach A v jord w 0 j b' → b' = b := by
    intro b' hr
    rcases hr with g | ⟨r, a1, a2, a3, a4, a5, a6⟩
    · exact absurd g.1 hjo
    · have hr' := h.fin a1 a2 (by omega)
      have x := core.mt.row r a1 a2 hr'.1
      rw [a5, hj.2.2.2] at x
      rw [← x.2.2.2, hc.d] at a6
      have := WithTop.coe_injective a6
      linarith
  have hPs : ∀ j' k', ¬ (j' = j ∧ k + 1 ≤ k') → ¬ (j' = j ∧ k ≤ k') ∨ (j' = j ∧ k' = k) := by
    intro j' k' hn
    by_cases e : j' = j ∧ k' = k
    · exact Or.inr e
    · left; rintro ⟨a, b⟩
      exact hn ⟨a, by
        rcases Nat.lt_or_ge k k' with g | g
        · exact g
        · exact absurd ⟨a, by omega⟩ e⟩
  have hge : w.dmin ≤ ((b + rc A v k : R) : D R) := by
    rw [hc.dmin]; apply WithTop.coe_le_coe.2
    have := core.tight j hj.1 hj.2.1 hj.2.2.1 k hk
    linarith
  have hskip : Rel w (b + rc A v k) (A.irn.get k) → Sem A v jord (fun j' k' => j' = j ∧ k + 1 ≤ k') w := by
    intro hrel
    refine h.sem.skip ?_
    intro j' k' _ hn
    rcases hPs j' k' hn with g | g
    · exact Or.inl g
    · right; intro b' hr
      rw [g.1] at hr
      rw [huniq b' hr, g.2]; exact hrel
  have hstepP : ∀ j' k', ¬ (j' = j ∧ k + 1 ≤ k') → ¬ (j' = j ∧ k ≤ k') ∨ (k' = k ∧ ∀ b', Reach A v jord w 0 j' b' → b' = b) := by
    intro j' k' hn
    rcases hPs j' k' hn with g | g
    · exact Or.inl g
    · exact Or.inr ⟨g.2, fun b' hr => huniq b' (by rw [g.1] at hr; exact hr)⟩
  have hfinal : ∀ i, 1 ≤ i → i ≤ A.n → w.up ≤ w.c.l.get i → w.c.d.get i ≤ w.dmin := by
    intro i a1 a2 a3
    have x := lay.lab i a1 a2 (by omega)
    have y := (h.fin a1 a2 (by omega)).2.2
    have := lay.fin _ a3 y
    rwa [x.2] at this
  unfold relax
  simp only [runs_bind, runs_rd1]
  refine ⟨by omega, by omega, by omega, by omega, ?_⟩
  split
  · rename_i hu
    simp only [runs_pure]
    refine ⟨⟨core, h.same, lay, hskip (Or.inr ⟨(h.fin hrow.1 hrow.2 (by omega)).1, le_trans (hfinal _ hrow.1 hrow.2 hu) hge⟩), h.jo⟩, hc, (by trivial)⟩
  · rename_i hu
    simp only [runs_bind, runs_rd1]
    refine ⟨by omega, by omega, ?_⟩
    rw [hA.cost hkr.1 hkr.2, fadd_coe]
    simp only [runs_pure]
    refine ⟨by omega, by omega, ?_⟩
    rw [core.u k hkr.1 hkr.2, fsub_coe, show b + val A.a k - v (A.irn.get k) = b + rc A v k from add_sub_assoc _ _ _]
    simp only [runs_pure]
    split
    · rename_i hcs
      simp only [runs_pure]
      exact ⟨⟨core, h.same, lay, hskip (Or.inl hcs), h.jo⟩, hc, (by trivial)⟩
    · rename_i hcs
      simp only [runs_bind, runs_rd1]
      refine ⟨by omega, by omega, ?_⟩
      split
      · rename_i hpi
        simp only [runs_pure]
        refine ⟨⟨core, h.same, lay, ?_, h.jo⟩, ⟨hc.r1, hc.r2, hc.fin, hc.col, hc.d, hc.dmin, hge⟩, (by trivial)⟩
        exact h.sem.better (by exact rfl) (by exact rfl) (b := b) (by exact rfl) (by exact le_of_lt (not_le.1 hcs)) (by exact hreach) (by exact hk)
          (by exact hpi) (fun i a1 a2 a3 => le_trans (hfinal i a1 a2 a3) hge) (by exact hstepP)
      · rename_i hpi
        have hpr := core.mt.row _ hrow.1 hrow.2 hpi
        simp only [runs_bind, runs_rd1]
        refine ⟨by omega, by omega, ?_⟩
        split
        · rename_i hdi
          simp only [runs_pure]
          exact ⟨⟨core, h.same, lay, hskip (Or.inr ⟨hpi, hdi⟩), h.jo⟩, hc, (by trivial)⟩
        · rename_i hdi
          have hlow : w.c.l.get (A.irn.get k) < w.low := by
            by_contra hcon
            have x := lay.lab _ hrow.1 hrow.2 (by omega)
            have := lay.mid _ (not_lt.1 hcon) (not_le.1 hu)
            rw [x.2] at this
            rw [this] at hdi
            exact hdi hge
          rw [if_neg (not_le.2 hlow)]
          simp only [runs_bind, runs_wr1]
          refine ⟨by omega, by omega, ?_⟩
          have hdset : ∀ r, r ≠ A.irn.get k → (w.c.d.set (A.irn.get k) ((b + rc A v k : R) : D R)).get r = w.c.d.get r := by
            intro r hr; simp only [Buf.set_get]; rw [if_neg hr]
          have hdself : (w.c.d.set (A.irn.get k) ((b + rc A v k : R) : D R)).get (A.irn.get k) = ((b + rc A v k : R) : D R) := by
            simp only [Buf.set_get, if_true]
          have hle : ((b + rc A v k : R) : D R) ≤ w.c.d.get (A.irn.get k) := le_of_lt (not_le.1 hdi)
          have hio : w.c.iperm.get (A.irn.get k) ≠ jord := fun e => hpr.2.2.1 (by rw [e]; exact h.jo.2.2)
          have hinj : ∀ r, 1 ≤ r → r ≤ A.n → w.c.l.get r ≠ 0 → w.c.iperm.get r = w.c.iperm.get (A.irn.get k) → r = A.irn.get k := by
            intro r a b c e
            have := (core.mt.row r a b (h.fin a b c).1).2.2.2
            rw [e, hpr.2.2.2] at this; exact this.symm
          have hiu : w.c.l.get (A.irn.get k) < w.up := not_le.1 hu
          have hq0ne : q0 ≠ A.irn.get k := fun e => by rw [← e] at hiu; omega
          have fin : ∀ (q' l' : Buf Nat) (qlen' low' : Nat),
              Lay A.n w.c.iperm (fun _ => False) (w.c.d.set (A.irn.get k) ((b + rc A v k : R) : D R)) q' l' qlen' low' w.up w.dmin →
              Lbl A.n w.up (A.irn.get k) w.c.l l' →
              Runs (setTree (A.irn.get k) j k (⟨w.dmin, w.csp, w.isp, w.jsp, qlen', low', w.up,
                { w.c with d := w.c.d.set (A.irn.get k) ((b + rc A v k : R) : D R), q := q', l := l' }⟩ : W R))
                fun w' => Inv A ne v jord c0 (fun _ => False) (fun j' k' => j' = j ∧ k + 1 ≤ k') w' ∧ Cur A v j q0 b w' ∧ w'.up = w.up := by
            intro q' l' qlen' low' hl hlb
            unfold setTree
            simp only [runs_bind, runs_wr1, runs_rd1, runs_pure]
            refine ⟨by omega, by omega, by omega, by omega, by omega, by omega, ?_⟩
            refine ⟨⟨⟨core.mt, core.num, core.usz, core.u, core.tight, core.osz, core.prsz, hl.qsz, hl.lsz, core.dsz⟩,
              ⟨h.same.ip, h.same.jp, h.same.u, h.same.num⟩, hl, ?_, h.jo⟩, ⟨hc.r1, hc.r2, ?_, hc.col, ?_, hc.dmin, hc.lt⟩, (by trivial)⟩
            · exact h.sem.step (by exact rfl) (by exact rfl) (by exact rfl) (by exact rfl) (by exact rfl) (by exact rfl) hup1 hrow.1 hrow.2 hiu hpi hio
                hinj rfl hk hreach (by exact hdset) (by exact hdself) (by exact le_of_eq_of_le hdself hle) (by exact hlb) (by exact rfl) (by exact rfl)
                hstepP
            · show w.up ≤ l'.get q0
              rw [hlb.keep q0 hc.r1 hc.r2 hc.fin]; exact hc.fin
            · show (w.c.d.set _ _).get q0 = _
              rw [hdset q0 hq0ne]; exact hc.d
          split
          · rename_i hdm
            have hdm : ((b + rc A v k : R) : D R) ≤ w.dmin := hdm
            have hde : ((b + rc A v k : R) : D R) = w.dmin := le_antisymm hdm hge
            have hnt : w.dmin ≠ ⊤ := by rw [← hde]; exact WithTop.coe_ne_top
            by_cases hz : w.c.l.get (A.irn.get k) = 0
            · rw [if_neg (not_not.2 hz)]
              obtain ⟨t1, t2, t3⟩ := lay.toLow hrow.1 hrow.2 hz hpi (d' := w.c.d.set (A.irn.get k) ((b + rc A v k : R) : D R)) lay.dsz hdset
                (by rw [hdself]; exact hde) hnt
              unfold pushLow
              simp only [runs_bind, runs_wr1, runs_pure]
              refine ⟨by omega, by omega, by omega, by omega, ?_⟩
              exact fin _ _ _ _ (t1.pendEq (fun i => by simp)) t2
            · rw [if_pos hz]
              unfold pushLow
              simp only [runs_bind, runs_wr1, runs_pure]
              refine (lay.remove hrow.1 hrow.2 hz hlow (d' := w.c.d.set (A.irn.get k) ((b + rc A v k : R) : D R)) lay.dsz hdset
                (by rw [hdself]; exact hde) hnt).mono ?_
              rintro r ⟨r1, r2, r3, r4, r5⟩
              refine ⟨by omega, by omega, by omega, by omega, ?_⟩
              exact fin _ _ _ _ (r1.pendEq (fun i => by simp)) r2
          · rename_i hdm
            have hdnt : (w.c.d.set (A.irn.get k) ((b + rc A v k : R) : D R)).get (A.irn.get k) ≠ ⊤ := by rw [hdself]; exact WithTop.coe_ne_top
            have hdmn : w.dmin ≤ (w.c.d.set (A.irn.get k) ((b + rc A v k : R) : D R)).get (A.irn.get k) := by rw [hdself]; exact hge
            unfold pushHeap
            simp only [runs_bind, runs_rd1]
            refine ⟨by omega, by omega, ?_⟩
            by_cases hz : w.c.l.get (A.irn.get k) = 0
            · obtain ⟨t0, t1⟩ := lay.insert hrow.1 hrow.2 hz hpi (d' := w.c.d.set (A.irn.get k) ((b + rc A v k : R) : D R)) lay.dsz hdset hdnt hdmn
              rw [if_pos hz]
              simp only [runs_wr1]
              refine ⟨by omega, by omega, t1.mono ?_⟩
              rintro r ⟨r1, r2, r3⟩
              rw [if_pos hz]
              simp only [runs_pure]
              exact fin _ _ _ _ (r1.pendEq (fun i => by simp)) r2
            · rw [if_neg hz]
              simp only [runs_pure]
              refine (lay.decrease hrow.1 hrow.2 hz hlow (d' := w.c.d.set (A.irn.get k) ((b + rc A v k : R) : D R)) lay.dsz hdset hdnt hdmn
                (by rw [hdself]; exact hle)).mono ?_
              rintro r ⟨r1, r2⟩
              rw [if_neg hz]
              exact fin _ _ _ _ (r1.pendEq (fun i => by simp)) r2

/-- When the search ends, the rows without a final distance are not nearer than the best path. -/
def Stop (A : Mat R) (w : W R) : Prop := ∀ i, 1 ≤ i → i ≤ A.n → ¬ w.up ≤ w.c.l.get i → w.csp ≤ w.c.d.get i

theorem Lay.rest {n : Nat} {ip : Buf Nat} {d : Buf (D R)} {q l : Buf Nat} {qlen low up : Nat} {dmin x : D R}
    (h : Lay n ip (fun _ => False) d q l qlen low up dmin) (h1 : low < up → x ≤ dmin) (h2 : 1 ≤ qlen → ∀ p, 1 ≤ p → p ≤ qlen → x ≤ d.get (q.get p)) :
    ∀ i, 1 ≤ i → i ≤ n → ¬ up ≤ l.get i → x ≤ d.get i := by
  intro i a b c
  by_cases e : l.get i = 0
  · rw [h.unl i a b e (fun x => x)]; exact le_top
  · have y := h.lab i a b e
    rcases y.1 with z | z
    · have := h2 (by omega) _ z.1 z.2
      rwa [y.2] at this
    · have := h.mid _ z.1 (not_le.1 c)
      rw [y.2] at this
      rw [this]; exact h1 (by omega)

theorem scanNext_runs {A : Mat R} {ne : Nat} (hA : A.OK ne) {v : Nat → R} {jord : Nat} {c0 : St R} {w : W R}
    (h : Inv A ne v jord c0 (fun _ => False) (fun _ _ => False) w) (hlu : w.low < w.up) :
    Runs (scanNext A w) fun r => Inv A ne v jord c0 (fun _ => False) (fun _ _ => False) r.2 ∧
      (r.1 = true → r.2.up + 1 = w.up) ∧ (r.1 = false → r.2.up = w.up ∧ Stop A r.2) := by
  have core := h.core
  have lay := h.lay
  have l0 := lay.low1
  have l1 := lay.ql
  have l2 := lay.lu
  have l3 := lay.un
  have hq := lay.at_ (w.up - 1) (Or.inr ⟨by omega, by omega⟩)
  have hdq := lay.mid (w.up - 1) (by omega) (by omega)
  generalize hq0 : w.c.q.get (w.up - 1) = q0 at hq hdq
  have e1 := hA.irsz
  have e2 := hA.asz
  have e3 := core.usz
  have e4 := core.mt.isz
  have e4' := core.mt.jsz
  have e5 := core.dsz
  have e6 := core.qsz
  have hj := core.mt.row q0 hq.1 hq.2.1 hq.2.2.2.1
  have hcj := core.mt.col _ hj.1 hj.2.1 hj.2.2.1
  have hkr := hA.col_rng hj.1 hj.2.1 hcj.1
  unfold scanNext
  simp only [runs_bind, runs_rd1]
  rw [hq0]
  refine ⟨by omega, by omega, by omega, by omega, ?_⟩
  split
  · rename_i hcs
    simp only [runs_pure]
    refine ⟨h, fun e => by simp at e, fun _ => ⟨by trivial, ?_⟩⟩
    have hcs : w.csp ≤ w.dmin := by rw [← hdq]; exact hcs
    exact lay.rest (fun _ => hcs) (fun _ p a b => le_trans hcs (lay.hp p a b))
  · rename_i hcs
    simp only [runs_bind, runs_rd1]
    refine ⟨by omega, by omega, by omega, by omega, by omega, by omega, by omega, by omega, ?_⟩
    have hu := core.u _ hkr.1 hkr.2
    rw [hj.2.2.2] at hu
    have hdv := val_eq hq.2.2.2.2
    have hb : val w.c.d q0 = val w.c.d q0 - rc A v (w.c.jperm.get (w.c.iperm.get q0)) + rc A v (w.c.jperm.get (w.c.iperm.get q0)) := by
      rw [sub_add_cancel]
    rw [hA.cost hkr.1 hkr.2, hdv, fsub_coe]
    simp only [runs_pure]
    rw [hu, fadd_coe]
    simp only [runs_pure]
    have hbe : val w.c.d q0 - val A.a (w.c.jperm.get (w.c.iperm.get q0)) + v q0 =
        val w.c.d q0 - rc A v (w.c.jperm.get (w.c.iperm.get q0)) := by
      unfold rc; rw [hj.2.2.2]; linarith
    rw [hbe]
    have hd0 : w.c.d.get q0 = ((val w.c.d q0 - rc A v (w.c.jperm.get (w.c.iperm.get q0)) + rc A v (w.c.jperm.get (w.c.iperm.get q0)) : R) : D R) := by
      rw [← hb]; exact hdv
    refine forCol_runs hA hj.1 hj.2.1 (fun k w' =>
      Inv A ne v jord c0 (fun _ => False) (fun j' k' => j' = w.c.iperm.get q0 ∧ k ≤ k') w' ∧
      Cur A v (w.c.iperm.get q0) q0 (val w.c.d q0 - rc A v (w.c.jperm.get (w.c.iperm.get q0))) w' ∧ w'.up = w.up - 1) ?_ ?_ ?_
    · refine ⟨⟨core, h.same, lay.upTo hlu, ?_, h.jo⟩, ⟨hq.1, hq.2.1, ?_, rfl, hd0, ?_, ?_⟩, rfl⟩
      · have sem := h.sem
        have kf : ∀ {x j : Nat} {b : R}, Reach A v jord w x j b → Reach A v jord { w with up := w.up - 1 } x j b := by
          intro x j b hr
          rcases hr with g | ⟨r, a1, a2, a3, a4⟩
          · exact Or.inl g
          · exact Or.inr ⟨r, a1, a2, by show w.up - 1 ≤ w.c.l.get r; omega, a4⟩
        have hnew : ∀ r, 1 ≤ r → r ≤ A.n → w.c.l.get r = w.up - 1 → r = q0 := by
          intro r a1 a2 a3
          have := (lay.lab r a1 a2 (by omega)).2
          rw [a3, hq0] at this; exact this.symm
        refine ⟨sem.prj, ?_, ?_, ?_, ?_⟩
        · intro r a1 a2 a3
          have a3 : w.c.l.get r ≠ 0 := a3
          obtain ⟨b', x, c1, c2, c3⟩ := sem.tree r a1 a2 a3
          by_cases e : w.up ≤ w.c.l.get r
          · exact ⟨b', x, kf c1, fun _ => c2 e, c3⟩
          · refine ⟨b', w.up - 1, ?_, fun _ => ?_, c3⟩
            · rcases c1 with g | ⟨r', d1, d2, d3, d4, d5⟩
              · exact Or.inl g
              · exact Or.inr ⟨r', d1, d2, by show w.up - 1 ≤ w.c.l.get r'; omega, by show w.up - 1 < w.c.l.get r'; omega, d5⟩
            · show w.c.l.get r ≤ w.up - 1; omega
        · rcases sem.best with x | ⟨b', c1, c2⟩
          · exact Or.inl x
          · exact Or.inr ⟨b', kf c1, c2⟩
        · intro j b hr k hk hn
          refine sem.rlx j b ?_ k hk (fun x => x)
          rcases hr with g | ⟨r, a1, a2, a3, a4, a5, a6⟩
          · exact Or.inl g
          · have a3 : w.up - 1 ≤ w.c.l.get r := a3
            rcases Nat.lt_or_ge (w.c.l.get r) w.up with g | g
            · exfalso
              have := hnew r a1 a2 (by omega)
              rw [this] at a5
              exact hn ⟨a5.symm, by rw [a5]; exact hk.1⟩
            · exact Or.inr ⟨r, a1, a2, g, a4, a5, a6⟩
        · intro r a1 a2 a3
          have a3 : w.up - 1 ≤ w.c.l.get r := a3
          rcases Nat.lt_or_ge (w.c.l.get r) w.up with g | g
          · have := hnew r a1 a2 (by omega)
            rw [this]; exact le_of_lt (not_le.1 hcs)
          · exact sem.finc r a1 a2 g
      · show w.up - 1 ≤ w.c.l.get q0
        rw [hq.2.2.1]
      · show w.dmin = _
        rw [← hdq]; exact hd0
      · show w.dmin ≤ w.csp
        rw [← hdq]; exact le_of_lt (not_le.1 hcs)
    · rintro k w' hk ⟨k1, k2, k3⟩
      refine (relax_runs hA hk k1 k2 (by omega)).mono ?_
      rintro w'' ⟨m1, m2, m3⟩
      exact ⟨m1, m2, m3.trans k3⟩
    · rintro w' ⟨k1, k2, k3⟩
      refine ⟨⟨k1.core, k1.same, k1.lay, k1.sem.skip ?_, k1.jo⟩, fun _ => by show w'.up + 1 = w.up; omega, fun e => by simp at e⟩
      intro j k hk _
      left
      rintro ⟨rfl, g⟩
      have := hk.2; omega

theorem pass_runs {A : Mat R} {ne : Nat} (hA : A.OK ne) {v : Nat → R} {jord : Nat} {c0 : St R} {w : W R}
    (h : Inv A ne v jord c0 (fun _ => False) (fun _ _ => False) w) :
    Runs (pass A w) fun r => Inv A ne v jord c0 (fun _ => False) (fun _ _ => False) r.2 ∧
      (r.1 = true → r.2.up + 1 = w.up) ∧ (r.1 = false → r.2.up = w.up ∧ Stop A r.2) := by
  have core := h.core
  have lay := h.lay
  have l1 := lay.ql
  have l2 := lay.lu
  have l3 := lay.un
  have e5 := core.dsz
  have e6 := core.qsz
  unfold pass
  split
  · rename_i hlu
    split
    · rename_i hz
      simp only [runs_pure]
      refine ⟨h, fun e => by simp at e, fun _ => ⟨by trivial, ?_⟩⟩
      exact lay.rest (fun g => by omega) (fun g => by omega)
    · rename_i hz
      have x := lay.at_ 1 (Or.inl ⟨le_rfl, by omega⟩)
      simp only [runs_bind, runs_rd1]
      refine ⟨by omega, by omega, by omega, by omega, ?_⟩
      have hroot : ∀ p, 1 ≤ p → p ≤ w.qlen → w.c.d.get (w.c.q.get 1) ≤ w.c.d.get (w.c.q.get p) := lay.heap.root
      split
      · rename_i hcs
        simp only [runs_pure]
        refine ⟨h, fun e => by simp at e, fun _ => ⟨by trivial, ?_⟩⟩
        exact lay.rest (fun g => by omega) (fun _ p a b => le_trans hcs (hroot p a b))
      · rename_i hcs
        simp only [runs_bind]
        have inv : Inv A ne v jord c0 (fun _ => False) (fun _ _ => False) { w with dmin := w.c.d.get (w.c.q.get 1) } :=
          ⟨core, h.same, lay.dminTo hlu (lay.hp 1 le_rfl (by omega)) hroot,
            h.sem.move (by exact rfl) (by exact rfl) (by exact rfl) (by exact rfl) (by exact rfl) (by exact rfl) (by exact rfl) (by exact rfl)
              (by exact rfl) (i := w.c.q.get 1) (by rw [x.2.2.1]; omega) (by
                refine ⟨fun r a b => ⟨fun c => Or.inl c, ?_⟩, fun _ _ _ _ => rfl, fun _ _ _ _ => rfl⟩
                rintro (c | c)
                · exact c
                · rw [c]
                  show w.c.l.get (w.c.q.get 1) ≠ 0
                  rw [x.2.2.1]; omega), h.jo⟩
        refine (extract_runs hA w.qlen _ _ inv (by show 1 ≤ w.qlen; omega) le_rfl rfl rfl).mono ?_
        rintro w' ⟨m1, m2, m3⟩
        refine (scanNext_runs hA m1 m3).mono ?_
        rintro r ⟨n1, n2, n3⟩
        have m2 : w'.up = w.up := m2
        exact ⟨n1, fun e => (n2 e).trans m2, fun e => ⟨(n3 e).1.trans m2, (n3 e).2⟩⟩
  · exact scanNext_runs hA h (by omega)

/-- The search ends with final distances of all rows that are nearer than the best path. -/
theorem search_runs {A : Mat R} {ne : Nat} (hA : A.OK ne) {v : Nat → R} {jord : Nat} {c0 : St R} (f : Nat) :
    ∀ w : W R, Inv A ne v jord c0 (fun _ => False) (fun _ _ => False) w → f + (A.n + 1 - w.up) = cnt A.n w.c.iperm →
      Runs (search A f w) fun w' => Inv A ne v jord c0 (fun _ => False) (fun _ _ => False) w' ∧ Stop A w' ∧ A.n + 1 - w'.up ≤ cnt A.n w'.c.iperm := by
  induction f with
  | zero =>
    intro w h hf
    unfold search
    simp only [runs_pure]
    have hl := h.lay.full (by omega)
    refine ⟨h, ?_, by omega⟩
    intro i a b c
    by_cases e : w.c.iperm.get i = 0
    · by_cases e2 : w.c.l.get i = 0
      · rw [h.lay.unl i a b e2 (fun x => x)]; exact le_top
      · exact absurd e (h.fin a b e2).1
    · exact absurd (hl i a b e) c
  | succ f ih =>
    intro w h hf
    unfold search
    simp only [runs_bind]
    refine (pass_runs hA h).mono ?_
    rintro r ⟨r1, r2, r3⟩
    have hi : r.2.c.iperm = w.c.iperm := r1.same.ip.trans h.same.ip.symm
    have l3 := h.lay.un
    split
    · rename_i e
      have := r2 e
      refine ih r.2 r1 (by rw [hi]; omega)
    · rename_i e
      simp only [runs_pure]
      have := r3 (by simpa using e)
      exact ⟨r1, this.2, by rw [hi, this.1]; omega⟩

end Mc64
end Hif
