import Verif.BinIO
import Verif.Props.Conv

set_option linter.unusedSectionVars false
set_option linter.unusedVariables false

/-!
# C81: matrices written to and read from native binary files
-/

namespace Hif
namespace Bin

/-- The numbers representable in an integer type. -/
def IntTy.InRange (t : IntTy) (z : Int) : Prop :=
  if t.signed then -(2 : Int) ^ (t.bits - 1) ≤ z ∧ z < (2 : Int) ^ (t.bits - 1) else 0 ≤ z ∧ z < (2 : Int) ^ t.bits

/-- `z`, stored as a `ty`, can be read as a `t`: it is representable in both and, if their widths differ, also in the signed type of the width of `ty`. -/
def Fits (ty t : IntTy) (z : Int) : Prop := ty.InRange z ∧ t.InRange z ∧ (ty.wide = t.wide ∨ z < (2 : Int) ^ (ty.bits - 1))

theorem conv_id {t : IntTy} {z : Int} (h : t.InRange z) : t.conv z = z := by
  rcases t with ⟨w, s⟩
  cases w <;> cases s <;> simp [IntTy.InRange, IntTy.conv, IntTy.load, IntTy.store, IntTy.bits] at h ⊢ <;> (try split) <;> omega

theorem store_bits {t u : IntTy} (h : t.wide = u.wide) (z : Int) : t.store z = u.store z := by
  unfold IntTy.store IntTy.bits
  rw [h]

/-- What is read is what was stored. -/
theorem fits_read {ty t : IntTy} {z : Int} (h : Fits ty t z) :
    (if t.wide = ty.wide then t.load (ty.store z) else t.conv (({ wide := ty.wide, signed := true } : IntTy).load (ty.store z))) = z := by
  obtain ⟨h1, h2, h3⟩ := h
  split
  · rename_i hw
    rw [store_bits hw.symm]
    exact conv_id h2
  · rename_i hw
    have h4 : z < (2 : Int) ^ (ty.bits - 1) := h3.resolve_left fun e => hw e.symm
    have h5 : ({ wide := ty.wide, signed := true } : IntTy).InRange z := by
      rcases ty with ⟨w, s⟩
      cases w <;> cases s <;> simp [IntTy.InRange, IntTy.bits] at h1 h4 ⊢ <;> omega
    have e : ty.store z = ({ wide := ty.wide, signed := true } : IntTy).store z := store_bits rfl z
    rw [e]
    have := conv_id h5
    unfold IntTy.conv at this
    rw [this]
    exact conv_id h2

/-- Any numbers below `2^31` can be read with any types. -/
theorem fits_small (ty t : IntTy) {z : Int} (h0 : 0 ≤ z) (h1 : z < 2 ^ 31) : Fits ty t z := by
  rcases ty with ⟨w, s⟩
  rcases t with ⟨w', s'⟩
  cases w <;> cases s <;> cases w' <;> cases s' <;> simp [Fits, IntTy.InRange, IntTy.bits] <;> omega

theorem fits_same {t : IntTy} {z : Int} (h : t.InRange z) : Fits t t z := ⟨h, h, Or.inl rfl⟩

/-- What a reader with type `t` gets for `z` stored as a `ty`. -/
def readVal (ty t : IntTy) (z : Int) : Int :=
  if t.wide = ty.wide then t.load (ty.store z) else t.conv (({ wide := ty.wide, signed := true } : IntTy).load (ty.store z))

theorem readInts_val (ty t : IntTy) (junk : Nat → Int) (b : Buf Int) :
    Runs (readInts t junk b.size { wide := ty.wide, raw := { size := b.size, get := fun k => ty.store (b.get k) } }) fun r =>
      r.size = b.size ∧ ∀ k, k < b.size → r.get k = readVal ty t (b.get k) := by
  unfold readInts fill readVal
  by_cases hw : t.wide = ty.wide
  · rw [if_pos hw, if_neg (by simp), runs_pure]
    refine ⟨rfl, fun k hk => ?_⟩
    simp only [if_pos hk, if_pos hw]
  · rw [if_neg hw, if_neg (by simp), runs_bind, runs_pure, runs_pure]
    refine ⟨rfl, fun k hk => ?_⟩
    simp only [if_pos hk, if_neg hw]

section
variable {F : Fmt → Type}

theorem fromScal_toScal {a b : Fmt} (g : F a → F b) (c : Bool) (v : Buf (Val F c a)) :
    (fromScal c b { size := (toScal c a v).size, get := fun k => g ((toScal c a v).get k) }).size = v.size ∧
      ∀ k, (fromScal c b { size := (toScal c a v).size, get := fun k => g ((toScal c a v).get k) }).get k = mapVal g c (v.get k) := by
  cases c
  · exact ⟨rfl, fun _ => rfl⟩
  · constructor
    · show v.size * 2 / 2 = v.size
      omega
    · intro k
      show ((g (if 2 * k % 2 = 0 then (v.get (2 * k / 2)).1 else (v.get (2 * k / 2)).2), g (if (2 * k + 1) % 2 = 0 then (v.get ((2 * k + 1) / 2)).1 else (v.get ((2 * k + 1) / 2)).2)) : F b × F b) =
        ((g (v.get k).1, g (v.get k).2) : F b × F b)
      rw [if_pos (by omega), if_neg (by omega), show 2 * k / 2 = k by omega, show (2 * k + 1) / 2 = k by omega]

theorem mapVal_id (c : Bool) {a : Fmt} {g : F a → F a} (h : ∀ x, g x = x) (v : Val F c a) : mapVal g c v = v := by
  cases c
  · exact h v
  · show ((g v.1, g v.2) : F a × F a) = v
    rw [h, h]
    rfl

theorem castFmt_self (conv : ∀ a b, F a → F b) (a : Fmt) (x : F a) : castFmt conv a a x = x := by
  unfold castFmt
  rw [dif_pos rfl]

/-- Number of lines in the primary direction. -/
def Mat.psize {t : Ty} (A : Mat F t) : Nat := if t.rowMajor then A.nrows else A.ncols
/-- Number of lines in the other direction. -/
def Mat.ssize {t : Ty} (A : Mat F t) : Nat := if t.rowMajor then A.ncols else A.nrows

theorem writeBin_eq [∀ f, Zero (F f)] {t : Ty} (A : Mat F t) : writeBin A =
    { info := some (infoOf A), indStart := some { wide := t.ip.wide, raw := { size := A.start.size, get := fun k => t.ip.store (A.start.get k) } },
      indices := some { wide := t.ix.wide, raw := { size := A.inds.size, get := fun k => t.ix.store (A.inds.get k) } },
      vals := some { fmt := t.fmt, data := toScal t.cplx t.fmt A.vals } } := rfl

/-- The numbers of a matrix can be read with the given integer types. -/
def IntsFit {t : Ty} (A : Mat F t) (ip ix : IntTy) : Prop :=
  (∀ k, k < A.start.size → Fits t.ip ip (A.start.get k)) ∧ ∀ k, k < A.inds.size → Fits t.ix ix (A.inds.get k)

theorem readArrays_val [∀ f, Zero (F f)] {t : Ty} (A : Mat F t) (conv : ∀ a b, F a → F b) (ip ix : IntTy) (f : Fmt) (junk : Nat → Int) (njunk : Nat → Nat)
    (hs : A.start.size = A.psize + 1) :
    Runs (readArrays conv ip ix t.cplx f junk njunk (some (writeBin A))) fun r =>
      (∀ k, k < 4 → r.info.get k = (infoOf A).get k) ∧ r.start.size = A.start.size ∧ (∀ k, k < A.start.size → r.start.get k = readVal t.ip ip (A.start.get k)) ∧
      r.inds.size = A.inds.size ∧ (∀ k, k < A.inds.size → r.inds.get k = readVal t.ix ix (A.inds.get k)) ∧
      r.vals.size = A.vals.size ∧ ∀ k, r.vals.get k = mapVal (castFmt conv t.fmt f) t.cplx (A.vals.get k) := by
  rw [writeBin_eq]
  unfold readArrays openSet fill
  simp only [runs_bind, runs_pure]
  rw [if_neg (by show ¬ (4 < 4); omega)]
  simp only [runs_pure]
  have hinf : ∀ k, k < 4 → (if k < (infoOf A).size then (infoOf A).get k else njunk k) = (infoOf A).get k := fun k hk => if_pos hk
  rw [hinf 0 (by omega), hinf 1 (by omega), hinf 2 (by omega), hinf 3 (by omega)]
  rw [if_neg (by show ¬ ((t.cplx = false ∧ (if t.cplx then 0 else 1) = 0) ∨ (t.cplx = true ∧ (if t.cplx then 0 else 1) = 1)); cases t.cplx <;> simp)]
  have hn : (if (infoOf A).get 2 ≠ 0 then (infoOf A).get 0 + 1 else (infoOf A).get 1 + 1) = A.start.size := by
    rw [hs]
    show (if (if t.rowMajor then 1 else 0) ≠ 0 then A.nrows + 1 else A.ncols + 1) = A.psize + 1
    unfold Mat.psize
    by_cases hr : t.rowMajor = true
    · simp [hr]
    · simp [hr]
  rw [hn, runs_bind, runs_pure, runs_bind]
  refine (readInts_val t.ip ip junk A.start).mono ?_
  rintro st ⟨s1, s2⟩
  rw [runs_bind, runs_pure, runs_bind]
  refine (readInts_val t.ix ix junk A.inds).mono ?_
  rintro ii ⟨i1, i2⟩
  rw [runs_bind, runs_pure, runs_pure]
  exact ⟨fun k hk => hinf k hk, s1, s2, i1, i2, (fromScal_toScal (castFmt conv t.fmt f) t.cplx A.vals).1, (fromScal_toScal (castFmt conv t.fmt f) t.cplx A.vals).2⟩

theorem readArrays_runs [∀ f, Zero (F f)] {t : Ty} (A : Mat F t) (conv : ∀ a b, F a → F b) (ip ix : IntTy) (f : Fmt) (junk : Nat → Int) (njunk : Nat → Nat)
    (hs : A.start.size = A.psize + 1) (hf : IntsFit A ip ix) :
    Runs (readArrays conv ip ix t.cplx f junk njunk (some (writeBin A))) fun r =>
      (∀ k, k < 4 → r.info.get k = (infoOf A).get k) ∧ r.start.size = A.start.size ∧ (∀ k, k < A.start.size → r.start.get k = A.start.get k) ∧
      r.inds.size = A.inds.size ∧ (∀ k, k < A.inds.size → r.inds.get k = A.inds.get k) ∧
      r.vals.size = A.vals.size ∧ ∀ k, r.vals.get k = mapVal (castFmt conv t.fmt f) t.cplx (A.vals.get k) := by
  refine (readArrays_val A conv ip ix f junk njunk hs).mono ?_
  rintro r ⟨r1, r2, r3, r4, r5, r6, r7⟩
  exact ⟨r1, r2, fun k hk => (r3 k hk).trans (fits_read (hf.1 k hk)), r4, fun k hk => (r5 k hk).trans (fits_read (hf.2 k hk)), r6, r7⟩

end
end Bin

namespace Props
open Bin
variable {F : Fmt → Type} [∀ f, Zero (F f)]

/-- C81: a matrix written to a file and read by a matrix of the same storage order, with any integer types in which the stored numbers are representable and any format of the same kind
(real or complex), yields the same dimensions and the same three arrays, the values converted; the previous contents of the reading object and of fresh memory are irrelevant.  The
returned number is the smaller dimension. -/
theorem C81_roundtrip {t : Ty} (A : Mat F t) (hs : A.start.size = A.psize + 1) (ip ix : IntTy) (f : Fmt) (hf : IntsFit A ip ix)
    [Inhabited (Val F t.cplx f)] (conv : ∀ a b, F a → F b) (junk : Nat → Int) (njunk : Nat → Nat) (B : Mat F { t with ip := ip, ix := ix, fmt := f }) :
    ∃ B' : Mat F { t with ip := ip, ix := ix, fmt := f }, readBin conv junk njunk (some (writeBin A)) B = (B', .ok (min A.nrows A.ncols)) ∧
      B'.nrows = A.nrows ∧ B'.ncols = A.ncols ∧ B'.start.size = A.start.size ∧ (∀ k, k < A.start.size → B'.start.get k = A.start.get k) ∧
      B'.inds.size = A.inds.size ∧ (∀ k, k < A.inds.size → B'.inds.get k = A.inds.get k) ∧
      B'.vals.size = A.vals.size ∧ ∀ k, k < A.vals.size → B'.vals.get k = mapVal (castFmt conv t.fmt f) t.cplx (A.vals.get k) := by
  obtain ⟨r, er, r1, r2, r3, r4, r5, r6, r7⟩ := readArrays_runs A conv ip ix f junk njunk hs hf
  refine ⟨{ nrows := A.nrows, ncols := A.ncols, start := r.start, inds := r.inds, vals := r.vals }, ?_, rfl, rfl, r2, r3, r4, r5, r6, fun k _ => r7 k⟩
  unfold readBin
  rw [er]
  have e0 : r.info.get 0 = A.nrows := r1 0 (by omega)
  have e1 : r.info.get 1 = A.ncols := r1 1 (by omega)
  have e2 : r.info.get 2 = (if t.rowMajor then 1 else 0) := r1 2 (by omega)
  simp only [e0, e1, e2, if_true]

/-- C81: with the same types the arrays are the same. -/
theorem C81_same {t : Ty} (A : Mat F t) (hs : A.start.size = A.psize + 1) (h1 : ∀ k, k < A.start.size → t.ip.InRange (A.start.get k)) (h2 : ∀ k, k < A.inds.size → t.ix.InRange (A.inds.get k))
    [Inhabited (Val F t.cplx t.fmt)] (conv : ∀ a b, F a → F b) (junk : Nat → Int) (njunk : Nat → Nat) :
    ∃ B : Mat F t, fromBin conv junk njunk (some (writeBin A)) = (B, .ok (min A.nrows A.ncols)) ∧
      B.nrows = A.nrows ∧ B.ncols = A.ncols ∧ B.start.toList = A.start.toList ∧ B.inds.toList = A.inds.toList ∧ B.vals.toList = A.vals.toList := by
  obtain ⟨B, e, b1, b2, b3, b4, b5, b6, b7, b8⟩ := C81_roundtrip A hs t.ip t.ix t.fmt ⟨fun k hk => fits_same (h1 k hk), fun k hk => fits_same (h2 k hk)⟩ conv junk njunk
    { nrows := 0, ncols := 0, start := Buf.mk' 0 0, inds := Buf.mk' 0 0, vals := Buf.mk' 0 default }
  have tl : ∀ {α : Type} {x y : Buf α}, x.size = y.size → (∀ k, k < y.size → x.get k = y.get k) → x.toList = y.toList := by
    intro α x y h1 h2
    unfold Buf.toList
    rw [h1]
    exact List.map_congr_left fun k hk => h2 k (List.mem_range.1 hk)
  exact ⟨B, e, b1, b2, tl b3 b4, tl b5 b6, tl b7 fun k hk => (b8 k hk).trans (mapVal_id _ (castFmt_self conv t.fmt) _)⟩

/-- C81, what is missing: a matrix with 64-bit index pointers read by one with 32-bit index pointers is accepted, and every pointer is replaced by its remainder modulo `2^32` (between
`-2^31` and `2^31`). -/
theorem C81_narrow {t : Ty} (A : Mat F t) (hs : A.start.size = A.psize + 1) (hw : t.ip = { wide := true, signed := true }) (h1 : ∀ k, k < A.start.size → t.ip.InRange (A.start.get k))
    (h2 : ∀ k, k < A.inds.size → t.ix.InRange (A.inds.get k)) [Inhabited (Val F t.cplx t.fmt)] (conv : ∀ a b, F a → F b) (junk : Nat → Int) (njunk : Nat → Nat)
    (B : Mat F { t with ip := { wide := false, signed := true } }) :
    ∃ B', readBin conv junk njunk (some (writeBin A)) B = (B', .ok (min A.nrows A.ncols)) ∧ B'.start.size = A.start.size ∧
      ∀ k, k < A.start.size → B'.start.get k = Int.bmod (A.start.get k) (2 ^ 32) := by
  obtain ⟨r, er, r1, r2, r3, r4, r5, r6, r7⟩ := readArrays_val A conv { wide := false, signed := true } t.ix t.fmt junk njunk hs
  refine ⟨{ nrows := A.nrows, ncols := A.ncols, start := r.start, inds := r.inds, vals := r.vals }, ?_, r2, fun k hk => ?_⟩
  · unfold readBin
    rw [er]
    have e0 : r.info.get 0 = A.nrows := r1 0 (by omega)
    have e1 : r.info.get 1 = A.ncols := r1 1 (by omega)
    have e2 : r.info.get 2 = (if t.rowMajor then 1 else 0) := r1 2 (by omega)
    simp only [e0, e1, e2, if_true]
  · show r.start.get k = _
    have hz := h1 k hk
    rw [r3 k hk]
    rw [hw] at hz ⊢
    generalize A.start.get k = z at *
    simp [readVal, IntTy.InRange, IntTy.conv, IntTy.load, IntTy.store, IntTy.bits, Int.bmod] at hz ⊢
    split <;> split <;> (try split) <;> omega

instance valAdd {F : Fmt → Type} [h : ∀ f, AddCommMonoid (F f)] (c : Bool) (f : Fmt) : AddCommMonoid (Val F c f) :=
  match c with
  | false => h f
  | true => (inferInstance : AddCommMonoid (F f × F f))

/-- The stored arrays as compressed storage. -/
def binCS {F : Fmt → Type} {t : Ty} (A : Mat F t) : CS (Val F t.cplx t.fmt) := asCS A.psize A.ssize A.start A.inds A.vals

/-- The entry in row `i` and column `j`. -/
def binEntry {F : Fmt → Type} [∀ f, AddCommMonoid (F f)] {t : Ty} (A : Mat F t) (i j : Nat) : Val F t.cplx t.fmt :=
  if t.rowMajor then (binCS A).crs i j else (binCS A).ccs i j

/-- A valid matrix: no negative numbers, well-formed compressed storage, arrays as long as needed. -/
structure BinValid {F : Fmt → Type} {t : Ty} (A : Mat F t) : Prop where
  start_nonneg : ∀ k, k < A.start.size → 0 ≤ A.start.get k
  inds_nonneg : ∀ k, k < A.inds.size → 0 ≤ A.inds.get k
  wf : (binCS A).WF
  tight : (binCS A).Tight

theorem cs_ext_wf {V : Type} {A B : CS V} (h1 : B.psize = A.psize) (h2 : B.ssize = A.ssize) (h3 : B.start.size = A.start.size) (h4 : ∀ k, k < A.start.size → B.start.get k = A.start.get k)
    (h5 : B.inds.size = A.inds.size) (h6 : ∀ k, k < A.inds.size → B.inds.get k = A.inds.get k) (h7 : B.vals.size = A.vals.size) (hw : A.WF) (ht : A.Tight) : B.WF ∧ B.Tight := by
  have hss := ht.start_size
  have hp : B.start.get B.psize = A.start.get A.psize := by rw [h1]; exact h4 _ (by omega)
  refine ⟨⟨by rw [h1, h3]; exact hw.start_size, by rw [h4 0 (by omega)]; exact hw.start_zero, fun i hi => ?_, by rw [hp, h5]; exact hw.nnz_inds, by rw [hp, h7]; exact hw.nnz_vals,
    fun k hk => ?_⟩, by rw [h1, h3]; exact hss, by rw [hp, h5]; exact ht.inds_size, by rw [hp, h7]; exact ht.vals_size⟩
  · rw [h1] at hi
    rw [h4 i (by omega), h4 (i + 1) (by omega)]
    exact hw.mono i hi
  · rw [hp] at hk
    rw [h6 k (lt_of_lt_of_le hk hw.nnz_inds), h2]
    exact hw.inds_lt k hk

theorem cs_ext_entry {V : Type} [AddCommMonoid V] {A B : CS V} (h4 : ∀ k, k < A.start.size → B.start.get k = A.start.get k) (h6 : ∀ k, k < A.inds.size → B.inds.get k = A.inds.get k)
    (h8 : ∀ k, k < A.vals.size → B.vals.get k = A.vals.get k) (hw : A.WF) {i : Nat} (hi : i < A.psize) (j : Nat) : B.entry i j = A.entry i j := by
  have hss := hw.start_size
  unfold CS.entry
  rw [h4 i (by omega), h4 (i + 1) (by omega)]
  refine Finset.sum_congr rfl fun k hk => ?_
  have hk' := (Finset.mem_Ico.1 hk).2
  have hm : A.start.get (i + 1) ≤ A.start.get A.psize := hw.start_mono (by omega) (le_refl _)
  rw [h6 k (by have := hw.nnz_inds; omega), h8 k (by have := hw.nnz_vals; omega)]

theorem inRange_le {t : IntTy} {y z : Int} (h : t.InRange z) (h0 : 0 ≤ y) (hy : y ≤ z) : t.InRange y := by
  rcases t with ⟨w, s⟩
  cases w <;> cases s <;> simp [IntTy.InRange, IntTy.bits] at h ⊢ <;> omega

/-- C81: reading with the other storage order gives the same matrix. -/
theorem C81_other_order {F : Fmt → Type} [∀ f, AddCommMonoid (F f)] {t : Ty} (A : Mat F t) (hA : BinValid A) (ip ix : IntTy) (hf : IntsFit A ip ix)
    (hnz : ip.InRange A.inds.size) (hps : ix.InRange A.psize)
    [Inhabited (Val F t.cplx t.fmt)] (conv : ∀ a b, F a → F b) (junk : Nat → Int) (njunk : Nat → Nat) (B : Mat F { t with rowMajor := !t.rowMajor, ip := ip, ix := ix }) :
    ∃ B' : Mat F { t with rowMajor := !t.rowMajor, ip := ip, ix := ix }, readBin conv junk njunk (some (writeBin A)) B = (B', .ok (min A.nrows A.ncols)) ∧
      BinValid B' ∧ B'.nrows = A.nrows ∧ B'.ncols = A.ncols ∧ B'.inds.size = A.inds.size ∧
      ∀ i j, i < A.nrows → j < A.ncols → binEntry B' i j = binEntry A i j := by
  have hs : A.start.size = A.psize + 1 := hA.tight.start_size
  obtain ⟨r, er, r1, r2, r3, r4, r5, r6, r7⟩ := readArrays_runs A conv ip ix t.fmt junk njunk hs hf
  have e0 : r.info.get 0 = A.nrows := r1 0 (by omega)
  have e1 : r.info.get 1 = A.ncols := r1 1 (by omega)
  have e2 : r.info.get 2 = (if t.rowMajor then 1 else 0) := r1 2 (by omega)
  have r7' : ∀ k, r.vals.get k = A.vals.get k := fun k => (r7 k).trans (mapVal_id _ (castFmt_self conv t.fmt) _)
  let C : CS (Val F t.cplx t.fmt) := asCS A.psize A.ssize r.start r.inds r.vals
  have hCA : C.WF ∧ C.Tight := cs_ext_wf (A := binCS A) rfl rfl r2 (fun k hk => by show (r.start.get k).toNat = _; rw [r3 k hk]; rfl) r4
    (fun k hk => by show (r.inds.get k).toNat = _; rw [r5 k hk]; rfl) r6 hA.wf hA.tight
  have hCe : ∀ i, i < A.psize → ∀ j, C.entry i j = (binCS A).entry i j := fun i hi j => cs_ext_entry (A := binCS A) (B := C)
    (fun k hk => by show (r.start.get k).toNat = _; rw [r3 k hk]; rfl) (fun k hk => by show (r.inds.get k).toNat = _; rw [r5 k hk]; rfl) (fun k hk => r7' k) hA.wf hi j
  obtain ⟨D, eD, hD⟩ := CS.convert_runs hCA.1 hCA.2
  obtain ⟨hDw, hDt⟩ := hD.wf hCA.1 hCA.2
  have hDn : D.start.get D.psize = A.inds.size := by rw [← hDt.inds_size, hD.inds_size]; exact r4
  have hDp : D.psize = A.ssize := hD.psize
  have hDs : D.ssize = A.psize := hD.ssize
  have ds : ∀ k, k < D.start.size → ip.conv (D.start.get k : Int) = (D.start.get k : Int) := by
    intro k hk
    refine conv_id (inRange_le hnz (by omega) ?_)
    have := hDt.start_size
    have := hDw.start_mono (i := k) (j := D.psize) (by omega) (le_refl _)
    omega
  have di : ∀ k, k < D.inds.size → ix.conv (D.inds.get k : Int) = (D.inds.get k : Int) := by
    intro k hk
    refine conv_id (inRange_le hps (by omega) ?_)
    have := hDw.inds_lt k (by rw [← hDt.inds_size]; exact hk)
    omega
  let B' : Mat F { t with rowMajor := !t.rowMajor, ip := ip, ix := ix } :=
    { nrows := A.nrows, ncols := A.ncols, start := { size := D.start.size, get := fun i => ip.conv (D.start.get i) }, inds := { size := D.inds.size, get := fun i => ix.conv (D.inds.get i) },
      vals := D.vals }
  have hps' : B'.psize = A.ssize := by
    show (if (!t.rowMajor) = true then A.nrows else A.ncols) = if t.rowMajor then A.ncols else A.nrows
    by_cases h : t.rowMajor = true <;> simp [h]
  have hss' : B'.ssize = A.psize := by
    show (if (!t.rowMajor) = true then A.ncols else A.nrows) = if t.rowMajor then A.nrows else A.ncols
    by_cases h : t.rowMajor = true <;> simp [h]
  have b3 : ∀ k, k < D.start.size → (binCS B').start.get k = D.start.get k := fun k hk => by
    show (ip.conv (D.start.get k : Int)).toNat = _
    rw [ds k hk, Int.toNat_natCast]
  have b5 : ∀ k, k < D.inds.size → (binCS B').inds.get k = D.inds.get k := fun k hk => by
    show (ix.conv (D.inds.get k : Int)).toNat = _
    rw [di k hk, Int.toNat_natCast]
  have hB := cs_ext_wf (V := Val F t.cplx t.fmt) (A := D) (B := asCS B'.psize B'.ssize B'.start B'.inds B'.vals) (hps'.trans hDp.symm) (hss'.trans hDs.symm) rfl b3 rfl b5 rfl hDw hDt
  refine ⟨B', ?_, ⟨fun k hk => ?_, fun k hk => ?_, hB.1, hB.2⟩, rfl, rfl, hD.inds_size.trans r4, ?_⟩
  · unfold readBin
    rw [er]
    have hne : ¬ ((if t.rowMajor then 1 else 0) = (if (!t.rowMajor) = true then 1 else 0)) := by
      by_cases h : t.rowMajor = true <;> simp [h]
    have hpp : (if (!t.rowMajor) = true then A.ncols else A.nrows) = A.psize := hss'
    have hqq : (if (!t.rowMajor) = true then A.nrows else A.ncols) = A.ssize := hps'
    have hcv : convertRead ip ix A.psize A.ssize r.start r.inds r.vals = .ok (B'.start, B'.inds, B'.vals) := by
      unfold convertRead
      rw [if_neg]
      · have : (asCS A.psize A.ssize r.start r.inds r.vals).convert = .ok D := eD
        rw [this]
        rfl
      · rintro (⟨k, hk, h⟩ | ⟨k, hk, h⟩)
        · rw [r2] at hk
          rw [r3 k hk] at h
          exact absurd (hA.start_nonneg k hk) (by omega)
        · rw [r4] at hk
          rw [r5 k hk] at h
          exact absurd (hA.inds_nonneg k hk) (by omega)
    simp only [e0, e1, e2, if_neg hne, hpp, hqq, hcv]
    rfl
  · show 0 ≤ ip.conv (D.start.get k : Int)
    rw [ds k hk]; omega
  · show 0 ≤ ix.conv (D.inds.get k : Int)
    rw [di k hk]; omega
  · intro i j hi hj
    let E := binCS B'
    have key : ∀ p q, p < A.psize → q < A.ssize → E.entry q p = (binCS A).entry p q := by
      intro p q hp hq
      have h1 : E.entry q p = D.entry q p := cs_ext_entry b3 b5 (fun k hk => rfl) hDw (by rw [hDp]; exact hq) p
      rw [h1, ← hCe p hp q]
      exact hD.entry hCA.1 hCA.2 hp hq
    unfold binEntry CS.crs CS.ccs
    show (if (!t.rowMajor) = true then E.entry i j else E.entry j i) = if t.rowMajor = true then (binCS A).entry i j else (binCS A).entry j i
    by_cases h : t.rowMajor = true
    · rw [if_neg (by simp [h]), if_pos h]
      exact key i j (by unfold Mat.psize; rw [if_pos h]; exact hi) (by unfold Mat.ssize; rw [if_pos h]; exact hj)
    · rw [if_pos (by simp [h]), if_neg h]
      exact key j i (by unfold Mat.psize; rw [if_neg h]; exact hj) (by unfold Mat.ssize; rw [if_neg h]; exact hi)

/-- C81: a real matrix does not read a complex file, nor a complex matrix a real one; the object is unchanged. -/
theorem C81_mixed {t t' : Ty} (A : Mat F t) (hc : t'.cplx ≠ t.cplx) [Inhabited (Val F t'.cplx t'.fmt)] (conv : ∀ a b, F a → F b) (junk : Nat → Int) (njunk : Nat → Nat) (B : Mat F t') :
    readBin conv junk njunk (some (writeBin A)) B = (B, .error (.hif "cannot mixed real and complex in read_bin")) := by
  have : readArrays conv t'.ip t'.ix t'.cplx t'.fmt junk njunk (some (writeBin A)) = .error (.hif "cannot mixed real and complex in read_bin") := by
    rw [writeBin_eq]
    unfold readArrays openSet fill
    have h3 : (t'.cplx = false ∧ (if t.cplx then 0 else 1) = 0) ∨ (t'.cplx = true ∧ (if t.cplx then 0 else 1) = 1) := by
      revert hc
      cases t.cplx <;> cases t'.cplx <;> simp
    dsimp only [pure, Except.pure, bind, Except.bind]
    rw [if_neg (by show ¬ (4 < 4); omega)]
    dsimp only
    rw [if_pos (show (t'.cplx = false ∧ (if 3 < (infoOf A).size then (infoOf A).get 3 else njunk 3) = 0) ∨ (t'.cplx = true ∧ (if 3 < (infoOf A).size then (infoOf A).get 3 else njunk 3) = 1) from h3)]
    rfl
  unfold readBin
  rw [this]

theorem readInts_err (t : IntTy) (junk : Nat → Int) {n : Nat} {d : Ints} (h : d.raw.size ≤ n) : ∃ r, readInts t junk n d = .ok r := by
  unfold readInts fill
  by_cases hw : t.wide = d.wide
  · rw [if_pos hw, if_neg (by show ¬ (n < d.raw.size); omega)]
    exact ⟨_, rfl⟩
  · rw [if_neg hw, if_neg (by show ¬ (n < d.raw.size); omega)]
    exact ⟨_, rfl⟩

theorem readArrays_incomplete (conv : ∀ a b, F a → F b) (ip ix : IntTy) (c : Bool) (f : Fmt) (junk : Nat → Int) (njunk : Nat → Nat) (h : File F) (hv : h.vals = none)
    (hi : ∀ i, h.info = some i → i.size = 4)
    (hst : ∀ i d, h.info = some i → h.indStart = some d → d.raw.size ≤ if i.get 2 ≠ 0 then i.get 0 + 1 else i.get 1 + 1) :
    ∃ msg, readArrays conv ip ix c f junk njunk (some h) = .error (.hif msg) := by
  unfold readArrays
  rcases h with ⟨inf, st, ii, vv⟩
  simp only at hv hi hst
  subst hv
  cases inf with
  | none => exact ⟨_, rfl⟩
  | some inf =>
    have h4 := hi inf rfl
    dsimp only [openSet, pure, Except.pure, bind, Except.bind, fill]
    rw [if_neg (by omega)]
    dsimp only
    rw [h4]
    simp only [show (3 : Nat) < 4 by omega, show (2 : Nat) < 4 by omega, show (1 : Nat) < 4 by omega, show (0 : Nat) < 4 by omega, if_true]
    split
    · exact ⟨_, rfl⟩
    · cases st with
      | none => exact ⟨_, rfl⟩
      | some d =>
        obtain ⟨r, er⟩ := readInts_err ip junk (hst inf d rfl rfl)
        dsimp only
        rw [er]
        cases ii with
        | none => exact ⟨_, rfl⟩
        | some di =>
          obtain ⟨r2, er2⟩ := readInts_err ix junk (le_refl di.raw.size)
          dsimp only
          rw [er2]
          exact ⟨_, rfl⟩

/-- C81: if writing stopped (exception, full disk) before the value array was created, or if there is no file, reading reports an error and the reading object keeps its contents. -/
theorem C81_interrupted {t t' : Ty} (A : Mat F t) (hs : A.start.size ≤ A.psize + 1) (k : Nat) (hk : k < 7) [Inhabited (Val F t'.cplx t'.fmt)] (conv : ∀ a b, F a → F b) (junk : Nat → Int) (njunk : Nat → Nat)
    (B : Mat F t') :
    (∃ msg, readBin conv junk njunk (some (writeUpTo A k)) B = (B, .error (.hif msg))) ∧ ∃ msg, readBin conv junk njunk none B = (B, .error (.hif msg)) := by
  refine ⟨?_, "HDF5 returned error", rfl⟩
  have key : ∃ msg, readArrays conv t'.ip t'.ix t'.cplx t'.fmt junk njunk (some (writeUpTo A k)) = .error (.hif msg) := by
    have hn : A.start.size ≤ if (infoOf A).get 2 ≠ 0 then (infoOf A).get 0 + 1 else (infoOf A).get 1 + 1 := by
      show A.start.size ≤ if (if t.rowMajor then 1 else 0) ≠ 0 then A.nrows + 1 else A.ncols + 1
      unfold Mat.psize at hs
      by_cases h : t.rowMajor = true
      · simpa [h] using hs
      · simpa [h] using hs
    have hk' : k = 0 ∨ k = 1 ∨ k = 2 ∨ k = 3 ∨ k = 4 ∨ k = 5 ∨ k = 6 := by omega
    rcases hk' with rfl | rfl | rfl | rfl | rfl | rfl | rfl
    · exact readArrays_incomplete conv _ _ _ _ junk njunk _ rfl (fun i h => by cases h) (fun i d h => by cases h)
    · exact readArrays_incomplete conv _ _ _ _ junk njunk _ rfl (fun i h => by cases h; rfl) (fun i d h h' => by cases h')
    · exact readArrays_incomplete conv _ _ _ _ junk njunk _ rfl (fun i h => by cases h; rfl) (fun i d h h' => by cases h')
    · exact readArrays_incomplete conv _ _ _ _ junk njunk _ rfl (fun i h => by cases h; rfl) (fun i d h h' => by cases h; cases h'; exact hn)
    · exact readArrays_incomplete conv _ _ _ _ junk njunk _ rfl (fun i h => by cases h; rfl) (fun i d h h' => by cases h; cases h'; exact hn)
    · exact readArrays_incomplete conv _ _ _ _ junk njunk _ rfl (fun i h => by cases h; rfl) (fun i d h h' => by cases h; cases h'; exact hn)
    · exact readArrays_incomplete conv _ _ _ _ junk njunk _ rfl (fun i h => by cases h; rfl) (fun i d h h' => by cases h; cases h'; exact hn)
  obtain ⟨msg, e⟩ := key
  refine ⟨msg, ?_⟩
  unfold readBin
  rw [e]

/-- The value zero. -/
def zeroVal {F : Fmt → Type} [∀ f, Zero (F f)] (c : Bool) (f : Fmt) : Val F c f :=
  match c with
  | false => (0 : F f)
  | true => ((0, 0) : F f × F f)

theorem toScal_zero (c : Bool) (f : Fmt) (v : Buf (Val F c f)) : toScal c f (Buf.mk' v.size (zeroVal (F := F) c f)) = Buf.mk' (toScal c f v).size (0 : F f) := by
  cases c
  · rfl
  · show (⟨v.size * 2, fun k => if k % 2 = 0 then (0 : F f) else 0⟩ : Buf (F f)) = ⟨v.size * 2, fun _ => 0⟩
    simp

/-- C81, what is missing: if writing stopped after the value array was created but before it was written, reading succeeds and returns the pattern of the matrix with the value zero for
every entry. -/
theorem C81_unwritten_values {t : Ty} (A : Mat F t) (hs : A.start.size = A.psize + 1) (h1 : ∀ k, k < A.start.size → t.ip.InRange (A.start.get k)) (h2 : ∀ k, k < A.inds.size → t.ix.InRange (A.inds.get k))
    [Inhabited (Val F t.cplx t.fmt)] (conv : ∀ a b, F a → F b) (junk : Nat → Int) (njunk : Nat → Nat) :
    ∃ B : Mat F t, fromBin conv junk njunk (some (writeUpTo A 7)) = (B, .ok (min A.nrows A.ncols)) ∧
      B.nrows = A.nrows ∧ B.ncols = A.ncols ∧ B.start.toList = A.start.toList ∧ B.inds.toList = A.inds.toList ∧ B.vals.toList = List.replicate A.vals.size (zeroVal t.cplx t.fmt) := by
  obtain ⟨B, e, b1, b2, b3, b4, b5⟩ := C81_same ({ A with vals := Buf.mk' A.vals.size (zeroVal t.cplx t.fmt) } : Mat F t) hs h1 h2 conv junk njunk
  refine ⟨B, ?_, b1, b2, b3, b4, ?_⟩
  · have : writeUpTo A 7 = writeBin ({ A with vals := Buf.mk' A.vals.size (zeroVal t.cplx t.fmt) } : Mat F t) := by
      rw [writeBin_eq]
      show _ = ({ info := some (infoOf A), indStart := _, indices := _, vals := some { fmt := t.fmt, data := toScal t.cplx t.fmt (Buf.mk' A.vals.size (zeroVal t.cplx t.fmt)) } } : File F)
      rw [toScal_zero]
      rfl
    rw [this]
    exact e
  · rw [b5]
    apply List.ext_get <;> simp [Buf.toList]

namespace ExBin

/-- `CRS<double, int, ptrdiff_t>`, with rationals for the floating-point numbers. -/
abbrev ty : Ty := { rowMajor := true, ip := { wide := true, signed := true }, ix := { wide := false, signed := true }, cplx := false, fmt := .double }
abbrev Q : Fmt → Type := fun _ => ℚ

/-- What a program with the given storage order and integer types reads; fresh memory contains 77. -/
def reads (rm : Bool) (ip ix : IntTy) (f : Option (File Q)) : Nat × Nat × List Int × List Int × List ℚ × Option Nat :=
  have : Inhabited (Val Q false .double) := ⟨(0 : ℚ)⟩
  let r : Mat Q { rowMajor := rm, ip := ip, ix := ix, cplx := false, fmt := .double } × Except Err Nat := fromBin (fun _ _ x => x) (fun _ => 77) (fun _ => 77) f
  (r.1.nrows, r.1.ncols, r.1.start.toList, r.1.inds.toList, r.1.vals.toList, r.2.toOption)

/-- The matrix `[[1,0,2],[0,3,0]]`. -/
def a : Mat Q ty := { nrows := 2, ncols := 3, start := Buf.ofList [0, 2, 3], inds := Buf.ofList [0, 2, 1], vals := (Buf.ofList [1, 2, 3] : Buf ℚ) }

theorem a_start (P : Int → Prop) (h0 : P 0) (h2 : P 2) (h3 : P 3) : ∀ k, k < a.start.size → P (a.start.get k) := by
  intro k hk
  have : k = 0 ∨ k = 1 ∨ k = 2 := by have : k < 3 := hk; omega
  rcases this with rfl | rfl | rfl <;> assumption

theorem a_inds (P : Int → Prop) (h0 : P 0) (h2 : P 2) (h3 : P 1) : ∀ k, k < a.inds.size → P (a.inds.get k) := by
  intro k hk
  have : k = 0 ∨ k = 1 ∨ k = 2 := by have : k < 3 := hk; omega
  rcases this with rfl | rfl | rfl <;> assumption

/-- The hypotheses of the theorems above are met: the matrix is valid, and its numbers fit into all integer types. -/
example : BinValid a ∧ a.start.size = a.psize + 1 ∧ ∀ ip ix, IntsFit a ip ix := by
  refine ⟨⟨a_start _ (by decide) (by decide) (by decide), a_inds _ (by decide) (by decide) (by decide), ⟨by decide, by decide, by decide, by decide, by decide, by decide⟩,
    ⟨by decide, by decide, by decide⟩⟩, by decide, fun ip ix => ⟨?_, ?_⟩⟩
  · exact a_start _ (fits_small _ _ (by decide) (by decide)) (fits_small _ _ (by decide) (by decide)) (fits_small _ _ (by decide) (by decide))
  · exact a_inds _ (fits_small _ _ (by decide) (by decide)) (fits_small _ _ (by decide) (by decide)) (fits_small _ _ (by decide) (by decide))

/-- Reading as CCS with 64-bit indices. -/
example : reads false { wide := true, signed := true } { wide := true, signed := true } (some (writeBin a)) = (2, 3, [0, 1, 2, 3], [0, 1, 0], [1, 3, 2], some 2) := by decide +kernel

/-- A default-constructed matrix, whose pointer array is empty, comes back with an uninitialised pointer. -/
example : reads true ty.ip ty.ix (some (writeBin ({ nrows := 0, ncols := 0, start := Buf.mk' 0 0, inds := Buf.mk' 0 0, vals := (Buf.mk' 0 0 : Buf ℚ) } : Mat Q ty))) =
    (0, 0, [77], [], [], some 0) := by decide +kernel

/-- An index array longer than needed: reading in the other order fails, and leaves the object with new dimensions and old arrays. -/
example : reads false ty.ip ty.ix (some (writeBin { a with inds := Buf.ofList [0, 2, 1, 0] })) = (2, 3, [], [], [], none) := by decide +kernel

/-- An unsigned 32-bit number read as a 64-bit one becomes negative. -/
example : readVal { wide := false, signed := false } { wide := true, signed := true } 2147483648 = -2147483648 := by decide

/-- A pointer `2^31` read as a 32-bit number becomes negative, `2^32 + 5` becomes 5. -/
example : Int.bmod (2 ^ 31) (2 ^ 32) = - 2 ^ 31 ∧ Int.bmod (2 ^ 32 + 5) (2 ^ 32) = 5 := by decide

end ExBin

end Props
end Hif
