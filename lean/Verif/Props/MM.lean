import Verif.MMMat

set_option linter.unusedVariables false
set_option linter.unusedSectionVars false

/-!
# C52: MatrixMarket query and read
-/

namespace Hif.Props
open Hif.MM Hif.Spec.MM
variable {D V : Type} [Inhabited V]

namespace C52

theorem copyOut_runs' {α β : Type} (g : α → β) (src : Buf α) (dst : Buf β) (h : src.size ≤ dst.size) :
    Runs (copyOut g src dst) fun d => d.size = dst.size ∧ (∀ i, i < src.size → d.get i = g (src.get i)) ∧ ∀ i, src.size ≤ i → d.get i = dst.get i := by
  unfold copyOut
  refine forUp_runs' (fun i (d : Buf β) => d.size = dst.size ∧ (∀ k, k < i → d.get k = g (src.get k)) ∧ ∀ k, i ≤ k → d.get k = dst.get k) (Nat.zero_le _)
    ⟨rfl, fun k hk => by omega, fun k _ => rfl⟩ ?_ (fun d h => h)
  rintro i d - hi ⟨d1, d2, d3⟩
  simp only [runs_bind, runs_rd, runs_wr, Buf.set_size, Buf.set_get]
  refine ⟨hi, by omega, d1, fun k hk => ?_, fun k hk => by rw [if_neg (by omega)]; exact d3 k (by omega)⟩
  by_cases e : k = i
  · subst e; rw [if_pos rfl]
  · rw [if_neg e]; exact d2 k (by omega)

theorem copyOut_runs {α β : Type} (g : α → β) (src : Buf α) (dst : Buf β) (h : src.size ≤ dst.size) :
    Runs (copyOut g src dst) fun d => d.size = dst.size ∧ ∀ i, i < src.size → d.get i = g (src.get i) :=
  (copyOut_runs' g src dst h).mono fun _ h => ⟨h.1, h.2.1⟩

theorem copyOut_oob {α β : Type} (g : α → β) (src : Buf α) (dst : Buf β) (h : dst.size < src.size) : copyOut g src dst = .error .oob := by
  unfold copyOut forUp
  have key : ∀ n i (d : Buf β), d.size = dst.size → i ≤ dst.size → i + n = src.size →
      loop (fun i dst => do let x ← src.rd i; dst.wr i (g x)) n i d = .error .oob := by
    intro n
    induction n with
    | zero => intro i d h1 h2 h3; omega
    | succ n ih =>
      intro i d h1 h2 h3
      show ((do let x ← src.rd i; d.wr i (g x)) >>= _) = _
      have e1 : src.rd i = .ok (src.get i) := by unfold Buf.rd; rw [if_pos (by omega)]; rfl
      rw [e1]
      show ((d.wr i (g (src.get i))) >>= _) = _
      unfold Buf.wr
      by_cases hi : i < d.size
      · rw [if_pos hi]
        exact ih (i + 1) (d.set i (g (src.get i))) (by simpa using h1) (by omega) (by omega)
      · rw [if_neg hi]; rfl
  exact key _ 0 dst rfl (Nat.zero_le _) (by omega)

end C52

/-- **C52, query**: for every sparse file the query succeeds and reports the dimensions, the type of the values, and the number of entries listed in the file. -/
theorem C52_query [Neg V] [Star V] {num : Num D V} {f : File V} {text : List Char} (h : Describes num f text) (hr : f.InRange) :
    query (some text) = .ok (.success, some ⟨true, num.real, f.nrows, f.ncols, f.entries.length⟩) := by
  obtain ⟨s, t, dss, e1, e2, -, -⟩ := describes_head h
  unfold query
  simp only [e1, bind, Except.bind, if_true, e2, pure, Except.pure, List.getD_cons_zero, List.getD_cons_succ]
  rw [sizeT_nat hr.rows, sizeT_nat hr.cols, sizeT_nat hr.nnz]

section
variable [AddCommGroup V] [Star V] {num : Num D V} (jk : Junk D V) {f : File V} {text : List Char}

namespace C52

theorem readCRS_runs (h : Describes num f text) (hr : f.InRange) (hd : f.Distinct) (hq : f.kind ≠ .general → f.nrows = f.ncols) (h0 : f.entries ≠ [])
    (hk : f.kind = .general ∨ ∃ e ∈ f.entries, e.row ≠ e.col) :
    Runs (readCRS num jk text) fun A => A.WF ∧ A.Tight ∧ A.Sorted ∧ A.psize = f.nrows ∧ A.ssize = f.ncols ∧ A.inds.size = f.stored ∧
      (∀ i, i < f.nrows → ∀ j, A.entry i j = f.entry i j) ∧
      ∀ i, i < f.nrows → ∀ p, p ∈ A.line i ↔ ∃ x ∈ expand f.kind f.entries, x.1 = (i : Int) ∧ x.2.1 = (p.1 : Int) ∧ x.2.2 = p.2 := by
  unfold readCRS
  rw [runs_bind]
  refine (readSparse_runs jk h hr (Q := fun t => Exact t (expand f.kind f.entries)) fun dss s hf hw =>
    readData_runs jk hf hw (hk.elim Or.inl fun h => Or.inr (Or.inr h))).mono ?_
  rintro t ⟨t1, t2, t3⟩
  rw [t1, t2]
  have hne : expand f.kind f.entries ≠ [] := by
    intro e
    have := expand_length f.kind f.nrows f.ncols f.entries
    rw [e] at this
    have h1 : 0 < f.entries.length := List.length_pos_iff.mpr h0
    unfold File.stored at this
    simp only [List.length_nil] at this
    split at this <;> omega
  refine (coo_runs t3 (fits_expand hr hd hq) hne).mono ?_
  rintro A ⟨a1, a2, a3, a4, a5, a6, a7, a8⟩
  refine ⟨a1, a2, a3, a4, a5, by rw [a6]; exact expand_length f.kind f.nrows f.ncols f.entries, fun i hi j => ?_, a8⟩
  rw [a7 i hi j, expand_entry]

theorem readCCS_runs (h : Describes num f text) (hr : f.InRange) (hd : f.Distinct) (hq : f.kind ≠ .general → f.nrows = f.ncols) (h0 : f.entries ≠ [])
    (hk : f.kind = .general ∨ ∃ e ∈ f.entries, e.row ≠ e.col) :
    Runs (readCCS num jk text) fun A => A.WF ∧ A.Tight ∧ A.Sorted ∧ A.psize = f.ncols ∧ A.ssize = f.nrows ∧ A.inds.size = f.stored ∧
      (∀ j, j < f.ncols → ∀ i, A.entry j i = f.entry i j) ∧
      ∀ j, j < f.ncols → ∀ p, p ∈ A.line j ↔ ∃ x ∈ expand f.kind f.entries, x.2.1 = (j : Int) ∧ x.1 = (p.1 : Int) ∧ x.2.2 = p.2 := by
  unfold readCCS
  rw [runs_bind]
  refine (readSparse_runs jk h hr (Q := fun t => Exact t (expand f.kind f.entries)) fun dss s hf hw =>
    readData_runs jk hf hw (hk.elim Or.inl fun h => Or.inr (Or.inr h))).mono ?_
  rintro t ⟨t1, t2, t3⟩
  rw [t1, t2]
  have hne : expand f.kind f.entries ≠ [] := by
    intro e
    have := expand_length f.kind f.nrows f.ncols f.entries
    rw [e] at this
    have h1 : 0 < f.entries.length := List.length_pos_iff.mpr h0
    unfold File.stored at this
    simp only [List.length_nil] at this
    split at this <;> omega
  refine (coo_runs t3.swap (fits_expand hr hd hq).swap (by simpa using hne)).mono ?_
  rintro A ⟨a1, a2, a3, a4, a5, a6, a7, a8⟩
  refine ⟨a1, a2, a3, a4, a5, by rw [a6, List.length_map]; exact expand_length f.kind f.nrows f.ncols f.entries, fun j hj i => ?_, ?_⟩
  · rw [a7 j hj i, ← expand_entry, List.map_map]
    congr 1
    refine List.map_congr_left fun x _ => ?_
    exact if_congr and_comm rfl rfl
  · intro j hj p
    rw [a8 j hj p]
    constructor
    · rintro ⟨x, hx, e⟩
      obtain ⟨y, hy, rfl⟩ := List.mem_map.mp hx
      exact ⟨y, hy, e⟩
    · rintro ⟨y, hy, e⟩
      exact ⟨swap y, List.mem_map_of_mem hy, e⟩

end C52

/-- **C52, C++ reader, partial** (what is missing: files without entries, see `C15_empty_witness`, and files of a symmetric kind with diagonal
entries only, see `C52_diagonal_only_witness`): reading a file in which no position is repeated gives a valid sorted row-major matrix that is the
one the file describes, symmetric kinds expanded. -/
theorem C52_read_crs_partial (h : Describes num f text) (hr : f.InRange) (hd : f.Distinct) (hq : f.kind ≠ .general → f.nrows = f.ncols)
    (h0 : f.entries ≠ []) (hk : f.kind = .general ∨ ∃ e ∈ f.entries, e.row ≠ e.col) :
    ∃ A, readCRS num jk text = .ok A ∧ A.WF ∧ A.Tight ∧ A.Sorted ∧ A.psize = f.nrows ∧ A.ssize = f.ncols ∧ A.inds.size = f.stored ∧
      ∀ i, i < f.nrows → ∀ j, A.entry i j = f.entry i j := by
  obtain ⟨A, e, h1, h2, h3, h4, h5, h6, h7, -⟩ := C52.readCRS_runs jk h hr hd hq h0 hk
  exact ⟨A, e, h1, h2, h3, h4, h5, h6, h7⟩

/-- **C52, C++ reader, partial**, column-major. -/
theorem C52_read_ccs_partial (h : Describes num f text) (hr : f.InRange) (hd : f.Distinct) (hq : f.kind ≠ .general → f.nrows = f.ncols)
    (h0 : f.entries ≠ []) (hk : f.kind = .general ∨ ∃ e ∈ f.entries, e.row ≠ e.col) :
    ∃ A, readCCS num jk text = .ok A ∧ A.WF ∧ A.Tight ∧ A.Sorted ∧ A.psize = f.ncols ∧ A.ssize = f.nrows ∧ A.inds.size = f.stored ∧
      ∀ j, j < f.ncols → ∀ i, A.entry j i = f.entry i j := by
  obtain ⟨A, e, h1, h2, h3, h4, h5, h6, h7, -⟩ := C52.readCCS_runs jk h hr hd hq h0 hk
  exact ⟨A, e, h1, h2, h3, h4, h5, h6, h7⟩

/-- The caller's arrays hold the compressed matrix `A`. -/
def ArraysHold (arr : Lhf.Arrays V) (A : CS V) : Prop :=
  (∀ i, i ≤ A.psize → arr.indptr.get i = (A.start.get i : Int)) ∧ (∀ k, k < A.start.get A.psize → arr.indices.get k = (A.inds.get k : Int)) ∧
    ∀ k, k < A.start.get A.psize → arr.vals.get k = A.vals.get k

namespace C52

theorem deliver_runs {mat : Lhf.Mat V} {arr : Lhf.Arrays V} {A : CS V} (ht : A.Tight) (hp : A.psize = mat.n) (hs : A.ssize = mat.n)
    (h1 : mat.n + 1 ≤ arr.indptr.size) (h2 : A.inds.size ≤ arr.indices.size) (h3 : A.inds.size ≤ arr.vals.size) :
    ∃ arr', deliver mat arr A = .ok (.status .success { mat with arrays := some arr' }) ∧ ArraysHold arr' A := by
  unfold deliver
  rw [if_neg (by omega)]
  have t1 := ht.start_size
  have t2 := ht.inds_size
  have t3 := ht.vals_size
  obtain ⟨ip, e1, -, i2⟩ := copyOut_runs Int.ofNat A.start arr.indptr (by omega)
  obtain ⟨ix, e2, -, x2⟩ := copyOut_runs Int.ofNat A.inds arr.indices (by omega)
  obtain ⟨vs, e3, -, v2⟩ := copyOut_runs id A.vals arr.vals (by omega)
  rw [e1, e2, e3]
  exact ⟨⟨ip, ix, vs⟩, rfl, fun i hi => i2 i (by omega), fun k hk => x2 k (by omega), fun k hk => v2 k (by omega)⟩

theorem deliver_oob {mat : Lhf.Mat V} {arr : Lhf.Arrays V} {A : CS V} (hp : A.psize = mat.n) (hs : A.ssize = mat.n) (h2 : arr.indices.size < A.inds.size) :
    deliver mat arr A = .error .oob := by
  unfold deliver
  rw [if_neg (by omega)]
  by_cases h : arr.indptr.size < A.start.size
  · rw [copyOut_oob Int.ofNat _ _ h]; rfl
  · obtain ⟨ip, e1, -, i2⟩ := copyOut_runs Int.ofNat A.start arr.indptr (by omega)
    rw [e1, copyOut_oob Int.ofNat _ _ h2]; rfl

end C52

/-- **C52, C interface, partial**: reading a square matrix into arrays that have room for `f.stored` entries succeeds, stays in bounds, and leaves there the
compressed matrix the file describes (row-major or column-major as declared). -/
theorem C52_read_mat_partial (h : Describes num f text) (hr : f.InRange) (hd : f.Distinct) (h0 : f.entries ≠ [])
    (hk : f.kind = .general ∨ ∃ e ∈ f.entries, e.row ≠ e.col) {mat : Lhf.Mat V} {arr : Lhf.Arrays V} (ha : mat.arrays = some arr)
    (hn : f.nrows = mat.n) (hn' : f.ncols = mat.n) (h1 : mat.n + 1 ≤ arr.indptr.size) (h2 : f.stored ≤ arr.indices.size) (h3 : f.stored ≤ arr.vals.size) :
    ∃ arr' A, readMat num jk (some text) mat = .ok (.status .success { mat with arrays := some arr' }) ∧ ArraysHold arr' A ∧ A.WF ∧ A.Sorted ∧
      A.psize = mat.n ∧ A.ssize = mat.n ∧
      ∀ i, i < mat.n → ∀ j, j < mat.n → (if mat.rowMajor then A.entry i j else A.entry j i) = f.entry i j := by
  unfold readMat
  simp only
  cases hm : mat.rowMajor with
  | true =>
    obtain ⟨A, e, a1, a2, a3, a4, a5, a6, a7⟩ := C52_read_crs_partial jk h hr hd (fun _ => by omega) h0 hk
    simp only [if_true, e, ha]
    obtain ⟨arr', e', k⟩ := C52.deliver_runs (mat := mat) (arr := arr) a2 (by omega) (by omega) h1 (by omega) (by omega)
    refine ⟨arr', A, ?_, k, a1, a3, by omega, by omega, fun i hi j hj => a7 i (by omega) j⟩
    rw [e', hm]
  | false =>
    obtain ⟨A, e, a1, a2, a3, a4, a5, a6, a7⟩ := C52_read_ccs_partial jk h hr hd (fun _ => by omega) h0 hk
    simp only [e, ha, Bool.false_eq_true, if_false]
    obtain ⟨arr', e', k⟩ := C52.deliver_runs (mat := mat) (arr := arr) a2 (by omega) (by omega) h1 (by omega) (by omega)
    refine ⟨arr', A, ?_, k, a1, a3, by omega, by omega, fun i hi j hj => a7 j (by omega) i⟩
    rw [e', hm]

/-- **C52, C interface, general files**: arrays allocated with the number the query reports are large enough. -/
theorem C52_query_then_read (h : Describes num f text) (hr : f.InRange) (hd : f.Distinct) (h0 : f.entries ≠ []) (hk : f.kind = .general)
    {info : Info} (hi : query (some text) = .ok (.success, some info)) (hsq : info.nrows = info.ncols) {arr : Lhf.Arrays V}
    (h1 : arr.indptr.size = info.nrows + 1) (h2 : arr.indices.size = info.nnz) (h3 : arr.vals.size = info.nnz) (rowMajor : Bool) :
    ∃ arr' A, readMat num jk (some text) ⟨some arr, info.nrows, rowMajor⟩ = .ok (.status .success ⟨some arr', info.nrows, rowMajor⟩) ∧ ArraysHold arr' A ∧
      A.WF ∧ A.Sorted ∧ A.psize = info.nrows ∧ A.ssize = info.nrows ∧
      ∀ i, i < info.nrows → ∀ j, j < info.nrows → (if rowMajor then A.entry i j else A.entry j i) = f.entry i j := by
  rw [C52_query h hr] at hi
  cases hi
  simp only at hsq h1 h2 h3 ⊢
  have hs : f.stored = f.entries.length := if_pos hk
  exact C52_read_mat_partial jk h hr hd h0 (Or.inl hk) (mat := ⟨some arr, f.nrows, rowMajor⟩) rfl rfl (by simp only; omega) (by simp only; omega) (by omega) (by omega)

/-- **C52 is false for the symmetric kinds**: for every such file with an off-diagonal entry, arrays of the size the query reports are overrun. -/
theorem C52_symmetric_overflow_witness (h : Describes num f text) (hr : f.InRange) (hd : f.Distinct) (hk : f.kind ≠ .general)
    (ho : ∃ e ∈ f.entries, e.row ≠ e.col) {info : Info} (hi : query (some text) = .ok (.success, some info)) (hsq : info.nrows = info.ncols)
    {arr : Lhf.Arrays V} (h2 : arr.indices.size = info.nnz) (rowMajor : Bool) :
    readMat num jk (some text) ⟨some arr, info.nrows, rowMajor⟩ = .error .oob := by
  rw [C52_query h hr] at hi
  cases hi
  simp only at hsq h2 ⊢
  have h0 : f.entries ≠ [] := by
    obtain ⟨e, he, -⟩ := ho
    exact List.ne_nil_of_mem he
  have hs : f.entries.length < f.stored := by
    unfold File.stored
    rw [if_neg hk]
    obtain ⟨e, he, hne⟩ := ho
    have : 0 < (f.entries.filter fun e => e.row ≠ e.col).length := by
      rw [List.length_pos_iff_exists_mem]
      exact ⟨e, List.mem_filter.mpr ⟨he, by simpa using hne⟩⟩
    omega
  unfold readMat
  simp only
  cases rowMajor with
  | true =>
    obtain ⟨A, e, a1, a2, a3, a4, a5, a6, a7⟩ := C52_read_crs_partial jk h hr hd (fun _ => by omega) h0 (Or.inr ho)
    simp only [if_true, e]
    exact C52.deliver_oob a4 (by simp only; omega) (by omega)
  | false =>
    obtain ⟨A, e, a1, a2, a3, a4, a5, a6, a7⟩ := C52_read_ccs_partial jk h hr hd (fun _ => by omega) h0 (Or.inr ho)
    simp only [e, Bool.false_eq_true, if_false]
    exact C52.deliver_oob (by simp only; omega) a5 (by omega)

/-- **C52 is false for a symmetric kind with diagonal entries only**: `read_mm_sparse` hands over arrays twice as long as there are entries; the second half is
uninitialised memory. -/
theorem C52_diagonal_only_witness (h : Describes num f text) (hr : f.InRange) (hk : f.kind ≠ .general) (hdg : ∀ e ∈ f.entries, e.row = e.col) :
    ∃ t, readSparse num jk text = .ok t ∧ t.rows.size = f.entries.length * 2 ∧ t.cols.size = f.entries.length * 2 ∧ t.vals.size = f.entries.length * 2 := by
  obtain ⟨t, e, -, -, h3⟩ := readSparse_runs jk h hr (Q := fun t => t.1.size = f.entries.length * 2 ∧ t.2.1.size = f.entries.length * 2 ∧ t.2.2.size = f.entries.length * 2)
    fun dss s hf hw => readData_diag jk hf hw hk hdg
  exact ⟨t, e, h3⟩

end
end Hif.Props
