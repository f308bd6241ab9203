import Verif.Props.TriOps

/-! C63, C64 for lower triangular matrices. -/
namespace TMV
variable {K : Type _}

/-! The lower views are the transposes of the upper views of the transpose. -/
theorem LView.row3_eq (M : LView) (i j1 j2 : Int) : M.row3 i j1 j2 = M.transpose.col3 i j1 j2 := by
  simp only [LView.row3, TView.col3, LView.transpose, VView.mk.injEq, and_true]; ring
theorem LView.col3_eq (M : LView) (j i1 i2 : Int) : M.col3 j i1 i2 = M.transpose.row3 j i1 i2 := by
  simp only [LView.col3, TView.row3, LView.transpose, VView.mk.injEq, and_true]; ring
theorem LView.diag3_eq (M : LView) (d j1 j2 : Int) : M.diag3 d j1 j2 = M.transpose.diag3 (-d) j1 j2 := by
  simp only [LView.diag3, TView.diag3, LView.transpose, VView.mk.injEq, and_true, true_and]
  constructor <;> ring
theorem LView.diagOff_eq' (M : LView) (d : Int) : M.diagOff d = M.transpose.diagOff (-d) := by
  simp only [LView.diagOff, TView.diagOff, LView.transpose, VView.mk.injEq, and_true]
  refine ⟨by ring, by congr 1; ring, by ring⟩
theorem LView.subVector_eq (M : LView) (i j a b s : Int) :
    M.subVector i j a b s = M.transpose.subVector j i b a s := by
  simp only [LView.subVector, TView.subVector, LView.transpose, VView.mk.injEq, and_true, true_and]
  constructor <;> ring
theorem LView.subMatrix6_eq (M : LView) (i1 i2 j1 j2 a b : Int) :
    M.subMatrix6 i1 i2 j1 j2 a b = (M.transpose.subMatrix6 j1 j2 i1 i2 b a).map MView.transpose := by
  unfold LView.subMatrix6 TView.subMatrix6
  by_cases h : a = 0 ∨ b = 0
  · rw [if_pos h, if_pos (by tauto)]; rfl
  · rw [if_neg h, if_neg (by tauto)]
    simp only [Option.map_some, MView.transpose, LView.transpose, Option.some.injEq, MView.mk.injEq, and_true]
    ring
theorem LView.subTri2_eq (M : LView) (i1 i2 : Int) :
    M.subTri2 i1 i2 = (M.transpose.subTri2 i1 i2).transpose := by
  simp only [LView.subTri2, TView.subTri2, TView.transpose, LView.transpose, LView.mk.injEq, and_true]; ring
theorem LView.subTri3_eq (M : LView) (i1 i2 s : Int) :
    M.subTri3 i1 i2 s = (M.transpose.subTri3 i1 i2 s).map TView.transpose := by
  unfold LView.subTri3 TView.subTri3
  by_cases h : s = 0
  · rw [if_pos h, if_pos h]; rfl
  · rw [if_neg h, if_neg h]
    simp only [Option.map_some, TView.transpose, LView.transpose, Option.some.injEq, LView.mk.injEq, and_true]
    ring
theorem LView.offDiag_eq (M : LView) (d : Int) : M.offDiag d = (M.transpose.offDiag d).transpose := rfl

/-- **C63** `row(i,j1,j2)` of a lower triangular matrix (documented range: `j2-1` is stored in row
`i`). -/
theorem lower_row3 [Star K] [Zero K] [One K] (M : LView) (m : Mem K) (i j1 j2 : Int)
    (h : j1 = j2 ∨ (M.In i (j2 - 1) ∧ j1 ≤ j2 ∧ 0 ≤ j1)) :
    ((M.row3 i j1 j2).size : Int) = j2 - j1 ∧
    ∀ k : Nat, k < (M.row3 i j1 j2).size →
      M.In i (j1 + k) ∧ (M.row3 i j1 j2).addr k = M.addr i (j1 + k) ∧
      (M.row3 i j1 j2).cref m k = M.cref m i (j1 + k) := by
  rw [LView.row3_eq]
  obtain ⟨a, b⟩ := tri_col3 M.transpose m i j1 j2 (by rwa [(lower_transpose (K := K) M m _ _).1])
  refine ⟨a, fun k hk => ?_⟩
  have := b k hk
  rwa [(lower_transpose M m _ _).1, (lower_transpose M m _ _).2.1, (lower_transpose M m _ _).2.2] at this

/-- **C63** `col(j,i1,i2)` of a lower triangular matrix. -/
theorem lower_col3 [Star K] [Zero K] [One K] (M : LView) (m : Mem K) (j i1 i2 : Int)
    (h : i1 = i2 ∨ (M.In i1 j ∧ i1 ≤ i2 ∧ i2 ≤ M.n)) :
    ((M.col3 j i1 i2).size : Int) = i2 - i1 ∧
    ∀ k : Nat, k < (M.col3 j i1 i2).size →
      M.In (i1 + k) j ∧ (M.col3 j i1 i2).addr k = M.addr (i1 + k) j ∧
      (M.col3 j i1 i2).cref m k = M.cref m (i1 + k) j := by
  rw [LView.col3_eq]
  obtain ⟨a, b⟩ := tri_row3 M.transpose m j i1 i2 (by rwa [(lower_transpose (K := K) M m _ _).1])
  refine ⟨a, fun k hk => ?_⟩
  have := b k hk
  rwa [(lower_transpose M m _ _).1, (lower_transpose M m _ _).2.1, (lower_transpose M m _ _).2.2] at this

/-- **C63** `diag(d,j1,j2)` of a lower triangular matrix, `d ≤ 0`. -/
theorem lower_diag3 [Star K] [Zero K] [One K] (M : LView) (m : Mem K)
    (d j1 j2 : Int) (hd : d < 0 ∨ (M.unit = false ∧ d = 0)) (h1 : 0 ≤ j1) (h12 : j1 ≤ j2)
    (h2 : j2 ≤ M.n + d) :
    ((M.diag3 d j1 j2).size : Int) = j2 - j1 ∧
    ∀ k : Nat, k < (M.diag3 d j1 j2).size →
      M.In (-d + j1 + k) (j1 + k) ∧ (M.diag3 d j1 j2).addr k = M.addr (-d + j1 + k) (j1 + k) ∧
      (M.diag3 d j1 j2).cref m k = M.cref m (-d + j1 + k) (j1 + k) := by
  rw [LView.diag3_eq]
  obtain ⟨a, b⟩ := tri_diag3 M.transpose m (-d) j1 j2
    (by rcases hd with h | ⟨h, h'⟩
        · left; omega
        · right; exact ⟨h, by omega⟩) h1 h12 (by simp only [LView.transpose]; omega)
  refine ⟨a, fun k hk => ?_⟩
  have := b k hk
  rwa [(lower_transpose M m _ _).1, (lower_transpose M m _ _).2.1, (lower_transpose M m _ _).2.2] at this

/-- **C63** `subVector` of a lower triangular matrix, for every accepted argument. -/
theorem lower_subVector [Star K] [Zero K] [One K] (M : LView) (m : Mem K) (i j istep jstep : Int) (s : Nat)
    (h : M.hasSubVector i j istep jstep s = true) (k : Nat) (hk : k < s) :
    M.In (i + k * istep) (j + k * jstep) ∧
    (M.subVector i j istep jstep s).addr k = M.addr (i + k * istep) (j + k * jstep) ∧
    (M.subVector i j istep jstep s).cref m k = M.cref m (i + k * istep) (j + k * jstep) := by
  rw [LView.subVector_eq]
  have := tri_subVector M.transpose m j i jstep istep s h k hk
  rwa [(lower_transpose M m _ _).1, (lower_transpose M m _ _).2.1, (lower_transpose M m _ _).2.2] at this

/-- **C63** `subMatrix` of a lower triangular matrix, for every accepted argument. -/
theorem lower_subMatrix6 [Star K] [Zero K] [One K] (M : LView) (m : Mem K) (i1 i2 j1 j2 istep jstep : Int)
    (V : MView) (hV : M.subMatrix6 i1 i2 j1 j2 istep jstep = some V)
    (h : M.hasSubMatrix i1 i2 j1 j2 istep jstep = some true) (i j : Nat) (hi : i < V.cs)
    (hj : j < V.rs) :
    M.In (i1 + i * istep) (j1 + j * jstep) ∧
    V.addr i j = M.addr (i1 + i * istep) (j1 + j * jstep) ∧
    V.cref m i j = M.cref m (i1 + i * istep) (j1 + j * jstep) := by
  rw [LView.subMatrix6_eq] at hV
  obtain ⟨W, hW, rfl⟩ := Option.map_eq_some_iff.mp hV
  have := tri_subMatrix6 M.transpose m j1 j2 i1 i2 jstep istep W hW h j i hj hi
  rw [(lower_transpose M m _ _).1, (lower_transpose M m _ _).2.1, (lower_transpose M m _ _).2.2] at this
  have ea : W.transpose.addr i j = W.addr j i := by
    simp only [MView.transpose, MView.addr]; ring
  refine ⟨this.1, by rw [ea]; exact this.2.1, ?_⟩
  rw [← this.2.2]
  unfold MView.cref
  rw [ea]; rfl

/-- **C63** `subTriMatrix(i1,i2)` of a lower triangular matrix. -/
theorem lower_subTri2 [Star K] [Zero K] [One K] (M : LView) (m : Mem K) (i1 i2 : Int) (h1 : 0 ≤ i1)
    (h2 : i2 ≤ M.n) (i j : Int) :
    ((M.subTri2 i1 i2).In i j → M.In (i1 + i) (i1 + j)) ∧
    (M.subTri2 i1 i2).addr i j = M.addr (i1 + i) (i1 + j) ∧
    (M.subTri2 i1 i2).cref m i j = M.cref m (i1 + i) (i1 + j) := by
  rw [LView.subTri2_eq, (tri_transpose _ m i j).1, (tri_transpose _ m i j).2.1, (tri_transpose _ m i j).2.2]
  have := tri_subTri2 M.transpose m i1 i2 h1 h2 j i
  rwa [(lower_transpose M m _ _).1, (lower_transpose M m _ _).2.1, (lower_transpose M m _ _).2.2] at this

/-- **C63** `subTriMatrix(i1,i2,istep)` of a lower triangular matrix (partial: positive step, as for
the upper one). -/
theorem lower_subTri3_partial [Star K] [Zero K] [One K] (M : LView) (m : Mem K) (i1 i2 istep : Int)
    (hs : 0 < istep) (V : LView) (hV : M.subTri3 i1 i2 istep = some V)
    (h : M.hasSubTri i1 i2 istep = some true) (i j : Int) :
    (V.In i j → M.In (i1 + i * istep) (i1 + j * istep)) ∧
    V.addr i j = M.addr (i1 + i * istep) (i1 + j * istep) ∧
    V.cref m i j = M.cref m (i1 + i * istep) (i1 + j * istep) := by
  rw [LView.subTri3_eq] at hV
  obtain ⟨W, hW, rfl⟩ := Option.map_eq_some_iff.mp hV
  rw [(tri_transpose _ m i j).1, (tri_transpose _ m i j).2.1, (tri_transpose _ m i j).2.2]
  have := tri_subTri3_partial M.transpose m i1 i2 istep hs W hW h j i
  rwa [(lower_transpose M m _ _).1, (lower_transpose M m _ _).2.1, (lower_transpose M m _ _).2.2] at this

/-- **C63** `offDiag(noff)` of a lower triangular matrix. -/
theorem lower_offDiag [Star K] [Zero K] [One K] (M : LView) (m : Mem K) (d : Int)
    (hd : 0 < d ∨ (M.unit = false ∧ d = 0)) (i j : Int) :
    ((M.offDiag d).In i j ↔ M.In (i + d) j ∧ j + d ≤ i + d ∧ 0 ≤ i ∧ 0 ≤ j) ∧
    (M.offDiag d).addr i j = M.addr (i + d) j ∧
    (j ≤ i → (M.offDiag d).cref m i j = M.cref m (i + d) j) := by
  rw [LView.offDiag_eq, (tri_transpose _ m i j).1, (tri_transpose _ m i j).2.1, (tri_transpose _ m i j).2.2]
  have := tri_offDiag M.transpose m d hd j i
  rwa [(lower_transpose M m _ _).1, (lower_transpose M m _ _).2.1, (lower_transpose M m _ _).2.2] at this

/-- **C63** `viewAsUnitDiag()` of a lower triangular matrix. -/
theorem lower_viewAsUnitDiag [Star K] [Zero K] [One K] (M : LView) (m : Mem K) (i j : Int) :
    M.viewAsUnitDiag.cref m i j = if i = j then some 1 else M.cref m i j := by
  have : M.viewAsUnitDiag = M.transpose.viewAsUnitDiag.transpose := rfl
  rw [this, (tri_transpose _ m i j).2.2, tri_viewAsUnitDiag, (lower_transpose M m _ _).2.2]
  simp only [eq_comm]

/-- **C63** `conjugate()` and `adjoint()` of a lower triangular matrix. -/
theorem lower_conjugate [CommRing K] [StarRing K] (M : LView) (m : Mem K) (i j : Int) :
    M.conjugate.addr i j = M.addr i j ∧ M.conjugate.cref m i j = (M.cref m i j).map star ∧
    M.adjoint.cref m i j = (M.cref m j i).map star := by
  refine ⟨rfl, ?_, ?_⟩
  · have : M.conjugate = M.transpose.conjugate.transpose := rfl
    rw [this, (tri_transpose _ m i j).2.2, (tri_conjugate _ m _ _).2, (lower_transpose M m _ _).2.2]
  · have : M.adjoint = M.transpose.conjugate := rfl
    rw [this, (tri_conjugate _ m _ _).2, (lower_transpose M m _ _).2.2]

/-- **C39/C63**: writing a stored element of a lower triangular matrix changes that element and nothing
else. -/
theorem lower_write [InvolutiveStar K] [Zero K] [One K] (M : LView) (hW : M.Inj) (m : Mem K)
    (hl : M.Live m) (i j : Int) (h : M.In i j) (x : K) :
    ∃ m', M.setRef i j x m = some m' ∧ M.cref m' i j = some x ∧
      (∀ i' j' : Int, 0 ≤ i' → i' < M.n → 0 ≤ j' → j' < M.n → (i', j') ≠ (i, j) →
        M.cref m' i' j' = M.cref m i' j') ∧
      (∀ a, a ≠ M.addr i j → m' a = m a) := by
  have hI : M.transpose.Inj := by
    intro a b a' b' h1 h2 e
    rw [(lower_transpose (K := K) M m a b).1] at h1
    rw [(lower_transpose (K := K) M m a' b').1] at h2
    rw [(lower_transpose (K := K) M m a b).2.1, (lower_transpose (K := K) M m a' b').2.1] at e
    have := hW _ _ _ _ h1 h2 e
    tauto
  obtain ⟨m', e, h1, h2, h3⟩ := tri_write M.transpose hI m hl.transpose j i
    ((lower_transpose (K := K) M m j i).1.mpr h) x
  refine ⟨m', ?_, ?_, ?_, ?_⟩
  · rw [← e]
    have ea := (lower_transpose (K := K) M m j i).2.1
    unfold LView.setRef TView.setRef
    rw [ea]
    simp only [LView.transpose, eq_comm]
  · rw [← h1, (lower_transpose M m' _ _).2.2]
  · intro i' j' a1 a2 a3 a4 hne
    have := h2 j' i' a3 a4 a1 a2 (by simpa [Prod.ext_iff, and_comm] using hne)
    rwa [(lower_transpose M m' _ _).2.2, (lower_transpose M m _ _).2.2] at this
  · intro a ha
    exact h3 a (by rwa [(lower_transpose (K := K) M m j i).2.1])

/-- **C64** assignment of a lower triangular matrix to a full matrix: every element, zeros and implicit
ones included. -/
theorem lower_assignToM_spec [CommRing K] [StarRing K] (A : LView) (B : MView) (hcs : B.cs = A.n)
    (hrs : B.rs = A.n) (hA : A.WF) (hB : B.Inj) (hS : B.cs = 0 ∨ (B.si ≠ 0 ∧ B.sj ≠ 0))
    (hS2 : B.si + B.sj ≠ 0) (hc : A.transpose.NoClash (B.transpose.upperTri A.unit)) (m : Mem K)
    (hlA : A.Live m) (hlB : B.Live m) :
    ∃ m', A.assignToM B m = some m' ∧
      (∀ i j : Nat, i < A.n → j < A.n → B.cref m' i j = A.cref m i j) ∧
      (∀ a, ¬ B.Covers a → m' a = m a) := by
  have eb : ∀ i j : Int, B.transpose.addr i j = B.addr j i := by
    intro i j; simp only [MView.transpose, MView.addr]; ring
  obtain ⟨m', e, h1, h2⟩ := tri_assignToM_spec A.transpose B.transpose hrs hcs hA.transpose
    (by
      intro i j i' j' a1 a2 a3 a4 e
      rw [eb, eb] at e
      have := hB j i j' i' a2 a1 a4 a3 e
      tauto)
    (by
      have : B.transpose.cs = B.rs := rfl
      rcases hS with h | h
      · left; rw [this, hrs, ← hcs, h]
      · right; exact ⟨h.2, h.1⟩)
    (by simp only [MView.transpose]; omega) hc m hlA.transpose
    (by intro i j a b; rw [eb]; exact hlB j i b a)
  refine ⟨m', e, ?_, ?_⟩
  · intro i j hi hj
    have := h1 j i hj hi
    rw [(lower_transpose A m _ _).2.2] at this
    rw [← this]
    unfold MView.cref
    rw [eb]; rfl
  · intro a ha
    refine h2 a ?_
    rintro ⟨i, j, hi, hj, ea⟩
    exact ha ⟨j, i, hj, hi, by rw [ea, eb]⟩

/-- Example: a 4x4 unit lower triangular matrix; rows 1,3 by columns 0 only; column 1 below the diagonal; the
elements (3,2), (2,1), (1,0). -/
example : let M := (TView.ofStor 0 4 true true).transpose
    M.WF ∧ M.In 3 2 ∧ M.hasSubMatrix 1 5 0 1 2 1 = some true ∧ M.hasSubVector 3 2 (-1) (-1) 3 = true ∧
    M.hasSubTri 0 4 2 = some true := by
  refine ⟨?_, by decide, by decide, by decide, by decide⟩
  have h := (tri_storage 0 4 true true).2
  refine ⟨?_, by right; decide, by decide⟩
  intro a b a' b' h1 h2 e
  have t := fun a b => tri_transpose (K := Int) (TView.ofStor 0 4 true true) (fun _ => none) a b
  rw [(t a b).1] at h1
  rw [(t a' b').1] at h2
  rw [(t a b).2.1, (t a' b').2.1] at e
  have := h.1 _ _ _ _ h1 h2 e
  tauto

end TMV
