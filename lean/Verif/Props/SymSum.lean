import Verif.Model.SymSum
import Verif.Props.TriSum2
import Verif.Props.SymConv

/-! Scaling and sums of symmetric and Hermitian matrices (`Model/SymSum`).  Properties C125, C126. -/
namespace TMV
variable {K : Type _}

/-! ### Vocabulary -/

/-- No stored element is shared. -/
def SView.Sep (A B : SView) : Prop := ∀ a, A.Covers a → ¬ B.Covers a

/-- `A` and `C` are kept in the same square array: the same matrix, its transpose, conjugate or adjoint, or the other triangle of the
same array. -/
def SView.SameSquare (A C : SView) : Prop :=
  A.ptr = C.ptr ∧ ((A.si = C.si ∧ A.sj = C.sj) ∨ (A.si = C.sj ∧ A.sj = C.si)) ∧
  ∀ i j i' j' : Nat, i < C.n → j < C.n → i' < C.n → j' < C.n → C.addr i j = C.addr i' j' → i = i' ∧ j = j'

/-- How an operand may share memory with the result. -/
def SView.AliasOK (A C : SView) : Prop := A.Sep C ∨ A.SameSquare C

/-- Multiples keep a symmetric matrix symmetric; only real ones keep a Hermitian matrix Hermitian (the library asserts that). -/
def SView.RealIfHerm [Star K] (M : SView) (x : K) : Prop := M.herm = true → star x = x

theorem SView.upperTri_ptr (M : SView) : (M.upperTri false).ptr = M.ptr := by
  unfold SView.upperTri; split <;> rfl

theorem SView.Sep.upperTri {A C : SView} (h : A.Sep C) : (A.upperTri false).Sep (C.upperTri false) :=
  fun a h1 h2 => h a ((sym_upperTri_covers A a).mp h1) ((sym_upperTri_covers C a).mp h2)

theorem SView.SameSquare.upperTri {A C : SView} (hn : A.n = C.n) (h : A.SameSquare C) : (A.upperTri false).AliasOK (C.upperTri false) := by
  obtain ⟨hp, hst, hI⟩ := h
  have hI' : ∀ i j i' j' : Int, 0 ≤ i → i < C.n → 0 ≤ j → j < C.n → 0 ≤ i' → i' < C.n → 0 ≤ j' → j' < C.n →
      C.ptr + i * C.si + j * C.sj = C.ptr + i' * C.si + j' * C.sj → i = i' ∧ j = j' := by
    intro i j i' j' h1 h2 h3 h4 h5 h6 h7 h8 e
    have := hI i.toNat j.toNat i'.toNat j'.toNat (by omega) (by omega) (by omega) (by omega) (by
      rw [SView.addr, SView.addr, Int.toNat_of_nonneg h1, Int.toNat_of_nonneg h3, Int.toNat_of_nonneg h5, Int.toNat_of_nonneg h7]; exact e)
    omega
  have key : ((A.upperTri false).si = (C.upperTri false).si ∧ (A.upperTri false).sj = (C.upperTri false).sj) ∨
      ((A.upperTri false).si = (C.upperTri false).sj ∧ (A.upperTri false).sj = (C.upperTri false).si) := by
    unfold SView.upperTri
    rcases hst with ⟨h1, h2⟩ | ⟨h1, h2⟩ <;> cases A.upper <;> cases C.upper <;> simp [h1, h2]
  have hp' : (A.upperTri false).ptr = (C.upperTri false).ptr := by rw [SView.upperTri_ptr, SView.upperTri_ptr, hp]
  rcases key with h | h
  · exact Or.inr (Or.inl ⟨hp', h⟩)
  have cross : ∀ i j i' j' : Int, (A.upperTri false).In i j → (C.upperTri false).In i' j' →
      (A.upperTri false).addr i j = (C.upperTri false).addr i' j' → i = j' ∧ j = i' := by
    intro i j i' j' h1 h2 e
    rw [sym_upperTri_in, hn] at h1
    rw [sym_upperTri_in] at h2
    rw [TView.addr, TView.addr, hp', h.1, h.2, SView.upperTri_ptr] at e
    unfold SView.upperTri at e
    cases hu : C.upper <;> rw [hu] at e <;> simp only [Bool.false_eq_true, if_true, if_false] at e
    · have := hI' i j j' i' (by omega) (by omega) (by omega) (by omega) (by omega) (by omega) (by omega) (by omega) (by linarith)
      omega
    · have := hI' j i i' j' (by omega) (by omega) (by omega) (by omega) (by omega) (by omega) (by omega) (by omega) (by linarith)
      omega
  refine Or.inr (Or.inr ⟨hp', fun i j i' j' h1 h2 e => ?_, ?_⟩)
  · have := cross i j i' j' h1 h2 e
    rw [sym_upperTri_in] at h1 h2
    omega
  · rintro a ⟨i, j, h1, e1⟩ ⟨i', j', h2, e2⟩
    rw [tri_offDiag_addr] at e1 e2
    rw [tri_offDiag_in] at h1 h2
    have := cross _ _ _ _ h1.1 h2.1 (e1.symm.trans e2)
    omega

theorem SView.AliasOK.upperTri {A C : SView} (hn : A.n = C.n) (h : A.AliasOK C) : (A.upperTri false).AliasOK (C.upperTri false) :=
  h.elim (fun h => Or.inl h.upperTri) (fun h => h.upperTri hn)

section
variable [CommRing K] [StarRing K] [DecidableEq K]

omit [DecidableEq K] in
/-- A symmetric operation given by its effect on the upper triangle. -/
theorem sym_of_gets {M : SView} {m m' : Mem K} {y : Nat → Nat → K} (hy : SymOf M.herm M.n y) (h : (M.upperTri false).Gets m m' y) :
    M.Becomes m m' y :=
  sym_becomes_of_tri hy (fun i j hij hj => h.1 i j (sym_tri_in M i j hij hj)) h.2

omit [DecidableEq K] in
theorem SView.Holds.triHas {M : SView} {m : Mem K} {x : Nat → Nat → K} (h : M.Holds m x) (hH : M.HermOK m) : (M.upperTri false).Has m x := by
  intro i j hij
  rw [sym_upperTri_in] at hij
  exact h.tri hH i j (by omega) (by omega)

omit [DecidableEq K] in
theorem SymOf.mul {herm : Bool} {n : Nat} {y : Nat → Nat → K} {x : K} (hx : herm = true → star x = x) (h : SymOf herm n y) :
    SymOf herm n (fun i j => x * y i j) := by
  intro i j hi hj
  have := h i j hi hj
  cases herm
  · simp only [Bool.false_eq_true, if_false] at this ⊢; rw [this]
  · simp only [if_true] at this ⊢; rw [this, star_mul', hx rfl]

omit [DecidableEq K] in
theorem SymOf.add {herm : Bool} {n : Nat} {y z : Nat → Nat → K} (h : SymOf herm n y) (h' : SymOf herm n z) :
    SymOf herm n (fun i j => y i j + z i j) := by
  intro i j hi hj
  have h1 := h i j hi hj
  have h2 := h' i j hi hj
  cases herm
  · simp only [Bool.false_eq_true, if_false] at h1 h2 ⊢; rw [h1, h2]
  · simp only [if_true] at h1 h2 ⊢; rw [h1, h2, star_add]

/-- **C125** (`A *= x`, `A /= x`).  Every element of the matrix is multiplied, for every layout, stored triangle and conjugation; nothing
else changes. -/
theorem sym_mulX_spec (x : K) (A : SView) (hx : A.RealIfHerm x) (hW : A.WF) (m : Mem K) (hH : A.HermOK m) (z : Nat → Nat → K)
    (hz : A.Holds m z) : ∃ m', A.mulX x m = some m' ∧ A.Becomes m m' (fun i j => x * z i j) := by
  obtain ⟨m', e, b⟩ := tri_mulX_has x (A.upperTri false) m z hW.upperTri (fun h => by rw [sym_upperTri_unit] at h; cases h) (hz.triHas hH)
  exact ⟨m', e, sym_of_gets ((sym_holds_symOf hz hH).mul hx) b⟩

/-- **C125** (`B = x*A`).  `B` reads as `x` times what `A` read. -/
theorem sym_assignMulX_spec (x : K) (A B : SView) (hn : A.n = B.n) (hh : A.herm = B.herm) (hx : B.RealIfHerm x) (hA : A.WF) (hB : B.WF)
    (hd : A.AliasOK B) (m : Mem K) (hH : A.HermOK m) (z : Nat → Nat → K) (hz : A.Holds m z) (hlB : B.Live m) :
    ∃ m', SView.assignMulX x A B m = some m' ∧ B.Becomes m m' (fun i j => x * z i j) := by
  unfold SView.assignMulX
  obtain ⟨m1, e1, b1⟩ := sym_assign_spec A B hn hh hA hB m hH z hz hlB
    ((hd.upperTri hn).noClash (by rw [sym_upperTri_n, sym_upperTri_n, hn]) hB.upperTri (sym_upperTri_unit _ _))
  obtain ⟨m2, e2, b2⟩ := sym_mulX_spec x B hx hB m1 b1.2.1 z b1.1
  exact ⟨m2, by rw [e1]; exact e2, b2.1, b2.2.1, b2.2.2.1, fun a ha => by rw [b2.2.2.2 a ha, b1.2.2.2 a ha]⟩

/-- **C125** (`A += x`, `A -= x`).  `x` is added to each diagonal element and to nothing else. -/
theorem sym_addX_spec (x : K) (A : SView) (hx : A.RealIfHerm x) (hW : A.WF) (m : Mem K) (hH : A.HermOK m) (z : Nat → Nat → K)
    (hz : A.Holds m z) : ∃ m', A.addX x m = some m' ∧ A.Becomes m m' (fun i j => if i = j then z i j + x else z i j) := by
  have hds : A.diag.size = A.n := (sym_diag A).1
  have hin : ∀ k : Nat, k < A.n → A.In k k := fun k hk => by
    cases hu : A.upper
    · rw [SView.in_lo hu]; omega
    · rw [SView.in_up hu]; omega
  have hda : ∀ k : Nat, A.diag.addr k = A.addr k k := fun k => by simp only [VView.addr, SView.diag, SView.addr]; ring
  have hdl : A.diag.Live m := fun k hk => by rw [hda]; exact hz.live _ _ (hin k (by omega))
  obtain ⟨m', e, c, fr⟩ := addToAll_spec_partial A.diag x m (Or.inl hW.2.2) hdl (Or.inl hW.2.2)
  have hnc : ∀ i j : Int, A.In i j → i ≠ j → ¬ A.diag.Covers (A.addr i j) := by
    rintro i j h1 hne ⟨k, hk, e'⟩
    rw [hda] at e'
    have := hW.1 _ _ _ _ h1 (hin k (by omega)) e'
    omega
  have hol : A.Holds m' (fun i j => if i = j then z i j + x else z i j) := by
    have off : ∀ i j : Nat, i < A.n → j < A.n → i ≠ j → A.In i j → A.cref m' i j = A.cref m i j := fun i j hi hj hne h => by
      rw [sym_cref_in A m' i j h, sym_cref_in A m i j h, fr _ (hnc i j h (by omega))]
    intro i j hi hj
    dsimp only
    by_cases hij : i = j
    · subst hij
      rw [if_pos rfl]
      have h1 := c i (by omega)
      have h2 : ∀ m : Mem K, A.cref m i i = A.diag.cref m i := fun m => by
        rw [sym_cref_in A m i i (hin i hi), VView.cref, Mem.read, hda]; rfl
      rw [h2, h1, ← h2, hz i i hi hi]; rfl
    · rw [if_neg hij, ← hz i j hi hj]
      by_cases h : A.In i j
      · exact off i j hi hj hij h
      · have h' : A.In j i := by
          cases hu : A.upper
          · rw [SView.in_lo hu] at h ⊢; omega
          · rw [SView.in_up hu] at h ⊢; omega
        rw [sym_symmetric A m' i j (by omega), sym_symmetric A m i j (by omega), off j i hj hi (by omega) h']
  refine ⟨m', e, hol, (sym_hermOK_iff hol).mpr fun hh k hk => ?_, hol.live, fun a ha => fr a ?_⟩
  · rw [if_pos rfl, star_add, (sym_hermOK_iff hz).mp hH hh k hk, hx hh]
  · rintro ⟨k, hk, e'⟩
    exact ha ⟨k, k, hin k (by omega), by rw [e', hda]⟩

/-- **C125** (`B = x*A + y` for scalars `x`, `y`). -/
theorem sym_assignSumX_spec (x y : K) (A B : SView) (hn : A.n = B.n) (hh : A.herm = B.herm) (hx : B.RealIfHerm x) (hy : B.RealIfHerm y)
    (hA : A.WF) (hB : B.WF) (hd : A.AliasOK B) (m : Mem K) (hH : A.HermOK m) (z : Nat → Nat → K) (hz : A.Holds m z) (hlB : B.Live m) :
    ∃ m', SView.assignSumX x A y B m = some m' ∧ B.Becomes m m' (fun i j => x * z i j + if i = j then y else 0) := by
  unfold SView.assignSumX
  obtain ⟨m1, e1, b1⟩ := sym_assignMulX_spec x A B hn hh hx hA hB hd m hH z hz hlB
  obtain ⟨m2, e2, b2⟩ := sym_addX_spec y B hy hB m1 b1.2.1 _ b1.1
  refine ⟨m2, by rw [e1]; exact e2, fun i j hi hj => ?_, b2.2.1, b2.2.2.1, fun a ha => by rw [b2.2.2.2 a ha, b1.2.2.2 a ha]⟩
  rw [b2.1 i j hi hj]
  dsimp only
  split <;> simp

/-- **C125** (`B += x*A`, `B -= x*A`).  The result is the old `B` plus `x` times the old `A`, for every layout, stored triangle and
conjugation, when `A` and `B` share no element or start at the same element (`B += B.transpose()`, ...); nothing else changes. -/
theorem sym_addMM_spec {al : Alloc K} (hal : al.OK) (x : K) (A B : SView) (hn : A.n = B.n) (hh : A.herm = B.herm) (hx : B.RealIfHerm x)
    (hA : A.WF) (hB : B.WF) (hd : A.Sep B ∨ A.ptr = B.ptr) (m : Mem K) (hb : m.Bdd) (hHA : A.HermOK m) (hHB : B.HermOK m)
    (y z : Nat → Nat → K) (hy : A.Holds m y) (hz : B.Holds m z) :
    ∃ m', SView.addMM al x A B m = some m' ∧ B.Becomes m m' (fun i j => z i j + x * y i j) := by
  obtain ⟨m', e, b⟩ := tri_addMM_gets hal x (A.upperTri false) (B.upperTri false) (by rw [sym_upperTri_n, sym_upperTri_n, hn]) hA.upperTri
    hB.upperTri (sym_upperTri_unit _ _) (hd.imp SView.Sep.upperTri fun h => by rw [SView.upperTri_ptr, SView.upperTri_ptr, h]) m hb _ _
    (hy.triH hHA) (hz.triHas hHB)
  have hsy := sym_holds_symOf hy hHA
  rw [hh, hn] at hsy
  refine ⟨m', e, sym_of_gets ((sym_holds_symOf hz hHB).add (hsy.mul hx)) (b.congr fun i j hij => ?_)⟩
  rw [sym_upperTri_in] at hij
  rw [if_pos (by omega)]

/-- **C125** (`C = x*A + y*B`).  The result is computed from the old values for every layout, stored triangle and conjugation, when each
operand shares no element with `C` or is kept in the same square array; nothing else changes. -/
theorem sym_addSS_spec {al : Alloc K} (hal : al.OK) (x y : K) (A B C : SView) (hnA : A.n = C.n) (hnB : B.n = C.n) (hhA : A.herm = C.herm)
    (hhB : B.herm = C.herm) (hx : C.RealIfHerm x) (hy : C.RealIfHerm y) (hWA : A.WF) (hWB : B.WF) (hWC : C.WF) (hdA : A.AliasOK C)
    (hdB : B.AliasOK C) (m : Mem K) (hb : m.Bdd) (hHA : A.HermOK m) (hHB : B.HermOK m) (p q : Nat → Nat → K) (hp : A.Holds m p)
    (hq : B.Holds m q) (hC : C.Live m) :
    ∃ m', SView.addSS al x A y B C m = some m' ∧ C.Becomes m m' (fun i j => x * p i j + y * q i j) := by
  obtain ⟨m', e, b⟩ := tri_addUU_partial hal x y (A.upperTri false) (B.upperTri false) (C.upperTri false)
    (by rw [sym_upperTri_n, sym_upperTri_n, hnA]) (by rw [sym_upperTri_n, sym_upperTri_n, hnB]) hWA.upperTri hWB.upperTri hWC.upperTri
    (sym_upperTri_unit _ _) (hdA.upperTri hnA) (hdB.upperTri hnB) m hb _ _ (hp.triH hHA) (hq.triH hHB) hC.upperTri
    (fun h => by rw [sym_upperTri_unit] at h; cases h)
  have hsp := sym_holds_symOf hp hHA
  have hsq := sym_holds_symOf hq hHB
  rw [hhA, hnA] at hsp
  rw [hhB, hnB] at hsq
  refine ⟨m', e, sym_of_gets ((hsp.mul hx).add (hsq.mul hy)) (b.gets.congr fun i j hij => ?_)⟩
  rw [sym_upperTri_in] at hij
  rw [if_pos (by omega), if_pos (by omega)]

end
end TMV
