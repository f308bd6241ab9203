import Verif.Props.SymSum

/-! Multiples and sums of symmetric and Hermitian matrices put into full matrices (`Model/SymSum`).  Property C126. -/
namespace TMV
variable {K : Type _}

/-! ### Vocabulary -/

/-- `A` and the full matrix `C` share no element. -/
def SView.SepM (A : SView) (C : MView) : Prop := ∀ a, A.Covers a → ¬ C.Covers a

/-- The stored elements of `A` are the elements of the upper triangle of `C`: `A` is made of `C`, or is the transpose, conjugate or adjoint
of such a matrix. -/
def SView.InUpper (A : SView) (C : MView) : Prop :=
  A.ptr = C.ptr ∧ if A.upper then A.si = C.si ∧ A.sj = C.sj else A.si = C.sj ∧ A.sj = C.si

/-- The stored elements of `A` are the elements of the lower triangle of `C`. -/
def SView.InLower (A : SView) (C : MView) : Prop :=
  A.ptr = C.ptr ∧ if A.upper then A.si = C.sj ∧ A.sj = C.si else A.si = C.si ∧ A.sj = C.sj

/-- The upper triangle of `A` is read from memory with conjugation (`A` is conjugated, or `A` is Hermitian and its lower triangle is the
stored one, but not both). -/
def SView.conjUp (A : SView) : Bool := if A.upper then A.conj else A.oct

/-- How an operand `A` may share memory with a full result `C`: not at all; as the lower triangle of `C`; or as the upper triangle of `C`
without conjugation. -/
def SView.AliasM (A : SView) (C : MView) : Prop := A.SepM C ∨ A.InLower C ∨ (A.InUpper C ∧ A.conjUp = C.conj)

theorem SView.conjUp_eq (A : SView) : (A.upperTri false).conj = A.conjUp := by
  unfold SView.upperTri SView.conjUp; split <;> rfl

theorem SView.InUpper.tri {A : SView} {C : MView} (h : A.InUpper C) (i j : Int) : (A.upperTri false).addr i j = C.addr i j := by
  obtain ⟨h1, h2⟩ := h
  rw [TView.addr, MView.addr]
  unfold SView.upperTri
  cases hu : A.upper <;> rw [hu] at h2 <;> simp only [Bool.false_eq_true, if_true, if_false] at h2 ⊢ <;> rw [h1, h2.1, h2.2]

theorem SView.InLower.tri {A : SView} {C : MView} (h : A.InLower C) (i j : Int) : (A.upperTri false).addr i j = C.addr j i := by
  obtain ⟨h1, h2⟩ := h
  rw [TView.addr, MView.addr]
  unfold SView.upperTri
  cases hu : A.upper <;> rw [hu] at h2 <;> simp only [Bool.false_eq_true, if_true, if_false] at h2 ⊢ <;> rw [h1, h2.1, h2.2] <;> ring

theorem lowerT_sym (A : SView) : ((A.lowerTri false).offDiag 1).transpose = (A.transpose.upperTri false).offDiag 1 := by
  unfold SView.lowerTri SView.upperTri SView.transpose SView.oct
  cases A.upper <;> simp [LView.offDiag, LView.transpose, TView.offDiag]

theorem lowerT_mat (C : MView) {n : Nat} (hs : C.Square n) : ((C.lowerTri false).offDiag 1).transpose = (C.transpose.upperTri false).offDiag 1 := by
  have := hs.cs
  have := hs.rs
  simp [MView.lowerTri, MView.upperTri, MView.transpose, LView.offDiag, LView.transpose, TView.offDiag]
  try omega

set_option linter.unusedSectionVars false
section
variable [CommRing K] [StarRing K] [DecidableEq K]

/-- An operation on the part of a full matrix above the diagonal. -/
theorem off_gets {C : MView} {n : Nat} (hs : C.Square n) {m m' : Mem K} {z w : Nat → Nat → K} (hz : C.Holds m z)
    (h : ((C.upperTri false).offDiag 1).Gets m m' (fun i j => w i (j+1))) : C.Becomes m m' (fun i j => if i < j then w i j else z i j) := by
  have hc := hs.cs
  have hr := hs.rs
  have cov : ∀ a, ((C.upperTri false).offDiag 1).Covers a → C.Covers a := fun a ha => upper_covers hs (offDiag_covers ha)
  refine ⟨fun i j hi hj => ?_, fun a ha => h.2 a fun hc => ha (cov a hc)⟩
  dsimp only
  split
  · rename_i hij
    have hin : ((C.upperTri false).offDiag 1).In i ((j - 1 : Nat) : Int) := by
      rw [tri_offDiag_in, upper_in hs.rs]; omega
    have h1 := h.1 i (j-1) hin
    have h2 := (tri_offDiag_in _ _ _).mp hin
    rw [tri_cref_in _ _ _ _ hin, tri_offDiag_addr, show (((j - 1 : Nat) : Int) + 1) = j by omega] at h1
    dsimp only at h1
    rw [show j - 1 + 1 = j by omega] at h1
    exact h1
  · rename_i hij
    rw [← hz i j hi hj, MView.cref, MView.cref, Mem.read, Mem.read, h.2]
    rintro ⟨i', j', hij', e⟩
    rw [tri_offDiag_addr] at e
    have h1 := (tri_offDiag_in _ _ _).mp hij'
    have h2 := (upper_in hs.rs _ _).mp h1.1
    have := hs.wf.1 i j i'.toNat (j'+1).toNat hi hj (by omega) (by omega) (by
      rw [Int.toNat_of_nonneg (by omega), Int.toNat_of_nonneg (by omega)]; exact e)
    omega

/-- The same below the diagonal. -/
theorem below_gets {C : MView} {n : Nat} (hs : C.Square n) {m m' : Mem K} {z w : Nat → Nat → K} (hz : C.Holds m z)
    (h : ((C.transpose.upperTri false).offDiag 1).Gets m m' (fun i j => w (j+1) i)) :
    C.Becomes m m' (fun i j => if j < i then w i j else z i j) :=
  MView.Becomes.of_transpose (off_gets hs.transpose hz.transpose (w := fun i j => w j i) h)

theorem off_has {C : MView} {n : Nat} (hs : C.Square n) {m : Mem K} {z : Nat → Nat → K} (hz : C.Holds m z) :
    ((C.transpose.upperTri false).offDiag 1).Has m (fun i j => z (j+1) i) :=
  (upper_has hs.transpose hz.transpose).offDiag

theorem SView.Holds.transpose {A : SView} {m : Mem K} {z : Nat → Nat → K} (h : A.Holds m z) : A.transpose.Holds m (fun i j => z j i) := by
  intro i j hi hj
  rw [(sym_transpose A m i j).2.2]; exact h j i hj hi

/-- The part of a symmetric matrix below the diagonal, transposed. -/
theorem sym_below {A : SView} {m : Mem K} {z : Nat → Nat → K} (h : A.Holds m z) (hH : A.HermOK m) :
    ((A.transpose.upperTri false).offDiag 1).Has m (fun i j => z (j+1) i) :=
  (h.transpose.triHas hH.transpose).offDiag

theorem SView.Holds.frame {A : SView} {m m' : Mem K} {z : Nat → Nat → K} (h : A.Holds m z) (e : ∀ a, A.Covers a → m' a = m a) :
    A.Holds m' z := by
  intro i j hi hj
  rw [← h i j hi hj]
  have key : ∀ i j : Nat, A.In i j → A.cref m' i j = A.cref m i j := fun i j h => by
    rw [sym_cref_in A m' i j h, sym_cref_in A m i j h, e _ ⟨_, _, h, rfl⟩]
  by_cases hin : A.In i j
  · exact key i j hin
  · have h' : A.In j i := by
      cases hu : A.upper
      · rw [SView.in_lo hu] at hin ⊢; omega
      · rw [SView.in_up hu] at hin ⊢; omega
    have hne : i ≠ j := fun h => hin (by subst h; exact h')
    rw [sym_symmetric A m' i j (by omega), sym_symmetric A m i j (by omega), key j i h']

theorem SView.HermOK.frame {A : SView} {m m' : Mem K} (h : A.HermOK m) (e : ∀ a, A.Covers a → m' a = m a) : A.HermOK m' := by
  intro hh k x hk hx
  rw [e] at hx
  · exact h hh k x hk hx
  · refine ⟨k, k, ?_, rfl⟩
    cases hu : A.upper
    · rw [SView.in_lo hu]; omega
    · rw [SView.in_up hu]; omega

theorem off_noClash {A B : TView} (h : A.NoClash B) : (A.offDiag 1).NoClash (B.offDiag 1) := by
  intro i j i' j' h1 h2 e
  rw [tri_offDiag_addr, tri_offDiag_addr] at e
  have := h _ _ _ _ ((tri_offDiag_in A _ _).mp h1).1 ((tri_offDiag_in B _ _).mp h2).1 e
  omega

/-- The two assignments of triangles in `C = x*A`; the first may change what `A` reads, to `q`. -/
theorem sym_halves (A : SView) (C : MView) (hs : C.Square A.n) (hW : A.WF) (hu : (A.upperTri false).NoClash (C.upperTri false))
    (hl : (A.transpose.upperTri false).NoClash (C.transpose.upperTri false)) (m : Mem K) (hH : A.HermOK m) (p q : Nat → Nat → K)
    (hA : A.Holds m p) (hC : C.Live m)
    (hq : ∀ m1, (C.upperTri false).Gets m m1 p → ((A.transpose.upperTri false).offDiag 1).Has m1 (fun i j => q (j+1) i)) (x : K) :
    ∃ m', SView.assignMulXToM x A C m = some m' ∧ C.Becomes m m' (fun i j => x * if j < i then q i j else p i j) := by
  have hcs := hs.cs
  have hrs := hs.rs
  unfold SView.assignMulXToM
  obtain ⟨c, hc⟩ := hC.holds
  obtain ⟨m1, e1, v1, f1⟩ := tri_assign_spec (A.upperTri false) (C.upperTri false) (by rw [sym_upperTri_n]; exact hrs.symm) hW.upperTri
    (upper_wf hs) (fun h => by cases h) hu m hA.live.upperTri (upper_live hs hC)
  have g1 : (C.upperTri false).Gets m m1 p := ⟨fun i j hij => by
    rw [v1 i j hij.1 hij.2.1 hij.2.2.1 hij.2.2.2.1]
    have h := (upper_in hrs i j).mp hij
    exact hA.tri hH i j (by omega) (by omega), f1⟩
  have b1 := upper_gets hs hc g1
  have hq1 := hq m1 g1
  rw [e1, Option.bind_some]
  have st2 : ∃ m2, (if A.n > 0 then ((A.lowerTri false).offDiag 1).transpose.assignToU ((C.lowerTri false).offDiag 1).transpose m1
      else some m1) = some m2 ∧ C.Becomes m1 m2 (fun i j => if j < i then q i j else p i j) := by
    by_cases h0 : A.n > 0
    · rw [if_pos h0, lowerT_sym, lowerT_mat C hs]
      have hlC : ((C.transpose.upperTri false).offDiag 1).Live m1 := (off_has hs b1.1).live
      obtain ⟨m2, e2, v2, f2⟩ := tri_assign_spec ((A.transpose.upperTri false).offDiag 1) ((C.transpose.upperTri false).offDiag 1)
        (by simp only [TView.offDiag, sym_upperTri_n]; rw [show (C.transpose.upperTri false).n = A.n from hcs]; rfl)
        (tri_offDiag_wf hW.transpose.upperTri) (tri_offDiag_wf (upper_wf hs.transpose)) (fun h => by cases h) (off_noClash hl) m1 hq1.live hlC
      have nn : ((A.transpose.upperTri false).offDiag 1).n = ((C.transpose.upperTri false).offDiag 1).n := by
        simp only [TView.offDiag, sym_upperTri_n]; rw [show (C.transpose.upperTri false).n = A.n from hcs]; rfl
      have g2 : ((C.transpose.upperTri false).offDiag 1).Gets m1 m2 (fun i j => q (j+1) i) := ⟨fun i j hij => by
        rw [v2 i j hij.1 hij.2.1 hij.2.2.1 hij.2.2.2.1]
        refine hq1 i j ?_
        refine ⟨hij.1, by rw [nn]; exact hij.2.1, hij.2.2.1, by rw [nn]; exact hij.2.2.2.1, ?_⟩
        rcases hij.2.2.2.2 with h | h
        · exact Or.inl h
        · exact Or.inr ⟨rfl, h.2⟩, f2⟩
      refine ⟨m2, e2, (below_gets hs b1.1 g2).congr fun i j _ _ => ?_⟩
      split
      · rfl
      · rw [if_pos (by omega)]
    · rw [if_neg h0]
      exact ⟨m1, rfl, fun i j hi hj => by omega, fun _ _ => rfl⟩
  obtain ⟨m2, e2, b2⟩ := st2
  rw [e2, Option.bind_some]
  obtain ⟨m3, e3, b3⟩ := mat_mulX_spec x C m2 _ hs.wf hs.ls b2.1
  exact ⟨m3, e3, fun i j hi hj => b3.1 i j hi hj, fun a ha => by
    rw [b3.2 a ha, b2.2 a ha, b1.2 a ha]⟩

theorem up_transpose_addr (A : SView) (i j : Int) : (A.transpose.upperTri false).addr i j = (A.upperTri false).addr i j := by
  rw [TView.addr, TView.addr]
  unfold SView.upperTri SView.transpose
  cases A.upper <;> rfl

theorem upT_conj (A : SView) : (A.transpose.upperTri false).conj = (if A.herm then !A.conjUp else A.conjUp) := by
  unfold SView.upperTri SView.transpose SView.conjUp SView.oct
  cases A.upper <;> cases A.herm <;> cases A.conj <;> rfl

theorem square_inj {C : MView} {n : Nat} (hs : C.Square n) {i j i' j' : Int} (h1 : 0 ≤ i) (h2 : i < n) (h3 : 0 ≤ j) (h4 : j < n) (h5 : 0 ≤ i')
    (h6 : i' < n) (h7 : 0 ≤ j') (h8 : j' < n) (e : C.addr i j = C.addr i' j') : i = i' ∧ j = j' := by
  have hc := hs.cs
  have hr := hs.rs
  have := hs.wf.1 i.toNat j.toNat i'.toNat j'.toNat (by omega) (by omega) (by omega) (by omega) (by
    rw [Int.toNat_of_nonneg h1, Int.toNat_of_nonneg h3, Int.toNat_of_nonneg h5, Int.toNat_of_nonneg h7]; exact e)
  omega

theorem upC_addr (C : MView) (i j : Int) : (C.upperTri false).addr i j = C.addr i j := rfl
theorem upCT_addr (C : MView) (i j : Int) : (C.transpose.upperTri false).addr i j = C.addr j i := by
  rw [upC_addr, C.transpose_addr]

/-- What the three ways of sharing memory give: no clashes in either triangle. -/
theorem inUpper_noClash {A : SView} {C : MView} (hs : C.Square A.n) (h : A.InUpper C) :
    (A.upperTri false).NoClash (C.upperTri false) ∧ (A.transpose.upperTri false).NoClash (C.transpose.upperTri false) := by
  have hcs := hs.cs
  have hrs := hs.rs
  constructor
  · intro i j i' j' h1 h2 e
    rw [sym_upperTri_in] at h1
    rw [upper_in hrs] at h2
    rw [h.tri, upC_addr] at e
    exact square_inj hs (by omega) (by omega) (by omega) (by omega) (by omega) (by omega) (by omega) (by omega) e
  · intro i j i' j' h1 h2 e
    rw [sym_upperTri_in, show A.transpose.n = A.n from rfl] at h1
    rw [upper_in hs.transpose.rs] at h2
    rw [up_transpose_addr, h.tri, upCT_addr] at e
    have := square_inj hs (by omega) (by omega) (by omega) (by omega) (by omega) (by omega) (by omega) (by omega) e
    omega

theorem inLower_noClash {A : SView} {C : MView} (hs : C.Square A.n) (h : A.InLower C) :
    (A.upperTri false).NoClash (C.upperTri false) ∧ (A.transpose.upperTri false).NoClash (C.transpose.upperTri false) := by
  have hcs := hs.cs
  have hrs := hs.rs
  constructor
  · intro i j i' j' h1 h2 e
    rw [sym_upperTri_in] at h1
    rw [upper_in hrs] at h2
    rw [h.tri, upC_addr] at e
    have := square_inj hs (by omega) (by omega) (by omega) (by omega) (by omega) (by omega) (by omega) (by omega) e
    omega
  · intro i j i' j' h1 h2 e
    rw [sym_upperTri_in, show A.transpose.n = A.n from rfl] at h1
    rw [upper_in hs.transpose.rs] at h2
    rw [up_transpose_addr, h.tri, upCT_addr] at e
    have := square_inj hs (by omega) (by omega) (by omega) (by omega) (by omega) (by omega) (by omega) (by omega) e
    omega

/-- **C126** (`C = x*A` into a full matrix).  `C` reads as `x` times what `A` read, both triangles, for every layout, stored triangle and
conjugation, when `A` shares nothing with `C`, or is kept in the lower triangle of `C`, or in its upper triangle without conjugation;
nothing else changes.  Partial: not when `A` is kept in the upper triangle of `C` with conjugation (`sym_assignMulXToM_violated`). -/
theorem sym_assignMulXToM_partial (x : K) (A : SView) (C : MView) (hs : C.Square A.n) (hW : A.WF) (hd : A.AliasM C) (m : Mem K)
    (hH : A.HermOK m) (p : Nat → Nat → K) (hA : A.Holds m p) (hC : C.Live m) :
    ∃ m', SView.assignMulXToM x A C m = some m' ∧ C.Becomes m m' (fun i j => x * p i j) := by
  have hcs := hs.cs
  have hrs := hs.rs
  have fin : (A.upperTri false).NoClash (C.upperTri false) → (A.transpose.upperTri false).NoClash (C.transpose.upperTri false) →
      (∀ m1, (C.upperTri false).Gets m m1 p → ∀ a, ((A.transpose.upperTri false).offDiag 1).Covers a → m1 a = m a) →
      ∃ m', SView.assignMulXToM x A C m = some m' ∧ C.Becomes m m' (fun i j => x * p i j) := by
    intro h1 h2 h3
    obtain ⟨m', e, b⟩ := sym_halves A C hs hW h1 h2 m hH p p hA hC (fun m1 g => (sym_below hA hH).frame (h3 m1 g)) x
    exact ⟨m', e, b.congr fun i j _ _ => by rw [ite_self]⟩
  have offIn : ∀ {i j : Int}, ((A.transpose.upperTri false).offDiag 1).In i j → 0 ≤ i ∧ i < j + 1 ∧ j + 1 < A.n := by
    intro i j h
    have h1 := (tri_offDiag_in _ _ _).mp h
    have h2 := (sym_upperTri_in _ _ _).mp h1.1
    exact ⟨h2.1, h1.2.1, h2.2.2⟩
  rcases hd with h | h | ⟨h, hc⟩
  · have cov : ∀ {a}, (A.upperTri false).Covers a → ¬ C.Covers a := fun h' => h _ ((sym_upperTri_covers A _).mp h')
    have covT : ∀ {a}, (A.transpose.upperTri false).Covers a → ¬ C.Covers a := fun h' =>
      h _ ((SView.transpose_covers A _).mp ((sym_upperTri_covers A.transpose _).mp h'))
    refine fin (fun i j i' j' h1 h2 e => absurd (upper_covers hs ⟨i', j', h2, e⟩) (cov ⟨i, j, h1, rfl⟩)) (fun i j i' j' h1 h2 e => ?_)
      (fun m1 g a ha => g.2 a fun h' => covT (offDiag_covers ha) (upper_covers hs h'))
    have := upper_covers hs.transpose ⟨i', j', h2, e⟩
    rw [C.transpose_covers] at this
    exact absurd this (covT ⟨i, j, h1, rfl⟩)
  · obtain ⟨n1, n2⟩ := inLower_noClash hs h
    refine fin n1 n2 fun m1 g a ha => g.2 a ?_
    obtain ⟨i, j, h1, rfl⟩ := ha
    rintro ⟨i', j', h2, e⟩
    have h1' := offIn h1
    rw [upper_in hrs] at h2
    rw [tri_offDiag_addr, up_transpose_addr, h.tri, upC_addr] at e
    have := square_inj hs (by omega) (by omega) (by omega) (by omega) (by omega) (by omega) (by omega) (by omega) e
    omega
  · obtain ⟨n1, n2⟩ := inUpper_noClash hs h
    refine fin n1 n2 fun m1 g a ha => ?_
    obtain ⟨i, j, h1, rfl⟩ := ha
    have h1' := offIn h1
    rw [tri_offDiag_addr, up_transpose_addr]
    have hin : (C.upperTri false).In i (j+1) := (upper_in hrs _ _).mpr (by omega)
    have hin' : (A.upperTri false).In i (j+1) := (sym_upperTri_in _ _ _).mpr (by omega)
    have r1 := g.1 i.toNat (j+1).toNat (by rw [Int.toNat_of_nonneg (by omega), Int.toNat_of_nonneg (by omega)]; exact hin)
    have r2 := (hA.triHas hH) i.toNat (j+1).toNat (by rw [Int.toNat_of_nonneg (by omega), Int.toNat_of_nonneg (by omega)]; exact hin')
    rw [Int.toNat_of_nonneg (by omega), Int.toNat_of_nonneg (by omega), tri_cref_in _ _ _ _ hin] at r1
    rw [Int.toNat_of_nonneg (by omega), Int.toNat_of_nonneg (by omega), tri_cref_in _ _ _ _ hin'] at r2
    rw [h.tri] at r2 ⊢
    rw [upC_addr] at r1
    rw [SView.conjUp_eq, hc] at r2
    have := r1.trans r2.symm
    revert this
    rw [show (C.upperTri false).conj = C.conj from rfl]
    cases m1 (C.addr i (j+1)) <;> cases m (C.addr i (j+1)) <;> simp
    intro h
    have := congrArg (cj C.conj) h
    rwa [cj_cj, cj_cj] at this

/-- **C126** (violated).  When `A` is kept in the upper triangle of `C` and is read with conjugation (`C = x*A.conjugate()` for a symmetric
`A` made of `C`, `C = x*A.transpose()` for a Hermitian one), the elements of `C` below the diagonal get the conjugate of what they should:
the lower triangle is read from memory that has just been overwritten. -/
theorem sym_assignMulXToM_violated (x : K) (A : SView) (C : MView) (hs : C.Square A.n) (hW : A.WF) (h : A.InUpper C) (hc : A.conjUp ≠ C.conj)
    (m : Mem K) (hH : A.HermOK m) (p : Nat → Nat → K) (hA : A.Holds m p) (hC : C.Live m) :
    ∃ m', SView.assignMulXToM x A C m = some m' ∧ C.Becomes m m' (fun i j => x * if j < i then star (p i j) else p i j) := by
  have hcs := hs.cs
  have hrs := hs.rs
  obtain ⟨n1, n2⟩ := inUpper_noClash hs h
  refine sym_halves A C hs hW n1 n2 m hH p (fun i j => star (p i j)) hA hC (fun m1 g i j h1 => ?_) x
  have ha := (tri_offDiag_in _ _ _).mp h1
  have hb := (sym_upperTri_in _ _ _).mp ha.1
  have hn : A.transpose.n = A.n := rfl
  rw [tri_cref_in _ _ _ _ h1, tri_offDiag_addr, up_transpose_addr, h.tri]
  have hin : (C.upperTri false).In (i : Nat) ((j+1 : Nat) : Int) := (upper_in hrs _ _).mpr (by push_cast; omega)
  have r1 := g.1 i (j+1) hin
  rw [tri_cref_in _ _ _ _ hin, upC_addr, show (C.upperTri false).conj = C.conj from rfl] at r1
  obtain ⟨v, hv, hv'⟩ := Option.map_eq_some_iff.mp r1
  push_cast at hv
  rw [hv, Option.map_some, show ((A.transpose.upperTri false).offDiag 1).conj = (A.transpose.upperTri false).conj from rfl, upT_conj]
  have hsy := sym_holds_symOf hA hH (j+1) i (by omega) (by omega)
  show some _ = some (star (p (j+1) i))
  rw [hsy, ← hv']
  revert hc
  cases A.herm <;> cases A.conjUp <;> cases C.conj <;> simp [cj]

end
end TMV
