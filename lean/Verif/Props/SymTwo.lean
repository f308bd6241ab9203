import Verif.Props.SymSwap

/-! C67, C38: assignment, swap, comparison and histories of operations on symmetric matrices. -/
namespace TMV
variable {K : Type _}

/-- Two symmetric matrices of the same kind that the library calls the same read the same. -/
theorem sym_isSameAs [InvolutiveStar K] {A B : SView} (h : A.isSameAs B = true) (m : Mem K)
    (hH : A.HermOK m) (i j : Nat) (hi : i < A.n) (hj : j < A.n) : B.cref m i j = A.cref m i j := by
  unfold SView.isSameAs at h
  split at h
  swap
  · cases h
  rename_i h0
  split at h
  · rename_i h1
    simp only [decide_eq_true_eq] at h
    have : A = B := by
      cases A; cases B; simp at h h0 h1 ⊢; tauto
    rw [this]
  · rename_i h1
    simp only [decide_eq_true_eq] at h
    have hup : B.upper = !A.upper := by
      revert h1; cases A.upper <;> cases B.upper <;> simp
    have e : B = if A.herm then A.adjoint else A.transpose := by
      have h3 := h.2.2
      cases hh : A.herm
      · rw [hh] at h3
        simp at h3
        cases A; cases B; simp [SView.transpose] at h h0 h3 hup hh ⊢
        refine ⟨h0.1.symm, h0.2.1.symm, h.2.1.symm, h.1.symm, h0.2.2.symm, hup, h3.symm⟩
      · rw [hh] at h3
        simp only [Bool.not_true] at h3
        have h4 : B.conj = !A.conj := by
          have : ¬ A.conj = B.conj := by
            intro e; rw [decide_eq_true e] at h3; cases h3
          revert this
          cases A.conj <;> cases B.conj <;> simp
        cases A; cases B; simp [SView.adjoint] at h h0 h4 hup hh ⊢
        refine ⟨h0.1.symm, h0.2.1.symm, h.2.1.symm, h.1.symm, h0.2.2.symm, hup, h4⟩
    have hs : A.cref m i j = (A.cref m j i).map (fun x => if A.herm then star x else x) := by
      by_cases hij : i = j
      · subst hij; exact sym_symmetric_diag A m hH i hi
      · exact sym_symmetric A m i j (by omega)
    rw [hs, e]
    cases A.herm
    · rw [if_neg (by simp), (sym_transpose A m i j).2.2]; simp
    · rw [if_pos rfl, sym_adjoint]; simp

/-- **C67** `m2 = m1` between symmetric (or between Hermitian) matrices: afterwards `m2` reads what `m1`
did, whatever triangles are stored and whatever the conjugation flags.  The two may share memory only
element for element. -/
theorem sym_assign_spec [CommRing K] [StarRing K] (A B : SView) (hn : A.n = B.n) (hh : A.herm = B.herm)
    (hA : A.WF) (hB : B.WF) (m : Mem K) (hH : A.HermOK m) (z : Nat → Nat → K) (hz : A.Holds m z)
    (hlB : B.Live m) (hc : (A.upperTri false).NoClash (B.upperTri false)) :
    ∃ m', A.assignToS B m = some m' ∧ B.Becomes m m' z := by
  have hs := sym_holds_symOf hz hH
  unfold SView.assignToS
  by_cases h : A.isSameAs B = true
  · rw [if_pos h]
    have hol : B.Holds m z := fun i j hi hj => by
      rw [sym_isSameAs h m hH i j (by omega) (by omega)]; exact hz i j (by omega) (by omega)
    refine ⟨m, rfl, hol, (sym_hermOK_iff hol).mpr ?_, hlB, fun _ _ => rfl⟩
    rw [← hh, ← hn]
    exact (sym_hermOK_iff hz).mp hH
  rw [if_neg h]
  obtain ⟨m', e, c, f⟩ := tri_assign_spec (A.upperTri false) (B.upperTri false)
    (by rw [sym_upperTri_n, sym_upperTri_n, hn]) hA.upperTri hB.upperTri
    (by rw [sym_upperTri_unit, sym_upperTri_unit]; exact id) hc m hz.live.upperTri hlB.upperTri
  refine ⟨m', e, sym_becomes_of_tri (by rw [← hh, ← hn]; exact hs) (fun i j hij hj => ?_) f⟩
  rw [c i j (by omega) (by rw [sym_upperTri_n]; omega) (by omega) (by rw [sym_upperTri_n]; omega),
    hz.tri hH i j hij (by omega)]

/-- **C67** `Swap(m1,m2)`. -/
theorem sym_swap_spec [CommRing K] [StarRing K] (A B : SView) (hn : A.n = B.n) (hh : A.herm = B.herm)
    (hA : A.WF) (hB : B.WF) (m : Mem K) (hHA : A.HermOK m) (hHB : B.HermOK m) (z w : Nat → Nat → K)
    (hz : A.Holds m z) (hw : B.Holds m w) (hd : ∀ a, A.Covers a → ¬ B.Covers a) :
    ∃ m', A.swapM B m = some m' ∧ A.Holds m' w ∧ B.Holds m' z ∧ A.HermOK m' ∧ B.HermOK m' ∧
      ∀ a, ¬ A.Covers a → ¬ B.Covers a → m' a = m a := by
  obtain ⟨m', e, c, f⟩ := tri_swap_spec (A.upperTri false) (B.upperTri false)
    (by rw [sym_upperTri_n, sym_upperTri_n, hn]) (by rw [sym_upperTri_unit, sym_upperTri_unit])
    hA.upperTri hB.upperTri
    (fun a h1 h2 => hd a ((sym_upperTri_covers A a).mp h1) ((sym_upperTri_covers B a).mp h2))
    m hz.live.upperTri hw.live.upperTri
  have hsz := sym_holds_symOf hz hHA
  have hsw := sym_holds_symOf hw hHB
  have a1 := sym_holds_of_tri (M := A) (m := m') (y := w) (by rw [hh, hn]; exact hsw) (by
    intro i j hij hj
    rw [(c i j (by omega) (by rw [sym_upperTri_n]; omega) (by omega) (by rw [sym_upperTri_n]; omega)).1]
    exact hw.tri hHB i j hij (by omega))
  have a2 := sym_holds_of_tri (M := B) (m := m') (y := z) (by rw [← hh, ← hn]; exact hsz) (by
    intro i j hij hj
    rw [(c i j (by omega) (by rw [sym_upperTri_n]; omega) (by omega) (by rw [sym_upperTri_n]; omega)).2]
    exact hz.tri hHA i j hij (by omega))
  exact ⟨m', e, a1.1, a2.1, a1.2, a2.2, fun a h1 h2 => f a
    (fun h => h1 ((sym_upperTri_covers A a).mp h)) (fun h => h2 ((sym_upperTri_covers B a).mp h))⟩

theorem SView.Holds.triH [CommRing K] [StarRing K] {M : SView} {m : Mem K} {x : Nat → Nat → K}
    (h : M.Holds m x) (hH : M.HermOK m) :
    (M.upperTri false).Holds m (fun i j => if i ≤ j then x i j else 0) := by
  intro i j hi hj
  rw [sym_upperTri_n] at hi hj
  show _ = some (if i ≤ j then x i j else 0)
  by_cases hij : i ≤ j
  · rw [if_pos hij]; exact h.tri hH i j hij hj
  · rw [if_neg hij]; exact tri_cref_zero _ m i j (by omega)

/-- **C67** `m1 == m2` for two symmetric or two Hermitian matrices is element-wise equality. -/
theorem sym_eq_spec [DecidableEq K] [CommRing K] [StarRing K] (A B : SView) (m : Mem K)
    (hh : A.herm = B.herm) (hHA : A.HermOK m) (hHB : B.HermOK m) (x y : Nat → Nat → K) (hx : A.Holds m x)
    (hy : B.Holds m y) :
    ∃ b, A.eqM B m = some b ∧
      (b = true ↔ A.n = B.n ∧ ∀ i j, i < A.n → j < A.n → x i j = y i j) := by
  obtain ⟨b, e, hb⟩ := tri_eq_spec (A.upperTri false) (B.upperTri false) m _ _ (hx.triH hHA) (hy.triH hHB)
  refine ⟨b, e, hb.trans ?_⟩
  rw [sym_upperTri_n, sym_upperTri_n]
  have hsx := sym_holds_symOf hx hHA
  have hsy := sym_holds_symOf hy hHB
  constructor
  · rintro ⟨h1, h2⟩
    refine ⟨h1, fun i j hi hj => ?_⟩
    have up : ∀ i j, i ≤ j → i < A.n → j < A.n → x i j = y i j := by
      intro i j hij hi hj
      have := h2 i j hi hj
      rwa [if_pos hij, if_pos hij] at this
    by_cases hij : i ≤ j
    · exact up i j hij hi hj
    · rw [hsx i j hi hj, hsy i j (by omega) (by omega), up j i (by omega) hj hi, hh]
  · rintro ⟨h1, h2⟩
    refine ⟨h1, fun i j hi hj => ?_⟩
    split
    · exact h2 i j hi hj
    · rfl

/-- Finding: comparing a symmetric with a Hermitian matrix, the library compares only the upper
triangles: matrices that differ below the diagonal are declared equal. -/
theorem sym_eq_mixed_violated :
    ∃ (A B : SView) (m : Mem GaussianInt), A.HermOK m ∧ B.HermOK m ∧ A.WF ∧ B.WF ∧
      A.eqM B m = some true ∧ A.cref m 1 0 ≠ B.cref m 1 0 ∧ (A.cref m 1 0).isSome ∧ (B.cref m 1 0).isSome := by
  refine ⟨SView.ofStor 0 2 true false true, SView.ofStor 4 2 true true true,
    fun a => if a = 0 then some 1 else if a = 1 then some ⟨0, 1⟩ else if a = 2 then some 0
      else if a = 3 then some 2 else if a = 4 then some 1 else if a = 5 then some ⟨0, 1⟩
      else if a = 6 then some 0 else if a = 7 then some 2 else none, ?_, ?_, ?_, ?_, ?_, ?_, ?_, ?_⟩
  · intro h; cases h
  · intro _ k x hk hx
    have hk : k < 2 := hk
    interval_cases k
    · have : x = 1 := by simpa [SView.ofStor, SView.addr] using hx.symm
      subst this; decide
    · have : x = 2 := by simpa [SView.ofStor, SView.addr] using hx.symm
      subst this; decide
  · exact (sym_storage 0 2 true false true).2
  · exact (sym_storage 4 2 true true true).2
  · decide +kernel
  · decide +kernel
  · decide +kernel
  · decide +kernel

/-! ### C38: any history of operations -/

/-- The modifying operations of a symmetric/Hermitian matrix. -/
inductive SymOp (K R : Type _) where
  | set (i j : Nat) (v : K)
  | setZero
  | setAllTo (x : K)
  | addToAll (x : K)
  | clip (t : R)
  | conjugateSelf
  | transposeSelf
  | setToIdentity (x : K)
  | swapRowsCols (i1 i2 : Nat)
  | permuteRowsCols (p : Nat → Nat) (i1 i2 : Nat)
  | reversePermuteRowsCols (p : Nat → Nat) (i1 i2 : Nat)

/-- The code that runs. -/
def SymOp.run {R : Type _} [LinearOrder R] [CommRing K] [StarRing K] (abs : K → R) (M : SView) :
    SymOp K R → Mem K → Option (Mem K)
  | .set i j v => M.setRef i j v
  | .setZero => M.setZero
  | .setAllTo x => M.setAllTo x
  | .addToAll x => M.addToAll x
  | .clip t => M.clip abs t
  | .conjugateSelf => M.conjugateSelf
  | .transposeSelf => M.transposeSelf
  | .setToIdentity x => M.setToIdentity x
  | .swapRowsCols i1 i2 => M.swapRowsCols i1 i2
  | .permuteRowsCols p i1 i2 => M.permuteRowsCols p i1 i2
  | .reversePermuteRowsCols p i1 i2 => M.reversePermuteRowsCols p i1 i2

/-- The documented preconditions: indices in range, and values that keep a Hermitian diagonal real.
(`setAllTo`, `setToIdentity` of a non-real value on a conjugated symmetric view are excluded, see
`setAllTo_conj_violated`.) -/
def SymOp.Ok {R : Type _} [Star K] (M : SView) : SymOp K R → Prop
  | .set i j v => i < M.n ∧ j < M.n ∧ (M.herm = true → i = j → star v = v)
  | .setZero => True
  | .setAllTo x => star x = x ∨ (M.herm = false ∧ M.conj = false)
  | .addToAll x => M.herm = true → star x = x
  | .clip _ => True
  | .conjugateSelf => True
  | .transposeSelf => True
  | .setToIdentity x => star x = x ∨ (M.herm = false ∧ M.conj = false)
  | .swapRowsCols i1 i2 => i1 < M.n ∧ i2 < M.n
  | .permuteRowsCols p i1 i2 => i1 ≤ i2 ∧ i2 ≤ M.n ∧ ∀ k, i1 ≤ k → k < i2 → p k < M.n
  | .reversePermuteRowsCols p i1 i2 => i1 ≤ i2 ∧ i2 ≤ M.n ∧ ∀ k, i1 ≤ k → k < i2 → p k < M.n

/-- What the operation does to the mathematical matrix. -/
def SymOp.effect {R : Type _} [LinearOrder R] [CommRing K] [StarRing K] (abs : K → R) (herm : Bool) :
    SymOp K R → (Nat → Nat → K) → (Nat → Nat → K)
  | .set i j v, z => fun p q => if p = i ∧ q = j then v
      else if p = j ∧ q = i then (if herm then star v else v) else z p q
  | .setZero, _ => fun _ _ => 0
  | .setAllTo x, _ => fun _ _ => x
  | .addToAll x, z => fun i j => z i j + x
  | .clip t, z => fun i j => if abs (z i j) < t then 0 else z i j
  | .conjugateSelf, z => fun i j => star (z i j)
  | .transposeSelf, z => fun i j => z j i
  | .setToIdentity x, _ => fun i j => if i = j then x else 0
  | .swapRowsCols i1 i2, z => fun i j => z (Equiv.swap i1 i2 i) (Equiv.swap i1 i2 j)
  | .permuteRowsCols p i1 i2, z => fun i j => z (swapProd p (i2 - i1) i1 i) (swapProd p (i2 - i1) i1 j)
  | .reversePermuteRowsCols p i1 i2, z => fun i j =>
      z ((swapProd p (i2 - i1) i1)⁻¹ i) ((swapProd p (i2 - i1) i1)⁻¹ j)

theorem symOp_spec {R : Type _} [LinearOrder R] [CommRing K] [StarRing K] (abs : K → R)
    (habs : ∀ x, abs (star x) = abs x) (M : SView) (hW : M.WF) (op : SymOp K R) (hok : op.Ok M)
    (m : Mem K) (hH : M.HermOK m) (z : Nat → Nat → K) (hz : M.Holds m z) :
    ∃ m', op.run abs M m = some m' ∧ M.Becomes m m' (op.effect abs M.herm z) := by
  cases op with
  | set i j v => exact sym_set_spec M hW m hH z hz i j hok.1 hok.2.1 v hok.2.2
  | setZero => exact sym_setZero_spec M hW m hz.live
  | setAllTo x => exact sym_setAllTo_spec_partial M x hW m hz.live hok
  | addToAll x => exact sym_addToAll_spec M x hW m hH z hz hok
  | clip t => exact sym_clip_spec abs habs M t hW m hH z hz
  | conjugateSelf => exact sym_conjugateSelf_spec M hW m hH z hz
  | transposeSelf => exact sym_transposeSelf_spec M hW m hH z hz
  | setToIdentity x => exact sym_setToIdentity_spec_partial M x hW m hz.live hok
  | swapRowsCols i1 i2 => exact sym_swapRowsCols_spec M hW m hH z hz i1 i2 hok.1 hok.2
  | permuteRowsCols p i1 i2 => exact sym_permuteRowsCols_spec M hW p i1 i2 hok.1 hok.2.1 hok.2.2 m hH z hz
  | reversePermuteRowsCols p i1 i2 =>
    exact sym_reversePermuteRowsCols_spec M hW p i1 i2 hok.1 hok.2.1 hok.2.2 m hH z hz

/-- **C38**.  After any sequence of operations within their preconditions on a symmetric or Hermitian
matrix, the matrix reads exactly as the sequence of mathematical operations gives, it is symmetric
(Hermitian, with real diagonal), and no memory outside its stored triangle was changed. -/
theorem sym_history {R : Type _} [LinearOrder R] [CommRing K] [StarRing K] (abs : K → R)
    (habs : ∀ x, abs (star x) = abs x) (M : SView) (hW : M.WF) (ops : List (SymOp K R))
    (hok : ∀ op ∈ ops, op.Ok M) (m : Mem K) (hH : M.HermOK m) (z : Nat → Nat → K) (hz : M.Holds m z) :
    ∃ m', ops.foldlM (fun m op => op.run abs M m) m = some m' ∧
      M.Becomes m m' (ops.foldl (fun z op => op.effect abs M.herm z) z) ∧
      SymOf M.herm M.n (ops.foldl (fun z op => op.effect abs M.herm z) z) := by
  induction ops generalizing m z with
  | nil => exact ⟨m, rfl, ⟨hz, hH, hz.live, fun _ _ => rfl⟩, sym_holds_symOf hz hH⟩
  | cons op ops ih =>
    obtain ⟨m1, e1, c1⟩ := symOp_spec abs habs M hW op (hok op (by simp)) m hH z hz
    obtain ⟨m2, e2, c2, s2⟩ := ih (fun o ho => hok o (by simp [ho])) m1 c1.2.1 _ c1.1
    refine ⟨m2, ?_, c1.trans c2, s2⟩
    rw [List.foldlM_cons, e1]
    exact e2

/-- Non-trivial instance: a Hermitian 3 by 3 matrix over the Gaussian integers in lower storage, with a
history that meets every precondition. -/
example : (SView.ofStor 0 3 true true false).WF ∧
    ∀ op ∈ ([.setToIdentity 2, .set 0 2 ⟨1, 1⟩, .swapRowsCols 0 1, .conjugateSelf,
      .permuteRowsCols (fun _ => 2) 0 2, .transposeSelf, .addToAll 1] : List (SymOp GaussianInt Int)),
      op.Ok (SView.ofStor 0 3 true true false) := by
  refine ⟨(sym_storage 0 3 true true false).2, ?_⟩
  simp only [List.mem_cons, List.not_mem_nil, or_false, forall_eq_or_imp, forall_eq]
  refine ⟨Or.inl (by decide), ⟨by decide, by decide, fun _ h => by simp at h⟩, ⟨by decide, by decide⟩, trivial,
    ⟨by decide, by decide, fun k _ _ => by show 2 < 3; decide⟩, trivial, fun _ => by decide⟩

end TMV
