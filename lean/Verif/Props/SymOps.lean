import Verif.Props.SymViews
import Verif.Props.TriOps
import Verif.Props.VecPermute

/-! C67: operations on a whole symmetric or Hermitian matrix. -/
namespace TMV
variable {K : Type _}

/-- After an operation that started from memory `m`, the matrix reads as `y`, its diagonal is real if it
is Hermitian, its elements are live, and no other memory was changed. -/
def SView.Becomes [Star K] (M : SView) (m m' : Mem K) (y : Nat → Nat → K) : Prop :=
  M.Holds m' y ∧ M.HermOK m' ∧ M.Live m' ∧ ∀ a, ¬ M.Covers a → m' a = m a

theorem SView.Holds.live [Star K] {M : SView} {m : Mem K} {x : Nat → Nat → K} (h : M.Holds m x) : M.Live m := by
  intro i j hij
  have h0 := hij.1
  have h1 := hij.2.1
  have h2 := hij.2.2.1
  have h3 := hij.2.2.2.1
  have := h i.toNat j.toNat (by omega) (by omega)
  rw [show ((i.toNat : Nat) : Int) = i by omega, show ((j.toNat : Nat) : Int) = j by omega,
    sym_cref_in M m i j hij] at this
  revert this; cases m (M.addr i j) <;> simp

/-- The upper triangle determines the matrix. -/
theorem sym_holds_of_tri [CommRing K] [StarRing K] {M : SView} {m : Mem K} {y : Nat → Nat → K}
    (hy : SymOf M.herm M.n y)
    (h : ∀ i j : Nat, i ≤ j → j < M.n → (M.upperTri false).cref m i j = some (y i j)) :
    M.Holds m y ∧ M.HermOK m := by
  have hd : M.HermOK m := by
    intro hh k z hk hz
    have e := h k k le_rfl hk
    rw [tri_cref_mid _ m k k (by rw [sym_upperTri_unit]; simp [ub]), sym_upperTri_addr] at e
    have ez : m (if M.upper then M.addr k k else M.addr k k) = some z := by simpa using hz
    rw [ez] at e
    simp only [Option.map_some, Option.some.injEq] at e
    have := hy k k hk hk
    rw [hh, if_pos rfl, ← e] at this
    revert this
    cases (M.upperTri false).conj <;> simp [cj]
    · exact fun a => a.symm
  refine ⟨?_, hd⟩
  intro i j hi hj
  rcases lt_trichotomy i j with hij | rfl | hij
  · rw [← sym_upperTri_off M false m i j (by omega)]
    exact h i j (by omega) hj
  · rw [← sym_upperTri_diag M m hd i hi]
    exact h i i le_rfl hi
  · rw [sym_symmetric M m i j (by omega), ← sym_upperTri_off M false m j i (by omega), h j i (by omega) hi,
      hy i j hi hj]
    rfl

theorem SView.Holds.tri [CommRing K] [StarRing K] {M : SView} {m : Mem K} {x : Nat → Nat → K}
    (h : M.Holds m x) (hH : M.HermOK m) (i j : Nat) (hij : i ≤ j) (hj : j < M.n) :
    (M.upperTri false).cref m i j = some (x i j) := by
  rw [sym_upperTri M false m hH i j (by omega) hj, if_pos (by simp; omega)]
  exact h i j (by omega) hj

/-- An operation given by its effect on the upper triangle. -/
theorem sym_becomes_of_tri [CommRing K] [StarRing K] {M : SView} {m m' : Mem K} {y : Nat → Nat → K}
    (hy : SymOf M.herm M.n y)
    (h : ∀ i j : Nat, i ≤ j → j < M.n → (M.upperTri false).cref m' i j = some (y i j))
    (hf : ∀ a, ¬ (M.upperTri false).Covers a → m' a = m a) : M.Becomes m m' y := by
  obtain ⟨a, b⟩ := sym_holds_of_tri hy h
  exact ⟨a, b, a.live, fun c hc => hf c (fun h => hc ((sym_upperTri_covers M c).mp h))⟩

theorem sym_tri_in (M : SView) (i j : Nat) (hij : i ≤ j) (hj : j < M.n) : (M.upperTri false).In i j := by
  rw [sym_upperTri_in]; omega

/-- **C67** `m.setZero()`. -/
theorem sym_setZero_spec [CommRing K] [StarRing K] (M : SView) (hW : M.WF) (m : Mem K) (hl : M.Live m) :
    ∃ m', M.setZero m = some m' ∧ M.Becomes m m' (fun _ _ => 0) := by
  obtain ⟨m', e, c, f⟩ := tri_setZero_spec _ hW.upperTri m hl.upperTri
  refine ⟨m', e, sym_becomes_of_tri (fun i j _ _ => by simp) ?_ f⟩
  intro i j hij hj
  have := c i j (by omega) (by rw [sym_upperTri_n]; omega) (by omega) (by rw [sym_upperTri_n]; omega)
  rw [this, sym_upperTri_unit]; simp

/-- **C67** `m.setAllTo(x)` (partial: not a conjugated symmetric view with non-real `x`; the library
itself requires `x` real for a Hermitian matrix). -/
theorem sym_setAllTo_spec_partial [CommRing K] [StarRing K] (M : SView) (x : K) (hW : M.WF) (m : Mem K)
    (hl : M.Live m) (hx : star x = x ∨ (M.herm = false ∧ M.conj = false)) :
    ∃ m', M.setAllTo x m = some m' ∧ M.Becomes m m' (fun _ _ => x) := by
  obtain ⟨m', e, c, f⟩ := tri_setAllTo_spec_partial (M.upperTri false) x hW.upperTri m hl.upperTri (by
    rcases hx with h | ⟨h1, h2⟩
    · exact Or.inr h
    · left; unfold SView.upperTri SView.oct; cases M.upper <;> simp [h1, h2])
  refine ⟨m', e, sym_becomes_of_tri (fun i j _ _ => ?_) (fun i j hij hj => c i j (sym_tri_in M i j hij hj)) f⟩
  rcases hx with h | ⟨h1, _⟩
  · simp [h]
  · simp [h1]

/-- **C67** `m.addToAll(x)` (`x` real for a Hermitian matrix, as the library requires). -/
theorem sym_addToAll_spec [CommRing K] [StarRing K] (M : SView) (x : K) (hW : M.WF) (m : Mem K)
    (hH : M.HermOK m) (z : Nat → Nat → K) (hz : M.Holds m z) (hx : M.herm = true → star x = x) :
    ∃ m', M.addToAll x m = some m' ∧ M.Becomes m m' (fun i j => z i j + x) := by
  obtain ⟨m', e, c, f⟩ := tri_addToAll_spec (M.upperTri false) x hW.upperTri m hz.live.upperTri
  have hs := sym_holds_symOf hz hH
  refine ⟨m', e, sym_becomes_of_tri (fun i j hi hj => ?_) (fun i j hij hj => ?_) f⟩
  · have := hs i j hi hj
    rw [this]
    cases hh : M.herm
    · simp
    · simp [hx hh]
  · rw [c i j (sym_tri_in M i j hij hj), hz.tri hH i j hij hj]; rfl

/-- **C67** `m.clip(thresh)`. -/
theorem sym_clip_spec {R : Type _} [LinearOrder R] [CommRing K] [StarRing K] (abs : K → R)
    (habs : ∀ x, abs (star x) = abs x) (M : SView) (thresh : R) (hW : M.WF) (m : Mem K)
    (hH : M.HermOK m) (z : Nat → Nat → K) (hz : M.Holds m z) :
    ∃ m', M.clip abs thresh m = some m' ∧
      M.Becomes m m' (fun i j => if abs (z i j) < thresh then 0 else z i j) := by
  obtain ⟨m', e, c, f⟩ := tri_clip_spec abs habs (M.upperTri false) thresh hW.upperTri m hz.live.upperTri
  have hs := sym_holds_symOf hz hH
  refine ⟨m', e, sym_becomes_of_tri (fun i j hi hj => ?_) (fun i j hij hj => ?_) f⟩
  · have := hs i j hi hj
    rw [this]
    cases hh : M.herm
    · simp
    · simp only [if_true, habs]
      split <;> simp
  · rw [c i j (sym_tri_in M i j hij hj), hz.tri hH i j hij hj]; rfl

/-- **C67** `m.conjugateSelf()`. -/
theorem sym_conjugateSelf_spec [CommRing K] [StarRing K] (M : SView) (hW : M.WF) (m : Mem K)
    (hH : M.HermOK m) (z : Nat → Nat → K) (hz : M.Holds m z) :
    ∃ m', M.conjugateSelf m = some m' ∧ M.Becomes m m' (fun i j => star (z i j)) := by
  obtain ⟨m', e, c, f⟩ := tri_conjugateSelf_spec (M.upperTri false) hW.upperTri m hz.live.upperTri
  have hs := sym_holds_symOf hz hH
  refine ⟨m', e, sym_becomes_of_tri (fun i j hi hj => ?_) (fun i j hij hj => ?_) f⟩
  · rw [hs i j hi hj]
    cases hh : M.herm <;> simp
  · rw [c i j (by omega) (by rw [sym_upperTri_n]; omega) (by omega) (by rw [sym_upperTri_n]; omega),
      hz.tri hH i j hij hj]; rfl

/-- **C67** `m.transposeSelf()`: afterwards `m(i,j)` is what `m(j,i)` was. -/
theorem sym_transposeSelf_spec [CommRing K] [StarRing K] (M : SView) (hW : M.WF) (m : Mem K)
    (hH : M.HermOK m) (z : Nat → Nat → K) (hz : M.Holds m z) :
    ∃ m', M.transposeSelf m = some m' ∧ M.Becomes m m' (fun i j => z j i) := by
  have hs := sym_holds_symOf hz hH
  unfold SView.transposeSelf
  cases hh : M.herm
  · refine ⟨m, rfl, ⟨fun i j hi hj => ?_, hH, hz.live, fun _ _ => rfl⟩⟩
    rw [hz i j hi hj, hs i j hi hj, hh]; rfl
  · obtain ⟨m', e, c⟩ := sym_conjugateSelf_spec M hW m hH z hz
    refine ⟨m', e, ⟨fun i j hi hj => ?_, c.2⟩⟩
    rw [c.1 i j hi hj]
    show some (star (z i j)) = some (z j i)
    rw [hs j i hj hi, hh]; rfl

/-- **C67** `m.setToIdentity(x)` (partial: not a conjugated symmetric view with non-real `x`; the library
requires `x` real for a Hermitian matrix). -/
theorem sym_setToIdentity_spec_partial [CommRing K] [StarRing K] (M : SView) (x : K) (hW : M.WF) (m : Mem K)
    (hl : M.Live m) (hx : star x = x ∨ (M.herm = false ∧ M.conj = false)) :
    ∃ m', M.setToIdentity x m = some m' ∧ M.Becomes m m' (fun i j => if i = j then x else 0) := by
  obtain ⟨m1, e1, c1⟩ := sym_setZero_spec M hW m hl
  unfold SView.setToIdentity
  rw [e1]
  simp only [Option.bind_some]
  have hdl : M.diag.Live m1 := fun k hk => by
    have := ((sym_diag M).2 k hk)
    obtain ⟨i, j, hin, ea⟩ := this.covers
    rw [ea]; exact c1.2.2.1 i j hin
  obtain ⟨m2, e2, c2, f2⟩ := setAllTo_spec_partial M.diag x m1 (Or.inl hW.2.2) hdl (by
    rcases hx with h | ⟨h1, h2⟩
    · tauto
    · exact Or.inl h2)
  have ho : ∀ i j : Int, M.In i j → i ≠ j → m2 (M.addr i j) = m1 (M.addr i j) := by
    intro i j hin hne
    apply f2
    rintro ⟨k, hk, e⟩
    have hk' : k < M.n := hk
    have hkk : M.In k k := by
      unfold SView.In; split <;> omega
    have ea : M.diag.addr k = M.addr k k := by simp only [SView.diag, VView.addr, SView.addr]; ring
    have := hW.1 _ _ _ _ hin hkk (e.trans ea)
    omega
  have hd : ∀ k : Nat, k < M.n → M.cref m2 k k = some x := by
    intro k hk
    rw [← c2 k hk, sym_cref_in M m2 k k (by unfold SView.In; split <;> omega)]
    have ea : M.diag.addr k = M.addr k k := by simp only [SView.diag, VView.addr, SView.addr]; ring
    unfold VView.cref Mem.read
    rw [ea]; rfl
  have hol : M.Holds m2 (fun i j => if i = j then x else 0) := by
    intro i j hi hj
    show M.cref m2 i j = some (if i = j then x else 0)
    by_cases hij : i = j
    · subst hij; rw [if_pos rfl]; exact hd i hi
    · rw [if_neg hij, ← c1.1 i j hi hj]
      rcases sym_cases M i j (by omega) (by omega) (by omega) (by omega) with h | ⟨h, hne⟩
      · rw [sym_cref_in M _ _ _ h, sym_cref_in M _ _ _ h, ho _ _ h (by omega)]
      · rw [sym_cref_mirror M _ _ _ h hne, sym_cref_mirror M _ _ _ h hne, ho _ _ h (by omega)]
  refine ⟨m2, e2, hol, (sym_hermOK_iff hol).mpr ?_, hol.live, ?_⟩
  · intro hh k hk
    rcases hx with h | ⟨h1, _⟩
    · simpa using h
    · rw [h1] at hh; cases hh
  · intro a ha
    rw [f2 a, c1.2.2.2 a ha]
    rintro ⟨k, hk, e⟩
    obtain ⟨i, j, hin, ea⟩ := ((sym_diag M).2 k hk).covers
    exact ha ⟨i, j, hin, e.trans ea⟩

/-- **C67** `m(i,j) = v` (`v` real on the diagonal of a Hermitian matrix). -/
theorem sym_set_spec [CommRing K] [StarRing K] (M : SView) (hW : M.WF) (m : Mem K) (hH : M.HermOK m)
    (z : Nat → Nat → K) (hz : M.Holds m z) (i j : Nat) (hi : i < M.n) (hj : j < M.n) (v : K)
    (hv : M.herm = true → i = j → star v = v) :
    ∃ m', M.setRef i j v m = some m' ∧
      M.Becomes m m' (fun p q => if p = i ∧ q = j then v
        else if p = j ∧ q = i then (if M.herm then star v else v) else z p q) := by
  obtain ⟨m', e, c1, c2, c3, _, fr, lv⟩ := sym_write M hW.1 m hz.live i j (by omega) (by omega) (by omega)
    (by omega) v
  have hol : M.Holds m' (fun p q => if p = i ∧ q = j then v
        else if p = j ∧ q = i then (if M.herm then star v else v) else z p q) := by
    intro p q hp hq
    dsimp only
    by_cases h1 : p = i ∧ q = j
    · rw [if_pos h1, h1.1, h1.2]; exact c1
    · rw [if_neg h1]
      by_cases h2 : p = j ∧ q = i
      · rw [if_pos h2, h2.1, h2.2]
        exact c2 (by omega)
      · rw [if_neg h2, ← hz p q hp hq]
        exact c3 p q (by omega) (by omega) (by omega) (by omega) (by simp; omega) (by simp; omega)
  refine ⟨m', e, hol, (sym_hermOK_iff hol).mpr ?_, lv, fr⟩
  intro hh k hk
  have hzz := (sym_hermOK_iff hz).mp hH hh k hk
  by_cases h1 : k = i ∧ k = j
  · rw [if_pos h1]; exact hv hh (by omega)
  · rw [if_neg h1, if_neg (by omega)]; exact hzz

end TMV
