import Verif.Spec.SymMat
import Verif.Props.LowerTri

/-! C38: element access of symmetric and Hermitian matrices; C66: their views. -/
namespace TMV
variable {K : Type _}

/-! ### Element access -/

theorem SView.in_up {M : SView} (h : M.upper = true) (i j : Int) :
    M.In i j ↔ 0 ≤ i ∧ i ≤ j ∧ j < M.n := by simp only [SView.In, h, if_true]; omega
theorem SView.in_lo {M : SView} (h : M.upper = false) (i j : Int) :
    M.In i j ↔ 0 ≤ j ∧ j ≤ i ∧ i < M.n := by simp only [SView.In, h]; simp; omega

/-- The conjugation of the unstored triangle as a flag. -/
theorem SView.other_eq [Star K] (M : SView) (x : K) :
    (if ((!M.herm) != M.conj) = true then x else star x) = cj M.oct x := by
  unfold SView.oct cj
  cases M.herm <;> cases M.conj <;> rfl

theorem sym_cref_up [Star K] {M : SView} (h : M.upper = true) (m : Mem K) (i j : Int) :
    M.cref m i j = if i ≤ j then (m (M.addr i j)).map (cj M.conj) else (m (M.addr j i)).map (cj M.oct) := by
  unfold SView.cref SView.stored
  by_cases hij : i ≤ j
  · rw [if_pos (by simp [h, hij]), if_pos hij]; rfl
  · rw [if_neg (by simp [h, hij]), if_neg hij]; simp only [SView.other_eq]; rfl

theorem sym_cref_lo [Star K] {M : SView} (h : M.upper = false) (m : Mem K) (i j : Int) :
    M.cref m i j = if j ≤ i then (m (M.addr i j)).map (cj M.conj) else (m (M.addr j i)).map (cj M.oct) := by
  unfold SView.cref SView.stored
  by_cases hij : j ≤ i
  · rw [if_pos (by simp [h, hij]), if_pos hij]; rfl
  · rw [if_neg (by simp [h, hij]), if_neg hij]; simp only [SView.other_eq]; rfl

/-- A stored element is read from its own memory. -/
theorem sym_cref_in [Star K] (M : SView) (m : Mem K) (i j : Int) (h : M.In i j) :
    M.cref m i j = (m (M.addr i j)).map (cj M.conj) := by
  cases hu : M.upper
  · rw [SView.in_lo hu] at h; rw [sym_cref_lo hu, if_pos h.2.1]
  · rw [SView.in_up hu] at h; rw [sym_cref_up hu, if_pos h.2.1]

theorem sym_cases (M : SView) (i j : Int) (hi : 0 ≤ i) (hi' : i < M.n) (hj : 0 ≤ j) (hj' : j < M.n) :
    M.In i j ∨ (M.In j i ∧ i ≠ j) := by
  cases hu : M.upper
  · simp only [SView.in_lo hu]; omega
  · simp only [SView.in_up hu]; omega

/-- An element that is not stored is read from its mirror image. -/
theorem sym_cref_mirror [Star K] (M : SView) (m : Mem K) (i j : Int) (h : M.In j i) (hne : i ≠ j) :
    M.cref m i j = (m (M.addr j i)).map (cj M.oct) := by
  cases hu : M.upper
  · rw [SView.in_lo hu] at h; rw [sym_cref_lo hu, if_neg (by omega)]
  · rw [SView.in_up hu] at h; rw [sym_cref_up hu, if_neg (by omega)]

theorem cj_cj_oct [InvolutiveStar K] (M : SView) (x : K) : cj M.oct x = cj M.herm (cj M.conj x) := by
  unfold SView.oct cj
  cases M.herm <;> cases M.conj <;> simp

theorem cj_conj_oct [InvolutiveStar K] (M : SView) (x : K) : cj M.conj x = cj M.herm (cj M.oct x) := by
  unfold SView.oct cj
  cases M.herm <;> cases M.conj <;> simp

/-- **C38**: whatever the memory contains, reading `(i,j)` and `(j,i)` of a symmetric matrix gives the
same value, and of a Hermitian matrix conjugate values (`i ≠ j`). -/
theorem sym_symmetric [InvolutiveStar K] (M : SView) (m : Mem K) (i j : Int) (hne : i ≠ j) :
    M.cref m i j = (M.cref m j i).map (fun x => if M.herm then star x else x) := by
  have e : (fun x : K => if M.herm = true then star x else x) = cj M.herm := rfl
  rw [e]
  cases hu : M.upper
  · rw [sym_cref_lo hu, sym_cref_lo hu]
    by_cases h : j ≤ i
    · rw [if_pos h, if_neg (by omega)]
      cases m (M.addr i j) <;> simp [cj_conj_oct M]
    · rw [if_neg h, if_pos (by omega)]
      cases m (M.addr j i) <;> simp [cj_cj_oct M]
  · rw [sym_cref_up hu, sym_cref_up hu]
    by_cases h : i ≤ j
    · rw [if_pos h, if_neg (by omega)]
      cases m (M.addr i j) <;> simp [cj_conj_oct M]
    · rw [if_neg h, if_pos (by omega)]
      cases m (M.addr j i) <;> simp [cj_cj_oct M]

/-- **C38** on the diagonal: a Hermitian matrix with real diagonal memory reads a real diagonal. -/
theorem sym_symmetric_diag [InvolutiveStar K] (M : SView) (m : Mem K) (hH : M.HermOK m) (k : Nat)
    (hk : k < M.n) : M.cref m k k = (M.cref m k k).map (fun x => if M.herm then star x else x) := by
  have hin : M.In k k := by
    cases hu : M.upper
    · rw [SView.in_lo hu]; omega
    · rw [SView.in_up hu]; omega
  rw [sym_cref_in M m k k hin]
  cases hh : M.herm
  · cases m (M.addr k k) <;> simp
  · cases hx : m (M.addr k k) with
    | none => rfl
    | some x =>
      have := hH hh k x hk hx
      simp only [Option.map_some, if_true]
      cases M.conj <;> simp [cj, this]

/-- **C38**: every element of a live matrix can be read. -/
theorem sym_cref_total [Star K] (M : SView) (m : Mem K) (hl : M.Live m) (i j : Int)
    (hi : 0 ≤ i) (hi' : i < M.n) (hj : 0 ≤ j) (hj' : j < M.n) : (M.cref m i j).isSome := by
  rcases sym_cases M i j hi hi' hj hj' with h | ⟨h, hne⟩
  · rw [sym_cref_in M m i j h, Option.isSome_map]; exact hl _ _ h
  · rw [sym_cref_mirror M m i j h hne, Option.isSome_map]; exact hl _ _ h

/-- A live Hermitian/symmetric matrix reads as a symmetric matrix `x`. -/
theorem sym_holds_symOf [InvolutiveStar K] {M : SView} {m : Mem K} {x : Nat → Nat → K} (h : M.Holds m x)
    (hH : M.HermOK m) : SymOf M.herm M.n x := by
  intro i j hi hj
  by_cases hij : i = j
  · subst hij
    have := sym_symmetric_diag M m hH i hi
    rw [h i i hi hi] at this
    simpa using this
  · have := sym_symmetric M m i j (by omega)
    rw [h i j hi hj, h j i hj hi] at this
    simpa using this

/-- The memory diagonal is real iff the diagonal reads real. -/
theorem sym_hermOK_iff [InvolutiveStar K] {M : SView} {m : Mem K} {x : Nat → Nat → K} (h : M.Holds m x) :
    M.HermOK m ↔ (M.herm = true → ∀ k, k < M.n → star (x k k) = x k k) := by
  have hin : ∀ k : Nat, k < M.n → M.In k k := by
    intro k hk
    cases hu : M.upper
    · rw [SView.in_lo hu]; omega
    · rw [SView.in_up hu]; omega
  constructor
  · intro hH hh k hk
    have e := h k k hk hk
    rw [sym_cref_in M m k k (hin k hk)] at e
    obtain ⟨y, hy, e'⟩ := Option.map_eq_some_iff.mp e
    have := hH hh k y hk hy
    rw [← e']; cases M.conj <;> simp [cj, this]
  · intro hH hh k y hk hy
    have e := h k k hk hk
    rw [sym_cref_in M m k k (hin k hk), hy] at e
    have := hH hh k hk
    simp only [Option.map_some, Option.some.injEq] at e
    rw [← e] at this
    cases hc : M.conj <;> simp [cj, hc] at this
    · exact this
    · exact this.symm

/-- **C38**: writing `m(i,j) = x` changes `(i,j)` and, with it, `(j,i)` (conjugated if Hermitian), and
nothing else. -/
theorem sym_write [InvolutiveStar K] (M : SView) (hW : M.Inj) (m : Mem K) (hl : M.Live m) (i j : Int)
    (hi : 0 ≤ i) (hi' : i < M.n) (hj : 0 ≤ j) (hj' : j < M.n) (x : K) :
    ∃ m', M.setRef i j x m = some m' ∧ M.cref m' i j = some x ∧
      (i ≠ j → M.cref m' j i = some (if M.herm then star x else x)) ∧
      (∀ i' j' : Int, 0 ≤ i' → i' < M.n → 0 ≤ j' → j' < M.n → (i', j') ≠ (i, j) → (i', j') ≠ (j, i) →
        M.cref m' i' j' = M.cref m i' j') ∧
      (∀ a, a ≠ M.addr i j → a ≠ M.addr j i → m' a = m a) ∧ (∀ a, ¬ M.Covers a → m' a = m a) ∧
      M.Live m' := by
  -- the address written and the value stored there
  have key : ∃ p q : Int, M.In p q ∧ ((p = i ∧ q = j) ∨ (p = j ∧ q = i ∧ i ≠ j)) ∧ ∃ y : K,
      M.setRef i j x m = m.write (M.addr p q) y ∧
      (p = i ∧ q = j → cj M.conj y = x) ∧ (p = j ∧ q = i ∧ i ≠ j → cj M.oct y = x) := by
    rcases sym_cases M i j hi hi' hj hj' with h | ⟨h, hne⟩
    · refine ⟨i, j, h, Or.inl ⟨rfl, rfl⟩, cj M.conj x, ?_, ?_, ?_⟩
      · unfold SView.setRef
        rw [if_pos]
        unfold SView.stored
        cases hu : M.upper
        · rw [SView.in_lo hu] at h; simp [h.2.1]
        · rw [SView.in_up hu] at h; simp [h.2.1]
      · intro _; unfold cj; cases M.conj <;> simp
      · rintro ⟨a, _, b⟩; exact absurd a b
    · refine ⟨j, i, h, Or.inr ⟨rfl, rfl, hne⟩, cj M.oct x, ?_, ?_, ?_⟩
      · unfold SView.setRef
        rw [if_neg]
        · congr 1
          unfold SView.oct cj
          cases M.herm <;> cases M.conj <;> rfl
        · unfold SView.stored
          cases hu : M.upper
          · rw [SView.in_lo hu] at h; simp; omega
          · rw [SView.in_up hu] at h; simp; omega
      · rintro ⟨a, _⟩; exact absurd a.symm hne
      · intro _; unfold cj; cases M.oct <;> simp
  obtain ⟨p, q, hpq, hor, y, e, h1, h2⟩ := key
  have hlv := hl p q hpq
  have hw : m.write (M.addr p q) y = some (fun a => if a = M.addr p q then some y else m a) := by
    unfold Mem.write
    cases hm : m (M.addr p q) with
    | none => rw [hm] at hlv; simp at hlv
    | some z => rfl
  refine ⟨_, e.trans hw, ?_, ?_, ?_, ?_, ?_, ?_⟩
  · rcases hor with ⟨rfl, rfl⟩ | ⟨rfl, rfl, hne⟩
    · rw [sym_cref_in M _ _ _ hpq]; simp [h1]
    · rw [sym_cref_mirror M _ _ _ hpq hne]; simp [h2 ⟨rfl, rfl, hne⟩]
  · intro hne
    rcases hor with ⟨rfl, rfl⟩ | ⟨rfl, rfl, hne⟩
    · rw [sym_cref_mirror M _ _ _ hpq (Ne.symm hne)]
      simp only [if_true, Option.map_some, cj_cj_oct, h1 ⟨rfl, rfl⟩]; rfl
    · rw [sym_cref_in M _ _ _ hpq]
      simp only [if_true, Option.map_some, cj_conj_oct M y, h2 ⟨rfl, rfl, hne⟩]; rfl
  · intro i' j' a1 a2 a3 a4 n1 n2
    have hp : ∀ r s : Int, M.In r s → (r, s) ≠ (i, j) → (r, s) ≠ (j, i) → M.addr r s ≠ M.addr p q := by
      intro r s hrs b1 b2 e
      have := hW r s p q hrs hpq e
      rcases hor with ⟨rfl, rfl⟩ | ⟨rfl, rfl, hne⟩
      · exact b1 (Prod.ext this.1 this.2)
      · exact b2 (Prod.ext this.1 this.2)
    rcases sym_cases M i' j' a1 a2 a3 a4 with h | ⟨h, hne⟩
    · rw [sym_cref_in M _ _ _ h, sym_cref_in M _ _ _ h]
      simp only [if_neg (hp i' j' h n1 n2)]
    · rw [sym_cref_mirror M _ _ _ h hne, sym_cref_mirror M _ _ _ h hne]
      simp only [if_neg (hp j' i' h (by simp only [ne_eq, Prod.mk.injEq] at n2 ⊢; tauto)
        (by simp only [ne_eq, Prod.mk.injEq] at n1 ⊢; tauto))]
  · intro a b1 b2
    have : a ≠ M.addr p q := by
      rcases hor with ⟨rfl, rfl⟩ | ⟨rfl, rfl, _⟩ <;> assumption
    simp only [if_neg this]
  · intro a ha
    have : a ≠ M.addr p q := fun e => ha ⟨p, q, hpq, e⟩
    simp only [if_neg this]
  · intro r s hrs
    by_cases e : M.addr r s = M.addr p q
    · simp [e]
    · simp only [if_neg e]; exact hl r s hrs

/-! ### The triangles -/

/-- `upperTri()` of a symmetric matrix is its upper triangle: the stored one, or the mirror image of the
stored one. -/
theorem sym_upperTri_addr (M : SView) (u : Bool) (i j : Int) :
    (M.upperTri u).addr i j = if M.upper then M.addr i j else M.addr j i := by
  unfold SView.upperTri
  cases hu : M.upper <;> simp [TView.addr, SView.addr]; ring

theorem sym_upperTri_n (M : SView) (u : Bool) : (M.upperTri u).n = M.n := by
  unfold SView.upperTri; cases M.upper <;> rfl
theorem sym_upperTri_unit (M : SView) (u : Bool) : (M.upperTri u).unit = u := by
  unfold SView.upperTri; cases M.upper <;> rfl

theorem sym_upperTri_in (M : SView) (i j : Int) :
    (M.upperTri false).In i j ↔ 0 ≤ i ∧ i ≤ j ∧ j < M.n := by
  unfold SView.upperTri TView.In; cases M.upper <;> simp <;> omega

theorem sym_upperTri_stored (M : SView) (i j : Int) (h : (M.upperTri false).In i j) :
    (M.upper = true ∧ M.In i j) ∨ (M.upper = false ∧ M.In j i) := by
  rw [sym_upperTri_in] at h
  cases hu : M.upper
  · right; rw [SView.in_lo hu]; exact ⟨rfl, by omega⟩
  · left; rw [SView.in_up hu]; exact ⟨rfl, by omega⟩

/-- **C66** `upperTri()`, off the diagonal: same element. -/
theorem sym_upperTri_off [Star K] [Zero K] [One K] (M : SView) (u : Bool) (m : Mem K) (i j : Int)
    (h : i < j) : (M.upperTri u).cref m i j = M.cref m i j := by
  rw [tri_cref_mid _ m i j (by have := ub_range (M.upperTri u).unit; omega)]
  cases hu : M.upper
  · rw [sym_cref_lo hu, if_neg (by omega), sym_upperTri_addr]; simp [SView.upperTri, hu]
  · rw [sym_cref_up hu, if_pos (by omega), sym_upperTri_addr]; simp [SView.upperTri, hu]

/-- **C66** `upperTri()`, on the diagonal: same element (Hermitian: if the diagonal is real). -/
theorem sym_upperTri_diag [Star K] [Zero K] [One K] (M : SView) (m : Mem K) (hH : M.HermOK m) (k : Nat)
    (hk : k < M.n) : (M.upperTri false).cref m k k = M.cref m k k := by
  rw [tri_cref_mid _ m k k (by rw [sym_upperTri_unit]; simp [ub])]
  cases hu : M.upper
  · rw [sym_cref_lo hu, if_pos (by omega), sym_upperTri_addr]
    simp only [SView.upperTri, hu, SView.oct]
    cases hh : M.herm
    · simp
    · cases hx : m (M.addr k k) with
      | none => simp [hx]
      | some y =>
        have := hH hh k y hk hx
        cases M.conj <;> simp [cj, this, hx]
  · rw [sym_cref_up hu, if_pos (by omega), sym_upperTri_addr]; simp [SView.upperTri, hu]

/-- **C66** `upperTri()` / `unitUpperTri()`: exactly the upper triangle of the matrix. -/
theorem sym_upperTri [Star K] [Zero K] [One K] (M : SView) (u : Bool) (m : Mem K) (hH : M.HermOK m)
    (i j : Nat) (hi : i < M.n) (hj : j < M.n) :
    (M.upperTri u).cref m i j =
      if i < j ∨ (u = false ∧ i = j) then M.cref m i j else if i = j then some 1 else some 0 := by
  rcases lt_trichotomy i j with h | rfl | h
  · rw [if_pos (Or.inl h)]; exact sym_upperTri_off M u m i j (by omega)
  · cases u
    · rw [if_pos (Or.inr ⟨rfl, rfl⟩)]; exact sym_upperTri_diag M m hH i hi
    · rw [if_neg (by simp), if_pos rfl]
      exact tri_cref_one _ m i (sym_upperTri_unit M true)
  · rw [if_neg (by omega), if_neg (by omega)]
    exact tri_cref_zero _ m i j (by omega)

theorem sym_upperTri_covers (M : SView) (a : Int) : (M.upperTri false).Covers a ↔ M.Covers a := by
  constructor
  · rintro ⟨i, j, h, e⟩
    rw [sym_upperTri_addr] at e
    rcases sym_upperTri_stored M i j h with ⟨hu, h'⟩ | ⟨hu, h'⟩
    · exact ⟨i, j, h', by rw [e, hu]; rfl⟩
    · exact ⟨j, i, h', by rw [e, hu]; rfl⟩
  · rintro ⟨i, j, h, e⟩
    cases hu : M.upper
    · rw [SView.in_lo hu] at h
      exact ⟨j, i, by rw [sym_upperTri_in]; omega, by rw [sym_upperTri_addr, hu, e]; rfl⟩
    · rw [SView.in_up hu] at h
      exact ⟨i, j, by rw [sym_upperTri_in]; omega, by rw [sym_upperTri_addr, hu, e]; rfl⟩

theorem SView.Live.upperTri {M : SView} {m : Mem K} (h : M.Live m) : (M.upperTri false).Live m := by
  intro i j hij
  rw [sym_upperTri_addr]
  rcases sym_upperTri_stored M i j hij with ⟨hu, h'⟩ | ⟨hu, h'⟩
  · rw [hu]; exact h _ _ h'
  · rw [hu]; exact h _ _ h'

theorem SView.WF.upperTri {M : SView} (h : M.WF) : (M.upperTri false).WF := by
  refine ⟨?_, ?_, ?_⟩
  · intro i j i' j' h1 h2 e
    rw [sym_upperTri_addr, sym_upperTri_addr] at e
    rcases sym_upperTri_stored M i j h1 with ⟨hu, a⟩ | ⟨hu, a⟩
    · rcases sym_upperTri_stored M i' j' h2 with ⟨hu', b⟩ | ⟨hu', b⟩
      · rw [hu] at e; exact h.1 _ _ _ _ a b e
      · rw [hu] at hu'; cases hu'
    · rcases sym_upperTri_stored M i' j' h2 with ⟨hu', b⟩ | ⟨hu', b⟩
      · rw [hu] at hu'; cases hu'
      · rw [hu] at e
        have := h.1 _ _ _ _ a b e
        tauto
  · have := h.2.1
    unfold SView.upperTri; cases M.upper <;> simp <;> tauto
  · have := h.2.2
    unfold SView.upperTri; cases M.upper <;> simp <;> omega

/-- **C66** `lowerTri()` / `unitLowerTri()` is the transpose (adjoint) image of `upperTri()`. -/
theorem sym_lowerTri_eq (M : SView) (u : Bool) : M.lowerTri u = (M.transpose.upperTri u).transpose := by
  unfold SView.lowerTri SView.upperTri
  cases hu : M.upper <;> simp [SView.transpose, TView.transpose, SView.oct, hu]

/-! ### `transpose`, `conjugate`, `adjoint` -/

/-- **C66** `transpose()`. -/
theorem sym_transpose [Star K] (M : SView) (m : Mem K) (i j : Int) :
    (M.transpose.In i j ↔ M.In j i) ∧ M.transpose.addr i j = M.addr j i ∧
    M.transpose.cref m i j = M.cref m j i := by
  have ea : ∀ i j, M.transpose.addr i j = M.addr j i := by
    intro i j; simp only [SView.addr, SView.transpose]; ring
  refine ⟨?_, ea i j, ?_⟩
  · unfold SView.In SView.transpose; cases M.upper <;> simp <;> omega
  · cases hu : M.upper
    · rw [sym_cref_up (M := M.transpose) (by simp [SView.transpose, hu]), sym_cref_lo hu, ea, ea]; rfl
    · rw [sym_cref_lo (M := M.transpose) (by simp [SView.transpose, hu]), sym_cref_up hu, ea, ea]; rfl

/-- **C66** `conjugate()`. -/
theorem sym_conjugate [InvolutiveStar K] (M : SView) (m : Mem K) (i j : Int) :
    M.conjugate.addr i j = M.addr i j ∧ M.conjugate.cref m i j = (M.cref m i j).map star := by
  refine ⟨rfl, ?_⟩
  have ea : ∀ i j, M.conjugate.addr i j = M.addr i j := fun _ _ => rfl
  have e1 : (star ∘ cj M.conj : K → K) = cj M.conjugate.conj := by
    funext x; simp only [Function.comp, cj, SView.conjugate]; rcases Bool.eq_false_or_eq_true M.conj with h | h <;> simp [h]
  have e2 : (star ∘ cj M.oct : K → K) = cj M.conjugate.oct := by
    funext x; simp only [Function.comp, cj, SView.conjugate, SView.oct]
    rcases Bool.eq_false_or_eq_true M.conj with h | h <;> rcases Bool.eq_false_or_eq_true M.herm with h' | h' <;>
      simp [h, h']
  cases hu : M.upper
  · rw [sym_cref_lo (M := M.conjugate) hu, sym_cref_lo hu, ea, ea]
    split
    · rw [Option.map_map, e1]
    · rw [Option.map_map, e2]
  · rw [sym_cref_up (M := M.conjugate) hu, sym_cref_up hu, ea, ea]
    split
    · rw [Option.map_map, e1]
    · rw [Option.map_map, e2]

/-- **C66** `adjoint()`. -/
theorem sym_adjoint [InvolutiveStar K] (M : SView) (m : Mem K) (i j : Int) :
    M.adjoint.cref m i j = (M.cref m j i).map star := by
  have : M.adjoint = M.conjugate.transpose := rfl
  rw [this, (sym_transpose _ m i j).2.2, (sym_conjugate M m j i).2]

theorem SView.WF.transpose {M : SView} (h : M.WF) : M.transpose.WF := by
  refine ⟨?_, ?_, ?_⟩
  · intro i j i' j' h1 h2 e
    have t := fun i j => sym_transpose (K := Int) M (fun _ => none) i j
    rw [(t _ _).1] at h1 h2
    rw [(t _ _).2.1, (t _ _).2.1] at e
    have := h.1 _ _ _ _ h1 h2 e
    tauto
  · have := h.2.1; simp only [SView.transpose]; tauto
  · have := h.2.2; simp only [SView.transpose]; omega

theorem SView.Live.transpose {M : SView} {m : Mem K} (h : M.Live m) : M.transpose.Live m := by
  intro i j h1
  rw [(sym_transpose (K := Int) M (fun _ => none) i j).2.1]
  exact h _ _ ((sym_transpose (K := Int) M (fun _ => none) i j).1.mp h1)

theorem SView.transpose_covers (M : SView) (a : Int) : M.transpose.Covers a ↔ M.Covers a := by
  have t := fun i j => sym_transpose (K := Int) M (fun _ => none) i j
  constructor
  · rintro ⟨i, j, h, e⟩
    exact ⟨j, i, (t i j).1.mp h, by rw [e, (t i j).2.1]⟩
  · rintro ⟨i, j, h, e⟩
    exact ⟨j, i, (t j i).1.mpr h, by rw [e, (t j i).2.1]⟩

theorem SView.HermOK.transpose [Star K] {M : SView} {m : Mem K} (h : M.HermOK m) : M.transpose.HermOK m := by
  intro hh k x hk hx
  rw [(sym_transpose (K := Int) M (fun _ => none) k k).2.1] at hx
  exact h hh k x hk hx

/-- **C66** `lowerTri()` / `unitLowerTri()`: exactly the lower triangle of the matrix. -/
theorem sym_lowerTri [Star K] [Zero K] [One K] (M : SView) (u : Bool) (m : Mem K) (hH : M.HermOK m)
    (i j : Nat) (hi : i < M.n) (hj : j < M.n) :
    (M.lowerTri u).cref m i j =
      if j < i ∨ (u = false ∧ i = j) then M.cref m i j else if i = j then some 1 else some 0 := by
  rw [sym_lowerTri_eq, (tri_transpose _ m i j).2.2, sym_upperTri M.transpose u m hH.transpose j i hj hi,
    (sym_transpose M m j i).2.2]
  simp only [eq_comm]

/-! ### Storage -/

/-- **C38**: every stored element of a new `SymMatrix`/`HermMatrix` is inside its array of `n*n` elements,
and distinct elements have distinct addresses. -/
theorem sym_storage (p : Int) (n : Nat) (rm herm upper : Bool) :
    (∀ i j, (SView.ofStor p n rm herm upper).In i j →
      p ≤ (SView.ofStor p n rm herm upper).addr i j ∧
      (SView.ofStor p n rm herm upper).addr i j < p + (n : Int) * n) ∧
    (SView.ofStor p n rm herm upper).WF := by
  have hb : ∀ i j : Int, 0 ≤ i → i < n → 0 ≤ j → j < n →
      0 ≤ i * (n : Int) + j ∧ i * (n : Int) + j < (n : Int) * n := by
    intro i j h1 h2 h3 h4
    constructor
    · positivity
    · nlinarith
  have hi : ∀ i j i' j' : Int, 0 ≤ j → j < n → 0 ≤ j' → j' < n →
      i * (n : Int) + j = i' * n + j' → i = i' ∧ j = j' := by
    intro i j i' j' h1 h2 h3 h4 e
    have : i = i' := by
      by_contra hne
      rcases lt_or_gt_of_ne hne with h | h
      · nlinarith
      · nlinarith
    subst this; omega
  refine ⟨?_, ?_, ?_, ?_⟩
  · rintro i j ⟨h1, h2, h3, h4, _⟩
    simp only [SView.ofStor] at h2 h4
    cases rm
    · have := hb j i h3 h4 h1 h2
      simp only [SView.addr, SView.ofStor, Bool.false_eq_true, if_false]; omega
    · have := hb i j h1 h2 h3 h4
      simp only [SView.addr, SView.ofStor, if_true]; omega
  · rintro i j i' j' ⟨h1, h2, h3, h4, _⟩ ⟨h5, h6, h7, h8, _⟩ e
    simp only [SView.ofStor] at h2 h4 h6 h8
    cases rm
    · simp only [SView.addr, SView.ofStor, Bool.false_eq_true, if_false] at e
      have := hi j i j' i' h1 h2 h5 h6 (by linarith)
      tauto
    · simp only [SView.addr, SView.ofStor, if_true] at e
      exact hi i j i' j' h3 h4 h7 h8 (by linarith)
  · simp only [SView.ofStor]
    rcases Nat.eq_zero_or_pos n with h | h
    · left; exact h
    · right; cases rm <;> simp <;> omega
  · simp only [SView.ofStor]; cases rm <;> simp <;> omega

/-- Example: a 3x3 Hermitian matrix stored in its lower triangle, row-major: writing (0,2) stores the
conjugate at (2,0). -/
example : let M := SView.ofStor 0 3 true true false
    let m : Mem GaussianInt := fun a => if 0 ≤ a ∧ a < 9 then some ⟨a, 0⟩ else none
    (M.setRef 0 2 ⟨1, 5⟩ m).bind (fun m => M.cref m 2 0) = some ⟨1, -5⟩ := by decide +kernel

end TMV
