import Verif.Lemmas.Vec
import Mathlib.NumberTheory.Zsqrtd.GaussianInt
import Mathlib.Tactic.NormNum

/-! Properties C04-C07: element writes and element-wise in-place operations. -/
namespace TMV
variable {K : Type _}

section lemmas

theorem VView.WF.inj {v : VView} (h : v.WF) : v.Inj := by
  rcases h with h | h
  · exact Or.inl h
  · exact Or.inr (by omega)

theorem VView.WF.reverse {v : VView} (h : v.WF) : v.reverse.WF := by
  simpa [VView.WF, VView.reverse] using h

theorem cj_cj [InvolutiveStar K] (c : Bool) (x : K) : cj c (cj c x) = x := by
  cases c <;> simp [cj]

/-- Stored-value map `f` seen through the view is the element map `cj ∘ f ∘ cj`. -/
theorem VView.Mapped.cref [InvolutiveStar K] {v : VView} {f g : K → K} {m m' : Mem K}
    (h : v.Mapped f m m') (hfg : ∀ x, cj v.conj (f x) = g (cj v.conj x)) (i : Nat)
    (hi : i < v.size) : v.cref m' i = (v.cref m i).map g := by
  simp only [VView.cref, Mem.read, h.1 i hi, Option.map_map]
  congr 1
  funext x
  exact hfg x

end lemmas

/-! ### C04 -/

/-- **C04**.  Assigning `x` to element `i` of any live view is defined, the view then reads `x` at
`i`, and every other address keeps its content. -/
theorem setRef_spec [InvolutiveStar K] (v : VView) (m : Mem K) (i : Nat) (x : K)
    (hl : v.Live m) (hi : i < v.size) :
    ∃ m', v.setRef i x m = some m' ∧ v.cref m' i = some x ∧
      (∀ a, a ≠ v.addr i → m' a = m a) := by
  refine ⟨_, Mem.write_of_isSome _ (hl i hi), ?_, ?_⟩
  · simp [VView.cref, Mem.read, cj_cj]
  · intro a ha; simp [ha]

/-- **C04** consequence: other elements of the same view are unchanged. -/
theorem setRef_other [InvolutiveStar K] (v : VView) (m m' : Mem K) (i j : Nat) (x : K)
    (hw : v.WF) (hl : v.Live m) (hi : i < v.size) (hj : j < v.size) (hij : i ≠ j)
    (h : v.setRef i x m = some m') : v.cref m' j = v.cref m j := by
  obtain ⟨m'', h1, _, h3⟩ := setRef_spec v m i x hl hi
  rw [h] at h1
  obtain rfl := Option.some_inj.mp h1
  simp only [VView.cref, Mem.read]
  rw [h3]
  intro e
  exact hij (hw.inj.addr_inj hj hi e).symm

/-- Element write outside live memory is undefined behaviour in the model. -/
theorem setRef_ub [Star K] (v : VView) (m : Mem K) (i : Int) (x : K) (h : m (v.addr i) = none) :
    v.setRef i x m = none := by
  simp [VView.setRef, Mem.write, h]

/-! ### C05 -/

theorem setAllToNonneg_mapped [Star K] (v : VView) (x : K) (m : Mem K) (hw : v.WF) (hl : v.Live m)
    (_h0 : 0 ≤ v.step) :
    ∃ m', v.setAllToNonneg x m = some m' ∧
      v.Mapped (fun _ => if v.step ≤ 1 then x else cj v.conj x) m m' := by
  unfold VView.setAllToNonneg
  by_cases hs0 : v.step = 0
  · have h1 : v.size = 1 := by rcases hw with h | h; exact absurd hs0 h; exact h
    obtain ⟨m', a, b⟩ := v.mapped_write x m h1 hl
    exact ⟨m', by simp [hs0, a], by simpa [hs0] using b⟩
  by_cases hs1 : v.step = 1
  · obtain ⟨m', a, b⟩ := v.mapped_loopFill x m hw.inj hl
    rw [hs1] at a
    exact ⟨m', by simp [hs1, a], by simpa [hs1] using b⟩
  have : ¬ v.step ≤ 1 := by omega
  cases hc : v.conj
  · obtain ⟨m', a, b⟩ := v.mapped_loopFill x m hw.inj hl
    exact ⟨m', by simp [hs0, hs1, a], by simpa [this, cj] using b⟩
  · obtain ⟨m', a, b⟩ := v.mapped_loopFill (star x) m hw.inj hl
    exact ⟨m', by simp [hs0, hs1, a], by simpa [this, cj] using b⟩

theorem setAllTo_mapped [Star K] (v : VView) (x : K) (m : Mem K) (hw : v.WF) (hl : v.Live m) :
    ∃ m', v.setAllTo x m = some m' ∧
      v.Mapped (fun _ => if |v.step| ≤ 1 then x else cj v.conj x) m m' := by
  unfold VView.setAllTo
  split
  · rename_i h
    obtain ⟨m', a, b⟩ := setAllToNonneg_mapped v.reverse x m hw.reverse hl.reverse
      (by simp [VView.reverse]; omega)
    refine ⟨m', a, ?_⟩
    have := b.of_reverse
    rw [abs_of_neg h]
    exact this
  · rename_i h
    rw [abs_of_nonneg (by omega)]
    exact setAllToNonneg_mapped v x m hw hl (by omega)

/-- **C05, partial**.  `setAllTo(x)` makes every element read `x` and touches nothing else,
provided the view is not conjugated, or `x` is self-conjugate (real), or the step is not
`0, ±1`.  Missing: conjugated views with `|step| ≤ 1`, for which the code is wrong
(`setAllTo_conj_violated`). -/
theorem setAllTo_spec_partial [InvolutiveStar K] (v : VView) (x : K) (m : Mem K) (hw : v.WF)
    (hl : v.Live m) (hc : v.conj = false ∨ star x = x ∨ 1 < |v.step|) :
    ∃ m', v.setAllTo x m = some m' ∧ v.Holds m' (fun _ => x) ∧ v.Frame m m' := by
  obtain ⟨m', a, b⟩ := setAllTo_mapped v x m hw hl
  refine ⟨m', a, ?_, b.2⟩
  intro i hi
  have hx := b.1 i hi
  obtain ⟨y, hy⟩ := Option.isSome_iff_exists.mp (hl i hi)
  simp only [VView.cref, Mem.read, hx, hy, Option.map_some, Option.some_inj]
  split
  · rename_i h1
    rcases hc with hc | hc | hc
    · simp [hc, cj]
    · cases v.conj <;> simp [cj, hc]
    · omega
  · exact cj_cj _ _

/-- **C05 violated**: on a conjugated unit-step view, `setAllTo(i)` leaves elements equal to `-i`. -/
theorem setAllTo_conj_violated :
    ∃ (v : VView) (m m' : Mem GaussianInt) (x : GaussianInt), v.WF ∧ v.Live m ∧
      v.setAllTo x m = some m' ∧ v.cref m' 0 ≠ some x := by
  refine ⟨⟨0, 1, 1, true⟩, fun a => if a = 0 then some 0 else none,
    fun a => if a = 0 then some ⟨0, 1⟩ else none, ⟨0, 1⟩, Or.inl (by norm_num), ?_, ?_, ?_⟩
  · intro i hi
    have : i = 0 := by simpa using hi
    subst this; simp [VView.addr]
  · simp only [VView.setAllTo, VView.setAllToNonneg, loopFill, Mem.write]
    norm_num
    funext b; split <;> rfl
  · simp only [VView.cref, VView.addr, Mem.read, cj]
    decide

/-- The constructor/`Vector::setAllTo` case (contiguous, not conjugated) is always right:
instance of the partial theorem. -/
example (m : Mem GaussianInt) (n : Nat) (h : (⟨0, n, 1, false⟩ : VView).Live m) :
    ∃ m', (⟨0, n, 1, false⟩ : VView).setAllTo ⟨3, 4⟩ m = some m' ∧
      (⟨0, n, 1, false⟩ : VView).Holds m' (fun _ => ⟨3, 4⟩) ∧
      (⟨0, n, 1, false⟩ : VView).Frame m m' :=
  setAllTo_spec_partial _ _ _ (Or.inl (by norm_num)) h (Or.inl rfl)

/-- **C05/C06 violated** (empty view with step 0, e.g. `m.col(j,j,j)` of a diagonal band
matrix): `setAllTo` writes one element although the view has none. -/
theorem setAllTo_empty_step0_violated :
    ∃ (v : VView) (m m' : Mem Int), v.size = 0 ∧
      v.setAllTo (5 : Int) m = some m' ∧ ¬ v.Frame m m' := by
  refine ⟨⟨0, 0, 0, false⟩, fun a => if a = 0 then some 0 else none,
    fun a => if a = 0 then some 5 else none, rfl, ?_, ?_⟩
  · simp only [VView.setAllTo, VView.setAllToNonneg, Mem.write]
    norm_num
    funext b; split <;> rfl
  · intro h
    have := h 0 (by rintro ⟨i, hi, _⟩; simp at hi)
    simp at this

/-! ### C06 -/

/-- **C06** `setZero`: every element of every view becomes 0, nothing else changes. -/
theorem setZero_spec [CommRing K] [StarRing K] (v : VView) (m : Mem K) (hw : v.WF)
    (hl : v.Live m) :
    ∃ m', v.setZero m = some m' ∧ v.Holds m' (fun _ => 0) ∧ v.Frame m m' := by
  unfold VView.setZero
  split
  · rename_i h1
    obtain ⟨m', a, b⟩ := v.mapped_loopFill (0 : K) m hw.inj hl
    rw [h1] at a
    refine ⟨m', a, ?_, b.2⟩
    intro i hi
    obtain ⟨y, hy⟩ := Option.isSome_iff_exists.mp (hl i hi)
    simp only [VView.cref, Mem.read, b.1 i hi, hy, Option.map_some]
    cases v.conj <;> simp [cj]
  · exact setAllTo_spec_partial v 0 m hw hl (Or.inr (Or.inl (star_zero K)))

/-- **C06** `addToAll` (partial: a conjugated view with step 0, i.e. a one-element column of a
diagonal band matrix, is excluded; there the code adds `x` instead of `conj(x)`, see
`addToAll_step0_violated`). -/
theorem addToAll_spec_partial [CommRing K] [StarRing K] (v : VView) (x : K) (m : Mem K) (hw : v.WF)
    (hl : v.Live m) (hc : v.step ≠ 0 ∨ v.conj = false) :
    ∃ m', v.addToAll x m = some m' ∧
      (∀ i : Nat, i < v.size → v.cref m' i = (v.cref m i).map (· + x)) ∧ v.Frame m m' := by
  have key : ∀ w : VView, w.WF → w.Live m → (w.step ≠ 0 ∨ w.conj = false) →
      ∃ m', w.addToAllNonneg x m = some m' ∧ w.Mapped (· + cj w.conj x) m m' := by
    intro w hw hl hc
    unfold VView.addToAllNonneg
    by_cases hs0 : w.step = 0
    · have h1 : w.size = 1 := by rcases hw with h | h; exact absurd hs0 h; exact h
      have hcf : w.conj = false := by rcases hc with h | h; exact absurd hs0 h; exact h
      obtain ⟨m', a, b⟩ := w.mapped_modify (· + x) m h1 hl
      exact ⟨m', by simp [hs0, a], by simpa [hcf, cj] using b⟩
    · cases hcw : w.conj
      · obtain ⟨m', a, b⟩ := w.mapped_loopMod (· + x) m hw.inj hl
        refine ⟨m', ?_, by simpa [cj] using b⟩
        by_cases hs1 : w.step = 1
        · rw [hs1] at a; simp [hs1, a]
        · simp [hs0, hs1, a]
      · obtain ⟨m', a, b⟩ := w.mapped_loopMod (· + star x) m hw.inj hl
        refine ⟨m', ?_, by simpa [cj] using b⟩
        by_cases hs1 : w.step = 1
        · rw [hs1] at a; simp [hs1, a]
        · simp [hs0, hs1, a]
  have fin : ∀ m', v.Mapped (· + cj v.conj x) m m' →
      (∀ i : Nat, i < v.size → v.cref m' i = (v.cref m i).map (· + x)) ∧ v.Frame m m' := by
    intro m' h
    refine ⟨fun i hi => h.cref ?_ i hi, h.2⟩
    intro y
    cases v.conj <;> simp [cj]
  unfold VView.addToAll
  split
  · obtain ⟨m', a, b⟩ := key v.reverse hw.reverse hl.reverse (by simpa [VView.reverse] using hc)
    exact ⟨m', a, fin m' b.of_reverse⟩
  · obtain ⟨m', a, b⟩ := key v hw hl hc
    exact ⟨m', a, fin m' b⟩

/-- **C06 violated**: `addToAll(i)` on the conjugated one-element column (step 0) holding 0 leaves
`-i`. -/
theorem addToAll_step0_violated :
    ∃ (v : VView) (m m' : Mem GaussianInt) (x : GaussianInt), v.WF ∧ v.Live m ∧
      v.cref m 0 = some 0 ∧ v.addToAll x m = some m' ∧ v.cref m' 0 ≠ some (0 + x) := by
  refine ⟨⟨0, 1, 0, true⟩, fun a => if a = 0 then some 0 else none,
    fun a => if a = 0 then some ⟨0, 1⟩ else none, ⟨0, 1⟩, Or.inr rfl, ?_, ?_, ?_, ?_⟩
  · intro i hi
    have : i = 0 := by simpa using hi
    subst this; simp [VView.addr]
  · simp [VView.cref, VView.addr, Mem.read, cj]
  · simp only [VView.addToAll, VView.addToAllNonneg, Mem.write, Mem.modify, Mem.read]
    norm_num
    funext b; split <;> rfl
  · simp only [VView.cref, VView.addr, Mem.read, cj]
    decide

/-- **C06** `conjugateSelf`: every element is replaced by its conjugate. -/
theorem conjugateSelf_spec [InvolutiveStar K] (v : VView) (m : Mem K) (hw : v.WF)
    (hl : v.Live m) :
    ∃ m', v.conjugateSelf m = some m' ∧
      (∀ i : Nat, i < v.size → v.cref m' i = (v.cref m i).map star) ∧ v.Frame m m' := by
  have key : ∀ w : VView, w.WF → w.Live m →
      ∃ m', w.nonLapConjugate m = some m' ∧ w.Mapped star m m' := by
    intro w hw hl
    unfold VView.nonLapConjugate
    by_cases hs0 : w.step = 0
    · have h1 : w.size = 1 := by rcases hw with h | h; exact absurd hs0 h; exact h
      obtain ⟨m', a, b⟩ := w.mapped_modify star m h1 hl
      exact ⟨m', by simp [hs0, a], b⟩
    · obtain ⟨m', a, b⟩ := w.mapped_loopMod star m hw.inj hl
      refine ⟨m', ?_, b⟩
      by_cases hs1 : w.step = 1
      · rw [hs1] at a; simp [hs1, a]
      · simp [hs0, hs1, a]
  have fin : ∀ m', v.Mapped star m m' →
      (∀ i : Nat, i < v.size → v.cref m' i = (v.cref m i).map star) ∧ v.Frame m m' := by
    intro m' h
    refine ⟨fun i hi => h.cref ?_ i hi, h.2⟩
    intro y
    cases v.conj <;> simp [cj]
  unfold VView.conjugateSelf
  split
  · obtain ⟨m', a, b⟩ := key v.reverse hw.reverse hl.reverse
    exact ⟨m', a, fin m' b.of_reverse⟩
  · obtain ⟨m', a, b⟩ := key v hw hl
    exact ⟨m', a, fin m' b⟩

/-- **C06** `clip(thresh)`: elements with absolute value below the threshold become 0, the others
are unchanged. -/
theorem clip_spec {R : Type _} [LinearOrder R] [CommRing K] [StarRing K] (abs : K → R)
    (habs : ∀ x, abs (star x) = abs x) (v : VView) (thresh : R) (m : Mem K) (hw : v.WF)
    (hl : v.Live m) :
    ∃ m', v.clip abs thresh m = some m' ∧
      (∀ i : Nat, i < v.size →
        v.cref m' i = (v.cref m i).map (fun x => if abs x < thresh then 0 else x)) ∧
      v.Frame m m' := by
  set f : K → K := fun x => if abs x < thresh then 0 else x with hf
  have key : ∀ w : VView, w.WF → w.Live m →
      ∃ m', w.clipNonneg abs thresh m = some m' ∧ w.Mapped f m m' := by
    intro w hw hl
    unfold VView.clipNonneg
    by_cases hs0 : w.step = 0
    · have h1 : w.size = 1 := by rcases hw with h | h; exact absurd hs0 h; exact h
      obtain ⟨m', a, b⟩ := w.mapped_modify f m h1 hl
      exact ⟨m', by simpa [hs0] using a, b⟩
    · obtain ⟨m', a, b⟩ := w.mapped_loopMod f m hw.inj hl
      refine ⟨m', ?_, b⟩
      by_cases hs1 : w.step = 1
      · rw [hs1] at a; simpa [hs1] using a
      · simpa [hs0, hs1] using a
  have fin : ∀ m', v.Mapped f m m' →
      (∀ i : Nat, i < v.size → v.cref m' i = (v.cref m i).map f) ∧ v.Frame m m' := by
    intro m' h
    refine ⟨fun i hi => h.cref ?_ i hi, h.2⟩
    intro y
    cases v.conj
    · simp [cj, hf]
    · simp only [cj, hf, habs, if_true]
      split <;> simp
  unfold VView.clip
  split
  · obtain ⟨m', a, b⟩ := key v.reverse hw.reverse hl.reverse
    exact ⟨m', a, fin m' b.of_reverse⟩
  · obtain ⟨m', a, b⟩ := key v hw hl
    exact ⟨m', a, fin m' b⟩

/-- **C06** `makeBasis(i)`: element `i` becomes 1 and all others 0. -/
theorem makeBasis_spec [CommRing K] [StarRing K] (v : VView) (i : Nat) (m : Mem K) (hw : v.WF)
    (hl : v.Live m) (hi : i < v.size) :
    ∃ m', v.makeBasis i m = some m' ∧ v.Holds m' (fun j => if j = i then 1 else 0) ∧
      v.Frame m m' := by
  obtain ⟨m1, h1, h2, h3⟩ := setZero_spec v m hw hl
  have hl1 : v.Live m1 := by
    intro j hj
    have := h2 j hj
    simp only [VView.cref, Mem.read, Option.map_eq_some_iff] at this
    obtain ⟨y, hy, _⟩ := this
    simp [hy]
  obtain ⟨m2, h4, h5, h6⟩ := setRef_spec v m1 i 1 hl1 hi
  refine ⟨m2, by simp [VView.makeBasis, h1, h4], ?_, ?_⟩
  · intro j hj
    by_cases hji : j = i
    · subst hji; simp [h5]
    · rw [setRef_other v m1 m2 i j 1 hw hl1 hi hj (Ne.symm hji) h4, h2 j hj]; simp [hji]
  · intro a ha
    rw [h6 a (fun e => ha ⟨i, hi, e⟩), h3 a ha]

/-- Non-vacuity for C04-C06: a reversed, conjugated, strided view that is live. -/
example : (⟨6, 3, -3, true⟩ : VView).WF ∧
    (⟨6, 3, -3, true⟩ : VView).Live (fun a => if 0 ≤ a ∧ a < 7 then some (⟨a, 1⟩ : GaussianInt) else none) := by
  refine ⟨Or.inl (by norm_num), ?_⟩
  intro i hi
  simp only [VView.addr] at *
  have : i = 0 ∨ i = 1 ∨ i = 2 := by omega
  rcases this with h | h | h <;> subst h <;> norm_num

end TMV
