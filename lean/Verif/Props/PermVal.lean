import Verif.Model.Perm
import Verif.Props.VecPermute
import Mathlib.LinearAlgebra.Matrix.Permutation
import Mathlib.LinearAlgebra.Matrix.Trace
import Mathlib.GroupTheory.Perm.Sign

/-! C20–C24: values of `Permutation`. -/
namespace TMV
variable {K : Type _}

namespace Perm

/-- Every interchange is with an existing position (needed by every use of the list). -/
def Valid (p : Perm) : Prop := ∀ x ∈ p.itsp, x < p.size

/-- Normalised interchange list: `k ≤ p[k] < n`. The comment in `cref` relies on it; all lists made by
the library satisfy it. -/
def Normal (p : Perm) : Prop := ∀ k, k < p.size → k ≤ p.fn k ∧ p.fn k < p.size

/-- The rearrangement done by `p*v`: entry `k` of `p*v` is entry `p.act k` of `v`. -/
def act (p : Perm) : Equiv.Perm Nat :=
  if p.isinv then (swapProd p.fn p.size 0)⁻¹ else swapProd p.fn p.size 0

theorem Normal.valid {p : Perm} (h : p.Normal) : p.Valid := by
  intro x hx
  obtain ⟨k, hk, rfl⟩ := List.mem_iff_getElem.mp hx
  have := (h k hk).2
  simpa [fn, List.getD_eq_getElem?_getD, hk] using this

theorem Valid.fn_lt {p : Perm} (h : p.Valid) : ∀ k, k < p.size → p.fn k < p.size := by
  intro k hk
  have hk' : k < p.itsp.length := hk
  have := h (p.itsp[k]) (List.getElem_mem hk')
  simpa [fn, List.getD_eq_getElem?_getD, hk'] using this

theorem getElem?_fn (p : Perm) {k : Nat} (hk : k < p.size) : p.itsp[k]? = some (p.fn k) := by
  have hk' : k < p.itsp.length := hk
  simp [fn, List.getD_eq_getElem?_getD, hk']

theorem act_lt {p : Perm} (h : p.Valid) {k : Nat} (hk : k < p.size) : p.act k < p.size := by
  unfold act
  split
  · exact swapProd_inv_lt _ _ _ _ (by omega) (fun k _ h2 => h.fn_lt k (by omega)) k hk
  · exact swapProd_lt _ _ _ _ (by omega) (fun k _ h2 => h.fn_lt k (by omega)) k hk

theorem act_inv_lt {p : Perm} (h : p.Valid) {k : Nat} (hk : k < p.size) : p.act⁻¹ k < p.size := by
  unfold act
  split
  · rw [inv_inv]; exact swapProd_lt _ _ _ _ (by omega) (fun k _ h2 => h.fn_lt k (by omega)) k hk
  · exact swapProd_inv_lt _ _ _ _ (by omega) (fun k _ h2 => h.fn_lt k (by omega)) k hk

theorem inverse_act (p : Perm) : p.inverse.act = p.act⁻¹ := by
  unfold act inverse
  cases p.isinv
  · rfl
  · exact (inv_inv _).symm

/-- `p * v`: new entry `k` is the old entry `p.act k`; nothing else is touched. -/
theorem apply_spec (p : Perm) (h : p.Valid) (v : VView) (hn : v.size = p.size) (m : Mem K) (hw : v.WF)
    (hl : v.Live m) :
    ∃ m', p.apply v m = some m' ∧
      (∀ k : Nat, k < v.size → m' (v.addr k) = m (v.addr (p.act k : Nat))) ∧ v.Frame m m' := by
  unfold apply act
  by_cases hi : p.isinv
  · simp only [hi, if_true]
    exact reversePermute_spec v p.fn 0 p.size m hw hl (by omega) (by omega)
      (fun k _ h2 => by rw [hn]; exact h.fn_lt k h2)
  · simp only [hi, if_false, Bool.false_eq_true]
    exact permute_spec v p.fn 0 p.size m hw hl (by omega) (by omega)
      (fun k _ h2 => by rw [hn]; exact h.fn_lt k h2)

theorem swapProd_fix (p : Nat → Nat) (n i : Nat) (hp : ∀ k, i ≤ k → k < i + n → k ≤ p k) (k : Nat)
    (hk : k < i) : swapProd p n i k = k := by
  induction n generalizing i with
  | zero => rfl
  | succ n ih =>
    simp only [swapProd, Equiv.Perm.mul_apply]
    rw [ih (i+1) (fun k a b => hp k (by omega) (by omega)) (by omega)]
    have := hp i le_rfl (by omega)
    exact Equiv.swap_apply_of_ne_of_ne (by omega) (by omega)

theorem swapProd_add (p : Nat → Nat) (a b i : Nat) :
    swapProd p (a+b) i = swapProd p a i * swapProd p b (i+a) := by
  induction a generalizing i with
  | zero => simp [swapProd]
  | succ a ih =>
    rw [show a + 1 + b = (a + b) + 1 by omega]
    simp only [swapProd]
    rw [ih, mul_assoc, show i + 1 + a = i + (a+1) by omega]

/-- The loop computes the current position of the 1 that started at `j`, stopping when it is final
(or known to differ from `i`). -/
theorem crefLoop_spec (p : Perm) (h : p.Normal) (i j : Nat) (hi : i < p.size) (hj : j < p.size) :
    ∀ (fuel k temp : Nat), k + fuel = i + 1 → temp = (swapProd p.fn k 0)⁻¹ j → k ≤ p.size →
      ∃ t, crefLoop p.itsp i fuel k temp = some t ∧
        (t = i ↔ swapProd p.fn p.size 0 i = j) := by
  intro fuel
  have split : ∀ k, k ≤ p.size →
      swapProd p.fn p.size 0 = swapProd p.fn k 0 * swapProd p.fn (p.size - k) k := by
    intro k hk
    have := swapProd_add p.fn k (p.size - k) 0
    rwa [Nat.add_sub_cancel' hk, Nat.zero_add] at this
  have fix : ∀ k, k ≤ p.size → ∀ x, x < k → swapProd p.fn (p.size - k) k x = x := by
    intro k hk x hx
    exact swapProd_fix p.fn _ k (fun y a b => (h y (by omega)).1) x hx
  -- stopping criterion
  have stop : ∀ k temp, k ≤ p.size → temp = (swapProd p.fn k 0)⁻¹ j → (i < k ∨ temp < k) →
      (temp = i ↔ swapProd p.fn p.size 0 i = j) := by
    intro k temp hk ht hlt
    have h1 : (temp = i ↔ swapProd p.fn k 0 i = j) := by
      rw [ht, Equiv.Perm.inv_eq_iff_eq]; exact eq_comm
    rw [split k hk, Equiv.Perm.mul_apply]
    rcases hlt with hlt | hlt
    · rw [fix k hk i hlt]; exact h1
    · have hfx := fix k hk temp hlt
      have h2 : swapProd p.fn k 0 (swapProd p.fn (p.size - k) k temp) = j := by
        rw [hfx, ht]; simp
      constructor
      · rintro rfl; exact h2
      · intro h3
        exact (swapProd p.fn (p.size - k) k).injective
          ((swapProd p.fn k 0).injective (h2.trans h3.symm))
  induction fuel with
  | zero =>
    intro k temp hk ht hkn
    exact ⟨temp, rfl, stop k temp hkn ht (Or.inl (by omega))⟩
  | succ fuel ih =>
    intro k temp hk ht hkn
    unfold crefLoop
    by_cases hc : k ≤ i ∧ k ≤ temp
    · rw [if_pos hc, getElem?_fn p (show k < p.size by omega)]
      simp only [Option.bind_eq_bind, Option.bind_some]
      apply ih (k+1) _ (by omega) _ (by omega)
      rw [swapProd_snoc, mul_inv_rev, Equiv.swap_inv, Equiv.Perm.mul_apply, ← ht, Nat.zero_add,
        Equiv.swap_apply_def]
      by_cases h1 : p.fn k = k
      · by_cases h2 : temp = k
        · simp [h1, h2]
        · simp [h1, h2]
      · by_cases h2 : temp = k
        · simp [h1, h2]
        · by_cases h3 : temp = p.fn k
          · simp [h1, h2, h3]
          · simp [h1, h2, h3]
    · rw [if_neg hc]
      exact ⟨temp, rfl, stop k temp hkn ht (by omega)⟩

/-- `cref` in terms of the rearrangement. -/
theorem cref_act (p : Perm) (h : p.Normal) (i j : Nat) (hi : i < p.size) (hj : j < p.size) :
    p.cref i j = some (if p.act i = j then 1 else 0) := by
  unfold cref act
  by_cases hv : p.isinv
  · simp only [hv, if_true]
    obtain ⟨t, a, b⟩ := crefLoop_spec p h j i hj hi (j+1) 0 i (by omega) (by simp [swapProd]) (by omega)
    rw [a, Option.map_some]
    congr 1
    have : (t = j ↔ (swapProd p.fn p.size 0)⁻¹ i = j) := by
      rw [b, Equiv.Perm.inv_eq_iff_eq]; exact eq_comm
    simp only [this]
  · simp only [hv, if_false, Bool.false_eq_true]
    obtain ⟨t, a, b⟩ := crefLoop_spec p h i j hi hj (i+1) 0 j (by omega) (by simp [swapProd]) (by omega)
    rw [a, Option.map_some]
    congr 1
    simp only [b]

end Perm

/-- The unit vector `e_j`. -/
def unitVec [Zero K] [One K] (j : Nat) : Nat → K := fun k => if k = j then 1 else 0

/-- **C20** for normalised lists (`_partial`: see `perm_cref_violated` for lists that are not normalised, which the
documentation allows): `p(i,j)` is 0 or 1, and it is 1 exactly when applying `p` to (a vector
holding) `e_j` gives `e_i`.  `K` is any element type with `0 ≠ 1`. -/
theorem perm_cref_spec_partial [Zero K] [One K] [NeZero (1 : K)] [Star K] (p : Perm) (h : p.Normal)
    (i j : Nat) (hi : i < p.size) (hj : j < p.size) (v : VView) (hn : v.size = p.size) (hw : v.WF)
    (m : Mem K) (hv : v.Holds m (unitVec j)) :
    ∃ m' b, p.apply v m = some m' ∧ p.cref i j = some b ∧ (b = 0 ∨ b = 1) ∧
      (b = 1 ↔ v.Holds m' (unitVec i)) := by
  have hl : v.Live m := by
    intro k hk
    have := hv k hk
    simp only [VView.cref, Mem.read, Option.map_eq_some_iff] at this
    obtain ⟨x, hx, _⟩ := this
    simp [hx]
  obtain ⟨m', a, b, c⟩ := p.apply_spec h.valid v hn m hw hl
  have hv' : v.Holds m' (fun k => unitVec j (p.act k)) := by
    intro k hk
    have hk' := p.act_lt h.valid (hn ▸ hk)
    have := hv (p.act k) (hn ▸ hk')
    simp only [VView.cref, Mem.read] at this ⊢
    rw [b k hk, this]
  refine ⟨m', _, a, p.cref_act h i j hi hj, ?_, ?_⟩
  · split_ifs <;> simp
  · constructor
    · intro hb k hk
      have hpi : p.act i = j := by by_contra hne; simp [hne] at hb
      rw [hv' k hk]
      simp only [unitVec]
      have : (p.act k = j ↔ k = i) := by
        rw [← hpi]; exact p.act.injective.eq_iff
      simp [this]
    · intro hh
      have h1 := hh i (hn ▸ hi)
      rw [hv' i (hn ▸ hi)] at h1
      simp only [unitVec, if_true, Option.some.injEq] at h1
      by_contra hne
      have : ¬ p.act i = j := by intro e; simp [e] at hne
      simp [this] at h1

/-- **C20**: every row and every column of a normalised permutation has exactly one 1. -/
theorem perm_cref_unique_partial (p : Perm) (h : p.Normal) :
    (∀ i, i < p.size → ∃! j, j < p.size ∧ p.cref i j = some 1) ∧
    (∀ j, j < p.size → ∃! i, i < p.size ∧ p.cref i j = some 1) := by
  have key : ∀ i j, i < p.size → j < p.size → (p.cref i j = some 1 ↔ p.act i = j) := by
    intro i j hi hj
    rw [p.cref_act h i j hi hj]
    split_ifs with e <;> simp [e]
  constructor
  · intro i hi
    refine ⟨p.act i, ⟨p.act_lt h.valid hi, (key _ _ hi (p.act_lt h.valid hi)).mpr rfl⟩, ?_⟩
    rintro j ⟨hj, e⟩
    exact ((key i j hi hj).mp e).symm
  · intro j hj
    have hlt := p.act_inv_lt h.valid hj
    refine ⟨p.act⁻¹ j, ⟨hlt, (key _ _ hlt hj).mpr (by simp)⟩, ?_⟩
    rintro i ⟨hi, e⟩
    rw [Equiv.Perm.eq_inv_iff_eq]
    exact (key i j hi hj).mp e

/-- **C20 violated** for the list `[0,0]` (accepted by the documented constructor): it exchanges two
entries, but `p(0,1)` is 0 and `p(1,0)` is 1. -/
theorem perm_cref_violated :
    (⟨[0,0], false⟩ : Perm).Valid ∧ (⟨[0,0], false⟩ : Perm).act 0 = 1 ∧
    (⟨[0,0], false⟩ : Perm).cref 0 1 = some 0 ∧ (⟨[0,0], false⟩ : Perm).cref 0 0 = some 1 := by
  unfold Perm.Valid
  decide

/-- **C21**: `p.inverse() * (p * v) == v` and `p * (p.inverse() * v) == v`, as whole-memory equality. -/
theorem perm_inverse_apply (p : Perm) (h : p.Valid) (v : VView) (hn : v.size = p.size) (m : Mem K)
    (hw : v.WF) (hl : v.Live m) :
    (p.apply v m).bind (p.inverse.apply v) = some m ∧
    (p.inverse.apply v m).bind (p.apply v) = some m := by
  have := permute_reversePermute v p.fn 0 p.size m hw hl (by omega) (by omega)
    (fun k _ h2 => by rw [hn]; exact h.fn_lt k h2)
  unfold Perm.apply Perm.inverse
  cases p.isinv
  · exact this
  · exact this.symm

/-- **C21**: `p.inverse()` has the transposed elements (no hypothesis on the list), and inverting twice
gives `p` back. -/
theorem perm_inverse_cref (p : Perm) (i j : Nat) :
    p.inverse.cref i j = p.cref j i ∧ p.inverse.inverse = p := by
  constructor
  · unfold Perm.cref Perm.inverse; cases p.isinv <;> simp
  · cases p; simp [Perm.inverse]

/-- The matrix whose elements are `p(i,j)`. -/
def Perm.toMatrix (p : Perm) : Matrix (Fin p.size) (Fin p.size) ℤ :=
  Matrix.of fun i j => (p.cref i j).getD 0

theorem detLoop_spec (l : List Nat) : ∀ (i : Nat) (d : Int) (_ : ∀ k, k < l.length → i + k < N ∧ l.getD k 0 < N)
    (τ : Equiv.Perm (Fin N)) (_ : ∀ x : Fin N, (τ x : Nat) = swapProd (fun k => l.getD (k - i) 0) l.length i x),
    Perm.detLoop l i d = d * (Equiv.Perm.sign τ : ℤ) := by
  induction l with
  | nil =>
    intro i d _ τ hτ
    have : τ = 1 := by ext x; simp [hτ x, swapProd]
    simp [Perm.detLoop, this]
  | cons a l ih =>
    intro i d hl τ hτ
    have h0 := hl 0 (by simp)
    simp only [List.getD_cons_zero, Nat.add_zero] at h0
    let s : Equiv.Perm (Fin N) := Equiv.swap ⟨i, h0.1⟩ ⟨a, h0.2⟩
    have e2 : swapProd (fun k => (a :: l).getD (k - i) 0) l.length (i+1) =
        swapProd (fun k => l.getD (k - (i+1)) 0) l.length (i+1) := by
      have : ∀ n j, i + 1 ≤ j → swapProd (fun k => (a :: l).getD (k - i) 0) n j =
          swapProd (fun k => l.getD (k - (i+1)) 0) n j := by
        intro n
        induction n with
        | zero => intro j _; rfl
        | succ n ihn =>
          intro j hj
          simp only [swapProd]
          rw [ihn (j+1) (by omega), show j - i = (j - (i+1)) + 1 by omega, List.getD_cons_succ]
      exact this _ _ le_rfl
    have hs : ∀ x : Fin N, (s x : Nat) = Equiv.swap i a x := by
      intro x
      simp only [s, Equiv.swap_apply_def, Fin.ext_iff]
      split_ifs <;> rfl
    have hτ' : ∀ x : Fin N, ((s * τ) x : Nat) = swapProd (fun k => l.getD (k - (i+1)) 0) l.length (i+1) x := by
      intro x
      rw [Equiv.Perm.mul_apply, hs, hτ]
      simp only [List.length_cons, swapProd, Equiv.Perm.mul_apply, Nat.sub_self, List.getD_cons_zero]
      rw [Equiv.swap_apply_self, e2]
    have := ih (i+1) (if a ≠ i then -d else d) (by
      intro k hk
      have := hl (k+1) (by simpa using hk)
      rw [List.getD_cons_succ] at this
      exact ⟨by omega, this.2⟩) (s * τ) hτ'
    rw [Perm.detLoop, this, Equiv.Perm.sign_mul]
    by_cases hai : a = i
    · subst hai
      simp [s]
    · have : Equiv.Perm.sign s = -1 := by
        simp only [s]; apply Equiv.Perm.sign_swap; simp [Fin.ext_iff]; omega
      simp [hai, this]

/-- **C22**: `det()` is the sign of the rearrangement `p*v`, for every (not necessarily normalised) list.
`τ` is the rearrangement as a permutation of the `n` positions. -/
theorem perm_det_sign (p : Perm) (h : p.Valid) :
    ∃ τ : Equiv.Perm (Fin p.size), (∀ k, (τ k : Nat) = p.act k) ∧ p.det = (Equiv.Perm.sign τ : ℤ) := by
  let mk : (e : Equiv.Perm Nat) → (∀ k, k < p.size → e k < p.size) → (∀ k, k < p.size → e⁻¹ k < p.size) →
      Equiv.Perm (Fin p.size) := fun e h1 h2 =>
    { toFun := fun k => ⟨e k, h1 k k.2⟩
      invFun := fun k => ⟨e⁻¹ k, h2 k k.2⟩
      left_inv := fun k => by ext; simp
      right_inv := fun k => by ext; simp }
  have l1 : ∀ k, k < p.size → swapProd p.fn p.size 0 k < p.size :=
    fun k hk => swapProd_lt _ _ _ _ (by omega) (fun k _ h2 => h.fn_lt k (by omega)) k hk
  have l2 : ∀ k, k < p.size → (swapProd p.fn p.size 0)⁻¹ k < p.size :=
    fun k hk => swapProd_inv_lt _ _ _ _ (by omega) (fun k _ h2 => h.fn_lt k (by omega)) k hk
  let τ := mk (swapProd p.fn p.size 0) l1 l2
  have hd : p.det = (Equiv.Perm.sign τ : ℤ) := by
    have := detLoop_spec (N := p.size) p.itsp 0 1 (by
      intro k hk
      exact ⟨by rw [Nat.zero_add]; exact hk, h.fn_lt k hk⟩) τ (by
        intro x
        simp only [Nat.sub_zero]
        rfl)
    rw [one_mul] at this
    exact this
  by_cases hv : p.isinv
  · refine ⟨τ⁻¹, ?_, by rw [Equiv.Perm.sign_inv]; exact hd⟩
    intro k
    simp only [Perm.act, hv, if_true]
    rfl
  · refine ⟨τ, ?_, hd⟩
    intro k
    simp only [Perm.act, hv, if_false, Bool.false_eq_true]
    rfl

/-- **C22**, matrix form: for normalised lists `p.det()` is the determinant of the matrix with elements `p(i,j)`. -/
theorem perm_det_matrix (p : Perm) (h : p.Normal) : p.det = p.toMatrix.det := by
  obtain ⟨τ, h1, h2⟩ := perm_det_sign p h.valid
  have : p.toMatrix = τ.permMatrix ℤ := by
    ext i j
    simp only [Perm.toMatrix, Matrix.of_apply, p.cref_act h i j i.2 j.2, Option.getD_some,
      Equiv.Perm.permMatrix, PEquiv.toMatrix_apply, Equiv.toPEquiv_apply, Option.mem_some_iff,
      Fin.ext_iff, h1]
  rw [h2, this, Matrix.det_permutation]; simp

theorem swapIdx_spec (n k pk : Nat) (hk : k < n) (hp : pk < n) (index : Nat → Nat) :
    Perm.swapIdx n k pk index = some (fun x => index (Equiv.swap k pk x)) := by
  rw [Perm.swapIdx, if_pos ⟨hk, hp⟩]
  show some _ = some _
  congr 1
  funext x
  simp only [Function.update_apply, Equiv.swap_apply_def]
  split_ifs <;> simp_all

theorem makeIndex_spec (p : Perm) (h : p.Valid) : p.makeIndex = some (fun k => p.act k) := by
  have step : ∀ k index, k < p.size →
      Perm.indexStep p.itsp.length k (p.fn k) index =
        some (fun x => index (Equiv.swap k (p.fn k) x)) := by
    intro k index hk
    unfold Perm.indexStep
    by_cases hf : p.fn k = k
    · simp [hf]
    · simp only [ne_eq, hf, not_false_eq_true, if_true]
      exact swapIdx_spec _ _ _ hk (h.fn_lt k hk) _
  unfold Perm.makeIndex Perm.act
  by_cases hv : p.isinv
  · simp only [hv, if_true]
    have : ∀ n index, n ≤ p.size →
        Perm.indexBwd p.itsp n index = some (fun x => index ((swapProd p.fn n 0)⁻¹ x)) := by
      intro n
      induction n with
      | zero => intro index _; simp [Perm.indexBwd, swapProd]
      | succ n ih =>
        intro index hn
        simp only [Perm.indexBwd, p.getElem?_fn (show n < p.size by omega), Option.bind_eq_bind,
          Option.bind_some]
        rw [step n index (by omega), Option.bind_some, ih _ (by omega)]
        congr 1
        funext x
        rw [swapProd_snoc, mul_inv_rev, Equiv.swap_inv, Equiv.Perm.mul_apply, Nat.zero_add]
    rw [this _ _ le_rfl]; rfl
  · simp only [hv, if_false, Bool.false_eq_true]
    have : ∀ n k index, k + n = p.size →
        Perm.indexFwd p.itsp n k index = some (fun x => index (swapProd p.fn n k x)) := by
      intro n
      induction n with
      | zero => intro k index _; simp [Perm.indexFwd, swapProd]
      | succ n ih =>
        intro k index hn
        simp only [Perm.indexFwd, p.getElem?_fn (show k < p.size by omega), Option.bind_eq_bind,
          Option.bind_some]
        rw [step k index (by omega), Option.bind_some, ih _ _ (by omega)]
        rfl
    rw [this _ _ _ (by omega)]; rfl

theorem countFix_spec (t : Nat → Nat) (n k c : Nat) :
    Perm.countFix t n k c = c + ((List.range' k n).filter (fun x => decide (t x = x))).length := by
  induction n generalizing k c with
  | zero => simp [Perm.countFix]
  | succ n ih =>
    rw [Perm.countFix, ih, List.range'_succ, List.filter_cons]
    by_cases h : t k = k
    · simp [h]; omega
    · simp [h]

/-- **C23**: `trace()` never fails and counts the positions left in place by `p*v`. -/
theorem perm_trace_spec (p : Perm) (h : p.Valid) :
    p.trace = some ((Finset.range p.size).filter (fun k => p.act k = k)).card := by
  unfold Perm.trace
  rw [makeIndex_spec p h]
  simp only [Option.bind_eq_bind, Option.bind_some, countFix_spec, Nat.zero_add]
  congr 1
  rw [Finset.card_def, Finset.filter_val, Finset.range_val, Multiset.range, ← List.range_eq_range']
  simp

/-- **C23**, matrix form. -/
theorem perm_trace_matrix (p : Perm) (h : p.Normal) :
    ∃ t, p.trace = some t ∧ (t : ℤ) = p.toMatrix.trace := by
  refine ⟨_, perm_trace_spec p h.valid, ?_⟩
  simp only [Matrix.trace, Matrix.diag, Perm.toMatrix, Matrix.of_apply]
  have : ∀ i : Fin p.size, (p.cref i i).getD 0 = if p.act i = i then 1 else 0 := by
    intro i; rw [p.cref_act h i i i.2 i.2]; rfl
  simp only [this]
  rw [Finset.sum_fin_eq_sum_range, Finset.card_filter]
  push_cast
  apply Finset.sum_congr rfl
  intro x hx
  have := Finset.mem_range.mp hx
  simp [this]

theorem eqLoop_spec (a b : Nat → Nat) (a' b' : Nat → Option Nat) (n i : Nat)
    (ha : ∀ k, i ≤ k → k < i + n → a' k = some (a k)) (hb : ∀ k, i ≤ k → k < i + n → b' k = some (b k)) :
    ∃ r, Perm.eqLoop a' b' n i = some r ∧ (r = true ↔ ∀ k, i ≤ k → k < i + n → a k = b k) := by
  induction n generalizing i with
  | zero => exact ⟨true, rfl, by simp; omega⟩
  | succ n ih =>
    obtain ⟨r, h1, h2⟩ := ih (i+1) (fun k x y => ha k (by omega) (by omega))
      (fun k x y => hb k (by omega) (by omega))
    simp only [Perm.eqLoop, ha i le_rfl (by omega), hb i le_rfl (by omega), Option.bind_eq_bind,
      Option.bind_some]
    by_cases e : a i = b i
    · refine ⟨r, by simp [e, h1], ?_⟩
      rw [h2]
      constructor
      · intro h k x y
        rcases Nat.lt_or_eq_of_le x with x | x
        · exact h k x (by omega)
        · exact x ▸ e
      · intro h k x y; exact h k (by omega) (by omega)
    · refine ⟨false, by simp [e], ?_⟩
      simp only [Bool.false_eq_true, false_iff]
      intro h; exact e (h i le_rfl (by omega))

/-- A normalised list is determined by the rearrangement. -/
theorem swapProd_inj (p q : Nat → Nat) (n i : Nat) (hp : ∀ k, i ≤ k → k < i + n → k ≤ p k)
    (hq : ∀ k, i ≤ k → k < i + n → k ≤ q k)
    (hpn : ∀ k, i ≤ k → k < i + n → p k < i + n) (hqn : ∀ k, i ≤ k → k < i + n → q k < i + n)
    (h : ∀ k, k < i + n → swapProd p n i k = swapProd q n i k) :
    ∀ k, i ≤ k → k < i + n → p k = q k := by
  induction n generalizing i with
  | zero => intro k a b; omega
  | succ n ih =>
    have h0 := h i (by omega)
    simp only [swapProd, Equiv.Perm.mul_apply] at h0
    rw [Perm.swapProd_fix p n (i+1) (fun k a b => hp k (by omega) (by omega)) i (by omega),
      Perm.swapProd_fix q n (i+1) (fun k a b => hq k (by omega) (by omega)) i (by omega),
      Equiv.swap_apply_left, Equiv.swap_apply_left] at h0
    have hr := ih (i+1) (fun k a b => hp k (by omega) (by omega)) (fun k a b => hq k (by omega) (by omega))
      (fun k a b => by have := hpn k (by omega) (by omega); omega)
      (fun k a b => by have := hqn k (by omega) (by omega); omega)
      (by
        intro k hk
        have := h k (by omega)
        simp only [swapProd, Equiv.Perm.mul_apply, h0] at this
        exact (Equiv.swap i (q i)).injective this)
    intro k a b
    rcases Nat.lt_or_eq_of_le a with a | a
    · exact hr k a (by omega)
    · exact a ▸ h0

/-- **C24** for normalised lists: `p1 == p2` (sizes equal) is true iff `p1` and `p2` rearrange every vector
identically, whichever storage direction each uses.  Missing (`_partial`): lists that are not
normalised, see `perm_eq_violated`. -/
theorem perm_eq_iff_partial (p1 p2 : Perm) (h1 : p1.Normal) (h2 : p2.Normal) (hn : p1.size = p2.size) :
    ∃ b, p1.eq p2 = some b ∧
      (b = true ↔ ∀ k, k < p1.size → p1.act k = p2.act k) := by
  unfold Perm.eq
  by_cases hv : p1.isinv = p2.isinv
  · rw [if_pos hv]
    obtain ⟨r, a, b⟩ := eqLoop_spec p1.fn p2.fn (fun i => p1.itsp[i]?) (fun i => p2.itsp[i]?) p1.size 0
      (fun k _ hk => p1.getElem?_fn (by omega)) (fun k _ hk => p2.getElem?_fn (by omega))
    refine ⟨r, a, ?_⟩
    rw [b]
    have fwd : (∀ k, 0 ≤ k → k < 0 + p1.size → p1.fn k = p2.fn k) →
        swapProd p1.fn p1.size 0 = swapProd p2.fn p2.size 0 := by
      intro h
      rw [← hn]
      have : ∀ n i, i + n ≤ p1.size → swapProd p1.fn n i = swapProd p2.fn n i := by
        intro n
        induction n with
        | zero => intro i _; rfl
        | succ n ih => intro i hi; simp only [swapProd]; rw [ih (i+1) (by omega), h i (by omega) (by omega)]
      exact this _ _ (by omega)
    constructor
    · intro h k hk
      simp only [Perm.act, hv, fwd h]
    · intro h
      have hb : ∀ k, k < p1.size → swapProd p1.fn p1.size 0 k = swapProd p2.fn p1.size 0 k := by
        intro k hk
        simp only [Perm.act, hv, ← hn] at h
        by_cases hv2 : p2.isinv
        · simp only [hv2, if_true] at h
          have hlt := swapProd_lt p1.fn p1.size 0 p1.size (by omega)
            (fun k _ h2 => h1.valid.fn_lt k (by omega)) k hk
          have := h _ hlt
          rw [Equiv.Perm.eq_inv_iff_eq, Equiv.Perm.inv_def, Equiv.symm_apply_apply] at this
          exact this.symm
        · simp only [hv2, if_false, Bool.false_eq_true] at h
          exact h k hk
      exact swapProd_inj p1.fn p2.fn p1.size 0 (fun k _ hk => (h1 k (by omega)).1)
        (fun k _ hk => (h2 k (by omega)).1) (fun k _ hk => by have := (h1 k (by omega)).2; omega)
        (fun k _ hk => by have := (h2 k (by omega)).2; omega) (fun k hk => hb k (by omega))
  · rw [if_neg hv, makeIndex_spec p1 h1.valid, makeIndex_spec p2 h2.valid]
    simp only [Option.bind_eq_bind, Option.bind_some]
    obtain ⟨r, a, b⟩ := eqLoop_spec (fun k => p1.act k) (fun k => p2.act k) _ _ p1.size 0
      (fun k _ _ => rfl) (fun k _ _ => rfl)
    refine ⟨r, a, ?_⟩
    rw [b]; simp

/-- **C24 violated**: `[1,1]` and `[0,0]` are both accepted and both exchange the two entries, but
compare unequal. -/
theorem perm_eq_violated :
    (⟨[1,1], false⟩ : Perm).Valid ∧ (⟨[0,0], false⟩ : Perm).Valid ∧
    (∀ k, k < 2 → (⟨[1,1], false⟩ : Perm).act k = (⟨[0,0], false⟩ : Perm).act k) ∧
    (⟨[1,1], false⟩ : Perm).eq ⟨[0,0], false⟩ = some false := by
  unfold Perm.Valid
  decide

/-- `setToIdentity` gives the identity (also `Permutation(n)`), and it is normalised. -/
theorem perm_identity (n : Nat) : (Perm.ident n).Normal ∧ (Perm.ident n).size = n ∧
    ∀ k, (Perm.ident n).act k = k := by
  have hs : (Perm.ident n).size = n := by simp [Perm.ident, Perm.size]
  have hf : ∀ k, k < n → (Perm.ident n).fn k = k := by
    intro k hk; simp [Perm.ident, Perm.fn, List.getD_eq_getElem?_getD, hk]
  refine ⟨fun k hk => by rw [hf k (hs ▸ hk)]; omega, hs, ?_⟩
  have : ∀ m i, i + m ≤ n → swapProd (Perm.ident n).fn m i = 1 := by
    intro m
    induction m with
    | zero => intro i _; rfl
    | succ m ih => intro i hi; simp [swapProd, ih (i+1) (by omega), hf i (by omega), Equiv.Perm.one_def]
  intro k
  have e : (Perm.ident n).act = 1 := by
    simp only [Perm.act, hs]; simp [Perm.ident]; exact this n 0 (by omega)
  rw [e]; rfl

-- non-vacuity: a normalised 3-cycle
example : (⟨[1,2,2], false⟩ : Perm).Normal := by
  intro k hk
  have : k < 3 := hk
  interval_cases k <;> decide
example : (⟨[1,2,2], true⟩ : Perm).act 0 = 2 := by decide
example : (⟨[1,2,2], false⟩ : Perm).det = 1 ∧ (⟨[1,2,2], false⟩ : Perm).trace = some 0 := by decide

end TMV
