import Verif.Model.Givens
import Verif.Props.VecTwo
import Mathlib.Tactic.LinearCombination

/-! Properties C35 (Givens rotations) and C48 (complex division). -/
namespace TMV
noncomputable section
open Classical

/-! ### C48 -/

/-- **C48**: the reciprocal is exact on every branch. -/
theorem inverseOfC_spec (z : ℂ) (h : z ≠ 0) : inverseOfC z * z = 1 := by
  have key : inverseOfC z = z⁻¹ := by
    unfold inverseOfC
    by_cases h1 : |z.re| > |z.im|
    · have hr : z.re ≠ 0 := by
        intro e; rw [e, abs_zero] at h1; exact absurd (abs_nonneg z.im) (not_le.mpr h1)
      rw [if_pos h1]
      have hp : z.re * z.re + z.im * z.im ≠ 0 := by
        have := mul_self_pos.mpr hr; have := mul_self_nonneg z.im; linarith
      have hq : 1 + (z.im / z.re) * (z.im / z.re) ≠ 0 := by
        have := mul_self_nonneg (z.im / z.re); linarith
      have hq' : z.re * (1 + (z.im / z.re) * (z.im / z.re)) = (z.re * z.re + z.im * z.im) / z.re := by
        field_simp
      apply Complex.ext
      · simp only [Complex.inv_re, Complex.normSq_apply, hq']
        field_simp
      · simp only [Complex.inv_im, Complex.normSq_apply, hq']
        field_simp
    · rw [if_neg h1]
      have hi : z.im ≠ 0 := by
        intro e
        rw [e, abs_zero] at h1
        have : z.re = 0 := abs_eq_zero.mp (le_antisymm (not_lt.mp h1) (abs_nonneg _))
        exact h (Complex.ext this e)
      rw [if_pos (abs_pos.mpr hi)]
      have hp : z.re * z.re + z.im * z.im ≠ 0 := by
        have := mul_self_pos.mpr hi; have := mul_self_nonneg z.re; linarith
      have hq' : z.im * (1 + (z.re / z.im) * (z.re / z.im)) = (z.re * z.re + z.im * z.im) / z.im := by
        field_simp; ring
      apply Complex.ext
      · simp only [Complex.inv_re, Complex.normSq_apply, hq']
        field_simp
      · simp only [Complex.inv_im, Complex.normSq_apply, hq']
        field_simp
  rw [key, inv_mul_cancel₀ h]

/-- **C48**: `TMV_Divide` is division, for each combination of real and complex arguments. -/
theorem divide_spec (x y : ℂ) (a b : ℝ) (hy : y ≠ 0) (hb : b ≠ 0) :
    divideCC x y * y = x ∧ divideRC a y * y = a ∧ divideCR x b * b = x := by
  refine ⟨?_, ?_, ?_⟩
  · rw [divideCC, mul_assoc, inverseOfC_spec y hy, mul_one]
  · rw [divideRC, mul_assoc, inverseOfC_spec y hy, mul_one]
  · apply Complex.ext <;> simp [divideCR, hb]

/-- Non-vacuity of C48: a number in the second branch. -/
example : inverseOfC ⟨3, -4⟩ * ⟨3, -4⟩ = 1 :=
  inverseOfC_spec _ (by intro h; have := congrArg Complex.re h; norm_num at this)

/-! ### C35 -/

variable {K : Type} [RCLike K]

/-- What the rotation needs of `TMV_SIGN`: the phase of a nonzero number. -/
def SignOK (sgn : K → ℝ → K) : Prop := ∀ z : K, z ≠ 0 → sgn z ‖z‖ = z / ((‖z‖ : ℝ) : K)

theorem signR_ok : SignOK signR := by
  intro z hz
  rw [signR]
  rcases lt_or_gt_of_ne hz with h | h
  · rw [if_neg (by simpa using h.le)]
    simp only [Real.norm_eq_abs, abs_of_neg h, RCLike.ofReal_real_eq_id, id]
    field_simp
  · rw [if_pos h]
    simp only [Real.norm_eq_abs, abs_of_pos h, RCLike.ofReal_real_eq_id, id]
    field_simp

theorem signC_ok : SignOK signC := by
  intro z hz
  rw [signC, if_pos (norm_pos_iff.mpr hz)]
  apply Complex.ext <;> simp [divideCR]

theorem maxAbs_eq_zero {x : K} : maxAbs x = 0 ↔ x = 0 := by
  rw [maxAbs]
  constructor
  · intro h
    have h1 : |RCLike.re x| ≤ 0 := h ▸ le_max_left _ _
    have h2 : |RCLike.im x| ≤ 0 := h ▸ le_max_right _ _
    have h1 := abs_nonpos_iff.mp h1
    have h2 := abs_nonpos_iff.mp h2
    apply RCLike.ext
    · simpa using h1
    · simpa using h2
  · rintro rfl; simp

theorem maxAbs_nonneg (x : K) : 0 ≤ maxAbs x := le_max_of_le_left (abs_nonneg _)

theorem maxAbs_sq_le (x : K) : maxAbs x ^ 2 ≤ RCLike.normSq x := by
  rw [RCLike.normSq_apply, maxAbs]
  rcases max_choice |RCLike.re x| |RCLike.im x| with h | h <;> rw [h, sq_abs] <;>
    nlinarith [mul_self_nonneg (RCLike.re x), mul_self_nonneg (RCLike.im x)]

theorem normSq_le_maxAbs (x : K) : RCLike.normSq x ≤ 2 * maxAbs x ^ 2 := by
  rw [RCLike.normSq_apply]
  have h1 : |RCLike.re x| ≤ maxAbs x := le_max_left _ _
  have h2 : |RCLike.im x| ≤ maxAbs x := le_max_right _ _
  have := mul_self_le_mul_self (abs_nonneg _) h1
  have := mul_self_le_mul_self (abs_nonneg _) h2
  rw [abs_mul_abs_self] at *
  nlinarith

/-- `‖z‖²` as an element of `K`. -/
theorem mul_star_eq (z : K) : z * star z = ((RCLike.normSq z : ℝ) : K) := by
  have := RCLike.mul_conj z
  rw [RCLike.normSq_eq_def'] 
  simpa using this

theorem star_mul_eq (z : K) : star z * z = ((RCLike.normSq z : ℝ) : K) := by
  rw [mul_comm, mul_star_eq]

/-- **C35**: whatever branch is taken, with `(r, y', G)` the result of `GivensRotate(x,y)`: the new `y` is 0, the
lower row of `G` annihilates `(x,y)` exactly, `c` is not negative, and `G` is unitary up to the factor
`1 + n` with `0 ≤ n ≤ 2 eps`, with `G (x,y) = ((1+n) r, 0)`.  `n = 0` unless the one element is negligible
against the other (`‖y‖ ≤ 2 √eps ‖x‖` or `‖x‖ ≤ √eps ‖y‖`, up to that margin). -/
theorem givensRotate_spec (eps : ℝ) (he : 0 ≤ eps) (sgn : K → ℝ → K) (hs : SignOK sgn) (x y : K) :
    ∃ n : ℝ, 0 ≤ n ∧ n ≤ 2 * eps ∧
      (givensRotate eps sgn x y).2.1 = 0 ∧
      0 ≤ (givensRotate eps sgn x y).2.2.c ∧
      (givensRotate eps sgn x y).2.2.c ^ 2 + RCLike.normSq (givensRotate eps sgn x y).2.2.s = 1 + n ∧
      ((givensRotate eps sgn x y).2.2.c : K) * x + (givensRotate eps sgn x y).2.2.s * y
        = ((1 + n : ℝ) : K) * (givensRotate eps sgn x y).1 ∧
      ((givensRotate eps sgn x y).2.2.c : K) * y - star (givensRotate eps sgn x y).2.2.s * x = 0 ∧
      (0 < n → maxAbs y ≤ Real.sqrt eps * maxAbs x ∨ RCLike.normSq x ≤ eps * RCLike.normSq y) := by
  unfold givensRotate
  by_cases h1 : maxAbs y = 0
  · have hy := maxAbs_eq_zero.mp h1
    rw [if_pos h1]
    exact ⟨0, le_rfl, by linarith, rfl, zero_le_one, by simp, by simp, by simp [hy], by simp⟩
  rw [if_neg h1]
  have hy : y ≠ 0 := fun e => h1 (maxAbs_eq_zero.mpr e)
  by_cases h2 : maxAbs x = 0
  · have hx := maxAbs_eq_zero.mp h2
    have hsy : star y ≠ 0 := star_ne_zero.mpr hy
    have hny : ((‖y‖ : ℝ) : K) ≠ 0 := by simpa using hy
    have hsg : sgn (star y) ‖y‖ = star y / ((‖y‖ : ℝ) : K) := by
      have := hs (star y) hsy
      rwa [norm_star] at this
    rw [if_pos h2]
    refine ⟨0, le_rfl, by linarith, rfl, le_rfl, ?_, ?_, ?_, by simp⟩
    · simp only [hsg]
      rw [map_div₀, RCLike.normSq_eq_def', RCLike.normSq_eq_def', norm_star, RCLike.norm_ofReal, abs_norm]
      have : ‖y‖ ≠ 0 := norm_ne_zero_iff.mpr hy
      field_simp
      ring
    · simp only [hsg, hx]
      rw [div_mul_eq_mul_div, star_mul_eq, RCLike.normSq_eq_def']
      push_cast
      field_simp
      ring
    · simp [hx]
  rw [if_neg h2]
  have hx : x ≠ 0 := fun e => h2 (maxAbs_eq_zero.mpr e)
  have hsx : star x ≠ 0 := star_ne_zero.mpr hx
  have hsy : star y ≠ 0 := star_ne_zero.mpr hy
  by_cases h3 : maxAbs x > maxAbs y
  · rw [if_pos h3]
    by_cases h4 : maxAbs y ≤ Real.sqrt eps * maxAbs x
    · rw [if_pos h4]
      refine ⟨RCLike.normSq (y / x), RCLike.normSq_nonneg _, ?_, rfl, zero_le_one, ?_, ?_, ?_, ?_⟩
      · rw [map_div₀, div_le_iff₀ (RCLike.normSq_pos.mpr hx)]
        have a := normSq_le_maxAbs y
        have b := maxAbs_sq_le x
        have c : maxAbs y ^ 2 ≤ eps * maxAbs x ^ 2 := by
          have := pow_le_pow_left₀ (maxAbs_nonneg y) h4 2
          rwa [mul_pow, Real.sq_sqrt he] at this
        have := mul_le_mul_of_nonneg_left b he
        linarith
      · simp only [one_pow]
        rw [← star_div₀]
        simp [RCLike.star_def, RCLike.normSq_conj]
      · simp only
        have := star_mul_eq (y / x)
        rw [star_div₀] at this
        rw [RCLike.ofReal_add, ← this]
        push_cast
        field_simp
      · simp only [star_div₀, star_star]
        push_cast
        field_simp
        ring
      · intro _; exact Or.inl h4
    · rw [if_neg h4]
      have hn : 0 ≤ RCLike.normSq (y / x) := RCLike.normSq_nonneg _
      have hf : 0 < Real.sqrt (1 + RCLike.normSq (y / x)) := Real.sqrt_pos.mpr (by linarith)
      have hff : Real.sqrt (1 + RCLike.normSq (y / x)) ^ 2 = 1 + RCLike.normSq (y / x) :=
        Real.sq_sqrt (by linarith)
      have hyx := star_mul_eq (y / x)
      refine ⟨0, le_rfl, by linarith, rfl, ?_, ?_, ?_, ?_, by simp⟩
      · exact (one_div_pos.mpr hf).le
      · simp only
        rw [map_mul, RCLike.star_def, RCLike.normSq_conj, RCLike.normSq_eq_def' (K := K) (((1 / Real.sqrt (1 + RCLike.normSq (y / x)) : ℝ)) : K),
          RCLike.norm_ofReal, sq_abs, ← one_add_mul, div_pow, hff]
        have : 1 + RCLike.normSq (y / x) ≠ 0 := by linarith
        field_simp
        simp
      · simp only
        generalize Real.sqrt (1 + RCLike.normSq (y / x)) = f at hf hff ⊢
        generalize RCLike.normSq (y / x) = n at hn hff hyx ⊢
        have hfK : ((f : ℝ) : K) ≠ 0 := by simpa using hf.ne'
        have hf1 : (1 : K) + ((f : ℝ) : K) ≠ 0 := by
          have : (1 + f : ℝ) ≠ 0 := by linarith
          exact_mod_cast (RCLike.ofReal_ne_zero (K := K)).mpr this
        have hffK : ((f : ℝ) : K) ^ 2 = 1 + ((n : ℝ) : K) := by exact_mod_cast congrArg (RCLike.ofReal (K := K)) hff
        have hy' : y = y / x * x := by field_simp
        generalize y / x = q at hyx hy' ⊢
        rw [hy']
        push_cast
        have e1 : star q * (1 / ((f : ℝ) : K)) * (q * x) = ((n : ℝ) : K) * x / ((f : ℝ) : K) := by
          rw [← hyx]; field_simp
        rw [e1]
        field_simp
        linear_combination -hffK
      · simp only [star_mul', star_star]
        have hst : star ((((1 / Real.sqrt (1 + RCLike.normSq (y / x)) : ℝ)) : K)) = (((1 / Real.sqrt (1 + RCLike.normSq (y / x)) : ℝ)) : K) := by
          rw [RCLike.star_def, RCLike.conj_ofReal]
        rw [hst]
        field_simp
        ring
  · rw [if_neg h3]
    have hq : x / y ≠ 0 := div_ne_zero hx hy
    have hsq : Real.sqrt (RCLike.normSq (x / y)) = ‖x / y‖ := by
      rw [RCLike.normSq_eq_def', Real.sqrt_sq (norm_nonneg _)]
    have hsg := hs (x / y) hq
    have hx' : x = x / y * y := by field_simp
    dsimp only
    rw [hsq, hsg]
    have hnq : 0 < ‖x / y‖ := norm_pos_iff.mpr hq
    have hn2 : RCLike.normSq (x / y) = ‖x / y‖ ^ 2 := RCLike.normSq_eq_def' _
    have hss := star_mul_eq (x / y)
    rw [hn2] at hss
    by_cases h4 : RCLike.normSq (x / y) ≤ eps
    · rw [if_pos h4]
      refine ⟨‖x / y‖ ^ 2, by positivity, ?_, rfl, norm_nonneg _, ?_, ?_, ?_, ?_⟩
      · rw [hn2] at h4; linarith
      · simp only
        rw [map_div₀, RCLike.normSq_eq_def', RCLike.normSq_eq_def', RCLike.norm_ofReal, abs_norm]
        field_simp
        ring
      · simp only
        generalize x / y = q at *
        have : ((‖q‖ : ℝ) : K) ≠ 0 := by simpa using hq
        rw [hx']
        push_cast
        field_simp
        ring
      · generalize x / y = q at *
        simp only [star_div₀, RCLike.star_def, RCLike.conj_ofReal]
        rw [RCLike.star_def] at hss
        have : ((‖q‖ : ℝ) : K) ≠ 0 := by simpa using hq
        rw [hx']
        push_cast at hss
        field_simp
        linear_combination -y * hss
      · intro _
        right
        rw [map_div₀, div_le_iff₀ (RCLike.normSq_pos.mpr hy)] at h4
        exact h4
    · rw [if_neg h4, hn2]
      have hf : 0 < Real.sqrt (1 + ‖x / y‖ ^ 2) := Real.sqrt_pos.mpr (by positivity)
      have hff : Real.sqrt (1 + ‖x / y‖ ^ 2) ^ 2 = 1 + ‖x / y‖ ^ 2 := Real.sq_sqrt (by positivity)
      refine ⟨0, le_rfl, by linarith, rfl, ?_, ?_, ?_, ?_, by simp⟩
      · simp only; positivity
      · simp only
        rw [map_mul, map_div₀, RCLike.normSq_eq_def', RCLike.normSq_eq_def', RCLike.normSq_eq_def', RCLike.norm_ofReal,
          RCLike.norm_ofReal, abs_norm, sq_abs, mul_pow, div_pow, hff]
        have : 1 + ‖x / y‖ ^ 2 ≠ 0 := by positivity
        field_simp
        ring
      · simp only
        generalize x / y = q at *
        have : ((‖q‖ : ℝ) : K) ≠ 0 := by simpa using hq
        generalize Real.sqrt (1 + ‖q‖ ^ 2) = f at *
        have hfK : ((f : ℝ) : K) ≠ 0 := by simpa using hf.ne'
        have hffK : ((f : ℝ) : K) ^ 2 = 1 + ((‖q‖ : ℝ) : K) ^ 2 := by exact_mod_cast congrArg (RCLike.ofReal (K := K)) hff
        rw [hx']
        push_cast
        field_simp
        linear_combination -hffK
      · generalize x / y = q at *
        simp only [star_mul', star_div₀, RCLike.star_def, RCLike.conj_ofReal]
        rw [RCLike.star_def] at hss
        have : ((‖q‖ : ℝ) : K) ≠ 0 := by simpa using hq
        generalize Real.sqrt (1 + ‖q‖ ^ 2) = f at *
        have hfK : ((f : ℝ) : K) ≠ 0 := by simpa using hf.ne'
        rw [hx']
        push_cast at hss ⊢
        field_simp
        linear_combination -y * hss


/-- Norm form of C35: `|x|² + |y|² = (1+n)|r|²` with the same small `n`. -/
theorem givensRotate_norm (eps : ℝ) (he : 0 ≤ eps) (sgn : K → ℝ → K) (hs : SignOK sgn) (x y : K) :
    RCLike.normSq (givensRotate eps sgn x y).1 ≤ RCLike.normSq x + RCLike.normSq y ∧
    RCLike.normSq x + RCLike.normSq y ≤ (1 + 2 * eps) * RCLike.normSq (givensRotate eps sgn x y).1 := by
  obtain ⟨n, h0, h1, _, _, h4, h5, h6, _⟩ := givensRotate_spec eps he sgn hs x y
  generalize (givensRotate eps sgn x y).1 = r at *
  generalize (givensRotate eps sgn x y).2.2.c = c at *
  generalize (givensRotate eps sgn x y).2.2.s = s at *
  have key : ((RCLike.normSq x + RCLike.normSq y : ℝ) : K) * ((1 + n : ℝ) : K)
      = ((1 + n : ℝ) : K) * ((1 + n : ℝ) : K) * ((RCLike.normSq r : ℝ) : K) := by
    have hofr : ∀ a : ℝ, star ((a : ℝ) : K) = ((a : ℝ) : K) := fun a => by rw [RCLike.star_def, RCLike.conj_ofReal]
    have e5 := congrArg star h5
    have e6 := congrArg star h6
    simp only [star_add, star_sub, star_mul', star_star, star_zero, hofr] at e5 e6
    simp only [RCLike.star_def] at e5 e6
    have e4 : ((1 + n : ℝ) : K) = (c : K) ^ 2 + star s * s := by
      rw [star_mul_eq]; rw [← h4]; push_cast; ring
    have a := mul_star_eq x
    have b := mul_star_eq y
    have d := mul_star_eq r
    simp only [RCLike.star_def] at a b d e4 h6 h5
    rw [RCLike.ofReal_add, ← a, ← b, ← d]
    rw [e4] at h5 e5 ⊢
    linear_combination ((c : K) * x + s * y) * e5 + ((c:K)^2 + (starRingEnd K) s * s) * (starRingEnd K) r * h5
      + ((c : K) * y - (starRingEnd K) s * x) * e6
  have hr : (RCLike.normSq x + RCLike.normSq y) * (1 + n) = (1 + n) * (1 + n) * RCLike.normSq r := by
    exact_mod_cast key
  have hr' : RCLike.normSq x + RCLike.normSq y = (1 + n) * RCLike.normSq r := by
    have : (1 + n) ≠ 0 := by linarith
    apply mul_right_cancel₀ this
    rw [hr]; ring
  have := RCLike.normSq_nonneg r
  rw [hr']
  constructor <;> nlinarith

/-- A rotation preserves `|x|² + |y|²` (up to `c² + |s|²`, which is 1 for a rotation). -/
theorem givensMult_norm (c : ℝ) (s x y : K) :
    RCLike.normSq (givensMult c s x y).1 + RCLike.normSq (givensMult c s x y).2
      = (c ^ 2 + RCLike.normSq s) * (RCLike.normSq x + RCLike.normSq y) := by
  have : ∀ a b : ℝ, ((a : ℝ) : K) = ((b : ℝ) : K) → a = b := fun a b h => RCLike.ofReal_injective h
  have hofr : ∀ a : ℝ, star ((a : ℝ) : K) = ((a : ℝ) : K) := fun a => by rw [RCLike.star_def, RCLike.conj_ofReal]
  apply this
  simp only [RCLike.ofReal_add, RCLike.ofReal_mul, RCLike.ofReal_pow, ← mul_star_eq, givensMult, star_add, star_sub, star_mul', star_star, hofr]
  ring

/-- The adjoint undoes the rotation; `transpose` and `conjugate` are the transposed and conjugated 2×2 matrices
`[c s; -s* c]`. -/
theorem givens_adjoint (g : Givens K) (x y : K) :
    g.adjoint.mult (g.mult x y).1 (g.mult x y).2 =
      (((g.c ^ 2 + RCLike.normSq g.s : ℝ) : K) * x, ((g.c ^ 2 + RCLike.normSq g.s : ℝ) : K) * y) ∧
    g.transpose.mult x y = ((g.c : K) * x - star g.s * y, g.s * x + (g.c : K) * y) ∧
    g.conjugate.mult x y = ((g.c : K) * x + star g.s * y, -(g.s * x) + (g.c : K) * y) ∧
    g.conjMult x y = g.conjugate.mult x y ∧
    ((star (g.multRef (star x) (star y)).1, star (g.multRef (star x) (star y)).2) = g.mult x y) := by
  refine ⟨?_, ?_, ?_, rfl, ?_⟩
  · simp only [Givens.adjoint, Givens.mult, givensMult, Prod.mk.injEq]
    rw [RCLike.ofReal_add, RCLike.ofReal_pow, ← mul_star_eq, star_neg]
    constructor <;> ring
  · simp only [Givens.transpose, Givens.mult, givensMult, Prod.mk.injEq, star_neg, star_star]
    constructor <;> ring
  · simp only [Givens.conjugate, Givens.mult, givensMult, Prod.mk.injEq, star_star]
    exact ⟨trivial, by ring⟩
  · simp only [Givens.multRef, Givens.mult, givensMult, Prod.mk.injEq, star_add, star_sub, star_mul', star_star,
      RCLike.star_def, RCLike.conj_ofReal, RCLike.conj_conj]

private theorem stepEq' (p s : Int) (i : Nat) : p + ((i + 1 : Nat) : Int) * s = p + s + i * s := by
  push_cast; ring

theorem loopGivens_spec (c : ℝ) (s : K) (s1 s2 : Int) :
    ∀ (n : Nat) (p1 p2 : Int) (m : Mem K), (s1 ≠ 0 ∨ n ≤ 1) → (s2 ≠ 0 ∨ n ≤ 1) → ∀ (x y : Nat → K),
      (∀ i : Nat, i < n → m (p1 + i * s1) = some (x i)) →
      (∀ i : Nat, i < n → m (p2 + i * s2) = some (y i)) →
      (∀ i j : Nat, i < n → j < n → p1 + i * s1 ≠ p2 + j * s2) →
      ∃ m', loopGivens c s s1 s2 n p1 p2 m = some m' ∧
        (∀ i : Nat, i < n → m' (p1 + i * s1) = some (givensMult c s (x i) (y i)).1) ∧
        (∀ i : Nat, i < n → m' (p2 + i * s2) = some (givensMult c s (x i) (y i)).2) ∧
        (∀ a, (∀ i : Nat, i < n → a ≠ p1 + i * s1) → (∀ i : Nat, i < n → a ≠ p2 + i * s2) →
          m' a = m a) := by
  intro n
  induction n with
  | zero => intro p1 p2 m _ _ x y _ _ _; exact ⟨m, rfl, by intro i hi; omega, by intro i hi; omega, fun _ _ _ => rfl⟩
  | succ n ih =>
    intro p1 p2 m hs1 hs2 X Y hl1 hl2 hd
    have hne : ∀ (p s : Int), (s ≠ 0 ∨ n + 1 ≤ 1) → ∀ i : Nat, i < n → p + s + i * s ≠ p := by
      intro p s hs i hi h
      rcases hs with hs | hs
      · have : ((i : Int) + 1) * s = 0 := by linarith [h]
        rcases mul_eq_zero.mp this with h | h
        · omega
        · exact hs h
      · omega
    have hx : m p1 = some (X 0) := by simpa using hl1 0 (by omega)
    have hy : m p2 = some (Y 0) := by simpa using hl2 0 (by omega)
    have h12 : p1 ≠ p2 := by simpa using hd 0 0 (by omega) (by omega)
    have d1 : ∀ i : Nat, i < n → p1 + s1 + i * s1 ≠ p2 := by
      intro i hi; have := hd (i+1) 0 (by omega) (by omega); rw [stepEq'] at this; simpa using this
    have d2 : ∀ i : Nat, i < n → p2 + s2 + i * s2 ≠ p1 := by
      intro i hi; have := hd 0 (i+1) (by omega) (by omega); rw [stepEq'] at this
      intro e; apply this; simpa using e.symm
    have e1 := hne p1 s1 hs1
    have e2 := hne p2 s2 hs2
    set mm : Mem K := fun b => if b = p1 then some (givensMult c s (X 0) (Y 0)).1 else
      if b = p2 then some (givensMult c s (X 0) (Y 0)).2 else m b with hmm
    obtain ⟨m', a, b, c', d⟩ := ih (p1 + s1) (p2 + s2) mm
      (by rcases hs1 with h | h; exact Or.inl h; right; omega)
      (by rcases hs2 with h | h; exact Or.inl h; right; omega) (fun i => X (i+1)) (fun i => Y (i+1))
      (by
        intro i hi
        have := hl1 (i+1) (by omega); rw [stepEq'] at this
        simpa [hmm, d1 i hi, e1 i hi] using this)
      (by
        intro i hi
        have := hl2 (i+1) (by omega); rw [stepEq'] at this
        simpa [hmm, d2 i hi, e2 i hi] using this)
      (by
        intro i j hi hj
        have := hd (i+1) (j+1) (by omega) (by omega)
        rwa [stepEq', stepEq'] at this)
    refine ⟨m', ?_, ?_, ?_, ?_⟩
    · simp only [loopGivens, Mem.read, hx, hy, Option.bind_eq_bind, Option.bind_some]
      rw [Mem.write_of_isSome _ (by simp [hy])]
      simp only [Option.bind_some]
      rw [Mem.write_of_isSome _ (by simp [h12, hx])]
      simpa [hmm] using a
    · intro i hi
      cases i with
      | zero =>
        have := d p1 (fun i hi => (e1 i hi).symm) (fun i hi => (d2 i hi).symm)
        simp [this, hmm]
      | succ i => rw [stepEq', b i (by omega)]
    · intro i hi
      cases i with
      | zero =>
        have := d p2 (fun i hi => (d1 i hi).symm) (fun i hi => (e2 i hi).symm)
        simp [this, hmm, h12.symm]
      | succ i => rw [stepEq', c' i (by omega)]
    · intro z hz1 hz2
      rw [d z]
      · have a1 : z ≠ p1 := by simpa using hz1 0 (by omega)
        have a2 : z ≠ p2 := by simpa using hz2 0 (by omega)
        simp [hmm, a1, a2]
      · intro i hi; have := hz1 (i+1) (by omega); rwa [stepEq'] at this
      · intro i hi; have := hz2 (i+1) (by omega); rwa [stepEq'] at this

/-- Full statement for vectors: `GivensMult(c,s,v,w)` replaces every pair of elements `(v(i),w(i))` by the rotated
pair, and touches nothing else. -/
def GivensMultVSpec (c : ℝ) (s : K) (v w : VView) : Prop :=
  ∀ (m : Mem K) (x y : Nat → K), v.Holds m x → w.Holds m y →
    ∃ m', givensMultV c s v w m = some m' ∧
      v.Holds m' (fun i => (c : K) * x i + s * y i) ∧ w.Holds m' (fun i => (c : K) * y i - star s * x i) ∧
      ∀ a, ¬ v.Covers a → ¬ w.Covers a → m' a = m a

/-- **C35** (vectors): true for disjoint views with the same conjugation, for a rotation (`c = 1` when `s = 0`). -/
theorem givensMultV_partial (c : ℝ) (s : K) (hcs : s = 0 → c = 1) (v w : VView) (hn : v.size = w.size)
    (hv : v.WF) (hw : w.WF) (hd : v.Disjoint w) (hc : v.conj = w.conj) : GivensMultVSpec c s v w := by
  intro m x y hx hy
  have raw : ∀ {u : VView} {m : Mem K} {z : Nat → K}, u.Holds m z ↔
      ∀ i : Nat, i < u.size → m (u.ptr + i * u.step) = some (cj u.conj (z i)) := by
    intro u m z
    constructor
    · intro h i hi
      have := h i hi
      simp only [VView.cref, Mem.read, VView.addr, Option.map_eq_some_iff] at this
      obtain ⟨q, h1, h2⟩ := this
      rw [h1, ← h2]
      cases u.conj <;> simp [cj]
    · intro h i hi
      have := h i hi
      simp only [VView.cref, Mem.read, VView.addr, this, Option.map_some]
      cases u.conj <;> simp [cj]
  have core : ∀ (v w : VView), v.size = w.size → v.WF → w.WF → v.Disjoint w → v.conj = w.conj → ∀ x y : Nat → K,
      v.Holds m x → w.Holds m y → ∃ m',
      (if w.conj then doGivensMult c (star s) v.conjugate w.conjugate m else doGivensMult c s v w m) = some m' ∧
      v.Holds m' (fun i => (c : K) * x i + s * y i) ∧ w.Holds m' (fun i => (c : K) * y i - star s * x i) ∧
      ∀ a, ¬ v.Covers a → ¬ w.Covers a → m' a = m a := by
    intro v w hn hv hw hd hc x y hx hy
    have hx' := raw.mp hx
    have hy' := raw.mp hy
    have frame : ∀ m' : Mem K, (∀ a, (∀ i : Nat, i < v.size → a ≠ v.ptr + i * v.step) →
        (∀ i : Nat, i < v.size → a ≠ w.ptr + i * w.step) → m' a = m a) →
        ∀ a, ¬ v.Covers a → ¬ w.Covers a → m' a = m a := by
      intro m' h a h1 h2
      exact h a (fun i hi e => h1 ⟨i, hi, e⟩) (fun i hi e => h2 ⟨i, by omega, e⟩)
    have hdd : ∀ i j : Nat, i < v.size → j < v.size → v.ptr + i * v.step ≠ w.ptr + j * w.step := by
      intro i j hi hj e
      exact hd _ ⟨i, hi, rfl⟩ ⟨j, by omega, e⟩
    have hwi : w.step ≠ 0 ∨ v.size ≤ 1 := by have := hw.inj; rwa [VView.Inj, ← hn] at this
    cases hwc : w.conj
    · rw [hwc] at hc
      obtain ⟨m', a, b, c', d⟩ := loopGivens_spec c s v.step w.step v.size v.ptr w.ptr m hv.inj hwi x y
        (by intro i hi; simpa [hc, cj] using hx' i hi) (by intro i hi; simpa [hwc, cj] using hy' i (by omega)) hdd
      refine ⟨m', by simpa [doGivensMult] using a, ?_, ?_, frame m' d⟩
      · rw [raw]; intro i hi; rw [b i hi, hc]; simp [cj, givensMult]
      · rw [raw]; intro i hi; rw [c' i (by omega), hwc]; simp [cj, givensMult]
    · rw [hwc] at hc
      obtain ⟨m', a, b, c', d⟩ := loopGivens_spec c (star s) v.step w.step v.size v.ptr w.ptr m hv.inj hwi
        (fun i => star (x i)) (fun i => star (y i))
        (by intro i hi; simpa [hc, cj] using hx' i hi) (by intro i hi; simpa [hwc, cj] using hy' i (by omega)) hdd
      refine ⟨m', by simpa [doGivensMult, VView.conjugate] using a, ?_, ?_, frame m' d⟩
      · rw [raw]; intro i hi; rw [b i hi, hc]; simp [cj, givensMult]
      · rw [raw]; intro i hi; rw [c' i (by omega), hwc]; simp [cj, givensMult]
  have hrev : ∀ {u : VView} {m : Mem K} {z : Nat → K}, u.Holds m z → u.reverse.Holds m (fun i => z (u.size - 1 - i)) := by
    intro u m z h i hi
    have hi' : i < u.size := hi
    have := h (u.size - 1 - i) (by omega)
    simp only [VView.cref] at this ⊢
    rw [u.reverse_addr i hi']
    exact this
  have hrr : ∀ u : VView, u.reverse.reverse = u := by
    intro u
    obtain ⟨p, n, st, cc⟩ := u
    simp only [VView.reverse, VView.mk.injEq, and_true, true_and, neg_neg]
    ring
  have hback : ∀ {u : VView} {m : Mem K} {z : Nat → K}, u.reverse.Holds m (fun i => z (u.size - 1 - i)) → u.Holds m z := by
    intro u m z h
    have := hrev h
    rw [hrr] at this
    intro i hi
    rw [this i hi]
    show some (z _) = _
    have : u.size - 1 - (u.reverse.size - 1 - i) = i := by simp only [VView.reverse]; omega
    rw [this]
  rw [givensMultV]
  by_cases h0 : v.size > 0
  · by_cases hs0 : s = 0
    · rw [if_neg (fun h => h.2 hs0)]
      refine ⟨m, rfl, ?_, ?_, fun _ _ _ => rfl⟩
      · simpa [hs0, hcs hs0] using hx
      · simpa [hs0, hcs hs0] using hy
    rw [if_pos ⟨h0, hs0⟩]
    split
    · rename_i hr
      rw [givensMultV]
      have hr' : VView.shouldReverse v.reverse.step w.reverse.step = false := by
        simpa [VView.reverse] using VView.shouldReverse_neg _ _ hr
      rw [if_pos ⟨h0, hs0⟩, dif_neg (by simp [hr'])]
      obtain ⟨m', a, b, c', d⟩ := core v.reverse w.reverse hn hv.reverse hw.reverse hd.reverse hc _ _ (hrev hx) (hrev hy)
      refine ⟨m', a, ?_, ?_, ?_⟩
      · apply hback
        intro i hi
        rw [b i hi, hn]
      · apply hback
        intro i hi
        rw [c' i hi, hn]
      · intro z h1 h2
        exact d z (by rwa [v.reverse_covers]) (by rwa [w.reverse_covers])
    · exact core v w hn hv hw hd hc x y hx hy
  · rw [if_neg (fun h => h0 h.1)]
    refine ⟨m, rfl, ?_, ?_, fun _ _ _ => rfl⟩
    · intro i hi; omega
    · intro i hi; omega

/-- Non-vacuity: the hypotheses hold for the two rows of a 2×3 matrix and a 3-4-5 rotation. -/
example : GivensMultVSpec (K := ℂ) (3/5) (4/5) ⟨0, 3, 1, true⟩ ⟨3, 3, 1, true⟩ :=
  givensMultV_partial _ _ (by norm_num) _ _ rfl (Or.inl (by decide)) (Or.inl (by decide))
    (by rintro a ⟨i, hi, rfl⟩ ⟨j, hj, h⟩; simp [VView.addr] at h hi hj; omega) rfl

/-- The full statement fails for a conjugated `v` and an unconjugated `w`: the flag is ignored. -/
theorem givensMultV_conj_violated :
    ¬ GivensMultVSpec (K := ℂ) (3/5) (4/5 * Complex.I) ⟨0, 1, 1, true⟩ ⟨1, 1, 1, false⟩ := by
  intro h
  obtain ⟨m', h1, h2, _, _⟩ := h (fun a => if a = 0 then some 0 else if a = 1 then some 1 else none)
    (fun _ => 0) (fun _ => 1) (by intro i hi; have : i = 0 := by simpa using hi
                                  subst this; simp [VView.cref, Mem.read, VView.addr, cj])
    (by intro i hi; have : i = 0 := by simpa using hi
        subst this; simp [VView.cref, Mem.read, VView.addr, cj])
  rw [givensMultV, if_pos (by simp), dif_neg (by simp [VView.shouldReverse]), if_neg (by simp)] at h1
  simp [doGivensMult, loopGivens, Mem.read, Mem.write, givensMult] at h1
  have := h2 0 (by simp)
  rw [← h1] at this
  simp [VView.cref, Mem.read, VView.addr, cj] at this
  have := congrArg Complex.im this
  norm_num at this

/-- The full statement also fails for `s = 0` and `c ≠ 1` (nothing is done). -/
theorem givensMultV_zero_violated : ¬ GivensMultVSpec (K := ℝ) (-1) 0 ⟨0, 1, 1, false⟩ ⟨1, 1, 1, false⟩ := by
  intro h
  obtain ⟨m', h1, h2, _, _⟩ := h (fun a => if a = 0 then some 1 else if a = 1 then some 1 else none)
    (fun _ => 1) (fun _ => 1) (by intro i hi; have : i = 0 := by simpa using hi
                                  subst this; simp [VView.cref, Mem.read, VView.addr, cj])
    (by intro i hi; have : i = 0 := by simpa using hi
        subst this; simp [VView.cref, Mem.read, VView.addr, cj])
  rw [givensMultV, if_neg (by simp)] at h1
  simp at h1
  have := h2 0 (by simp)
  rw [← h1] at this
  simp [VView.cref, Mem.read, VView.addr, cj] at this
  norm_num at this

/-! ### 2×2 congruences -/

/-- The lower triangle `(d0', d1', e0')` of `G [d0 e0*; e0 d1] Gᴴ`, `G = [c s; -s* c]`. -/
def hermCong (c : ℝ) (s d0 d1 e0 : K) : K × K × K :=
  let p : K := c
  let a := p * d0 + s * e0
  let b := p * star e0 + s * d1
  let a' := -star s * d0 + p * e0
  let b' := -star s * star e0 + p * d1
  (a * p + b * star s, a' * (-s) + b' * p, a' * p + b' * star s)

/-- The lower triangle `(d0', d1', e0')` of `G [d0 e0; e0 d1] Gᵀ`, `G = [c s; -s* c]`. -/
def symCong (c : ℝ) (s d0 d1 e0 : K) : K × K × K :=
  let p : K := c
  let a := p * d0 + s * e0
  let b := p * e0 + s * d1
  let a' := -star s * d0 + p * e0
  let b' := -star s * e0 + p * d1
  (a * p + b * s, a' * (-star s) + b' * p, a' * p + b' * s)

theorem two_re (z : K) : ((2 * RCLike.re z : ℝ) : K) = z + star z := by
  push_cast
  rw [RCLike.star_def, RCLike.add_conj]

/-- **C35**: `hermMult` is the Hermitian congruence, for a rotation and a Hermitian 2×2 matrix. -/
theorem givensHermMult_spec (c : ℝ) (s d0 d1 e0 : K) (hcs : c ^ 2 + RCLike.normSq s = 1) :
    givensHermMult c s d0 d1 e0 = hermCong c s d0 d1 e0 := by
  have h : (c : K) ^ 2 + star s * s = 1 := by
    rw [star_mul_eq]; exact_mod_cast congrArg (RCLike.ofReal (K := K)) hcs
  have hre := two_re (s * e0)
  rw [star_mul'] at hre
  simp only [givensHermMult, hermCong, Prod.mk.injEq]
  have e1 : ((2 * c * RCLike.re (s * e0) : ℝ) : K) = (c : K) * (s * e0 + star s * star e0) := by
    rw [← hre]; push_cast; ring
  rw [e1, hre]
  refine ⟨?_, ?_, ?_⟩
  · linear_combination (-d0) * h
  · linear_combination (-d1) * h
  · linear_combination (-e0) * h

/-- Full statement for `symMult`. -/
def SymMultSpec (real : Bool) (c : ℝ) (s : K) : Prop :=
  ∀ d0 d1 e0 : K, givensSymMult real c s d0 d1 e0 = symCong c s d0 d1 e0

/-- **C35**: `symMult` is the symmetric congruence for a rotation with real `s` (of real type). -/
theorem givensSymMult_partial (c : ℝ) (s : K) (hcs : c ^ 2 + RCLike.normSq s = 1) (hr : star s = s) :
    SymMultSpec true c s := by
  intro d0 d1 e0
  have h : (c : K) ^ 2 + s * s = 1 := by
    have := star_mul_eq s
    rw [hr] at this
    rw [this]; exact_mod_cast congrArg (RCLike.ofReal (K := K)) hcs
  simp only [givensSymMult, symCong, hr, Prod.mk.injEq, if_true]
  push_cast
  refine ⟨?_, ?_, ?_⟩
  · linear_combination (-d0) * h
  · linear_combination (-d1) * h
  · linear_combination (-e0) * h

/-- A 3-4-5 rotation meets the hypotheses. -/
example : SymMultSpec (K := ℂ) true (3/5) (4/5) :=
  givensSymMult_partial _ _ (by norm_num [Complex.normSq_apply, RCLike.normSq_apply]) (by
    have : (4/5 : ℂ) = ((4/5 : ℝ) : ℂ) := by push_cast; rfl
    rw [this, RCLike.star_def]; exact Complex.conj_ofReal _)

/-- With a complex `s` the formulas of `symMult` are wrong (`c² = 1 - s²` is used, and `e0` is computed from the
already updated `d0`, `d1`). -/
theorem givensSymMult_complex_violated : ¬ SymMultSpec (K := ℂ) false 0 Complex.I := by
  intro h
  have := congrArg Prod.fst (h 1 0 0)
  simp [givensSymMult, symCong] at this

/-- Even for a real value of a complex `s`. -/
theorem givensSymMult_complex_violated' : ¬ SymMultSpec (K := ℂ) false (3/5) (4/5) := by
  intro h
  have := congrArg (fun z => z.2.2) (h 1 0 0)
  simp [givensSymMult, symCong] at this
  have := congrArg Complex.re this
  norm_num at this

end
end TMV
