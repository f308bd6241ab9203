import Verif.Props.LDLDet
import Verif.Model.LDL
import Verif.Props.SymMM
import Mathlib.Analysis.RCLike.Lemmas

/-! C32: the choice of the pivot, the inverse of a 2×2 block, the running determinant and the exchange of rows and columns. -/
namespace TMV.LDL
noncomputable section
open Classical
variable {K : Type} [RCLike K]

theorem alpha_pos : 0 < alpha := by unfold alpha; positivity
theorem alpha_lt : alpha < 1 := by
  unfold alpha
  have : Real.sqrt 17 < 7 := by rw [Real.sqrt_lt' (by norm_num)]; norm_num
  linarith

theorem maxAbs_norm (v : Nat → K) (n : Nat) (hn : 0 < n) :
    (LU.maxAbs (fun z : K => ‖z‖) v n).2 < n ∧ (LU.maxAbs (fun z : K => ‖z‖) v n).1 = ‖v (LU.maxAbs (fun z : K => ‖z‖) v n).2‖ ∧
    ∀ k, k < n → ‖v k‖ ≤ (LU.maxAbs (fun z : K => ‖z‖) v n).1 :=
  LU.maxAbs_spec (⟨⟨fun z : K => ‖z‖, norm_mul⟩, norm_nonneg, fun _ => norm_eq_zero, norm_add_le⟩ : AbsoluteValue K ℝ) v n hn

theorem reH_real {h : Bool} {a : K} (ha : h = true → RCLike.im a = 0) : reH h a = a := by
  cases h
  · rfl
  · exact SymRK.re_of_real (ha rfl)

/-- What the choice of the pivot ensures about what remains, `S`. -/
theorem choose_spec {h : Bool} {N j : Nat} {c : Nat → K} {col : Nat → Nat → K} {S : Nat → Nat → K} (hj : j < N)
    (hc : ∀ i, j ≤ i → i < N → c i = S i j) (hcol : ∀ p i, j ≤ p → p < N → j ≤ i → i < N → ‖col p i‖ = ‖S p i‖)
    (hd : h = true → ∀ p, j ≤ p → p < N → RCLike.im (S p p) = 0)
    (hcd : ∀ p, j ≤ p → p < N → col p p = S p p) :
    match choose h N j c col with
    | .one p => j ≤ p ∧ p < N ∧ (S p p = 0 → p = j ∧ ∀ i, j ≤ i → i < N → S i j = 0)
    | .two p => j + 1 ≤ p ∧ p < N ∧ ‖S j j‖ * ‖S p p‖ < ‖S p j‖ * ‖S p j‖ := by
  unfold choose
  dsimp only
  obtain ⟨h1, h2, h3⟩ := maxAbs_norm (fun i => c (j+i)) (N-j) (by omega)
  generalize hm : LU.maxAbs (fun z : K => ‖z‖) (fun i => c (j+i)) (N-j) = m at *
  obtain ⟨apj, m2⟩ := m
  dsimp only at *
  rw [hc (j+m2) (by omega) (by omega)] at h2
  have hall : ∀ i, j ≤ i → i < N → ‖S i j‖ ≤ apj := by
    intro i hi hi'
    have := h3 (i-j) (by omega)
    rwa [show j + (i-j) = i by omega, hc i hi hi'] at this
  have hjj : reH h (c j) = S j j := by
    rw [hc j le_rfl hj]
    exact reH_real fun hh => hd hh j le_rfl hj
  rw [hjj]
  have apos : 0 ≤ apj := h2 ▸ norm_nonneg _
  by_cases c1 : apj = 0
  · rw [if_pos c1]
    refine ⟨le_rfl, hj, fun _ => ⟨rfl, fun i hi hi' => ?_⟩⟩
    have := hall i hi hi'
    rw [c1] at this
    exact norm_le_zero_iff.mp this
  rw [if_neg c1]
  have ap : 0 < apj := lt_of_le_of_ne apos (Ne.symm c1)
  by_cases c2 : m2 = 0 ∨ ‖S j j‖ ≥ alpha * apj
  · rw [if_pos c2]
    refine ⟨le_rfl, hj, fun hz => absurd hz ?_⟩
    rcases c2 with c2 | c2
    · subst c2
      intro hz
      rw [add_zero, hz, norm_zero] at h2
      exact c1 h2
    · intro hz
      rw [hz, norm_zero] at c2
      exact absurd (mul_pos alpha_pos ap) (not_lt.mpr c2)
  rw [if_neg c2]
  push Not at c2
  obtain ⟨c2a, c2b⟩ := c2
  have hp : reH h (col (m2+j) (m2+j)) = S (m2+j) (m2+j) := by
    rw [hcd _ (by omega) (by omega)]
    exact reH_real fun hh => hd hh _ (by omega) (by omega)
  rw [hp]
  obtain ⟨_, _, h6⟩ := maxAbs_norm (fun i => col (m2+j) (j+i)) (m2+j-j) (by omega)
  have h7 := h6 0 (by omega)
  rw [add_zero, hcol _ _ (by omega) (by omega) le_rfl hj, show m2 + j = j + m2 by omega, ← h2] at h7
  rw [show m2 + j = j + m2 by omega]
  generalize hq : (if j + m2 + 1 < N then max (LU.maxAbs (fun z : K => ‖z‖) (fun i => col (j+m2) (j+i)) (j+m2-j)).1
    (LU.maxAbs (fun z : K => ‖z‖) (fun i => col (j+m2) (j+m2+1+i)) (N-(j+m2+1))).1
    else (LU.maxAbs (fun z : K => ‖z‖) (fun i => col (j+m2) (j+i)) (j+m2-j)).1) = apq
  have hapq : apj ≤ apq := by
    rw [← hq]
    split
    · exact h7.trans (le_max_left _ _)
    · exact h7
  have apq0 : 0 < apq := lt_of_lt_of_le ap hapq
  by_cases c3 : ‖S j j‖ * apq ≥ alpha * apj * apj
  · rw [if_pos c3]
    refine ⟨le_rfl, hj, fun hz => absurd hz ?_⟩
    intro hz
    rw [hz, norm_zero, zero_mul] at c3
    exact absurd (mul_pos (mul_pos alpha_pos ap) ap) (not_lt.mpr c3)
  rw [if_neg c3]
  by_cases c4 : ‖S (j+m2) (j+m2)‖ ≥ alpha * apq
  · rw [if_pos c4]
    refine ⟨by omega, by omega, fun hz => absurd hz ?_⟩
    intro hz
    rw [hz, norm_zero] at c4
    exact absurd (mul_pos alpha_pos apq0) (not_lt.mpr c4)
  rw [if_neg c4]
  refine ⟨by omega, by omega, ?_⟩
  rw [← h2]
  push Not at c3 c4
  have k1 : ‖S j j‖ * ‖S (j+m2) (j+m2)‖ ≤ ‖S j j‖ * (alpha * apq) := mul_le_mul_of_nonneg_left c4.le (norm_nonneg _)
  have k2 : ‖S j j‖ * (alpha * apq) ≤ alpha * (alpha * apj * apj) := by
    have := mul_le_mul_of_nonneg_left c3.le alpha_pos.le
    linarith [this, mul_comm alpha (‖S j j‖ * apq), mul_assoc ‖S j j‖ apq alpha, mul_comm apq alpha,
      mul_assoc ‖S j j‖ alpha apq, mul_left_comm alpha ‖S j j‖ apq]
  have k3 : alpha * alpha < 1 := by nlinarith [alpha_pos, alpha_lt]
  have k4 : 0 < apj * apj := mul_pos ap ap
  nlinarith

/-- `SymInvert_2x2`: the elements of the inverse and the determinant. -/
theorem invert2_spec {h : Bool} {x y z : K} (hx : h = true → RCLike.im x = 0) (hy : h = true → RCLike.im y = 0) (hz : z ≠ 0) :
    invert2 h x y z = (y / (x*y - z*cj h z), x / (x*y - z*cj h z), z / (-(x*y - z*cj h z)), x*y - z*cj h z) := by
  unfold invert2
  dsimp only
  generalize hm : max (|RCLike.re x| + |RCLike.im x|) (max (|RCLike.re y| + |RCLike.im y|) (|RCLike.re z| + |RCLike.im z|)) = m
  have hm0 : (0 : ℝ) < m := by
    have h1 : 0 < |RCLike.re z| + |RCLike.im z| := by
      by_contra hc
      have a1 := abs_nonneg (RCLike.re z)
      have a2 := abs_nonneg (RCLike.im z)
      apply hz
      apply RCLike.ext
      · rw [map_zero]; exact abs_eq_zero.mp (by linarith)
      · rw [map_zero]; exact abs_eq_zero.mp (by linarith)
    rw [← hm]
    exact lt_of_lt_of_le h1 ((le_max_right _ _).trans (le_max_right _ _))
  have hmk : ((m : ℝ) : K) ≠ 0 := by exact_mod_cast hm0.ne'
  have hd : (if h = true then ((RCLike.re (x / (m : K)) * RCLike.re (y / (m : K)) - RCLike.normSq (z / (m : K)) : ℝ) : K)
      else x / (m : K) * (y / (m : K)) - z / (m : K) * (z / (m : K))) = (x*y - z*cj h z) / ((m : K) * (m : K)) := by
    cases h
    · simp only [cj, Bool.false_eq_true, if_false]
      field_simp
    · simp only [cj, if_true]
      have e1 : ((RCLike.re (x / (m : K)) : ℝ) : K) = x / (m : K) := SymRK.re_of_real (by
        rw [div_eq_mul_inv, ← RCLike.ofReal_inv, RCLike.im_mul_ofReal, hx rfl, zero_mul])
      have e2 : ((RCLike.re (y / (m : K)) : ℝ) : K) = y / (m : K) := SymRK.re_of_real (by
        rw [div_eq_mul_inv, ← RCLike.ofReal_inv, RCLike.im_mul_ofReal, hy rfl, zero_mul])
      rw [RCLike.ofReal_sub, RCLike.ofReal_mul, e1, e2, SymRK.normSq_eq]
      have e3 : star (z / (m : K)) = star z / (m : K) := by
        rw [star_div₀]; congr 1; exact RCLike.conj_ofReal m
      rw [e3]
      field_simp
  rw [hd]
  generalize x*y - z*cj h z = d
  by_cases hd0 : d = 0
  · subst hd0; simp
  · refine Prod.ext ?_ (Prod.ext ?_ (Prod.ext ?_ ?_)) <;> · dsimp only; field_simp

theorem two_det {h : Bool} {x y z : K} (hlt : ‖x‖ * ‖y‖ < ‖z‖ * ‖z‖) : z ≠ 0 ∧ x*y - z*cj h z ≠ 0 := by
  constructor
  · rintro rfl
    rw [norm_zero, mul_zero] at hlt
    exact absurd hlt (not_lt.mpr (mul_nonneg (norm_nonneg _) (norm_nonneg _)))
  · intro he
    have : x * y = z * cj h z := sub_eq_zero.mp he
    have h2 : ‖x*y‖ = ‖z * cj h z‖ := by rw [this]
    rw [norm_mul, norm_mul, norm_cj] at h2
    exact absurd h2 hlt.ne

/-- The product of the determinants so far is `δ`. -/
def DetRel (h : Bool) (δ : K) (t : ℝ × K) : Prop :=
  (δ = 0 → t.2 = 0) ∧ (δ ≠ 0 → t.2 * ((Real.exp t.1 : ℝ) : K) = δ ∧ ‖t.2‖ = 1) ∧ (h = true → RCLike.im δ = 0)

theorem detUpd_spec {h : Bool} {δ d : K} {t : ℝ × K} (ht : DetRel h δ t) (hd : h = true → RCLike.im d = 0) :
    DetRel h (δ * d) (detUpd h d t) := by
  obtain ⟨t1, t2⟩ := t
  obtain ⟨h1, h2, h3⟩ := ht
  dsimp only at *
  have h4 : h = true → RCLike.im (δ * d) = 0 := fun hh => by rw [RCLike.mul_im, h3 hh, hd hh]; simp
  unfold detUpd
  dsimp only
  by_cases hδ : δ = 0
  · have := h1 hδ
    subst this
    rw [if_neg (by simp)]
    exact ⟨fun _ => rfl, fun hc => absurd (by rw [hδ, zero_mul]) hc, h4⟩
  · obtain ⟨h5, h6⟩ := h2 hδ
    have t20 : t2 ≠ 0 := by rintro rfl; simp at h6
    rw [if_pos t20]
    by_cases d0 : d = 0
    · rw [if_pos d0]
      exact ⟨fun _ => rfl, fun hc => absurd (by rw [d0, mul_zero]) hc, h4⟩
    · rw [if_neg d0]
      have hn : 0 < ‖d‖ := norm_pos_iff.mpr d0
      have hnk : ((‖d‖ : ℝ) : K) ≠ 0 := by exact_mod_cast hn.ne'
      refine ⟨fun hc => absurd hc (mul_ne_zero hδ d0), fun _ => ?_, h4⟩
      rw [Real.exp_add, Real.exp_log hn, RCLike.ofReal_mul]
      cases h
      · simp only [Bool.false_eq_true, if_false]
        refine ⟨?_, ?_⟩
        · rw [← h5]; field_simp
        · rw [norm_mul, h6, norm_div, RCLike.norm_ofReal, abs_of_pos hn, div_self hn.ne', one_mul]
      · simp only [if_true]
        have hdr : ((RCLike.re d : ℝ) : K) = d := SymRK.re_of_real (hd rfl)
        have hnd : ‖d‖ = |RCLike.re d| := by rw [← hdr, RCLike.norm_ofReal, RCLike.ofReal_re]
        by_cases hneg : RCLike.re d < 0
        · rw [if_pos hneg, hnd, abs_of_neg hneg, norm_neg]
          refine ⟨?_, h6⟩
          rw [← h5, RCLike.ofReal_neg, hdr]; ring
        · rw [if_neg hneg, hnd, abs_of_nonneg (not_lt.mp hneg)]
          refine ⟨?_, h6⟩
          rw [← h5, hdr]; ring

theorem symFull_cj (h : Bool) (A : Nat → Nat → K) (i k : Nat) (hik : i ≠ k) : cj h (symFull h A i k) = symFull h A k i := by
  simp only [symFull]
  by_cases hki : k ≤ i
  · rw [if_pos hki, if_neg (by omega)]
  · rw [if_neg hki, if_pos (by omega), cj_inv]

theorem swapRC_left (h : Bool) (N a b : Nat) (A : Nat → Nat → K) (hab : a ≤ b) (i q : Nat) (hq : q < a) :
    swapRC h N a b A i q = A (Equiv.swap a b i) q := by
  unfold swapRC
  rcases eq_or_ne a b with rfl | hab'
  · simp
  rw [if_neg hab']
  dsimp only [LU.swapRows]
  have q1 : q ≠ a := by omega
  have q2 : q ≠ b := by omega
  have q3 : ¬ a ≤ q := by omega
  have q4 : ¬ a < q := by omega
  have e : ∀ (c : Prop) [Decidable c] (x : K), (if c then x else x) = x := fun c _ x => by split <;> rfl
  simp only [q1, q2, q3, q4, false_and, and_false, if_false, hq, if_true, e, ite_self]
  rw [Equiv.swap_apply_def]
  cases h
  · simp only [Bool.false_eq_true, if_false]
    split_ifs <;> first | rfl | omega
  · simp only [if_true]
    split_ifs <;> first | rfl | omega

theorem swapRC_out (h : Bool) (N a b : Nat) (A : Nat → Nat → K) (hab : a ≤ b) (hb : b < N) (i q : Nat) (hc : ¬ (q ≤ i ∧ i < N)) :
    swapRC h N a b A i q = A i q := by
  unfold swapRC
  rcases eq_or_ne a b with rfl | hab'
  · simp
  rw [if_neg hab']
  dsimp only [LU.swapRows]
  have c1 : ¬ (i = a ∧ q = a) := by omega
  have c2 : ¬ (i = b ∧ q = b) := by omega
  have c4 : ¬ (i = b ∧ a ≤ q ∧ q < b) := by omega
  have c3 : ¬ (i = b ∧ a < q ∧ q < b) := by omega
  have c5 : ¬ (q = a ∧ a < i ∧ i < b) := by omega
  rw [if_neg c1, if_neg c2]
  have c6 : b < i ∧ i < N → q ≠ a ∧ q ≠ b := by omega
  have l : q < a → i ≠ a ∧ i ≠ b := by omega
  by_cases c7 : b < i ∧ i < N
  · obtain ⟨c8, c9⟩ := c6 c7
    have c10 : ¬ q < a := by omega
    rw [if_pos c7, if_neg c8, if_neg c9]
    cases h
    · simp only [Bool.false_eq_true, if_false, c3, c5, c10]
    · simp only [if_true, if_false, c3, c4, c5, c10]
  · rw [if_neg c7]
    by_cases c10 : q < a
    · obtain ⟨c8, c9⟩ := l c10
      cases h
      · simp only [Bool.false_eq_true, if_false, c3, c5, c10, c8, c9, ite_self, false_and]
      · simp only [if_true, if_false, c3, c4, c5, c10, c8, c9, ite_self, false_and]
    · cases h
      · simp only [Bool.false_eq_true, if_false, c3, c5, c10]
      · simp only [if_true, if_false, c3, c4, c5, c10]

theorem swapRC_low (h : Bool) (N a b : Nat) (A : Nat → Nat → K) (hab : a ≤ b) (i k : Nat) (hk : a ≤ k) (hki : k ≤ i) (hi : i < N) :
    swapRC h N a b A i k = symFull h A (Equiv.swap a b i) (Equiv.swap a b k) := by
  unfold swapRC
  rcases eq_or_ne a b with rfl | hab'
  · simp [symFull, hki]
  rw [if_neg hab']
  dsimp only [LU.swapRows]
  rcases eq_or_ne i a with rfl | hia
  · have : k = i := by omega
    subst this
    cases h <;> simp [symFull, hab', Ne.symm hab', show ¬ b < k by omega]
  rcases eq_or_ne i b with rfl | hib
  · rcases eq_or_ne k i with rfl | hki'
    · cases h <;> simp [symFull, hia, hab', show ¬ k < a by omega]
    rcases eq_or_ne k a with rfl | hka
    · cases h <;> simp [symFull, cj, hab', hia, hki', show ¬ i ≤ k by omega, show k < i by omega]
    · rw [Equiv.swap_apply_right, Equiv.swap_apply_of_ne_of_ne hka hki']
      cases h <;> simp [symFull, cj, hab', hia, hki', hka, show a ≤ k by omega, show ¬ k ≤ a by omega, show k < i by omega, show a < k by omega]
  rw [Equiv.swap_apply_of_ne_of_ne hia hib]
  rcases eq_or_ne k a with rfl | hka
  · rw [Equiv.swap_apply_left]
    by_cases hlt : i < b
    · cases h <;> simp [symFull, cj, hia, hib, hlt, show ¬ b < i by omega, show ¬ b ≤ i by omega, show k < i by omega, show ¬ i < k by omega]
    · cases h <;> simp [symFull, hia, hib, hlt, show b < i by omega, show b ≤ i by omega, hi]
  rcases eq_or_ne k b with rfl | hkb
  · rw [Equiv.swap_apply_right]
    cases h <;> simp [symFull, hia, hib, hka, hk, show k < i by omega, show a ≤ i by omega, show ¬ i < k by omega, hi]
  · rw [Equiv.swap_apply_of_ne_of_ne hka hkb]
    cases h <;> simp [symFull, hia, hib, hka, hkb, hki]

/-- `swapRowsCols` of rows and columns `a` and `b` (`a ≤ b`). -/
theorem swapRC_full (h : Bool) (N a b : Nat) (A : Nat → Nat → K) (hab : a ≤ b) (i k : Nat) (hi : a ≤ i) (hk : a ≤ k) (hiN : i < N)
    (hkN : k < N) : symFull h (swapRC h N a b A) i k = symFull h A (Equiv.swap a b i) (Equiv.swap a b k) := by
  by_cases hki : k ≤ i
  · rw [symFull, if_pos hki, swapRC_low h N a b A hab i k hk hki hiN]
  · rw [symFull, if_neg hki, swapRC_low h N a b A hab k i hi (by omega) hkN, symFull_cj]
    intro hc
    exact hki ((Equiv.swap a b).injective hc).le

end
end TMV.LDL
