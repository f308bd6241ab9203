import Verif.Spec.LDL
import Verif.Props.LU
import Mathlib.Tactic.Ring
import Mathlib.Tactic.LinearCombination
import Mathlib.LinearAlgebra.Matrix.SchurComplement
import Mathlib.Logic.Equiv.Fin.Basic

/-! C32: the invariant of the Bunch-Kaufman decomposition, independent of how the columns are computed. -/
namespace TMV.LDL
noncomputable section
variable {K : Type} [RCLike K]

theorem cj_add (h : Bool) (a b : K) : cj h (a + b) = cj h a + cj h b := by cases h <;> simp [cj]
theorem cj_sub (h : Bool) (a b : K) : cj h (a - b) = cj h a - cj h b := by cases h <;> simp [cj]
theorem cj_mul (h : Bool) (a b : K) : cj h (a * b) = cj h a * cj h b := by cases h <;> simp [cj, mul_comm]
theorem cj_neg (h : Bool) (a : K) : cj h (-a) = - cj h a := by cases h <;> simp [cj]
theorem cj_div (h : Bool) (a b : K) : cj h (a / b) = cj h a / cj h b := by cases h <;> simp [cj]
@[simp] theorem cj_one (h : Bool) : cj h (1 : K) = 1 := by cases h <;> simp [cj]
@[simp] theorem cj_zero (h : Bool) : cj h (0 : K) = 0 := by cases h <;> simp [cj]
@[simp] theorem cj_inv (h : Bool) (a : K) : cj h (cj h a) = a := by cases h <;> simp [cj]
@[simp] theorem norm_cj (h : Bool) (a : K) : ‖cj h a‖ = ‖a‖ := by cases h <;> simp [cj]
theorem cj_sum (h : Bool) {ι : Type} (s : Finset ι) (f : ι → K) : cj h (∑ i ∈ s, f i) = ∑ i ∈ s, cj h (f i) := by
  cases h <;> simp [cj]
theorem cj_real {h : Bool} {a : K} (ha : h = true → RCLike.im a = 0) : cj h a = a := by
  cases h
  · rfl
  · simp only [cj, if_true]
    exact RCLike.conj_eq_iff_im.mpr (ha rfl)
theorem real_of_cj {h : Bool} {a : K} (ha : a = cj h a) : h = true → RCLike.im a = 0 := by
  rintro rfl
  simp only [cj, if_true] at ha
  exact RCLike.conj_eq_iff_im.mp ha.symm

/-- After `j` columns: `H`, permuted by `σ`, is `L D L†` of the finished columns plus the remainder `S`. -/
structure Inv (h : Bool) (N : Nat) (H : Nat → Nat → K) (j : Nat) (σ : Equiv.Perm Nat) (A : Nat → Nat → K) (xD : Nat → K)
    (S : Nat → Nat → K) : Prop where
  prod : ∀ i k, i < N → k < N → H (σ i) (σ k) =
    ∑ p ∈ Finset.range j, ∑ q ∈ Finset.range j,
      lowerMat true A i p * pseudoDiag h (fun i => A i i) xD p q * cj h (lowerMat true A k q) +
    (if j ≤ i ∧ j ≤ k then S i k else 0)
  block : ∀ k, k + 1 < j → xD k ≠ 0 → A (k+1) k = 0 ∧ xD (k+1) = 0
  out : ∀ k, j ≤ k + 1 → xD k = 0
  real : h = true → ∀ k, k < j → RCLike.im (A k k) = 0
  sym : ∀ i k, j ≤ i → j ≤ k → i < N → k < N → S i k = cj h (S k i)

theorem Inv.congr {h : Bool} {N : Nat} {H : Nat → Nat → K} {j : Nat} {σ : Equiv.Perm Nat} {A A' : Nat → Nat → K} {xD : Nat → K}
    {S S' : Nat → Nat → K} (hI : Inv h N H j σ A xD S) (hj : j ≤ N) (hA : ∀ i q, i < N → q < j → q ≤ i → A' i q = A i q)
    (hS : ∀ i k, j ≤ i → j ≤ k → i < N → k < N → S' i k = S i k) : Inv h N H j σ A' xD S' where
  prod i k hi hk := by
    rw [hI.prod i k hi hk]
    congr 1
    · refine Finset.sum_congr rfl fun p hp => Finset.sum_congr rfl fun q hq => ?_
      have hp' : p < j := by simpa using hp
      have hq' : q < j := by simpa using hq
      have e1 : ∀ i p, i < N → p < j → lowerMat true A' i p = lowerMat true A i p := by
        intro i p hi hp
        simp only [lowerMat]
        split_ifs with h1
        · exact hA i p hi hp (by omega)
        · rfl
        · rfl
      have e2 : pseudoDiag h (fun i => A' i i) xD p q = pseudoDiag h (fun i => A i i) xD p q := by
        simp only [pseudoDiag]
        rw [hA p p (by omega) hp' le_rfl]
      rw [e1 i p hi hp', e1 k q hk hq', e2]
    · by_cases hc : j ≤ i ∧ j ≤ k
      · rw [if_pos hc, if_pos hc, hS i k hc.1 hc.2 hi hk]
      · rw [if_neg hc, if_neg hc]
  block k hk hx := by
    rw [hA (k+1) k (by omega) (by omega) (by omega)]
    exact hI.block k hk hx
  out := hI.out
  real hh k hk := by rw [hA k k (by omega) hk le_rfl]; exact hI.real hh k hk
  sym i k h1 h2 h3 h4 := by rw [hS i k h1 h2 h3 h4, hS k i h2 h1 h4 h3]; exact hI.sym i k h1 h2 h3 h4

/-- Exchanging rows and columns `a` and `b` of what remains. -/
theorem Inv.swap {h : Bool} {N : Nat} {H : Nat → Nat → K} {j : Nat} {σ : Equiv.Perm Nat} {A A' : Nat → Nat → K} {xD : Nat → K}
    {S : Nat → Nat → K} (hI : Inv h N H j σ A xD S) (a b : Nat) (ha : j ≤ a) (hb : j ≤ b) (haN : a < N) (hbN : b < N)
    (hA : ∀ i q, i < N → q < j → q ≤ i → A' i q = A (Equiv.swap a b i) q) :
    Inv h N H j (σ * Equiv.swap a b) A' xD (fun i k => S (Equiv.swap a b i) (Equiv.swap a b k)) := by
  have τlt : ∀ i, i < N → Equiv.swap a b i < N := fun i hi => Equiv.swap_lt haN hbN hi
  have τfix : ∀ i, i < j → Equiv.swap a b i = i := fun i hi => Equiv.swap_apply_of_ne_of_ne (by omega) (by omega)
  have τge : ∀ i, j ≤ i → j ≤ Equiv.swap a b i := fun i hi => by rw [Equiv.swap_apply_def]; split_ifs <;> omega
  have hA0 : ∀ i q, i < j → q ≤ i → A' i q = A i q := fun i q hi hq => by rw [hA i q (by omega) (by omega) hq, τfix i hi]
  have hL : ∀ i q, i < N → q < j → lowerMat true A' i q = lowerMat true A (Equiv.swap a b i) q := by
    intro i q hi hq
    by_cases hij : i < j
    · rw [τfix i hij]
      simp only [lowerMat]
      split_ifs with h1
      · exact hA0 i q hij (by omega)
      · rfl
      · rfl
    · have := τge i (by omega)
      simp only [lowerMat]
      rw [if_pos (by omega), if_pos (by omega), hA i q hi hq (by omega)]
  refine ⟨fun i k hi hk => ?_, fun k hk hx => ?_, hI.out, fun hh k hk => ?_, fun i k h1 h2 h3 h4 => ?_⟩
  · rw [Equiv.Perm.mul_apply, Equiv.Perm.mul_apply, hI.prod _ _ (τlt i hi) (τlt k hk)]
    congr 1
    · refine Finset.sum_congr rfl fun p hp => Finset.sum_congr rfl fun q hq => ?_
      have hp' : p < j := by simpa using hp
      have hq' : q < j := by simpa using hq
      rw [hL i p hi hp', hL k q hk hq']
      simp only [pseudoDiag]
      rw [hA0 p p hp' le_rfl]
    · have e : ∀ i, (j ≤ Equiv.swap a b i ↔ j ≤ i) := by
        intro i
        constructor
        · intro h'
          by_contra hc
          rw [τfix i (by omega)] at h'
          exact hc h'
        · exact τge i
      simp only [e]
  · rw [hA0 (k+1) k hk (by omega)]; exact hI.block k hk hx
  · rw [hA0 k k hk le_rfl]; exact hI.real hh k hk
  · exact hI.sym _ _ (τge i h1) (τge k h2) (τlt i h3) (τlt k h4)

/-- A 1×1 block. -/
theorem Inv.one {h : Bool} {N : Nat} {H : Nat → Nat → K} {j : Nat} {σ : Equiv.Perm Nat} {A A' : Nat → Nat → K} {xD : Nat → K}
    {S S' : Nat → Nat → K} (hI : Inv h N H j σ A xD S) (hj : j < N) (hA : ∀ i q, i < N → q < j → q ≤ i → A' i q = A i q)
    (hd : A' j j = S j j) (hl : ∀ i, j < i → i < N → A' i j * A' j j = S i j)
    (hS : ∀ i k, j + 1 ≤ i → j + 1 ≤ k → i < N → k < N → S' i k = S i k - S i j * cj h (A' k j)) :
    Inv h N H (j+1) σ A' xD S' := by
  have hI := hI.congr (S' := S) hj.le hA (fun _ _ _ _ _ _ => rfl)
  have hdr : h = true → RCLike.im (A' j j) = 0 := by rw [hd]; exact real_of_cj (hI.sym j j le_rfl le_rfl hj hj)
  have hdc := cj_real hdr
  refine ⟨fun i k hi hk => ?_, fun k hk hx => ?_, fun k hk => hI.out k (by omega), fun hh k hk => ?_, fun i k h1 h2 h3 h4 => ?_⟩
  · have e : ∀ i, j ≤ i → i < N → lowerMat true A' i j * A' j j = S i j := by
      intro i h1 h2
      by_cases hij : j < i
      · rw [← hl i hij h2]; simp [lowerMat, hij]
      · have : i = j := by omega
        subst this; simp [lowerMat, hd]
    have e0 : ∀ i, i < j → lowerMat true A' i j = 0 := by
      intro i hij
      simp [lowerMat, show ¬ j < i by omega, show ¬ i = j by omega]
    rw [hI.prod i k hi hk, Finset.sum_range_succ]
    have z1 : ∀ p, p < j → pseudoDiag h (fun i => A' i i) xD p j = 0 := by
      intro p hp
      simp only [pseudoDiag]
      rw [if_neg (by omega), if_neg (by omega)]
      split_ifs with hc
      · rw [hI.out p (by omega), cj_zero]
      · rfl
    have z2 : ∀ p, p < j → pseudoDiag h (fun i => A' i i) xD j p = 0 := by
      intro p hp
      simp only [pseudoDiag]
      rw [if_neg (by omega)]
      split_ifs with hc hc
      · rw [hI.out p (by omega)]
      · omega
      · rfl
    have z3 : pseudoDiag h (fun i => A' i i) xD j j = A' j j := by simp [pseudoDiag]
    have s1 : ∑ p ∈ Finset.range j, ∑ q ∈ Finset.range (j+1),
          lowerMat true A' i p * pseudoDiag h (fun i => A' i i) xD p q * cj h (lowerMat true A' k q) =
        ∑ p ∈ Finset.range j, ∑ q ∈ Finset.range j,
          lowerMat true A' i p * pseudoDiag h (fun i => A' i i) xD p q * cj h (lowerMat true A' k q) := by
      refine Finset.sum_congr rfl fun p hp => ?_
      rw [Finset.sum_range_succ, z1 p (by simpa using hp)]
      simp
    have s2 : ∑ q ∈ Finset.range (j+1),
          lowerMat true A' i j * pseudoDiag h (fun i => A' i i) xD j q * cj h (lowerMat true A' k q) =
        lowerMat true A' i j * A' j j * cj h (lowerMat true A' k j) := by
      rw [Finset.sum_range_succ, z3, Finset.sum_eq_zero, zero_add]
      intro p hp
      rw [z2 p (by simpa using hp)]
      simp
    rw [s1, s2, add_assoc]
    congr 1
    by_cases hij : j ≤ i
    · by_cases hkj : j ≤ k
      · rw [if_pos ⟨hij, hkj⟩]
        by_cases hc : j + 1 ≤ i ∧ j + 1 ≤ k
        · rw [if_pos hc, hS i k hc.1 hc.2 hi hk, e i hij hi]
          simp [lowerMat, show j < k by omega]
        · rw [if_neg hc, add_zero]
          by_cases hk' : k = j
          · subst hk'
            rw [e i hij hi]; simp [lowerMat]
          · have : i = j := by omega
            subst this
            rw [hI.sym i k le_rfl hkj hi hk, ← e k hkj hk, cj_mul, hdc]
            simp [lowerMat, mul_comm]
      · rw [if_neg (by omega), if_neg (by omega), e0 k (by omega)]; simp
    · rw [if_neg (by omega), if_neg (by omega), e0 i (by omega)]; simp
  · by_cases hkj : k + 1 = j
    · exact absurd (hI.out k (by omega)) hx
    · exact hI.block k (by omega) hx
  · by_cases hkj : k = j
    · subst hkj; exact hdr hh
    · exact hI.real hh k (by omega)
  · rw [hS i k h1 h2 h3 h4, hS k i h2 h1 h4 h3, cj_sub, cj_mul, cj_inv, ← hI.sym i k (by omega) (by omega) h3 h4,
      ← hl i (by omega) h3, ← hl k (by omega) h4, cj_mul, hdc]
    ring

/-- A 2×2 block. -/
theorem Inv.two {h : Bool} {N : Nat} {H : Nat → Nat → K} {j : Nat} {σ : Equiv.Perm Nat} {A A' : Nat → Nat → K} {xD xD' : Nat → K}
    {S S' : Nat → Nat → K} (hI : Inv h N H j σ A xD S) (hj : j + 1 < N) (hA : ∀ i q, i < N → q < j → q ≤ i → A' i q = A i q)
    (hx : xD' = Function.update xD j (S (j+1) j))
    (hd0 : A' j j = S j j) (hd1 : A' (j+1) (j+1) = S (j+1) (j+1)) (hz : A' (j+1) j = 0)
    (hl0 : ∀ i, j + 2 ≤ i → i < N → A' i j * S j j + A' i (j+1) * S (j+1) j = S i j)
    (hl1 : ∀ i, j + 2 ≤ i → i < N → A' i j * cj h (S (j+1) j) + A' i (j+1) * S (j+1) (j+1) = S i (j+1))
    (hS : ∀ i k, j + 2 ≤ i → j + 2 ≤ k → i < N → k < N →
      S' i k = S i k - (S i j * cj h (A' k j) + S i (j+1) * cj h (A' k (j+1)))) :
    Inv h N H (j+2) σ A' xD' S' := by
  have hI := hI.congr (S' := S) (by omega) hA (fun _ _ _ _ _ _ => rfl)
  have hx0 := hI.sym j j le_rfl le_rfl (by omega) (by omega)
  have hx1 := hI.sym (j+1) (j+1) (by omega) (by omega) hj hj
  have hxz := hI.sym j (j+1) (by omega) (by omega) (by omega) hj
  have e0 : ∀ i, j ≤ i → i < N → lowerMat true A' i j * S j j + lowerMat true A' i (j+1) * S (j+1) j = S i j := by
    intro i h1 h2
    by_cases hij : j + 2 ≤ i
    · rw [← hl0 i hij h2]; simp [lowerMat, show j < i by omega, show j + 1 < i by omega]
    · by_cases hi : i = j
      · subst hi; simp [lowerMat]
      · have : i = j + 1 := by omega
        subst this; simp [lowerMat, hz]
  have e1 : ∀ i, j ≤ i → i < N →
      lowerMat true A' i j * cj h (S (j+1) j) + lowerMat true A' i (j+1) * S (j+1) (j+1) = S i (j+1) := by
    intro i h1 h2
    by_cases hij : j + 2 ≤ i
    · rw [← hl1 i hij h2]; simp [lowerMat, show j < i by omega, show j + 1 < i by omega]
    · by_cases hi : i = j
      · subst hi; simp [lowerMat, hxz]
      · have : i = j + 1 := by omega
        subst this; simp [lowerMat, hz]
  have b0 : ∀ i c, i < j → j ≤ c → lowerMat true A' i c = 0 := by
    intro i c hij hc
    simp [lowerMat, show ¬ c < i by omega, show ¬ i = c by omega]
  refine ⟨fun i k hi hk => ?_, fun k hk hx' => ?_, fun k hk => ?_, fun hh k hk => ?_, fun i k h1 h2 h3 h4 => ?_⟩
  · have u : ∀ p, p ≠ j → xD' p = xD p := fun p hp => by rw [hx, Function.update_of_ne hp]
    have uj : xD' j = S (j+1) j := by rw [hx, Function.update_self]
    have z0 : ∀ p q, p < j → q < j →
        pseudoDiag h (fun i => A' i i) xD' p q = pseudoDiag h (fun i => A' i i) xD p q := by
      intro p q hp hq
      simp only [pseudoDiag]
      rw [u p (by omega), u q (by omega)]
    have z1 : ∀ p c, p < j → j ≤ c → pseudoDiag h (fun i => A' i i) xD' p c = 0 := by
      intro p c hp hc
      simp only [pseudoDiag]
      rw [if_neg (by omega), if_neg (by omega)]
      split_ifs with hc'
      · rw [u p (by omega), hI.out p (by omega), cj_zero]
      · rfl
    have z2 : ∀ p c, p < j → j ≤ c → pseudoDiag h (fun i => A' i i) xD' c p = 0 := by
      intro p c hp hc
      simp only [pseudoDiag]
      rw [if_neg (by omega)]
      split_ifs with hc' hc'
      · rw [u p (by omega), hI.out p (by omega)]
      · omega
      · rfl
    have s1 : ∑ p ∈ Finset.range j, ∑ q ∈ Finset.range (j+2),
          lowerMat true A' i p * pseudoDiag h (fun i => A' i i) xD' p q * cj h (lowerMat true A' k q) =
        ∑ p ∈ Finset.range j, ∑ q ∈ Finset.range j,
          lowerMat true A' i p * pseudoDiag h (fun i => A' i i) xD p q * cj h (lowerMat true A' k q) := by
      refine Finset.sum_congr rfl fun p hp => ?_
      have hp' : p < j := by simpa using hp
      rw [Finset.sum_range_succ, Finset.sum_range_succ, z1 p j hp' le_rfl, z1 p (j+1) hp' (by omega)]
      simp only [mul_zero, zero_mul, add_zero]
      exact Finset.sum_congr rfl fun q hq => by rw [z0 p q hp' (by simpa using hq)]
    have s2 : ∀ c, j ≤ c → ∑ q ∈ Finset.range (j+2),
          lowerMat true A' i c * pseudoDiag h (fun i => A' i i) xD' c q * cj h (lowerMat true A' k q) =
        lowerMat true A' i c * pseudoDiag h (fun i => A' i i) xD' c j * cj h (lowerMat true A' k j) +
        lowerMat true A' i c * pseudoDiag h (fun i => A' i i) xD' c (j+1) * cj h (lowerMat true A' k (j+1)) := by
      intro c hc
      rw [Finset.sum_range_succ, Finset.sum_range_succ, Finset.sum_eq_zero, zero_add]
      intro p hp
      rw [z2 p c (by simpa using hp) hc]
      simp
    have p00 : pseudoDiag h (fun i => A' i i) xD' j j = S j j := by simp [pseudoDiag, hd0]
    have p11 : pseudoDiag h (fun i => A' i i) xD' (j+1) (j+1) = S (j+1) (j+1) := by simp [pseudoDiag, hd1]
    have p10 : pseudoDiag h (fun i => A' i i) xD' (j+1) j = S (j+1) j := by simp [pseudoDiag, uj]
    have p01 : pseudoDiag h (fun i => A' i i) xD' j (j+1) = cj h (S (j+1) j) := by
      simp only [pseudoDiag]
      rw [if_neg (by omega), if_neg (by omega), if_pos trivial, uj]
    rw [hI.prod i k hi hk, Finset.sum_range_succ, Finset.sum_range_succ, s1, s2 j le_rfl, s2 (j+1) (by omega), p00, p11, p10, p01,
      add_assoc, add_assoc]
    congr 1
    by_cases hij : j ≤ i
    · have m : ∀ r, lowerMat true A' i j * S j j * cj h (lowerMat true A' k j) +
            lowerMat true A' i j * cj h (S (j+1) j) * cj h (lowerMat true A' k (j+1)) +
          (lowerMat true A' i (j+1) * S (j+1) j * cj h (lowerMat true A' k j) +
            lowerMat true A' i (j+1) * S (j+1) (j+1) * cj h (lowerMat true A' k (j+1)) + r) =
          S i j * cj h (lowerMat true A' k j) + S i (j+1) * cj h (lowerMat true A' k (j+1)) + r := by
        intro r
        rw [← e0 i hij hi, ← e1 i hij hi]; ring
      rw [m]
      by_cases hkj : j ≤ k
      · rw [if_pos ⟨hij, hkj⟩]
        by_cases hc : j + 2 ≤ i ∧ j + 2 ≤ k
        · rw [if_pos hc, hS i k hc.1 hc.2 hi hk]
          simp [lowerMat, show j < k by omega, show j + 1 < k by omega]
        · rw [if_neg hc, add_zero]
          by_cases hk0 : k = j
          · subst hk0; simp [lowerMat]
          · by_cases hk1 : k = j + 1
            · subst hk1; simp [lowerMat, hz]
            · by_cases hi0 : i = j
              · subst hi0
                rw [hI.sym i k le_rfl hkj hi hk, ← e0 k hkj hk, cj_add, cj_mul, cj_mul, ← hx0, hxz]; ring
              · have : i = j + 1 := by omega
                subst this
                rw [hI.sym (j+1) k (by omega) hkj hi hk, ← e1 k hkj hk, cj_add, cj_mul, cj_mul, ← hx1, cj_inv]; ring
      · rw [if_neg (by omega), if_neg (by omega), b0 k j (by omega) le_rfl, b0 k (j+1) (by omega) (by omega)]; simp
    · rw [if_neg (by omega), if_neg (by omega), b0 i j (by omega) le_rfl, b0 i (j+1) (by omega) (by omega)]; simp
  · by_cases hkj : k = j
    · subst hkj
      refine ⟨hz, ?_⟩
      rw [hx, Function.update_of_ne (by omega)]
      exact hI.out _ (by omega)
    · rw [hx, Function.update_of_ne hkj] at hx'
      have hk' : k + 1 < j := by
        by_contra hc
        exact hx' (hI.out k (by omega))
      have := hI.block k hk' hx'
      rw [hx, Function.update_of_ne (by omega)]
      exact this
  · rw [hx, Function.update_of_ne (by omega)]; exact hI.out k (by omega)
  · by_cases hkj : k = j
    · subst hkj; rw [hd0]; exact real_of_cj hx0 hh
    · by_cases hk1 : k = j + 1
      · subst hk1; rw [hd1]; exact real_of_cj hx1 hh
      · exact hI.real hh k (by omega)
  · rw [hS i k h1 h2 h3 h4, hS k i h2 h1 h4 h3, cj_sub, ← hI.sym i k (by omega) (by omega) h3 h4, ← hl0 i h1 h3, ← hl0 k h2 h4,
      ← hl1 i h1 h3, ← hl1 k h2 h4]
    simp only [cj_add, cj_mul, cj_inv, ← hx0, ← hx1]
    ring

end
end TMV.LDL
