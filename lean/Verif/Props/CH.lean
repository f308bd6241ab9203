import Verif.Model.CH
import Verif.Spec.Herm
import Verif.Props.SymRK
import Verif.Props.Tri
import Mathlib.Tactic.Ring
import Mathlib.Tactic.Linarith
import Mathlib.Tactic.FieldSimp

/-! C31: Cholesky decomposition. -/
namespace TMV.CH
open Tri (Ord splitAt sub paste)
open Classical
open SymRK (RealDiag normSq_eq re_of_real)

variable {K : Type} [RCLike K]

/-- The first `k` columns hold the factor, the rest the Schur complement. -/
def Step (k N : Nat) (A B : Nat → Nat → K) : Prop :=
  (∀ i j, j ≤ i → i < N → j < k → ∑ l ∈ Finset.range (j+1), B i l * star (B j l) = A i j) ∧
  (∀ i, i < k → RCLike.im (B i i) = 0 ∧ 0 < RCLike.re (B i i)) ∧
  (∀ i j, k ≤ j → j ≤ i → i < N → B i j = A i j - ∑ l ∈ Finset.range k, B i l * star (B j l)) ∧
  (∀ i j, ¬ (j ≤ i ∧ i < N) → B i j = A i j)

theorem step_zero (N : Nat) (A : Nat → Nat → K) : Step 0 N A A :=
  ⟨fun _ _ _ _ h => by omega, fun _ h => by omega, fun _ _ _ _ _ => by simp, fun _ _ _ => rfl⟩

/-- Elements of the lower triangle. -/
def low (B : Nat → Nat → K) (i l : Nat) : K := if l ≤ i then B i l else 0

theorem hermMat_star {A : Nat → Nat → K} {i j : Nat} (h : i < j) : hermMat A i j = star (hermMat A j i) := by
  unfold hermMat
  rw [if_neg (by omega), if_pos (by omega)]

theorem hermMat_sub (B : Nat → Nat → K) (k i j : Nat) : hermMat (sub B k k) i j = hermMat B (k+i) (k+j) := by
  unfold hermMat sub
  by_cases h : j ≤ i
  · rw [if_pos h, if_pos (by omega)]
  · rw [if_neg h, if_neg (by omega)]

theorem step_herm {k N : Nat} {A B : Nat → Nat → K} (h : Step k N A B) {i j : Nat} (hi : i < N) (hj : j < N) :
    hermMat A i j = ∑ l ∈ Finset.range k, low B i l * star (low B j l) +
      if k ≤ i ∧ k ≤ j then hermMat B i j else 0 := by
  have key : ∀ i j, j ≤ i → i < N → hermMat A i j = ∑ l ∈ Finset.range k, low B i l * star (low B j l) +
      if k ≤ i ∧ k ≤ j then hermMat B i j else 0 := by
    intro i j hij hi
    have e : hermMat A i j = A i j := if_pos hij
    rw [e]
    by_cases hjk : j < k
    · rw [if_neg (by omega), add_zero, ← h.1 i j hij hi hjk]
      have hsub : Finset.range (j+1) ⊆ Finset.range k := by
        intro l hl
        rw [Finset.mem_range] at hl ⊢
        omega
      rw [← Finset.sum_subset hsub]
      · refine Finset.sum_congr rfl fun l hl => ?_
        rw [Finset.mem_range] at hl
        unfold low
        rw [if_pos (by omega), if_pos (by omega)]
      · intro l _ hl
        rw [Finset.mem_range] at hl
        have : low B j l = 0 := if_neg (by omega)
        rw [this, star_zero, mul_zero]
    · rw [if_pos (by omega)]
      have e2 : hermMat B i j = B i j := if_pos hij
      rw [e2, h.2.2.1 i j (by omega) hij hi]
      have : ∑ l ∈ Finset.range k, low B i l * star (low B j l) = ∑ l ∈ Finset.range k, B i l * star (B j l) := by
        refine Finset.sum_congr rfl fun l hl => ?_
        rw [Finset.mem_range] at hl
        unfold low
        rw [if_pos (by omega), if_pos (by omega)]
      rw [this]
      ring
  by_cases hij : j ≤ i
  · exact key i j hij hi
  · rw [hermMat_star (by omega), key j i (by omega) hj, star_add, star_sum]
    congr 1
    · refine Finset.sum_congr rfl fun l _ => ?_
      rw [star_mul, star_star]
    · by_cases hk : k ≤ i ∧ k ≤ j
      · rw [if_pos hk, if_pos ⟨hk.2, hk.1⟩, hermMat_star (i := i) (by omega)]
      · rw [if_neg hk, if_neg (by omega), star_zero]

/-- The projections of `x` on the factor's columns. -/
noncomputable def proj (N : Nat) (B : Nat → Nat → K) (x : Nat → K) (l : Nat) : K :=
  ∑ i ∈ Finset.range N, star (x i) * low B i l

theorem quad_step {k N : Nat} {A B : Nat → Nat → K} (h : Step k N A B) (hk : k ≤ N) (x : Nat → K) :
    quad N (hermMat A) x = ∑ l ∈ Finset.range k, proj N B x l * star (proj N B x l) +
      quad (N-k) (hermMat (sub B k k)) (fun i => x (k+i)) := by
  have e1 : quad N (hermMat A) x = ∑ i ∈ Finset.range N, ∑ j ∈ Finset.range N,
      (∑ l ∈ Finset.range k, (star (x i) * low B i l) * (star (low B j l) * x j) +
        (if k ≤ i ∧ k ≤ j then star (x i) * hermMat B i j * x j else 0)) := by
    refine Finset.sum_congr rfl fun i hi => Finset.sum_congr rfl fun j hj => ?_
    rw [Finset.mem_range] at hi hj
    rw [step_herm h hi hj, mul_add, add_mul, Finset.mul_sum, Finset.sum_mul]
    congr 1
    · exact Finset.sum_congr rfl fun l _ => by ring
    · by_cases hc : k ≤ i ∧ k ≤ j
      · rw [if_pos hc, if_pos hc]
      · rw [if_neg hc, if_neg hc]; simp
  rw [e1]
  simp only [Finset.sum_add_distrib]
  congr 1
  · have : ∀ i, ∑ j ∈ Finset.range N, ∑ l ∈ Finset.range k, (star (x i) * low B i l) * (star (low B j l) * x j) =
        ∑ l ∈ Finset.range k, ∑ j ∈ Finset.range N, (star (x i) * low B i l) * (star (low B j l) * x j) :=
      fun i => Finset.sum_comm
    simp only [this]
    rw [Finset.sum_comm]
    refine Finset.sum_congr rfl fun l _ => ?_
    unfold proj
    rw [star_sum, Finset.sum_mul]
    refine Finset.sum_congr rfl fun i _ => ?_
    rw [Finset.mul_sum]
    refine Finset.sum_congr rfl fun j _ => ?_
    rw [star_mul, star_star]
  · unfold quad
    rw [TMV.sum_split _ hk, Finset.sum_eq_zero, zero_add]
    · refine Finset.sum_congr rfl fun i _ => ?_
      rw [TMV.sum_split _ hk, Finset.sum_eq_zero, zero_add]
      · refine Finset.sum_congr rfl fun j _ => ?_
        rw [if_pos (by omega), hermMat_sub]
      · intro j hj
        rw [Finset.mem_range] at hj
        rw [if_neg (by omega)]
    · intro i hi
      rw [Finset.mem_range] at hi
      exact Finset.sum_eq_zero fun j _ => by rw [if_neg (by omega)]

theorem re_mul_star (z : K) : RCLike.re (z * star z) = RCLike.normSq z := by
  rw [← normSq_eq, RCLike.ofReal_re]

theorem step_posDef {N : Nat} {A B : Nat → Nat → K} (h : Step N N A B) : PosDef N (hermMat A) := by
  intro x hx
  rw [quad_step h (le_refl N)]
  have h0 : quad (N-N) (hermMat (sub B N N)) (fun i => x (N+i)) = 0 := by
    unfold quad; simp
  rw [h0, add_zero, map_sum]
  simp only [re_mul_star]
  -- the last index with a nonzero element
  obtain ⟨m, hm1, hm2, hm3⟩ : ∃ m, m < N ∧ x m ≠ 0 ∧ ∀ i, m < i → i < N → x i = 0 := by
    have hP : ∃ d, d < N ∧ x (N-1-d) ≠ 0 := by
      obtain ⟨i, hi, hxi⟩ := hx
      exact ⟨N-1-i, by omega, by rwa [show N-1-(N-1-i) = i by omega]⟩
    have hs := Nat.find_spec hP
    refine ⟨N-1-Nat.find hP, by omega, hs.2, ?_⟩
    intro i h1 h2
    by_contra hne
    have := Nat.find_min' hP ⟨(by omega : N-1-i < N), by rwa [show N-1-(N-1-i) = i by omega]⟩
    omega
  have hw : proj N B x m = star (x m) * B m m := by
    unfold proj
    rw [Finset.sum_eq_single m]
    · unfold low; rw [if_pos (le_refl _)]
    · intro i hi hne
      rw [Finset.mem_range] at hi
      rcases lt_or_gt_of_ne hne with h1 | h1
      · unfold low; rw [if_neg (by omega), mul_zero]
      · rw [hm3 i h1 hi, star_zero, zero_mul]
    · intro hh
      exact absurd (Finset.mem_range.mpr hm1) hh
  refine Finset.sum_pos' (fun l _ => RCLike.normSq_nonneg _) ⟨m, Finset.mem_range.mpr hm1, ?_⟩
  rw [hw, RCLike.normSq_pos]
  have hd : B m m ≠ 0 := by
    intro h0
    have := (h.2.1 m hm1).2
    rw [h0, map_zero] at this
    exact lt_irrefl _ this
  exact mul_ne_zero (star_ne_zero.mpr hm2) hd

theorem npd_step {k N : Nat} {A B : Nat → Nat → K} (h : Step k N A B) (hk : k ≤ N)
    (hn : ¬ PosDef (N-k) (hermMat (sub B k k))) : ¬ PosDef N (hermMat A) := by
  unfold PosDef at hn
  push Not at hn
  obtain ⟨y, ⟨i0, hi0, hy0⟩, hq⟩ := hn
  obtain ⟨b, hb⟩ : ∃ b : Nat → K, b = fun l => - ∑ i ∈ Finset.range (N-k), star (B (k+i) l) * y i := ⟨_, rfl⟩
  have hsome := Tri.upperV_isSome .rm false k (fun l i => star (B i l)) b (by
    intro i hi
    simp only [TMV.dg, Bool.false_eq_true, if_false]
    intro h0
    have := (h.2.1 i hi).2
    rw [star_eq_zero.mp h0, map_zero] at this
    exact lt_irrefl _ this)
  obtain ⟨z, hz⟩ := Option.isSome_iff_exists.mp hsome
  have hsol := Tri.upperV_sound .rm false k _ b z hz
  intro hp
  have := hp (fun i => if i < k then z i else y (i-k)) ⟨k+i0, by omega, by
    rw [if_neg (by omega), show k + i0 - k = i0 by omega]
    exact hy0⟩
  rw [quad_step h hk] at this
  have e0 : ∀ l, l < k → proj N B (fun i => if i < k then z i else y (i-k)) l = 0 := by
    intro l hl
    rw [← star_eq_zero]
    unfold proj
    rw [star_sum, TMV.sum_split _ hk]
    have hs := hsol.1 l hl
    have e1 : ∑ i ∈ Finset.range k, star (star (if i < k then z i else y (i-k)) * low B i l) = b l := by
      rw [← hs]
      refine Finset.sum_congr rfl fun i hi => ?_
      rw [Finset.mem_range] at hi
      rw [if_pos hi, star_mul, star_star]
      congr 1
      unfold low upperMat
      by_cases hc : l ≤ i
      · rw [if_pos hc]
        by_cases hd : l < i
        · rw [if_pos hd]
        · rw [if_neg hd, if_pos (by omega)]
          have : l = i := by omega
          subst this
          simp
      · rw [if_neg hc, if_neg (by omega), if_neg (by omega), star_zero]
    have e2 : ∑ i ∈ Finset.range (N-k), star (star (if k+i < k then z (k+i) else y (k+i-k)) * low B (k+i) l) = - b l := by
      rw [hb]
      rw [neg_neg]
      refine Finset.sum_congr rfl fun i hi => ?_
      rw [if_neg (by omega), show k + i - k = i by omega, star_mul, star_star]
      unfold low
      rw [if_pos (by omega)]
    rw [e1, e2, add_neg_cancel]
  rw [Finset.sum_eq_zero (fun l hl => by rw [e0 l (Finset.mem_range.mp hl), zero_mul]), zero_add] at this
  have e3 : (fun i => if k + i < k then z (k+i) else y (k+i-k)) = y := by
    funext i
    rw [if_neg (by omega), show k + i - k = i by omega]
  rw [e3] at this
  exact absurd this (not_lt.mpr hq)

theorem npd_mono {k N : Nat} {A : Nat → Nat → K} (hk : k ≤ N) (hn : ¬ PosDef k (hermMat A)) :
    ¬ PosDef N (hermMat A) := by
  intro hp
  apply hn
  rintro x ⟨i, hi, hx⟩
  have := hp (fun i => if i < k then x i else 0) ⟨i, by omega, by rwa [if_pos hi]⟩
  have e : quad N (hermMat A) (fun i => if i < k then x i else 0) = quad k (hermMat A) x := by
    unfold quad
    rw [TMV.sum_split _ hk]
    have hz : ∑ i ∈ Finset.range (N-k), ∑ j ∈ Finset.range N,
        star (if k+i < k then x (k+i) else 0) * hermMat A (k+i) j * (if j < k then x j else 0) = 0 := by
      refine Finset.sum_eq_zero fun i _ => Finset.sum_eq_zero fun j _ => ?_
      rw [if_neg (by omega), star_zero, zero_mul, zero_mul]
    rw [hz, add_zero]
    refine Finset.sum_congr rfl fun i hi => ?_
    rw [Finset.mem_range] at hi
    rw [TMV.sum_split _ hk]
    have hz : ∑ j ∈ Finset.range (N-k),
        star (if i < k then x i else 0) * hermMat A i (k+j) * (if k+j < k then x (k+j) else 0) = 0 := by
      refine Finset.sum_eq_zero fun j _ => ?_
      rw [if_neg (by omega : ¬ k + j < k), mul_zero]
    rw [hz, add_zero]
    refine Finset.sum_congr rfl fun j hj => ?_
    rw [Finset.mem_range] at hj
    simp only [if_pos hi, if_pos hj]
  rwa [e] at this

theorem npd_pivot {N : Nat} {A : Nat → Nat → K} (hN : 0 < N) (h : RCLike.re (A 0 0) ≤ 0) : ¬ PosDef N (hermMat A) := by
  apply npd_mono hN
  intro hp
  have := hp (fun _ => 1) ⟨0, by omega, one_ne_zero⟩
  simp only [quad, Finset.sum_range_one, star_one, one_mul, mul_one, zero_add] at this
  have e : hermMat A 0 0 = A 0 0 := if_pos (le_refl _)
  rw [e] at this
  linarith

theorem step_fail {k N : Nat} {A B : Nat → Nat → K} (h : Step k N A B) (hk : k < N) (hb : RCLike.re (B k k) ≤ 0) :
    ¬ PosDef N (hermMat A) :=
  npd_step h hk.le (npd_pivot (by omega) hb)

theorem step_real {k N : Nat} {A B : Nat → Nat → K} (h : Step k N A B) (hA : RealDiag N A) : RealDiag N B := by
  intro i hi
  by_cases hk : i < k
  · exact (h.2.1 i hk).1
  · rw [h.2.2.1 i i (by omega) (le_refl _) hi, map_sub, hA i hi, map_sum, Finset.sum_eq_zero, sub_zero]
    intro l _
    rw [← normSq_eq, RCLike.ofReal_im]

theorem step_comp {k k' N : Nat} {A B C : Nat → Nat → K} (h : Step k N A B) (h' : Step k' (N-k) (sub B k k) C)
    (hk : k + k' ≤ N) : Step (k+k') N A (paste B k k (N-k) (N-k) C) := by
  have hin : ∀ i j, k ≤ i → i < N → k ≤ j → j < N → paste B k k (N-k) (N-k) C i j = C (i-k) (j-k) := by
    intro i j h1 h2 h3 h4
    unfold paste
    rw [if_pos (by omega)]
  have hcol : ∀ i j, j < k → paste B k k (N-k) (N-k) C i j = B i j := by
    intro i j h1
    unfold paste
    rw [if_neg (by omega)]
  have hrow : ∀ i j, i < k → paste B k k (N-k) (N-k) C i j = B i j := by
    intro i j h1
    unfold paste
    rw [if_neg (by omega)]
  have hsum : ∀ i j m, k ≤ j → j ≤ i → i < N → k + m ≤ N → ∑ l ∈ Finset.range (k+m),
      paste B k k (N-k) (N-k) C i l * star (paste B k k (N-k) (N-k) C j l) =
      ∑ l ∈ Finset.range k, B i l * star (B j l) + ∑ l ∈ Finset.range m, C (i-k) l * star (C (j-k) l) := by
    intro i j m h1 h2 h3 h4
    rw [Finset.sum_range_add]
    congr 1
    · refine Finset.sum_congr rfl fun l hl => ?_
      rw [Finset.mem_range] at hl
      rw [hcol _ _ hl, hcol _ _ hl]
    · refine Finset.sum_congr rfl fun l hl => ?_
      rw [Finset.mem_range] at hl
      rw [hin i (k+l) (by omega) h3 (by omega) (by omega), hin j (k+l) h1 (by omega) (by omega) (by omega),
        show k + l - k = l by omega]
  refine ⟨?_, ?_, ?_, ?_⟩
  · intro i j hij hi hj
    by_cases hjk : j < k
    · rw [← h.1 i j hij hi hjk]
      refine Finset.sum_congr rfl fun l hl => ?_
      rw [Finset.mem_range] at hl
      rw [hcol _ _ (by omega), hcol _ _ (by omega)]
    · rw [show j + 1 = k + (j-k+1) by omega, hsum i j _ (by omega) hij hi (by omega),
        h'.1 (i-k) (j-k) (by omega) (by omega) (by omega)]
      simp only [sub]
      rw [show k + (i-k) = i by omega, show k + (j-k) = j by omega, h.2.2.1 i j (by omega) hij hi]
      ring
  · intro i hi
    by_cases hik : i < k
    · rw [hrow i i hik]
      exact h.2.1 i hik
    · rw [hin i i (by omega) (by omega) (by omega) (by omega)]
      exact h'.2.1 (i-k) (by omega)
  · intro i j hj hij hi
    rw [hsum i j k' (by omega) hij hi hk, hin i j (by omega) hi (by omega) (by omega),
      h'.2.2.1 (i-k) (j-k) (by omega) (by omega) (by omega)]
    simp only [sub]
    rw [show k + (i-k) = i by omega, show k + (j-k) = j by omega, h.2.2.1 i j (by omega) hij hi]
    ring
  · intro i j hij
    unfold paste
    by_cases hc : k ≤ i ∧ i < k + (N-k) ∧ k ≤ j ∧ j < k + (N-k)
    · rw [if_pos hc, h'.2.2.2 _ _ (by omega)]
      simp only [sub]
      rw [show k + (i-k) = i by omega, show k + (j-k) = j by omega]
      exact h.2.2.2 i j hij
    · rw [if_neg hc]
      exact h.2.2.2 i j hij

/-- Eliminating one column. -/
theorem pivot {j N : Nat} {A B B' : Nat → Nat → K} (h : Step j N A B) (hj : j < N)
    (hd : 0 < RCLike.re (B j j)) (him : RCLike.im (B j j) = 0)
    (h1 : ∀ a b, b < j ∨ ¬ (b ≤ a ∧ a < N) → B' a b = B a b)
    (h2 : B' j j = ((Real.sqrt (RCLike.re (B j j)) : ℝ) : K))
    (h3 : ∀ i, j < i → i < N → B' i j = B i j / ((Real.sqrt (RCLike.re (B j j)) : ℝ) : K))
    (h4 : ∀ i b, j < b → b ≤ i → i < N → B' i b = B i b - B' i j * star (B' b j)) : Step (j+1) N A B' := by
  have hs : 0 < Real.sqrt (RCLike.re (B j j)) := Real.sqrt_pos.mpr hd
  have hs' : ((Real.sqrt (RCLike.re (B j j)) : ℝ) : K) ≠ 0 := by
    rw [Ne, RCLike.ofReal_eq_zero]
    exact hs.ne'
  have hst : star (B' j j) = ((Real.sqrt (RCLike.re (B j j)) : ℝ) : K) := by
    rw [h2]
    simp
  have hcol : ∀ i, j ≤ i → i < N → B' i j * star (B' j j) = B i j := by
    intro i hi hiN
    rw [hst]
    rcases Nat.lt_or_ge j i with h' | h'
    · rw [h3 i h' hiN, div_mul_cancel₀ _ hs']
    · have : i = j := by omega
      subst this
      rw [h2, ← RCLike.ofReal_mul, Real.mul_self_sqrt hd.le, re_of_real him]
  have hsum : ∀ a b, ∑ l ∈ Finset.range j, B' a l * star (B' b l) = ∑ l ∈ Finset.range j, B a l * star (B b l) := by
    intro a b
    refine Finset.sum_congr rfl fun l hl => ?_
    rw [Finset.mem_range] at hl
    rw [h1 a l (Or.inl hl), h1 b l (Or.inl hl)]
  refine ⟨?_, ?_, ?_, ?_⟩
  · intro i b hbi hi hb
    by_cases hbj : b < j
    · rw [← h.1 i b hbi hi hbj]
      refine Finset.sum_congr rfl fun l hl => ?_
      rw [Finset.mem_range] at hl
      rw [h1 _ l (Or.inl (by omega)), h1 _ l (Or.inl (by omega))]
    · have : b = j := by omega
      subst this
      rw [Finset.sum_range_succ, hsum, hcol i hbi hi, h.2.2.1 i b (le_refl _) hbi hi]
      ring
  · intro i hi
    by_cases hij : i < j
    · rw [h1 i i (Or.inl hij)]
      exact h.2.1 i hij
    · have : i = j := by omega
      subst this
      rw [h2, RCLike.ofReal_im, RCLike.ofReal_re]
      exact ⟨rfl, hs⟩
  · intro i b hb hbi hi
    rw [h4 i b (by omega) hbi hi, h.2.2.1 i b (by omega) hbi hi, Finset.sum_range_succ, hsum]
    ring
  · intro a b hab
    rw [h1 a b (Or.inr hab)]
    exact h.2.2.2 a b hab

theorem setRe_real {z : K} (h : RCLike.im z = 0) (r : ℝ) : setRe z r = (r : K) := by
  unfold setRe
  rw [h]
  simp

/-- What a decomposition must return. -/
def Result (N : Nat) (A : Nat → Nat → K) : Option (Nat → Nat → K) → Prop
  | some L => Step N N A L
  | none => ¬ PosDef N (hermMat A)

theorem root_last {N : Nat} (hN : 0 < N) {A B : Nat → Nat → K} (h : Step (N-1) N A B)
    (him : RCLike.im (B (N-1) (N-1)) = 0) : Result N A (root (N-1) B) := by
  unfold root
  by_cases hr : RCLike.re (B (N-1) (N-1)) ≤ 0
  · rw [if_pos hr]
    exact step_fail h (by omega) hr
  · rw [if_neg hr]
    rw [setRe_real him]
    have := pivot (B' := setE B (N-1) (N-1) ((Real.sqrt (RCLike.re (B (N-1) (N-1))) : ℝ) : K)) h (by omega) (not_le.mp hr) him
      (by intro a b hab; rw [setE_ne _ _ _ _ (by omega)])
      (setE_self _ _ _ _) (by intro i h1 h2; omega) (by intro i b h1 h2 h3; omega)
    rw [Nat.sub_add_cancel hN] at this
    exact this

theorem colStep_spec {N j : Nat} (hj : j + 1 < N) {A B : Nat → Nat → K} (hA : RealDiag N A) (h : Step j N A B) :
    match colStep N j B with
    | some B' => Step (j+1) N A B'
    | none => ¬ PosDef N (hermMat A) := by
  have hB := step_real h hA
  unfold colStep root
  by_cases hr : RCLike.re (B j j) ≤ 0
  · rw [if_pos hr]
    exact step_fail h (by omega) hr
  · rw [if_neg hr, Option.map_some]
    simp only
    rw [setRe_real (hB j (by omega))]
    obtain ⟨d, hd⟩ : ∃ d, d = Real.sqrt (RCLike.re (B j j)) := ⟨_, rfl⟩
    rw [← hd]
    obtain ⟨C, hC⟩ : ∃ C, C = divCol N j (setE B j j ((d : ℝ) : K)) := ⟨_, rfl⟩
    rw [← hC]
    have c1 : ∀ i, j < i → i < N → C i j = B i j / ((d : ℝ) : K) := by
      intro i h1 h2
      rw [hC]
      unfold divCol
      rw [if_pos ⟨rfl, h1, h2⟩, setE_ne _ _ _ _ (by omega), setE_self, RCLike.ofReal_re]
    have c2 : C j j = ((d : ℝ) : K) := by
      rw [hC]
      unfold divCol
      rw [if_neg (by omega), setE_self]
    have c3 : ∀ a b, b ≠ j ∨ ¬ (b ≤ a ∧ a < N) → C a b = B a b := by
      intro a b hab
      rw [hC]
      unfold divCol
      rw [if_neg (by omega), setE_ne _ _ _ _ (by omega)]
    have hrk := SymRK.rank1_spec .cm false true true (N-(j+1)) (-1) (fun i => C (j+1+i) j) (sub C (j+1) (j+1)) (by simp)
      (fun _ => ⟨by simp, fun _ i hi => by
        simp only [sub]
        rw [c3 _ _ (Or.inl (by omega))]
        exact hB _ (by omega)⟩)
    generalize SymRK.rank1 .cm false true true (N-(j+1)) (-1) (fun i => C (j+1+i) j) (sub C (j+1) (j+1)) = R at hrk
    have p1 : ∀ a b, ¬ (j+1 ≤ a ∧ a < N ∧ j+1 ≤ b ∧ b < N) → paste C (j+1) (j+1) (N-(j+1)) (N-(j+1)) R a b = C a b := by
      intro a b hab
      unfold paste
      rw [if_neg (by omega)]
    have p2 : ∀ a b, j+1 ≤ a → a < N → j+1 ≤ b → b < N → paste C (j+1) (j+1) (N-(j+1)) (N-(j+1)) R a b =
        if b ≤ a then C a b - C a j * star (C b j) else C a b := by
      intro a b h1 h2 h3 h4
      unfold paste
      rw [if_pos (by omega), hrk]
      simp only [sub]
      rw [show j + 1 + (a - (j+1)) = a by omega, show j + 1 + (b - (j+1)) = b by omega]
      by_cases hc : b ≤ a
      · rw [if_pos (by omega), if_pos hc]
        simp only [if_true, cj, Bool.false_eq_true, if_false]
        ring
      · rw [if_neg (by omega), if_neg hc]
    refine pivot h (by omega) (not_le.mp hr) (hB j (by omega)) ?_ ?_ ?_ ?_
    · intro a b hab
      by_cases hc : j+1 ≤ a ∧ a < N ∧ j+1 ≤ b ∧ b < N
      · rw [p2 a b hc.1 hc.2.1 hc.2.2.1 hc.2.2.2, if_neg (by omega), c3 a b (Or.inl (by omega))]
      · rw [p1 a b hc, c3 a b (by omega)]
    · rw [p1 j j (by omega), c2, hd]
    · intro i h1 h2
      rw [p1 i j (by omega), c1 i h1 h2, hd]
    · intro i b h1 h2 h3
      rw [p2 i b (by omega) h3 (by omega) (by omega), if_pos h2, p1 i j (by omega), p1 b j (by omega),
        c3 i b (Or.inl (by omega))]

theorem nonBlockCM_spec {N : Nat} (hN : 0 < N) {A : Nat → Nat → K} (hA : RealDiag N A) :
    Result N A (nonBlockCM N A) := by
  have key : ∀ n j B, j + n = N - 1 → Step j N A B →
      match forRange (colStep N) n j B with
      | some C => Step (N-1) N A C
      | none => ¬ PosDef N (hermMat A) := by
    intro n
    induction n with
    | zero =>
      intro j B hj h
      simp only [forRange]
      have : j = N - 1 := by omega
      rwa [← this]
    | succ n ih =>
      intro j B hj h
      rw [forRange]
      have h1 := colStep_spec (N := N) (j := j) (by omega) hA h
      cases hc : colStep N j B with
      | none => rw [hc] at h1; exact h1
      | some C =>
        rw [hc] at h1
        rw [Option.bind_some]
        exact ih (j+1) C (by omega) h1
  have h1 := key (N-1) 0 A (by omega) (step_zero N A)
  unfold nonBlockCM
  cases hc : forRange (colStep N) (N-1) 0 A with
  | none => rw [hc] at h1; exact h1
  | some C =>
    rw [hc] at h1
    rw [Option.bind_some]
    exact root_last hN h1 (step_real h1 hA (N-1) (by omega))

theorem rowStep_spec (o : Ord) {i : Nat} {A B : Nat → Nat → K} (hA : RealDiag (i+1) A)
    (h : Step i i A B) : Result (i+1) A (rowStep o i B) := by
  unfold rowStep
  have hsome := Tri.lowerV_isSome o false i (fun a b => star (B a b)) (fun j => B i j) (by
    intro l hl
    simp only [TMV.dg, Bool.false_eq_true, if_false]
    intro h0
    have := (h.2.1 l hl).2
    rw [star_eq_zero.mp h0, map_zero] at this
    exact lt_irrefl _ this)
  obtain ⟨v, hv⟩ := Option.isSome_iff_exists.mp hsome
  have hsol := Tri.lowerV_sound o false i _ _ v hv
  rw [hv, Option.bind_some]
  simp only
  obtain ⟨C, hC⟩ : ∃ C : Nat → Nat → K, C = fun a b => if a = i ∧ b < i then v b else B a b := ⟨_, rfl⟩
  have hCe : ∀ a b, C a b = if a = i ∧ b < i then v b else B a b := fun a b => by rw [hC]
  have hii : C i i = A i i := by rw [hCe, if_neg (by omega), h.2.2.2 i i (by omega)]
  have e : (fun a b => if a = i ∧ b < i then v b else B a b) = C := hC.symm
  have e1 : (∑ j ∈ Finset.range i, RCLike.normSq (if True ∧ j < i then v j else B i j)) =
      ∑ j ∈ Finset.range i, RCLike.normSq (C i j) := by
    refine Finset.sum_congr rfl fun j hj => ?_
    rw [hCe]
    simp
  rw [e]
  have e2 : (if True ∧ i < i then v i else B i i) = C i i := by rw [hCe]; simp
  simp only [e1, e2]
  have him : RCLike.im (A i i) = 0 := hA i (by omega)
  rw [hii, setRe_real him]
  obtain ⟨D, hD⟩ : ∃ D, D = setE C i i (((RCLike.re (A i i) - ∑ j ∈ Finset.range i, RCLike.normSq (C i j) : ℝ)) : K) :=
    ⟨_, rfl⟩
  rw [← hD]
  have d1 : ∀ a b, ¬ (a = i ∧ b = i) → D a b = C a b := fun a b hab => by rw [hD, setE_ne _ _ _ _ hab]
  have d2 : D i i = (((RCLike.re (A i i) - ∑ j ∈ Finset.range i, RCLike.normSq (C i j) : ℝ)) : K) := by
    rw [hD, setE_self]
  have drow : ∀ l, l < i → D i l = v l := fun l hl => by rw [d1 i l (by omega), hCe, if_pos ⟨rfl, hl⟩]
  have dup : ∀ a l, a < i → D a l = B a l := fun a l ha => by rw [d1 a l (by omega), hCe, if_neg (by omega)]
  have hst : Step i (i+1) A D := by
    refine ⟨?_, ?_, ?_, ?_⟩
    · intro a j hja ha hj
      by_cases hai : a < i
      · rw [← h.1 a j hja hai hj]
        refine Finset.sum_congr rfl fun l hl => ?_
        rw [dup a l hai, dup j l hj]
      · have : a = i := by omega
        subst this
        have hs := hsol.1 j hj
        rw [TMV.lowerMat_sum _ _ _ _ _ hj] at hs
        simp only [TMV.dg, Bool.false_eq_true, if_false] at hs
        rw [h.2.2.2 a j (by omega)] at hs
        rw [← hs, Finset.sum_range_succ]
        congr 1
        · refine Finset.sum_congr rfl fun l hl => ?_
          rw [Finset.mem_range] at hl
          rw [drow l (by omega), dup j l hj, mul_comm]
        · rw [drow j hj, dup j j hj, mul_comm]
    · intro a ha
      rw [dup a a ha]
      exact h.2.1 a ha
    · intro a j hj hja ha
      have h1 : a = i := by omega
      have h2 : j = i := by omega
      subst h1
      subst h2
      rw [d2, RCLike.ofReal_sub, re_of_real him]
      congr 1
      push_cast
      refine Finset.sum_congr rfl fun l hl => ?_
      rw [Finset.mem_range] at hl
      rw [d1 _ _ (by omega)]
      exact normSq_eq _
    · intro a b hab
      rw [d1 a b (by omega), hCe, if_neg (by omega), h.2.2.2 a b (by omega)]
  have := root_last (N := i+1) (by omega) hst (by
    rw [Nat.add_sub_cancel, d2, RCLike.ofReal_im])
  rwa [Nat.add_sub_cancel] at this

theorem nonBlockRM_spec (o : Ord) {N : Nat} (hN : 0 < N) {A : Nat → Nat → K} (hA : RealDiag N A) :
    Result N A (nonBlockRM o N A) := by
  have key : ∀ n i B, i + n = N → Step i i A B → Result N A (forRange (rowStep o) n i B) := by
    intro n
    induction n with
    | zero =>
      intro i B hi h
      simp only [forRange]
      have : i = N := by omega
      subst this
      exact h
    | succ n ih =>
      intro i B hi h
      rw [forRange]
      have h1 := rowStep_spec o (fun l hl => hA l (by omega)) h
      cases hc : rowStep o i B with
      | none =>
        rw [hc] at h1
        exact npd_mono (by omega) h1
      | some C =>
        rw [hc] at h1
        rw [Option.bind_some]
        exact ih (i+1) C (by omega) h1
  have h1 := root_last (N := 1) (A := A) (B := A) (by omega) (step_zero 1 A) (hA 0 hN)
  unfold nonBlockRM
  simp only [Nat.sub_self] at h1
  cases hc : root 0 A with
  | none => rw [hc] at h1; exact npd_mono hN h1
  | some C =>
    rw [hc] at h1
    rw [Option.bind_some]
    exact key (N-1) 1 C (by omega) h1

theorem tiny_spec {N : Nat} (hN : 0 < N) (hN2 : N ≤ 2) {A : Nat → Nat → K} (hA : RealDiag N A) :
    Result N A (tiny N A) := by
  unfold tiny
  by_cases hr : RCLike.re (A 0 0) ≤ 0
  · rw [if_pos hr]
    exact npd_pivot hN hr
  · rw [if_neg hr]
    simp only
    obtain ⟨d, hd⟩ : ∃ d, d = Real.sqrt (RCLike.re (A 0 0)) := ⟨_, rfl⟩
    rw [← hd]
    by_cases h2 : N = 2
    · subst h2
      rw [if_pos rfl]
      obtain ⟨B, hB⟩ : ∃ B, B = setE (setE A 0 0 ((d : ℝ) : K)) 1 0 (setE A 0 0 ((d : ℝ) : K) 1 0 / ((d : ℝ) : K)) := ⟨_, rfl⟩
      rw [← hB]
      have b00 : B 0 0 = ((d : ℝ) : K) := by rw [hB, setE_ne _ _ _ _ (by omega), setE_self]
      have b10 : B 1 0 = A 1 0 / ((d : ℝ) : K) := by rw [hB, setE_self, setE_ne _ _ _ _ (by omega)]
      have bo : ∀ a b, ¬ (a = 0 ∧ b = 0) → ¬ (a = 1 ∧ b = 0) → B a b = A a b := by
        intro a b h1 h2
        rw [hB, setE_ne _ _ _ _ h2, setE_ne _ _ _ _ h1]
      obtain ⟨t, ht⟩ : ∃ t, t = RCLike.re (B 1 1) - RCLike.normSq (B 1 0) := ⟨_, rfl⟩
      rw [← ht]
      have h11 : RCLike.im (A 1 1) = 0 := hA 1 (by omega)
      have hst : Step 1 2 A (setE B 1 1 ((t : ℝ) : K)) := by
        refine pivot (step_zero 2 A) (by omega) (not_le.mp hr) (hA 0 (by omega)) ?_ ?_ ?_ ?_
        · intro a b hab
          rw [setE_ne _ _ _ _ (by omega), bo a b (by omega) (by omega)]
        · rw [setE_ne _ _ _ _ (by omega), b00, hd]
        · intro i h1 h2
          have : i = 1 := by omega
          subst this
          rw [setE_ne _ _ _ _ (by omega), b10, hd]
        · intro i b h1 h2 h3
          have e1 : i = 1 := by omega
          have e2 : b = 1 := by omega
          subst e1
          subst e2
          rw [setE_self, setE_ne _ _ _ _ (by omega), ht, bo 1 1 (by omega) (by omega), RCLike.ofReal_sub, normSq_eq,
            re_of_real h11]
      by_cases ht0 : t ≤ 0
      · rw [if_pos ht0]
        refine step_fail hst (by omega) ?_
        rw [setE_self, RCLike.ofReal_re]
        exact ht0
      · rw [if_neg ht0]
        refine pivot (j := 1) hst (by omega) (by rw [setE_self, RCLike.ofReal_re]; exact not_le.mp ht0)
          (by rw [setE_self, RCLike.ofReal_im]) ?_ ?_ ?_ ?_
        · intro a b hab
          rw [setE_ne _ _ _ _ (by omega), setE_ne _ _ _ _ (by omega)]
        · rw [setE_self, setE_self, RCLike.ofReal_re]
        · intro i h1 h2; omega
        · intro i b h1 h2 h3; omega
    · rw [if_neg h2]
      have h1 : N = 1 := by omega
      subst h1
      refine pivot (step_zero 1 A) (by omega) (not_le.mp hr) (hA 0 (by omega)) ?_ ?_ ?_ ?_
      · intro a b hab
        rw [setE_ne _ _ _ _ (by omega)]
      · rw [setE_self, hd]
      · intro i h1 h2; omega
      · intro i b h1 h2 h3; omega

/-- All block sizes are positive. -/
def Blks.OK (bk : Blks) : Prop := 0 < bk.ch ∧ 0 < bk.ch2 ∧ 0 < bk.td ∧ 0 < bk.td2 ∧ 0 < bk.rk ∧ 0 < bk.rk2

theorem rec_spec (bk : Blks) (hbk : bk.OK) (o : Ord) : ∀ (fuel N : Nat) (A : Nat → Nat → K), N < fuel → RealDiag N A →
    Result N A (rec bk o fuel N A) := by
  intro fuel
  induction fuel with
  | zero => intro N A h; omega
  | succ fuel ih =>
    intro N A hf hA
    obtain ⟨q1, q2, q3, q4, q5, q6⟩ := hbk
    rw [rec]
    by_cases hb : N > bk.ch2
    · rw [if_pos hb]
      obtain ⟨hk1, hk2⟩ := Tri.splitAt_spec bk.ch N q1 (by omega)
      generalize hk : splitAt bk.ch N = k at hk1 hk2
      simp only [hk]
      have r1 := ih k A (by omega) (fun i hi => hA i (by omega))
      cases hc : rec bk o fuel k A with
      | none =>
        rw [hc] at r1
        exact npd_mono hk2.le r1
      | some B =>
        rw [hc] at r1
        rw [Option.bind_some]
        have r1 : Step k k A B := r1
        have hsome := Tri.lowerM_isSome bk.td bk.td2 q3 q4 o (decide (o = .cm)) false k (N-k) (fun a b => star (B a b))
          (fun a b => B (k+b) a) (by
            intro l hl
            simp only [TMV.dg, Bool.false_eq_true, if_false]
            intro h0
            have := (r1.2.1 l hl).2
            rw [star_eq_zero.mp h0, map_zero] at this
            exact lt_irrefl _ this)
        obtain ⟨X, hX⟩ := Option.isSome_iff_exists.mp hsome
        have hsol := Tri.lowerM_sound bk.td bk.td2 q3 q4 o (decide (o = .cm)) false k (N-k) _ _ X hX
        rw [hX, Option.bind_some]
        obtain ⟨C, hC⟩ : ∃ C : Nat → Nat → K, C = fun a b => if k ≤ a ∧ a < N ∧ b < k then X b (a-k) else B a b := ⟨_, rfl⟩
        have hCe : ∀ a b, C a b = if k ≤ a ∧ a < N ∧ b < k then X b (a-k) else B a b := fun a b => by rw [hC]
        have e : (fun a b => if k ≤ a ∧ a < N ∧ b < k then X b (a-k) else B a b) = C := hC.symm
        have e' : (fun i l => if k ≤ k + i ∧ k + i < N ∧ l < k then X l (k + i - k) else B (k + i) l) =
            fun i l => C (k+i) l := by
          funext i l
          rw [hCe]
        simp only [e]
        simp only [e']
        have hrk := SymRK.rankK_add_spec bk.rk bk.rk2 q5 q6 o (decide (o = .rm)) false true (N-k) k (-1)
          (fun i l => C (k+i) l) (sub C k k) (fun _ => ⟨by simp, fun i hi => by
            simp only [sub]
            rw [hCe, if_neg (by omega), r1.2.2.2 _ _ (by omega)]
            exact hA _ (by omega)⟩)
        generalize SymRK.rankK bk.rk bk.rk2 o (decide (o = .rm)) false true true (N-k) k (-1)
          (fun i l => C (k+i) l) (sub C k k) = R at hrk
        obtain ⟨D, hD⟩ : ∃ D, D = paste C k k (N-k) (N-k) R := ⟨_, rfl⟩
        rw [← hD]
        have d1 : ∀ a b, ¬ (k ≤ a ∧ a < N ∧ k ≤ b ∧ b < N) → D a b = C a b := by
          intro a b hab
          rw [hD]
          unfold paste
          rw [if_neg (by omega)]
        have d2 : ∀ a b, k ≤ a → a < N → k ≤ b → b < N → D a b =
            if b ≤ a then A a b - ∑ l ∈ Finset.range k, D a l * star (D b l) else A a b := by
          intro a b h1 h2 h3 h4
          have hs : ∑ l ∈ Finset.range k, D a l * star (D b l) = ∑ l ∈ Finset.range k, C a l * star (C b l) := by
            refine Finset.sum_congr rfl fun l hl => ?_
            rw [Finset.mem_range] at hl
            rw [d1 a l (by omega), d1 b l (by omega)]
          rw [hs, hD]
          unfold paste
          rw [if_pos (by omega), hrk]
          simp only [sub]
          rw [show k + (a-k) = a by omega, show k + (b-k) = b by omega]
          have hca : C a b = A a b := by rw [hCe, if_neg (by omega), r1.2.2.2 _ _ (by omega)]
          rw [hca]
          by_cases hc : b ≤ a
          · rw [if_pos (by omega), if_pos hc]
            simp only [if_true, cj]
            ring
          · rw [if_neg (by omega), if_neg hc]
        have hst : Step k N A D := by
          refine ⟨?_, ?_, ?_, ?_⟩
          · intro a j hja ha hj
            by_cases hai : a < k
            · rw [← r1.1 a j hja hai hj]
              refine Finset.sum_congr rfl fun l hl => ?_
              rw [Finset.mem_range] at hl
              rw [d1 a l (by omega), d1 j l (by omega), hCe, hCe, if_neg (by omega), if_neg (by omega)]
            · have hs := hsol.1 j (a-k) hj (by omega)
              rw [TMV.lowerMat_sum false (fun a b => star (B a b)) (fun l => X l (a-k)) k j hj] at hs
              simp only [TMV.dg, Bool.false_eq_true, if_false] at hs
              rw [show k + (a-k) = a by omega, r1.2.2.2 a j (by omega)] at hs
              rw [← hs, Finset.sum_range_succ]
              congr 1
              · refine Finset.sum_congr rfl fun l hl => ?_
                rw [Finset.mem_range] at hl
                rw [d1 a l (by omega), d1 j l (by omega), hCe, hCe, if_pos (by omega), if_neg (by omega), mul_comm]
              · rw [d1 a j (by omega), d1 j j (by omega), hCe, hCe, if_pos (by omega), if_neg (by omega), mul_comm]
          · intro a ha
            rw [d1 a a (by omega), hCe, if_neg (by omega)]
            exact r1.2.1 a ha
          · intro a j hj hja ha
            rw [d2 a j (by omega) ha hj (by omega), if_pos hja]
          · intro a b hab
            by_cases hc : k ≤ a ∧ a < N ∧ k ≤ b ∧ b < N
            · rw [d2 a b hc.1 hc.2.1 hc.2.2.1 hc.2.2.2, if_neg (by omega)]
            · rw [d1 a b hc, hCe, if_neg (by omega), r1.2.2.2 a b (by omega)]
        have r2 := ih (N-k) (sub D k k) (by omega) (fun i hi => step_real hst hA (k+i) (by omega))
        cases hc2 : rec bk o fuel (N-k) (sub D k k) with
        | none =>
          rw [hc2] at r2
          exact npd_step hst hk2.le r2
        | some E =>
          rw [hc2] at r2
          rw [Option.map_some]
          have := step_comp hst r2 (by omega)
          rw [show k + (N-k) = N by omega] at this
          exact this
    · rw [if_neg hb]
      by_cases h2 : bk.ch2 > 2 ∧ N > 2
      · rw [if_pos h2]
        by_cases ho : o = .cm
        · rw [if_pos ho]; exact nonBlockCM_spec (by omega) hA
        · rw [if_neg ho]; exact nonBlockRM_spec o (by omega) hA
      · rw [if_neg h2]
        by_cases h0 : N > 0
        · rw [if_pos h0]; exact tiny_spec h0 (by omega) hA
        · rw [if_neg h0]
          have : N = 0 := by omega
          subst this
          exact step_zero 0 A

theorem decompose_result (bk : Blks) (hbk : bk.OK) (o : Ord) (N : Nat) (A : Nat → Nat → K) (hA : RealDiag N A) :
    Result N A (decompose bk o N A) := by
  unfold decompose
  by_cases h : N > 0
  · rw [if_pos h]
    exact rec_spec bk hbk o (N+1) N A (by omega) hA
  · rw [if_neg h]
    have : N = 0 := by omega
    subst this
    exact step_zero 0 A

/-- **C31** (correctness): whatever `CH_Decompose` returns in the lower triangle is the Cholesky factor `L`,
`L Lᴴ = A`, with a real positive diagonal; nothing else is written. -/
theorem ch_correct (bk : Blks) (hbk : bk.OK) (o : Ord) (N : Nat) (A L : Nat → Nat → K) (hA : RealDiag N A)
    (h : decompose bk o N A = some L) :
    CholeskyOf N (hermMat A) L ∧ ∀ i j, ¬ (j ≤ i ∧ i < N) → L i j = A i j := by
  have hr := decompose_result bk hbk o N A hA
  rw [h] at hr
  have hr : Step N N A L := hr
  refine ⟨⟨?_, hr.2.1⟩, hr.2.2.2⟩
  intro i j hi hj
  rw [step_herm hr hi hj, if_neg (by omega), add_zero]
  rfl

/-- **C31** (detection): `NonPosDef` is thrown exactly when the matrix is not positive definite. -/
theorem ch_raises_iff (bk : Blks) (hbk : bk.OK) (o : Ord) (N : Nat) (A : Nat → Nat → K) (hA : RealDiag N A) :
    decompose bk o N A = none ↔ ¬ PosDef N (hermMat A) := by
  have hr := decompose_result bk hbk o N A hA
  cases h : decompose bk o N A with
  | none => rw [h] at hr; exact ⟨fun _ => hr, fun _ => rfl⟩
  | some L =>
    rw [h] at hr
    exact ⟨fun e => by simp at e, fun e => absurd (step_posDef hr) e⟩

/-- The factor is unique. -/
theorem cholesky_unique {N : Nat} {H L L' : Nat → Nat → K} (h : CholeskyOf N H L) (h' : CholeskyOf N H L') :
    ∀ i j, j ≤ i → i < N → L i j = L' i j := by
  have hsum : ∀ {L : Nat → Nat → K}, CholeskyOf N H L → ∀ i j, j ≤ i → i < N →
      ∑ k ∈ Finset.range j, L i k * star (L j k) + L i j * star (L j j) = H i j := by
    intro L h i j hij hi
    rw [← h.1 i j hi (by omega), ← Finset.sum_range_succ]
    have hsub : Finset.range (j+1) ⊆ Finset.range N := by
      intro l hl
      rw [Finset.mem_range] at hl ⊢
      omega
    rw [← Finset.sum_subset hsub]
    · refine Finset.sum_congr rfl fun l hl => ?_
      rw [Finset.mem_range] at hl
      rw [if_pos (by omega), if_pos (by omega)]
    · intro l _ hl
      rw [Finset.mem_range] at hl
      rw [if_neg (by omega : ¬ l ≤ j), star_zero, mul_zero]
  have key : ∀ j i, j ≤ i → i < N → L i j = L' i j := by
    intro j
    induction j using Nat.strong_induction_on with
    | _ j ih =>
      have hpart : ∀ i, j ≤ i → i < N → L i j * star (L j j) = L' i j * star (L' j j) := by
        intro i hi hiN
        have e1 := hsum h i j hi hiN
        have e2 := hsum h' i j hi hiN
        have e3 : ∑ k ∈ Finset.range j, L i k * star (L j k) = ∑ k ∈ Finset.range j, L' i k * star (L' j k) := by
          refine Finset.sum_congr rfl fun l hl => ?_
          rw [Finset.mem_range] at hl
          rw [ih l hl i (by omega) hiN, ih l hl j (by omega) (by omega)]
        rw [e3] at e1
        exact add_left_cancel (e1.trans e2.symm)
      intro i hi hiN
      have hjj : L j j = L' j j := by
        have e := hpart j (le_refl _) (by omega)
        obtain ⟨a1, a2⟩ := h.2 j (by omega)
        obtain ⟨b1, b2⟩ := h'.2 j (by omega)
        rw [← normSq_eq, ← normSq_eq, RCLike.ofReal_inj, RCLike.normSq_apply, RCLike.normSq_apply, a1, b1] at e
        have : RCLike.re (L j j) = RCLike.re (L' j j) := by nlinarith
        rw [← re_of_real a1, ← re_of_real b1, this]
      have e := hpart i hi hiN
      rw [hjj] at e
      have hne : star (L' j j) ≠ 0 := by
        intro h0
        have := (h'.2 j (by omega)).2
        rw [star_eq_zero.mp h0, map_zero] at this
        exact lt_irrefl _ this
      exact mul_right_cancel₀ hne e
  exact fun i j => key j i

/-- **C31** (all algorithms agree): the result does not depend on the storage order or the block sizes. -/
theorem ch_deterministic (bk bk' : Blks) (hbk : bk.OK) (hbk' : bk'.OK) (o o' : Ord) (N : Nat) (A : Nat → Nat → K)
    (hA : RealDiag N A) : decompose bk o N A = decompose bk' o' N A := by
  cases h : decompose bk o N A with
  | none =>
    rw [ch_raises_iff bk hbk o N A hA] at h
    exact ((ch_raises_iff bk' hbk' o' N A hA).mpr h).symm
  | some L =>
    cases h' : decompose bk' o' N A with
    | none =>
      rw [ch_raises_iff bk' hbk' o' N A hA] at h'
      have := (ch_raises_iff bk hbk o N A hA).mpr h'
      rw [this] at h
      cases h
    | some L' =>
      have c := ch_correct bk hbk o N A L hA h
      have c' := ch_correct bk' hbk' o' N A L' hA h'
      congr 1
      funext i j
      by_cases hij : j ≤ i ∧ i < N
      · exact cholesky_unique c.1 c'.1 i j hij.1 hij.2
      · rw [c.2 i j hij, c'.2 i j hij]

/-- Non-vacuity: `[[4,2],[2,5]]` has the factor `[[2,0],[1,2]]`, and is therefore decomposed. -/
example (bk : Blks) (hbk : bk.OK) (o : Ord) :
    (decompose bk o 2 (fun i j => if i = 0 ∧ j = 0 then (4 : ℝ) else if i = 1 ∧ j = 1 then 5 else 2)).isSome := by
  have hA : RealDiag 2 (fun i j => if i = 0 ∧ j = 0 then (4 : ℝ) else if i = 1 ∧ j = 1 then 5 else 2) := by
    intro i _; simp
  cases h : decompose bk o 2 (fun i j => if i = 0 ∧ j = 0 then (4 : ℝ) else if i = 1 ∧ j = 1 then 5 else 2) with
  | some L => rfl
  | none =>
    rw [ch_raises_iff bk hbk o 2 _ hA] at h
    exfalso
    apply h
    rintro x ⟨i, hi, hx⟩
    simp only [quad, hermMat, Finset.sum_range_succ, Finset.sum_range_zero]
    norm_num
    have : x 0 ≠ 0 ∨ x 1 ≠ 0 := by
      rcases (by omega : i = 0 ∨ i = 1) with rfl | rfl
      · exact Or.inl hx
      · exact Or.inr hx
    rcases this with h0 | h0
    · have := mul_self_pos.mpr h0
      nlinarith [sq_nonneg (x 0 + 2 * x 1), sq_nonneg (x 1)]
    · have := mul_self_pos.mpr h0
      nlinarith [sq_nonneg (2 * x 0 + x 1), sq_nonneg (x 0)]

end TMV.CH
