import Verif.Model.QR
import Verif.Spec.House
import Verif.Props.Givens
import Mathlib.LinearAlgebra.Matrix.SchurComplement
import Mathlib.Algebra.BigOperators.Field

/-! Property C33: Householder reflections. -/
namespace TMV.QR
noncomputable section
open Classical

variable {K : Type} [RCLike K]

/-! ### Reflectors as operators on vectors -/

/-- Inner product of the first `M` elements. -/
def ip (M : Nat) (x y : Nat → K) : K := ∑ p ∈ Finset.range M, star (x p) * y p

/-- The Householder vector stored in column `j` of `V`: zeros above row `j`, 1 in row `j`, then the stored elements. -/
def hv (M : Nat) (V : Nat → Nat → K) (j p : Nat) : K :=
  if p < j then 0 else if p < M then (if p = j then 1 else V p j) else 0

/-- The reflector `I - beta v vᴴ` (first `M` elements; the others are left alone). -/
def H (M : Nat) (V : Nat → Nat → K) (j : Nat) (beta : K) (x : Nat → K) : Nat → K :=
  fun i => x i - hv M V j i * (beta * ip M (hv M V j) x)

/-- `I - beta v vᴴ` is unitary: `|beta|² ‖v‖² = 2 Re beta`. -/
def Valid (M : Nat) (V : Nat → Nat → K) (j : Nat) (beta : K) : Prop :=
  beta * star beta * ip M (hv M V j) (hv M V j) = beta + star beta

theorem ip_add (M : Nat) (x y z : Nat → K) : ip M x (fun i => y i + z i) = ip M x y + ip M x z := by
  simp only [ip, mul_add, Finset.sum_add_distrib]

theorem ip_sub (M : Nat) (x y z : Nat → K) : ip M x (fun i => y i - z i) = ip M x y - ip M x z := by
  simp only [ip, mul_sub, Finset.sum_sub_distrib]

theorem ip_mul (M : Nat) (x y : Nat → K) (c : K) : ip M x (fun i => y i * c) = ip M x y * c := by
  simp only [ip, ← mul_assoc, Finset.sum_mul]

theorem ip_star (M : Nat) (x y : Nat → K) : star (ip M x y) = ip M y x := by
  simp only [ip, star_sum, star_mul', star_star]
  exact Finset.sum_congr rfl fun i _ => by ring

theorem ip_congr {M : Nat} {x x' y y' : Nat → K} (h : ∀ p, p < M → x p = x' p) (h' : ∀ p, p < M → y p = y' p) :
    ip M x y = ip M x' y' :=
  Finset.sum_congr rfl fun p hp => by rw [h p (Finset.mem_range.mp hp), h' p (Finset.mem_range.mp hp)]

theorem ip_H (M : Nat) (V : Nat → Nat → K) (j : Nat) (beta : K) (w x : Nat → K) :
    ip M w (H M V j beta x) = ip M w x - ip M w (hv M V j) * (beta * ip M (hv M V j) x) := by
  unfold H
  rw [ip_sub, ip_mul]

theorem H_ip (M : Nat) (V : Nat → Nat → K) (j : Nat) (beta : K) (x y : Nat → K) :
    ip M (H M V j beta x) y = ip M x (H M V j (star beta) y) := by
  rw [← ip_star, ip_H, ip_H, star_sub, star_mul', star_mul', ip_star, ip_star, ip_star]
  ring

theorem Valid.star {M : Nat} {V : Nat → Nat → K} {j : Nat} {beta : K} (h : Valid M V j beta) :
    Valid M V j (star beta) := by
  unfold Valid at *
  rw [star_star, mul_comm (Star.star beta), h, add_comm]

theorem H_star_H {M : Nat} {V : Nat → Nat → K} {j : Nat} {beta : K} (h : Valid M V j beta) (x : Nat → K) :
    H M V j (star beta) (H M V j beta x) = x := by
  funext i
  have e : H M V j (Star.star beta) (H M V j beta x) i
      = H M V j beta x i - hv M V j i * (Star.star beta * ip M (hv M V j) (H M V j beta x)) := rfl
  rw [e, ip_H]
  unfold Valid at h
  simp only [H]
  linear_combination (hv M V j i * ip M (hv M V j) x) * h

theorem H_H_star {M : Nat} {V : Nat → Nat → K} {j : Nat} {beta : K} (h : Valid M V j beta) (x : Nat → K) :
    H M V j beta (H M V j (star beta) x) = x := by
  have := H_star_H h.star x
  rwa [star_star] at this

/-- A valid reflector preserves inner products (is unitary). -/
theorem H_unitary {M : Nat} {V : Nat → Nat → K} {j : Nat} {beta : K} (h : Valid M V j beta) (x y : Nat → K) :
    ip M (H M V j beta x) (H M V j beta y) = ip M x y := by
  rw [H_ip, H_star_H h]

theorem hv_out {M : Nat} {V : Nat → Nat → K} {j p : Nat} (h : p < j ∨ M ≤ p) : hv M V j p = 0 := by
  unfold hv
  by_cases h1 : p < j
  · rw [if_pos h1]
  · rw [if_neg h1, if_neg (by omega)]

theorem H_out {M : Nat} {V : Nat → Nat → K} {j : Nat} {beta : K} {x : Nat → K} {i : Nat} (h : i < j ∨ M ≤ i) :
    H M V j beta x i = x i := by
  simp [H, hv_out h]

theorem H_fix {M : Nat} {V : Nat → Nat → K} {j : Nat} {beta : K} {x : Nat → K}
    (h : ∀ p, j ≤ p → p < M → x p = 0) : H M V j beta x = x := by
  have : ip M (hv M V j) x = 0 := by
    apply Finset.sum_eq_zero
    intro p hp
    rw [Finset.mem_range] at hp
    by_cases hj : p < j
    · rw [hv_out (Or.inl hj)]; simp
    · rw [h p (by omega) hp, mul_zero]
  funext i
  simp [H, this]

theorem hv_congr {M : Nat} {V V' : Nat → Nat → K} {j : Nat} (h : ∀ p, j < p → p < M → V p j = V' p j) :
    hv M V j = hv M V' j := by
  funext p
  unfold hv
  by_cases h1 : p < j
  · rw [if_pos h1, if_pos h1]
  · rw [if_neg h1, if_neg h1]
    by_cases h2 : p < M
    · rw [if_pos h2, if_pos h2]
      by_cases h3 : p = j
      · rw [if_pos h3, if_pos h3]
      · rw [if_neg h3, if_neg h3]; exact h p (by omega) h2
    · rw [if_neg h2, if_neg h2]

theorem H_congr {M : Nat} {V V' : Nat → Nat → K} {j : Nat} {beta : K} (h : ∀ p, j < p → p < M → V p j = V' p j) :
    H M V j beta = H M V' j beta := by
  funext x i
  simp only [H, hv_congr h]

theorem Valid.congr {M : Nat} {V V' : Nat → Nat → K} {j : Nat} {beta : K} (h : ∀ p, j < p → p < M → V p j = V' p j)
    (hv : Valid M V j beta) : Valid M V' j beta := by
  unfold Valid at *
  rwa [← hv_congr h]

/-! ### The reflection computed by `HouseholderReflect` -/

theorem abs2_ge (z : K) : ‖z‖ ≤ abs2 z := by
  have h : ‖z‖ ^ 2 ≤ abs2 z ^ 2 := by
    rw [← RCLike.normSq_eq_def', RCLike.normSq_apply]
    unfold abs2
    have h1 := abs_nonneg (RCLike.re z)
    have h2 := abs_nonneg (RCLike.im z)
    nlinarith [abs_mul_abs_self (RCLike.re z), abs_mul_abs_self (RCLike.im z), mul_nonneg h1 h2]
  have h0 : 0 ≤ abs2 z := add_nonneg (abs_nonneg _) (abs_nonneg _)
  exact (sq_le_sq₀ (norm_nonneg _) h0).mp h

theorem maxAbs2_nonneg (x : Nat → K) : ∀ n, 0 ≤ maxAbs2 x n
  | 0 => le_rfl
  | n+1 => le_max_of_le_left (maxAbs2_nonneg x n)

theorem maxAbs2_ge (x : Nat → K) : ∀ n i, i < n → ‖x i‖ ≤ maxAbs2 x n
  | 0, i, h => by omega
  | n+1, i, h => by
    rw [maxAbs2]
    rcases Nat.lt_succ_iff_lt_or_eq.mp h with h | h
    · exact le_max_of_le_left (maxAbs2_ge x n i h)
    · subst h; exact le_max_of_le_right (abs2_ge _)

/-- The factor by which the determinant of Q changes. -/
def dfac (beta : K) : K := if beta = 0 then 1 else -star (beta * beta) / ((RCLike.normSq beta : ℝ) : K)

theorem updDet_eq (beta det : K) (hb : beta ≠ 0) : updDet beta det = det * dfac beta := by
  unfold updDet dfac
  rw [if_neg hb]
  by_cases h : det ≠ 0
  · rw [if_pos h]
    by_cases hi : RCLike.im beta = 0
    · rw [if_pos hi]
      have hs : star beta = beta := by rw [RCLike.star_def]; exact RCLike.conj_eq_iff_im.mpr hi
      have := mul_star_eq beta
      rw [star_mul', hs] at *
      rw [← this]
      have : beta * beta ≠ 0 := mul_ne_zero hb hb
      field_simp
    · rw [if_neg hi]
  · rw [if_neg h]; simp only [not_not] at h; rw [h, zero_mul]

/-- What a reflection `(x0,x) ↦ (y,0)` with Householder vector `(1,v)` must satisfy: in this form both for
`HouseholderReflect` and `HouseholderUnReflect`. -/
theorem reflector_core (n : Nat) (x0 : K) (x : Nat → K) (y : ℝ) (s2 : ℝ)
    (hs2 : s2 = ∑ i ∈ Finset.range n, RCLike.normSq (x i))
    (hy : y ^ 2 = RCLike.normSq x0 + s2) (hne : x0 ≠ (y : K)) (hd : (y : K) ^ 2 - (y : K) * x0 ≠ 0)
    (beta : K) (hb : beta = ((RCLike.normSq (x0 - (y : K)) : ℝ) : K) / ((y : K) ^ 2 - (y : K) * x0))
    (v : Nat → K) (hv : ∀ i, i < n → v i = x i / (x0 - (y : K))) :
    beta * star beta * (1 + ∑ i ∈ Finset.range n, star (v i) * v i) = beta + star beta ∧
    beta * (x0 + ∑ i ∈ Finset.range n, star (v i) * x i) = x0 - (y : K) ∧ beta ≠ 0 := by
  have hv0 : x0 - (y : K) ≠ 0 := sub_ne_zero.mpr hne
  have hsv0 : star x0 - (y : K) ≠ 0 := by
    intro h
    apply hv0
    have := congrArg star h
    simpa [RCLike.star_def] using this
  have hofr : ∀ a : ℝ, star ((a : ℝ) : K) = ((a : ℝ) : K) := fun a => by rw [RCLike.star_def, RCLike.conj_ofReal]
  have hsd : (y : K) ^ 2 - (y : K) * star x0 ≠ 0 := by
    intro h
    apply hd
    have := congrArg star h
    simpa [hofr, star_mul'] using this
  have e1 : ∑ i ∈ Finset.range n, star (v i) * v i = (s2 : K) / ((star x0 - (y : K)) * (x0 - (y : K))) := by
    rw [hs2, RCLike.ofReal_sum, Finset.sum_div]
    refine Finset.sum_congr rfl fun i hi => ?_
    rw [hv i (Finset.mem_range.mp hi), star_div₀, star_sub, hofr, ← star_mul_eq]
    field_simp
  have e2 : ∑ i ∈ Finset.range n, star (v i) * x i = (s2 : K) / (star x0 - (y : K)) := by
    rw [hs2, RCLike.ofReal_sum, Finset.sum_div]
    refine Finset.sum_congr rfl fun i hi => ?_
    rw [hv i (Finset.mem_range.mp hi), star_div₀, star_sub, hofr, ← star_mul_eq]
    field_simp
  have hyK : (y : K) ^ 2 = star x0 * x0 + (s2 : K) := by
    rw [star_mul_eq]
    exact_mod_cast congrArg (RCLike.ofReal (K := K)) hy
  have hnv : ((RCLike.normSq (x0 - (y : K)) : ℝ) : K) = (star x0 - (y : K)) * (x0 - (y : K)) := by
    rw [← star_mul_eq, star_sub, hofr]
  rw [hnv] at hb
  have hs2K : (s2 : K) = (y : K) ^ 2 - star x0 * x0 := by rw [hyK]; ring
  have hyne : (y : K) ≠ 0 := by intro e; apply hd; rw [e]; ring
  have hf1 : (y : K) ^ 2 - (y : K) * x0 = -(y * (x0 - y)) := by ring
  have hf2 : (y : K) ^ 2 - (y : K) * star x0 = -(y * (star x0 - y)) := by ring
  rw [hf1] at hb hd
  refine ⟨?_, ?_, ?_⟩
  · rw [e1, hb, hs2K, star_div₀, star_mul', star_neg, star_mul', star_sub, star_sub, star_star, hofr]
    field_simp
    ring
  · rw [e2, hb, hs2K]
    field_simp
    ring
  · rw [hb]
    exact div_ne_zero (mul_ne_zero hsv0 hv0) hd

/-- The two outcomes of `HouseholderReflect` in one statement. -/
theorem reflect_cases (tiny : ℝ) (ht : 0 < tiny) (n : Nat) (x0 : K) (x : Nat → K) (det : K) :
    (∀ i, n ≤ i → (reflect tiny n x0 x det).x i = x i) ∧
    (-- nothing to do, or everything is below the underflow threshold
     ((reflect tiny n x0 x det).beta = 0 ∧ (reflect tiny n x0 x det).det = det ∧
        (∀ i, i < n → (reflect tiny n x0 x det).x i = 0) ∧
        (((reflect tiny n x0 x det).x0 = x0 ∧ RCLike.im x0 = 0 ∧ ∀ i, i < n → x i = 0) ∨
          ((reflect tiny n x0 x det).x0 = 0 ∧ ‖x0‖ < tiny ∧ ∀ i, i < n → ‖x i‖ < tiny))) ∨
     -- a reflection
     ((reflect tiny n x0 x det).beta ≠ 0 ∧
        (reflect tiny n x0 x det).det = det * dfac (reflect tiny n x0 x det).beta ∧
        ∃ y : ℝ, (reflect tiny n x0 x det).x0 = (y : K) ∧
          y ^ 2 = RCLike.normSq x0 + ∑ i ∈ Finset.range n, RCLike.normSq (x i) ∧ x0 ≠ (y : K) ∧
          (RCLike.re x0 > 0 → y ≤ 0) ∧ (¬ RCLike.re x0 > 0 → 0 ≤ y) ∧
          (∀ i, i < n → (reflect tiny n x0 x det).x i = x i / (x0 - (y : K))) ∧
          (reflect tiny n x0 x det).beta * star (reflect tiny n x0 x det).beta *
            (1 + ∑ i ∈ Finset.range n, star ((reflect tiny n x0 x det).x i) * (reflect tiny n x0 x det).x i)
            = (reflect tiny n x0 x det).beta + star (reflect tiny n x0 x det).beta ∧
          (reflect tiny n x0 x det).beta *
            (x0 + ∑ i ∈ Finset.range n, star ((reflect tiny n x0 x det).x i) * x i) = x0 - (y : K))) := by
  dsimp only [reflect]
  obtain ⟨sc, hsc⟩ : ∃ sc, sc = (if ‖x0‖ > maxAbs2 x n then ‖x0‖ else maxAbs2 x n) := ⟨_, rfl⟩
  rw [← hsc]
  have hsc0 : ‖x0‖ ≤ sc := by rw [hsc]; split <;> [exact le_rfl; exact not_lt.mp (by assumption)]
  have hscx : ∀ i, i < n → ‖x i‖ ≤ sc := by
    intro i hi
    have := maxAbs2_ge x n i hi
    rw [hsc]; split
    · rename_i h; linarith [h.lt]
    · exact this
  have hscn : 0 ≤ sc := (norm_nonneg _).trans hsc0
  by_cases hu : |sc| < tiny
  · rw [abs_of_nonneg hscn] at hu
    rw [if_pos (by rwa [abs_of_nonneg hscn])]
    refine ⟨fun i hi => by simp only; rw [if_neg (by omega)], Or.inl ⟨rfl, rfl, fun i hi => by simp only; rw [if_pos hi], Or.inr ⟨rfl, by linarith, ?_⟩⟩⟩
    intro i hi; linarith [hscx i hi]
  rw [if_neg hu]
  have hsp : 0 < sc := by
    rw [abs_of_nonneg hscn] at hu; linarith
  have hscK : (sc : K) ≠ 0 := by simpa using hsp.ne'
  have hsum : ∑ i ∈ Finset.range n, RCLike.normSq (((1 / sc : ℝ) : K) * x i)
      = (1 / sc) ^ 2 * ∑ i ∈ Finset.range n, RCLike.normSq (x i) := by
    rw [Finset.mul_sum]
    refine Finset.sum_congr rfl fun i _ => ?_
    rw [map_mul, RCLike.normSq_eq_def' (K := K) (((1 / sc : ℝ)) : K), RCLike.norm_ofReal, sq_abs]
  rw [hsum]
  obtain ⟨s2, hs2⟩ : ∃ s2, s2 = ∑ i ∈ Finset.range n, RCLike.normSq (x i) := ⟨_, rfl⟩
  rw [← hs2]
  have hs2n : 0 ≤ s2 := hs2 ▸ Finset.sum_nonneg fun i _ => RCLike.normSq_nonneg _
  have h1sc : (1 / sc) ^ 2 ≠ 0 := by positivity
  by_cases hz : (1 / sc) ^ 2 * s2 = 0 ∧ RCLike.im x0 = 0
  · rw [if_pos hz]
    have hs0 : s2 = 0 := by
      rcases mul_eq_zero.mp hz.1 with h | h
      · exact absurd h h1sc
      · exact h
    refine ⟨fun i hi => by simp only; rw [if_neg (by omega)], Or.inl ⟨rfl, rfl, fun i hi => by simp only; rw [if_pos hi], Or.inl ⟨rfl, hz.2, ?_⟩⟩⟩
    intro i hi
    rw [hs2] at hs0
    have := (Finset.sum_eq_zero_iff_of_nonneg (fun i _ => RCLike.normSq_nonneg (x i))).mp hs0 i (Finset.mem_range.mpr hi)
    exact RCLike.normSq_eq_zero.mp this
  rw [if_neg hz]
  have hx0n : ‖x0‖ * (1 / sc) * (‖x0‖ * (1 / sc)) = (1 / sc) ^ 2 * RCLike.normSq x0 := by
    rw [RCLike.normSq_eq_def']; ring
  rw [hx0n]
  obtain ⟨S, hS⟩ : ∃ S, S = RCLike.normSq x0 + s2 := ⟨_, rfl⟩
  have hSs : (1 / sc) ^ 2 * s2 + (1 / sc) ^ 2 * RCLike.normSq x0 = (1 / sc) ^ 2 * S := by rw [hS]; ring
  rw [hSs]
  have hx0nn := RCLike.normSq_nonneg x0
  have hSp : 0 < S := by
    rcases hs2n.lt_or_eq with h | h
    · rw [hS]; linarith
    · have hi : RCLike.im x0 ≠ 0 := fun e => hz ⟨by rw [← h, mul_zero], e⟩
      have : x0 ≠ 0 := by intro e; apply hi; rw [e]; simp
      have := RCLike.normSq_pos.mpr this
      rw [hS]; linarith
  have hsq : Real.sqrt ((1 / sc) ^ 2 * S) = (1 / sc) * Real.sqrt S := by
    rw [Real.sqrt_mul (by positivity), Real.sqrt_sq (by positivity)]
  rw [hsq]
  have hre : RCLike.re (x0 * ((1 / sc : ℝ) : K)) = RCLike.re x0 * (1 / sc) := by
    rw [mul_comm, RCLike.re_ofReal_mul]; ring
  have hpos : (RCLike.re (x0 * ((1 / sc : ℝ) : K)) > 0) ↔ RCLike.re x0 > 0 := by
    rw [hre]
    constructor
    · intro h
      by_contra hn
      have : RCLike.re x0 * (1 / sc) ≤ 0 := mul_nonpos_of_nonpos_of_nonneg (not_lt.mp hn) (by positivity)
      linarith
    · intro h; positivity
  simp only [hpos]
  obtain ⟨Y, hY⟩ : ∃ Y, Y = if RCLike.re x0 > 0 then -Real.sqrt S else Real.sqrt S := ⟨_, rfl⟩
  have hYs : (if RCLike.re x0 > 0 then -(1 / sc * Real.sqrt S) else 1 / sc * Real.sqrt S) = (1 / sc) * Y := by
    rw [hY]; split <;> ring
  rw [hYs]
  have hsqS : Real.sqrt S ^ 2 = S := Real.sq_sqrt hSp.le
  have hY2 : Y ^ 2 = S := by rw [hY]; split <;> [rw [neg_sq, hsqS]; exact hsqS]
  have hsS : 0 < Real.sqrt S := Real.sqrt_pos.mpr hSp
  -- the real part of x0 - Y and of Y² - Y x0
  have hreV : RCLike.re (x0 - (Y : K)) ≠ 0 := by
    rw [map_sub, RCLike.ofReal_re, hY]
    split
    · rename_i h; linarith [h.lt]
    · rename_i h; have := not_lt.mp h; linarith
  have hne : x0 ≠ (Y : K) := by
    intro e; apply hreV; rw [e, sub_self]; simp
  have hreD : RCLike.re ((Y : K) ^ 2 - (Y : K) * x0) ≠ 0 := by
    have : ((Y : K) ^ 2) = ((Y ^ 2 : ℝ) : K) := by push_cast; rfl
    rw [this, map_sub, RCLike.ofReal_re, RCLike.re_ofReal_mul, hY2, hY]
    split
    · rename_i h; have := mul_pos hsS h.lt; linarith
    · rename_i h; have := mul_nonneg hsS.le (neg_nonneg.mpr (not_lt.mp h)); linarith
  have hd : (Y : K) ^ 2 - (Y : K) * x0 ≠ 0 := by intro e; apply hreD; rw [e]; simp
  have hv0 : x0 - (Y : K) ≠ 0 := sub_ne_zero.mpr hne
  -- scale factors cancel
  have ev0 : x0 * ((1 / sc : ℝ) : K) - ((1 / sc * Y : ℝ) : K) = (x0 - (Y : K)) * ((1 / sc : ℝ) : K) := by
    push_cast; ring
  rw [ev0]
  have hSK : ((S : ℝ) : K) = (Y : K) ^ 2 := by rw [← hY2]; push_cast; rfl
  have ebeta : ((RCLike.normSq ((x0 - (Y : K)) * ((1 / sc : ℝ) : K)) : ℝ) : K) /
      ((((1 / sc) ^ 2 * S : ℝ) : K) - ((1 / sc * Y : ℝ) : K) * (x0 * ((1 / sc : ℝ) : K)))
      = ((RCLike.normSq (x0 - (Y : K)) : ℝ) : K) / ((Y : K) ^ 2 - (Y : K) * x0) := by
    rw [map_mul, RCLike.normSq_eq_def' (K := K) (((1 / sc : ℝ)) : K), RCLike.norm_ofReal, sq_abs, RCLike.ofReal_mul,
      RCLike.ofReal_mul, hSK]
    generalize ((RCLike.normSq (x0 - (Y : K)) : ℝ) : K) = q
    push_cast
    field_simp
  rw [ebeta]
  obtain ⟨be, hbe⟩ : ∃ be, be = ((RCLike.normSq (x0 - (Y : K)) : ℝ) : K) / ((Y : K) ^ 2 - (Y : K) * x0) := ⟨_, rfl⟩
  rw [← hbe]
  have ex : (if (RCLike.re (1 / ((x0 - (Y : K)) * ((1 / sc : ℝ) : K))) ≠ 0 ∧
        |RCLike.re (1 / ((x0 - (Y : K)) * ((1 / sc : ℝ) : K)) * ((1 / sc : ℝ) : K))| < tiny) ∨
      (RCLike.im (1 / ((x0 - (Y : K)) * ((1 / sc : ℝ) : K))) ≠ 0 ∧
        |RCLike.im (1 / ((x0 - (Y : K)) * ((1 / sc : ℝ) : K)) * ((1 / sc : ℝ) : K))| < tiny)
      then fun i => if i < n then (x i * ((1 / sc : ℝ) : K)) * (1 / ((x0 - (Y : K)) * ((1 / sc : ℝ) : K))) else x i
      else fun i => if i < n then x i * (1 / ((x0 - (Y : K)) * ((1 / sc : ℝ) : K)) * ((1 / sc : ℝ) : K)) else x i)
      = fun i => if i < n then x i / (x0 - (Y : K)) else x i := by
    have h1 : ((1 / sc : ℝ) : K) ≠ 0 := by
      have : (1 / sc : ℝ) ≠ 0 := by positivity
      exact (RCLike.ofReal_ne_zero).mpr this
    generalize ((1 / sc : ℝ) : K) = t at h1 ⊢
    split
    · funext i; split <;> [field_simp; rfl]
    · funext i; split <;> [field_simp; rfl]
  rw [ex]
  have hx : ∀ i, i < n → (fun i => if i < n then x i / (x0 - (Y : K)) else x i) i = x i / (x0 - (Y : K)) := by
    intro i hi; simp only; rw [if_pos hi]
  obtain ⟨c1, c2, c3⟩ := reflector_core n x0 x Y s2 hs2 (by rw [hY2, hS]) hne hd be hbe _ hx
  refine ⟨fun i hi => by simp only; rw [if_neg (by omega)], Or.inr ⟨c3, updDet_eq be det c3, Y, ?_, ?_, hne, ?_, ?_, hx, c1, c2⟩⟩
  · have : (1 / sc * Y * sc : ℝ) = Y := by field_simp
    simp only [this]
  · rw [hY2, hS]
  · intro h; rw [hY, if_pos h]; linarith
  · intro h; rw [hY, if_neg h]; exact hsS.le

/-! ### C33 -/

theorem houseMat_mul {m : Nat} (b c : K) (v : Fin m → K) :
    houseMat b v * houseMat c v = houseMat (b + c - b * c * ∑ i, star (v i) * v i) v := by
  ext i j
  simp only [houseMat, Matrix.mul_apply, Matrix.sub_apply, Matrix.smul_apply, Matrix.of_apply, smul_eq_mul,
    Matrix.one_apply]
  have : ∀ k, ((if i = k then (1 : K) else 0) - b * (v i * star (v k))) * ((if k = j then 1 else 0) - c * (v k * star (v j)))
      = (if i = k then (if k = j then 1 else 0) else 0) - (if i = k then c * (v k * star (v j)) else 0)
        - (if k = j then b * (v i * star (v k)) else 0) + (star (v k) * v k) * (b * c * v i * star (v j)) := by
    intro k
    by_cases h1 : i = k
    · rw [if_pos h1, if_pos h1, if_pos h1]
      by_cases h2 : k = j
      · rw [if_pos h2, if_pos h2]; ring
      · rw [if_neg h2, if_neg h2]; ring
    · rw [if_neg h1, if_neg h1, if_neg h1]
      by_cases h2 : k = j
      · rw [if_pos h2, if_pos h2]; ring
      · rw [if_neg h2, if_neg h2]; ring
  simp only [this, Finset.sum_add_distrib, Finset.sum_sub_distrib, Finset.sum_ite_eq, Finset.sum_ite_eq', Finset.mem_univ,
    if_true, ← Finset.sum_mul]
  ring

theorem houseMat_conjTranspose {m : Nat} (b : K) (v : Fin m → K) : (houseMat b v).conjTranspose = houseMat (star b) v := by
  ext i j
  simp only [houseMat, Matrix.conjTranspose_apply, Matrix.sub_apply, Matrix.smul_apply, Matrix.of_apply, smul_eq_mul,
    Matrix.one_apply, star_sub, star_mul', star_star]
  by_cases h : i = j
  · subst h; simp only [if_true, star_one]; ring
  · rw [if_neg h, if_neg (Ne.symm h), star_zero]; ring

theorem houseMat_zero {m : Nat} (v : Fin m → K) : houseMat (0 : K) v = 1 := by simp [houseMat]

theorem houseMat_det {m : Nat} (b : K) (v : Fin m → K) :
    (houseMat b v).det = 1 - b * ∑ i, star (v i) * v i := by
  have h : houseMat b v = 1 + Matrix.replicateCol Unit (fun i => -b * v i) * Matrix.replicateRow Unit (fun j => star (v j)) := by
    ext i j
    simp only [houseMat, Matrix.add_apply, Matrix.sub_apply, Matrix.smul_apply, Matrix.of_apply, smul_eq_mul,
      Matrix.mul_apply, Finset.univ_unique, Finset.sum_singleton, Matrix.replicateCol_apply, Matrix.replicateRow_apply]
    ring
  rw [h, Matrix.det_one_add_replicateCol_mul_replicateRow, dotProduct, sub_eq_add_neg, Finset.mul_sum, ← Finset.sum_neg_distrib]
  congr 1
  exact Finset.sum_congr rfl fun i _ => by ring

/-- Determinant of the adjoint of a unitary reflector. -/
theorem dfac_eq (b s : K) (h : b * star b * s = b + star b) : dfac b = 1 - star b * s := by
  unfold dfac
  by_cases hb : b = 0
  · rw [if_pos hb, hb]; simp
  · rw [if_neg hb, ← mul_star_eq, star_mul']
    have hs : star b ≠ 0 := by rwa [ne_eq, star_eq_zero]
    field_simp
    linear_combination h

theorem sum_consVec (n : Nat) (v x : Nat → K) (x0 : K) :
    ∑ i, star (consVec n 1 v i) * consVec n x0 x i = x0 + ∑ i ∈ Finset.range n, star (v i) * x i := by
  rw [Fin.sum_univ_succ, ← Fin.sum_univ_eq_sum_range (fun i => star (v i) * x i)]
  simp [consVec]

theorem houseMat_mulVec {m : Nat} (b : K) (v x : Fin m → K) (i : Fin m) :
    (houseMat b v).mulVec x i = x i - v i * (b * ∑ k, star (v k) * x k) := by
  simp only [houseMat, Matrix.mulVec, dotProduct, Matrix.sub_apply, Matrix.smul_apply, Matrix.of_apply, smul_eq_mul,
    Matrix.one_apply, sub_mul, Finset.sum_sub_distrib, ite_mul, one_mul, zero_mul, Finset.sum_ite_eq, Finset.mem_univ, if_true,
    Finset.mul_sum]
  congr 1
  exact Finset.sum_congr rfl fun k _ => by ring

/-- C33: `HouseholderReflect(x0,x,det)`.  Write `H = I - beta v vᴴ` with `v = (1, x after the call)`.
`H` is unitary, maps the vector `(x0,x)` before the call to `(x0 after the call, 0, ..., 0)`, and `det` is multiplied by
`det Hᴴ` (`Hᴴ` is the factor of `Q`).  The vector is mapped exactly unless all its elements are below the underflow threshold
`tiny`; then it is treated as zero. -/
theorem householder_reflect (tiny : ℝ) (ht : 0 < tiny) (n : Nat) (x0 : K) (x : Nat → K) (det : K) :
    (houseMat (reflect tiny n x0 x det).beta (consVec n 1 (reflect tiny n x0 x det).x)).conjTranspose *
      houseMat (reflect tiny n x0 x det).beta (consVec n 1 (reflect tiny n x0 x det).x) = 1 ∧
    (reflect tiny n x0 x det).det =
      det * (houseMat (reflect tiny n x0 x det).beta (consVec n 1 (reflect tiny n x0 x det).x)).conjTranspose.det ∧
    ((houseMat (reflect tiny n x0 x det).beta (consVec n 1 (reflect tiny n x0 x det).x)).mulVec (consVec n x0 x) =
        (consVec n (reflect tiny n x0 x det).x0 fun _ => 0) ∨
      ((∀ i, ‖consVec n x0 x i‖ < tiny) ∧ (reflect tiny n x0 x det).x0 = 0 ∧ (reflect tiny n x0 x det).beta = 0 ∧
        ∀ i, i < n → (reflect tiny n x0 x det).x i = 0)) ∧
    RCLike.im (reflect tiny n x0 x det).x0 = 0 ∧
    (∀ i, n ≤ i → (reflect tiny n x0 x det).x i = x i) := by
  obtain ⟨hout, h⟩ := reflect_cases tiny ht n x0 x det
  generalize reflect tiny n x0 x det = r at *
  rw [houseMat_conjTranspose]
  rcases h with ⟨hb, hd, hz, hc⟩ | ⟨hb, hd, y, hy, hy2, hne, _, _, hv, h1, h2⟩
  · rw [hb, star_zero, houseMat_zero]
    refine ⟨mul_one _, by rw [hd, Matrix.det_one, mul_one], ?_⟩
    rw [Matrix.one_mulVec]
    rcases hc with ⟨ha, hb', hx⟩ | ⟨ha, hb', hx⟩
    · have : consVec n x0 x = consVec n r.x0 fun _ => 0 := by
        funext i
        unfold consVec
        by_cases hi : i.val = 0
        · rw [if_pos hi, if_pos hi, ha]
        · rw [if_neg hi, if_neg hi, hx _ (by omega)]
      exact ⟨Or.inl this, by rw [ha, hb'], hout⟩
    · refine ⟨Or.inr ⟨?_, ha, rfl, hz⟩, by rw [ha]; simp, hout⟩
      intro i
      unfold consVec
      by_cases h0 : i.val = 0
      · rw [if_pos h0]; exact hb'
      · rw [if_neg h0]; exact hx (i.val-1) (by omega)
  · have hm : (houseMat r.beta (consVec n 1 r.x)).mulVec (consVec n x0 x) = consVec n r.x0 fun _ => 0 := by
      funext i
      rw [houseMat_mulVec, sum_consVec, h2]
      unfold consVec
      by_cases hi : i.val = 0
      · rw [if_pos hi, if_pos hi, if_pos hi, hy]; ring
      · rw [if_neg hi, if_neg hi, if_neg hi, hv _ (by omega)]
        have : x0 - (y : K) ≠ 0 := sub_ne_zero.mpr hne
        field_simp
        ring
    refine ⟨?_, ?_, Or.inl hm, by rw [hy]; simp, hout⟩
    · rw [houseMat_mul, sum_consVec]
      have : star r.beta + r.beta - star r.beta * r.beta * (1 + ∑ i ∈ Finset.range n, star (r.x i) * r.x i) = 0 := by
        linear_combination -h1
      rw [this, houseMat_zero]
    · rw [houseMat_det, sum_consVec, hd, dfac_eq _ _ h1]

/-- For real vectors the reflector is an involution. -/
theorem householder_reflect_involution (tiny : ℝ) (ht : 0 < tiny) (n : Nat) (x0 : ℝ) (x : Nat → ℝ) (det : ℝ) :
    houseMat (reflect tiny n x0 x det).beta (consVec n 1 (reflect tiny n x0 x det).x) *
      houseMat (reflect tiny n x0 x det).beta (consVec n 1 (reflect tiny n x0 x det).x) = 1 := by
  have h := (householder_reflect tiny ht n x0 x det).1
  rwa [houseMat_conjTranspose, star_trivial] at h

/-- A concrete reflection: (3,4) is mapped to (-5,0). -/
example : reflect (1/10) 1 (3 : ℝ) (fun _ => 4) 1 = ⟨-5, fun i => if i < 1 then 1/2 else 4, 8/5, -1⟩ := by
  have hm : maxAbs2 (fun _ => (4:ℝ)) 1 = 4 := by norm_num [maxAbs2, abs2]
  have hs : Real.sqrt (25/16) = 5/4 := by rw [show (25/16:ℝ) = (5/4)^2 by norm_num]; exact Real.sqrt_sq (by norm_num)
  dsimp only [reflect]
  rw [hm]
  norm_num [RCLike.normSq_apply, hs, updDet]

/-- C33: `HouseholderUnReflect(y,x,beta)` undoes the reflection: it fails exactly when no `x0` has
`|x0|² + |x|² = y²`; otherwise it returns such an `x0` and the unitary reflector mapping `(x0,x)` to `(y,0,...,0)`. -/
theorem householder_unreflect (n : Nat) (y : ℝ) (x : Nat → K) :
    (unReflect n (y : K) x = none ↔ y ^ 2 < ∑ i ∈ Finset.range n, RCLike.normSq (x i) ∧
      ∑ i ∈ Finset.range n, RCLike.normSq (x i) ≠ 0) ∧
    ∀ r, unReflect n (y : K) x = some r →
      (houseMat r.beta (consVec n 1 r.x)).conjTranspose * houseMat r.beta (consVec n 1 r.x) = 1 ∧
      (houseMat r.beta (consVec n 1 r.x)).mulVec (consVec n r.y x) = (consVec n (y : K) fun _ => 0) := by
  obtain ⟨s2, hs2⟩ : ∃ s2, s2 = ∑ i ∈ Finset.range n, RCLike.normSq (x i) := ⟨_, rfl⟩
  have hs2n : 0 ≤ s2 := hs2 ▸ Finset.sum_nonneg fun i _ => RCLike.normSq_nonneg _
  dsimp only [unReflect]
  rw [← hs2]
  by_cases h0 : s2 = 0
  · rw [if_pos h0]
    refine ⟨by simp [h0], ?_⟩
    intro r hr
    obtain rfl := Option.some.inj hr
    simp only
    rw [houseMat_conjTranspose, star_zero, houseMat_zero, Matrix.one_mulVec]
    refine ⟨mul_one _, ?_⟩
    funext i
    unfold consVec
    by_cases hi : i.val = 0
    · rw [if_pos hi, if_pos hi]
    · rw [if_neg hi, if_neg hi]
      rw [h0] at hs2
      have := (Finset.sum_eq_zero_iff_of_nonneg (fun i _ => RCLike.normSq_nonneg (x i))).mp hs2.symm (i.val-1)
        (Finset.mem_range.mpr (by omega))
      exact RCLike.normSq_eq_zero.mp this
  rw [if_neg h0, RCLike.ofReal_re]
  have hs2p : 0 < s2 := lt_of_le_of_ne hs2n (Ne.symm h0)
  by_cases hlt : y ^ 2 - s2 < 0
  · rw [if_pos hlt]
    exact ⟨by simp only [true_iff]; exact ⟨by linarith, h0⟩, fun r hr => by cases hr⟩
  rw [if_neg hlt]
  refine ⟨by simp only [reduceCtorEq, false_iff, not_and]; intro h; linarith, ?_⟩
  intro r hr
  obtain rfl := Option.some.inj hr
  obtain ⟨X, hX⟩ : ∃ X, X = if y > 0 then -Real.sqrt (y^2 - s2) else Real.sqrt (y^2 - s2) := ⟨_, rfl⟩
  simp only
  rw [← hX]
  have hsq : Real.sqrt (y^2 - s2) ^ 2 = y^2 - s2 := Real.sq_sqrt (not_lt.mp hlt)
  have hX2 : X ^ 2 = y^2 - s2 := by rw [hX]; split <;> [rw [neg_sq, hsq]; exact hsq]
  have hy0 : y ≠ 0 := by intro e; rw [e] at hlt; apply hlt; nlinarith
  have hsn := Real.sqrt_nonneg (y^2 - s2)
  have hneR : X ≠ y := by
    rw [hX]
    split
    · linarith
    · rename_i h
      have := lt_of_le_of_ne (not_lt.mp h) hy0
      linarith
  have hne : (X : K) ≠ (y : K) := fun e => hneR (by exact_mod_cast e)
  have hd : (y : K) ^ 2 - (y : K) * (X : K) ≠ 0 := by
    have : (y : K) ^ 2 - (y : K) * (X : K) = y * (y - X) := by ring
    rw [this]
    exact mul_ne_zero (by exact_mod_cast hy0) (sub_ne_zero.mpr (Ne.symm hne))
  have hyp : ((y ^ 2 : ℝ) : K) = (y : K) ^ 2 := by push_cast; rfl
  rw [hyp]
  have hx : ∀ i, i < n → (fun i => if i < n then x i / ((X : K) - (y : K)) else x i) i = x i / ((X : K) - (y : K)) := by
    intro i hi; simp only; rw [if_pos hi]
  obtain ⟨c1, c2, c3⟩ := reflector_core n (X : K) x y s2 hs2
    (by rw [RCLike.normSq_eq_def', RCLike.norm_ofReal, sq_abs, hX2]; ring) hne hd _ rfl _ hx
  constructor
  · rw [houseMat_conjTranspose, houseMat_mul, sum_consVec, ← houseMat_zero]
    congr 1
    linear_combination -c1
  · funext i
    rw [houseMat_mulVec, sum_consVec, c2]
    unfold consVec
    by_cases hi : i.val = 0
    · rw [if_pos hi, if_pos hi, if_pos hi]; ring
    · rw [if_neg hi, if_neg hi, if_neg hi, hx _ (by omega)]
      have : (X : K) - (y : K) ≠ 0 := sub_ne_zero.mpr hne
      field_simp
      ring

end
end TMV.QR
