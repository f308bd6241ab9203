import Verif.Props.BandCHDivider

/-! C98: `HermBandCHDiv` as a user sees it. -/
namespace TMV.BandCH
open Tri (Ord)
open CH (UBlk)
open SymRK (RealDiag re_of_real)
open LDL (lead)
noncomputable section
open Classical

variable {K : Type} [RCLike K]

section
variable {N lo : Nat} (hlo : lo < N) {A LL : Nat → Nat → K} (hA : HermBand N lo A)

theorem detLoop {N : Nat} (d : Nat → K) (hd : ∀ k, k < N → d k ≠ 0) :
    (LU.logDetLoop d N 0 ((0:ℝ), (1:K))).2 ≠ 0 ∧ Real.exp (LU.logDetLoop d N 0 ((0:ℝ), (1:K))).1 = ‖∏ k ∈ Finset.range N, d k‖ := by
  obtain ⟨l1, l2⟩ := LU.logDetLoop_spec d N 0 ((0:ℝ), (1:K))
  have hz : ∀ k < N, d (0+k) ≠ 0 := fun k hk => by rw [Nat.zero_add]; exact hd k hk
  have l2 := l2 hz
  simp only [Nat.zero_add, Real.exp_zero, RCLike.ofReal_one, mul_one, one_mul] at l2
  have hn := LU.logDetLoop_norm d N 0 ((0:ℝ), (1:K)) hz
  refine ⟨?_, ?_⟩
  · rw [Ne, l1]
    rintro (h | ⟨k, hk, h⟩)
    · simp at h
    · exact hz k hk h
  · have := congrArg norm l2
    rw [norm_mul, hn, RCLike.norm_ofReal, abs_of_pos (Real.exp_pos _)] at this
    simpa using this

theorem det_of_holds (hH : Holds N lo A LL) :
    det N lo LL = ((‖(Matrix.of fun i j : Fin N => A i j).det‖ : ℝ) : K) ∧
    (logDet N lo LL).1 = Real.log ‖(Matrix.of fun i j : Fin N => A i j).det‖ ∧ (logDet N lo LL).2 = 1 ∧
    (Matrix.of fun i j : Fin N => A i j).det ≠ 0 := by
  have small : ∀ (_ : ¬ lo > 1) (_ : ∀ k, k < N → LL k k ≠ 0)
      (_ : (Matrix.of fun i j : Fin N => A i j).det = ∏ k ∈ Finset.range N, LL k k),
      det N lo LL = ((‖(Matrix.of fun i j : Fin N => A i j).det‖ : ℝ) : K) ∧
      (logDet N lo LL).1 = Real.log ‖(Matrix.of fun i j : Fin N => A i j).det‖ ∧ (logDet N lo LL).2 = 1 ∧
      (Matrix.of fun i j : Fin N => A i j).det ≠ 0 := by
    intro h1 hd e
    obtain ⟨g1, g2⟩ := detLoop (N := N) (fun i => LL i i) hd
    unfold det logDet
    dsimp only
    rw [if_neg g1, if_neg h1, if_neg g1, g2, e]
    refine ⟨rfl, ?_, rfl, ?_⟩
    · rw [← g2, Real.log_exp]
    · rw [Finset.prod_ne_zero_iff]
      exact fun k hk => hd k (Finset.mem_range.mp hk)
  rcases hH with ⟨h1, hL⟩ | ⟨rfl, hL, hd⟩ | ⟨rfl, hL, hd⟩
  · obtain ⟨d1, d2, d3, d4⟩ := CH.det_isCholesky hL
    have e : det N lo LL = CH.det N (bandMat lo 0 LL) := by
      unfold det CH.det
      simp only [bm_diag, if_pos h1]
    have e' : logDet N lo LL = CH.logDet N (bandMat lo 0 LL) := by
      unfold logDet CH.logDet
      simp only [bm_diag, if_pos h1]
    rw [e, e', d2, d3]
    refine ⟨?_, rfl, rfl, fun h0 => by rw [h0, map_zero] at d4; exact lt_irrefl _ d4⟩
    have hs := hL.det
    obtain ⟨r, hr⟩ : ∃ r : ℝ, 0 ≤ r ∧ (Matrix.of fun i j : Fin N => A i j).det = (r : K) := by
      refine ⟨RCLike.normSq (∏ i ∈ Finset.range N, bandMat lo 0 LL i i), RCLike.normSq_nonneg _, ?_⟩
      rw [hs, SymRK.normSq_eq]
    rw [d1, hr.2, RCLike.norm_ofReal, abs_of_nonneg hr.1]
  · exact small (by omega) (fun k hk => (hd k hk).1) hL.det
  · refine small (by omega) (fun k hk h0 => ?_) ?_
    · have := (hd k hk).1
      rw [h0, map_zero] at this
      exact lt_irrefl _ this
    · have e : (Matrix.of fun i j : Fin N => A i j) = Matrix.diagonal fun k : Fin N => LL k k := by
        ext i j
        rw [Matrix.of_apply, hL i j i.isLt j.isLt, Matrix.diagonal_apply]
        simp only [Fin.ext_iff]
      rw [e, Matrix.det_diagonal, Finset.prod_range]

include hlo hA in
theorem posDef_det (hp : PosDef N A) :
    (Matrix.of fun i j : Fin N => A i j).det = ((‖(Matrix.of fun i j : Fin N => A i j).det‖ : ℝ) : K) := by
  have hst := fun (i j : Nat) (hi : i < N) (hj : j < N) => hA.stored (L := A) (fun _ _ _ _ _ => rfl) hi hj
  have hre : ∀ i, i < N → RCLike.im (A i i) = 0 := fun i hi => hA.real hi
  obtain ⟨L, e⟩ : ∃ L, decompose .cm true N lo A = some L := by
    apply Option.ne_none_iff_exists'.mp
    intro hc
    exact (band_ch_raises_iff .cm true N lo (Or.inr hlo) A hre).mp hc ((posDef_congr hst).mpr hp)
  have hL := chol_congr hst (band_ch_correct .cm true N lo (Or.inr hlo) A L hre e).1
  have hs := hL.det
  rw [← SymRK.normSq_eq] at hs
  rw [hs, RCLike.norm_ofReal, abs_of_nonneg (RCLike.normSq_nonneg _)]

/-- `L D Lᴴ = A` for what `getL()` and `getD()` return. -/
theorem getLD_of_holds (hH : Holds N lo A LL) (i j : Nat) (hi : i < N) (hj : j < N) :
    ∑ k ∈ Finset.range N, getL lo LL i k * getD lo LL k * star (getL lo LL j k) = A i j := by
  unfold getL getD
  rcases hH with ⟨h1, hL⟩ | ⟨rfl, hL, hd⟩ | ⟨rfl, hL, hd⟩
  · rw [← hL.1 i j hi hj]
    refine Finset.sum_congr rfl fun k _ => ?_
    have e : ∀ i, (if k ≤ i then bandMat lo 0 LL i k else 0) = bandMat lo 0 LL i k := fun i => by
      by_cases h : k ≤ i
      · rw [if_pos h]
      · rw [if_neg h, bm_out (by omega)]
    rw [if_neg (by omega), if_neg (by omega), if_neg (by omega), mul_one, e, e]
  · rw [← hL i j hi hj]
    have e : ∀ i k, (if (1:Nat) ≤ 1 ∧ i = k then (1:K) else bandMat 1 0 LL i k) = unitBi LL i k := fun i k => by
      have := congrFun (congrFun (unit_tri LL) i) k
      rw [← this]
      by_cases h : i = k
      · rw [if_pos ⟨le_rfl, h⟩, if_pos ⟨h, rfl⟩]
      · rw [if_neg (by tauto), if_neg (by tauto)]
    refine Finset.sum_congr rfl fun k _ => ?_
    rw [e, e, if_pos le_rfl]
    rfl
  · rw [hL i j hi hj]
    have e : ∀ i k, (if (0:Nat) ≤ 1 ∧ i = k then (1:K) else bandMat 0 0 LL i k) = if i = k then 1 else 0 := fun i k => by
      by_cases h : i = k
      · rw [if_pos ⟨by omega, h⟩, if_pos h]
      · rw [if_neg (by tauto), if_neg h, bm_out (by omega)]
    simp only [e]
    rw [Finset.sum_eq_single i]
    · rw [if_pos rfl, if_pos (by omega), one_mul]
      by_cases hij : i = j
      · subst hij; simp
      · rw [if_neg hij, if_neg (fun h => hij h.symm), star_zero, mul_zero]
    · intro b _ hb
      rw [if_neg (fun h => hb h.symm), zero_mul, zero_mul]
    · intro hh; exact absurd (Finset.mem_range.mpr hi) hh

variable {bcm : Bool} {g : Nat → Nat → K} (hm : make bcm N lo A g = some LL)
include hlo hA hm

/-- **C98**: `m /= A` with the divider. -/
theorem lDiv_spec (o : Ord) (brm : Bool) (l : Diag.Lay) (g1 : Nat → K) (nc : Nat) (B : Nat → Nat → K) :
    ∃ X, lDivEq o brm l g1 N lo nc LL B = some X ∧ SolM N nc A X B :=
  lDivEq_spec hlo (make_holds bcm hlo A g hA LL hm) o brm l g1 nc B

/-- **C98**: `m %= A` with the divider. -/
theorem rDiv_spec (o : Ord) (bcm' : Bool) (l : Diag.Lay) (g1 : Nat → K) (nr : Nat) (B : Nat → Nat → K) :
    ∃ X, rDivEq o bcm' l g1 N lo nr LL B = some X ∧
      (∀ r j, r < nr → j < N → ∑ k ∈ Finset.range N, X r k * A k j = B r j) ∧ ∀ r j, ¬ (r < nr ∧ j < N) → X r j = B r j :=
  rDivEq_spec hlo hA (make_holds bcm hlo A g hA LL hm) o bcm' l g1 nr B

/-- **C98**: the inverse, in a Hermitian view stored in its lower triangle. -/
theorem herm_inverse_spec (bk : UBlk) (hbk : bk.OK) (o : Ord) (xrm brm bst crm cst ac : Bool) (l : Diag.Lay) (sinv : Nat → Nat → K) :
    ∃ V, inverse bk o xrm brm bst crm cst ac l N lo LL sinv = some V ∧
      (∀ i j, i < N → j < N → ∑ k ∈ Finset.range N, A i k * hermMat V k j = if i = j then 1 else 0) ∧
      (∀ i, i < N → RCLike.im (V i i) = 0) ∧ ∀ i j, ¬ (j ≤ i ∧ i < N) → V i j = sinv i j :=
  inverse_spec hlo (make_holds bcm hlo A g hA LL hm) bk hbk o xrm brm bst crm cst ac l sinv

/-- **C98**: the inverse, in a matrix. -/
theorem full_inverse_spec (bk : UBlk) (hbk : bk.OK) (o : Ord) (xrm brm bst crm cst ac : Bool) (l : Diag.Lay) (minv : Nat → Nat → K) :
    ∃ V, makeInverse bk o xrm brm bst crm cst ac l N lo LL minv = some V ∧
      (∀ i j, i < N → j < N → ∑ k ∈ Finset.range N, A i k * V k j = if i = j then 1 else 0) ∧
      ∀ i j, ¬ (i < N ∧ j < N) → V i j = minv i j :=
  makeInverse_spec hlo (make_holds bcm hlo A g hA LL hm) bk hbk o xrm brm bst crm cst ac l minv

/-- **C98**: `getL() * getD() * getL().adjoint()` is the matrix. -/
theorem getLD_spec (i j : Nat) (hi : i < N) (hj : j < N) :
    ∑ k ∈ Finset.range N, getL lo LL i k * getD lo LL k * star (getL lo LL j k) = A i j :=
  getLD_of_holds (make_holds bcm hlo A g hA LL hm) i j hi hj

/-- **C98**: the absolute value of the determinant is always right, and so is all else of a positive definite matrix.
Missing: the sign for an indefinite tridiagonal matrix, which is accepted too (`det_violated`). -/
theorem det_spec_partial :
    det N lo LL = ((‖(Matrix.of fun i j : Fin N => A i j).det‖ : ℝ) : K) ∧
    (logDet N lo LL).1 = Real.log ‖(Matrix.of fun i j : Fin N => A i j).det‖ ∧
    (PosDef N A → det N lo LL = (Matrix.of fun i j : Fin N => A i j).det ∧ (logDet N lo LL).2 = 1) := by
  obtain ⟨d1, d2, d3, -⟩ := det_of_holds (make_holds bcm hlo A g hA LL hm)
  refine ⟨d1, d2, fun hp => ⟨?_, d3⟩⟩
  rw [d1, ← posDef_det hlo hA hp]

end

/-- The determinant of the tridiagonal matrix `[[1,2],[2,1]]` is -3; the divider accepts it and says 3. -/
theorem det_violated : let A : Nat → Nat → ℝ := fun i j => if i = j then 1 else 2
    HermBand 2 1 A ∧ (Matrix.of fun i j : Fin 2 => A i j).det = -3 ∧
    ∀ bcm g, ∃ LL, make bcm 2 1 A g = some LL ∧ det 2 1 LL = 3 := by
  intro A
  have hA : HermBand 2 1 A := by
    refine ⟨fun i j _ _ => ?_, fun i j hi hj h => by omega⟩
    simp only [A, eq_comm]
    rw [star_trivial]
  have hdet : (Matrix.of fun i j : Fin 2 => A i j).det = -3 := by
    rw [Matrix.det_fin_two]
    norm_num [A]
  refine ⟨hA, hdet, fun bcm g => ?_⟩
  obtain ⟨LL, e⟩ : ∃ LL, make bcm 2 1 A g = some LL := by
    apply Option.ne_none_iff_exists'.mp
    intro hc
    obtain ⟨k, h1, h2, h3⟩ := (make_raises_iff_tri bcm (by omega) A g hA rfl).mp hc
    have : k = 1 ∨ k = 2 := by omega
    rcases this with rfl | rfl
    · rw [Matrix.det_fin_one] at h3
      norm_num [A] at h3
    · rw [hdet] at h3
      norm_num at h3
  refine ⟨LL, e, ?_⟩
  rw [(det_spec_partial (by omega) hA e).1, hdet]
  norm_num

/-! ### In place -/

/-- **C98**: dividing in place (`A.divideInPlace()`), `M` = the memory of `A`: as for a copy, if the storage is row or column major
for `nlo > 1` and diagonal major for `nlo = 1`.  Missing: the other storage orders, see `inplace_violated`. -/
theorem inplace_partial (o : Ord) (bcm : Bool) {N lo : Nat} (hlo : lo < N) {A M : Nat → Nat → K} (g : Nat → Nat → K) (hA : HermBand N lo A)
    (hM : ∀ i j, i < N → j ≤ i → i ≤ j + lo → M i j = A i j)
    (ho : (o ≠ .no ∧ lo > 1) ∨ (o = .no ∧ lo = 1) ∨ lo = 0) :
    (lo ≠ 1 → (makeInPlace o bcm N lo M g = none ↔ ¬ PosDef N A)) ∧
    (lo = 1 → (makeInPlace o bcm N lo M g = none ↔ ∃ k, 1 ≤ k ∧ k ≤ N ∧ (Matrix.of fun i j : Fin k => A i j).det = 0)) ∧
    ∀ LL, makeInPlace o bcm N lo M g = some LL → Holds N lo A LL := by
  have := decomp_spec o bcm hlo hA hM
  unfold makeInPlace
  simp only [decide_eq_true ho, if_true]
  have e : (∃ i, i < N ∧ RCLike.re (M i i) ≤ 0) ↔ ∃ i, i < N ∧ RCLike.re (A i i) ≤ 0 := by
    constructor
    · rintro ⟨i, hi, h⟩; exact ⟨i, hi, by rwa [hM i i hi le_rfl (by omega)] at h⟩
    · rintro ⟨i, hi, h⟩; exact ⟨i, hi, by rwa [hM i i hi le_rfl (by omega)]⟩
  simp only [e]
  exact this

/-- Otherwise the divider does not depend on the matrix at all: it decomposes uninitialised memory. -/
theorem inplace_ignores (o : Ord) (bcm : Bool) (N lo : Nat) (A A' g : Nat → Nat → K)
    (ho : (o ≠ .no ∧ lo = 1) ∨ (o = .no ∧ lo > 1)) : makeInPlace o bcm N lo A g = makeInPlace o bcm N lo A' g := by
  have : ¬ ((o ≠ .no ∧ lo > 1) ∨ (o = .no ∧ lo = 1) ∨ lo = 0) := by
    rintro (⟨h1, h2⟩ | ⟨h1, h2⟩ | h)
    · rcases ho with ⟨_, h⟩ | ⟨h, _⟩
      · omega
      · exact h1 h
    · rcases ho with ⟨h, _⟩ | ⟨_, h⟩
      · exact h h1
      · omega
    · omega
  unfold makeInPlace
  simp only [decide_eq_false this, Bool.false_eq_true, if_false]
  by_cases h1 : lo > 1
  · rw [if_pos h1, if_pos h1]
  · have h2 : lo = 1 := by omega
    rw [if_neg h1, if_neg h1, if_pos h2, if_pos h2]

/-- A positive definite tridiagonal matrix in column-major storage, divided in place, over memory that happens to hold the
identity: no exception, and the divider does not belong to the matrix. -/
theorem inplace_violated (bcm : Bool) : ∃ A g LL : Nat → Nat → ℝ, HermBand 2 1 A ∧ PosDef 2 A ∧
    makeInPlace .cm bcm 2 1 A g = some LL ∧ ¬ Holds 2 1 A LL := by
  let A : Nat → Nat → ℝ := fun i j => if i = j then 2 else 0
  let g : Nat → Nat → ℝ := fun i j => if i = j then 1 else 0
  have hA : HermBand 2 1 A := by
    refine ⟨fun i j _ _ => ?_, fun i j hi hj h => by omega⟩
    simp only [A, eq_comm]
    rw [star_trivial]
  have hp : PosDef 2 A := by
    rw [diag_posDef (fun i j _ _ hij => if_neg hij)]
    intro i _
    simp [A]
  have e1 : makeInPlace .cm bcm 2 1 A g = hLDL 2 g := by
    unfold makeInPlace
    simp
  obtain ⟨LL, e⟩ : ∃ LL, hLDL 2 g = some LL := by
    apply Option.ne_none_iff_exists'.mp
    intro hc
    obtain ⟨k, h1, h2, h3⟩ := (band_ldl_raises_iff 2 (by omega) g (fun i _ => by simp)).mp hc
    have : k = 1 ∨ k = 2 := by omega
    rcases this with rfl | rfl
    · rw [Matrix.det_fin_one] at h3
      norm_num [g, hermMat, bandMat] at h3
    · rw [Matrix.det_fin_two] at h3
      norm_num [g, hermMat, bandMat] at h3
  refine ⟨A, g, LL, hA, hp, by rw [e1, e], ?_⟩
  rintro (⟨h, _⟩ | ⟨-, h, -⟩ | ⟨h, _⟩)
  · omega
  · have h1 := h 0 0 (by omega) (by omega)
    have h2 := (band_ldl_correct 2 (by omega) g LL (fun i _ => by simp) e).1 0 0 (by omega) (by omega)
    rw [h1] at h2
    norm_num [A, g, hermMat, bandMat] at h2
  · omega

/-- A Hermitian band matrix with two subdiagonals that meets the hypotheses. -/
example : ∃ A : Nat → Nat → ℝ, HermBand 3 2 A ∧ A 2 0 ≠ 0 ∧ ∃ LL, make true 3 2 A (fun _ _ => 0) = some LL := by
  let A : Nat → Nat → ℝ := fun i j => if i = j then 4 else 1
  have hA : HermBand 3 2 A := by
    refine ⟨fun i j _ _ => ?_, fun i j hi hj h => by omega⟩
    simp only [A, eq_comm]
    rw [star_trivial]
  refine ⟨A, hA, by norm_num [A], make_posDef true (by omega) A _ hA ?_⟩
  rintro x ⟨i, hi, hx⟩
  have e : quad 3 A x = 3 * (x 0 ^ 2 + x 1 ^ 2 + x 2 ^ 2) + (x 0 + x 1 + x 2) ^ 2 := by
    simp only [quad, Finset.sum_range_succ, Finset.sum_range_zero, A, star_trivial]
    norm_num
    ring
  show 0 < quad 3 A x
  rw [e]
  have : i = 0 ∨ i = 1 ∨ i = 2 := by omega
  have h0 : 0 < x 0 ^ 2 + x 1 ^ 2 + x 2 ^ 2 := by
    rcases this with rfl | rfl | rfl <;> positivity
  positivity

end
end TMV.BandCH
