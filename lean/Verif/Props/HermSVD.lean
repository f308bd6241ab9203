import Verif.Props.SVD

/-! C101: division, inverse, determinant, norm, condition from an eigenvalue decomposition of a Hermitian matrix (`HermSVDiv`) and
from a singular value decomposition of a symmetric one (`SymSVDiv`). -/
namespace TMV.SVD
noncomputable section
open Classical Matrix
variable {K : Type} [RCLike K]

/-- `F` holds orthonormal eigenvectors and eigenvalues of `A`, in descending order of their absolute values. -/
structure HHolds (N : Nat) (A : Nat → Nat → K) (F : HFac K) : Prop where
  uu : (matOf N N F.U)ᴴ * matOf N N F.U = 1
  prod : matOf N N A = matOf N N F.U * diagonal (fun i : Fin N => ((F.S i : ℝ) : K)) * (matOf N N F.U)ᴴ
  desc : ∀ i j, i ≤ j → j < N → |F.S j| ≤ |F.S i|

theorem matOf_adj (M N : Nat) (U : Nat → Nat → K) : matOf N M (adj U) = (matOf M N U)ᴴ := rfl

/-- `A` with all but the first `kmax` eigenvalues replaced by `0`. -/
def HFac.kept (N : Nat) (F : HFac K) : Matrix (Fin N) (Fin N) K :=
  matOf N N F.U * diagonal (fun i : Fin N => ((cut F.kmax F.S i : ℝ) : K)) * (matOf N N F.U)ᴴ

/-- What the operations need: no eigenvalue that is kept is zero. -/
def HFac.Regular (N : Nat) (F : HFac K) : Prop := F.kmax ≤ N ∧ ∀ i, i < F.kmax → F.S i ≠ 0

theorem HFac.kept_full {N : Nat} {A : Nat → Nat → K} {F : HFac K} (h : HHolds N A F) (hk : ¬ F.isSingular N) : F.kept N = matOf N N A := by
  have hk : N ≤ F.kmax := Nat.le_of_not_lt hk
  have := cut_full (M := N) F.U F.S (adj F.U) hk
  rw [h.prod]
  exact this

theorem pin_apply {M N k : Nat} (hk : k ≤ N) (U : Nat → Nat → K) (S : Nat → ℝ) (Vt : Nat → Nat → K) (i : Fin N) (j : Fin M) :
    pin M N k U S Vt i j = ∑ l ∈ Finset.range k, star (Vt l i) * ((((S l)⁻¹ : ℝ) : K) * star (U j l)) := by
  have e1 : ∑ l ∈ Finset.range k, star (Vt l i) * ((((S l)⁻¹ : ℝ) : K) * star (U j l)) = ∑ l ∈ Finset.range k,
      (fun l => star (Vt l i) * ((if l < k then (((S l)⁻¹ : ℝ) : K) else 0) * star (U j l))) l := by
    refine Finset.sum_congr rfl fun l hl => ?_
    beta_reduce
    rw [if_pos (Finset.mem_range.mp hl)]
  rw [e1, sum_cut hk _ (fun l hl _ => by rw [if_neg (by omega), zero_mul, mul_zero])]
  unfold pin
  rw [Matrix.mul_apply]
  refine Finset.sum_congr rfl fun l _ => ?_
  rw [Matrix.mul_diagonal, cut_inv, mul_assoc]
  rfl

section
variable {N : Nat} {A : Nat → Nat → K} {F : HFac K} (h : HHolds N A F) (hr : F.Regular N)
include h hr

theorem hpin : IsPinv (F.kept N) (pin N N F.kmax F.U F.S (adj F.U)) := by
  refine pin_isPinv (k := F.kmax) (S := F.S) (Vt := adj F.U) h.uu ?_
  rw [matOf_adj, conjTranspose_conjTranspose, h.uu]

/-- **C101** (`HermSVDiv`, `x = m / A`): the pseudo-inverse of the matrix kept times `m`, nothing else is written. -/
theorem hlDiv_spec (g : Nat → K) (R : Nat) (m x : Nat → Nat → K) :
    ∃ X, F.lDiv g N R m x = some X ∧ (∀ P, IsPinv (F.kept N) P → matOf N R X = P * matOf N R m) ∧
      ∀ i j, ¬ (i < N ∧ j < R) → X i j = x i j := by
  obtain ⟨X, e, x1, x2⟩ := svLDiv_spec (M := N) g hr.1 R (U := F.U) (Vt := adj F.U) hr.2 m x
  refine ⟨X, e, fun P hP => ?_, x2⟩
  rw [hP.unique (hpin h hr), x1]

/-- **C101** (`HermSVDiv`, `x = m % A`). -/
theorem hrDiv_spec (g : Nat → K) (R : Nat) (m x : Nat → Nat → K) :
    ∃ X, F.rDiv g N R m x = some X ∧ (∀ P, IsPinv (F.kept N) P → matOf R N X = matOf R N m * P) ∧
      ∀ i j, ¬ (i < R ∧ j < N) → X i j = x i j := by
  obtain ⟨X, e, x1, x2⟩ := svRDiv_spec (M := N) g hr.1 R (U := F.U) (Vt := adj F.U) hr.2 m x
  refine ⟨X, e, fun P hP => ?_, x2⟩
  rw [hP.unique (hpin h hr), x1]

theorem pin_herm (i j : Fin N) : pin N N F.kmax F.U F.S (adj F.U) i j = star (pin N N F.kmax F.U F.S (adj F.U) j i) := by
  rw [pin_apply hr.1, pin_apply hr.1, star_sum]
  refine Finset.sum_congr rfl fun l _ => ?_
  unfold adj
  rw [star_mul, star_mul, star_star, star_star]
  simp only [RCLike.star_def, RCLike.conj_ofReal, RCLike.conj_conj]
  ring

/-- **C101** (`HermSVDiv`, inverse in a Hermitian matrix that stores its lower triangle): the stored triangle becomes that of the
pseudo-inverse, nothing else is written. -/
theorem hermInverse_spec (nb nb2 : Nat) (hnb : 0 < nb) (hnb2 : 0 < nb2) (rm : Bool) (g : Nat → K) (sinv : Nat → Nat → K)
    {P : Matrix (Fin N) (Fin N) K} (hP : IsPinv (F.kept N) P) :
    ∃ X, hermInverse nb nb2 rm g N F.kmax F.U F.S sinv = some X ∧
      (∀ i j : Fin N, j.1 ≤ i.1 → X i j = P i j) ∧ ∀ i j, ¬ (j ≤ i ∧ i < N) → X i j = sinv i j := by
  obtain ⟨y, ey, hy⟩ := divM_cut (R := N) ⟨false, true⟩ g hr.2 (adj F.U)
  have hs : ∀ i j : Fin N, ∑ l ∈ Finset.range F.kmax, F.U i l * y l j = P i j := by
    intro i j
    rw [hP.unique (hpin h hr), pin_apply hr.1]
    refine Finset.sum_congr rfl fun l hl => ?_
    rw [hy l j (Finset.mem_range.mp hl) j.2]
    unfold adj
    rw [star_star]
  have hreal : ∀ i : Fin N, RCLike.im (P i i) = 0 := fun i => by
    rw [hP.unique (hpin h hr)]
    exact RCLike.conj_eq_iff_im.mp (pin_herm h hr i i).symm
  have hu := SymRK.symMul_spec_partial nb nb2 hnb hnb2 rm true false N F.kmax (1 : K) F.U y sinv (fun _ => one_ne_zero)
    (fun _ => ⟨fun i hi => by rw [one_mul, hs ⟨i, hi⟩ ⟨i, hi⟩]; exact hreal _, fun e => by cases e⟩)
  unfold hermInverse
  rw [ey, Option.map_some]
  refine ⟨_, rfl, fun i j hij => ?_, fun i j hij => ?_⟩
  · rw [hu, if_pos ⟨hij, i.2⟩]
    simp only [Bool.false_eq_true, if_false, one_mul]
    exact hs i j
  · rw [hu, if_neg hij]

theorem hermInverseUpper_spec (nb nb2 : Nat) (hnb : 0 < nb) (hnb2 : 0 < nb2) (rm : Bool) (g : Nat → K) (minv : Nat → Nat → K)
    {P : Matrix (Fin N) (Fin N) K} (hP : IsPinv (F.kept N) P) :
    ∃ X, hermInverseUpper nb nb2 rm g N F.kmax F.U F.S minv = some X ∧
      (∀ i j : Fin N, i.1 ≤ j.1 → X i j = P i j) ∧ ∀ i j, ¬ (i ≤ j ∧ j < N) → X i j = minv i j := by
  obtain ⟨y, ey, hy⟩ := divM_cut (R := N) ⟨false, true⟩ g hr.2 (adj F.U)
  have hs : ∀ i j : Fin N, ∑ l ∈ Finset.range F.kmax, conj F.U j l * conj y l i = P i j := by
    intro i j
    rw [hP.unique (hpin h hr), pin_herm h hr, pin_apply hr.1, star_sum]
    refine Finset.sum_congr rfl fun l hl => ?_
    unfold conj
    rw [hy l i (Finset.mem_range.mp hl) i.2]
    unfold adj
    rw [star_mul, star_mul, star_star, star_star]
    simp only [RCLike.star_def, RCLike.conj_ofReal, map_mul, RCLike.conj_conj]
    ring
  have hreal : ∀ i : Fin N, RCLike.im (P i i) = 0 := fun i => by
    rw [hP.unique (hpin h hr)]
    exact RCLike.conj_eq_iff_im.mp (pin_herm h hr i i).symm
  have hu := SymRK.symMul_spec_partial nb nb2 hnb hnb2 rm true false N F.kmax (1 : K) (conj F.U) (conj y) (tr minv) (fun _ => one_ne_zero)
    (fun _ => ⟨fun i hi => by rw [one_mul, hs ⟨i, hi⟩ ⟨i, hi⟩]; exact hreal _, fun e => by cases e⟩)
  unfold hermInverseUpper
  rw [ey, Option.map_some]
  refine ⟨_, rfl, fun i j hij => ?_, fun i j hij => ?_⟩
  · show SymRK.symMul nb nb2 rm true false N F.kmax 1 (conj F.U) (conj y) (tr minv) j i = _
    rw [hu, if_pos ⟨hij, j.2⟩]
    simp only [Bool.false_eq_true, if_false, one_mul]
    exact hs i j
  · show SymRK.symMul nb nb2 rm true false N F.kmax 1 (conj F.U) (conj y) (tr minv) j i = _
    rw [hu, if_neg hij]
    rfl

/-- **C101** (`HermSVDiv`, inverse in a matrix): the pseudo-inverse, nothing else is written. -/
theorem hmakeInverse_spec (nb nb2 : Nat) (hnb : 0 < nb) (hnb2 : 0 < nb2) (rm : Bool) (g : Nat → K) (minv : Nat → Nat → K) :
    ∃ X, F.makeInverse nb nb2 rm g N minv = some X ∧ IsPinv (F.kept N) (matOf N N X) ∧ ∀ i j, ¬ (i < N ∧ j < N) → X i j = minv i j := by
  have hP := hpin h hr
  obtain ⟨X, e, x1, x2⟩ := hermInverseUpper_spec h hr nb nb2 hnb hnb2 rm g
    (fun i j => if i = j ∧ i < N then ((RCLike.re (minv i i) : ℝ) : K) else minv i j) hP
  unfold HFac.makeInverse
  dsimp only
  rw [e, Option.map_some]
  refine ⟨_, rfl, ?_, ?_⟩
  · refine cast (congrArg _ ?_) hP
    ext i j
    by_cases hij : i.1 ≤ j.1
    · rw [← x1 i j hij]
      show _ = (if N > 1 then (fun i j => if j < i ∧ i < N then star (X j i) else X i j) else X) i.1 j.1
      split_ifs with hn
      · beta_reduce
        rw [if_neg (by omega)]
      · rfl
    · rw [pin_herm h hr, ← x1 j i (by omega)]
      show _ = (if N > 1 then (fun i j => if j < i ∧ i < N then star (X j i) else X i j) else X) i.1 j.1
      rw [if_pos (by omega), if_pos ⟨by omega, i.2⟩]
  · intro i j hij
    have : X i j = minv i j := by
      rw [x2 i j (by omega), if_neg (by omega)]
    split_ifs with hn
    · beta_reduce
      rw [if_neg (by omega), this]
    · exact this

/-- **C101** (`HermSVDiv`, `makeInverseATA`): the square of the pseudo-inverse, which is `(AᴴA)⁻¹` of the matrix kept. -/
theorem hmakeInverseATA_spec (g : Nat → K) (ata : Nat → Nat → K) :
    ∃ X, F.makeInverseATA g N ata = some X ∧ (∀ P, IsPinv (F.kept N) P → matOf N N X = P * Pᴴ) ∧
      ∀ i j, ¬ (i < N ∧ j < N) → X i j = ata i j := by
  obtain ⟨y, ey, hy⟩ := divM_cut (R := N) ⟨true, false⟩ g hr.2 (adj F.U)
  unfold HFac.makeInverseATA
  rw [ey, Option.map_some]
  refine ⟨_, rfl, fun P hP => ?_, fun i j hij => if_neg hij⟩
  rw [hP.unique (hpin h hr)]
  have e : pin N N F.kmax F.U F.S (adj F.U) * (pin N N F.kmax F.U F.S (adj F.U))ᴴ =
      (matOf N N F.U * diagonal (fun i : Fin N => (((cut F.kmax F.S i)⁻¹ : ℝ) : K))) *
      (diagonal (fun i : Fin N => (((cut F.kmax F.S i)⁻¹ : ℝ) : K)) * (matOf N N F.U)ᴴ) := by
    unfold pin
    rw [conjTranspose_mul, conjTranspose_mul, matOf_adj, conjTranspose_conjTranspose, diagonal_conjTranspose]
    have hs : (star fun i : Fin N => (((cut F.kmax F.S i)⁻¹ : ℝ) : K)) = fun i : Fin N => (((cut F.kmax F.S i)⁻¹ : ℝ) : K) := by
      funext i; simp
    rw [hs]
    calc _ = matOf N N F.U * diagonal (fun i : Fin N => (((cut F.kmax F.S i)⁻¹ : ℝ) : K)) * ((matOf N N F.U)ᴴ * matOf N N F.U) *
          (diagonal (fun i : Fin N => (((cut F.kmax F.S i)⁻¹ : ℝ) : K)) * (matOf N N F.U)ᴴ) := by
          simp only [Matrix.mul_assoc]
      _ = _ := by rw [h.uu, Matrix.mul_one]
  rw [e]
  ext i j
  show (if i.1 < N ∧ j.1 < N then ∑ l ∈ Finset.range F.kmax, star (y l i) * y l j else _) = _
  rw [if_pos ⟨i.2, j.2⟩, Matrix.mul_apply]
  have e1 : ∑ l ∈ Finset.range F.kmax, star (y l i) * y l j = ∑ l ∈ Finset.range F.kmax,
      (fun l => (F.U i l * (if l < F.kmax then (((F.S l)⁻¹ : ℝ) : K) else 0)) *
        ((if l < F.kmax then (((F.S l)⁻¹ : ℝ) : K) else 0) * star (F.U j l))) l := by
    refine Finset.sum_congr rfl fun l hl => ?_
    have hl := Finset.mem_range.mp hl
    beta_reduce
    rw [if_pos hl, hy l j hl j.2, hy l i hl i.2, star_mul]
    unfold adj
    rw [star_star]
    congr 2
    simp
  rw [e1, sum_cut hr.1 _ (fun l hl _ => by rw [if_neg (by omega), mul_zero, zero_mul])]
  refine Finset.sum_congr rfl fun l _ => ?_
  rw [Matrix.mul_diagonal, Matrix.diagonal_mul, cut_inv]
  rfl

end

/-- **C101**: division raises an exception exactly when an eigenvalue in use is zero (and there is something to divide). -/
theorem hlDiv_raises_iff (g : Nat → K) (N R : Nat) (F : HFac K) (m x : Nat → Nat → K) :
    (F.lDiv g N R m x = none ↔ 0 < R ∧ ∃ i < F.kmax, F.S i = 0) ∧ (F.rDiv g N R m x = none ↔ 0 < R ∧ ∃ i < F.kmax, F.S i = 0) := by
  unfold HFac.lDiv HFac.rDiv svRDiv svLDiv
  simp [divM_zero]

/-! ### `thresh`, `top` -/

/-- **C101** (`thresh`): eigenvalues that are at most `toler` times the greatest in absolute value are discarded; the rest can be divided by. -/
theorem hthresh_spec {N : Nat} {A : Nat → Nat → K} {F : HFac K} (h : HHolds N A F) (toler : ℝ) (ht : 0 ≤ toler) :
    HHolds N A (F.thresh N toler) ∧ (F.thresh N toler).Regular N ∧
    (∀ i, i < N → (i < (F.thresh N toler).kmax ↔ |F.S 0| * toler < |F.S i|)) ∧
    ((F.thresh N toler).isSingular N ↔ ∃ i < N, |F.S i| ≤ |F.S 0| * toler) := by
  have key : ∀ i, i < N → (i < (F.thresh N toler).kmax ↔ |F.S 0| * toler < |F.S i|) := by
    intro i hi
    unfold HFac.thresh
    dsimp only
    rw [if_neg (by omega)]
    exact threshLoop_iff (S := fun i => |F.S i|) h.desc _ i hi
  have hle : (F.thresh N toler).kmax ≤ N := by
    unfold HFac.thresh
    dsimp only
    split_ifs
    · omega
    · exact (threshLoop_spec _ _ _).1
  refine ⟨⟨h.uu, h.prod, h.desc⟩, ⟨hle, fun i hi h0 => ?_⟩, key, ?_⟩
  · have := (key i (by omega)).mp hi
    have h0 : F.S i = 0 := h0
    rw [h0, abs_zero] at this
    exact absurd this (not_lt.mpr (mul_nonneg (abs_nonneg _) ht))
  · constructor
    · intro hs
      have hs : (F.thresh N toler).kmax < N := hs
      refine ⟨_, hs, ?_⟩
      by_contra hc
      exact absurd ((key _ hs).mpr (not_le.mp hc)) (lt_irrefl _)
    · rintro ⟨i, hi, hle'⟩
      show (F.thresh N toler).kmax < N
      by_contra hc
      exact absurd ((key i hi).mp (by omega)) (not_lt.mpr hle')

/-- **C101** (`top`): at most the first `n` eigenvalues are kept. -/
theorem htop_spec {N : Nat} {A : Nat → Nat → K} {F : HFac K} (h : HHolds N A F) (n : Nat) :
    HHolds N A (F.top N n) ∧ (F.top N n).kmax = min n N ∧
    ((F.top N n).Regular N ↔ ∀ i, i < n → i < N → F.S i ≠ 0) := by
  have hk : (F.top N n).kmax = min n N := by
    unfold HFac.top
    dsimp only
    split_ifs <;> omega
  refine ⟨⟨h.uu, h.prod, h.desc⟩, hk, ?_⟩
  unfold HFac.Regular
  rw [hk]
  exact ⟨fun hh i h1 h2 => hh.2 i (by omega), fun hh => ⟨by omega, fun i hi => hh i (by omega) (by omega)⟩⟩

/-! ### The singular value decomposition handed out -/

theorem getS_eq (N : Nat) (F : HFac K) (i : Nat) (hi : i < N) : F.getS N i = |F.S i| := by
  unfold HFac.getS
  have := up_inv (fun i (t : Nat → ℝ) => fun a => if a = i ∧ t i < 0 then - t i else t a)
    (fun n t => ∀ a, t a = if a < n then |F.S a| else F.S a) N 0 F.S (by simp) (by
      intro n t _ _ ih a
      beta_reduce
      by_cases ha : a = n
      · subst ha
        rw [ih a, if_neg (lt_irrefl a), if_pos (Nat.lt_succ_self a)]
        by_cases hs : F.S a < 0
        · rw [if_pos ⟨rfl, hs⟩, abs_of_neg hs]
        · rw [if_neg (fun e => hs e.2), abs_of_nonneg (not_lt.mp hs)]
      · rw [if_neg (fun e => ha e.1), ih a]
        by_cases hn : a < n
        · rw [if_pos hn, if_pos (by omega)]
        · rw [if_neg hn, if_neg (by omega)])
  rw [Nat.zero_add] at this
  rw [this i, if_pos hi]

theorem getVt_eq (N : Nat) (F : HFac K) (i j : Nat) (hi : i < N) (hj : j < N) :
    F.getVt N i j = (if F.S i < 0 then -1 else 1) * star (F.U j i) := by
  unfold HFac.getVt
  have := up_inv (fun i (t : Nat → Nat → K) => if F.S i < 0 then (fun a b => if a = i ∧ b < N then t a b * (-1) else t a b) else t)
    (fun n t => ∀ a, t a j = if a < n ∧ F.S a < 0 then - star (F.U j a) else star (F.U j a)) N 0 (adj F.U) (by simp [adj]) (by
      intro n t _ _ ih a
      beta_reduce
      by_cases hs : F.S n < 0
      · rw [if_pos hs]
        beta_reduce
        by_cases ha : a = n
        · subst ha
          rw [if_pos ⟨rfl, hj⟩, ih a, if_neg (fun e => lt_irrefl a e.1), if_pos ⟨Nat.lt_succ_self a, hs⟩, mul_neg_one]
        · rw [if_neg (fun e => ha e.1), ih a]
          by_cases hn : a < n ∧ F.S a < 0
          · rw [if_pos hn, if_pos ⟨by omega, hn.2⟩]
          · rw [if_neg hn, if_neg (fun e => hn ⟨by omega, e.2⟩)]
      · rw [if_neg hs, ih a]
        by_cases hn : a < n ∧ F.S a < 0
        · rw [if_pos hn, if_pos ⟨by omega, hn.2⟩]
        · rw [if_neg hn, if_neg]
          intro e
          by_cases ha : a = n
          · subst ha; exact hs e.2
          · exact hn ⟨by omega, e.2⟩)
  rw [Nat.zero_add] at this
  rw [this i]
  by_cases hs : F.S i < 0
  · rw [if_pos ⟨hi, hs⟩, if_pos hs, neg_one_mul]
  · rw [if_neg (fun e => hs e.2), if_neg hs, one_mul]

/-- **C101** (`getU`, `getS`, `getVt`): they are a singular value decomposition of the Hermitian matrix. -/
theorem hsvd {N : Nat} {A : Nat → Nat → K} {F : HFac K} (h : HHolds N A F) : IsSVD N N A F.U (F.getS N) (F.getVt N) := by
  have e : matOf N N (F.getVt N) = diagonal (fun i : Fin N => (if F.S i < 0 then (-1 : K) else 1)) * (matOf N N F.U)ᴴ := by
    ext i j
    rw [Matrix.diagonal_mul]
    exact getVt_eq N F i j i.2 j.2
  refine { uu := h.uu, vv := ?_, prod := ?_, nonneg := ?_, desc := ?_ }
  · rw [e, conjTranspose_mul, conjTranspose_conjTranspose, diagonal_conjTranspose]
    have : diagonal (fun i : Fin N => (if F.S i < 0 then (-1 : K) else 1)) * (matOf N N F.U)ᴴ *
        (matOf N N F.U * diagonal (star fun i : Fin N => (if F.S i < 0 then (-1 : K) else 1))) =
        diagonal (fun i : Fin N => (if F.S i < 0 then (-1 : K) else 1)) * ((matOf N N F.U)ᴴ * matOf N N F.U) *
          diagonal (star fun i : Fin N => (if F.S i < 0 then (-1 : K) else 1)) := by simp only [Matrix.mul_assoc]
    rw [this, h.uu, Matrix.mul_one, diagonal_mul_diagonal, ← diagonal_one]
    congr 1
    funext i
    show (if F.S i < 0 then (-1 : K) else 1) * star (if F.S i < 0 then (-1 : K) else 1) = 1
    split_ifs <;> simp
  · rw [h.prod, e, ← Matrix.mul_assoc]
    rw [Matrix.mul_assoc (matOf N N F.U) (diagonal _) (diagonal _), diagonal_mul_diagonal]
    congr 3
    funext i
    rw [getS_eq N F i i.2]
    split_ifs with hs
    · rw [abs_of_neg hs]; simp
    · rw [abs_of_nonneg (not_lt.mp hs), mul_one]
  · intro i hi; rw [getS_eq N F i hi]; exact abs_nonneg _
  · intro i j hij hj; rw [getS_eq N F i (by omega), getS_eq N F j hj]; exact h.desc i j hij hj

theorem hholds {N : Nat} {A : Nat → Nat → K} {F : HFac K} (h : HHolds N A F) :
    Holds N N A (⟨false, F.U, F.getS N, F.getVt N, F.kmax⟩ : Fac K) := by
  unfold Holds
  simp only [Bool.false_eq_true, if_false]
  exact ⟨le_rfl, hsvd h⟩

/-- **C101** (`norm2`). -/
theorem hnorm2_spec {N : Nat} {A : Nat → Nat → K} {F : HFac K} (h : HHolds N A F) (h0 : 0 < N) : IsOpNorm (matOf N N A) (F.norm2 N) := by
  have := norm2_spec (hholds h) (by omega : 0 < min N N)
  rw [min_self] at this
  unfold Fac.norm2 at this
  unfold HFac.norm2
  rw [if_pos h0] at this ⊢
  rw [← getS_eq N F 0 h0]
  exact this

/-- **C101** (`condition`): the norm of the matrix times the norm of its inverse. -/
theorem hcondition_spec {N : Nat} {A : Nat → Nat → K} {F : HFac K} (h : HHolds N A F) (h0 : 0 < N) (hp : F.S (N - 1) ≠ 0)
    {P : Matrix (Fin N) (Fin N) K} (hP : IsPinv (matOf N N A) P) :
    ∃ a b, IsOpNorm (matOf N N A) a ∧ IsOpNorm P b ∧ F.condition N = a * b := by
  have hg : F.getS N (min N N - 1) ≠ 0 := by
    rw [min_self, getS_eq N F (N-1) (by omega)]
    exact abs_ne_zero.mpr hp
  obtain ⟨a, b, ha, hb, e⟩ := condition_spec (hholds h) (by omega : 0 < min N N) hg hP
  refine ⟨a, b, ha, hb, ?_⟩
  rw [← e, min_self]
  unfold Fac.condition HFac.condition
  rw [if_pos h0, if_pos h0, abs_div]
  show _ = F.getS N 0 / F.getS N (N-1)
  rw [getS_eq N F 0 h0, getS_eq N F (N-1) (by omega)]

/-- **C101** (`det`, `logDet`): the determinant of the matrix; the sign is zero exactly when the determinant is. -/
theorem hdet_spec {N : Nat} {A : Nat → Nat → K} {F : HFac K} (h : HHolds N A F) :
    F.det N = (matOf N N A).det ∧ ((F.logDet N).2 = 0 ↔ (matOf N N A).det = 0) ∧
    ((matOf N N A).det ≠ 0 → |(F.logDet N).2| = 1 ∧ (((F.logDet N).2 : ℝ) : K) * ((Real.exp (F.logDet N).1 : ℝ) : K) = (matOf N N A).det) := by
  obtain ⟨-, d2, d3⟩ := Diag.det_spec N (⟨F.S, false, false⟩ : Diag.DV ℝ)
  have el : ∀ k, (⟨F.S, false, false⟩ : Diag.DV ℝ).el k = F.S k := fun k => rfl
  simp only [el] at d2 d3
  have hd : (matOf N N A).det = ((∏ k ∈ Finset.range N, F.S k : ℝ) : K) := by
    rw [h.prod, det_mul, det_mul, det_diagonal]
    have : (matOf N N F.U)ᴴ.det * (matOf N N F.U).det = 1 := by rw [← det_mul, h.uu, det_one]
    rw [mul_comm (matOf N N F.U).det, mul_assoc, mul_comm (matOf N N F.U).det, this, mul_one]
    rw [← Fin.prod_univ_eq_prod_range (fun k => F.S k) N]
    push_cast
    rfl
  have hz : (matOf N N A).det = 0 ↔ ∃ k < N, F.S k = 0 := by
    rw [hd, RCLike.ofReal_eq_zero, Finset.prod_eq_zero_iff]
    simp
  have hne : (matOf N N A).det ≠ 0 → |(F.logDet N).2| = 1 ∧
      (((F.logDet N).2 : ℝ) : K) * ((Real.exp (F.logDet N).1 : ℝ) : K) = (matOf N N A).det := by
    intro h0
    have h0' : ∀ k < N, F.S k ≠ 0 := fun k hk e => h0 (hz.mpr ⟨k, hk, e⟩)
    obtain ⟨p1, p2⟩ := d3 h0'
    refine ⟨p1, ?_⟩
    rw [hd, ← p2, RCLike.ofReal_mul]
    rfl
  refine ⟨?_, ?_, hne⟩
  · unfold HFac.det
    split_ifs with h0
    · exact (hz.mpr (d2.mp h0)).symm
    · exact (hne (fun e => h0 (d2.mpr (hz.mp e)))).2
  · exact d2.trans hz.symm

/-! ### `SymSVDiv` -/

/-- For a symmetric matrix, dropping singular values that are less than all the others leaves a symmetric matrix. -/
theorem kept_symm {N : Nat} {A : Nat → Nat → K} {F : Fac K} (h : Holds N N A F) (ht : F.istrans = false)
    (hA : ∀ i j, i < N → j < N → A i j = A j i) (hgap : ∀ i j, i < F.kmax → F.kmax ≤ j → j < N → F.S j < F.S i) :
    (kept N N F)ᵀ = kept N N F := by
  rw [kept_plain le_rfl ht]
  unfold Holds at h
  rw [ht] at h
  simp only [Bool.false_eq_true, if_false] at h
  obtain ⟨-, h⟩ := h
  set U := matOf N N F.U with hU
  set V := matOf N N F.Vt with hV
  set D : Matrix (Fin N) (Fin N) K := diagonal (fun i : Fin N => ((F.S i : ℝ) : K)) with hD
  set C : Matrix (Fin N) (Fin N) K := diagonal (fun i : Fin N => ((cut F.kmax F.S i : ℝ) : K)) with hC
  have hUU : Uᴴ * U = 1 := h.uu
  have hUU' : U * Uᴴ = 1 := mul_eq_one_comm.mp hUU
  have hVV : V * Vᴴ = 1 := h.vv
  have hVV' : Vᴴ * V = 1 := mul_eq_one_comm.mp hVV
  have hs : U * D * V = Vᵀ * D * Uᵀ := by
    have e : (matOf N N A)ᵀ = matOf N N A := by
      ext i j; exact hA j i j.2 i.2
    have p := h.prod
    rw [p, transpose_mul, transpose_mul, diagonal_transpose, ← Matrix.mul_assoc] at e
    exact e.symm
  have hDH : Dᴴ = D := by
    rw [hD, diagonal_conjTranspose]; congr 1; funext i; simp
  set W := Uᴴ * Vᵀ with hW
  -- `W` commutes with the squares of the singular values
  have h1 : D * V = W * D * Uᵀ := by
    have := congrArg (fun X => Uᴴ * X) hs
    simp only [← Matrix.mul_assoc] at this
    rw [hUU, Matrix.one_mul] at this
    exact this
  have hUt : Uᵀ * (Uᵀ)ᴴ = 1 := by
    have := congrArg transpose hUU
    rw [transpose_mul, transpose_one] at this
    exact this
  have hVt : (Vᵀ)ᴴ * Vᵀ = 1 := by
    have := congrArg transpose hVV
    rw [transpose_mul, transpose_one] at this
    exact this
  have hWW : W * Wᴴ = 1 := by
    rw [hW, conjTranspose_mul, conjTranspose_conjTranspose]
    calc Uᴴ * Vᵀ * ((Vᵀ)ᴴ * U) = Uᴴ * (Vᵀ * (Vᵀ)ᴴ) * U := by simp only [Matrix.mul_assoc]
      _ = 1 := by rw [mul_eq_one_comm.mp hVt, Matrix.mul_one, hUU]
  have h2 : D * D = W * (D * D) * Wᴴ := by
    have e1 : D * V * (D * V)ᴴ = D * D := by
      rw [conjTranspose_mul, hDH]
      calc D * V * (Vᴴ * D) = D * (V * Vᴴ) * D := by simp only [Matrix.mul_assoc]
        _ = D * D := by rw [hVV, Matrix.mul_one]
    have e2 : W * D * Uᵀ * (W * D * Uᵀ)ᴴ = W * (D * D) * Wᴴ := by
      rw [conjTranspose_mul, conjTranspose_mul, hDH]
      calc W * D * Uᵀ * ((Uᵀ)ᴴ * (D * Wᴴ)) = W * D * (Uᵀ * (Uᵀ)ᴴ) * (D * Wᴴ) := by simp only [Matrix.mul_assoc]
        _ = W * (D * D) * Wᴴ := by rw [hUt, Matrix.mul_one]; simp only [Matrix.mul_assoc]
    calc D * D = D * V * (D * V)ᴴ := e1.symm
      _ = W * D * Uᵀ * (W * D * Uᵀ)ᴴ := by rw [h1]
      _ = _ := e2
  have h3 : D * D * W = W * (D * D) := by
    have := congrArg (fun X => X * W) h2
    simp only [Matrix.mul_assoc] at this
    rw [mul_eq_one_comm.mp hWW, Matrix.mul_one] at this
    simpa only [Matrix.mul_assoc] using this
  have hw : ∀ i j : Fin N, F.S i ≠ F.S j → W i j = 0 := by
    intro i j hij
    have e := congrFun (congrFun h3 i) j
    rw [hD, diagonal_mul_diagonal, Matrix.diagonal_mul, Matrix.mul_diagonal] at e
    by_contra hc
    rw [mul_comm] at e
    have e := mul_left_cancel₀ hc e
    have e : F.S i * F.S i = F.S j * F.S j := by exact_mod_cast e
    have := mul_self_inj (h.nonneg i i.2) (h.nonneg j j.2)
    exact hij (this.mp e)
  have hWC : W * C = C * W := by
    ext i j
    rw [hC, Matrix.mul_diagonal, Matrix.diagonal_mul]
    by_cases hij : F.S i = F.S j
    · have : cut F.kmax F.S i = cut F.kmax F.S j := by
        unfold cut
        by_cases h1 : i.1 < F.kmax <;> by_cases h2 : j.1 < F.kmax
        · rw [if_pos h1, if_pos h2, hij]
        · exact absurd (hgap i j h1 (by omega) j.2) (by rw [hij]; exact lt_irrefl _)
        · exact absurd (hgap j i h2 (by omega) i.2) (by rw [hij]; exact lt_irrefl _)
        · rw [if_neg h1, if_neg h2]
      rw [this, mul_comm]
    · rw [hw i j hij, zero_mul, mul_zero]
  have hWD : W * D = D * W := by
    ext i j
    rw [hD, Matrix.mul_diagonal, Matrix.diagonal_mul]
    by_cases hij : F.S i = F.S j
    · rw [hij, mul_comm]
    · rw [hw i j hij, zero_mul, mul_zero]
  have hCV : C * V = C * (W * Uᵀ) := by
    have e : D * V = D * (W * Uᵀ) := by rw [h1, hWD, Matrix.mul_assoc]
    ext i j
    have e := congrFun (congrFun e i) j
    rw [hD, Matrix.diagonal_mul, Matrix.diagonal_mul] at e
    rw [hC, Matrix.diagonal_mul, Matrix.diagonal_mul]
    unfold cut
    by_cases h1 : i.1 < F.kmax
    · rw [if_pos h1]; exact e
    · rw [if_neg h1, RCLike.ofReal_zero, zero_mul, zero_mul]
  show (U * C * V)ᵀ = U * C * V
  rw [transpose_mul, transpose_mul, diagonal_transpose, ← hC, Matrix.mul_assoc U C V, hCV, ← Matrix.mul_assoc C, ← hWC, hW]
  calc Vᵀ * (C * Uᵀ) = (U * Uᴴ) * (Vᵀ * (C * Uᵀ)) := by rw [hUU', Matrix.one_mul]
    _ = _ := by simp only [Matrix.mul_assoc]

/-- **C101** (`SymSVDiv::thresh`, not empty): the singular values dropped are less than the ones kept. -/
theorem thresh_gap {M N : Nat} {A : Nat → Nat → K} {F : Fac K} (h : Holds M N A F) (toler : ℝ) (ht : 0 ≤ toler) (i j : Nat)
    (hi : i < (F.thresh (min M N) toler).kmax) (hj : (F.thresh (min M N) toler).kmax ≤ j) (hj' : j < min M N) : F.S j < F.S i := by
  obtain ⟨-, -, key, -⟩ := thresh_spec h toler ht
  have h1 := (key i (by omega)).mp hi
  have h2 := (not_congr (key j hj')).mp (by omega)
  linarith [not_lt.mp h2]

section
variable {N : Nat} {A : Nat → Nat → K} {F : Fac K} (h : Holds N N A F) (ht : F.istrans = false) (hr : F.Regular N N)
  (hsym : (kept N N F)ᵀ = kept N N F)
include h ht hr hsym

/-- **C101** (`SymSVDiv`, inverse in a symmetric matrix that stores its lower triangle).  Partial: the matrix kept must be symmetric, as it is
when nothing is discarded and after `thresh` (`kept_full`, `kept_symm`, `thresh_gap`), but not after `top` (`sym_top_inverse_violated`). -/
theorem symInverse_spec_partial (nb nb2 : Nat) (hnb : 0 < nb) (hnb2 : 0 < nb2) (rm : Bool) (g : Nat → K) (sinv : Nat → Nat → K)
    {P : Matrix (Fin N) (Fin N) K} (hP : IsPinv (kept N N F) P) :
    ∃ X, symInverse nb nb2 rm g N F sinv = some X ∧
      (∀ i j : Fin N, (if j.1 ≤ i.1 then X i j else X j i) = P i j) ∧ ∀ i j, ¬ (j ≤ i ∧ i < N) → X i j = sinv i j := by
  obtain ⟨P', hP', h1, -⟩ := exists_pinv h hr
  obtain ⟨-, e⟩ := h1 ht
  have hk : F.kmax ≤ N := by have := hr.1; omega
  obtain ⟨y, ey, hy⟩ := divM_cut (R := N) ⟨false, true⟩ g hr.2 (adj F.U)
  have hs : ∀ i j : Fin N, ∑ l ∈ Finset.range F.kmax, adj F.Vt i l * y l j = P i j := by
    intro i j
    rw [hP.unique hP', e, pin_apply hk]
    refine Finset.sum_congr rfl fun l hl => ?_
    rw [hy l j (Finset.mem_range.mp hl) j.2]
    rfl
  have hu := SymRK.symMul_spec_partial nb nb2 hnb hnb2 rm false false N F.kmax (1 : K) (adj F.Vt) y sinv (fun _ => one_ne_zero)
    (fun e => by cases e)
  unfold symInverse
  rw [ey, Option.map_some]
  have hPs : Pᵀ = P := by
    have := hP.trans
    rw [hsym] at this
    exact this.unique hP
  have hPs' : ∀ i j, P i j = P j i := fun i j => congrFun (congrFun hPs j) i
  have lo : ∀ i j : Fin N, j.1 ≤ i.1 → SymRK.symMul nb nb2 rm false false N F.kmax 1 (adj F.Vt) y sinv i j = P i j := by
    intro i j hij
    rw [hu, if_pos ⟨hij, i.2⟩]
    simp only [Bool.false_eq_true, if_false, one_mul]
    exact hs i j
  refine ⟨_, rfl, fun i j => ?_, fun i j hij => ?_⟩
  · split_ifs with hij
    · exact lo i j hij
    · rw [lo j i (by omega), hPs']
  · rw [hu, if_neg hij]

/-- **C101** (`SymSVDiv`, inverse in a matrix). -/
theorem symMakeInverse_spec_partial (nb nb2 : Nat) (hnb : 0 < nb) (hnb2 : 0 < nb2) (rm : Bool) (g : Nat → K) (minv : Nat → Nat → K) :
    ∃ X, symMakeInverse nb nb2 rm g N F minv = some X ∧ IsPinv (kept N N F) (matOf N N X) ∧
      ∀ i j, ¬ (i < N ∧ j < N) → X i j = minv i j := by
  obtain ⟨P, hP, -⟩ := exists_pinv h hr
  obtain ⟨X, e, x1, x2⟩ := symInverse_spec_partial h ht hr hsym nb nb2 hnb hnb2 rm g (tr minv) hP
  have hPs : Pᵀ = P := by
    have := hP.trans
    rw [hsym] at this
    exact this.unique hP
  have hPs' : ∀ i j, P i j = P j i := fun i j => congrFun (congrFun hPs j) i
  unfold symMakeInverse
  rw [e, Option.map_some]
  dsimp only
  refine ⟨_, rfl, ?_, ?_⟩
  · refine cast (congrArg _ ?_) hP
    ext i j
    by_cases hij : i.1 ≤ j.1
    · rw [hPs', ← x1 j i, if_pos hij]
      show _ = (if N > 1 then (fun i j => if j < i ∧ i < N then tr X j i else tr X i j) else tr X) i.1 j.1
      split_ifs with hn
      · beta_reduce
        rw [if_neg (by omega)]; rfl
      · rfl
    · rw [← x1 i j, if_pos (by omega : j.1 ≤ i.1)]
      show _ = (if N > 1 then (fun i j => if j < i ∧ i < N then tr X j i else tr X i j) else tr X) i.1 j.1
      rw [if_pos (by omega), if_pos ⟨by omega, i.2⟩]; rfl
  · intro i j hij
    have : tr X i j = minv i j := x2 j i (by omega)
    split_ifs with hn
    · beta_reduce
      rw [if_neg (by omega), this]
    · exact this

end

omit [RCLike K] in
/-- **C101** (violated): `SymSVDiv::top(n)` with `n` greater than the size of the matrix makes `kmax` greater than the number of singular
values (the assertion is off by default), where `SVDiv::top` and `HermSVDiv::top` limit it. -/
theorem sym_top_violated (N : Nat) (F : Fac K) : (symTop (N+1) F).kmax > N := Nat.lt_succ_self N

/-- The exchange matrix `[[0,1],[1,0]]`, with a singular value decomposition of it. -/
def swapM : Nat → Nat → ℂ := fun i j => if i + j = 1 then 1 else 0
def swapF : Fac ℂ := ⟨false, fun i j => if i = j then 1 else 0, fun _ => 1, swapM, 2⟩

theorem swap_holds : Holds 2 2 swapM swapF := by
  unfold Holds
  simp only [swapF, Bool.false_eq_true, if_false]
  refine ⟨le_rfl, { uu := ?_, vv := ?_, prod := ?_, nonneg := ?_, desc := ?_ }⟩
  · ext i j; fin_cases i <;> fin_cases j <;> simp [matOf, Matrix.mul_apply, Fin.sum_univ_two]
  · ext i j; fin_cases i <;> fin_cases j <;> simp [matOf, Matrix.mul_apply, Fin.sum_univ_two, swapM]
  · ext i j; fin_cases i <;> fin_cases j <;> simp [matOf, Matrix.mul_apply, Fin.sum_univ_two, swapM, Matrix.diagonal]
  · intro i _; exact zero_le_one
  · intro i j _ _; exact le_rfl

/-- **C101** (violated): after `top(1)` the inverse of a symmetric matrix need not be the pseudo-inverse of the matrix that division uses:
`SymSVDiv` of `[[0,1],[1,0]]` may keep the matrix with the one element `(0,1)`; whatever `makeInverse` then makes, it is not its pseudo-inverse,
although all hypotheses of `symMakeInverse_spec_partial` but one hold. -/
theorem sym_top_inverse_violated (nb nb2 : Nat) (rm : Bool) (g : Nat → ℂ) (minv : Nat → Nat → ℂ) :
    Holds 2 2 swapM (symTop 1 swapF) ∧ (symTop 1 swapF).Regular 2 2 ∧
    ¬ ∃ X, symMakeInverse nb nb2 rm g 2 (symTop 1 swapF) minv = some X ∧ IsPinv (kept 2 2 (symTop 1 swapF)) (matOf 2 2 X) := by
  refine ⟨swap_holds, ⟨by simp [symTop], fun i hi => by simp [symTop, swapF]⟩, ?_⟩
  rintro ⟨X, e, hX⟩
  rw [kept_plain le_rfl rfl] at hX
  have hs : X 1 0 = X 0 1 := by
    unfold symMakeInverse at e
    obtain ⟨Y, -, rfl⟩ := Option.map_eq_some_iff.mp e
    simp [tr]
  have h1 := congrFun (congrFun hX.axa 0) 1
  have h2 := congrFun (congrFun hX.xa 0) 1
  have h3 := congrFun (congrFun hX.xax 0) 1
  simp [usv, symTop, swapF, swapM, matOf, Matrix.mul_apply, Fin.sum_univ_two, Matrix.diagonal, cut] at h1 h2 h3
  rw [hs] at h1
  rw [← h2, zero_mul] at h3
  rw [← h3] at h1
  exact zero_ne_one h1

/-- The hypotheses are met by a Hermitian matrix with a negative eigenvalue and one that is zero: `diag(-2,1,0)`. -/
def exH : HFac ℂ := ⟨fun i j => if i = j then 1 else 0, fun i => if i = 0 then -2 else if i = 1 then 1 else 0, 3⟩

theorem exH_holds : HHolds 3 (fun i j => if i = j then ((exH.S i : ℝ) : ℂ) else 0) exH := by
  have e : matOf 3 3 exH.U = 1 := by
    ext i j
    show (if i.1 = j.1 then (1 : ℂ) else 0) = (1 : Matrix (Fin 3) (Fin 3) ℂ) i j
    rw [Matrix.one_apply]
    simp only [Fin.ext_iff]
  refine ⟨by rw [e]; simp, ?_, ?_⟩
  · rw [e, conjTranspose_one, Matrix.mul_one, Matrix.one_mul]
    ext i j
    show (if i.1 = j.1 then _ else _) = _
    rw [Matrix.diagonal_apply]
    simp only [Fin.ext_iff]
    rfl
  · intro i j hij hj
    interval_cases j <;> interval_cases i <;> simp [exH]

example : (exH.thresh 3 (1/10)).kmax = 2 ∧ (exH.thresh 3 (1/10)).Regular 3 ∧ (exH.thresh 3 (1/10)).isSingular 3 := by
  have h := hthresh_spec exH_holds (1/10) (by norm_num)
  refine ⟨?_, h.2.1, h.2.2.2.mpr ⟨2, by norm_num, by simp [exH]⟩⟩
  have h1 := (h.2.2.1 1 (by norm_num)).mpr (by simp [exH]; norm_num)
  have h2 := (not_congr (h.2.2.1 2 (by norm_num))).mpr (by simp [exH])
  omega

/-- The hypotheses of C100 are met by a `1 × 2` matrix, of which the transpose is decomposed: `[0 2]`. -/
example : Holds 1 2 (fun _ j => if j = 1 then (2 : ℂ) else 0) ⟨true, fun i _ => if i = 1 then 1 else 0, fun _ => 2, fun _ _ => 1, 1⟩ ∧
    (⟨true, fun i _ => if i = 1 then 1 else 0, fun _ => 2, fun _ _ => 1, 1⟩ : Fac ℂ).Regular 1 2 := by
  refine ⟨?_, by simp, by simp⟩
  unfold Holds
  simp only [if_true]
  refine ⟨by norm_num, { uu := ?_, vv := ?_, prod := ?_, nonneg := ?_, desc := ?_ }⟩
  · ext i j; fin_cases i; fin_cases j; simp [matOf, Matrix.mul_apply, Fin.sum_univ_two]
  · ext i j; fin_cases i; fin_cases j; simp [matOf, Matrix.mul_apply]
  · ext i j; fin_cases i <;> fin_cases j <;> simp [matOf, Matrix.mul_apply, tr, Matrix.diagonal]
  · intro i _; norm_num
  · intro i j _ _; exact le_rfl

end
end TMV.SVD
