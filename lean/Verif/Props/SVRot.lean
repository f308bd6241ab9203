import Verif.Model.SVQR
import Verif.Lemmas.Fro
import Verif.Props.Givens

/-! Rotations of two rows or columns, and what the steps of the bidiagonal SVD keep. -/
namespace TMV.SVQR
open Matrix
variable {K : Type} [RCLike K]

/-- The real `N × N` matrix with elements `f i j`. -/
def mr (N : Nat) (f : Nat → Nat → ℝ) : Matrix (Fin N) (Fin N) K := Matrix.of fun i j => ((f i j : ℝ) : K)

/-- Elements of a bidiagonal matrix. -/
def bR (D E : Nat → ℝ) (a b : Nat) : ℝ := if a = b then D a else if a + 1 = b then E a else 0

theorem bidiag_eq (N : Nat) (D E : Nat → ℝ) : (bidiag N D E : Matrix (Fin N) (Fin N) K) = mr N (bR D E) := by
  ext i j
  simp only [bidiag, mr, bR, of_apply]
  split_ifs <;> simp

theorem mr_congr {N : Nat} {f g : Nat → Nat → ℝ} (h : ∀ a b, a < N → b < N → f a b = g a b) : (mr N f : Matrix (Fin N) (Fin N) K) = mr N g := by
  ext i j; simp only [mr, of_apply, h i j i.2 j.2]

/-- The rotation of the rows `i`, `k`. -/
def Rm {N : Nat} (i k : Fin N) (c s : ℝ) : Matrix (Fin N) (Fin N) K := Matrix.of fun a b =>
  if a = i then (if b = i then ((c : ℝ) : K) else if b = k then ((s : ℝ) : K) else 0)
  else if a = k then (if b = k then ((c : ℝ) : K) else if b = i then -((s : ℝ) : K) else 0)
  else if a = b then 1 else 0

theorem Rm_one {N : Nat} (i k : Fin N) : (Rm i k 1 0 : Matrix (Fin N) (Fin N) K) = 1 := by
  ext a b
  simp only [Rm, of_apply, one_apply, RCLike.ofReal_one, RCLike.ofReal_zero, neg_zero]
  by_cases h1 : a = i <;> by_cases h2 : a = k <;> by_cases h3 : b = i <;> by_cases h4 : b = k <;> simp_all [eq_comm]

theorem sum_two {N : Nat} {i k : Fin N} (h : i ≠ k) (x y : K) (X : Fin N → K) :
    ∑ b, (if b = i then x else if b = k then y else 0) * X b = x * X i + y * X k := by
  have e : ∀ b, (if b = i then x else if b = k then y else 0) * X b = (if b = i then x * X b else 0) + (if b = k then y * X b else 0) := by
    intro b
    by_cases h1 : b = i
    · subst h1; simp [h]
    · by_cases h2 : b = k
      · subst h2; simp [h1]
      · simp [h1, h2]
  rw [Finset.sum_congr rfl (fun b _ => e b), Finset.sum_add_distrib]
  simp

theorem Rm_mul {N : Nat} {ι : Type} {i k : Fin N} (h : i ≠ k) (c s : ℝ) (X : Matrix (Fin N) ι K) (a : Fin N) (j : ι) :
    ((Rm i k c s : Matrix (Fin N) (Fin N) K) * X) a j = if a = i then (c : K) * X i j + (s : K) * X k j else if a = k then (c : K) * X k j - (s : K) * X i j else X a j := by
  rw [mul_apply]
  simp only [Rm, of_apply]
  by_cases h1 : a = i
  · simp only [if_pos h1]
    exact sum_two h _ _ fun b => X b j
  · simp only [if_neg h1]
    by_cases h2 : a = k
    · simp only [if_pos h2]
      rw [sum_two (Ne.symm h)]; ring
    · simp [if_neg h2]

theorem Rm_transpose {N : Nat} {i k : Fin N} (h : i ≠ k) (c s : ℝ) : (Rm i k c s : Matrix (Fin N) (Fin N) K)ᵀ = Rm i k c (-s) := by
  ext a b
  simp only [Rm, transpose_apply, of_apply, RCLike.ofReal_neg]
  by_cases h1 : a = i <;> by_cases h2 : a = k <;> by_cases h3 : b = i <;> by_cases h4 : b = k <;> simp_all [eq_comm]

theorem Rm_adj {N : Nat} (i k : Fin N) (c s : ℝ) : (Rm i k c s : Matrix (Fin N) (Fin N) K)ᴴ = (Rm i k c s)ᵀ := by
  ext a b
  simp only [conjTranspose_apply, transpose_apply, Rm, of_apply]
  split_ifs <;> simp

theorem Rm_inv {N : Nat} {i k : Fin N} (h : i ≠ k) {c s : ℝ} (hc : c ^ 2 + s ^ 2 = 1) : (Rm i k c s : Matrix (Fin N) (Fin N) K)ᵀ * Rm i k c s = 1 := by
  have h3 : ((c : ℝ) : K) ^ 2 + ((s : ℝ) : K) ^ 2 = 1 := by rw [← RCLike.ofReal_pow, ← RCLike.ofReal_pow, ← RCLike.ofReal_add, hc]; simp
  rw [Rm_transpose h]
  have e : (Rm i k c (-s) : Matrix (Fin N) (Fin N) K) * (Rm i k c s * 1) = 1 := by
    ext a b
    rw [Rm_mul h]
    simp only [Rm_mul h, if_true, if_neg (Ne.symm h), RCLike.ofReal_neg]
    by_cases h1 : a = i
    · subst h1; rw [if_pos rfl]
      linear_combination (1 : Matrix (Fin N) (Fin N) K) a b * h3
    · rw [if_neg h1]
      by_cases h2 : a = k
      · subst h2; rw [if_pos rfl]
        linear_combination (1 : Matrix (Fin N) (Fin N) K) a b * h3
      · rw [if_neg h2, if_neg h1, if_neg h2]
  rwa [mul_one] at e

theorem Rm_inv' {N : Nat} {i k : Fin N} (h : i ≠ k) {c s : ℝ} (hc : c ^ 2 + s ^ 2 = 1) : (Rm i k c s : Matrix (Fin N) (Fin N) K) * (Rm i k c s)ᵀ = 1 :=
  mul_eq_one_comm.mp (Rm_inv h hc)

theorem mul_RmT {N : Nat} {ι : Type} {i k : Fin N} (h : i ≠ k) (c s : ℝ) (X : Matrix ι (Fin N) K) (a : ι) (j : Fin N) :
    (X * (Rm i k c s : Matrix (Fin N) (Fin N) K)ᵀ) a j = if j = i then (c : K) * X a i + (s : K) * X a k else if j = k then (c : K) * X a k - (s : K) * X a i else X a j := by
  have e : X * (Rm i k c s)ᵀ = (Rm i k c s * Xᵀ)ᵀ := by rw [transpose_mul, transpose_transpose]
  rw [e, transpose_apply, Rm_mul h]; rfl

theorem rowRot {N i k : Nat} (hi : i < N) (hk : k < N) (hik : i ≠ k) {c s : ℝ} {f g : Nat → Nat → ℝ}
    (h1 : ∀ b, b < N → g i b = c * f i b + s * f k b) (h2 : ∀ b, b < N → g k b = c * f k b - s * f i b)
    (h3 : ∀ a b, a < N → b < N → a ≠ i → a ≠ k → g a b = f a b) :
    (Rm ⟨i, hi⟩ ⟨k, hk⟩ c s : Matrix (Fin N) (Fin N) K) * mr N f = mr N g := by
  ext a b
  rw [Rm_mul (by simpa [Fin.ext_iff] using hik)]
  simp only [mr, of_apply, Fin.ext_iff]
  split_ifs with ha hb
  · rw [ha, h1 b b.2]; simp
  · rw [hb, h2 b b.2]; simp
  · rw [h3 a b a.2 b.2 ha hb]

theorem colRot {N i k : Nat} (hi : i < N) (hk : k < N) (hik : i ≠ k) {c s : ℝ} {f g : Nat → Nat → ℝ}
    (h1 : ∀ a, a < N → g a i = c * f a i + s * f a k) (h2 : ∀ a, a < N → g a k = c * f a k - s * f a i)
    (h3 : ∀ a b, a < N → b < N → b ≠ i → b ≠ k → g a b = f a b) :
    mr N f * (Rm ⟨i, hi⟩ ⟨k, hk⟩ c s : Matrix (Fin N) (Fin N) K)ᵀ = mr N g := by
  ext a b
  rw [mul_RmT (by simpa [Fin.ext_iff] using hik)]
  simp only [mr, of_apply, Fin.ext_iff]
  split_ifs with ha hb
  · rw [ha, h1 a a.2]; simp
  · rw [hb, h2 a a.2]; simp
  · rw [h3 a b a.2 b.2 ha hb]

/-! ### What is kept -/

/-- `g` is a rotation. -/
structure Orth (g : Givens ℝ) : Prop where
  one : g.c ^ 2 + g.s ^ 2 = 1
  zero : g.s = 0 → g.c = 1

theorem rotate_spec {c : Cfg} (hge : c.ge = 0) (x y : ℝ) : (rotate c x y).2.1 = 0 ∧ Orth (rotate c x y).2.2 ∧
    (rotate c x y).2.2.c * x + (rotate c x y).2.2.s * y = (rotate c x y).1 ∧ (rotate c x y).2.2.c * y - (rotate c x y).2.2.s * x = 0 := by
  obtain ⟨n, h0, h1, h2, h3, h4, h5, h6, -⟩ := givensRotate_spec c.ge hge.ge signR signR_ok x y
  rw [hge, mul_zero] at h1
  have hn : n = 0 := le_antisymm h1 h0
  subst hn
  simp only [add_zero] at h4 h5
  have e : (rotate c x y).2.2.c ^ 2 + (rotate c x y).2.2.s ^ 2 = 1 := by
    have := h4
    rw [RCLike.normSq_to_real] at this
    simp only [rotate]
    nlinarith [this]
  refine ⟨h2, ⟨e, fun hs => ?_⟩, ?_, ?_⟩
  · rw [hs] at e
    have : (rotate c x y).2.2.c ^ 2 = 1 := by linarith [e]
    have h3' : 0 ≤ (rotate c x y).2.2.c := h3
    nlinarith [sq_nonneg ((rotate c x y).2.2.c - 1)]
  · simpa [rotate] using h5
  · simpa [rotate] using h6

/-- `A`, up to an error not larger than `τ` for every nonzero element that was dropped, is `U B Vt`, `U` having orthonormal columns and `Vt`
orthonormal rows; the code's `U` and `Vt` are these, where it has them; the norm of `B` has not grown over `β`. -/
def Inv (c : Cfg) (M N : Nat) (A : Matrix (Fin M) (Fin N) K) (τ β : ℝ) (s : St K) (B : Matrix (Fin N) (Fin N) K) : Prop :=
  fro B ≤ β ∧ ∃ (U : Matrix (Fin M) (Fin N) K) (V : Matrix (Fin N) (Fin N) K) (F : Matrix (Fin M) (Fin N) K),
    Uᴴ * U = 1 ∧ V * Vᴴ = 1 ∧ fro F ≤ s.cnt * τ ∧ A + F = U * B * V ∧ (c.hU = true → matOf M N s.U = U) ∧ (c.hV = true → matOf N N s.V = V)

variable {c : Cfg} {M N : Nat} {A : Matrix (Fin M) (Fin N) K} {τ β : ℝ}

theorem Inv.congr {s s' : St K} {B : Matrix (Fin N) (Fin N) K} (h : Inv c M N A τ β s B) (h1 : s'.U = s.U) (h2 : s'.V = s.V) (h3 : s'.cnt = s.cnt) :
    Inv c M N A τ β s' B := by
  rw [Inv, h1, h2, h3]; exact h

theorem Inv.rotU {s : St K} {B B' : Matrix (Fin N) (Fin N) K} (h : Inv c M N A τ β s B) (hm : c.hU = true → c.m = M) {g : Givens ℝ} (hg : Orth g)
    {i k : Nat} (hi : i < N) (hk : k < N) (hik : i ≠ k) (hB : Rm ⟨i, hi⟩ ⟨k, hk⟩ g.c g.s * B = B') : Inv c M N A τ β (rotU c g i k s) B' := by
  obtain ⟨hb, U, V, F, h1, h2, h3, h4, h5, h6⟩ := h
  have hne : (⟨i, hi⟩ : Fin N) ≠ ⟨k, hk⟩ := by simpa [Fin.ext_iff] using hik
  have e1 : (SVQR.rotU c g i k s).V = s.V := by rw [SVQR.rotU]; split_ifs <;> rfl
  have e2 : (SVQR.rotU c g i k s).cnt = s.cnt := by rw [SVQR.rotU]; split_ifs <;> rfl
  set R : Matrix (Fin N) (Fin N) K := Rm ⟨i, hi⟩ ⟨k, hk⟩ g.c g.s with hR
  have r1 : Rᵀ * R = 1 := Rm_inv hne hg.one
  have r2 : R * Rᵀ = 1 := Rm_inv' hne hg.one
  have r3 : Rᴴ = Rᵀ := Rm_adj _ _ _ _
  refine ⟨?_, U * Rᵀ, V, F, ?_, h2, e2 ▸ h3, ?_, fun hu => ?_, fun hv => e1 ▸ h6 hv⟩
  · rw [← hB, fro_iso (by rw [r3, r1])]; exact hb
  · rw [conjTranspose_mul, ← r3, conjTranspose_conjTranspose, Matrix.mul_assoc, ← Matrix.mul_assoc Uᴴ, h1, one_mul, r3, r2]
  · rw [← hB, h4, Matrix.mul_assoc U Rᵀ, ← Matrix.mul_assoc Rᵀ, r1, one_mul]
  · rw [SVQR.rotU]
    by_cases hs : g.s = 0
    · rw [if_neg (by simp [hs]), h5 hu]
      have : R = 1 := by rw [hR, hs, hg.zero hs, Rm_one]
      rw [this]; simp
    · rw [if_pos ⟨hu, hs⟩]
      ext a b
      rw [mul_RmT hne, ← h5 hu]
      simp only [matOf, of_apply, hm hu, a.2, if_true, Fin.ext_iff]

theorem Inv.rotV {s : St K} {B B' : Matrix (Fin N) (Fin N) K} (h : Inv c M N A τ β s B) (hm : c.hV = true → c.n = N) {g : Givens ℝ} (hg : Orth g)
    {i k : Nat} (hi : i < N) (hk : k < N) (hik : i ≠ k) (hB : B * (Rm ⟨i, hi⟩ ⟨k, hk⟩ g.c g.s)ᵀ = B') : Inv c M N A τ β (rotV c g i k s) B' := by
  obtain ⟨hb, U, V, F, h1, h2, h3, h4, h5, h6⟩ := h
  have hne : (⟨i, hi⟩ : Fin N) ≠ ⟨k, hk⟩ := by simpa [Fin.ext_iff] using hik
  have e1 : (SVQR.rotV c g i k s).U = s.U := by rw [SVQR.rotV]; split_ifs <;> rfl
  have e2 : (SVQR.rotV c g i k s).cnt = s.cnt := by rw [SVQR.rotV]; split_ifs <;> rfl
  set R : Matrix (Fin N) (Fin N) K := Rm ⟨i, hi⟩ ⟨k, hk⟩ g.c g.s with hR
  have r1 : Rᵀ * R = 1 := Rm_inv hne hg.one
  have r2 : R * Rᵀ = 1 := Rm_inv' hne hg.one
  have r3 : Rᴴ = Rᵀ := Rm_adj _ _ _ _
  refine ⟨?_, U, R * V, F, h1, ?_, e2 ▸ h3, ?_, fun hu => e1 ▸ h5 hu, fun hv => ?_⟩
  · rw [← hB, ← r3, fro_iso' (by rw [conjTranspose_conjTranspose, r3, r1])]; exact hb
  · rw [conjTranspose_mul, mul_assoc, ← mul_assoc V, h2, one_mul, r3, r2]
  · rw [← hB, h4, ← Matrix.mul_assoc, Matrix.mul_assoc U (B * Rᵀ), Matrix.mul_assoc B, r1, mul_one]
  · rw [SVQR.rotV]
    by_cases hs : g.s = 0
    · rw [if_neg (by simp [hs]), h6 hv]
      have : R = 1 := by rw [hR, hs, hg.zero hs, Rm_one]
      rw [this]; simp
    · rw [if_pos ⟨hv, hs⟩]
      ext a b
      rw [Rm_mul hne, ← h6 hv]
      simp only [matOf, of_apply, hm hv, b.2, if_true, Fin.ext_iff]

end TMV.SVQR
