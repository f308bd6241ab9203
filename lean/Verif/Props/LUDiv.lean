import Verif.Model.LUDiv
import Verif.Props.LU
import Verif.Props.TriProd
import Mathlib.LinearAlgebra.Matrix.Determinant.Basic
import Mathlib.LinearAlgebra.Matrix.Block
import Mathlib.LinearAlgebra.Matrix.NonsingularInverse

set_option linter.unusedSectionVars false

/-! C29: LU-based solve, inverse, determinant. -/
namespace TMV.LU
open TMV.Tri TMV.TriProd
variable {K : Type _} [Field K] [DecidableEq K] {S : Type _} [Field S] [LinearOrder S] [IsStrictOrderedRing S]

/-- The `N`×`N` matrix (Mathlib) with the given elements. -/
def toM (N : Nat) (A : Nat → Nat → K) : Matrix (Fin N) (Fin N) K := Matrix.of fun i j => A i j

theorem swapProd_ge_fix (p : Nat → Nat) (n i N : Nat) (hin : i + n ≤ N)
    (hp : ∀ k, i ≤ k → k < i + n → p k < N) (a : Nat) (ha : N ≤ a) : swapProd p n i a = a := by
  induction n generalizing i with
  | zero => rfl
  | succ n ih =>
    have h0 := hp i (by omega) (by omega)
    simp only [swapProd, Equiv.Perm.mul_apply]
    rw [ih (i+1) (by omega) (fun k _ _ => hp k (by omega) (by omega)),
      Equiv.swap_apply_of_ne_of_ne (by omega) (by omega)]

theorem permuteRows_out (nc : Nat) (p : Nat → Nat) (n i : Nat) (A : Nat → Nat → K) (a b : Nat) (hb : ¬ b < nc) :
    permuteRows nc p n i A a b = A a b := by
  induction n generalizing i A with
  | zero => rfl
  | succ n ih => simp only [permuteRows]; rw [ih, swapRows_out _ _ _ _ _ _ hb]

theorem reversePermuteRows_out (nc : Nat) (p : Nat → Nat) (n i : Nat) (A : Nat → Nat → K) (a b : Nat) (hb : ¬ b < nc) :
    reversePermuteRows nc p n i A a b = A a b := by
  induction n generalizing i with
  | zero => rfl
  | succ n ih => simp only [reversePermuteRows]; rw [swapRows_out _ _ _ _ _ _ hb, ih]

section perm
variable {ab : K → S} {N : Nat} {A A' : Nat → Nat → K} {P : Nat → Nat} (h : IsLU ab N N A A' P)
include h

theorem IsLU.lt {k : Nat} (hk : k < N) : swapProd P N 0 k < N :=
  swapProd_lt P N 0 N (by omega) (fun k _ hk => (h.range k (by omega)).2) k hk
theorem IsLU.inv_lt {k : Nat} (hk : k < N) : (swapProd P N 0)⁻¹ k < N :=
  swapProd_inv_lt P N 0 N (by omega) (fun k _ hk => (h.range k (by omega)).2) k hk
theorem IsLU.fix {k : Nat} (hk : N ≤ k) : swapProd P N 0 k = k :=
  swapProd_ge_fix P N 0 N (by omega) (fun k _ hk => (h.range k (by omega)).2) k hk
theorem IsLU.inv_fix {k : Nat} (hk : N ≤ k) : (swapProd P N 0)⁻¹ k = k := by
  rw [Equiv.Perm.inv_eq_iff_eq, h.fix hk]
theorem IsLU.mul {i j : Nat} (hi : i < N) (hj : j < N) : A (swapProd P N 0 i) j =
    ∑ k ∈ Finset.range N, lowerMat true A' i k * upperMat false A' k j := by
  have := h.prod i j hi hj
  rwa [min_self] at this
theorem IsLU.sum_perm (f : Nat → K) : ∑ k ∈ Finset.range N, f (swapProd P N 0 k) = ∑ k ∈ Finset.range N, f k := by
  refine Finset.sum_equiv (swapProd P N 0) (fun k => ?_) (fun _ _ => rfl)
  simp only [Finset.mem_range]
  refine ⟨h.lt, fun hk => ?_⟩
  by_contra hc
  rw [h.fix (by omega)] at hk; omega

/-- The permutation as a permutation of the `N` rows. -/
def IsLU.perm : Equiv.Perm (Fin N) where
  toFun k := ⟨swapProd P N 0 k, h.lt k.2⟩
  invFun k := ⟨(swapProd P N 0)⁻¹ k, h.inv_lt k.2⟩
  left_inv k := by ext; simp
  right_inv k := by ext; simp

theorem IsLU.toM_mul : (toM N A).submatrix h.perm id = toM N (lowerMat true A') * toM N (upperMat false A') := by
  ext i j
  rw [Matrix.mul_apply]
  have := h.mul i.2 j.2
  rw [Finset.sum_range] at this
  exact this

theorem IsLU.det : ((Equiv.Perm.sign h.perm : ℤ) : K) * (toM N A).det = ∏ i : Fin N, A' i i := by
  rw [← Matrix.det_permute, h.toM_mul, Matrix.det_mul]
  have hL : (toM N (lowerMat true A')).det = 1 := by
    rw [Matrix.det_of_lowerTriangular]
    · simp [toM, lowerMat]
    · intro i j hij
      have : (i : Nat) < j := by simpa using hij
      simp only [toM, Matrix.of_apply, lowerMat]; rw [if_neg (by omega), if_neg (by omega)]
  have hU : (toM N (upperMat false A')).det = ∏ i : Fin N, A' i i := by
    rw [Matrix.det_of_upperTriangular]
    · simp [toM, upperMat]
    · intro i j hij
      have : (j : Nat) < i := by simpa using hij
      simp only [toM, Matrix.of_apply, upperMat]; rw [if_neg (by omega), if_neg (by omega)]
  rw [hL, hU, one_mul]

/-- The diagonal of `U` has no zero exactly when `det A ≠ 0`. -/
theorem IsLU.diag_ne : (toM N A).det ≠ 0 ↔ ∀ i, i < N → A' i i ≠ 0 := by
  have hd := h.det
  have hs : ((Equiv.Perm.sign h.perm : ℤ) : K) ≠ 0 := by
    rcases Int.units_eq_one_or (Equiv.Perm.sign h.perm) with e | e <;> simp [e]
  constructor
  · intro hA i hi h0
    have : ∏ i : Fin N, A' i i = 0 := Finset.prod_eq_zero (Finset.mem_univ (⟨i, hi⟩ : Fin N)) h0
    rw [this] at hd
    exact (mul_ne_zero hs hA) hd
  · intro hA h0
    rw [h0, mul_zero] at hd
    exact (Finset.prod_ne_zero_iff.mpr (fun (i : Fin N) _ => hA i i.2)) hd.symm

/-- `m /= A` through `LU_LDivEq`: a returned result solves `A X = B`. -/
theorem lDivEq_sound {bs : Blk} (hbs : bs.OK) (o : Ord) (brm : Bool) (nc : Nat) {B X : Nat → Nat → K}
    (e : lDivEq bs o brm N nc A' P B = some X) : SolM N nc A X B := by
  obtain ⟨b1, b2, b3, b4⟩ := hbs
  unfold lDivEq at e
  simp only [Option.bind_eq_bind, Option.bind_eq_some_iff] at e
  obtain ⟨Y, eY, eX⟩ := e
  obtain ⟨l1, l2⟩ := lowerM_sound _ _ b3 b4 _ _ _ _ _ _ _ _ eY
  obtain ⟨u1, u2⟩ := upperM_sound _ _ b3 b4 _ _ _ _ _ _ _ _ eX
  constructor
  · intro i' c hi' hc
    obtain ⟨i, hi, rfl⟩ : ∃ i, i < N ∧ i' = swapProd P N 0 i := ⟨_, h.inv_lt hi', by simp⟩
    rw [← permuteRows_eq nc P N 0 B i c hc, ← l1 i c hi hc]
    rw [Finset.sum_congr rfl (fun k hk => by rw [h.mul hi (Finset.mem_range.mp hk), Finset.sum_mul]), Finset.sum_comm]
    refine Finset.sum_congr rfl fun l hl => ?_
    rw [← u1 l c (Finset.mem_range.mp hl) hc, Finset.mul_sum]
    exact Finset.sum_congr rfl fun k _ => by ring
  · intro i c hic
    rw [u2 i c hic, l2 i c hic]
    by_cases hc : c < nc
    · rw [permuteRows_eq _ _ _ _ _ _ _ hc, h.fix (by omega)]
    · rw [permuteRows_out _ _ _ _ _ _ _ hc]

theorem lDivEq_isSome {bs : Blk} (hbs : bs.OK) (o : Ord) (brm : Bool) (nc : Nat) (B : Nat → Nat → K)
    (hA : (toM N A).det ≠ 0) : (lDivEq bs o brm N nc A' P B).isSome := by
  obtain ⟨b1, b2, b3, b4⟩ := hbs
  have hd := h.diag_ne.mp hA
  unfold lDivEq
  obtain ⟨Y, eY⟩ := Option.isSome_iff_exists.mp (lowerM_isSome bs.tri bs.tri2 b3 b4 o brm true N nc A'
    (permuteRows nc P N 0 B) (fun i _ => by simp [dg]))
  simp only [eY, Option.bind_eq_bind, Option.bind_some]
  exact upperM_isSome bs.tri bs.tri2 b3 b4 o brm false N nc A' Y (fun i hi => by simpa [dg] using hd i hi)

/-- `m %= A`, on transposes: a returned result solves `Aᵀ Xᵀ = Bᵀ`. -/
theorem rDivEq_sound {bs : Blk} (hbs : bs.OK) (o : Ord) (brm : Bool) (nc : Nat) {B X : Nat → Nat → K}
    (e : rDivEq bs o brm N nc A' P B = some X) : SolM N nc (TriProd.tr A) X B := by
  obtain ⟨b1, b2, b3, b4⟩ := hbs
  unfold rDivEq at e
  simp only [Option.bind_eq_bind, Option.bind_eq_some_iff, Option.some.injEq] at e
  obtain ⟨Y, eY, Z, eZ, rfl⟩ := e
  obtain ⟨l1, l2⟩ := lowerM_sound _ _ b3 b4 _ _ _ _ _ _ _ _ eY
  obtain ⟨u1, u2⟩ := upperM_sound _ _ b3 b4 _ _ _ _ _ _ _ _ eZ
  constructor
  · intro j c hj hc
    rw [← l1 j c hj hc, ← h.sum_perm]
    rw [Finset.sum_congr rfl (fun i hi => by
      rw [reversePermuteRows_eq _ _ _ _ _ _ _ hc, ← Equiv.Perm.mul_apply, inv_mul_cancel, Equiv.Perm.one_apply, TriProd.tr,
        h.mul (Finset.mem_range.mp hi) hj, Finset.sum_mul]), Finset.sum_comm]
    refine Finset.sum_congr rfl fun l hl => ?_
    rw [← u1 l c (Finset.mem_range.mp hl) hc, Finset.mul_sum]
    refine Finset.sum_congr rfl fun i _ => ?_
    have e1 : lowerMat false (fun i j => A' j i) j l = upperMat false A' l j := tr_lower false A' j l
    have e2 : upperMat true (fun i j => A' j i) l i = lowerMat true A' i l := tr_upper true A' l i
    rw [e1, e2]; ring
  · intro i c hic
    by_cases hc : c < nc
    · rw [reversePermuteRows_eq _ _ _ _ _ _ _ hc, h.inv_fix (by omega), u2 i c hic, l2 i c hic]
    · rw [reversePermuteRows_out _ _ _ _ _ _ _ hc, u2 i c hic, l2 i c hic]

theorem rDivEq_isSome {bs : Blk} (hbs : bs.OK) (o : Ord) (brm : Bool) (nc : Nat) (B : Nat → Nat → K)
    (hA : (toM N A).det ≠ 0) : (rDivEq bs o brm N nc A' P B).isSome := by
  obtain ⟨b1, b2, b3, b4⟩ := hbs
  have hd := h.diag_ne.mp hA
  unfold rDivEq
  obtain ⟨Y, eY⟩ := Option.isSome_iff_exists.mp (lowerM_isSome bs.tri bs.tri2 b3 b4 (Ord.tr o) brm false N nc
    (fun i j => A' j i) B (fun i hi => by simpa [dg] using hd i hi))
  obtain ⟨Z, eZ⟩ := Option.isSome_iff_exists.mp (upperM_isSome bs.tri bs.tri2 b3 b4 (Ord.tr o) brm true N nc
    (fun i j => A' j i) Y (fun i hi => by simp [dg]))
  simp [eY, eZ]

/-- `LU_Inverse`: throws exactly for a singular matrix; otherwise `minv` is the inverse, and nothing outside the
`N`×`N` matrix changed. -/
theorem luInverse_spec (nb mb mb2 : Nat) (hnb : 0 < nb) (hmb : 0 < mb) (hmb2 : 0 < mb2) (o : Ord) (crm st : Bool)
    (minv : Nat → Nat → K) :
    (luInverse nb mb mb2 o crm st N A' P minv = none ↔ (toM N A).det = 0) ∧
    ∀ V, luInverse nb mb mb2 o crm st N A' P minv = some V →
      IsInv N A V ∧ ∀ i j, ¬ (i < N ∧ j < N) → V i j = minv i j := by
  by_cases hN : N > 0
  · unfold luInverse
    rw [if_pos hN]
    simp only [Option.bind_eq_bind]
    generalize hm0 : paste minv 0 0 N N A' = m0
    have p0 : ∀ i j, i < N → j < N → m0 i j = A' i j := by
      intro i j hi hj; rw [← hm0, paste, if_pos (by omega)]; rfl
    have p1 : ∀ i j, ¬ (i < N ∧ j < N) → m0 i j = minv i j := by
      intro i j hij; rw [← hm0, paste, if_neg (by omega)]
    obtain ⟨t1, t2⟩ := triInverse_spec nb mb mb2 hnb hmb hmb2 o crm st false N m0
    have hsing : (∃ i < N, m0 i i = 0) ↔ (toM N A).det = 0 := by
      rw [← not_iff_not, ← ne_eq, h.diag_ne]
      push Not
      exact forall₂_congr fun i hi => by rw [p0 i i hi hi]
    cases e1 : triInverse nb mb mb2 o crm st false N m0 with
    | none => exact ⟨⟨fun _ => hsing.mp (t1.mp e1).2, fun _ => rfl⟩, by simp⟩
    | some m1 =>
      obtain ⟨iu, fu⟩ := t2 m1 e1
      obtain ⟨s1, s2⟩ := triInverse_spec nb mb mb2 hnb hmb hmb2 o crm st true N (tr m1)
      have hns : ¬ (toM N A).det = 0 := fun hc => by
        have := t1.mpr ⟨rfl, hsing.mpr hc⟩
        rw [e1] at this; cases this
      cases e2 : triInverse nb mb mb2 o crm st true N (tr m1) with
      | none => exact absurd (s1.mp e2).1 (by simp)
      | some m2t =>
        obtain ⟨il, fl⟩ := s2 m2t e2
        simp only [Option.bind_some, e2, Option.map_some]
        refine ⟨⟨fun hc => by simp at hc, fun hc => absurd hc hns⟩, ?_⟩
        rintro V hV
        obtain rfl := Option.some.inj hV
        generalize hm2 : tr m2t = m2
        have pr := multUL_spec mb mb2 hmb hmb2 o crm st false true N 1 m2
        generalize multUL mb mb2 o crm st false true N 1 m2 = m3 at *
        -- the upper triangle of m2 is the inverse of U, its lower triangle the inverse of L
        have hU : ∀ i j, upperMat false m2 i j = upperMat false m1 i j := by
          intro i j
          unfold upperMat
          have : ∀ a b, a ≤ b → m2 a b = m1 a b := by
            intro a b hab
            rw [← hm2]
            exact fl b a (fun ⟨_, c⟩ => by simp at c; omega)
          by_cases hij : i < j
          · rw [if_pos hij, if_pos hij, this _ _ (by omega)]
          · rw [if_neg hij, if_neg hij]
            by_cases he : i = j
            · rw [if_pos he, if_pos he, this _ _ (le_refl i)]
            · rw [if_neg he, if_neg he]
        have lowL : ∀ i j, lowerMat true m1 i j = lowerMat true m0 i j := by
          intro i j
          unfold lowerMat
          by_cases hij : j < i
          · rw [if_pos hij, if_pos hij, fu i j (fun ⟨_, c⟩ => by simp at c; omega)]
          · rw [if_neg hij, if_neg hij]; rfl
        -- L⁻¹ from the right: il says Lᵀ * L'ᵀ = 1, so L' * L = 1
        have iL : ∀ i j, i < N → j < N →
            ∑ k ∈ Finset.range N, lowerMat true m2 i k * lowerMat true A' k j = if i = j then 1 else 0 := by
          intro i j hi hj
          have := il j i hj hi
          rw [show (if i = j then (1:K) else 0) = if j = i then 1 else 0 by simp [eq_comm], ← this]
          refine Finset.sum_congr rfl fun k hk => ?_
          have hk' : k < N := by simpa using hk
          rw [tr_upper, ← hm2, lowL]
          have : lowerMat true m0 k j = lowerMat true A' k j := by
            unfold lowerMat; rw [p0 k j hk' hj]; rfl
          rw [this, tr_lower, mul_comm]
        have iU : ∀ i j, i < N → j < N →
            ∑ k ∈ Finset.range N, upperMat false A' i k * upperMat false m2 k j = if i = j then 1 else 0 := by
          intro i j hi hj
          rw [← iu i j hi hj]
          refine Finset.sum_congr rfl fun k hk => ?_
          have hk' : k < N := by simpa using hk
          rw [hU]
          congr 1
          unfold upperMat; rw [p0 i k hi hk', p0 i i hi hi]
        -- as matrices
        have mL : toM N (lowerMat true m2) * toM N (lowerMat true A') = 1 := by
          ext i j
          rw [Matrix.mul_apply, Matrix.one_apply]
          have := iL i j i.2 j.2
          rw [Finset.sum_range] at this
          simp only [Fin.ext_iff]; exact this
        have mU : toM N (upperMat false A') * toM N (upperMat false m2) = 1 := by
          ext i j
          rw [Matrix.mul_apply, Matrix.one_apply]
          have := iU i j i.2 j.2
          rw [Finset.sum_range] at this
          simp only [Fin.ext_iff]; exact this
        have m3e : toM N m3 = toM N (upperMat false m2) * toM N (lowerMat true m2) := by
          ext i j
          rw [Matrix.mul_apply]
          have := pr i j
          rw [if_pos ⟨i.2, j.2⟩, one_mul, Finset.sum_range] at this
          exact this
        have key : (toM N A).submatrix h.perm id * toM N m3 = 1 := by
          rw [h.toM_mul, m3e, Matrix.mul_assoc, ← Matrix.mul_assoc (toM N (upperMat false A')), mU, Matrix.one_mul]
          exact mul_eq_one_comm.mp mL
        refine ⟨?_, ?_⟩
        · intro i' j' hi' hj'
          obtain ⟨i, hi, rfl⟩ : ∃ i, i < N ∧ i' = swapProd P N 0 i := ⟨_, h.inv_lt hi', by simp⟩
          obtain ⟨j, hj, rfl⟩ : ∃ j, j < N ∧ j' = swapProd P N 0 j := ⟨_, h.inv_lt hj', by simp⟩
          have := congrFun (congrFun key ⟨i, hi⟩) ⟨j, hj⟩
          rw [Matrix.mul_apply, Matrix.one_apply] at this
          simp only [Fin.ext_iff] at this
          simp only [EmbeddingLike.apply_eq_iff_eq]
          rw [← this, Finset.sum_range]
          refine Finset.sum_congr rfl fun k _ => ?_
          show A _ _ * reversePermuteRows N P N 0 (tr m3) _ _ = _
          rw [reversePermuteRows_eq _ _ _ _ _ _ _ k.2, ← Equiv.Perm.mul_apply, inv_mul_cancel, Equiv.Perm.one_apply]
          rfl
        · intro i j hij
          have e3 : m3 i j = minv i j := by
            rw [pr i j, if_neg hij]
            have a1 : m2 i j = m1 i j := by
              rw [← hm2]; exact fl j i (fun ⟨c, d⟩ => by simp at d; omega)
            rw [a1, fu i j (fun ⟨c, d⟩ => by simp at d; omega), p1 i j hij]
          show reversePermuteRows N P N 0 (tr m3) j i = _
          by_cases hiN : i < N
          · rw [reversePermuteRows_eq _ _ _ _ _ _ _ hiN, h.inv_fix (by omega)]; exact e3
          · rw [reversePermuteRows_out _ _ _ _ _ _ _ hiN]; exact e3
  · obtain rfl : N = 0 := by omega
    unfold luInverse
    refine ⟨⟨fun hc => by simp at hc, fun hc => ?_⟩, ?_⟩
    · rw [Matrix.det_fin_zero] at hc; exact absurd hc one_ne_zero
    · rintro V hV
      obtain rfl := Option.some.inj hV
      exact ⟨fun i j hi => by omega, fun _ _ _ => rfl⟩

end perm

/-! ### The divider object -/

/-- `A` was factored (as itself or as its transpose). -/
theorem make_spec (ab : AbsoluteValue K S) (uf : S → Bool) (huf : ∀ x, uf x = true ↔ x = 0) (bs : Blk) (hbs : bs.OK)
    (arm : Bool) (N : Nat) (A : Nat → Nat → K) :
    ∃ F, Fac.make ab uf bs arm N A = some F ∧ F.istrans = arm ∧
      IsLU ab N N (if arm then tr A else A) F.LUx F.P := by
  obtain ⟨s, e, hs⟩ := decompose_spec ab uf huf bs hbs .cm N N (if arm then tr A else A) (le_refl _)
  exact ⟨⟨arm, s.1, s.2⟩, by simp [Fac.make, e], rfl, hs⟩

theorem toM_tr (N : Nat) (A : Nat → Nat → K) : toM N (tr A) = (toM N A).transpose := rfl

theorem tr_tr (A : Nat → Nat → K) : tr (tr A) = A := rfl

/-- **C29** (solve): for every square matrix `A`, every storage and block size, `m /= A` either raises or stores
the exact solution of `A X = m` in `m` and nothing else; it does not raise if `det A ≠ 0`. -/
theorem lDiv_spec (ab : AbsoluteValue K S) (uf : S → Bool) (huf : ∀ x, uf x = true ↔ x = 0) (bs : Blk) (hbs : bs.OK)
    (arm brm : Bool) (N nc : Nat) (A B : Nat → Nat → K) :
    ∃ F, Fac.make ab uf bs arm N A = some F ∧
      (∀ X, F.lDiv bs brm N nc B = some X → SolM N nc A X B) ∧
      ((toM N A).det ≠ 0 → ∃ X, F.lDiv bs brm N nc B = some X) := by
  obtain ⟨F, e, et, hs⟩ := make_spec ab uf huf bs hbs arm N A
  refine ⟨F, e, ?_, ?_⟩
  · intro X hX
    unfold Fac.lDiv at hX
    rw [et] at hX
    cases arm
    · exact lDivEq_sound hs hbs _ _ _ hX
    · exact rDivEq_sound hs hbs _ _ _ hX
  · intro hd
    unfold Fac.lDiv
    rw [et]
    cases arm
    · exact Option.isSome_iff_exists.mp (lDivEq_isSome hs hbs _ _ _ _ hd)
    · exact Option.isSome_iff_exists.mp (rDivEq_isSome hs hbs _ _ _ _ (by
        rw [if_pos rfl, toM_tr, Matrix.det_transpose]; exact hd))

/-- **C29** (right division): `m %= A` either raises or stores the solution of `X A = m`. -/
theorem rDiv_spec (ab : AbsoluteValue K S) (uf : S → Bool) (huf : ∀ x, uf x = true ↔ x = 0) (bs : Blk) (hbs : bs.OK)
    (arm brm : Bool) (N nr : Nat) (A B : Nat → Nat → K) :
    ∃ F, Fac.make ab uf bs arm N A = some F ∧
      (∀ X, F.rDiv bs brm N nr B = some X →
        (∀ r j, r < nr → j < N → ∑ k ∈ Finset.range N, X r k * A k j = B r j) ∧
        ∀ r j, ¬ (r < nr ∧ j < N) → X r j = B r j) ∧
      ((toM N A).det ≠ 0 → ∃ X, F.rDiv bs brm N nr B = some X) := by
  obtain ⟨F, e, et, hs⟩ := make_spec ab uf huf bs hbs arm N A
  have conv : ∀ Y, SolM N nr (tr A) Y (tr B) → (∀ r j, r < nr → j < N → ∑ k ∈ Finset.range N, tr Y r k * A k j = B r j) ∧
        ∀ r j, ¬ (r < nr ∧ j < N) → tr Y r j = B r j := by
    rintro Y ⟨h1, h2⟩
    refine ⟨fun r j hr hj => ?_, fun r j hrj => h2 j r (by omega)⟩
    have := h1 j r hj hr
    show _ = tr B j r
    rw [← this]
    exact Finset.sum_congr rfl fun k _ => by rw [mul_comm]; rfl
  refine ⟨F, e, ?_, ?_⟩
  · intro X hX
    unfold Fac.rDiv at hX
    rw [et] at hX
    cases arm
    · rw [if_neg (by simp), Option.map_eq_some_iff] at hX
      obtain ⟨Y, hY, rfl⟩ := hX
      exact conv Y (rDivEq_sound hs hbs _ _ _ hY)
    · rw [if_pos rfl, Option.map_eq_some_iff] at hX
      obtain ⟨Y, hY, rfl⟩ := hX
      exact conv Y (lDivEq_sound hs hbs _ _ _ hY)
  · intro hd
    unfold Fac.rDiv
    rw [et]
    cases arm
    · obtain ⟨Y, hY⟩ := Option.isSome_iff_exists.mp (rDivEq_isSome hs hbs .cm brm nr (tr B) hd)
      exact ⟨tr Y, by simp [hY]⟩
    · obtain ⟨Y, hY⟩ := Option.isSome_iff_exists.mp (lDivEq_isSome hs hbs .cm brm nr (tr B) (by
        rw [if_pos rfl, toM_tr, Matrix.det_transpose]; exact hd))
      exact ⟨tr Y, by simp [hY]⟩

/-- **C29** (inverse): `m.makeInverse(minv)` raises exactly when `det m = 0`; otherwise `minv` is the inverse. -/
theorem inverse_spec (ab : AbsoluteValue K S) (uf : S → Bool) (huf : ∀ x, uf x = true ↔ x = 0) (bs : Blk) (hbs : bs.OK)
    (nb mb mb2 : Nat) (hnb : 0 < nb) (hmb : 0 < mb) (hmb2 : 0 < mb2) (o : Ord) (crm st : Bool)
    (arm : Bool) (N : Nat) (A minv : Nat → Nat → K) :
    ∃ F, Fac.make ab uf bs arm N A = some F ∧
      (F.inverse nb mb mb2 o crm st N minv = none ↔ (toM N A).det = 0) ∧
      ∀ V, F.inverse nb mb mb2 o crm st N minv = some V →
        toM N A * toM N V = 1 ∧ ∀ i j, ¬ (i < N ∧ j < N) → V i j = minv i j := by
  obtain ⟨F, e, et, hs⟩ := make_spec ab uf huf bs hbs arm N A
  have mat : ∀ (T V : Nat → Nat → K), IsInv N T V → toM N T * toM N V = 1 := by
    intro T V hV
    ext i j
    rw [Matrix.mul_apply, Matrix.one_apply]
    have := hV i j i.2 j.2
    rw [Finset.sum_range] at this
    simp only [Fin.ext_iff]; exact this
  refine ⟨F, e, ?_⟩
  unfold Fac.inverse
  rw [et]
  cases arm
  · obtain ⟨h1, h2⟩ := luInverse_spec hs nb mb mb2 hnb hmb hmb2 o crm st minv
    exact ⟨h1, fun V hV => ⟨mat A V (h2 V hV).1, (h2 V hV).2⟩⟩
  · obtain ⟨h1, h2⟩ := luInverse_spec hs nb mb mb2 hnb hmb hmb2 o crm st (tr minv)
    rw [if_pos rfl, toM_tr, Matrix.det_transpose] at h1
    refine ⟨by simpa using h1, ?_⟩
    intro V hV
    rw [if_pos rfl, Option.map_eq_some_iff] at hV
    obtain ⟨W, hW, rfl⟩ := hV
    obtain ⟨a, b⟩ := h2 W hW
    refine ⟨?_, fun i j hij => b j i (by omega)⟩
    have := mat _ _ a
    rw [if_pos rfl, toM_tr] at this
    have h' := mul_eq_one_comm.mp this
    have := congrArg Matrix.transpose h'
    rw [Matrix.transpose_mul, Matrix.transpose_transpose, Matrix.transpose_one] at this
    exact this

section Det
variable {𝕜 : Type _} [RCLike 𝕜] [DecidableEq 𝕜]

theorem logDetLoop_spec (d : Nat → 𝕜) : ∀ (n i : Nat) (s : ℝ × 𝕜),
    ((logDetLoop d n i s).2 = 0 ↔ s.2 = 0 ∨ ∃ k < n, d (i+k) = 0) ∧
    ((∀ k < n, d (i+k) ≠ 0) → (logDetLoop d n i s).2 * ((Real.exp (logDetLoop d n i s).1 : ℝ) : 𝕜) =
      s.2 * ((Real.exp s.1 : ℝ) : 𝕜) * ∏ k ∈ Finset.range n, d (i+k)) := by
  intro n
  induction n with
  | zero => intro i s; exact ⟨by simp [logDetLoop], fun _ => by simp [logDetLoop]⟩
  | succ n ih =>
    intro i s
    simp only [logDetLoop]
    obtain ⟨a, b⟩ := ih (i+1) (if d i = 0 then (Real.log (RCLike.re (d i)), 0)
       else (s.1 + Real.log ‖d i‖, s.2 * (d i / (‖d i‖ : 𝕜))))
    refine ⟨?_, ?_⟩
    · rw [a]
      by_cases h0 : d i = 0
      · simp only [if_pos h0, true_or, true_iff]
        exact .inr ⟨0, by omega, by simpa using h0⟩
      · rw [if_neg h0]
        have hn : (‖d i‖ : 𝕜) ≠ 0 := by simpa using h0
        simp only [mul_eq_zero, div_eq_zero_iff, h0, hn, or_false]
        constructor
        · rintro (h | ⟨k, hk, hz⟩)
          · exact .inl h
          · exact .inr ⟨k+1, by omega, by rw [← hz]; congr 1; omega⟩
        · rintro (h | ⟨k, hk, hz⟩)
          · exact .inl h
          · cases k with
            | zero => exact absurd hz h0
            | succ k => exact .inr ⟨k, by omega, by rw [← hz]; congr 1; omega⟩
    · intro hne
      have h0 : d i ≠ 0 := by simpa using hne 0 (by omega)
      rw [b (fun k hk => by have := hne (k+1) (by omega); rwa [show i + (k+1) = i+1+k by omega] at this), if_neg h0,
        Finset.prod_range_succ']
      have hn : (0:ℝ) < ‖d i‖ := norm_pos_iff.mpr h0
      have hn' : (‖d i‖ : 𝕜) ≠ 0 := by simpa using h0
      rw [Real.exp_add, Real.exp_log hn]
      simp only [RCLike.ofReal_mul]
      have : ∀ k, d (i + 1 + k) = d (i + (k+1)) := fun k => by congr 1; omega
      simp only [this, add_zero]
      field_simp

theorem logDetLoop_norm (d : Nat → 𝕜) : ∀ (n i : Nat) (s : ℝ × 𝕜), (∀ k < n, d (i+k) ≠ 0) → ‖(logDetLoop d n i s).2‖ = ‖s.2‖ := by
  intro n
  induction n with
  | zero => intro i s _; rfl
  | succ n ih =>
    intro i s hne
    have h0 : d i ≠ 0 := by simpa using hne 0 (by omega)
    simp only [logDetLoop]
    rw [ih (i+1) _ (fun k hk => by have := hne (k+1) (by omega); rwa [show i + (k+1) = i+1+k by omega] at this), if_neg h0]
    have : (‖d i‖ : ℝ) ≠ 0 := norm_ne_zero_iff.mpr h0
    simp [this]

/-- `det()` and `logDet()` of any decomposition. -/
theorem det_of_isLU {S : Type _} [Field S] [LinearOrder S] [IsStrictOrderedRing S] {ab : 𝕜 → S} {N : Nat}
    {A LUx : Nat → Nat → 𝕜} {P : Nat → Nat} (hs : IsLU ab N N A LUx P) (t : Bool) :
    (⟨t, LUx, P⟩ : Fac 𝕜).det N = (toM N A).det ∧
      ((toM N A).det ≠ 0 → ((⟨t, LUx, P⟩ : Fac 𝕜).logDet N).1 = Real.log ‖(toM N A).det‖ ∧
        ((⟨t, LUx, P⟩ : Fac 𝕜).logDet N).2 = (toM N A).det / (‖(toM N A).det‖ : 𝕜)) := by
  generalize hF : (⟨t, LUx, P⟩ : Fac 𝕜) = F
  replace hs : IsLU ab N N A F.LUx F.P := by rw [← hF]; exact hs
  have hsg : Perm.detLoop ((List.range N).map F.P) 0 1 = (Equiv.Perm.sign hs.perm : ℤ) := by
    have := TMV.detLoop_spec (N := N) ((List.range N).map F.P) 0 1 (by
      intro k hk
      simp only [List.length_map, List.length_range] at hk
      have := (hs.range k (by omega)).2
      simp [hk, this]) hs.perm (by
        intro x
        simp only [List.length_map, List.length_range, Nat.sub_zero]
        show swapProd F.P N 0 x = _
        rw [swapProd_congr F.P _ N 0]
        intro k _ hk
        simp [show k < N by omega])
    rwa [one_mul] at this
  have hd := hs.det
  obtain ⟨l1, l2⟩ := logDetLoop_spec (fun i => F.LUx i i) N 0 (0, 1)
  have hs1 : ((Equiv.Perm.sign hs.perm : ℤ) : 𝕜) ≠ 0 := by
    rcases Int.units_eq_one_or (Equiv.Perm.sign hs.perm) with e | e <;> simp [e]
  have hs2 : ((Equiv.Perm.sign hs.perm : ℤ) : 𝕜) * ((Equiv.Perm.sign hs.perm : ℤ) : 𝕜) = 1 := by
    rcases Int.units_eq_one_or (Equiv.Perm.sign hs.perm) with e | e <;> simp [e]
  have hzero : (F.logDet N).2 = 0 ↔ (toM N A).det = 0 := by
    unfold Fac.logDet
    simp only
    rw [hsg, mul_eq_zero, or_iff_right hs1, l1, ← not_iff_not, ← ne_eq ((toM N A).det), hs.diag_ne]
    simp
  have hprod : (toM N A).det ≠ 0 → (F.logDet N).2 * ((Real.exp (F.logDet N).1 : ℝ) : 𝕜) = (toM N A).det := by
    intro h0
    have hne := hs.diag_ne.mp h0
    have := l2 (fun k hk => by simpa using hne k hk)
    unfold Fac.logDet
    simp only
    rw [hsg, mul_assoc, this]
    simp only [zero_add, Real.exp_zero, RCLike.ofReal_one, one_mul]
    rw [Finset.prod_range, ← hd, ← mul_assoc, hs2, one_mul]
  refine ⟨?_, ?_⟩
  · unfold Fac.det
    simp only
    by_cases h0 : (toM N A).det = 0
    · rw [if_pos (hzero.mpr h0), h0]
    · rw [if_neg (fun hc => h0 (hzero.mp hc)), hprod h0]
  · intro h0
    -- the sign has norm 1
    have nrm : ∀ (n i : Nat) (s : ℝ × 𝕜), (∀ k < n, F.LUx (i+k) (i+k) ≠ 0) → ‖s.2‖ = 1 →
        ‖(logDetLoop (fun i => F.LUx i i) n i s).2‖ = 1 := by
      intro n
      induction n with
      | zero => intro i s _ h; exact h
      | succ n ih =>
        intro i s hk h
        have hi : F.LUx i i ≠ 0 := by simpa using hk 0 (by omega)
        simp only [logDetLoop]
        rw [if_neg hi]
        refine ih (i+1) _ (fun k hk' => ?_) ?_
        · have := hk (k+1) (by omega); rwa [show i + (k+1) = i+1+k by omega] at this
        · simp only [norm_mul, h, norm_div, RCLike.norm_ofReal, abs_norm, one_mul]
          exact div_self (by simpa using hi)
    have hne := hs.diag_ne.mp h0
    have n1 : ‖(F.logDet N).2‖ = 1 := by
      unfold Fac.logDet
      simp only
      rw [norm_mul, nrm N 0 (0,1) (fun k hk => by simpa using hne k hk) (by simp), hsg]
      rcases Int.units_eq_one_or (Equiv.Perm.sign hs.perm) with e | e <;> simp [e]
    have hp := hprod h0
    have hnorm : ‖(toM N A).det‖ = Real.exp (F.logDet N).1 := by
      rw [← hp, norm_mul, n1, one_mul, RCLike.norm_ofReal, abs_of_pos (Real.exp_pos _)]
    refine ⟨by rw [hnorm, Real.log_exp], ?_⟩
    rw [hnorm, ← hp]
    have : ((Real.exp (F.logDet N).1 : ℝ) : 𝕜) ≠ 0 := by
      exact_mod_cast (Real.exp_pos _).ne'
    field_simp

/-- **C29** (determinant): `det()` is the determinant, also through `logDet`'s sign and logarithm. -/
theorem det_spec {S : Type _} [Field S] [LinearOrder S] [IsStrictOrderedRing S] (ab : AbsoluteValue 𝕜 S) (uf : S → Bool)
    (huf : ∀ x, uf x = true ↔ x = 0) (bs : Blk) (hbs : bs.OK) (arm : Bool) (N : Nat) (A : Nat → Nat → 𝕜) :
    ∃ F, Fac.make ab uf bs arm N A = some F ∧ F.det N = (toM N A).det ∧
      ((toM N A).det ≠ 0 → (F.logDet N).1 = Real.log ‖(toM N A).det‖ ∧
        (F.logDet N).2 = (toM N A).det / (‖(toM N A).det‖ : 𝕜)) := by
  obtain ⟨F, e, et, hs⟩ := make_spec ab uf huf bs hbs arm N A
  have hdA : (toM N (if arm then tr A else A)).det = (toM N A).det := by
    cases arm
    · rfl
    · rw [if_pos rfl, toM_tr, Matrix.det_transpose]
  have := det_of_isLU hs F.istrans
  rw [hdA] at this
  exact ⟨F, e, this⟩

end Det

/-! ### `P*L*U == A` with the library's `Permutation`, and witnesses -/

/-- The `Permutation` built by `LU_Decompose` (include/tmv/TMV_Permutation.h:832-840: `isinv = true`). -/
def permOf (N : Nat) (P : Nat → Nat) : Perm := ⟨(List.range N).map P, true⟩

/-- **C27**, as the documentation states it: `P*L*U == A`, where row `i` of `P*X` is row `P.act i` of `X`
(`Perm.apply_spec`), and the permutation is one whose elements `P(i,j)` can be read (`Normal`). -/
theorem plu_eq {ab : K → S} {N : Nat} {A A' : Nat → Nat → K} {P : Nat → Nat} (h : IsLU ab N N A A' P) :
    (permOf N P).Normal ∧ (permOf N P).size = N ∧
    ∀ i j, i < N → j < N →
      A i j = ∑ k ∈ Finset.range N, lowerMat true A' ((permOf N P).act i) k * upperMat false A' k j := by
  have hs : (permOf N P).size = N := by simp [permOf, Perm.size]
  have hf : ∀ k, k < N → (permOf N P).fn k = P k := by
    intro k hk; simp [permOf, Perm.fn, hk]
  refine ⟨?_, hs, ?_⟩
  · intro k hk
    rw [hs] at hk ⊢
    rw [hf k hk]
    exact h.range k (by omega)
  · intro i j hi hj
    have ha : (permOf N P).act = (swapProd P N 0)⁻¹ := by
      unfold Perm.act
      rw [if_pos (show (permOf N P).isinv = true from rfl), hs, swapProd_congr _ P N 0 (fun k _ hk => hf k (by omega))]
    rw [ha, ← h.mul (h.inv_lt hi) hj, ← Equiv.Perm.mul_apply, mul_inv_cancel, Equiv.Perm.one_apply]

/-- A concrete matrix that meets the hypotheses of the theorems above (3×3, needs two interchanges), and what
the algorithm returns for it. -/
theorem decompose_example :
    (decompose (fun x : ℚ => |x|) (fun x => decide (x = 0)) ⟨64, 2, 64, 32⟩ .cm 3 3
      (fun i j => if i = 0 then (if j = 0 then 0 else 2) else if i = 1 then (if j = 1 then 5 else 4)
        else (if j = 2 then 7 else 1))).map (fun s => (s.2 0, s.2 1, s.1 0 0, s.1 2 0)) = some (1, 1, 4, 1/4) := by
  decide +kernel

/-- Wide matrices (`colsize 2 < rowsize`), which `LU_Decompose` accepts: the `R == 2` branch updates the columns
right of the square with `U(0,1)` instead of `L(1,0)` (TMV_LUDecompose.cpp:349-356), so `L*U` is not `P⁻¹A`. -/
theorem lu_wide_violated :
    ∃ (A : Nat → Nat → ℚ) (s : (Nat → Nat → ℚ) × (Nat → Nat)),
      decompose (fun x : ℚ => |x|) (fun x => decide (x = 0)) ⟨64, 2, 64, 32⟩ .cm 2 3 A = some s ∧
      A (swapProd s.2 2 0 1) 2 ≠ ∑ k ∈ Finset.range 2, lowerMat true s.1 1 k * upperMat false s.1 k 2 := by
  refine ⟨fun i j => if i = 0 then (if j = 0 then 2 else if j = 1 then 3 else 1) else 1, _, rfl, ?_⟩
  decide +kernel

end TMV.LU
