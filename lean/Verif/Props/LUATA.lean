import Verif.Model.LUATA
import Verif.Props.LUDiv
import Verif.Props.BandLU
import Mathlib.LinearAlgebra.Matrix.ConjTranspose

/-! `makeInverseATA` through LU (C90). -/
namespace TMV.LUATA
open TMV.Tri TMV.TriProd TMV.LU
open Matrix
variable {K : Type _} [Field K] [StarRing K] [DecidableEq K] {S : Type _} [Field S] [LinearOrder S] [IsStrictOrderedRing S]

/-! ### The matrix algebra -/

theorem alg_trans {n : Nat} {M Q U u Z : Matrix (Fin n) (Fin n) K} (hM : Mᵀ = Q * U) (hu : U * u = 1)
    (hZ : Qᵀ * (Z * Q.map star) = uᵀ * u.map star) : Z * (Mᴴ * M) = 1 := by
  have e1 : M = Uᵀ * Qᵀ := by rw [← Matrix.transpose_mul, ← hM, Matrix.transpose_transpose]
  have e2 : Mᴴ = Q.map star * U.map star := by
    rw [Matrix.conjTranspose, hM]
    ext i j
    simp only [Matrix.map_apply, Matrix.mul_apply, star_sum, star_mul']
  have hu' : u.map star * U.map star = 1 := by
    have := mul_eq_one_comm.mp hu
    ext i j
    have h2 := congrArg star (congrFun (congrFun this i) j)
    simp only [Matrix.mul_apply, star_sum, star_mul', Matrix.map_apply, Matrix.one_apply] at h2 ⊢
    rw [h2]; split_ifs <;> simp
  have hu2 : uᵀ * Uᵀ = 1 := by rw [← Matrix.transpose_mul, hu, Matrix.transpose_one]
  have : Qᵀ * (Z * Q.map star * U.map star * Uᵀ) = 1 := by
    calc Qᵀ * (Z * Q.map star * U.map star * Uᵀ) = (Qᵀ * (Z * Q.map star)) * U.map star * Uᵀ := by
          simp only [Matrix.mul_assoc]
      _ = uᵀ * (u.map star * U.map star) * Uᵀ := by rw [hZ]; simp only [Matrix.mul_assoc]
      _ = 1 := by rw [hu', Matrix.mul_one, hu2]
  have := mul_eq_one_comm.mp this
  rw [e2, e1, ← this]
  simp only [Matrix.mul_assoc]

theorem alg_plain {n : Nat} {M Q U l Z : Matrix (Fin n) (Fin n) K} (hM : M = Q * U) (hl : Q * l = 1)
    (hZ : U * (Z * Uᴴ) = l * lᴴ) : Z * (Mᴴ * M) = 1 := by
  have : U * (Z * Uᴴ * Qᴴ * Q) = 1 := by
    calc U * (Z * Uᴴ * Qᴴ * Q) = (U * (Z * Uᴴ)) * Qᴴ * Q := by simp only [Matrix.mul_assoc]
      _ = l * (Q * l)ᴴ * Q := by rw [hZ, Matrix.conjTranspose_mul]; simp only [Matrix.mul_assoc]
      _ = 1 := by rw [hl, Matrix.conjTranspose_one, Matrix.mul_one]; exact mul_eq_one_comm.mp hl
  have := mul_eq_one_comm.mp this
  rw [hM, Matrix.conjTranspose_mul, ← this]
  simp only [Matrix.mul_assoc]

theorem toM_solM {N : Nat} {T X B : Nat → Nat → K} (h : SolM N N T X B) : toM N T * toM N X = toM N B := by
  ext i j
  rw [Matrix.mul_apply]
  have := h.1 i j i.2 j.2
  rw [Finset.sum_range] at this
  exact this

theorem toM_prodM (N : Nat) (X Y C : Nat → Nat → K) : toM N (prodM N X Y C) = toM N X * toM N Y := by
  ext i j
  rw [Matrix.mul_apply]
  show prodM N X Y C i j = _
  rw [prodM, if_pos ⟨i.2, j.2⟩, Finset.sum_range]
  rfl

theorem toM_cj (N : Nat) (A : Nat → Nat → K) : toM N (cj A) = (toM N A).map star := rfl

theorem toM_trcj (N : Nat) (A : Nat → Nat → K) : toM N (tr (cj A)) = (toM N A)ᴴ := rfl

/-! ### Dense -/

/-- The block sizes are positive. -/
def Blk.OK (bs : Blk) : Prop := bs.lu.OK ∧ 0 < bs.inv ∧ 0 < bs.mm ∧ 0 < bs.mm2

theorem upperMat_congr {N : Nat} {ua : Bool} {A B : Nat → Nat → K} (h : ∀ i j, i < j → j < N → A i j = B i j)
    (hd : ua = false → ∀ i, i < N → A i i = B i i) : toM N (upperMat ua A) = toM N (upperMat ua B) := by
  ext i j
  show upperMat ua A i j = upperMat ua B i j
  unfold upperMat
  by_cases h1 : (i:Nat) < j
  · rw [if_pos h1, if_pos h1, h i j h1 j.2]
  · rw [if_neg h1, if_neg h1]
    by_cases h2 : (i:Nat) = j
    · rw [if_pos h2, if_pos h2]
      cases ua
      · simp only [Bool.false_eq_true, if_false]; exact hd rfl i i.2
      · rfl
    · rw [if_neg h2, if_neg h2]

theorem cj_upperMat (A : Nat → Nat → K) (ua : Bool) : cj (upperMat ua A) = upperMat ua (cj A) := by
  funext i j
  unfold cj upperMat
  split_ifs <;> simp

section
variable {ab : K → S} {N : Nat} {A A' : Nat → Nat → K} {P : Nat → Nat}

theorem submatrix_ata (σ : Equiv.Perm (Fin N)) (M V : Matrix (Fin N) (Fin N) K)
    (h : V.submatrix σ σ * ((M.submatrix id σ)ᴴ * M.submatrix id σ) = 1) : V * (Mᴴ * M) = 1 := by
  have e : (M.submatrix id σ)ᴴ * M.submatrix id σ = (Mᴴ * M).submatrix σ σ := by
    ext i j; simp only [Matrix.mul_apply, Matrix.submatrix_apply, Matrix.conjTranspose_apply, id]
  rw [e, Matrix.submatrix_mul_equiv] at h
  have := congrArg (fun X : Matrix (Fin N) (Fin N) K => X.submatrix σ.symm σ.symm) h
  simpa using this

theorem luTrans_spec (h : IsLU ab N N (tr A) A' P) {bs : Blk} (hbs : bs.OK) (o : Ord) (b1 b2 st : Bool) (ata : Nat → Nat → K) :
    (luTrans bs o b1 b2 st N A' P ata = none ↔ (toM N A).det = 0) ∧
    ∀ V, luTrans bs o b1 b2 st N A' P ata = some V →
      toM N V * ((toM N A)ᴴ * toM N A) = 1 ∧ ∀ i j, ¬ (i < N ∧ j < N) → V i j = ata i j := by
  obtain ⟨⟨_, _, t1, t2⟩, hi, hm, hm2⟩ := hbs
  unfold luTrans
  generalize hm0 : (fun i j => if i ≤ j ∧ j < N then A' i j else ata i j) = m0
  have p0 : ∀ i j, i ≤ j → j < N → m0 i j = A' i j := by
    intro i j h1 h2; rw [← hm0]; simp only; rw [if_pos ⟨h1, h2⟩]
  have p1 : ∀ i j, ¬ (i < N ∧ j < N) → m0 i j = ata i j := by
    intro i j hij; rw [← hm0]; simp only; rw [if_neg (by omega)]
  obtain ⟨s1, s2⟩ := triInverse_spec bs.inv bs.mm bs.mm2 hi hm hm2 o b1 st false N m0
  have hdet : (toM N (tr A)).det = (toM N A).det := by rw [toM_tr, Matrix.det_transpose]
  have hsing : (∃ i < N, m0 i i = 0) ↔ (toM N A).det = 0 := by
    rw [← not_iff_not, ← ne_eq (Matrix.det _), ← hdet, h.diag_ne]
    push Not
    exact forall₂_congr fun i hi => by rw [p0 i i (le_refl _) hi]
  cases e1 : TriProd.triInverse bs.inv bs.mm bs.mm2 o b1 st false N m0 with
  | none => exact ⟨⟨fun _ => hsing.mp (s1.mp e1).2, fun _ => rfl⟩, by simp⟩
  | some u =>
    obtain ⟨iu, fu⟩ := s2 u e1
    have hns : ¬ (toM N A).det = 0 := fun hc => by
      have := s1.mpr ⟨rfl, hsing.mpr hc⟩; rw [e1] at this; cases this
    simp only [Option.bind_some]
    generalize hc : prodM N (tr (upperMat false u)) (cj (upperMat false u)) u = C
    have hC : toM N C = (toM N (upperMat false u))ᵀ * (toM N (upperMat false u)).map star := by
      rw [← hc, toM_prodM]; rfl
    have hCo : ∀ i j, ¬ (i < N ∧ j < N) → C i j = ata i j := by
      intro i j hij
      rw [← hc, prodM, if_neg hij, fu i j (fun ⟨a, b⟩ => by simp at b; omega), p1 i j hij]
    obtain ⟨Y, eY⟩ := Option.isSome_iff_exists.mp (upperM_isSome bs.lu.tri bs.lu.tri2 t1 t2 .rm b1 true N N (tr A') C
      (fun i _ => by simp [dg]))
    obtain ⟨Z, eZ⟩ := Option.isSome_iff_exists.mp (upperM_isSome bs.lu.tri bs.lu.tri2 t1 t2 .rm b2 true N N (tr (cj A')) (tr Y)
      (fun i _ => by simp [dg]))
    rw [eY]
    simp only [Option.bind_some]
    rw [eZ]
    simp only [Option.map_some]
    refine ⟨⟨fun hc => by simp at hc, fun hc => absurd hc hns⟩, ?_⟩
    rintro V hV
    obtain rfl := Option.some.inj hV
    have sY := upperM_sound _ _ t1 t2 _ _ _ _ _ _ _ _ eY
    have sZ := upperM_sound _ _ t1 t2 _ _ _ _ _ _ _ _ eZ
    have mY := toM_solM sY
    have mZ := toM_solM sZ
    have hV : ∀ i j, i < N → j < N → reversePermuteRows N P N 0 (tr (reversePermuteRows N P N 0 Z)) i j
        = Z ((swapProd P N 0)⁻¹ j) ((swapProd P N 0)⁻¹ i) := by
      intro i j hi' hj
      rw [reversePermuteRows_eq _ _ _ _ _ _ _ hj]
      show reversePermuteRows N P N 0 Z j _ = _
      rw [reversePermuteRows_eq _ _ _ _ _ _ _ (h.inv_lt hi')]
    refine ⟨?_, fun i j hij => ?_⟩
    · apply submatrix_ata h.perm
      have hVp : (toM N (reversePermuteRows N P N 0 (tr (reversePermuteRows N P N 0 Z)))).submatrix h.perm h.perm = (toM N Z)ᵀ := by
        ext i j
        show reversePermuteRows N P N 0 (tr (reversePermuteRows N P N 0 Z)) (swapProd P N 0 i) (swapProd P N 0 j) = Z j i
        rw [hV _ _ (h.lt i.2) (h.lt j.2)]
        simp
      rw [hVp]
      have hL : ∀ B : Nat → Nat → K, toM N (upperMat true (tr B)) = (toM N (lowerMat true B))ᵀ := by
        intro B; ext i j; exact tr_upper true B i j
      have hLc : toM N (upperMat true (tr (cj A'))) = ((toM N (lowerMat true A')).map star)ᵀ := by
        rw [hL]
        congr 1
        ext i j
        show lowerMat true (cj A') i j = star (lowerMat true A' i j)
        unfold lowerMat cj
        split_ifs <;> simp
      refine alg_trans (Q := toM N (lowerMat true A')) (U := toM N (upperMat false A')) (u := toM N (upperMat false u)) ?_ ?_ ?_
      · rw [← h.toM_mul]; rfl
      · have := BandLU.toM_isInv.mp iu
        rw [← this]
        congr 1
        exact upperMat_congr (fun i j h1 h2 => (p0 i j (by omega) h2).symm) (fun _ i hi => (p0 i i (le_refl _) hi).symm)
      · rw [← hC, ← mY, hL]
        congr 1
        rw [hLc] at mZ
        have := congrArg Matrix.transpose mZ
        rw [Matrix.transpose_mul, Matrix.transpose_transpose] at this
        rw [this]; rfl
    · have hZ : ∀ i j, ¬ (i < N ∧ j < N) → Z j i = ata i j := by
        intro i j hij
        rw [sZ.2 j i (by omega)]
        show Y i j = _
        rw [sY.2 i j hij, hCo i j hij]
      by_cases hj : j < N
      · have hi' : ¬ i < N := by omega
        rw [reversePermuteRows_eq _ _ _ _ _ _ _ hj, h.inv_fix (by omega)]
        show reversePermuteRows N P N 0 Z j i = _
        rw [reversePermuteRows_out _ _ _ _ _ _ _ hi', hZ i j hij]
      · rw [reversePermuteRows_out _ _ _ _ _ _ _ hj]
        show reversePermuteRows N P N 0 Z j i = _
        by_cases hi' : i < N
        · rw [reversePermuteRows_eq _ _ _ _ _ _ _ hi', h.inv_fix (by omega), hZ i j hij]
        · rw [reversePermuteRows_out _ _ _ _ _ _ _ hi', hZ i j hij]

theorem luPlain_spec (h : IsLU ab N N A A' P) {bs : Blk} (hbs : bs.OK) (o : Ord) (b1 b2 st : Bool) (ata : Nat → Nat → K) :
    (luPlain bs o b1 b2 st N A' ata = none ↔ (toM N A).det = 0) ∧
    ∀ V, luPlain bs o b1 b2 st N A' ata = some V →
      toM N V * ((toM N A)ᴴ * toM N A) = 1 ∧ ∀ i j, ¬ (i < N ∧ j < N) → V i j = ata i j := by
  obtain ⟨⟨_, _, t1, t2⟩, hi, hm, hm2⟩ := hbs
  unfold luPlain
  generalize hm0 : (fun i j => if j < i ∧ i < N then A' i j else ata i j) = m0
  have p0 : ∀ i j, j < i → i < N → m0 i j = A' i j := by
    intro i j h1 h2; rw [← hm0]; simp only; rw [if_pos ⟨h1, h2⟩]
  have p1 : ∀ i j, ¬ (i < N ∧ j < N) → m0 i j = ata i j := by
    intro i j hij; rw [← hm0]; simp only; rw [if_neg (by omega)]
  obtain ⟨s1, s2⟩ := triInverse_spec bs.inv bs.mm bs.mm2 hi hm hm2 (LU.Ord.tr o) b2 st true N (tr m0)
  cases e1 : TriProd.triInverse bs.inv bs.mm bs.mm2 (LU.Ord.tr o) b2 st true N (tr m0) with
  | none => exact absurd (s1.mp e1).1 (by simp)
  | some lt =>
    obtain ⟨iu, fu⟩ := s2 lt e1
    simp only [Option.bind_some]
    generalize hc : prodM N (lowerMat true (tr lt)) (tr (cj (lowerMat true (tr lt)))) (tr lt) = C
    have hC : toM N C = toM N (lowerMat true (tr lt)) * (toM N (lowerMat true (tr lt)))ᴴ := by
      rw [← hc, toM_prodM, toM_trcj]
    have hCo : ∀ i j, ¬ (i < N ∧ j < N) → C i j = ata i j := by
      intro i j hij
      rw [← hc, prodM, if_neg hij]
      show lt j i = _
      rw [fu j i (fun ⟨a, b⟩ => by simp at b; omega)]
      exact p1 i j hij
    have hl : toM N (lowerMat true A') * toM N (lowerMat true (tr lt)) = 1 := by
      have := mul_eq_one_comm.mp (congrArg Matrix.transpose (BandLU.toM_isInv.mp iu) |>.trans Matrix.transpose_one |> fun e => by
        rw [Matrix.transpose_mul] at e; exact e)
      have a1 : (toM N (upperMat true (tr m0)))ᵀ = toM N (lowerMat true A') := by
        ext i j
        show upperMat true (tr m0) j i = lowerMat true A' i j
        rw [tr_upper]
        unfold lowerMat
        by_cases hij : (j:Nat) < i
        · rw [if_pos hij, if_pos hij, p0 i j hij i.2]
        · rw [if_neg hij, if_neg hij]; rfl
      have a2 : (toM N (upperMat true lt))ᵀ = toM N (lowerMat true (tr lt)) := by
        ext i j
        show upperMat true lt j i = lowerMat true (tr lt) i j
        exact tr_upper true (tr lt) j i
      rw [a1, a2] at this
      exact this
    have key : ∀ Y Z, upperM bs.lu.tri bs.lu.tri2 .cm b1 false N N A' C = some Y →
        upperM bs.lu.tri bs.lu.tri2 .cm b2 false N N (cj A') (tr Y) = some Z →
        toM N (tr Z) * ((toM N A)ᴴ * toM N A) = 1 ∧ ∀ i j, ¬ (i < N ∧ j < N) → tr Z i j = ata i j := by
      intro Y Z eY eZ
      have sY := upperM_sound _ _ t1 t2 _ _ _ _ _ _ _ _ eY
      have sZ := upperM_sound _ _ t1 t2 _ _ _ _ _ _ _ _ eZ
      have mY := toM_solM sY
      have mZ := toM_solM sZ
      refine ⟨?_, fun i j hij => ?_⟩
      · have hA : (toM N A)ᴴ * toM N A = ((toM N A).submatrix h.perm id)ᴴ * (toM N A).submatrix h.perm id := by
          ext i j
          simp only [Matrix.mul_apply, Matrix.submatrix_apply, Matrix.conjTranspose_apply, id]
          exact (Equiv.sum_comp h.perm (fun k => star (toM N A k i) * toM N A k j)).symm
        rw [hA]
        refine alg_plain h.toM_mul hl ?_
        rw [← hC, ← mY]
        congr 1
        rw [← cj_upperMat, toM_cj] at mZ
        have := congrArg Matrix.transpose mZ
        rw [Matrix.transpose_mul] at this
        exact this
      · show Z j i = _
        rw [sZ.2 j i (by omega)]
        show Y i j = _
        rw [sY.2 i j hij, hCo i j hij]
    constructor
    · constructor
      · intro hn
        by_contra hd
        have hd' := h.diag_ne.mp hd
        obtain ⟨Y, eY⟩ := Option.isSome_iff_exists.mp (upperM_isSome bs.lu.tri bs.lu.tri2 t1 t2 .cm b1 false N N A' C
          (fun i hi => by simpa [dg] using hd' i hi))
        obtain ⟨Z, eZ⟩ := Option.isSome_iff_exists.mp (upperM_isSome bs.lu.tri bs.lu.tri2 t1 t2 .cm b2 false N N (cj A') (tr Y)
          (fun i hi => by simpa [dg, cj] using hd' i hi))
        rw [eY] at hn
        simp only [Option.bind_some] at hn
        rw [eZ] at hn
        cases hn
      · intro hd
        cases eY : upperM bs.lu.tri bs.lu.tri2 .cm b1 false N N A' C with
        | none => rfl
        | some Y =>
          simp only [Option.bind_some]
          cases eZ : upperM bs.lu.tri bs.lu.tri2 .cm b2 false N N (cj A') (tr Y) with
          | none => rfl
          | some Z =>
            exfalso
            have := congrArg Matrix.det (key Y Z eY eZ).1
            rw [Matrix.det_mul, Matrix.det_mul, hd, mul_zero, mul_zero, Matrix.det_one] at this
            exact zero_ne_one this
    · intro V hV
      rw [Option.bind_eq_some_iff] at hV
      obtain ⟨Y, eY, hV⟩ := hV
      rw [Option.map_eq_some_iff] at hV
      obtain ⟨Z, eZ, rfl⟩ := hV
      exact key Y Z eY eZ

end

/-- **C90** (dense): for every square matrix `A`, storage and block size, after `A.makeInverseATA(ata)` `ata` is
`(AᴴA)⁻¹`, nothing else is written; an exception is raised exactly when `det A = 0`. -/
theorem lu_spec (ab : AbsoluteValue K S) (uf : S → Bool) (huf : ∀ x, uf x = true ↔ x = 0) {bs : Blk} (hbs : bs.OK)
    (arm : Bool) (o : Ord) (b1 b2 st : Bool) (N : Nat) (A ata : Nat → Nat → K) :
    ∃ F, Fac.make ab uf bs.lu arm N A = some F ∧
      (lu bs o b1 b2 st N F ata = none ↔ (toM N A).det = 0) ∧
      ∀ V, lu bs o b1 b2 st N F ata = some V →
        toM N V * ((toM N A)ᴴ * toM N A) = 1 ∧ ∀ i j, ¬ (i < N ∧ j < N) → V i j = ata i j := by
  obtain ⟨F, e, et, hs⟩ := make_spec ab uf huf bs.lu hbs.1 arm N A
  refine ⟨F, e, ?_⟩
  unfold lu
  rw [et]
  cases arm
  · exact luPlain_spec hs hbs o b1 b2 st ata
  · exact luTrans_spec hs hbs o b1 b2 st ata

/-! ### Band -/

/-- The matrix of the packed `P*L`. -/
def plM (N lo : Nat) (A : Nat → Nat → K) (P : Nat → Nat) : Nat → Nat → K :=
  fun a b => BandLU.pl N lo A P (N-1) 0 (fun c => if c = b then 1 else 0) a

theorem pl_plM {N lo : Nat} (A : Nat → Nat → K) (P : Nat → Nat) (hP : ∀ k, k < N → k ≤ P k ∧ P k < min (k+lo+1) N)
    (x : Nat → K) (a : Nat) (ha : a < N) :
    BandLU.pl N lo A P (N-1) 0 x a = ∑ b ∈ Finset.range N, plM N lo A P a b * x b := by
  unfold plM
  rw [← BandLU.pl_sum]
  refine BandLU.pl_ext N lo A P (N-1) 0 (by omega) (fun k hk => ?_) (fun c hc => ?_) a ha
  · have := hP k (by omega); omega
  · simp [hc]

section
variable {ab : AbsoluteValue K S} {N lo hi : Nat} {A A' : Nat → Nat → K} {P : Nat → Nat}

theorem plu_toM (h : BandLU.IsPLU ab N lo hi A A' P) : toM N A = toM N (plM N lo A' P) * toM N (bandMat 0 hi A') := by
  ext i j
  rw [Matrix.mul_apply]
  show A i j = _
  rw [h.prod i j i.2 j.2, pl_plM A' P h.range _ _ i.2, Finset.sum_range]
  rfl

/-- `R = packedRDiv m` satisfies `R (P L) = m`. -/
theorem rdiv_toM (hlo : lo < N) (hP : ∀ k, k < N → k ≤ P k ∧ P k < min (k+lo+1) N) (m : Nat → Nat → K) :
    toM N (BandLU.packedRDiv N lo N A' P m) * toM N (plM N lo A' P) = toM N m := by
  ext i j
  rw [Matrix.mul_apply]
  have := (BandLU.packedRDiv_spec (nr := N) hlo A' P hP m).1 i i.2 (fun c => if c = j then 1 else 0)
  rw [Finset.sum_range] at this
  refine this.trans ?_
  simp
  rfl

theorem ldiv_toM (hlo : lo < N) (hP : ∀ k, k < N → k ≤ P k ∧ P k < min (k+lo+1) N) (m : Nat → Nat → K) :
    toM N (plM N lo A' P) * toM N (BandLU.packedLDiv N lo N A' P m) = toM N m := by
  ext i j
  rw [Matrix.mul_apply]
  have := congrFun ((BandLU.packedLDiv_spec (nc := N) hlo A' P hP m).1 j j.2) i
  rw [pl_plM A' P hP _ _ i.2, Finset.sum_range] at this
  exact this

theorem bandTrans_spec (F : BandLU.Fac K) (h : BandLU.IsPLU ab N F.lo F.hi (tr A) F.LUx F.P) (hlo : F.lo < N) {bs : Blk} (hbs : bs.OK)
    (o : Ord) (b1 st : Bool) (ata : Nat → Nat → K) :
    (bandTrans bs o b1 st N F ata = none ↔ (toM N A).det = 0) ∧
    ∀ V, bandTrans bs o b1 st N F ata = some V →
      toM N V * ((toM N A)ᴴ * toM N A) = 1 ∧ ∀ i j, ¬ (i < N ∧ j < N) → V i j = ata i j := by
  obtain ⟨_, hi', hm, hm2⟩ := hbs
  unfold bandTrans
  generalize hm0 : (fun i j => if i ≤ j ∧ j < N then bandMat 0 F.hi F.LUx i j else ata i j) = m0
  have p0 : ∀ i j, i ≤ j → j < N → m0 i j = bandMat 0 F.hi F.LUx i j := by
    intro i j h1 h2; rw [← hm0]; simp only; rw [if_pos ⟨h1, h2⟩]
  have p1 : ∀ i j, ¬ (i < N ∧ j < N) → m0 i j = ata i j := by
    intro i j hij; rw [← hm0]; simp only; rw [if_neg (by omega)]
  obtain ⟨s1, s2⟩ := BandLU.triInverse_spec bs.inv bs.mm bs.mm2 hi' hm hm2 o b1 st N F.hi m0 (fun i j h1 h2 h3 => by
      rw [p0 i j (by omega) h2, bandMat, if_neg (by omega)])
  have hdet : (toM N (tr A)).det = (toM N A).det := by rw [toM_tr, Matrix.det_transpose]
  have hsing : (∃ i < N, m0 i i = 0) ↔ (toM N A).det = 0 := by
    rw [← not_iff_not, ← ne_eq (Matrix.det _), ← hdet, h.diag_ne]
    push Not
    exact forall₂_congr fun i hi => by rw [p0 i i (le_refl _) hi]; simp [bandMat]
  refine ⟨by rw [Option.map_eq_none_iff, s1, hsing], ?_⟩
  intro V hV
  rw [Option.map_eq_some_iff] at hV
  obtain ⟨u, eu, rfl⟩ := hV
  obtain ⟨iu, fu⟩ := s2 u eu
  dsimp only
  generalize hc : prodM N (tr (upperMat false u)) (cj (upperMat false u)) u = C
  have hC : toM N C = (toM N (upperMat false u))ᵀ * (toM N (upperMat false u)).map star := by
    rw [← hc, toM_prodM]; rfl
  have hCo : ∀ i j, ¬ (i < N ∧ j < N) → C i j = ata i j := by
    intro i j hij
    rw [← hc, prodM, if_neg hij, fu i j (by omega), p1 i j hij]
  have r1 := rdiv_toM (A' := F.LUx) hlo h.range (tr C)
  have o1 := (BandLU.packedRDiv_spec (nr := N) hlo F.LUx F.P h.range (tr C)).2
  generalize BandLU.packedRDiv N F.lo N F.LUx F.P (tr C) = R1 at *
  have r2 := rdiv_toM (A' := F.LUx) hlo h.range (cj (tr R1))
  have o2 := (BandLU.packedRDiv_spec (nr := N) hlo F.LUx F.P h.range (cj (tr R1))).2
  generalize BandLU.packedRDiv N F.lo N F.LUx F.P (cj (tr R1)) = R2 at *
  refine ⟨?_, fun i j hij => ?_⟩
  · refine alg_trans (Q := toM N (plM N F.lo F.LUx F.P)) (U := toM N (bandMat 0 F.hi F.LUx)) (u := toM N (upperMat false u)) ?_ ?_ ?_
    · exact plu_toM h
    · have := BandLU.toM_isInv.mp iu
      rw [← this]
      congr 1
      ext i j
      show bandMat 0 F.hi F.LUx i j = upperMat false m0 i j
      unfold upperMat
      by_cases h1 : (i:Nat) < j
      · rw [if_pos h1, p0 i j (by omega) j.2]
      · rw [if_neg h1]
        by_cases h2 : (i:Nat) = j
        · rw [if_pos h2, h2]; simp only [Bool.false_eq_true, if_false]; rw [p0 j j (le_refl _) j.2]
        · rw [if_neg h2, bandMat, if_neg (by omega)]
    · rw [← hC]
      have e2 : toM N (cj R2) * (toM N (plM N F.lo F.LUx F.P)).map star = (toM N R1)ᵀ := by
        have := congrArg (fun X : Matrix (Fin N) (Fin N) K => X.map star) r2
        rw [show (toM N (cj (tr R1))).map star = (toM N R1)ᵀ by ext i j; simp [toM, cj, tr]] at this
        rw [← this]
        ext i j
        simp only [Matrix.mul_apply, Matrix.map_apply, star_sum, star_mul']
        rfl
      rw [e2]
      have := congrArg Matrix.transpose r1
      rw [Matrix.transpose_mul] at this
      rw [this]; rfl
  · show star (R2 i j) = _
    rw [o2 i j hij]
    show star (star (R1 j i)) = _
    rw [star_star, o1 j i (by omega)]
    exact hCo i j hij

/-- Without interchanges the inverse of `P*L` is unit lower triangular. -/
theorem pl_lower (hP : ∀ k, k < N → P k = k) (n i : Nat) (hn : i + n ≤ N) (x : Nat → K) (m : Nat) (hx : ∀ a, a < m → x a = 0) :
    (∀ a, a < m → BandLU.pl N lo A' P n i x a = 0) ∧ BandLU.pl N lo A' P n i x m = x m := by
  induction n generalizing i with
  | zero => exact ⟨hx, rfl⟩
  | succ n ih =>
    obtain ⟨h1, h2⟩ := ih (i+1) (by omega)
    simp only [BandLU.pl, BandLU.plStep, hP i (by omega), Equiv.swap_self, Equiv.refl_apply, BandLU.ml]
    refine ⟨fun a ha => ?_, ?_⟩
    · rw [h1 a ha]
      by_cases hc : i < a ∧ a < min (i+lo+1) N
      · rw [if_pos hc, h1 i (by omega)]; ring
      · rw [if_neg hc]; ring
    · rw [h2]
      by_cases hc : i < m ∧ m < min (i+lo+1) N
      · rw [if_pos hc, h1 i (by omega)]; ring
      · rw [if_neg hc]; ring

theorem ldiv_lower (hlo : lo < N) (hP : ∀ k, k < N → P k = k) (ata : Nat → Nat → K) :
    toM N (lowerMat true (BandLU.packedLDiv N lo N A' P fun i j => if i < N ∧ j < N then (if i = j then 1 else 0) else ata i j)) =
    toM N (BandLU.packedLDiv N lo N A' P fun i j => if i < N ∧ j < N then (if i = j then 1 else 0) else ata i j) := by
  have hR : ∀ k, k < N → k ≤ P k ∧ P k < min (k+lo+1) N := fun k hk => by rw [hP k hk]; omega
  have sp := (BandLU.packedLDiv_spec (nc := N) hlo A' P hR fun i j => if i < N ∧ j < N then (if i = j then 1 else 0) else ata i j).1
  generalize (BandLU.packedLDiv N lo N A' P fun i j => if i < N ∧ j < N then (if i = j then 1 else 0) else ata i j) = V at *
  have z : ∀ c, c < N → ∀ a, a < c → V a c = 0 := by
    intro c hc a
    induction a using Nat.strong_induction_on with
    | _ a ih =>
      intro hac
      have := congrFun (sp c hc) a
      rw [(pl_lower hP (N-1) 0 (by omega) (fun a => V a c) a (fun b hb => ih b hb (by omega))).2] at this
      rw [this, if_pos ⟨by omega, hc⟩, if_neg (by omega)]
  ext i j
  show lowerMat true V i j = V i j
  unfold lowerMat
  by_cases h1 : (j:Nat) < i
  · rw [if_pos h1]
  · rw [if_neg h1]
    by_cases h2 : (i:Nat) = j
    · rw [if_pos h2]
      have := congrFun (sp j j.2) j
      rw [(pl_lower hP (N-1) 0 (by omega) (fun a => V a j) j (fun b hb => z j j.2 b hb)).2] at this
      rw [h2, this]; simp
    · rw [if_neg h2, z j j.2 i (by omega)]

theorem bandPlain_spec (F : BandLU.Fac K) (h : BandLU.IsPLU ab N F.lo F.hi A F.LUx F.P) (hlo : F.lo < N) (hhi : F.hi < N)
    (hP : ∀ k, k < N → F.P k = k) (b1 b2 : Bool) (ata : Nat → Nat → K) :
    (bandPlain b1 b2 N F ata = none ↔ (toM N A).det = 0) ∧
    ∀ V, bandPlain b1 b2 N F ata = some V →
      toM N V * ((toM N A)ᴴ * toM N A) = 1 ∧ ∀ i j, ¬ (i < N ∧ j < N) → V i j = ata i j := by
  unfold bandPlain
  have l1 := ldiv_lower (A' := F.LUx) hlo hP ata
  have l2 := ldiv_toM (A' := F.LUx) hlo h.range fun i j => if i < N ∧ j < N then (if i = j then 1 else 0) else ata i j
  have l3 := (BandLU.packedLDiv_spec (nc := N) hlo F.LUx F.P h.range fun i j => if i < N ∧ j < N then (if i = j then 1 else 0) else ata i j)
  simp only
  generalize (BandLU.packedLDiv N F.lo N F.LUx F.P fun i j => if i < N ∧ j < N then (if i = j then 1 else 0) else ata i j) = V0 at *
  have l4 : ∀ i j, ¬ (i < N ∧ j < N) → V0 i j = ata i j := by
    intro i j hij
    by_cases hj : j < N
    · have := congrFun (l3.1 j hj) i
      rw [BandLU.pl_out N F.lo F.LUx F.P (N-1) 0 _ (by omega) (fun k hk => by have := h.range k (by omega); omega) i (by omega)] at this
      rw [this, if_neg hij]
    · rw [l3.2 i j hj, if_neg hij]
  have l5 : toM N (plM N F.lo F.LUx F.P) * toM N (lowerMat true V0) = 1 := by
    rw [l1, l2]
    ext i j
    rw [Matrix.one_apply]
    show (if (i:Nat) < N ∧ (j:Nat) < N then _ else _) = _
    rw [if_pos ⟨i.2, j.2⟩]
    simp only [Fin.ext_iff]
  generalize hc : prodM N (lowerMat true V0) (tr (cj (lowerMat true V0))) V0 = C
  have hC : toM N C = toM N (lowerMat true V0) * (toM N (lowerMat true V0))ᴴ := by
    rw [← hc, toM_prodM, toM_trcj]
  have hCo : ∀ i j, ¬ (i < N ∧ j < N) → C i j = ata i j := by
    intro i j hij
    rw [← hc, prodM, if_neg hij, l4 i j hij]
  have hT : (fun i k => if i = k ∧ (false = true) then (1:K) else bandMat 0 F.hi F.LUx i k) = bandMat 0 F.hi F.LUx := by
    funext i k; simp
  have key : ∀ Y Z, BandTri.triM F.o b1 false N 0 F.hi N F.LUx C = some Y →
      BandTri.triM F.o b2 false N 0 F.hi N F.LUx (tr (cj Y)) = some Z →
      toM N (tr (cj Z)) * ((toM N A)ᴴ * toM N A) = 1 ∧ ∀ i j, ¬ (i < N ∧ j < N) → tr (cj Z) i j = ata i j := by
    intro Y Z eY eZ
    have sY := (BandTri.triM_spec F.o b1 false N 0 F.hi N (.inl rfl) (by omega) hhi F.LUx C).1 Y eY
    have sZ := (BandTri.triM_spec F.o b2 false N 0 F.hi N (.inl rfl) (by omega) hhi F.LUx (tr (cj Y))).1 Z eZ
    rw [hT] at sY sZ
    have mY := toM_solM sY
    have mZ := toM_solM sZ
    refine ⟨?_, fun i j hij => ?_⟩
    · refine alg_plain (plu_toM h) l5 ?_
      rw [← hC, ← mY]
      congr 1
      rw [toM_trcj] at mZ ⊢
      have := congrArg Matrix.conjTranspose mZ
      rw [Matrix.conjTranspose_mul, Matrix.conjTranspose_conjTranspose] at this
      exact this
    · show star (Z j i) = _
      rw [sZ.2 j i (by omega)]
      show star (star (Y i j)) = _
      rw [star_star, sY.2 i j hij, hCo i j hij]
  constructor
  · constructor
    · intro hn
      by_contra hd
      have hd' := h.diag_ne.mp hd
      have hd2 : ∀ i, i < N → (fun i k => if i = k ∧ (false = true) then (1:K) else bandMat 0 F.hi F.LUx i k) i i ≠ 0 := by
        intro i hi; rw [hT]; simpa [bandMat] using hd' i hi
      obtain ⟨Y, eY⟩ := (BandTri.triM_spec F.o b1 false N 0 F.hi N (.inl rfl) (by omega) hhi F.LUx C).2.1 hd2
      obtain ⟨Z, eZ⟩ := (BandTri.triM_spec F.o b2 false N 0 F.hi N (.inl rfl) (by omega) hhi F.LUx (tr (cj Y))).2.1 hd2
      rw [eY] at hn
      simp only [Option.bind_some] at hn
      rw [eZ] at hn
      cases hn
    · intro hd
      cases eY : BandTri.triM F.o b1 false N 0 F.hi N F.LUx C with
      | none => rfl
      | some Y =>
        simp only [Option.bind_some]
        cases eZ : BandTri.triM F.o b2 false N 0 F.hi N F.LUx (tr (cj Y)) with
        | none => rfl
        | some Z =>
          exfalso
          have := congrArg Matrix.det (key Y Z eY eZ).1
          rw [Matrix.det_mul, Matrix.det_mul, hd, mul_zero, mul_zero, Matrix.det_one] at this
          exact zero_ne_one this
  · intro V hV
    rw [Option.bind_eq_some_iff] at hV
    obtain ⟨Y, eY, hV⟩ := hV
    rw [Option.map_eq_some_iff] at hV
    obtain ⟨Z, eZ, rfl⟩ := hV
    exact key Y Z eY eZ

end

/-- **C90** (band): `makeInverseATA` through the band LU gives `(AᴴA)⁻¹` and raises exactly when `det A = 0` — if the
decomposition is of the transpose, or if it interchanged no rows. -/
theorem band_partial (ab : AbsoluteValue K S) (uf : S → Bool) (huf : ∀ x, uf x = true ↔ x = 0) (ufK : K → Bool)
    (hufK : ∀ x, ufK x = true ↔ x = 0) (oA : Ord) {N lo hi : Nat} (hlo : lo < N) (hhi : hi < N) {bs : Blk} (hbs : bs.OK)
    (o : Ord) (b1 b2 st : Bool) (A mem ata : Nat → Nat → K) :
    let F := BandLU.Fac.make ab uf ufK oA N lo hi A mem
    (F.istrans = true ∨ ∀ k, k < N → F.P k = k) →
    (band bs o b1 b2 st N F ata = none ↔ (toM N (bandMat lo hi A)).det = 0) ∧
    ∀ V, band bs o b1 b2 st N F ata = some V →
      toM N V * ((toM N (bandMat lo hi A))ᴴ * toM N (bandMat lo hi A)) = 1 ∧ ∀ i j, ¬ (i < N ∧ j < N) → V i j = ata i j := by
  intro F hF
  obtain ⟨f1, f2, hs⟩ := BandLU.make_spec ab uf huf ufK hufK oA hlo hhi A mem
  change F.lo < N at f1
  change F.hi < N at f2
  change BandLU.IsPLU ab N F.lo F.hi (if F.istrans then _ else _) F.LUx F.P at hs
  unfold band
  by_cases ht : F.istrans = true
  · rw [if_pos ht] at hs ⊢
    exact bandTrans_spec F hs f1 hbs o b1 st ata
  · rw [if_neg ht] at hs ⊢
    exact bandPlain_spec F hs f1 f2 (hF.resolve_left ht) b1 b2 ata

/-- With interchanges the other branch is wrong: only the lower triangle of `(P L)⁻¹ = L⁻¹ Pᵀ` is used, as if its diagonal
were 1 and its upper part 0 (TMV_BandLUD.cpp:301-305).  For `A = ((0,1),(1,0))`, column major, `(AᵀA)⁻¹ = I`, but the
result is `((1,1),(1,2))`. -/
theorem band_violated :
    let A : Nat → Nat → ℚ := fun i j => if i = j then 0 else 1
    (band ⟨⟨64, 2, 64, 32⟩, 64, 64, 32⟩ .cm true true true 2
        (BandLU.Fac.make (fun x : ℚ => |x|) (fun x => decide (x = 0)) (fun x => decide (x = 0)) .cm 2 1 1 A (fun _ _ => 0))
        (fun _ _ => 0)).map (fun V => (V 0 0, V 0 1, V 1 0, V 1 1)) = some (1, 1, 1, 2) ∧
      ∀ i < 2, ∀ j < 2, ∑ k ∈ Finset.range 2, bandMat 1 1 A k i * bandMat 1 1 A k j = if i = j then 1 else 0 := by
  decide +kernel

/-- A concrete case of `lu_spec`: 2×2, both storages. -/
theorem lu_example : ∀ arm : Bool,
    (((Fac.make (fun x : ℚ => |x|) (fun x => decide (x = 0)) ⟨64, 2, 64, 32⟩ arm 2
      (fun i j => if i = 0 then (if j = 0 then 0 else 2) else 1)).bind fun F =>
      lu ⟨⟨64, 2, 64, 32⟩, 64, 64, 32⟩ .cm true true true 2 F (fun _ _ => 9)).map fun V => (V 0 0, V 0 1, V 1 1, V 2 2))
      = some (5/4, -1/4, 1/4, 9) := by
  decide +kernel

end TMV.LUATA
