import Verif.Props.HermSV

/-! Square roots of Hermitian matrices. -/
namespace TMV.SymSV
open Matrix
variable {K : Type} [RCLike K]

section
attribute [local instance] Matrix.frobeniusNormedAddCommGroup
theorem fro_mul {m n k : Type} [Fintype m] [Fintype n] [Fintype k] (F : Matrix m n K) (G : Matrix n k K) : fro (F * G) ≤ fro F * fro G := by
  rw [fro_eq, fro_eq, fro_eq]
  exact frobenius_norm_mul F G
end

theorem fro_conjTranspose {m n : Type} [Fintype m] [Fintype n] (F : Matrix m n K) : fro Fᴴ = fro F := by
  rw [show Fᴴ = (Fᵀ).map star from rfl, SVDec.fro_star, fro_transpose]

/-- `|x† F x| ≤ ‖F‖ x† x`. -/
theorem qform_le {N : Nat} (F : Matrix (Fin N) (Fin N) K) (x : Fin N → K) : |qform F x| ≤ fro F * ∑ i, ‖x i‖ ^ 2 := by
  set X : Matrix (Fin N) (Fin 1) K := of fun i _ => x i with hX
  have h1 : star x ⬝ᵥ F *ᵥ x = (Xᴴ * (F * X)) 0 0 := rfl
  have h2 : fro X = Real.sqrt (∑ i, ‖x i‖ ^ 2) := by simp [fro, hX]
  have h3 : 0 ≤ ∑ i, ‖x i‖ ^ 2 := Finset.sum_nonneg fun i _ => by positivity
  unfold qform
  rw [h1]
  refine (RCLike.abs_re_le_norm _).trans ((SVQR.norm_le_fro _ 0 0).trans ((fro_mul _ _).trans ?_))
  rw [fro_conjTranspose]
  calc fro X * fro (F * X) ≤ fro X * (fro F * fro X) := mul_le_mul_of_nonneg_left (fro_mul _ _) (Real.sqrt_nonneg _)
    _ = fro F * (fro X * fro X) := by ring
    _ = _ := by rw [h2, Real.mul_self_sqrt h3]

theorem qform_sub {N : Nat} (A B : Matrix (Fin N) (Fin N) K) (x : Fin N → K) : qform (A - B) x = qform A x - qform B x := by
  unfold qform
  rw [sub_mulVec, dotProduct_sub, map_sub]

/-- `x† (U S U†) x` is a sum of `S i |y i|²`. -/
theorem qform_diag {N : Nat} (U : Matrix (Fin N) (Fin N) K) (S : Fin N → ℝ) (x : Fin N → K) :
    qform (U * diagonal (fun i => ((S i : ℝ) : K)) * Uᴴ) x = ∑ i, S i * ‖(Uᴴ *ᵥ x) i‖ ^ 2 := by
  have h1 : star x ⬝ᵥ (U * diagonal (fun i => ((S i : ℝ) : K)) * Uᴴ) *ᵥ x = star (Uᴴ *ᵥ x) ⬝ᵥ (diagonal (fun i => ((S i : ℝ) : K)) *ᵥ (Uᴴ *ᵥ x)) := by
    rw [star_mulVec, conjTranspose_conjTranspose, ← dotProduct_mulVec, mulVec_mulVec, mulVec_mulVec, Matrix.mul_assoc]
  unfold qform
  rw [h1]
  generalize Uᴴ *ᵥ x = y
  rw [dotProduct, map_sum]
  refine Finset.sum_congr rfl fun i _ => ?_
  rw [mulVec_diagonal, Pi.star_apply]
  have : star (y i) * (((S i : ℝ) : K) * y i) = ((S i * ‖y i‖ ^ 2 : ℝ) : K) := by
    rw [mul_left_comm, RCLike.star_def, RCLike.conj_mul]; push_cast; rfl
  rw [this, RCLike.ofReal_re]

theorem posSemi_diag {N : Nat} (U : Matrix (Fin N) (Fin N) K) (S : Fin N → ℝ) (hS : ∀ i, 0 ≤ S i) : PosSemi (U * diagonal (fun i => ((S i : ℝ) : K)) * Uᴴ) := by
  refine ⟨?_, fun x => ?_⟩
  · rw [conjTranspose_mul, conjTranspose_mul, conjTranspose_conjTranspose, diagonal_conjTranspose, Matrix.mul_assoc]
    congr 3
    funext i; simp
  · rw [qform_diag]
    exact Finset.sum_nonneg fun i _ => mul_nonneg (hS i) (by positivity)

theorem sqrtLoop_none : ∀ (m i : Nat) (D : Nat → ℝ), sqrtLoop m i D = none → ∃ k, i ≤ k ∧ k < i + m ∧ D k < 0
  | 0, i, D, h => by simp [sqrtLoop] at h
  | m+1, i, D, h => by
    rw [sqrtLoop] at h
    split_ifs at h with hi
    · exact ⟨i, le_rfl, by omega, hi⟩
    · obtain ⟨k, h1, h2, h3⟩ := sqrtLoop_none m (i+1) _ h
      rw [if_neg (by omega)] at h3
      exact ⟨k, by omega, by omega, h3⟩

theorem sqrtLoop_some : ∀ (m i : Nat) (D D' : Nat → ℝ), sqrtLoop m i D = some D' → (∀ k, i ≤ k → k < i + m → 0 ≤ D k ∧ D' k = Real.sqrt (D k)) ∧ ∀ k, k < i → D' k = D k
  | 0, i, D, D', h => by
    simp only [sqrtLoop, Option.some.injEq] at h
    subst h
    exact ⟨fun k h1 h2 => by omega, fun _ _ => rfl⟩
  | m+1, i, D, D', h => by
    rw [sqrtLoop] at h
    split_ifs at h with hi
    obtain ⟨h1, h2⟩ := sqrtLoop_some m (i+1) _ D' h
    refine ⟨fun k hk hk2 => ?_, fun k hk => ?_⟩
    · rcases Nat.eq_or_lt_of_le hk with u | u
      · subst u
        have := h2 i (by omega)
        rw [if_pos rfl] at this
        exact ⟨not_lt.mp hi, this⟩
      · have := h1 k u (by omega)
        rwa [if_neg (by omega)] at this
    · have := h2 k (by omega)
      rwa [if_neg (by omega)] at this

/-- The lower triangle of a Hermitian matrix, its diagonal made real, gives the matrix. -/
theorem symFull_prod {N : Nat} (X : Nat → Nat → K) (A : Nat → Nat → K) (hX : (matOf N N X)ᴴ = matOf N N X) :
    matOf N N (symFull true fun i j => if j ≤ i ∧ i < N then (if i = j then ((RCLike.re (X i j) : ℝ) : K) else X i j) else A i j) = matOf N N X := by
  have hx : ∀ i j, i < N → j < N → star (X j i) = X i j := fun i j hi hj => congrFun (congrFun hX ⟨i, hi⟩) ⟨j, hj⟩
  ext i j
  simp only [matOf, of_apply, symFull, cj, if_true]
  rcases lt_trichotomy (i : Nat) j with u | u | u
  · rw [if_neg (by omega), if_pos ⟨by omega, j.2⟩, if_neg (by omega)]
    exact hx i j i.2 j.2
  · have : i = j := Fin.ext u
    subst this
    rw [if_pos le_rfl, if_pos ⟨le_rfl, i.2⟩]
    simp only [if_true]
    exact RCLike.conj_eq_iff_re.mp (hx i i i.2 i.2)
  · rw [if_pos (by omega), if_pos ⟨by omega, i.2⟩, if_neg (by omega)]

/-- **C110**  `SquareRoot(A)` of a Hermitian matrix, when the iterations stop.  If it returns, the result is Hermitian, positive semidefinite and its square is `A` up to
`err`; then `A` is positive semidefinite up to `err`.  If it throws `NonPosDef` there is a unit vector with `x† A x < err`. -/
theorem squareRoot_spec_partial (e : Env K) {N : Nat} (he : EnvOk e true N) (A V0 : Nat → Nat → K) (S0 : Nat → ℝ) (hA : ∀ k, k < N → RCLike.im (A k k) = 0)
    {o : Out K} {r : Option (Nat → Nat → K)} (h : squareRoot e N A V0 S0 = some (o, r)) (δ : ℝ) (hδ : err e N (fro (matOf N N (symFull true A))) o = δ) :
    (∀ R, r = some R → PosSemi (matOf N N (symFull true R)) ∧ fro (matOf N N (symFull true R) * matOf N N (symFull true R) - matOf N N (symFull true A)) ≤ δ ∧
      ∀ x, -(δ * ∑ i, ‖x i‖ ^ 2) ≤ qform (matOf N N (symFull true A)) x) ∧
    (r = none → ∃ x : Fin N → K, ∑ i, ‖x i‖ ^ 2 = 1 ∧ qform (matOf N N (symFull true A)) x < δ) := by
  obtain ⟨o1, h1, h2⟩ := Option.map_eq_some_iff.mp h
  obtain ⟨rfl, rfl⟩ := Prod.mk.inj h2
  have n := eigen_spec_partial e false he A V0 S0 hA h1
  rw [hδ] at n
  set B := matOf N N (symFull true A) with hB
  set U := matOf N N o1.U with hU
  have hUU : U * Uᴴ = 1 := mul_eq_one_comm.mp n.uu
  set G := U * diagonal (fun i : Fin N => ((o1.S i : ℝ) : K)) * Uᴴ with hG
  refine ⟨fun R hR => ?_, fun hR => ?_⟩
  · obtain ⟨D, hD, rfl⟩ := Option.map_eq_some_iff.mp hR
    obtain ⟨d1, -⟩ := sqrtLoop_some N 0 o1.S D hD
    set X : Nat → Nat → K := fun i j => ∑ k ∈ Finset.range N, o1.U i k * (((D k : ℝ) : K) * star (o1.U j k)) with hX
    have hXm : matOf N N X = U * diagonal (fun i : Fin N => ((D i : ℝ) : K)) * Uᴴ := by
      ext i j
      rw [Matrix.mul_apply]
      simp only [mul_diagonal, conjTranspose_apply, hU, hX, matOf, of_apply]
      rw [Finset.sum_range]
      exact Finset.sum_congr rfl fun k _ => by ring
    have hps : PosSemi (matOf N N X) := by
      rw [hXm]
      exact posSemi_diag U _ fun i => by rw [(d1 i (by omega) (by omega)).2]; exact Real.sqrt_nonneg _
    have hR : matOf N N (symFull true fun i j => if j ≤ i ∧ i < N then (if i = j then ((RCLike.re (X i j) : ℝ) : K) else X i j) else A i j) = matOf N N X :=
      symFull_prod X A hps.1
    simp only
    rw [hR]
    refine ⟨hps, ?_, fun x => ?_⟩
    · have : matOf N N X * matOf N N X = G := by
        rw [hXm, Matrix.mul_assoc, Matrix.mul_assoc U, ← Matrix.mul_assoc Uᴴ, ← Matrix.mul_assoc Uᴴ, n.uu, Matrix.one_mul, ← Matrix.mul_assoc (diagonal _) (diagonal _),
          diagonal_mul_diagonal, hG, Matrix.mul_assoc]
        congr 3
        funext i
        obtain ⟨p, q⟩ := d1 i (by omega) (by omega)
        rw [q, ← RCLike.ofReal_mul, Real.mul_self_sqrt p]
      rw [this]
      exact n.prod
    · have a1 := qform_le (G - B) x
      rw [qform_sub] at a1
      have a2 : 0 ≤ qform G x := (posSemi_diag U _ fun i => (d1 i (by omega) (by omega)).1).2 x
      have a3 := mul_le_mul_of_nonneg_right n.prod (Finset.sum_nonneg fun i _ => by positivity : 0 ≤ ∑ i, ‖x i‖ ^ 2)
      have := (abs_le.mp (a1.trans a3)).2
      linarith
  · obtain ⟨k, -, k2, k3⟩ := sqrtLoop_none N 0 o1.S (Option.map_eq_none_iff.mp hR)
    set kk : Fin N := ⟨k, by omega⟩ with hkk
    have hs : ∑ i, ‖U i kk‖ ^ 2 = 1 := by
      have := congrFun (congrFun n.uu kk) kk
      simp only [Matrix.mul_apply, conjTranspose_apply, one_apply_eq, RCLike.star_def, RCLike.conj_mul] at this
      have h' := congrArg RCLike.re this
      rw [map_sum] at h'
      simp only [RCLike.one_re] at h'
      rw [← h']
      exact Finset.sum_congr rfl fun i _ => by rw [← RCLike.ofReal_pow, RCLike.ofReal_re]
    refine ⟨fun i => U i kk, hs, ?_⟩
    have a1 := qform_le (G - B) (fun i => U i kk)
    rw [qform_sub, hs, mul_one] at a1
    have a2 : qform G (fun i => U i kk) = o1.S k := by
      rw [hG, qform_diag]
      have : Uᴴ *ᵥ (fun i => U i kk) = Pi.single kk 1 := by
        have : Uᴴ *ᵥ (fun i => U i kk) = (Uᴴ * U).col kk := by
          funext i; rfl
        rw [this, n.uu]
        funext i
        simp [col, one_apply, Pi.single_apply]
      rw [this, Finset.sum_eq_single kk (fun b _ hb => by simp [Pi.single_apply, hb]) (fun h => absurd (Finset.mem_univ _) h)]
      simp [hkk]
    have := (abs_le.mp (a1.trans n.prod)).1
    linarith

end TMV.SymSV
