import Verif.Props.SymSV

/-! Singular value decompositions and square roots of Hermitian matrices. -/
namespace TMV.SymSV
open Matrix
variable {K : Type} [RCLike K]

/-- Signs. -/
noncomputable def sg (x : ℝ) : ℝ := if x < 0 then -1 else 1

theorem sg_abs (x : ℝ) : |x| * sg x = x := by
  unfold sg; split_ifs with h
  · rw [abs_of_neg h]; ring
  · rw [abs_of_nonneg (not_lt.mp h)]; ring

theorem sg_sq (x : ℝ) : sg x * sg x = 1 := by unfold sg; split_ifs <;> norm_num

theorem absS_eq {N : Nat} (S : Nat → ℝ) {i : Nat} (hi : i < N) : absS N S i = |S i| := by
  unfold absS; split_ifs with h
  · rw [abs_of_neg h.2]
  · rw [abs_of_nonneg (not_lt.mp fun u => h ⟨hi, u⟩)]

theorem diag_abs (N : Nat) (S : Nat → ℝ) :
    (diagonal (fun i : Fin N => ((absS N S i : ℝ) : K))) * diagonal (fun i : Fin N => ((sg (S i) : ℝ) : K)) = diagonal (fun i : Fin N => ((S i : ℝ) : K)) := by
  rw [diagonal_mul_diagonal]
  congr 1
  funext i
  rw [absS_eq S i.2, ← RCLike.ofReal_mul, sg_abs]

theorem diag_abs' (N : Nat) (S : Nat → ℝ) :
    diagonal (fun i : Fin N => ((sg (S i) : ℝ) : K)) * (diagonal (fun i : Fin N => ((absS N S i : ℝ) : K))) = diagonal (fun i : Fin N => ((S i : ℝ) : K)) := by
  rw [diagonal_mul_diagonal]
  congr 1
  funext i
  rw [absS_eq S i.2, ← RCLike.ofReal_mul, mul_comm, sg_abs]

theorem diag_sg (N : Nat) (S : Nat → ℝ) : diagonal (fun i : Fin N => ((sg (S i) : ℝ) : K)) * diagonal (fun i : Fin N => ((sg (S i) : ℝ) : K)) = 1 := by
  rw [diagonal_mul_diagonal, ← diagonal_one]
  congr 1
  funext i
  rw [← RCLike.ofReal_mul, sg_sq]; simp

theorem diag_sg_h (N : Nat) (S : Nat → ℝ) : (diagonal (fun i : Fin N => ((sg (S i) : ℝ) : K)))ᴴ = diagonal (fun i : Fin N => ((sg (S i) : ℝ) : K)) := by
  rw [diagonal_conjTranspose]; congr 1; funext i; simp

/-- From an eigenvalue decomposition to a singular value decomposition, the signs going to `Vt` -/
theorem Near.svd {N : Nat} {A : Matrix (Fin N) (Fin N) K} {δ : ℝ} {U : Matrix (Fin N) (Fin N) K} {S : Nat → ℝ} (h : Near A δ U S)
    (hd : ∀ i j, i ≤ j → j < N → |S j| ≤ |S i|) : NearSVD A δ U (absS N S) (diagonal (fun i : Fin N => ((sg (S i) : ℝ) : K)) * Uᴴ) := by
  refine ⟨h.uu, ?_, fun i hi => by rw [absS_eq S hi]; exact abs_nonneg _, fun i j hij hj => by rw [absS_eq S (lt_of_le_of_lt hij hj), absS_eq S hj]; exact hd i j hij hj, ?_⟩
  · rw [conjTranspose_mul, conjTranspose_conjTranspose, diag_sg_h, Matrix.mul_assoc, ← Matrix.mul_assoc Uᴴ, h.uu, Matrix.one_mul, diag_sg]
  · rw [← Matrix.mul_assoc, Matrix.mul_assoc U, diag_abs]
    exact h.prod

/-- or to `U`. -/
theorem Near.svd' {N : Nat} {A : Matrix (Fin N) (Fin N) K} {δ : ℝ} {U : Matrix (Fin N) (Fin N) K} {S : Nat → ℝ} (h : Near A δ U S)
    (hd : ∀ i j, i ≤ j → j < N → |S j| ≤ |S i|) : NearSVD A δ (U * diagonal (fun i : Fin N => ((sg (S i) : ℝ) : K))) (absS N S) Uᴴ := by
  refine ⟨?_, by rw [conjTranspose_conjTranspose]; exact h.uu, fun i hi => by rw [absS_eq S hi]; exact abs_nonneg _,
    fun i j hij hj => by rw [absS_eq S (lt_of_le_of_lt hij hj), absS_eq S hj]; exact hd i j hij hj, ?_⟩
  · rw [conjTranspose_mul, diag_sg_h, Matrix.mul_assoc, ← Matrix.mul_assoc Uᴴ, h.uu, Matrix.one_mul, diag_sg]
  · rw [Matrix.mul_assoc U, diag_abs']
    exact h.prod

/-- `HermSV_Decompose`. -/
theorem hermSV_spec (e : Env K) {N : Nat} (he : EnvOk e true N) (A U0 : Nat → Nat → K) (S0 : Nat → ℝ) (hA : ∀ k, k < N → RCLike.im (A k k) = 0) {o : Out K}
    (h : hermSV e N (setLower N A U0) S0 = some o) :
    Near (matOf N N (symFull true A)) (err e N (fro (matOf N N (symFull true A))) o) (matOf N N o.U) o.S ∧ ∀ i j, i ≤ j → j < N → |o.S j| ≤ |o.S i| := by
  obtain ⟨o1, h1, rfl⟩ := Option.map_eq_some_iff.mp h
  obtain ⟨U', n1, n2⟩ := unsorted_spec e he _ S0 (fun k hk => by rw [setLower, if_pos ⟨le_rfl, hk⟩]; exact hA k hk) h1
  rw [← n2 rfl, symFull_setLower] at n1
  obtain ⟨m1, m2⟩ := sortU_spec e he.srt (fun x => -|x|) n1
  exact ⟨m1, fun i j hij hj => by have := m2 i j hij hj; linarith⟩

theorem matOf_vtOf (N : Nat) (U : Nat → Nat → K) (S : Nat → ℝ) (V : Nat → Nat → K) :
    matOf N N (vtOf N U S V) = diagonal (fun i : Fin N => ((sg (S i) : ℝ) : K)) * (matOf N N U)ᴴ := by
  ext i j
  rw [diagonal_mul]
  simp only [matOf, of_apply, vtOf, i.2, j.2, and_self, if_true, conjTranspose_apply, sg]
  split_ifs <;> simp

theorem hermSVU_spec (e : Env K) {N : Nat} (he : EnvOk e true N) (A U0 : Nat → Nat → K) (S0 : Nat → ℝ) (Vt0 : Nat → Nat → K) (hA : ∀ k, k < N → RCLike.im (A k k) = 0)
    {o : Out K × (Nat → Nat → K)} (h : hermSVU e N A U0 S0 Vt0 = some o) :
    NearSVD (matOf N N (symFull true A)) (err e N (fro (matOf N N (symFull true A))) o.1) (matOf N N o.1.U) o.1.S (matOf N N o.2) := by
  obtain ⟨o1, h1, rfl⟩ := Option.map_eq_some_iff.mp h
  obtain ⟨n1, n2⟩ := hermSV_spec e he A U0 S0 hA h1
  have := n1.svd n2
  rw [← matOf_vtOf (V := Vt0)] at this
  exact this

theorem matOf_conjVt (N : Nat) (V : Nat → Nat → K) : matOf N N (conjVt N V) = (matOf N N V).map star := by
  ext i j
  simp [matOf, conjVt]

theorem map_star_star {N : Nat} (X : Matrix (Fin N) (Fin N) K) : (X.map star).map star = X := by ext i j; simp

/-- The conjugate. -/
theorem svd_conj {N : Nat} {A : Matrix (Fin N) (Fin N) K} {δ : ℝ} {U : Matrix (Fin N) (Fin N) K} {S : Nat → ℝ} {V : Matrix (Fin N) (Fin N) K}
    (h : NearSVD (A.map star) δ U S V) : NearSVD A δ (U.map star) S (V.map star) := by
  have := SVDec.NearSVD.conj h
  rwa [map_star_star] at this

theorem real_conj {N : Nat} {A : Nat → Nat → K} (hA : ∀ k, k < N → RCLike.im (A k k) = 0) : ∀ k, k < N → RCLike.im (conjM A k k) = 0 :=
  fun k hk => by rw [conjM, RCLike.star_def, RCLike.conj_im, hA k hk, neg_zero]

/-- **C109**  `SV_Decompose(A,U,S,Vt)` of a Hermitian matrix: when the iterations stop, `U S Vt` is a singular value decomposition of `A` up to `err`, whichever of the
views `U` and `Vt` are conjugated. -/
theorem svHerm_spec_partial (e : Env K) (uc vc : Bool) {N : Nat} (he : EnvOk e true N) (A U0 : Nat → Nat → K) (S0 : Nat → ℝ) (Vt0 : Nat → Nat → K)
    (hA : ∀ k, k < N → RCLike.im (A k k) = 0) {o : Out K × (Nat → Nat → K)} (h : svHerm e uc vc N A U0 S0 Vt0 = some o) :
    NearSVD (matOf N N (symFull true A)) (err e N (fro (matOf N N (symFull true A))) o.1) (matOf N N o.1.U) o.1.S (matOf N N o.2) := by
  cases uc <;> cases vc <;> simp only [svHerm, if_true, Bool.false_eq_true, if_false] at h
  · exact hermSVU_spec e he A U0 S0 Vt0 hA h
  · obtain ⟨o1, h1, rfl⟩ := Option.map_eq_some_iff.mp h
    have := hermSVU_spec e he A U0 S0 _ hA h1
    simp only
    rw [matOf_conjVt, matOf_conjM, map_star_star]
    exact this
  · obtain ⟨o1, h1, rfl⟩ := Option.map_eq_some_iff.mp h
    have := hermSVU_spec e he (conjM A) _ S0 _ (real_conj hA) h1
    rw [symFull_conjM, fro_map] at this
    have := svd_conj this
    simp only
    rw [matOf_conjVt, matOf_conjM]
    exact this
  · obtain ⟨o1, h1, rfl⟩ := Option.map_eq_some_iff.mp h
    have := hermSVU_spec e he (conjM A) _ S0 _ (real_conj hA) h1
    rw [symFull_conjM, fro_map] at this
    have := svd_conj this
    simp only
    rw [matOf_conjM, matOf_conjM]
    exact this

/-- `SV_Decompose(A,U,S)`: `U` and the signs. -/
theorem svHermU_near (e : Env K) (uc : Bool) {N : Nat} (he : EnvOk e true N) (A U0 : Nat → Nat → K) (S0 : Nat → ℝ) (hA : ∀ k, k < N → RCLike.im (A k k) = 0) {o : Out K}
    (h : svHermU e uc N A U0 S0 = some o) : ∃ S', o.S = absS N S' ∧ (∀ i j, i ≤ j → j < N → |S' j| ≤ |S' i|) ∧
      Near (matOf N N (symFull true A)) (err e N (fro (matOf N N (symFull true A))) o) (matOf N N o.U) S' := by
  rw [svHermU] at h
  split_ifs at h with hu
  · obtain ⟨o1, h1, rfl⟩ := Option.map_eq_some_iff.mp h
    obtain ⟨n1, n2⟩ := hermSV_spec e he (conjM A) _ S0 (real_conj hA) h1
    rw [symFull_conjM, fro_map] at n1
    exact ⟨o1.S, rfl, n2, n1.conj⟩
  · obtain ⟨o1, h1, rfl⟩ := Option.map_eq_some_iff.mp h
    obtain ⟨n1, n2⟩ := hermSV_spec e he A _ S0 hA h1
    exact ⟨o1.S, rfl, n2, n1⟩

/-- **C109**  `SV_Decompose(A,U,S)` of a Hermitian matrix: `U` and `S` are those of a singular value decomposition. -/
theorem svHermU_spec_partial (e : Env K) (uc : Bool) {N : Nat} (he : EnvOk e true N) (A U0 : Nat → Nat → K) (S0 : Nat → ℝ) (hA : ∀ k, k < N → RCLike.im (A k k) = 0) {o : Out K}
    (h : svHermU e uc N A U0 S0 = some o) : ∃ V, NearSVD (matOf N N (symFull true A)) (err e N (fro (matOf N N (symFull true A))) o) (matOf N N o.U) o.S V := by
  obtain ⟨S', s1, s2, n⟩ := svHermU_near e uc he A U0 S0 hA h
  rw [s1]
  exact ⟨_, n.svd s2⟩

/-- **C109**  `SV_Decompose(A,S,Vt)` of a Hermitian matrix: `S` and `Vt` are those of a singular value decomposition. -/
theorem svHermV_spec_partial (e : Env K) (vc : Bool) {N : Nat} (he : EnvOk e true N) (A Vt0 : Nat → Nat → K) (S0 : Nat → ℝ) (hA : ∀ k, k < N → RCLike.im (A k k) = 0) {o : Out K}
    (h : svHermV e vc N A Vt0 S0 = some o) : ∃ U, NearSVD (matOf N N (symFull true A)) (err e N (fro (matOf N N (symFull true A))) o) U o.S (matOf N N o.U) := by
  obtain ⟨o1, h1, rfl⟩ := Option.map_eq_some_iff.mp h
  obtain ⟨S', s1, s2, n⟩ := svHermU_near e _ he A _ S0 hA h1
  simp only [s1]
  exact ⟨_, n.svd' s2⟩

theorem matOf_hermView (up ac : Bool) {N : Nat} (A : Nat → Nat → K) (hA : ∀ k, k < N → RCLike.im (A k k) = 0) :
    matOf N N (symFull true (if up = true then (fun i j => A j i) else A)) = matOf N N (hermView up ac A) ∨
    matOf N N (symFull true (if up = true then (fun i j => A j i) else A)) = (matOf N N (hermView up ac A)).map star := by
  have hr : ∀ k, k < N → star (A k k) = A k k := fun k hk => RCLike.conj_eq_iff_im.mpr (hA k hk)
  have h0 : ∀ i j, (matOf N N (symFull true (if up = true then (fun i j => A j i) else A))) i j = (if up = true then star else id) (matOf N N (hermView up false A) i j) := by
    intro i j
    cases up
    · simp only [matOf, of_apply, symFull, hermView, cj, if_true, Bool.false_eq_true, if_false, id]
    · simp only [matOf, of_apply, symFull, hermView, cj, if_true, Bool.false_eq_true, if_false]
      rcases lt_trichotomy (i : Nat) j with u | u | u
      · rw [if_neg (by omega), if_pos (by omega)]
      · have : i = j := Fin.ext u
        subst this
        rw [if_pos le_rfl, hr i i.2]
      · rw [if_pos (by omega), if_neg (by omega), star_star]
  have h1 : matOf N N (hermView up true A) = (matOf N N (hermView up false A)).map star := by
    ext i j; simp [matOf, hermView]
  cases ac
  · cases up
    · exact Or.inl (by ext i j; rw [h0]; simp)
    · exact Or.inr (by ext i j; rw [h0]; simp)
  · rw [h1]
    cases up
    · exact Or.inr (by ext i j; rw [h0]; simp)
    · exact Or.inl (by ext i j; rw [h0]; simp)

/-- **C109**  `SV_Decompose(A,S)` of a Hermitian matrix, stored in either triangle, conjugated or not: `S` are its singular values. -/
theorem svHermS_spec_partial (e : Env K) (up ac : Bool) {N : Nat} (he : EnvOk e false N) (hr : StdSortContract (fun a b => decide (b < a)) e.srtR) (A : Nat → Nat → K) (S0 : Nat → ℝ)
    (hA : ∀ k, k < N → RCLike.im (A k k) = 0) {o : Out K} (h : svHermS e up N A S0 = some o) :
    ∃ U V, NearSVD (matOf N N (hermView up ac A)) (err e N (fro (matOf N N (hermView up ac A))) o) U o.S V := by
  obtain ⟨o1, h1, rfl⟩ := Option.map_eq_some_iff.mp h
  obtain ⟨U', n1, -⟩ := unsorted_spec e he _ S0 (fun k hk => by cases up <;> exact hA k hk) h1
  obtain ⟨σ, s1, s2⟩ := sortV_down N (absS N o1.S) hr
  set S1 : Nat → ℝ := fun i => if hi : i < N then o1.S (σ ⟨i, hi⟩) else 0 with hS1
  have n2 := n1.perm σ (S' := S1) (fun i => by rw [hS1]; simp)
  have s3 : ∀ i, i < N → absS N S1 i = sortV e.srtR N (absS N o1.S) i := fun i hi => by
    rw [s1 ⟨i, hi⟩, absS_eq _ hi, absS_eq _ (σ ⟨i, hi⟩).2, hS1]
    simp [hi]
  have n3 := n2.svd (fun i j hij hj => by
    have := s2 i j hij hj
    rwa [← s3 i (by omega), ← s3 j hj, absS_eq _ (by omega : i < N), absS_eq _ hj] at this)
  have cg : ∀ {B : Matrix (Fin N) (Fin N) K} {δ : ℝ} {U V : Matrix (Fin N) (Fin N) K}, NearSVD B δ U (absS N S1) V → NearSVD B δ U (sortV e.srtR N (absS N o1.S)) V := by
    intro B δ U V n
    refine ⟨n.uu, n.vv, fun i hi => by rw [← s3 i hi]; exact n.nonneg i hi, s2, ?_⟩
    have : (diagonal fun i : Fin N => ((sortV e.srtR N (absS N o1.S) i : ℝ) : K)) = diagonal fun i : Fin N => ((absS N S1 i : ℝ) : K) := by
      congr 1; funext i; rw [s3 i i.2]
    rw [this]; exact n.prod
  rcases matOf_hermView up ac A hA with hh | hh
  · rw [hh] at n3
    exact ⟨_, _, cg n3⟩
  · rw [hh, fro_map] at n3
    exact ⟨_, _, cg (svd_conj n3)⟩

end TMV.SymSV
