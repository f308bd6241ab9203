import Verif.Props.SymSVEx

/-! The polar decomposition. -/
namespace TMV.SymSV
open Matrix
variable {K : Type} [RCLike K]

theorem dropS_dist {eps : ℝ} {N : Nat} {S : Nat → ℝ} (h0 : ∀ i, i < N → 0 ≤ S i) (i : Nat) (hi : i < N) :
    0 ≤ dropS eps N S i ∧ |dropS eps N S i - S i| ≤ max 0 (eps * N * S 0) := by
  rw [dropS]
  split_ifs with h
  · refine ⟨le_rfl, ?_⟩
    rw [zero_sub, abs_neg, abs_of_nonneg (h0 i hi)]
    exact le_max_of_le_right h.2.le
  · exact ⟨h0 i hi, by simp⟩

/-- **C111**  `PolarDecompose(U,P)` of an `M × N` matrix, `M ≥ N > 0`, when the iterations of the singular value decomposition stop: the new `U` has orthonormal columns, `P` is
Hermitian and positive semidefinite, and their product is the old `U` up to the error of the singular value decomposition and of the small singular values set to zero. -/
theorem polar_spec_partial (e : SVDec.Env K) (uc : Bool) {M N : Nat} (he : SVDec.EnvOk e true true M N) (he' : SVDec.EnvOk e true true N N) (hM : N ≤ M) (hN : 0 < N)
    (U P V0 : Nat → Nat → K) (S0 : Nat → ℝ) {o : SVDec.Out K} {U' P' : Nat → Nat → K} (h : polar e uc M N U P V0 S0 = some (o, U', P'))
    (a δ : ℝ) (ha : a = fro (matOf M N (SVDec.view uc U))) (hδ : δ = SVDec.err e M N a o) :
    (matOf M N U')ᴴ * matOf M N U' = 1 ∧ PosSemi (matOf N N (symFull true P')) ∧
      fro (matOf M N U' * matOf N N (symFull true P') - matOf M N (SVDec.view uc U)) ≤ δ + Real.sqrt N * (e.eps * N * (a + δ)) := by
  obtain ⟨o1, h1, h2⟩ := Option.map_eq_some_iff.mp h
  simp only [Prod.mk.injEq] at h2
  obtain ⟨rfl, hU, hP⟩ := h2
  obtain ⟨W, n, hW⟩ := SVDec.svUser_spec_partial e uc false he he' hM U S0 V0 o1 h1
  have hV : SVDec.view false o1.Vt = o1.Vt := rfl
  rw [hV] at n
  replace hW := hW rfl
  rw [← ha, ← hδ] at n
  set A := matOf M N (SVDec.view uc U) with hA
  set V := matOf N N o1.Vt with hVdef
  set S := dropS e.eps N o1.S with hS
  have hVV : Vᴴ * V = 1 := mul_eq_one_comm.mp n.vv
  have u1 : matOf M N U' = W * V := by
    rw [← hU, ← hW]
    ext i j
    simp only [matOf, of_apply, i.2, j.2, and_self, if_true, Matrix.mul_apply, hVdef]
    rw [Finset.sum_range]
  set X : Nat → Nat → K := fun i j => ∑ k ∈ Finset.range N, star (o1.Vt k i) * ((S k : ℝ) : K) * o1.Vt k j with hX
  have hXm : matOf N N X = Vᴴ * diagonal (fun i : Fin N => ((S i : ℝ) : K)) * (Vᴴ)ᴴ := by
    ext i j
    rw [conjTranspose_conjTranspose, Matrix.mul_apply]
    simp only [mul_diagonal, conjTranspose_apply, hVdef, hX, matOf, of_apply]
    rw [Finset.sum_range]
  have d := dropS_dist (eps := e.eps) n.nonneg
  have hps : PosSemi (matOf N N X) := by rw [hXm]; exact posSemi_diag Vᴴ _ fun i => (d i i.2).1
  have hP' : matOf N N (symFull true P') = matOf N N X := by rw [← hP]; exact symFull_prod X P hps.1
  rw [hP', u1]
  refine ⟨by rw [conjTranspose_mul, Matrix.mul_assoc, ← Matrix.mul_assoc Wᴴ, n.uu, Matrix.one_mul, hVV], hps, ?_⟩
  have e1 : W * V * matOf N N X - A = (W * diagonal (fun i : Fin N => ((o1.S i : ℝ) : K)) * V - A) + W * (diagonal (fun i : Fin N => ((S i - o1.S i : ℝ) : K))) * V := by
    have : (diagonal fun i : Fin N => ((S i : ℝ) : K)) = (diagonal fun i : Fin N => ((o1.S i : ℝ) : K)) + diagonal fun i : Fin N => ((S i - o1.S i : ℝ) : K) := by
      rw [diagonal_add]; congr 1; funext i; push_cast; ring
    rw [hXm, conjTranspose_conjTranspose, ← Matrix.mul_assoc, ← Matrix.mul_assoc, Matrix.mul_assoc W, n.vv, Matrix.mul_one, this, Matrix.mul_add, Matrix.add_mul]
    abel
  rw [e1]
  refine (fro_add _ _).trans (add_le_add n.prod ?_)
  rw [fro_iso' n.vv, fro_iso n.uu]
  have hS0 : o1.S 0 ≤ a + δ := by
    have h1 : fro (W * diagonal (fun i : Fin N => ((o1.S i : ℝ) : K)) * V) ≤ a + δ := by
      have : W * diagonal (fun i : Fin N => ((o1.S i : ℝ) : K)) * V = A + (W * diagonal (fun i : Fin N => ((o1.S i : ℝ) : K)) * V - A) := by abel
      rw [this]
      refine (fro_add _ _).trans (add_le_add (le_of_eq ha.symm) n.prod)
    rw [fro_iso' n.vv, fro_iso n.uu] at h1
    have h2 := SVQR.norm_le_fro (diagonal (fun i : Fin N => ((o1.S i : ℝ) : K))) ⟨0, hN⟩ ⟨0, hN⟩
    rw [diagonal_apply_eq, RCLike.norm_ofReal] at h2
    exact (le_abs_self _).trans (h2.trans h1)
  have hb : 0 ≤ e.eps * N * o1.S 0 := mul_nonneg (mul_nonneg he.ep (Nat.cast_nonneg _)) (n.nonneg 0 hN)
  calc fro (diagonal (fun i : Fin N => ((S i - o1.S i : ℝ) : K))) ≤ Real.sqrt (N * (e.eps * N * o1.S 0) ^ 2) := by
        unfold fro
        apply Real.sqrt_le_sqrt
        calc ∑ i : Fin N, ∑ j : Fin N, ‖diagonal (fun i : Fin N => ((S i - o1.S i : ℝ) : K)) i j‖ ^ 2
            = ∑ i : Fin N, |S i - o1.S i| ^ 2 := Finset.sum_congr rfl fun i _ => by
              rw [Finset.sum_eq_single i (fun b _ hb => by rw [diagonal_apply_ne _ hb.symm]; simp) (fun h => absurd (Finset.mem_univ _) h), diagonal_apply_eq, RCLike.norm_ofReal]
          _ ≤ ∑ _i : Fin N, (e.eps * N * o1.S 0) ^ 2 := Finset.sum_le_sum fun i _ => by
              have := (d i i.2).2
              rw [max_eq_right hb] at this
              exact pow_le_pow_left₀ (abs_nonneg _) this 2
          _ = _ := by simp
    _ = Real.sqrt N * (e.eps * N * o1.S 0) := by rw [Real.sqrt_mul (Nat.cast_nonneg _), Real.sqrt_sq hb]
    _ ≤ _ := mul_le_mul_of_nonneg_left (mul_le_mul_of_nonneg_left hS0 (mul_nonneg he.ep (Nat.cast_nonneg _))) (Real.sqrt_nonneg _)

/-- The hypotheses are met: the function ends for every matrix with one column. -/
theorem polar_runs (e : SVDec.Env K) (hf : 0 < e.fuel) (uc : Bool) (M : Nat) (U P V0 : Nat → Nat → K) (S0 : Nat → ℝ) : ∃ o, polar e uc M 1 U P V0 S0 = some o := by
  obtain ⟨o, ho⟩ := SVDec.svUser_runs e hf true uc false M U S0 V0
  rw [polar, ho]
  exact ⟨_, rfl⟩

end TMV.SymSV
