import Verif.Props.EigQR
import Verif.Spec.EVal

/-! The eigenvalues and eigenvectors of a Hermitian tridiagonal matrix. -/
namespace TMV.EigQR
open Matrix
open SVQR (mr mr_congr upd upd_same upd_ne norm_le_fro underflow maxAbsEl maxAbsEl_spec fro_smul perm_fin)
variable {K : Type} [RCLike K]
variable {c : Cfg} {N : Nat}

theorem sortPerm_spec {srt : List (ℝ × Nat) → List (ℝ × Nat)} (hsrt : StdSortContract (fun a b => decide (a.1 < b.1)) srt) (N : Nat) (key : Nat → ℝ) :
    (∀ k, k < N → k ≤ sortPerm srt N key k ∧ sortPerm srt N key k < N) ∧
    (∀ i j, i < j → j < N → key (swapProd (sortPerm srt N key) N 0 i) ≤ key (swapProd (sortPerm srt N key) N 0 j)) := by
  have e : sortPerm srt N key = SVQR.sortPerm srt N fun i => -key i := by simp only [sortPerm, SVQR.sortPerm, neg_neg]
  obtain ⟨h1, h2⟩ := SVQR.sortPerm_spec hsrt N fun i => -key i
  rw [e]
  exact ⟨h1, fun i j hij hj => by have := h2 i j hij hj; linarith⟩

/-- What one dropped element may change, for a matrix of norm `a`. -/
noncomputable def tol (c : Cfg) (a : ℝ) : ℝ := Real.sqrt 2 * max (max (2 * c.eps) c.tiny * a) c.tiny
/-- The same for an element dropped by the third test. -/
noncomputable def tol3 (c : Cfg) (a : ℝ) : ℝ := Real.sqrt 2 * (2 * Real.sqrt c.eps * a)

/-- The parameters: exact Givens rotations, `U` square, `eps` not negative, a positive smallest number. -/
structure CfgOk (c : Cfg) (N : Nat) : Prop where
  ge : c.ge = 0
  mU : c.hU = true → c.m = N
  ep : 0 ≤ c.eps
  t0 : 0 < c.tiny

/-- What is assumed of the divide and conquer part, for the problems it is called with. -/
def DCOk (K : Type) [RCLike K] (c : Cfg) (N : Nat) (dc : Nat → Nat → St K → Option (St K)) : Prop :=
  ∀ (A : Matrix (Fin N) (Fin N) K) (τ τ3 β : ℝ), Tau c τ τ3 β → SolvesDC c N A τ τ3 β dc

theorem DCOk.none (h : N ≤ c.dcl) (dc : Nat → Nat → St K → Option (St K)) : DCOk K c N dc := by
  intro A τ τ3 β _ lo hi s s' h1 h2 h3 h4
  omega

theorem zeroLoopD_spec {A : Matrix (Fin N) (Fin N) K} {τ τ3 β : ℝ} {s : St K} (h : TInv c N A τ τ3 β s) (hx : ∀ i, i < N → |s.D i| ≤ τ) (k : Nat) (hk : k ≤ N) :
    TInv c N A τ τ3 β (up zeroD k 0 s) ∧ (up zeroD k 0 s).E = s.E ∧ (∀ i, (up zeroD k 0 s).D i = if i < k then 0 else s.D i) := by
  have := Bidiag.up_succ (zeroD (K := K)) (fun j x => TInv c N A τ τ3 β x ∧ x.E = s.E ∧ (∀ i, x.D i = if i < j then 0 else s.D i)) k 0 s
    ⟨h, rfl, fun i => by simp⟩
    (by
      rintro j x _ h2 ⟨a1, a2, a3⟩
      refine ⟨a1.zeroD (by omega) rfl rfl rfl rfl rfl ?_, a2, fun i => ?_⟩
      · rw [a3, if_neg (by omega)]; exact hx j (by omega)
      · simp only [EigQR.zeroD, upd, a3]; grind)
  simpa using this

theorem zeroLoopE_spec {A : Matrix (Fin N) (Fin N) K} {τ τ3 β : ℝ} {s : St K} (h : TInv c N A τ τ3 β s) (hx : ∀ i, i + 1 < N → Real.sqrt 2 * |s.E i| ≤ τ)
    (k : Nat) (hk : k ≤ N - 1) :
    TInv c N A τ τ3 β (up zeroE k 0 s) ∧ (up zeroE k 0 s).D = s.D ∧ (∀ i, (up zeroE k 0 s).E i = if i < k then 0 else s.E i) := by
  have := Bidiag.up_succ (zeroE (K := K)) (fun j x => TInv c N A τ τ3 β x ∧ x.D = s.D ∧ (∀ i, x.E i = if i < j then 0 else s.E i)) k 0 s
    ⟨h, rfl, fun i => by simp⟩
    (by
      rintro j x _ h2 ⟨a1, a2, a3⟩
      refine ⟨a1.zeroE (i := j) (by omega) rfl rfl rfl rfl (k3 := 0) rfl ?_, a2, fun i => ?_⟩
      · have hj := hx j (by omega)
        rw [← show x.E j = s.E j by rw [a3, if_neg (by omega)]] at hj
        by_cases z : x.E j = 0
        · simp [z]
        · simpa [z] using hj
      · simp only [EigQR.zeroE, upd, a3]; grind)
  simpa using this

theorem mr_diag {D E : Nat → ℝ} (hE : ∀ i, i + 1 < N → E i = 0) : (mr N (tR D E) : Matrix (Fin N) (Fin N) K) = diagonal fun i : Fin N => ((D i : ℝ) : K) := by
  ext i j
  simp only [mr, tR, of_apply, diagonal_apply, Fin.ext_iff]
  split_ifs with h1 h2 h3
  · rfl
  · rw [hE i (by omega)]; simp
  · rw [hE j (by omega)]; simp
  · simp

theorem tridiag_eq (D E : Nat → ℝ) : (tridiag N D E : Matrix (Fin N) (Fin N) K) = mr N (tR D E) := rfl

/-- **C106**  The main part: `A = U0 T U0†`, `T` tridiagonal; the result is an eigenvalue decomposition of `A` up to `tol` for every nonzero element that was
dropped as negligible, but `tol3`, a multiple of the square root of `eps`, for those dropped by the third test. -/
theorem fromTridiag_spec_partial (hc : CfgOk c N) {dc : Nat → Nat → St K → Option (St K)} (hdc : DCOk K c N dc)
    {srt : List (ℝ × Nat) → List (ℝ × Nat)} (hsrt : StdSortContract (fun a b => decide (a.1 < b.1)) srt) {f : Nat} {s s' : St K} (h0 : s.cnt = 0) (h03 : s.cnt3 = 0)
    {U0 : Matrix (Fin N) (Fin N) K} (hU : U0ᴴ * U0 = 1) (hsU : c.hU = true → matOf N N s.U = U0)
    (h : fromTridiag c dc srt f N s = some s') :
    ∃ U : Matrix (Fin N) (Fin N) K,
      NearEig (U0 * (tridiag N s.D s.E : Matrix (Fin N) (Fin N) K) * U0ᴴ)
        (s'.cnt * tol c (fro (tridiag N s.D s.E : Matrix (Fin N) (Fin N) K)) + s'.cnt3 * tol3 c (fro (tridiag N s.D s.E : Matrix (Fin N) (Fin N) K))) U s'.D ∧
      (c.hU = true → matOf N N s'.U = U) := by
  set A := U0 * (tridiag N s.D s.E : Matrix (Fin N) (Fin N) K) * U0ᴴ with hA
  have hU' : U0ᴴ * U0ᴴᴴ = 1 := by rw [conjTranspose_conjTranspose]; exact hU
  have hfA : fro A = fro (tridiag N s.D s.E : Matrix (Fin N) (Fin N) K) := by rw [hA, fro_iso' hU', fro_iso hU]
  rw [← hfA]
  have hn : 0 ≤ fro A := Real.sqrt_nonneg _
  rw [fromTridiag] at h
  simp only at h
  split_ifs at h with hN hund
  · subst hN
    cases h
    refine ⟨U0, ⟨hU, fun i j _ hj => by omega, ?_⟩, hsU⟩
    have : U0 * (diagonal fun i : Fin 0 => ((s.D i : ℝ) : K)) * U0ᴴ - A = 0 := by ext i j; exact j.elim0
    rw [this, fro_zero, h0, h03]; simp
  · cases h
    obtain ⟨e1, e2, -⟩ := maxAbsEl_spec N s.D
    obtain ⟨e3, e4, -⟩ := maxAbsEl_spec (N-1) s.E
    have hsc : max (maxAbsEl N s.D) (maxAbsEl (N-1) s.E) < c.tiny := lt_of_le_of_lt (le_abs_self _) hund
    have hD : ∀ i, i < N → |s.D i| ≤ c.tiny := fun i hi => ((e2 i hi).trans (le_max_left _ _)).trans hsc.le
    have hE : ∀ i, i + 1 < N → |s.E i| ≤ c.tiny := fun i hi => ((e4 i (by omega)).trans (le_max_right _ _)).trans hsc.le
    have i0 : TInv c N A (Real.sqrt 2 * c.tiny) (tol3 c (fro A)) (fro A) s :=
      ⟨by rw [hfA, tridiag_eq], U0, 0, hU, by rw [fro_zero, h0, h03]; simp, by rw [add_zero, hA, tridiag_eq], hsU⟩
    obtain ⟨a1, a2, a3⟩ := zeroLoopD_spec i0 (fun i hi => (hD i hi).trans (by have := one_le_sqrt2; have := hc.t0; nlinarith)) N le_rfl
    obtain ⟨b1, b2, b3⟩ := zeroLoopE_spec a1 (fun i hi => by rw [a2]; exact mul_le_mul_of_nonneg_left (hE i hi) (Real.sqrt_nonneg _)) (N-1) le_rfl
    obtain ⟨-, U, F, g1, g3, g4, g5⟩ := b1
    have hz : ∀ i, i < N → (up zeroE (N-1) 0 (up zeroD N 0 s)).D i = 0 := fun i hi => by rw [b2, a3, if_pos hi]
    refine ⟨U, ⟨g1, fun i j hij hj => by rw [hz i (by omega), hz j hj], ?_⟩, g5⟩
    rw [mr_diag (fun i hi => by rw [b3, if_pos (by omega)])] at g4
    rw [← g4, add_sub_cancel_left]
    refine g3.trans (add_le_add ?_ le_rfl)
    exact mul_le_mul_of_nonneg_left (mul_le_mul_of_nonneg_left (le_max_right _ _) (Real.sqrt_nonneg _)) (Nat.cast_nonneg _)
  · obtain ⟨e1, e2, e2'⟩ := maxAbsEl_spec N s.D
    obtain ⟨e3, e4, e4'⟩ := maxAbsEl_spec (N-1) s.E
    obtain ⟨s1, g1, rfl⟩ := Option.map_eq_some_iff.mp h
    set sc := max (maxAbsEl N s.D) (maxAbsEl (N-1) s.E) with hsc
    have hsc0 : 0 < sc := by
      have h1 : 0 ≤ sc := e1.trans (le_max_left _ _)
      rw [underflow, abs_of_nonneg h1, not_lt] at hund
      exact lt_of_lt_of_le hc.t0 hund
    have hscA : sc ≤ fro A := by
      rw [hfA, hsc]
      refine max_le ?_ ?_
      · rcases e2' with u | ⟨k, hk, u⟩
        · rw [u]; exact Real.sqrt_nonneg _
        · rw [← u]
          have := norm_le_fro (tridiag N s.D s.E : Matrix (Fin N) (Fin N) K) ⟨k, hk⟩ ⟨k, hk⟩
          simpa [tridiag] using this
      · rcases e4' with u | ⟨k, hk, u⟩
        · rw [u]; exact Real.sqrt_nonneg _
        · rw [← u]
          have := norm_le_fro (tridiag N s.D s.E : Matrix (Fin N) (Fin N) K) ⟨k, by omega⟩ ⟨k+1, by omega⟩
          simpa [tridiag] using this
    set sS : St K := unscale N sc s with hsS
    have hB : (mr N (tR sS.D sS.E) : Matrix (Fin N) (Fin N) K) = ((sc⁻¹ : ℝ) : K) • tridiag N s.D s.E := by
      rw [tridiag_eq]
      ext i j
      simp only [mr, tR, hsS, unscale, of_apply, Matrix.smul_apply, smul_eq_mul]
      have hi := i.2; have hj := j.2
      by_cases v1 : (i : Nat) = j
      · simp [v1, div_eq_inv_mul]
      · by_cases v2 : (i : Nat) + 1 = j
        · have : (i : Nat) < N - 1 := by omega
          simp [v1, v2, this, div_eq_inv_mul]
        · by_cases v3 : (j : Nat) + 1 = i
          · have : (j : Nat) < N - 1 := by omega
            simp [v1, v2, v3, this, div_eq_inv_mul]
          · simp [v1, v2, v3]
    set A' : Matrix (Fin N) (Fin N) K := ((sc⁻¹ : ℝ) : K) • A with hA'
    set β := fro A' with hβ
    set τ := Real.sqrt 2 * max (2 * c.eps * β) c.tiny with hτd
    set τ3 := Real.sqrt 2 * (2 * Real.sqrt c.eps * β) with hτ3
    have hτ : Tau c τ τ3 β := ⟨hc.ep, hc.t0, mul_le_mul_of_nonneg_left (le_max_left _ _) (Real.sqrt_nonneg _),
      mul_le_mul_of_nonneg_left (le_max_right _ _) (Real.sqrt_nonneg _), le_rfl⟩
    have hA2 : A' = U0 * mr N (tR sS.D sS.E) * U0ᴴ := by rw [hB, hA', hA, Matrix.mul_smul, Matrix.smul_mul]
    have i0 : TInv c N A' τ τ3 β sS := by
      refine ⟨?_, U0, 0, hU, by rw [fro_zero, show sS.cnt = 0 from h0, show sS.cnt3 = 0 from h03]; simp, by rw [add_zero, hA2], hsU⟩
      rw [hβ, hA2, fro_iso' hU', fro_iso hU]
    have dn := dec_spec hc.ge hc.mU hτ (hdc A' τ τ3 β hτ) (by omega) i0 g1
    obtain ⟨q1, q2⟩ := sortPerm_spec hsrt N fun i => -|s1.D i|
    rw [sortDU]
    simp only [scaleD]
    generalize sortPerm srt N (fun i => -|s1.D i|) = P at *
    obtain ⟨σ, hσ⟩ := perm_fin P N q1
    obtain ⟨-, U, F, g1', g3', g4', g5'⟩ := dn.inv
    rw [mr_diag (fun i hi => dn.z i (by omega) (by omega))] at g4'
    refine ⟨U.submatrix id σ, ⟨?_, fun i j hij hj => ?_, ?_⟩, fun u => ?_⟩
    · rw [conjTranspose_submatrix, ← Matrix.submatrix_mul _ _ _ id _ Function.bijective_id, g1']
      exact Matrix.submatrix_one_equiv σ
    · simp only [if_pos hj, if_pos (show i < N by omega)]
      rw [LU.permuteRows_eq _ _ _ _ _ _ _ (by omega), LU.permuteRows_eq _ _ _ _ _ _ _ (by omega), abs_mul, abs_mul]
      rcases Nat.eq_or_lt_of_le hij with u | u
      · subst u; exact le_rfl
      · exact mul_le_mul_of_nonneg_left (by have := q2 i j u hj; linarith) (abs_nonneg _)
    · have hd : (diagonal fun i : Fin N => (((if (i:Nat) < N then sc * (if (i:Nat) < N then LU.permuteRows 1 P N 0 (fun a _ => s1.D a) i 0 else s1.D i)
            else (if (i:Nat) < N then LU.permuteRows 1 P N 0 (fun a _ => s1.D a) i 0 else s1.D i) : ℝ)) : K)) =
          ((sc : ℝ) : K) • ((diagonal fun i : Fin N => ((s1.D i : ℝ) : K)).submatrix σ σ) := by
        ext i j
        simp only [diagonal_apply, Matrix.smul_apply, submatrix_apply, if_pos i.2, smul_eq_mul, EmbeddingLike.apply_eq_iff_eq]
        rw [LU.permuteRows_eq _ _ _ _ _ _ _ (by omega), hσ]
        split_ifs <;> simp
      rw [hd, Matrix.mul_smul, Matrix.smul_mul, conjTranspose_submatrix, Matrix.submatrix_mul_equiv, Matrix.submatrix_mul_equiv, Matrix.submatrix_id_id, ← g4', hA',
        smul_add, smul_smul, ← RCLike.ofReal_mul, mul_inv_cancel₀ hsc0.ne', RCLike.ofReal_one, one_smul, add_sub_cancel_left, fro_smul, abs_of_pos hsc0]
      have hb : sc * β = fro A := by
        rw [hβ, hA', fro_smul, abs_of_pos (inv_pos.mpr hsc0), ← mul_assoc, mul_inv_cancel₀ hsc0.ne', one_mul]
      have hsτ : sc * τ ≤ tol c (fro A) := by
        rw [tol, hτd, mul_left_comm]
        refine mul_le_mul_of_nonneg_left (le_trans ?_ (le_max_left _ _)) (Real.sqrt_nonneg _)
        rw [mul_max_of_nonneg _ _ hsc0.le]
        refine max_le ?_ ?_
        · rw [show sc * (2 * c.eps * β) = 2 * c.eps * (sc * β) by ring, hb]
          exact mul_le_mul_of_nonneg_right (le_max_left _ _) hn
        · rw [mul_comm]
          exact mul_le_mul (le_max_right _ _) hscA hsc0.le (le_trans hc.t0.le (le_max_right _ _))
      have hsτ3 : sc * τ3 = tol3 c (fro A) := by
        rw [tol3, hτ3, ← hb]; ring
      calc sc * fro F ≤ sc * (s1.cnt * τ + s1.cnt3 * τ3) := mul_le_mul_of_nonneg_left g3' hsc0.le
        _ = s1.cnt * (sc * τ) + s1.cnt3 * (sc * τ3) := by ring
        _ ≤ _ := by rw [hsτ3]; exact add_le_add (mul_le_mul_of_nonneg_left hsτ (Nat.cast_nonneg _)) le_rfl
    · rw [← g5' u]
      ext a b
      simp only [matOf, of_apply, submatrix_apply, id, u, if_true]
      rw [LU.permuteRows_eq _ _ _ _ _ _ _ (by rw [hc.mU u]; exact a.2), hσ]

/-- **C106**  The same without any assumption on the divide and conquer part, up to `DC_LIMIT` rows (it is not used then). -/
theorem fromTridiag_small_partial (hc : CfgOk c N) (hhU : c.hU = true) (hN : N ≤ c.dcl) {dc : Nat → Nat → St K → Option (St K)}
    {srt : List (ℝ × Nat) → List (ℝ × Nat)} (hsrt : StdSortContract (fun a b => decide (a.1 < b.1)) srt) {f : Nat} {s s' : St K} (h0 : s.cnt = 0) (h03 : s.cnt3 = 0)
    (hU : (matOf N N s.U)ᴴ * matOf N N s.U = 1) (h : fromTridiag c dc srt f N s = some s') :
      NearEig (matOf N N s.U * (tridiag N s.D s.E : Matrix (Fin N) (Fin N) K) * (matOf N N s.U)ᴴ)
        (s'.cnt * tol c (fro (tridiag N s.D s.E : Matrix (Fin N) (Fin N) K)) + s'.cnt3 * tol3 c (fro (tridiag N s.D s.E : Matrix (Fin N) (Fin N) K)))
        (matOf N N s'.U) s'.D := by
  obtain ⟨U, g1, g2⟩ := fromTridiag_spec_partial hc (DCOk.none hN dc) hsrt h0 h03 hU (fun _ => rfl) h
  rw [g2 hhU]; exact g1

end TMV.EigQR
