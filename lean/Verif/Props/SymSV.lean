import Verif.Model.SymSV
import Verif.Props.EigEx
import Verif.Props.Tridiag
import Verif.Props.SVDec
import Mathlib.Data.Fin.Tuple.Sort

/-! Eigenvalues and singular values of Hermitian matrices. -/
namespace TMV.SymSV
open Matrix
open SVQR (fro_smul perm_fin)
open EigQR (DCOk CfgOk tol tol3 sortPerm_spec)
open SVDec (under under_nonneg)
variable {K : Type} [RCLike K]

/-- What is assumed of the parameters. -/
structure EnvOk (e : Env K) (hU : Bool) (N : Nat) : Prop where
  t0 : 0 < e.tiny
  ep : 0 ≤ e.eps
  nb : 0 < e.nb
  qb : 0 < e.qb
  srt : StdSortContract (fun a b => decide (a.1 < b.1)) e.srt
  dc : DCOk K (cfg e hU N) N (e.dc (cfg e hU N))

/-- What one dropped element may change, for a matrix of norm `a`. -/
noncomputable def drop (e : Env K) (a : ℝ) : ℝ := Real.sqrt 2 * max (max (2 * e.eps) e.tiny * a) e.tiny
/-- The same for an element dropped by the third test. -/
noncomputable def drop3 (e : Env K) (a : ℝ) : ℝ := Real.sqrt 2 * (2 * Real.sqrt e.eps * a)
/-- The bound for the vectors taken as zero, if there may have been one. -/
noncomputable def low (e : Env K) (N : Nat) (o : Out K) : ℝ := under o.low (2 * N * Real.sqrt N * e.tiny)
/-- The bound for the error, `a` being the norm of the matrix. -/
noncomputable def err (e : Env K) (N : Nat) (a : ℝ) (o : Out K) : ℝ :=
  low e N o + (o.cnt * drop e (a + low e N o) + o.cnt3 * drop3 e (a + low e N o))

theorem drop_mono (e : Env K) (hp : 0 ≤ e.eps) {a b : ℝ} (h : a ≤ b) : drop e a ≤ drop e b :=
  mul_le_mul_of_nonneg_left (max_le_max (mul_le_mul_of_nonneg_left h (le_max_of_le_left (by positivity))) le_rfl) (Real.sqrt_nonneg _)
theorem drop3_mono (e : Env K) {a b : ℝ} (h : a ≤ b) : drop3 e a ≤ drop3 e b :=
  mul_le_mul_of_nonneg_left (mul_le_mul_of_nonneg_left h (mul_nonneg (by norm_num) (Real.sqrt_nonneg _))) (Real.sqrt_nonneg _)

theorem err_congr {e : Env K} {N : Nat} {a : ℝ} {o o' : Out K} (h1 : o'.low = o.low) (h2 : o'.cnt = o.cnt) (h3 : o'.cnt3 = o.cnt3) :
    err e N a o' = err e N a o := by rw [err, err, low, low, h1, h2, h3]

theorem err_nonneg {e : Env K} {N : Nat} {a : ℝ} {o : Out K} (ht : 0 < e.tiny) (hp : 0 ≤ e.eps) (ha : 0 ≤ a) : 0 ≤ err e N a o := by
  have h1 : 0 ≤ low e N o := under_nonneg (by positivity)
  have h2 : 0 ≤ drop e (a + low e N o) := mul_nonneg (Real.sqrt_nonneg _) (le_max_of_le_right ht.le)
  have h3 : 0 ≤ drop3 e (a + low e N o) := by unfold drop3; positivity
  unfold err
  positivity

/-- An eigenvalue decomposition, in no order. -/
structure Near {N : Nat} (A : Matrix (Fin N) (Fin N) K) (δ : ℝ) (U : Matrix (Fin N) (Fin N) K) (S : Nat → ℝ) : Prop where
  uu : Uᴴ * U = 1
  prod : fro (U * diagonal (fun i : Fin N => ((S i : ℝ) : K)) * Uᴴ - A) ≤ δ

theorem tridiagK_real {N : Nat} {D : Nat → K} {E : Nat → ℝ} (hD : ∀ k, k < N → RCLike.im (D k) = 0) :
    tridiagK N D E = tridiag N (fun k => RCLike.re (D k)) E := by
  ext i j
  simp only [tridiagK, tridiag, of_apply]
  split_ifs with h1 h2 h3
  · exact (RCLike.conj_eq_iff_re.mp (RCLike.conj_eq_iff_im.mpr (hD i i.2))).symm
  · rfl
  · rfl
  · simp

/-- `UnsortedHermEigen` and `UnsortedEigen`. -/
theorem unsorted_spec (e : Env K) {hU : Bool} {N : Nat} (he : EnvOk e hU N) (U : Nat → Nat → K) (S : Nat → ℝ) (hs : ∀ k, k < N → RCLike.im (U k k) = 0) {o : Out K}
    (h : unsorted e hU N U S = some o) :
    ∃ U', Near (matOf N N (symFull true U)) (err e N (fro (matOf N N (symFull true U))) o) U' o.S ∧ (hU = true → matOf N N o.U = U') := by
  rw [unsorted] at h
  by_cases hN : N = 0
  · subst hN
    rw [if_pos rfl] at h
    cases h
    refine ⟨matOf 0 0 U, ⟨Subsingleton.elim _ _, ?_⟩, fun _ => rfl⟩
    refine le_trans (le_of_eq ?_) (err_nonneg he.t0 he.ep (Real.sqrt_nonneg _))
    simp [fro]
  rw [if_neg hN] at h
  simp only at h
  set t := Tridiag.tridiagonalize true e.tiny e.nb N e.Z ⟨U, e.b0, fun k => ((S k : ℝ) : K), e.E0, 0⟩ with ht
  obtain ⟨r, hr, rfl⟩ := Option.map_eq_some_iff.mp h
  obtain ⟨g1, g2, ⟨F, f1, f2, f3⟩, -⟩ := Tridiag.tridiagonalize_spec (h := true) he.t0 he.nb he.qb (by omega) e.Z e.Zu ⟨U, e.b0, fun k => ((S k : ℝ) : K), e.E0, 0⟩ t
    (fun _ k hk => hs k hk) ht.symm _ rfl
  set U0 := matOf N N (Tridiag.makeU e.qb N t.b e.Zu t.A) with hU0
  rw [tridiagK_real (g2 rfl)] at f3
  set T : Matrix (Fin N) (Fin N) K := tridiag N (fun k => RCLike.re (t.D k)) t.E with hT
  set A := matOf N N (symFull true U) with hA
  have f3' : A + F = U0 * T * U0ᴴ := f3
  set o : Out K := ⟨r.U, r.D, ∃ k, k + 1 < N ∧ t.E k = 0, r.cnt, r.cnt3⟩ with ho
  have hF : fro F ≤ low e N o := by
    unfold low under
    split_ifs with hl
    · exact f1
    · simp only [ho] at hl
      push Not at hl
      rw [f2 (fun k hk => hl k hk), fro_zero]
  obtain ⟨U', n1, n2⟩ := EigQR.fromTridiag_spec_partial (N := N) (U0 := U0) (c := cfg e hU N) ⟨rfl, fun _ => rfl, he.ep, he.t0⟩ he.dc he.srt
    (s := ⟨if hU = true then Tridiag.makeU e.qb N t.b e.Zu t.A else t.A, fun k => RCLike.re (t.D k), t.E, 0, 0⟩) rfl rfl g1
    (fun hh => by simp only; rw [if_pos (show hU = true from hh), hU0]) hr
  refine ⟨U', ⟨n1.uu, ?_⟩, n2⟩
  have n3 := n1.prod
  simp only at n3
  rw [← hT, ← f3'] at n3
  have hTA : fro T ≤ fro A + low e N o := by
    have : fro T = fro (A + F) := by
      rw [f3', fro_iso' (by rw [conjTranspose_conjTranspose]; exact g1), fro_iso g1]
    rw [this]
    exact (fro_add _ _).trans (add_le_add le_rfl hF)
  have e1 : U' * diagonal (fun i : Fin N => ((o.S i : ℝ) : K)) * U'ᴴ - A = F + (U' * diagonal (fun i : Fin N => ((r.D i : ℝ) : K)) * U'ᴴ - (A + F)) := by
    rw [ho]; abel
  rw [e1]
  refine (fro_add _ _).trans (add_le_add hF (n3.trans (add_le_add ?_ ?_)))
  · exact mul_le_mul_of_nonneg_left (drop_mono e he.ep hTA) (Nat.cast_nonneg _)
  · exact mul_le_mul_of_nonneg_left (drop3_mono e hTA) (Nat.cast_nonneg _)

/-- A reordering keeps a decomposition. -/
theorem Near.perm {N : Nat} {A : Matrix (Fin N) (Fin N) K} {δ : ℝ} {U : Matrix (Fin N) (Fin N) K} {S S' : Nat → ℝ} (h : Near A δ U S) (σ : Equiv.Perm (Fin N))
    (hS : ∀ i : Fin N, S' i = S (σ i)) : Near A δ (U.submatrix id σ) S' := by
  refine ⟨?_, ?_⟩
  · rw [conjTranspose_submatrix, ← Matrix.submatrix_mul _ _ _ id _ Function.bijective_id, h.uu]
    exact Matrix.submatrix_one_equiv σ
  · have hd : (diagonal fun i : Fin N => ((S' i : ℝ) : K)) = (diagonal fun i : Fin N => ((S i : ℝ) : K)).submatrix σ σ := by
      ext i j
      simp only [diagonal_apply, submatrix_apply, EmbeddingLike.apply_eq_iff_eq, hS]
    rw [hd, conjTranspose_submatrix, Matrix.submatrix_mul_equiv, Matrix.submatrix_mul_equiv, Matrix.submatrix_id_id]
    exact h.prod

theorem sortU_spec (e : Env K) (hsrt : StdSortContract (fun a b => decide (a.1 < b.1)) e.srt) {N : Nat} (key : ℝ → ℝ) {o : Out K} {A : Matrix (Fin N) (Fin N) K} {δ : ℝ}
    (h : Near A δ (matOf N N o.U) o.S) : Near A δ (matOf N N (sortU e N key o).U) (sortU e N key o).S ∧
      ∀ i j, i ≤ j → j < N → key ((sortU e N key o).S i) ≤ key ((sortU e N key o).S j) := by
  obtain ⟨q1, q2⟩ := sortPerm_spec hsrt N fun i => key (o.S i)
  rw [sortU]
  generalize EigQR.sortPerm e.srt N (fun i => key (o.S i)) = P at *
  obtain ⟨σ, hσ⟩ := perm_fin P N q1
  have hS : ∀ i, i < N → (if i < N then LU.permuteRows 1 P N 0 (fun a _ => o.S a) i 0 else o.S i) = o.S (swapProd P N 0 i) := fun i hi => by
    rw [if_pos hi, LU.permuteRows_eq _ _ _ _ _ _ _ (by omega)]
  refine ⟨?_, fun i j hij hj => ?_⟩
  · have := h.perm σ (S' := fun i => if i < N then LU.permuteRows 1 P N 0 (fun a _ => o.S a) i 0 else o.S i) (fun i => by rw [hS i i.2, hσ])
    convert this using 1
    ext a b
    simp only [matOf, of_apply, submatrix_apply, id]
    rw [LU.permuteRows_eq _ _ _ _ _ _ _ a.2, hσ]
  · simp only
    rw [hS i (by omega), hS j hj]
    rcases Nat.eq_or_lt_of_le hij with u | u
    · subst u; exact le_rfl
    · exact q2 i j u hj

/-- `SS.sort(Ascend)`. -/
theorem sortV_up {srt : List ℝ → List ℝ} (N : Nat) (S : Nat → ℝ) (h : StdSortContract (fun a b => decide (a < b)) srt) :
    ∃ σ : Equiv.Perm (Fin N), (∀ i : Fin N, sortV srt N S i = S (σ i)) ∧ ∀ i j, i ≤ j → j < N → sortV srt N S i ≤ sortV srt N S j := by
  set f : Fin N → ℝ := fun i => S i with hf
  have hl : (List.range N).map S = List.ofFn f := by
    apply List.ext_getElem <;> simp [hf]
  have hs : (srt (List.ofFn f)).Pairwise (· ≤ ·) := (h _).2.imp fun hab => by simpa using hab
  have h1 : srt (List.ofFn f) = List.ofFn (f ∘ Tuple.sort f) :=
    ((h _).1.trans ((Tuple.sort f).ofFn_comp_perm f).symm).eq_of_pairwise' hs (Tuple.monotone_sort f).sortedLE_ofFn.pairwise
  have h2 : ∀ i : Fin N, sortV srt N S i = S (Tuple.sort f i) := fun i => by
    rw [sortV, if_pos i.2, hl, h1]
    simp [hf]
  refine ⟨Tuple.sort f, h2, fun i j hij hj => ?_⟩
  rw [h2 ⟨i, by omega⟩, h2 ⟨j, hj⟩]
  exact Tuple.monotone_sort f (show (⟨i, by omega⟩ : Fin N) ≤ ⟨j, hj⟩ from hij)

/-- `SS.sort(Descend)`. -/
theorem sortV_down {srt : List ℝ → List ℝ} (N : Nat) (S : Nat → ℝ) (h : StdSortContract (fun a b => decide (b < a)) srt) :
    ∃ σ : Equiv.Perm (Fin N), (∀ i : Fin N, sortV srt N S i = S (σ i)) ∧ ∀ i j, i ≤ j → j < N → sortV srt N S j ≤ sortV srt N S i := by
  set f : Fin N → ℝ := fun i => S i with hf
  set σ := Tuple.sort (fun i => -f i) with hσ
  have ha : Antitone (f ∘ σ) := fun a b hab => by
    have : -f (σ a) ≤ -f (σ b) := Tuple.monotone_sort (fun i => -f i) hab
    simp only [Function.comp]
    linarith
  have hl : (List.range N).map S = List.ofFn f := by
    apply List.ext_getElem <;> simp [hf]
  have hs : (srt (List.ofFn f)).Pairwise (· ≥ ·) := (h _).2.imp fun hab => by simpa using hab
  have h1 : srt (List.ofFn f) = List.ofFn (f ∘ σ) :=
    ((h _).1.trans (σ.ofFn_comp_perm f).symm).eq_of_pairwise' hs ha.sortedGE_ofFn.pairwise
  have h2 : ∀ i : Fin N, sortV srt N S i = S (σ i) := fun i => by
    rw [sortV, if_pos i.2, hl, h1]
    simp [hf]
  refine ⟨σ, h2, fun i j hij hj => ?_⟩
  rw [h2 ⟨i, by omega⟩, h2 ⟨j, hj⟩]
  exact ha (show (⟨i, by omega⟩ : Fin N) ≤ ⟨j, hj⟩ from hij)

theorem symFull_setLower (N : Nat) (A U : Nat → Nat → K) : matOf N N (symFull true (setLower N A U)) = matOf N N (symFull true A) := by
  ext i j
  simp only [matOf, of_apply, symFull, setLower]
  split_ifs with h1 h2 h3 <;> first | rfl | (exfalso; have := i.2; have := j.2; omega)

theorem symFull_conjM (N : Nat) (A : Nat → Nat → K) : matOf N N (symFull true (conjM A)) = (matOf N N (symFull true A)).map star := by
  ext i j
  simp only [matOf, of_apply, symFull, conjM, map_apply, cj, if_true]
  split_ifs <;> rfl

theorem fro_map (N : Nat) (F : Matrix (Fin N) (Fin N) K) : fro (F.map star) = fro F := SVDec.fro_star F

/-- The conjugate of a decomposition. -/
theorem Near.conj {N : Nat} {A : Matrix (Fin N) (Fin N) K} {δ : ℝ} {U : Matrix (Fin N) (Fin N) K} {S : Nat → ℝ} (h : Near (A.map star) δ U S) :
    Near A δ (U.map star) S := by
  have hm : ∀ X Y : Matrix (Fin N) (Fin N) K, (X * Y).map star = X.map star * Y.map star := fun X Y => by
    ext i j
    simp only [map_apply, Matrix.mul_apply, star_sum, star_mul']
  have ht : ∀ X : Matrix (Fin N) (Fin N) K, (X.map star)ᴴ = Xᴴ.map star := fun X => by ext i j; simp
  have h1 : (1 : Matrix (Fin N) (Fin N) K).map star = 1 := by ext i j; simp [one_apply, apply_ite]
  refine ⟨?_, ?_⟩
  · rw [ht, ← hm, h.uu, h1]
  · have hd : (diagonal fun i : Fin N => ((S i : ℝ) : K)).map star = diagonal fun i : Fin N => ((S i : ℝ) : K) := by
      ext i j
      simp only [map_apply, diagonal_apply]
      split_ifs <;> simp
    have e1 : U.map star * (diagonal fun i : Fin N => ((S i : ℝ) : K)) * (U.map star)ᴴ - A =
        (U * (diagonal fun i : Fin N => ((S i : ℝ) : K)) * Uᴴ - A.map star).map star := by
      have : (U * (diagonal fun i : Fin N => ((S i : ℝ) : K)) * Uᴴ - A.map star).map star = (U * (diagonal fun i : Fin N => ((S i : ℝ) : K)) * Uᴴ).map star - A := by
        ext i j
        simp only [map_apply, Matrix.sub_apply, star_sub, star_star]
      rw [this, hm, hm, hd, ht]
    rw [e1, fro_map]
    exact h.prod

theorem matOf_conjM (N : Nat) (A : Nat → Nat → K) : matOf N N (conjM A) = (matOf N N A).map star := rfl

/-- **C108**  `Eigen(A,U,S)`: when the iterations stop, the columns of `U` are orthonormal, `S` is in ascending order, and `U S U†` is the Hermitian matrix `A` up to
`err`.  `U` may be a conjugated view. -/
theorem eigen_spec_partial (e : Env K) (uc : Bool) {N : Nat} (he : EnvOk e true N) (A U0 : Nat → Nat → K) (S0 : Nat → ℝ) (hA : ∀ k, k < N → RCLike.im (A k k) = 0) {o : Out K}
    (h : eigen e uc N A U0 S0 = some o) :
    NearEigUp (matOf N N (symFull true A)) (err e N (fro (matOf N N (symFull true A))) o) (matOf N N o.U) o.S := by
  have key : ∀ (B V0 : Nat → Nat → K) (hB : ∀ k, k < N → RCLike.im (B k k) = 0) (o : Out K), (unsorted e true N (setLower N B V0) S0).map (sortU e N id) = some o →
      Near (matOf N N (symFull true B)) (err e N (fro (matOf N N (symFull true B))) o) (matOf N N o.U) o.S ∧ ∀ i j, i ≤ j → j < N → o.S i ≤ o.S j := by
    intro B V0 hB o h
    obtain ⟨o1, h1, rfl⟩ := Option.map_eq_some_iff.mp h
    obtain ⟨U', n1, n2⟩ := unsorted_spec e he _ S0 (fun k hk => by rw [setLower, if_pos ⟨le_rfl, hk⟩]; exact hB k hk) h1
    rw [← n2 rfl, symFull_setLower] at n1
    exact sortU_spec e he.srt id n1
  rw [eigen] at h
  split_ifs at h with hu
  · obtain ⟨o1, h1, rfl⟩ := Option.map_eq_some_iff.mp h
    obtain ⟨n1, n2⟩ := key (conjM A) (conjM U0) (fun k hk => by rw [conjM, RCLike.star_def, RCLike.conj_im, hA k hk, neg_zero]) o1 h1
    rw [symFull_conjM, fro_map] at n1
    have n3 := n1.conj
    exact ⟨n3.uu, n2, n3.prod⟩
  · obtain ⟨n1, n2⟩ := key A U0 hA o h
    exact ⟨n1.uu, n2, n1.prod⟩

/-- **C108**  `Eigen(A,S)`: the same values, the eigenvectors are not returned. -/
theorem eigenS_spec_partial (e : Env K) {N : Nat} (he : EnvOk e false N) (hr : StdSortContract (fun a b => decide (a < b)) e.srtR) (A : Nat → Nat → K) (S0 : Nat → ℝ)
    (hA : ∀ k, k < N → RCLike.im (A k k) = 0) {o : Out K} (h : eigenS e N A S0 = some o) :
    ∃ U, NearEigUp (matOf N N (symFull true A)) (err e N (fro (matOf N N (symFull true A))) o) U o.S := by
  obtain ⟨o1, h1, rfl⟩ := Option.map_eq_some_iff.mp h
  obtain ⟨U', n1, -⟩ := unsorted_spec e he _ S0 hA h1
  obtain ⟨σ, s1, s2⟩ := sortV_up N o1.S hr
  have n2 := n1.perm σ s1
  exact ⟨_, n2.uu, s2, n2.prod⟩

/-- Without assumptions on the divide and conquer part for up to `DC_LIMIT` rows. -/
theorem EnvOk.small (e : Env K) (t0 : 0 < e.tiny) (ep : 0 ≤ e.eps) (nb : 0 < e.nb) (qb : 0 < e.qb) (srt : StdSortContract (fun a b => decide (a.1 < b.1)) e.srt)
    (hU : Bool) {N : Nat} (hN : N ≤ e.dcl) : EnvOk e hU N := ⟨t0, ep, nb, qb, srt, DCOk.none hN _⟩

/-- **C108**  If nothing was dropped the decomposition is exact. -/
theorem eigen_exact (e : Env K) (uc : Bool) {N : Nat} (he : EnvOk e true N) (A U0 : Nat → Nat → K) (S0 : Nat → ℝ) (hA : ∀ k, k < N → RCLike.im (A k k) = 0) {o : Out K}
    (h : eigen e uc N A U0 S0 = some o) (hl : ¬ o.low) (hc : o.cnt = 0) (hc3 : o.cnt3 = 0) :
    matOf N N (symFull true A) = matOf N N o.U * diagonal (fun i : Fin N => ((o.S i : ℝ) : K)) * (matOf N N o.U)ᴴ := by
  have := (eigen_spec_partial e uc he A U0 S0 hA h).prod
  rw [err, low, under, if_neg hl, hc, hc3] at this
  have h0 := SVDec.fro_eq_zero (this.trans (le_of_eq (by simp)))
  exact (sub_eq_zero.mp h0).symm

end TMV.SymSV
