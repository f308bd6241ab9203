import Verif.Props.BandQRDivider

/-! C96: `BandQRDiv::makeInverseATA`, in-place decomposition, examples. -/
namespace TMV.BandQR
noncomputable section
open Classical TMV.Tri TMV.QR

theorem make_istrans {K : Type} [RCLike K] (tiny : ℝ) (oA : Ord) (M N lo hi : Nat) (A mem : Nat → Nat → K) (β0 : Nat → K) :
    (Fac.make tiny oA M N lo hi A mem β0).istrans = decide (M < N ∨ (M = N ∧ hi < lo) ∨ (M = N ∧ hi = lo ∧ oA = .rm)) := by
  unfold Fac.make
  dsimp only
  split <;> split <;> rfl

/-- **C96** `makeInverseATA` (partial): for real matrices that are not decomposed through their transpose the result is the inverse of
`BᵀB`, `B = A + E`, and is refused exactly if `R` has a zero on the diagonal.  Missing: complex matrices and square matrices decomposed
through their transpose, where the result is wrong (see `inverseATA_complex_violated`, `inverseATA_trans_violated`). -/
theorem bandQRDiv_inverseATA_partial (tiny : ℝ) (ht : 0 < tiny) {ib mb mb2 : Nat} (hib : 0 < ib) (hmb : 0 < mb) (hmb2 : 0 < mb2) (oA : Ord)
    (M N lo hi : Nat) (hlo : lo < M) (hhi : hi < N) (hT : ¬ (M < N ∨ (M = N ∧ hi < lo) ∨ (M = N ∧ hi = lo ∧ oA = .rm)))
    (A mem : Nat → Nat → ℝ) (β0 : Nat → ℝ) (F : Fac ℝ) (hF : F = Fac.make tiny oA M N lo hi A mem β0) :
    ∃ E B : Nat → Nat → ℝ, Small tiny M N (fun c => F.QRx c c) E ∧ (∀ p c, B p c = bandMat lo hi A p c + E p c) ∧
    ∀ o crm st minv, (F.inverseATA ib mb mb2 o crm st minv = none ↔ ∃ i < N, F.QRx i i = 0) ∧
      ∀ X, F.inverseATA ib mb mb2 o crm st minv = some X →
        (∀ a c, a < N → c < N → ∑ k ∈ Finset.range N, (∑ p ∈ Finset.range M, B p a * B p k) * X k c = if a = c then 1 else 0) ∧
        ∀ a p, ¬ (a < N ∧ p < N) → X a p = minv a p := by
  rcases make_made tiny ht oA M N lo hi hlo hhi A mem β0 F hF with h | h
  · rw [hF, make_istrans, decide_eq_false hT] at h
    exact absurd h.1 (by simp)
  obtain ⟨hi1, _, h3, h4, hm⟩ := h
  obtain ⟨E, e1, e2⟩ := hm.fact
  have hl := hm.lo_lt
  have hh := hm.hi_lt
  have hle := hm.le
  unfold Fac.inverseATA
  rw [h3, h4] at e1 e2 hle
  rw [h3] at hl
  rw [h4] at hh
  rw [h4]
  refine ⟨E, fun p c => bandMat lo hi A p c + E p c, e1, fun _ _ => rfl, ?_⟩
  intro o crm st minv
  obtain ⟨t1, t2⟩ := triInv_spec e2 hl hh hib hmb hmb2 o crm st minv _ rfl
  refine ⟨by rw [Option.map_eq_none_iff, t1], ?_⟩
  intro X hX
  obtain ⟨W, hW, hXW⟩ := Option.map_eq_some_iff.mp hX
  obtain ⟨i1, i2⟩ := t2 W hW
  generalize hB : (fun p c => bandMat lo hi A p c + E p c) = B at e2
  generalize hU : upperMat false (msk M N F.lo F.hi F.QRx) = U at i1
  have hcol : ∀ c, c < N → ∀ p, p < M → hs M (msk M N F.lo F.hi F.QRx) (beff F.lo F.beta) 0 N (fun q => B q c) p = U p c := by
    intro c hc p hp
    rw [e2.col c hc p hp, hU]
  have hBB : ∀ a k, a < N → k < N → ∑ p ∈ Finset.range M, B p a * B p k = ∑ p ∈ Finset.range N, U p a * U p k := by
    intro a k ha hk
    have h1 := hs_unitary N e2.valid (fun q => B q a) (fun q => B q k)
    unfold ip at h1
    simp only [star_trivial] at h1
    rw [← h1, sum_trim _ hle fun p h5 h6 => ?_]
    · refine Finset.sum_congr rfl fun p hp => ?_
      rw [Finset.mem_range] at hp
      rw [hcol a ha p (by omega), hcol k hk p (by omega)]
    · rw [hcol a ha p h6, ← hU]
      simp [upperMat, show ¬ p < a by omega, show ¬ p = a by omega]
  generalize hWu : upperMat false W = Wu at i1 hXW
  have hm1 : LU.toM N U * LU.toM N Wu = 1 := by
    ext i j
    rw [Matrix.mul_apply, Matrix.one_apply]
    have := i1 i j i.2 j.2
    rw [Finset.sum_range] at this
    simp only [LU.toM, Matrix.of_apply]
    rw [this]
    simp [Fin.ext_iff]
  have hm2 : LU.toM N Wu * LU.toM N U = 1 := mul_eq_one_comm.mp hm1
  have hm3 : ((LU.toM N U).transpose * LU.toM N U) * (LU.toM N Wu * (LU.toM N Wu).transpose) = 1 := by
    rw [Matrix.mul_assoc, ← Matrix.mul_assoc (LU.toM N U), hm1, Matrix.one_mul, ← Matrix.transpose_mul, hm2, Matrix.transpose_one]
  refine ⟨?_, ?_⟩
  · intro a c ha hc
    have := congrFun (congrFun hm3 ⟨a, ha⟩) ⟨c, hc⟩
    rw [Matrix.mul_apply, Matrix.one_apply] at this
    simp only [Matrix.mul_apply, Matrix.transpose_apply, LU.toM, Matrix.of_apply, Fin.mk.injEq] at this
    rw [← this, Finset.sum_range]
    refine Finset.sum_congr rfl fun k _ => ?_
    rw [hBB a k ha k.2, Finset.sum_range, ← hXW]
    congr 1
    unfold LUATA.prodM
    rw [if_pos ⟨k.2, hc⟩, Finset.sum_range]
    rfl
  · intro a p hap
    rw [← hXW]
    unfold LUATA.prodM
    rw [if_neg hap, i2 a p (by omega)]

theorem triInverse1 {K : Type} [RCLike K] (ib mb mb2 : Nat) (o : Ord) (crm st : Bool) (U : Nat → Nat → K) (h : U 0 0 ≠ 0) :
    ∃ W, BandLU.triInverse ib mb mb2 o crm st 1 0 U = some W ∧ W 0 0 = 1 / U 0 0 := by
  refine ⟨setE U 0 0 (1 / U 0 0), ?_, by simp [setE]⟩
  simp [BandLU.triInverse, BandLU.diagInv, forRange, h]

/-- C96, violated: `makeInverseATA` multiplies `R⁻¹` by its transpose instead of its adjoint: for the 1×1 matrix (i) it stores -1, but
the inverse of `AᴴA` is 1. -/
theorem inverseATA_complex_violated (ib mb mb2 : Nat) (o : Ord) (crm st : Bool) (mem minv : Nat → Nat → ℂ) (β0 : Nat → ℂ) :
    ∃ X, (Fac.make (1/10) .cm 1 1 0 0 (fun _ _ => Complex.I) mem β0).inverseATA ib mb mb2 o crm st minv = some X ∧
      X 0 0 = -1 ∧ (star Complex.I * Complex.I) * X 0 0 ≠ 1 := by
  obtain ⟨W, h1, h2⟩ := triInverse1 ib mb mb2 o crm st
    (fun i j => if i ≤ j ∧ j < 1 then bandMat 0 0 (fun _ _ => Complex.I) i j else minv i j) (by simp [bandMat])
  have hF : Fac.make (1/10) .cm 1 1 0 0 (fun _ _ => Complex.I) mem β0 = ⟨false, 1, 1, 0, 0, .cm, fun _ _ => Complex.I, β0, 1⟩ := by
    simp [Fac.make]
  have hx : LUATA.prodM 1 (upperMat false W) (trM (upperMat false W)) W 0 0 = -1 := by
    rw [if_pos ⟨le_rfl, by omega⟩, bandMat, if_pos (by omega)] at h2
    simp [LUATA.prodM, upperMat, trM, h2, Complex.I_mul_I]
  refine ⟨_, by rw [hF]; unfold Fac.inverseATA; dsimp only; rw [h1]; rfl, hx, ?_⟩
  rw [hx]
  simp
  norm_num

/-- C96, violated: `makeInverseATA` ignores `istrans`: for the real 2×2 lower triangular matrix `[[1,0],[1,1]]` it stores
`[[2,-1],[-1,1]]`, the inverse of `A Aᵀ`, and not that of `Aᵀ A = [[2,1],[1,1]]`, `[[1,-1],[-1,2]]`. -/
theorem inverseATA_trans_violated {ib mb mb2 : Nat} (hib : 0 < ib) (hmb : 0 < mb) (hmb2 : 0 < mb2) (o : Ord) (crm st : Bool)
    (mem minv : Nat → Nat → ℝ) (β0 : Nat → ℝ) (A : Nat → Nat → ℝ) (hA : A 0 0 = 1 ∧ A 1 0 = 1 ∧ A 1 1 = 1) :
    ∃ X, (Fac.make (1/10) .cm 2 2 1 0 A mem β0).inverseATA ib mb mb2 o crm st minv = some X ∧ X 0 0 = 2 ∧
      ∑ k ∈ Finset.range 2, (∑ p ∈ Finset.range 2, bandMat 1 0 A p 0 * bandMat 1 0 A p k) * X k 0 ≠ 1 := by
  have hF : Fac.make (1/10) .cm 2 2 1 0 A mem β0 = ⟨true, 2, 2, 0, 1, .rm, trM A, β0, 1⟩ := by
    simp [Fac.make, LU.Ord.tr]
  obtain ⟨t1, t2⟩ := BandLU.triInverse_spec ib mb mb2 hib hmb hmb2 o crm st 2 1
    (fun i j => if i ≤ j ∧ j < 2 then bandMat 0 1 (trM A) i j else minv i j) (by intro i j h1 h2 h3; omega)
  have hv : ∀ i, i < 2 → bandMat 0 1 (trM A) i i = 1 := by
    intro i hi
    rw [bandMat, if_pos (by omega)]
    interval_cases i
    · exact hA.1
    · exact hA.2.2
  obtain ⟨W, hW⟩ : ∃ W, BandLU.triInverse ib mb mb2 o crm st 2 1
      (fun i j => if i ≤ j ∧ j < 2 then bandMat 0 1 (trM A) i j else minv i j) = some W := by
    rw [← Option.ne_none_iff_exists', ne_eq, t1]
    rintro ⟨i, hi, h0⟩
    rw [if_pos ⟨le_rfl, hi⟩, hv i hi] at h0
    exact one_ne_zero h0
  obtain ⟨w, -⟩ := t2 W hW
  have e00 := w 0 0 (by omega) (by omega)
  have e01 := w 0 1 (by omega) (by omega)
  have e11 := w 1 1 (by omega) (by omega)
  have a01 : bandMat 0 1 (trM A) 0 1 = 1 := by rw [bandMat, if_pos (by omega)]; exact hA.2.1
  have a00 := hv 0 (by omega)
  have a11 := hv 1 (by omega)
  simp [Finset.sum_range_succ, upperMat, a00, a01, a11] at e00 e01 e11
  have hx : ∀ i j, i < 2 → j < 2 → LUATA.prodM 2 (upperMat false W) (trM (upperMat false W)) W i j =
      upperMat false W i 0 * upperMat false W j 0 + upperMat false W i 1 * upperMat false W j 1 := by
    intro i j hi hj
    simp [LUATA.prodM, hi, hj, Finset.sum_range_succ, trM]
  refine ⟨LUATA.prodM 2 (upperMat false W) (trM (upperMat false W)) W,
    by rw [hF]; unfold Fac.inverseATA; dsimp only; rw [hW]; rfl, ?_, ?_⟩
  · rw [hx 0 0 (by omega) (by omega)]
    simp [upperMat, e00]
    nlinarith
  · have b00 : bandMat 1 0 A 0 0 = 1 := by rw [bandMat, if_pos (by omega)]; exact hA.1
    have b10 : bandMat 1 0 A 1 0 = 1 := by rw [bandMat, if_pos (by omega)]; exact hA.2.1
    have b11 : bandMat 1 0 A 1 1 = 1 := by rw [bandMat, if_pos (by omega)]; exact hA.2.2
    have b01 : bandMat 1 0 A 0 1 = 0 := by rw [bandMat, if_neg (by omega)]
    simp only [Finset.sum_range_succ, Finset.range_zero, Finset.sum_empty, b00, b10, b11, b01, zero_add, hx 0 0 (by omega) (by omega),
      hx 1 0 (by omega) (by omega)]
    simp [upperMat, e00, e11]
    have : W 0 1 = -1 := by rw [e11] at e01; linarith
    rw [this]; norm_num

/-- C96, violated: decomposing in place, as documented for a view of a matrix with room for more superdiagonals, first sets the top `nlo`
superdiagonals of the matrix itself to zero: two tridiagonal 2×2 matrices that differ in `A(0,1)` only, with different determinants, get the
same decomposition. -/
theorem inPlace_violated (tiny : ℝ) (β0 : Nat → ℝ) : ∃ A B : Nat → Nat → ℝ,
    Fac.makeInPlace tiny .cm 2 2 1 1 A β0 = Fac.makeInPlace tiny .cm 2 2 1 1 B β0 ∧
    bandMat 1 1 A 0 0 * bandMat 1 1 A 1 1 - bandMat 1 1 A 0 1 * bandMat 1 1 A 1 0 = -4 ∧
    bandMat 1 1 B 0 0 * bandMat 1 1 B 1 1 - bandMat 1 1 B 0 1 * bandMat 1 1 B 1 0 = -6 := by
  refine ⟨fun i j => if i = 0 ∧ j = 1 then 5 else 1, fun i j => if i = 0 ∧ j = 1 then 7 else 1, ?_, ?_, ?_⟩
  · unfold Fac.makeInPlace
    have h : ∀ x : ℝ, (fun i j : Nat => if i < 2 ∧ j < 2 ∧ i + 1 + 1 ≤ j + 1 ∧ i ≤ j + 1 ∧ j ≤ i + 1 then (0:ℝ) else
        (if i = 0 ∧ j = 1 then x else 1)) = fun i j => if i < 2 ∧ j < 2 ∧ i + 1 + 1 ≤ j + 1 ∧ i ≤ j + 1 ∧ j ≤ i + 1 then 0 else 1 := by
      intro x
      funext i j
      by_cases h1 : i < 2 ∧ j < 2 ∧ i + 1 + 1 ≤ j + 1 ∧ i ≤ j + 1 ∧ j ≤ i + 1
      · rw [if_pos h1, if_pos h1]
      · rw [if_neg h1, if_neg h1, if_neg (by omega)]
    have hd : decide (2 < 2 ∨ (2 = 2 ∧ 1 < 1) ∨ (2 = 2 ∧ 1 = 1 ∧ (Ord.cm = .rm))) = false := by simp
    rw [hd]
    dsimp only
    simp only [Bool.false_eq_true, if_false, one_ne_zero, h]
  · simp [bandMat]; norm_num
  · simp [bandMat]; norm_num

/-- In-place decomposition is right if the top `nlo` superdiagonals are there and zero: it leaves what `Made` says. -/
theorem inPlace_partial {K : Type} [RCLike K] (tiny : ℝ) (ht : 0 < tiny) (M N lo hi : Nat) (hNM : N < M) (hl0 : 0 < lo) (hlo : lo ≤ hi)
    (hlM : lo < M) (hhi : hi < N) (oA : Ord) (A : Nat → Nat → K) (β0 : Nat → K)
    (hz : ∀ p c, p < M → c < N → p + (hi - lo) < c → c ≤ p + hi → A p c = 0) :
    ∃ E : Nat → Nat → K, let F := Fac.makeInPlace tiny oA M N lo hi A β0
    Small tiny M N (fun c => F.QRx c c) E ∧
    ∀ brm nc m x, ((∀ i, i < N → F.QRx i i ≠ 0) → (F.lDiv brm nc m x).isSome) ∧
      ∀ X, F.lDiv brm nc m x = some X →
        ∀ c, c < nc → ∀ z : Nat → K,
          ∑ p ∈ Finset.range M, ‖∑ l ∈ Finset.range N, (bandMat lo hi A p l + E p l) * X l c - m p c‖ ^ 2 ≤
          ∑ p ∈ Finset.range M, ‖∑ l ∈ Finset.range N, (bandMat lo hi A p l + E p l) * z l - m p c‖ ^ 2 := by
  obtain ⟨F, hF⟩ : ∃ F, F = Fac.makeInPlace tiny oA M N lo hi A β0 := ⟨_, rfl⟩
  obtain ⟨Q, hQ⟩ : ∃ Q : Nat → Nat → K, Q = fun i j => if i < M ∧ j < N ∧ i + hi + 1 ≤ j + lo ∧ i ≤ j + lo ∧ j ≤ i + hi then 0 else A i j :=
    ⟨_, rfl⟩
  obtain ⟨r, hr⟩ : ∃ r, r = decompose tiny M N lo hi Q β0 1 := ⟨_, rfl⟩
  have hd : decide (M < N ∨ (M = N ∧ hi < lo) ∨ (M = N ∧ hi = lo ∧ oA = .rm)) = false := by simp; omega
  have hF' : F = ⟨false, M, N, lo, hi, oA, r.1, r.2.1, r.2.2⟩ := by
    rw [hF, hr, hQ]
    unfold Fac.makeInPlace
    simp only [hd, Bool.false_eq_true, if_false]
    rw [if_neg (by omega)]
  have hm : Made tiny lo (hi - lo) A F := by
    rw [hF', hr]
    refine decompose_made tiny ht hNM.le hlM hhi (by omega) (by omega) A Q β0 ?_ ?_ false oA
    · intro p c h1 h2 h3 h4
      rw [hQ]; dsimp only; rw [if_neg (by omega)]
    · intro p c h1 h2 h3 h4
      rw [hQ]; dsimp only
      split
      · rfl
      · exact hz p c h1 h2 h3 h4
  obtain ⟨E, e1, e2⟩ := hm.fact
  have hcs : F.cs = M := by rw [hF']
  have hrs : F.rs = N := by rw [hF']
  have hit : F.istrans = false := by rw [hF']
  have hl := hm.lo_lt
  have hh := hm.hi_lt
  rw [hcs, hrs] at e1 e2
  rw [hcs] at hl
  rw [hrs] at hh
  have e2 := e2.congrB (B' := fun p c => bandMat lo hi A p c + E p c) fun p c hp hc => by
    congr 1
    unfold bandMat
    by_cases h1 : p ≤ c + lo ∧ c ≤ p + (hi - lo)
    · rw [if_pos h1, if_pos (by omega)]
    · rw [if_neg h1]
      by_cases h2 : p ≤ c + lo ∧ c ≤ p + hi
      · rw [if_pos h2, hz p c hp hc (by omega) h2.2]
      · rw [if_neg h2]
  refine ⟨E, ?_⟩
  rw [← hF]
  refine ⟨e1, ?_⟩
  intro brm nc m x
  unfold Fac.lDiv
  rw [hit]
  simp only [Bool.false_eq_true, if_false]
  rw [hcs, hrs]
  obtain ⟨a1, a2⟩ := qrLDiv_spec e2 hl hh F.o brm nc m x
  exact ⟨a1, fun X hX => (a2 X hX).1⟩

/-- The hypotheses of the theorems above are met: `BandQRDiv` of the 2×1 band matrix `(3,4)ᵀ` exists and divides. -/
example : ∃ E B : Nat → Nat → ℝ, Small (1/10) 2 1 (fun c => (Fac.make (1/10) .cm 2 1 1 0 (fun i _ => if i = 0 then (3:ℝ) else 4)
    (fun _ _ => 0) (fun _ => 0)).QRx c c) E ∧ ∀ p c, B p c = bandMat 1 0 (fun i _ => if i = 0 then (3:ℝ) else 4) p c + E p c := by
  obtain ⟨E, B, h1, h2, -⟩ := bandQRDiv_tall (1/10) (by norm_num) (ib := 64) (mb := 64) (mb2 := 64) (by norm_num) (by norm_num)
    (by norm_num) .cm 2 1 1 0 (by norm_num) (by norm_num) (by norm_num) (fun i _ => if i = 0 then (3:ℝ) else 4) (fun _ _ => 0) (fun _ => 0)
    _ rfl
  exact ⟨E, B, h1, h2⟩

/-- A 1×1 matrix (2): `6/(2)` is 3. -/
example : ∃ X, (Fac.make (1/10) .cm 1 1 0 0 (fun _ _ => (2:ℝ)) (fun _ _ => 0) fun _ => 0).lDiv false 1
    (fun _ _ => 6) (fun _ _ => 0) = some X ∧ X 0 0 = 3 := by
  obtain ⟨E, B, hE, hB, hl, -⟩ := bandQRDiv_square (1/10) (by norm_num) (ib := 64) (mb := 64) (mb2 := 64)
    (by norm_num) (by norm_num) (by norm_num) .cm 1 0 0 (by norm_num) (by norm_num) (fun _ _ => (2:ℝ)) (fun _ _ => 0) (fun _ => 0) _ rfl
  have hq : (Fac.make (1/10) .cm 1 1 0 0 (fun _ _ => (2:ℝ)) (fun _ _ => 0) fun _ => 0).QRx 0 0 = 2 := by
    simp [Fac.make]
  obtain ⟨hs, hX⟩ := hl false 1 (fun _ _ => 6) (fun _ _ => 0)
  obtain ⟨X, hX'⟩ := Option.isSome_iff_exists.mp (hs fun i hi => by
    obtain rfl : i = 0 := by omega
    rw [hq]; norm_num)
  refine ⟨X, hX', ?_⟩
  have h0 : E 0 0 = 0 := by
    rcases hE with h | h
    · exact h.2 0 (by norm_num) (by show Fac.QRx _ 0 0 ≠ 0; rw [hq]; norm_num) 0
    · exact h.2 0 (by norm_num) (by show Fac.QRx _ 0 0 ≠ 0; rw [hq]; norm_num) 0
  have := (hX X hX').1 0 (by norm_num) 0 (by norm_num)
  rw [Finset.sum_range_one, hB, h0, bandMat, if_pos (by omega)] at this
  linarith

end
end TMV.BandQR
