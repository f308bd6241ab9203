import Verif.Model.SymSq
import Verif.Props.CHDiv
import Verif.Props.LDLInvM
import Verif.Props.BandCHMain

/-! C99: `makeInverseATA` of symmetric and Hermitian matrices. -/
namespace TMV.SymSq
open Tri (Ord)
noncomputable section
open Classical
variable {K : Type} [RCLike K]

theorem cj_sum (h : Bool) (n : Nat) (f : Nat → K) : cj h (∑ l ∈ Finset.range n, f l) = ∑ l ∈ Finset.range n, cj h (f l) := by
  cases h
  · rfl
  · simp [cj]

theorem cj_mul' (h : Bool) (a b : K) : cj h (a * b) = cj h a * cj h b := by cases h <;> simp [cj, mul_comm]

theorem cj_inv (h : Bool) (a : K) : cj h (cj h a) = a := by cases h <;> simp [cj]

/-- The block `o..o+N` of `M` is symmetric or Hermitian. -/
def SymOn (h : Bool) (o N : Nat) (M : Nat → Nat → K) : Prop :=
  ∀ i j, o ≤ i → i < o + N → o ≤ j → j < o + N → M i j = cj h (M j i)

theorem symSquare_aux (h : Bool) : ∀ (fuel o N : Nat) (M : Nat → Nat → K), 0 < N → N ≤ fuel → SymOn h o N M →
    ∃ V, symSquare h fuel o N M = some V ∧ ∀ i j, V i j =
      if o ≤ i ∧ i < o + N ∧ o ≤ j ∧ j < o + N then ∑ l ∈ Finset.range N, M i (o+l) * M (o+l) j else M i j := by
  intro fuel
  induction fuel with
  | zero => intro o N M h0 hf; omega
  | succ fuel ih =>
    intro o N M h0 hf hs
    unfold symSquare
    by_cases h1 : N = 1
    · rw [if_pos h1]
      refine ⟨_, rfl, fun i j => ?_⟩
      subst h1
      by_cases hij : i = o ∧ j = o
      · obtain ⟨hi, hj⟩ := hij
        rw [hi, hj]
        rw [if_pos ⟨rfl, rfl⟩, if_pos (⟨le_rfl, by omega, le_rfl, by omega⟩ : o ≤ o ∧ o < o + 1 ∧ o ≤ o ∧ o < o + 1), Finset.sum_range_one, Nat.add_zero]
        cases h
        · rfl
        · have hr := hs o o (by omega) (by omega) (by omega) (by omega)
          simp only [cj, if_true] at hr
          have : ((RCLike.re (M o o) : ℝ) : K) = M o o := by
            apply RCLike.conj_eq_iff_re.mp
            rw [starRingEnd_apply]; exact hr.symm
          simp only [if_true]
          rw [RCLike.ofReal_mul, this]
      · rw [if_neg hij, if_neg (by omega)]
    rw [if_neg h1]
    dsimp only
    generalize hk : N / 2 = k
    have k0 : 0 < k := by omega
    have kN : k < N := by omega
    -- A01
    generalize hM1 : mulBlk false o (o+k) k k (N-k) (fun i j => M (o+i) (o+j)) (fun i j => cj h (M (o+k+j) (o+i))) M = M1
    have m1 : ∀ i j, M1 i j = if o ≤ i ∧ i < o + k ∧ o + k ≤ j ∧ j < o + N then
        ∑ l ∈ Finset.range k, M i (o+l) * M (o+l) j else M i j := by
      intro i j
      rw [← hM1]
      unfold mulBlk
      by_cases c : o ≤ i ∧ i < o + k ∧ o + k ≤ j ∧ j < o + N
      · rw [if_pos c, if_pos (by omega), if_neg (by decide), zero_add]
        refine Finset.sum_congr rfl fun l hl => ?_
        have hl := Finset.mem_range.mp hl
        beta_reduce
        rw [show o + (i - o) = i by omega, show o + k + (j - (o+k)) = j by omega, hs (o+l) j (by omega) (by omega) (by omega) (by omega)]
      · rw [if_neg c, if_neg (by omega)]
    clear hM1
    generalize hM2 : mulBlk true o (o+k) k (N-k) (N-k) (fun i j => cj h (M1 (o+k+j) (o+i))) (fun i j => M1 (o+k+i) (o+k+j)) M1 = M2
    have m2 : ∀ i j, M2 i j = if o ≤ i ∧ i < o + k ∧ o + k ≤ j ∧ j < o + N then
        ∑ l ∈ Finset.range N, M i (o+l) * M (o+l) j else M i j := by
      intro i j
      rw [← hM2]
      unfold mulBlk
      by_cases c : o ≤ i ∧ i < o + k ∧ o + k ≤ j ∧ j < o + N
      · rw [if_pos c, if_pos (by omega), if_pos rfl, m1, if_pos c, CH.sum_split kN.le]
        congr 1
        refine Finset.sum_congr rfl fun l hl => ?_
        have hl := Finset.mem_range.mp hl
        beta_reduce
        rw [m1, if_neg (by omega), m1, if_neg (by omega), show o + (i - o) = i by omega, show o + k + (j - (o+k)) = j by omega,
          show o + (k + l) = o + k + l by omega, hs i (o+k+l) (by omega) (by omega) (by omega) (by omega)]
      · rw [if_neg c, if_neg (by omega), m1, if_neg c]
    clear hM2 m1
    -- A00
    obtain ⟨M3, e3, m3⟩ := ih o k M2 k0 (by omega) (fun i j hi hi' hj hj' => by
      rw [m2, if_neg (by omega), m2, if_neg (by omega)]; exact hs i j (by omega) (by omega) (by omega) (by omega))
    rw [e3]; simp only [Option.bind_some]
    generalize hM4 : mulBlk true o o k (N-k) k (fun i j => cj h (M3 (o+k+j) (o+i))) (fun i j => M3 (o+k+i) (o+j)) M3 = M4
    have m4 : ∀ i j, M4 i j = if o ≤ i ∧ i < o + k ∧ o ≤ j ∧ j < o + N then
        ∑ l ∈ Finset.range N, M i (o+l) * M (o+l) j else M i j := by
      intro i j
      rw [← hM4]
      unfold mulBlk
      by_cases c : o ≤ i ∧ i < o + k ∧ o ≤ j ∧ j < o + k
      · rw [if_pos (by omega), if_pos rfl, m3, if_pos (by omega), if_pos (by omega), CH.sum_split kN.le]
        congr 1
        · refine Finset.sum_congr rfl fun l hl => ?_
          have hl := Finset.mem_range.mp hl
          beta_reduce
          rw [m2, if_neg (by omega), m2, if_neg (by omega)]
        · refine Finset.sum_congr rfl fun l hl => ?_
          have hl := Finset.mem_range.mp hl
          beta_reduce
          rw [m3, if_neg (by omega), m3, if_neg (by omega), m2, if_neg (by omega), m2, if_neg (by omega), show o + (i - o) = i by omega,
            show o + (j - o) = j by omega,
            show o + (k + l) = o + k + l by omega, hs i (o+k+l) (by omega) (by omega) (by omega) (by omega)]
      · rw [if_neg (by omega), m3, if_neg (by omega), m2]
        by_cases d : o ≤ i ∧ i < o + k ∧ o + k ≤ j ∧ j < o + N
        · rw [if_pos d, if_pos (by omega)]
        · rw [if_neg d, if_neg (by omega)]
    clear hM4 m2 e3 m3
    obtain ⟨M5, e5, m5⟩ := ih (o+k) (N-k) M4 (by omega) (by omega) (fun i j hi hi' hj hj' => by
      rw [m4, if_neg (by omega), m4, if_neg (by omega)]; exact hs i j (by omega) (by omega) (by omega) (by omega))
    rw [e5]; simp only [Option.bind_some]
    generalize hM6 : mulBlk true (o+k) (o+k) (N-k) k (N-k) (fun i j => M5 (o+k+i) (o+j)) (fun i j => cj h (M5 (o+k+j) (o+i))) M5 = M6
    have m6 : ∀ i j, M6 i j = if o ≤ i ∧ i < o + N ∧ o ≤ j ∧ j < o + N ∧ ¬ (o + k ≤ i ∧ j < o + k) then
        ∑ l ∈ Finset.range N, M i (o+l) * M (o+l) j else M i j := by
      intro i j
      rw [← hM6]
      unfold mulBlk
      by_cases c : o + k ≤ i ∧ i < o + N ∧ o + k ≤ j ∧ j < o + N
      · rw [if_pos (by omega), if_pos rfl, m5, if_pos (by omega), if_pos (by omega), CH.sum_split kN.le, add_comm]
        congr 1
        · refine Finset.sum_congr rfl fun l hl => ?_
          have hl := Finset.mem_range.mp hl
          beta_reduce
          rw [m5, if_neg (by omega), m5, if_neg (by omega), m4, if_neg (by omega), m4, if_neg (by omega),
            show o + k + (i - (o+k)) = i by omega, show o + k + (j - (o+k)) = j by omega,
            hs (o+l) j (by omega) (by omega) (by omega) (by omega)]
        · refine Finset.sum_congr rfl fun l hl => ?_
          have hl := Finset.mem_range.mp hl
          beta_reduce
          rw [m4, if_neg (by omega), m4, if_neg (by omega), show o + (k + l) = o + k + l by omega]
      · rw [if_neg (by omega), m5, if_neg (by omega), m4]
        by_cases d : o ≤ i ∧ i < o + k ∧ o ≤ j ∧ j < o + N
        · rw [if_pos d, if_pos (by omega)]
        · rw [if_neg d, if_neg (by omega)]
    clear hM6 m4 e5 m5
    refine ⟨_, rfl, fun i j => ?_⟩
    by_cases c : o + k ≤ i ∧ i < o + N ∧ o ≤ j ∧ j < o + k
    · rw [if_pos c, m6, if_pos (by omega), if_pos (by omega), cj_sum]
      refine Finset.sum_congr rfl fun l hl => ?_
      have hl := Finset.mem_range.mp hl
      beta_reduce
      rw [cj_mul', ← hs (o+l) j (by omega) (by omega) (by omega) (by omega), ← hs i (o+l) (by omega) (by omega) (by omega) (by omega), mul_comm]
    · rw [if_neg c, m6]
      by_cases d : o ≤ i ∧ i < o + N ∧ o ≤ j ∧ j < o + N
      · rw [if_pos d, if_pos (by omega)]
      · rw [if_neg d, if_neg (by omega)]

/-- **C99**: `SymSquare<herm>(A)` on a symmetric (Hermitian) matrix all of whose elements are stored gives the square, and nothing else. -/
theorem symSquare_correct (h : Bool) (fuel N : Nat) (M : Nat → Nat → K) (h0 : 0 < N) (hf : N ≤ fuel)
    (hs : ∀ i j, i < N → j < N → M i j = cj h (M j i)) :
    ∃ V, symSquare h fuel 0 N M = some V ∧ (∀ i j, i < N → j < N → V i j = ∑ l ∈ Finset.range N, M i l * M l j) ∧
      ∀ i j, ¬ (i < N ∧ j < N) → V i j = M i j := by
  obtain ⟨V, e, v⟩ := symSquare_aux h fuel 0 N M h0 hf (fun i j _ hi _ hj => hs i j (by omega) (by omega))
  refine ⟨V, e, fun i j hi hj => ?_, fun i j hij => ?_⟩
  · rw [v, if_pos (by omega)]; simp only [Nat.zero_add]
  · rw [v, if_neg (by omega)]

/-- **C99**: `SymSquare` of a `0 × 0` matrix does not end. -/
theorem symSquare_zero_violated (h : Bool) (fuel : Nat) : ∀ (o : Nat) (M : Nat → Nat → K), symSquare h fuel o 0 M = none := by
  induction fuel with
  | zero => intro o M; rfl
  | succ fuel ih =>
    intro o M
    unfold symSquare
    rw [if_neg (by decide)]
    dsimp only
    rw [show (0:Nat) / 2 = 0 from rfl, ih]
    rfl

/-- Nothing above the diagonal is read if the matrix has at most two rows. -/
theorem symSquare_small (h : Bool) (fuel N : Nat) (hN : N ≤ 2) (M M' : Nat → Nat → K) (e : ∀ i j, ¬ (i < j ∧ j < N) → M i j = M' i j) :
    symSquare h fuel 0 N M = symSquare h fuel 0 N M' := by
  by_cases h1 : N ≤ 1
  · have : M = M' := by funext i j; exact e i j (by omega)
    rw [this]
  obtain rfl : N = 2 := by omega
  cases fuel with
  | zero => rfl
  | succ fuel =>
    unfold symSquare
    rw [if_neg (by decide), if_neg (by decide)]
    have e1 : mulBlk false 0 (0+2/2) (2/2) (2/2) (2-2/2) (fun i j => M (0+i) (0+j)) (fun i j => cj h (M (0+2/2+j) (0+i))) M =
        mulBlk false 0 (0+2/2) (2/2) (2/2) (2-2/2) (fun i j => M' (0+i) (0+j)) (fun i j => cj h (M' (0+2/2+j) (0+i))) M' := by
      funext i j
      unfold mulBlk
      by_cases c : 0 ≤ i ∧ i < 0 + 2/2 ∧ 0 + 2/2 ≤ j ∧ j < 0 + 2/2 + (2 - 2/2)
      · rw [if_pos c, if_pos c]
        congr 1
        refine Finset.sum_congr rfl fun l hl => ?_
        have hl := Finset.mem_range.mp hl
        beta_reduce
        rw [e (0 + (i - 0)) (0 + l) (by omega), e (0 + 2/2 + (j - (0 + 2/2))) (0 + l) (by omega)]
      · rw [if_neg c, if_neg c, e i j (by omega)]
    dsimp only
    rw [e1]

/-- From the inverse in the lower triangle to `(AᴴA)⁻¹`. -/
theorem square_ata (h : Bool) {N : Nat} (h0 : 0 < N) {A V : Nat → Nat → K} (ata : Nat → Nat → K) (hA : ∀ i j, i < N → j < N → A i j = cj h (A j i))
    (hr : h = false → ∀ i j, i < N → j < N → RCLike.im (A i j) = 0)
    (v1 : ∀ i j, i < N → j < N → ∑ k ∈ Finset.range N, A i k * symFull h V k j = if i = j then 1 else 0)
    (v2 : h = true → ∀ i, i < N → RCLike.im (V i i) = 0) (v3 : ∀ i j, ¬ (j ≤ i ∧ i < N) → V i j = ata i j)
    (hu : N ≤ 2 ∨ ∀ i j, i < N → j < N → V i j = cj h (V j i)) (fuel : Nat) (hf : N ≤ fuel) :
    ∃ Z, symSquare h fuel 0 N V = some Z ∧ LU.toM N Z * ((LU.toM N A).conjTranspose * LU.toM N A) = 1 ∧
      ∀ i j, ¬ (i < N ∧ j < N) → Z i j = ata i j := by
  have hsym : ∀ i j, i < N → j < N → symFull h V i j = cj h (symFull h V j i) := by
    intro i j hi hj
    unfold symFull
    rcases lt_trichotomy i j with c | c | c
    · rw [if_neg (by omega), if_pos (by omega)]
    · subst c
      rw [if_pos le_rfl]
      cases h
      · rfl
      · have := v2 rfl i hi
        simp only [cj, if_true]
        exact (RCLike.conj_eq_iff_im.mpr this).symm
    · rw [if_pos (by omega), if_neg (by omega), cj_inv]
  -- the matrix SymSquare is given may be replaced by the full one
  have key : symSquare h fuel 0 N V = symSquare h fuel 0 N (fun i j => if i < N ∧ j < N then symFull h V i j else V i j) := by
    rcases hu with hu | hu
    · refine symSquare_small h fuel N hu _ _ fun i j hij => ?_
      unfold symFull
      by_cases c : i < N ∧ j < N
      · rw [if_pos c, if_pos (by omega)]
      · rw [if_neg c]
    · congr 1
      funext i j
      unfold symFull
      by_cases c : i < N ∧ j < N
      · rw [if_pos c]
        by_cases d : j ≤ i
        · rw [if_pos d]
        · rw [if_neg d]; exact hu i j c.1 c.2
      · rw [if_neg c]
  obtain ⟨Z, e, z1, z2⟩ := symSquare_correct h fuel N (fun i j => if i < N ∧ j < N then symFull h V i j else V i j) h0 hf (fun i j hi hj => by
    rw [if_pos ⟨hi, hj⟩, if_pos ⟨hj, hi⟩]; exact hsym i j hi hj)
  refine ⟨Z, key.trans e, ?_, fun i j hij => ?_⟩
  · have hAW : LU.toM N A * LU.toM N (symFull h V) = 1 := by
      ext i j
      rw [Matrix.mul_apply, Matrix.one_apply]
      have := v1 i j i.2 j.2
      rw [← Fin.sum_univ_eq_sum_range (fun k => A i k * symFull h V k j) N] at this
      refine Eq.trans this ?_
      by_cases c : i = j
      · rw [if_pos c, if_pos (by rw [c])]
      · rw [if_neg c, if_neg (fun hh => c (Fin.ext hh))]
    have hWA : LU.toM N (symFull h V) * LU.toM N A = 1 := mul_eq_one_comm.mp hAW
    have hZ : LU.toM N Z = LU.toM N (symFull h V) * LU.toM N (symFull h V) := by
      ext i j
      rw [Matrix.mul_apply]
      have := z1 i j i.2 j.2
      rw [← Fin.sum_univ_eq_sum_range (fun k => (fun i j => if i < N ∧ j < N then symFull h V i j else V i j) i.1 k *
        (fun i j => if i < N ∧ j < N then symFull h V i j else V i j) k j.1) N] at this
      refine Eq.trans this (Finset.sum_congr rfl fun k _ => ?_)
      beta_reduce
      rw [if_pos ⟨i.2, k.2⟩, if_pos ⟨k.2, j.2⟩]
      rfl
    have hAH : (LU.toM N A).conjTranspose = LU.toM N A := by
      ext i j
      rw [Matrix.conjTranspose_apply]
      show star (A j i) = A i j
      cases h
      · have h1 := hA i j i.2 j.2
        have h2 := hr rfl j i j.2 i.2
        rw [h1]
        show star (A j i) = A j i
        rw [RCLike.star_def]
        exact RCLike.conj_eq_iff_im.mpr h2
      · exact (hA i j i.2 j.2).symm
    rw [hZ, hAH, Matrix.mul_assoc, ← Matrix.mul_assoc (LU.toM N (symFull h V)) (LU.toM N A), hWA, Matrix.one_mul, hWA]
  · rw [z2 i j hij]
    rw [if_neg hij]
    exact v3 i j (by omega)

theorem realDiag_off {N : Nat} (M : Nat → Nat → K) {i j : Nat} (h : ¬ (i = j ∧ i < N)) : realDiag N M i j = M i j := if_neg h

/-- The matrix that stands where `makeInverseATA` puts its answer has, above the diagonal, what is there in the inverse. -/
def UpperIs (N : Nat) (A ata : Nat → Nat → K) : Prop :=
  ∃ W : Matrix (Fin N) (Fin N) K, LU.toM N A * W = 1 ∧ ∀ i j : Fin N, i < j → ata i j = W i j

theorem upper_of {h : Bool} {N : Nat} {A V ata : Nat → Nat → K} (hu : UpperIs N A ata)
    (v1 : ∀ i j, i < N → j < N → ∑ k ∈ Finset.range N, A i k * symFull h V k j = if i = j then 1 else 0)
    (v2 : h = true → ∀ i, i < N → RCLike.im (V i i) = 0) (v3 : ∀ i j, i < j → j < N → V i j = ata i j) :
    ∀ i j, i < N → j < N → V i j = cj h (V j i) := by
  obtain ⟨W, w1, w2⟩ := hu
  have hAW : LU.toM N A * LU.toM N (symFull h V) = 1 := by
    ext i j
    rw [Matrix.mul_apply, Matrix.one_apply]
    have := v1 i j i.2 j.2
    rw [← Fin.sum_univ_eq_sum_range (fun k => A i k * symFull h V k j) N] at this
    refine Eq.trans this ?_
    by_cases c : i = j
    · rw [if_pos c, if_pos (by rw [c])]
    · rw [if_neg c, if_neg (fun hh => c (Fin.ext hh))]
  have hW : W = LU.toM N (symFull h V) := by
    have := mul_eq_one_comm.mp w1
    calc W = W * (LU.toM N A * LU.toM N (symFull h V)) := by rw [hAW, Matrix.mul_one]
      _ = _ := by rw [← Matrix.mul_assoc, this, Matrix.one_mul]
  have up : ∀ i j, i < j → j < N → V i j = cj h (V j i) := by
    intro i j hij hj
    rw [v3 i j hij hj, w2 ⟨i, by omega⟩ ⟨j, hj⟩ hij, hW]
    show symFull h V i j = _
    unfold symFull
    rw [if_neg (by omega)]
  intro i j hi hj
  rcases lt_trichotomy i j with c | c | c
  · exact up i j c hj
  · subst c
    cases h
    · rfl
    · have := v2 rfl i hi
      simp only [cj, if_true]
      exact (RCLike.conj_eq_iff_im.mpr this).symm
  · rw [up j i c hi, cj_inv]

/-- **C99** (partial): `A.makeInverseATA(ata)` of a positive definite Hermitian matrix that uses the Cholesky decomposition is `(AᴴA)⁻¹` for a
matrix of at most two rows, or if the elements of `ata` above the diagonal already are those of the inverse. -/
theorem ch_ata_partial (bk : CH.Blks) (hbk : bk.OK) (ub : CH.UBlk) (hub : ub.OK) (o o' : Ord) (xrm brm bst crm cst : Bool) (N : Nat)
    (h0 : 0 < N) (A g ata : Nat → Nat → K) (hA : ∀ i j, i < N → j < N → A i j = star (A j i)) (hp : PosDef N A)
    (hu : N ≤ 2 ∨ UpperIs N A ata) (fuel : Nat) (hf : N ≤ fuel) :
    ∃ L Z, CH.make bk o N A g = some L ∧ chATA fuel ub o' xrm brm bst crm cst N L ata = some Z ∧
      LU.toM N Z * ((LU.toM N A).conjTranspose * LU.toM N A) = 1 ∧ ∀ i j, ¬ (i < N ∧ j < N) → Z i j = ata i j := by
  obtain ⟨L, V, e, eV, v1, v2, v3⟩ := CH.inverse_spec bk hbk ub hub o o' xrm brm bst crm cst N A g (realDiag N ata) hA hp
  obtain ⟨Z, z, z1, z2⟩ := square_ata true h0 (realDiag N ata) hA (by simp) v1 (fun _ => v2) v3
    (hu.imp id fun hu => upper_of hu v1 (fun _ => v2) fun i j hij hj => by rw [v3 i j (by omega), realDiag_off _ (by omega)]) fuel hf
  refine ⟨L, Z, e, ?_, z1, fun i j hij => by rw [z2 i j hij, realDiag_off _ (by omega)]⟩
  unfold chATA
  rw [eV, Option.bind_some, z]

/-- **C99** (partial): the same for a Hermitian band matrix that uses the Cholesky decomposition. -/
theorem band_ata_partial {bcm : Bool} {N lo : Nat} (hlo : lo < N) {A g LL : Nat → Nat → K} (hA : BandCH.HermBand N lo A)
    (hm : BandCH.make bcm N lo A g = some LL) (bk : CH.UBlk) (hbk : bk.OK) (o : Ord) (xrm brm bst crm cst ac : Bool) (l : Diag.Lay)
    (ata : Nat → Nat → K) (hu : N ≤ 2 ∨ UpperIs N A ata) (fuel : Nat) (hf : N ≤ fuel) :
    ∃ Z, bandATA fuel bk o xrm brm bst crm cst ac l N lo LL ata = some Z ∧
      LU.toM N Z * ((LU.toM N A).conjTranspose * LU.toM N A) = 1 ∧ ∀ i j, ¬ (i < N ∧ j < N) → Z i j = ata i j := by
  obtain ⟨V, eV, v1, v2, v3⟩ := BandCH.herm_inverse_spec hlo hA hm bk hbk o xrm brm bst crm cst ac l (realDiag N ata)
  obtain ⟨Z, z, z1, z2⟩ := square_ata true (by omega) (realDiag N ata) (fun i j hi hj => hA.1 i j hi hj) (by simp) v1 (fun _ => v2) v3
    (hu.imp id fun hu => upper_of hu v1 (fun _ => v2) fun i j hij hj => by rw [v3 i j (by omega), realDiag_off _ (by omega)]) fuel hf
  refine ⟨Z, ?_, z1, fun i j hij => by rw [z2 i j hij, realDiag_off _ (by omega)]⟩
  unfold bandATA
  rw [eV, Option.bind_some, z]

/-- **C99** (partial): `A.makeInverseATA(ata)` of a regular Hermitian or real symmetric matrix that uses the Bunch-Kaufman decomposition, for a
matrix of at most two rows, or if the elements of `ata` above the diagonal already are those of the inverse. -/
theorem ldl_ata_partial (nb nb2 bs : Nat) (hnb : 0 < nb) (hnb2 : 0 < nb2) (hbs : 0 < bs) (bk : LDL.IBlk) (hk : 0 < bk.nb) (hk2 : 0 < bk.nb2)
    (hm : 0 < bk.mb) (hm2 : 0 < bk.mb2) (hti : 0 < bk.ti) (o o' : Ord) (cm crm cst h : Bool) (N : Nat) (h0 : 0 < N)
    (A g LD0 ata : Nat → Nat → K) (P0 : Nat → Nat) (hA : ∀ i j, i < N → j < N → A i j = cj h (A j i))
    (hr : h = false → ∀ i j, i < N → j < N → RCLike.im (A i j) = 0)
    (hd : (Matrix.of fun i j : Fin N => A i j).det ≠ 0) (hu : N ≤ 2 ∨ UpperIs N A ata) (fuel : Nat) (hf : N ≤ fuel) :
    ∃ Z, ldlATA fuel bk o' crm cst h N (LDL.make nb nb2 bs o cm h N A g LD0 P0) ata = some Z ∧
      LU.toM N Z * ((LU.toM N A).conjTranspose * LU.toM N A) = 1 ∧ ∀ i j, ¬ (i < N ∧ j < N) → Z i j = ata i j := by
  unfold ldlATA
  cases h
  · obtain ⟨V, eV, v1, v2, v3⟩ := LDL.inverse_spec nb nb2 bs hnb hnb2 hbs bk hk hk2 hm hm2 hti o o' cm crm cst false N A g LD0 ata P0 hA hd
    obtain ⟨Z, z, z1, z2⟩ := square_ata false h0 ata hA hr v1 v2 v3
      (hu.imp id fun hu => upper_of hu v1 v2 fun i j hij hj => v3 i j (by omega)) fuel hf
    refine ⟨Z, ?_, z1, z2⟩
    rw [if_neg (by decide), eV, Option.bind_some, z]
  · obtain ⟨V, eV, v1, v2, v3⟩ := LDL.inverse_spec nb nb2 bs hnb hnb2 hbs bk hk hk2 hm hm2 hti o o' cm crm cst true N A g LD0 (realDiag N ata) P0 hA hd
    obtain ⟨Z, z, z1, z2⟩ := square_ata true h0 (realDiag N ata) hA (by simp) v1 v2 v3
      (hu.imp id fun hu => upper_of hu v1 v2 fun i j hij hj => by rw [v3 i j (by omega), realDiag_off _ (by omega)]) fuel hf
    refine ⟨Z, ?_, z1, fun i j hij => by rw [z2 i j hij, realDiag_off _ (by omega)]⟩
    rw [if_pos rfl, eV, Option.bind_some, z]

/-! ### The elements above the diagonal are read -/

/-- The example: `[[1,-1,0],[-1,2,0],[0,0,1]]`, whose inverse is `[[2,1,0],[1,1,0],[0,0,1]]`. -/
def ex3 : Nat → Nat → ℝ := fun i j => if i = 0 ∧ j = 0 then 1 else if i = 1 ∧ j = 1 then 2 else if i = 2 ∧ j = 2 then 1 else
  if i = 0 ∧ j = 1 ∨ i = 1 ∧ j = 0 then -1 else 0

theorem ex3_sym (i j : Nat) : ex3 i j = ex3 j i := by
  unfold ex3
  simp only [and_comm (a := i = 0), and_comm (a := i = 1), and_comm (a := i = 2)]
  split_ifs <;> first | rfl | omega

theorem ex3_posDef : PosDef 3 ex3 := by
  intro x hx
  have e : RCLike.re (quad 3 ex3 x) = (x 0 - x 1)^2 + x 1 ^ 2 + x 2 ^ 2 := by
    simp [quad, ex3, Finset.sum_range_succ]
    ring
  rw [e]
  by_contra hc
  push Not at hc
  obtain ⟨i, hi, h0⟩ := hx
  have h2 : x 2 = 0 := by nlinarith [sq_nonneg (x 0 - x 1), sq_nonneg (x 1), sq_nonneg (x 2)]
  have h1 : x 1 = 0 := by nlinarith [sq_nonneg (x 0 - x 1), sq_nonneg (x 1), sq_nonneg (x 2)]
  have h0' : x 0 = 0 := by nlinarith [sq_nonneg (x 0 - x 1), sq_nonneg (x 1), sq_nonneg (x 2)]
  have : i = 0 ∨ i = 1 ∨ i = 2 := by omega
  rcases this with rfl | rfl | rfl <;> contradiction

theorem square_bad (h : Bool) (fuel : Nat) (V ata : Nat → Nat → ℝ)
    (v1 : ∀ i j, i < 3 → j < 3 → ∑ k ∈ Finset.range 3, ex3 i k * symFull h V k j = if i = j then 1 else 0)
    (v3 : V 1 2 = ata 1 2) :
    ∃ Z, symSquare h (fuel+3) 0 3 V = some Z ∧ Z 2 0 = ata 1 2 := by
  have c0 := v1 0 0 (by decide) (by decide)
  have c1 := v1 1 0 (by decide) (by decide)
  have c2 := v1 2 0 (by decide) (by decide)
  simp [Finset.sum_range_succ, ex3, symFull] at c0 c1 c2
  have e1 : V 1 0 = 1 := by linarith
  have e0 : V 0 0 = 2 := by linarith
  have cjr : ∀ x : ℝ, cj h x = x := fun x => by cases h <;> simp [cj]
  refine ⟨_, rfl, ?_⟩
  simp [mulBlk, cjr, Finset.sum_range_succ, e1, c2, v3]

/-- Below the diagonal at `(2,0)`, `(AᴴA)⁻¹` of the example is `0`. -/
theorem ex3_ata {Z : Nat → Nat → ℝ} (h : LU.toM 3 Z * ((LU.toM 3 ex3).conjTranspose * LU.toM 3 ex3) = 1) : Z 2 0 = 0 := by
  have c0 := congrFun (congrFun h 2) 0
  have c1 := congrFun (congrFun h 2) 1
  have c2 := congrFun (congrFun h 2) 2
  simp [Matrix.mul_apply, Fin.sum_univ_succ, LU.toM, ex3] at c0 c1 c2
  linarith

/-- **C99**: `makeInverseATA` of a positive definite matrix depends on what `ata` held above its diagonal: with `1` there the answer is wrong,
whatever else was there, whatever the storage and the block sizes are. -/
theorem ch_ata_violated (bk : CH.Blks) (hbk : bk.OK) (ub : CH.UBlk) (hub : ub.OK) (o o' : Ord) (xrm brm bst crm cst : Bool)
    (g ata : Nat → Nat → ℝ) (ha : ata 1 2 = 1) (fuel : Nat) :
    ∃ A L Z, (∀ i j, i < 3 → j < 3 → A i j = star (A j i)) ∧ PosDef 3 A ∧ CH.make bk o 3 A g = some L ∧
      chATA (fuel+3) ub o' xrm brm bst crm cst 3 L ata = some Z ∧ LU.toM 3 Z * ((LU.toM 3 A).conjTranspose * LU.toM 3 A) ≠ 1 := by
  obtain ⟨L, V, e, eV, v1, v2, v3⟩ := CH.inverse_spec bk hbk ub hub o o' xrm brm bst crm cst 3 ex3 g (realDiag 3 ata)
    (fun i j _ _ => ex3_sym i j) ex3_posDef
  obtain ⟨Z, z, z1⟩ := square_bad true fuel V ata v1 (by rw [v3 1 2 (by decide), realDiag_off _ (by decide)])
  refine ⟨ex3, L, Z, fun i j _ _ => ex3_sym i j, ex3_posDef, e, ?_, fun hc => ?_⟩
  · unfold chATA
    rw [eV, Option.bind_some, z]
  · have := ex3_ata hc
    rw [z1, ha] at this
    exact one_ne_zero this

/-- **C99**: the same for Hermitian band matrices. -/
theorem band_ata_violated (bcm : Bool) (bk : CH.UBlk) (hbk : bk.OK) (o : Ord) (xrm brm bst crm cst ac : Bool) (l : Diag.Lay)
    (g ata : Nat → Nat → ℝ) (ha : ata 1 2 = 1) (fuel : Nat) :
    ∃ A LL Z, BandCH.HermBand 3 1 A ∧ PosDef 3 A ∧ BandCH.make bcm 3 1 A g = some LL ∧
      bandATA (fuel+3) bk o xrm brm bst crm cst ac l 3 1 LL ata = some Z ∧
      LU.toM 3 Z * ((LU.toM 3 A).conjTranspose * LU.toM 3 A) ≠ 1 := by
  have hA : BandCH.HermBand 3 1 ex3 := ⟨fun i j _ _ => ex3_sym i j, fun i j hi hj hij => by
    unfold ex3
    rw [if_neg (by omega), if_neg (by omega), if_neg (by omega), if_neg (by omega)]⟩
  obtain ⟨LL, e⟩ := BandCH.make_posDef bcm (by decide) ex3 g hA ex3_posDef
  obtain ⟨V, eV, v1, v2, v3⟩ := BandCH.herm_inverse_spec (by decide) hA e bk hbk o xrm brm bst crm cst ac l (realDiag 3 ata)
  obtain ⟨Z, z, z1⟩ := square_bad true fuel V ata v1 (by rw [v3 1 2 (by decide), realDiag_off _ (by decide)])
  refine ⟨ex3, LL, Z, hA, ex3_posDef, e, ?_, fun hc => ?_⟩
  · unfold bandATA
    rw [eV, Option.bind_some, z]
  · have := ex3_ata hc
    rw [z1, ha] at this
    exact one_ne_zero this

/-- **C99**: the same for symmetric and Hermitian matrices that use the Bunch-Kaufman decomposition. -/
theorem ldl_ata_violated (nb nb2 bs : Nat) (hnb : 0 < nb) (hnb2 : 0 < nb2) (hbs : 0 < bs) (bk : LDL.IBlk) (hk : 0 < bk.nb) (hk2 : 0 < bk.nb2)
    (hm : 0 < bk.mb) (hm2 : 0 < bk.mb2) (hti : 0 < bk.ti) (o o' : Ord) (cm crm cst h : Bool)
    (g LD0 ata : Nat → Nat → ℝ) (P0 : Nat → Nat) (ha : ata 1 2 = 1) (fuel : Nat) :
    ∃ A Z, (∀ i j, i < 3 → j < 3 → A i j = cj h (A j i)) ∧ (Matrix.of fun i j : Fin 3 => A i j).det ≠ 0 ∧
      ldlATA (fuel+3) bk o' crm cst h 3 (LDL.make nb nb2 bs o cm h 3 A g LD0 P0) ata = some Z ∧
      LU.toM 3 Z * ((LU.toM 3 A).conjTranspose * LU.toM 3 A) ≠ 1 := by
  have hA : ∀ i j, i < 3 → j < 3 → ex3 i j = cj h (ex3 j i) := fun i j _ _ => by rw [ex3_sym i j]; cases h <;> simp [cj]
  have hd : (Matrix.of fun i j : Fin 3 => ex3 i j).det ≠ 0 := by
    rw [Matrix.det_fin_three]; simp [ex3]; norm_num
  unfold ldlATA
  cases h
  · obtain ⟨V, eV, v1, v2, v3⟩ := LDL.inverse_spec nb nb2 bs hnb hnb2 hbs bk hk hk2 hm hm2 hti o o' cm crm cst false 3 ex3 g LD0 ata P0 hA hd
    obtain ⟨Z, z, z1⟩ := square_bad false fuel V ata v1 (v3 1 2 (by decide))
    refine ⟨ex3, Z, hA, hd, ?_, fun hc => ?_⟩
    · rw [if_neg (by decide), eV, Option.bind_some, z]
    · have := ex3_ata hc
      rw [z1, ha] at this
      exact one_ne_zero this
  · obtain ⟨V, eV, v1, v2, v3⟩ := LDL.inverse_spec nb nb2 bs hnb hnb2 hbs bk hk hk2 hm hm2 hti o o' cm crm cst true 3 ex3 g LD0 (realDiag 3 ata) P0 hA hd
    obtain ⟨Z, z, z1⟩ := square_bad true fuel V ata v1 (by rw [v3 1 2 (by decide), realDiag_off _ (by decide)])
    refine ⟨ex3, Z, hA, hd, ?_, fun hc => ?_⟩
    · rw [if_pos rfl, eV, Option.bind_some, z]
    · have := ex3_ata hc
      rw [z1, ha] at this
      exact one_ne_zero this

/-- **C99**: for a complex symmetric matrix the answer is `A⁻¹ A⁻¹` and not `A⁻¹ (A⁻¹)ᴴ`: wrong for `1 × 1` already (`A = (i)`). -/
theorem ldl_ata_complex_violated (nb nb2 bs : Nat) (hnb : 0 < nb) (hnb2 : 0 < nb2) (hbs : 0 < bs) (bk : LDL.IBlk) (hk : 0 < bk.nb) (hk2 : 0 < bk.nb2)
    (hm : 0 < bk.mb) (hm2 : 0 < bk.mb2) (hti : 0 < bk.ti) (o o' : Ord) (cm crm cst : Bool)
    (g LD0 ata : Nat → Nat → ℂ) (P0 : Nat → Nat) (fuel : Nat) :
    let A : Nat → Nat → ℂ := fun _ _ => Complex.I
    ∃ Z, ldlATA (fuel+1) bk o' crm cst false 1 (LDL.make nb nb2 bs o cm false 1 A g LD0 P0) ata = some Z ∧ Z 0 0 = -1 ∧
      LU.toM 1 Z * ((LU.toM 1 A).conjTranspose * LU.toM 1 A) ≠ 1 := by
  intro A
  have hd : (Matrix.of fun i j : Fin 1 => A i j).det ≠ 0 := by simp [A]
  obtain ⟨V, eV, v1, v2, v3⟩ := LDL.inverse_spec nb nb2 bs hnb hnb2 hbs bk hk hk2 hm hm2 hti o o' cm crm cst false 1 A g LD0 ata P0
    (fun _ _ _ _ => rfl) hd
  have c := v1 0 0 (by decide) (by decide)
  simp [A, symFull] at c
  have hV : V 0 0 = -Complex.I := by
    calc V 0 0 = -(Complex.I * Complex.I) * V 0 0 := by rw [Complex.I_mul_I]; ring
      _ = -Complex.I * (Complex.I * V 0 0) := by ring
      _ = _ := by rw [c, mul_one]
  have hz : ∃ Z, symSquare false (fuel+1) 0 1 V = some Z ∧ Z 0 0 = -1 := ⟨_, rfl, by simp [hV]⟩
  obtain ⟨Z, z, z1⟩ := hz
  refine ⟨Z, ?_, z1, fun hc => ?_⟩
  · unfold ldlATA
    rw [if_neg (by decide), eV, Option.bind_some, z]
  · have := congrFun (congrFun hc 0) 0
    simp [Matrix.mul_apply, LU.toM, A, z1] at this
    norm_num at this

/-- A matrix that meets the hypotheses of `ch_ata_partial` for `N ≤ 2`. -/
example : (∀ i j, i < 2 → j < 2 → ex3 i j = star (ex3 j i)) ∧ PosDef 2 ex3 := by
  refine ⟨fun i j _ _ => ex3_sym i j, fun x hx => ?_⟩
  have e : RCLike.re (quad 2 ex3 x) = (x 0 - x 1)^2 + x 1 ^ 2 := by
    simp [quad, ex3, Finset.sum_range_succ]
    ring
  rw [e]
  by_contra hc
  push Not at hc
  obtain ⟨i, hi, h0⟩ := hx
  have h1 : x 1 = 0 := by nlinarith [sq_nonneg (x 0 - x 1), sq_nonneg (x 1)]
  have h0' : x 0 = 0 := by nlinarith [sq_nonneg (x 0 - x 1), sq_nonneg (x 1)]
  have : i = 0 ∨ i = 1 := by omega
  rcases this with rfl | rfl <;> contradiction

end
end TMV.SymSq
