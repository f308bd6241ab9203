import Verif.Model.BandMM
import Verif.Props.BandMV

set_option linter.unusedSectionVars false

/-! Products of a band matrix and a dense matrix (C93). -/
namespace TMV.BandMM
open BandMV
open BandTri (sum_range_mono)
open Tri (sub)
variable {K : Type _} [Field K] [StarRing K] [DecidableEq K]

theorem rowLoop_spec (add : Bool) (α : K) (N nc lo hi : Nat) (A B : Nat → Nat → K) : ∀ (n i : Nat) (C : Nat → Nat → K),
    i - lo < N → ∀ r c,
    rowLoop add α N nc A B n i (lo-i) (i-lo) (min N (i+hi+1)) C r c =
      if i ≤ r ∧ r < i+n ∧ c < nc then (if add then C r c else 0) +
        α * ∑ j ∈ Finset.range N, bandMat lo hi A r j * B j c else C r c := by
  intro n
  induction n with
  | zero => intro i C _ r c; rw [if_neg (by omega)]; rfl
  | succ n ih =>
    intro i C hi' r c
    simp only [rowLoop]
    generalize hZ : (fun r c => if r = i ∧ c < nc then (if add = true then C r c else 0) +
        α * ∑ t ∈ Finset.range (min N (i+hi+1) - (i-lo)), B (i-lo+t) c * A i (i-lo+t) else C r c) = Z
    have hy : ∀ r c, Z r c =
        if r = i ∧ c < nc then (if add then C r c else 0) + α * ∑ j ∈ Finset.range N, bandMat lo hi A r j * B j c else C r c := by
      intro r c
      rw [← hZ]
      beta_reduce
      by_cases hr : r = i ∧ c < nc
      · rw [if_pos hr, if_pos hr, hr.1, band_row N lo hi i (A i) (fun j => B j c) A (fun _ => rfl) (by omega)]
      · rw [if_neg hr, if_neg hr]
    clear hZ
    have ek : (if lo - i > 0 then lo - i - 1 else lo - i) = lo - (i+1) := by split <;> omega
    have ej : (if lo - i > 0 then i - lo else i - lo + 1) = i + 1 - lo := by split <;> omega
    rw [ek, ej]
    have fin : ∀ (R : K), R = (if i + 1 ≤ r ∧ r < i + 1 + n ∧ c < nc then (if add then Z r c else 0) +
        α * ∑ j ∈ Finset.range N, bandMat lo hi A r j * B j c else Z r c) →
        R = if i ≤ r ∧ r < i + (n+1) ∧ c < nc then (if add then C r c else 0) +
        α * ∑ j ∈ Finset.range N, bandMat lo hi A r j * B j c else C r c := by
      intro R hR
      rw [hR]
      by_cases h1 : r = i ∧ c < nc
      · rw [if_neg (show ¬ (i + 1 ≤ r ∧ r < i + 1 + n ∧ c < nc) by omega), if_pos (show i ≤ r ∧ r < i + (n+1) ∧ c < nc by omega),
          hy, if_pos h1]
      · by_cases h2 : i + 1 ≤ r ∧ r < i + 1 + n ∧ c < nc
        · rw [if_pos h2, if_pos (show i ≤ r ∧ r < i + (n+1) ∧ c < nc by omega), hy, if_neg h1]
        · rw [if_neg h2, if_neg (show ¬ (i ≤ r ∧ r < i + (n+1) ∧ c < nc) by omega), hy, if_neg h1]
    apply fin
    by_cases hb : min N (i+hi+1) < N
    · rw [if_pos hb]
      rw [show min N (i+hi+1) + 1 = min N (i+1+hi+1) by omega]
      exact ih (i+1) Z (by omega) r c
    · rw [if_neg hb]
      by_cases hc : i + 1 - lo = N
      · rw [if_pos hc]
        cases add with
        | true =>
          simp only [if_true]
          split
          · rw [band_row_zero _ _ _ _ (fun j => B j c) _ (by omega), mul_zero, add_zero]
          · rfl
        | false =>
          simp only [Bool.false_eq_true, if_false, zeroRows]
          split
          · rw [band_row_zero _ _ _ _ (fun j => B j c) _ (by omega), mul_zero, add_zero]
          · rfl
      · rw [if_neg hc]
        rw [show min N (i+hi+1) = min N (i+1+hi+1) by omega]
        exact ih (i+1) Z (by omega) r c

theorem rowMM_spec (add : Bool) (α : K) (M N nc lo hi : Nat) (hN : hi < N) (A B C : Nat → Nat → K) :
    MulAddMR add α M N nc (bandMat lo hi A) B C (rowMM add α M N nc lo hi A B C) := by
  intro r c
  have := rowLoop_spec add α N nc lo hi A B M 0 C (by omega) r c
  rw [show min N (0+hi+1) = hi+1 by omega] at this
  simp only [Nat.zero_sub, Nat.sub_zero, Nat.zero_add, Nat.zero_le, true_and] at this
  exact this

theorem opLoop_spec (α : K) (M nc lo hi : Nat) (A B : Nat → Nat → K) : ∀ (n j : Nat) (C : Nat → Nat → K),
    j - hi < M → ∀ r c,
    opLoop α M nc A B n j (hi-j) (j-hi) (min M (j+lo+1)) C r c =
      if r < M ∧ c < nc then C r c + α * ∑ t ∈ Finset.range n, bandMat lo hi A r (j+t) * B (j+t) c else C r c := by
  intro n
  induction n with
  | zero => intro j C _ r c; simp [opLoop]
  | succ n ih =>
    intro j C hj' r c
    simp only [opLoop]
    generalize hZ : (fun r c => if j - hi ≤ r ∧ r < min M (j+lo+1) ∧ c < nc then C r c + α * A r j * B j c else C r c) = Z
    have hy : ∀ r c, Z r c = if r < M ∧ c < nc then C r c + α * (bandMat lo hi A r j * B j c) else C r c := by
      intro r c
      rw [← hZ]
      simp only [bandMat]
      by_cases h1 : r < M ∧ c < nc
      · rw [if_pos h1]
        by_cases h2 : r ≤ j + lo ∧ j ≤ r + hi
        · rw [if_pos h2, if_pos (by omega), mul_assoc]
        · rw [if_neg h2, if_neg (by omega)]; simp
      · rw [if_neg h1, if_neg (by omega)]
    clear hZ
    have ek : (if hi - j > 0 then hi - j - 1 else hi - j) = hi - (j+1) := by split <;> omega
    have ej : (if hi - j > 0 then j - hi else j - hi + 1) = j + 1 - hi := by split <;> omega
    rw [ek, ej]
    have fin : ∀ (R : K), R = (if r < M ∧ c < nc then Z r c +
        α * ∑ t ∈ Finset.range n, bandMat lo hi A r (j+1+t) * B (j+1+t) c else Z r c) →
        R = if r < M ∧ c < nc then C r c +
        α * ∑ t ∈ Finset.range (n+1), bandMat lo hi A r (j+t) * B (j+t) c else C r c := by
      intro R hR
      rw [hR]
      by_cases h1 : r < M ∧ c < nc
      · rw [if_pos h1, if_pos h1, hy, if_pos h1, Finset.sum_range_succ', Nat.add_zero, add_assoc, ← mul_add]
        congr 2
        rw [add_comm]
        congr 1
        exact Finset.sum_congr rfl fun t _ => by rw [show j + 1 + t = j + (t+1) by omega]
      · rw [if_neg h1, if_neg h1, hy, if_neg h1]
    apply fin
    by_cases hb : min M (j+lo+1) < M
    · rw [if_pos hb]
      rw [show min M (j+lo+1) + 1 = min M (j+1+lo+1) by omega]
      exact ih (j+1) Z (by omega) r c
    · rw [if_neg hb]
      by_cases hc : j + 1 - hi = M
      · rw [if_pos hc]
        split
        · rw [Finset.sum_eq_zero, mul_zero, add_zero]
          intro t _
          simp only [bandMat]
          rw [if_neg (by omega), zero_mul]
        · rfl
      · rw [if_neg hc]
        rw [show min M (j+lo+1) = min M (j+1+lo+1) by omega]
        exact ih (j+1) Z (by omega) r c

theorem addZ (add : Bool) (M nc r c : Nat) (C : Nat → Nat → K) :
    (if add = true then C else zeroRows 0 M nc C) r c = if r < M ∧ c < nc then (if add then C r c else 0) else C r c := by
  cases add <;> simp [zeroRows]

theorem opMM_spec (add : Bool) (α : K) (M N nc lo hi : Nat) (hM : lo < M) (A B C : Nat → Nat → K) :
    MulAddMR add α M N nc (bandMat lo hi A) B C (opMM add α M N nc lo hi A B C) := by
  intro r c
  have := opLoop_spec α M nc lo hi A B N 0 (if add = true then C else zeroRows 0 M nc C) (by omega) r c
  rw [show min M (0+lo+1) = lo+1 by omega] at this
  simp only [Nat.zero_sub, Nat.sub_zero, Nat.zero_add] at this
  refine this.trans ?_
  rw [addZ]
  split <;> rfl

theorem colMM_spec (add : Bool) (α : K) (M N nc lo hi : Nat) (hM : lo < M) (hN : hi < N) (A : BArg K) (B : MArg K) (ccm : Bool)
    (g : Nat → K) (C : Nat → Nat → K) :
    MulAddMR add α M N nc (bandMat lo hi A.val) B.val C (colMM add α M N nc lo hi A B ccm g C) := by
  unfold colMM
  have := up_inv (fun j (C : Nat → Nat → K) =>
    let y := multMV add α M N lo hi A.rm A.cm A.conj (fun _ => A.mem) ⟨fun k => B.mem k j, B.cm, B.conj⟩ false false ccm false g
      (fun i => C i j)
    fun r c => if c = j then y r else C r c)
    (fun j D => ∀ r c, D r c = if r < M ∧ c < j then (if add then C r c else 0) +
      α * ∑ k ∈ Finset.range N, bandMat lo hi A.val r k * B.val k c else C r c) nc 0 C (by intro r c; rw [if_neg (by omega)]) (by
      intro j D _ h2 hD r c
      dsimp only
      by_cases hc : c = j
      · subst hc
        rw [if_pos rfl]
        have := multMV_partial add α M N lo hi (fun _ => hM) (fun _ => hN) A.rm A.cm A.conj (fun _ => A.mem)
          ⟨fun k => B.mem k c, B.cm, B.conj⟩ false false ccm false g (fun i => D i c) (Or.inl fun _ => rfl) r
        simp only [yval, cj_f] at this
        rw [this]
        by_cases hr : r < M
        · have e : D r c = C r c := by rw [hD, if_neg (show ¬ (r < M ∧ c < c) by omega)]
          rw [if_pos hr, if_pos (show r < M ∧ c < c + 1 by omega), e]
          rfl
        · rw [if_neg hr, if_neg (show ¬ (r < M ∧ c < c + 1) by omega), hD, if_neg (show ¬ (r < M ∧ c < c) by omega)]
      · rw [if_neg hc, hD]
        by_cases hr : r < M ∧ c < j
        · rw [if_pos hr, if_pos (show r < M ∧ c < j + 1 by omega)]
        · rw [if_neg hr, if_neg (show ¬ (r < M ∧ c < j + 1) by omega)])
  intro r c
  simpa using this r c

theorem rowOp_ne (add : Bool) (nc i m : Nat) (d : K) (B C : Nat → Nat → K) (r c : Nat) (h : ¬ (r = i ∧ c < nc)) :
    rowOp add nc i m d B C r c = C r c := by
  simp only [rowOp]; rw [if_neg h]

theorem rowOp_eq (add : Bool) (nc i m : Nat) (d : K) (B C : Nat → Nat → K) (c : Nat) (h : c < nc) :
    rowOp add nc i m d B C i c = (if add then C i c else 0) + d * B m c := by
  unfold rowOp; rw [if_pos ⟨rfl, h⟩]

/-- A row of a tridiagonal matrix. -/
theorem tri_row (N i : Nat) (A : Nat → Nat → K) (f : Nat → K) (h : i < N) :
    ∑ k ∈ Finset.range N, bandMat 1 1 A i k * f k =
      A i i * f i + (if i > 0 then A i (i-1) * f (i-1) else 0) + (if i + 1 < N then A i (i+1) * f (i+1) else 0) := by
  rw [band_row N 1 1 i (A i) f A (fun _ => rfl) (by omega)]
  by_cases h0 : i > 0
  · rw [if_pos h0]
    by_cases h1 : i + 1 < N
    · rw [if_pos h1, show min N (i+1+1) - (i-1) = 3 by omega, Finset.sum_range_succ, Finset.sum_range_succ, Finset.sum_range_one,
        show i - 1 + 0 = i - 1 by omega, show i - 1 + 1 = i by omega, show i - 1 + 2 = i + 1 by omega]
      ring
    · rw [if_neg h1, show min N (i+1+1) - (i-1) = 2 by omega, Finset.sum_range_succ, Finset.sum_range_one,
        show i - 1 + 0 = i - 1 by omega, show i - 1 + 1 = i by omega]
      ring
  · rw [if_neg h0, show i = 0 by omega]
    by_cases h1 : 0 + 1 < N
    · rw [if_pos h1, show min N (0+1+1) - (0-1) = 2 by omega, Finset.sum_range_succ, Finset.sum_range_one]
      simp only [Nat.zero_sub, Nat.zero_add]
      ring
    · rw [if_neg h1, show min N (0+1+1) - (0-1) = 1 by omega, Finset.sum_range_one]
      simp only [Nat.zero_sub, Nat.zero_add]
      ring

theorem tri_last (N : Nat) (A : Nat → Nat → K) (f : Nat → K) (h : 0 < N) :
    ∑ k ∈ Finset.range N, bandMat 1 1 A N k * f k = A N (N-1) * f (N-1) := by
  rw [band_row N 1 1 N (A N) f A (fun _ => rfl) (by omega), show min N (N+1+1) - (N-1) = 1 by omega, Finset.sum_range_one,
    Nat.add_zero, mul_comm]

theorem nonLap_spec (add : Bool) (M N nc : Nat) (hM : 1 < M) (hN : 1 < N) (hMN : N ≤ M + 1) (hNM : M ≤ N + 1)
    (A B C : Nat → Nat → K) : MulAddMR add 1 M N nc (bandMat 1 1 A) B C (nonLap add M N nc A B C) := by
  unfold nonLap
  dsimp only
  set D := min M N with hD
  have hloop := up_inv (fun i (C : Nat → Nat → K) =>
    let C := rowOp add nc i i (A i i) B C
    let C := if i > 0 then rowOp true nc i (i-1) (A i (i-1)) B C else C
    if i < (if N > M then D else D - 1) then rowOp true nc i (i+1) (A i (i+1)) B C else C)
    (fun i Z => ∀ r c, Z r c = if r < i ∧ c < nc then (if add then C r c else 0) +
      ∑ k ∈ Finset.range N, bandMat 1 1 A r k * B k c else C r c) D 0 C (by intro r c; rw [if_neg (by omega)]) (by
      intro i Z _ h2 hZ r c
      dsimp only
      have hNu : (i < if N > M then D else D - 1) ↔ i + 1 < N := by split <;> omega
      by_cases hr : r = i ∧ c < nc
      · obtain ⟨rfl, hc⟩ := hr
        rw [if_pos (show r < r + 1 ∧ c < nc by omega), tri_row N r A (fun k => B k c) (by omega)]
        have hz : Z r c = C r c := by rw [hZ, if_neg (by omega)]
        by_cases h3 : r > 0
        · rw [if_pos h3, if_pos h3]
          by_cases h4 : r + 1 < N
          · rw [if_pos (hNu.mpr h4), if_pos h4, rowOp_eq _ _ _ _ _ _ _ _ hc, rowOp_eq _ _ _ _ _ _ _ _ hc,
              rowOp_eq _ _ _ _ _ _ _ _ hc, hz]
            simp only [if_true]
            ring
          · rw [if_neg (fun h => h4 (hNu.mp h)), if_neg h4, rowOp_eq _ _ _ _ _ _ _ _ hc, rowOp_eq _ _ _ _ _ _ _ _ hc, hz]
            simp only [if_true]
            ring
        · rw [if_neg h3, if_neg h3]
          by_cases h4 : r + 1 < N
          · rw [if_pos (hNu.mpr h4), if_pos h4, rowOp_eq _ _ _ _ _ _ _ _ hc, rowOp_eq _ _ _ _ _ _ _ _ hc, hz]
            simp only [if_true]
            ring
          · rw [if_neg (fun h => h4 (hNu.mp h)), if_neg h4, rowOp_eq _ _ _ _ _ _ _ _ hc, hz]
            ring
      · have hsame : (if i < (if N > M then D else D - 1) then rowOp true nc i (i+1) (A i (i+1)) B
            (if i > 0 then rowOp true nc i (i-1) (A i (i-1)) B (rowOp add nc i i (A i i) B Z) else rowOp add nc i i (A i i) B Z)
            else (if i > 0 then rowOp true nc i (i-1) (A i (i-1)) B (rowOp add nc i i (A i i) B Z) else rowOp add nc i i (A i i) B Z))
            r c = Z r c := by
          generalize (if N > M then D else D - 1) = Nu
          split <;> split <;> simp only [rowOp_ne _ _ _ _ _ _ _ _ _ hr]
        rw [hsame, hZ]
        by_cases h3 : r < i ∧ c < nc
        · rw [if_pos h3, if_pos (show r < i + 1 ∧ c < nc by omega)]
        · rw [if_neg h3, if_neg (show ¬ (r < i + 1 ∧ c < nc) by omega)])
  rw [Nat.zero_add] at hloop
  generalize up _ D 0 C = Z at hloop
  intro r c
  rw [one_mul]
  by_cases hNM' : N < M
  · rw [if_pos hNM', if_pos rfl]
    by_cases hr : r = D ∧ c < nc
    · obtain ⟨rfl, hc⟩ := hr
      rw [rowOp_eq _ _ _ _ _ _ _ _ hc, hloop, if_neg (show ¬ (D < D ∧ c < nc) by omega), if_pos (show D < M ∧ c < nc by omega),
        show D = N by omega, tri_last N A (fun k => B k c) (by omega)]
    · rw [rowOp_ne _ _ _ _ _ _ _ _ _ hr, hloop]
      by_cases h3 : r < D ∧ c < nc
      · rw [if_pos h3, if_pos (show r < M ∧ c < nc by omega)]
      · rw [if_neg h3, if_neg (show ¬ (r < M ∧ c < nc) by omega)]
  · rw [if_neg hNM', if_neg (by omega), hloop]
    by_cases h3 : r < D ∧ c < nc
    · rw [if_pos h3, if_pos (show r < M ∧ c < nc by omega)]
    · rw [if_neg h3, if_neg (show ¬ (r < M ∧ c < nc) by omega)]

theorem mval_mval (cc : Bool) (C : Nat → Nat → K) : mval cc (mval cc C) = C := by
  funext i j; cases cc <;> simp [mval, cj]

/-- Conjugating everything. -/
theorem mulAddMR_star {add : Bool} {α : K} {M N nc lo hi : Nat} {A : BArg K} {B : MArg K} {C Z : Nat → Nat → K}
    (h : MulAddMR add (star α) M N nc (bandMat lo hi A.cjg.val) B.cjg.val (mval true C) (mval true Z)) :
    MulAddMR add α M N nc (bandMat lo hi A.val) B.val C Z := by
  intro i c
  have hic := h i c
  simp only [mval, cj, if_true] at hic
  have : Z i c = star (star (Z i c)) := by simp
  rw [this, hic]
  split
  · rw [star_add, star_mul', star_star, star_sum]
    congr 1
    · cases add <;> simp
    · congr 1
      refine Finset.sum_congr rfl fun k _ => ?_
      rw [star_mul', star_bandMat]
      simp only [BArg.val, MArg.val, BArg.cjg, MArg.cjg, cj_not, star_star]
      rfl
  · simp

theorem triDiag_spec (add : Bool) (α : K) (M N nc : Nat) (hM : 1 < M) (hN : 1 < N) (hMN : N ≤ M + 1) (hNM : M ≤ N + 1) (dm : Bool)
    (A : BArg K) (B : MArg K) (cc : Bool) (C : Nat → Nat → K) :
    MulAddMR add α M N nc (bandMat 1 1 A.val) B.val (mval cc C) (mval cc (triDiag add α M N nc dm A B cc C)) := by
  unfold triDiag
  split
  · rename_i h
    obtain ⟨rfl, -⟩ := h
    obtain ⟨m, rm, cm, ca⟩ := A
    cases ca with
    | true =>
      simp only [if_true]
      have h := nonLap_spec add M N nc hM hN hMN hNM m B.cjg.val (mval (!cc) C)
      refine mulAddMR_star (A := ⟨m, rm, cm, true⟩) (α := 1) ?_
      rw [star_one]
      have e : ∀ C : Nat → Nat → K, mval true (mval cc C) = mval (!cc) C := by
        intro C; funext i j; cases cc <;> simp [mval, cj]
      rw [e, e, mval_mval]
      exact h
    | false =>
      simp only [Bool.false_eq_true, if_false]
      rw [mval_mval]
      exact nonLap_spec add M N nc hM hN hMN hNM m B.val (mval cc C)
  · rw [mval_mval]
    intro i c
    rw [nonLap_spec add M N nc hM hN hMN hNM (fun i j => α * A.val i j) B.val (mval cc C) i c]
    split
    · rw [one_mul, Finset.mul_sum]
      congr 1
      refine Finset.sum_congr rfl fun k _ => ?_
      simp only [bandMat]
      split
      · ring
      · simp
    · rfl

theorem doMM_spec (add : Bool) (α : K) (M N nc lo hi : Nat) (hM : lo < M) (hN : hi < N) (hMN : N ≤ M + hi) (hNM : M ≤ N + lo)
    (dm : Bool) (A : BArg K) (B : MArg K) (crm ccm : Bool) (g : Nat → K) (C : Nat → Nat → K) :
    MulAddMR add α M N nc (bandMat lo hi A.val) B.val C (doMM add α M N nc lo hi dm A B crm ccm g C) := by
  unfold doMM
  split
  · exact rowMM_spec add α M N nc lo hi hN A.val B.val C
  · split
    · exact opMM_spec add α M N nc lo hi hM A.val B.val C
    · split
      · exact colMM_spec add α M N nc lo hi hM hN A B ccm g C
      · split
        · rename_i h
          obtain ⟨rfl, rfl⟩ := h
          split
          · exact mulAddMR_star (triDiag_spec add (star α) M N nc hM hN hMN hNM dm A.cjg B.cjg true C)
          · exact triDiag_spec add α M N nc hM hN hMN hNM dm A B false C
        · split
          · exact rowMM_spec add α M N nc lo hi hN A.val B.val C
          · exact colMM_spec add α M N nc lo hi hM hN A B ccm g C

theorem fullTemp_spec (add : Bool) (α : K) (M N nc lo hi : Nat) (hM : lo < M) (hN : hi < N) (hMN : N ≤ M + hi) (hNM : M ≤ N + lo)
    (dm : Bool) (A : BArg K) (B : MArg K) (crm : Bool) (g : Nat → K) (G C : Nat → Nat → K) :
    MulAddMR add α M N nc (bandMat lo hi A.val) B.val C (fullTemp add α M N nc lo hi dm A B crm g G C) := by
  unfold fullTemp
  have key : ∀ Z, MulAddMR false 1 M N nc (bandMat lo hi A.val) B.val G Z →
      MulAddMR add α M N nc (bandMat lo hi A.val) B.val C (putM add M nc (fun i c => α * Z i c) C) := by
    intro Z hZ i c
    simp only [putM]
    by_cases h : i < M ∧ c < nc
    · rw [if_pos h, if_pos h, hZ, if_pos h]
      cases add <;> simp
    · rw [if_neg h, if_neg h]
  apply key
  split
  · exact doMM_spec false 1 M N nc lo hi hM hN hMN hNM dm A B true false g G
  · exact doMM_spec false 1 M N nc lo hi hM hN hMN hNM dm A B false true g G

/-- Overwriting columns of `C` to the left of column `j` leaves the columns of `B` from `j` on as they are. -/
def BehindC (nc : Nat) (B : (Nat → Nat → K) → Nat → Nat → K) (C : Nat → Nat → K) : Prop :=
  ∀ C' j, j ≤ nc → (∀ i c, j ≤ c → C' i c = C i c) → ∀ i c, j ≤ c → c < nc → B C' i c = B C i c

theorem blockTemp_spec (add : Bool) (α : K) (M N nc lo hi : Nat) (hM : lo < M) (hN : hi < N) (hMN : N ≤ M + hi) (hNM : M ≤ N + lo)
    (dm : Bool) (A : BArg K) (Bacc : (Nat → Nat → K) → Nat → Nat → K) (crm ccm : Bool) (nb : Nat) (hnb : 0 < nb) (g : Nat → K)
    (C0 : Nat → Nat → K) (hB : BehindC nc Bacc C0) : ∀ (f j : Nat) (C : Nat → Nat → K), j ≤ nc → nc ≤ j + f →
    (∀ r c, C r c = if r < M ∧ c < j then (if add then C0 r c else 0) +
      α * ∑ k ∈ Finset.range N, bandMat lo hi A.val r k * Bacc C0 k c else C0 r c) →
    MulAddMR add α M N nc (bandMat lo hi A.val) (Bacc C0) C0 (blockTemp add α M N nc lo hi dm A Bacc crm ccm nb g f j C) := by
  intro f
  induction f with
  | zero =>
    intro j C h1 h2 hC
    obtain rfl : j = nc := by omega
    exact hC
  | succ f ih =>
    intro j C h1 h2 hC
    simp only [blockTemp]
    by_cases hj : j < nc
    · rw [if_pos hj]
      refine ih _ _ (by omega) (by omega) ?_
      intro r c
      have hs := doMM_spec add 1 M N (min nc (j+nb) - j) lo hi hM hN hMN hNM dm A
        ⟨fun k c => α * Bacc C k (j+c), crm, !crm, false⟩ crm ccm g (sub C 0 j) r (c-j)
      by_cases hc : j ≤ c ∧ c < min nc (j+nb)
      · rw [if_pos hc, hs]
        by_cases hr : r < M
        · have e : C r c = C0 r c := by rw [hC, if_neg (show ¬ (r < M ∧ c < j) by omega)]
          rw [if_pos (show r < M ∧ c - j < min nc (j+nb) - j by omega), if_pos (show r < M ∧ c < min nc (j+nb) by omega)]
          simp only [sub, Nat.zero_add, MArg.val, cj_f]
          rw [show j + (c - j) = c by omega, e, one_mul, Finset.mul_sum]
          congr 1
          refine Finset.sum_congr rfl fun k _ => ?_
          rw [hB C j (by omega) (fun i c hc => by rw [hC, if_neg (by omega)]) k c (by omega) (by omega)]
          ring
        · rw [if_neg (show ¬ (r < M ∧ c - j < min nc (j+nb) - j) by omega), if_neg (show ¬ (r < M ∧ c < min nc (j+nb)) by omega)]
          simp only [sub, Nat.zero_add]
          rw [show j + (c - j) = c by omega, hC, if_neg (show ¬ (r < M ∧ c < j) by omega)]
      · rw [if_neg hc, hC]
        by_cases h3 : r < M ∧ c < j
        · rw [if_pos h3, if_pos (show r < M ∧ c < min nc (j+nb) by omega)]
        · rw [if_neg h3, if_neg (show ¬ (r < M ∧ c < min nc (j+nb)) by omega)]
    · rw [if_neg hj]
      obtain rfl : j = nc := by omega
      exact hC

theorem multMM3_spec (add : Bool) (α : K) (M N nc lo hi : Nat) (hM : lo < M) (hN : hi < N) (hMN : N ≤ M + hi) (hNM : M ≤ N + lo)
    (dm : Bool) (A : BArg K) (B : (Nat → Nat → K) → MArg K) (crm ccm : Bool) (ssA ssB st : Bool) (nb : Nat) (hnb : 0 < nb)
    (g : Nat → K) (G C : Nat → Nat → K)
    (hB : ssA = false → ssB = true → st = true → BehindC nc (fun C => (B C).val) C) :
    MulAddMR add α M N nc (bandMat lo hi A.val) (B C).val C
      (multMM3 add α M N nc lo hi dm A B crm ccm ssA ssB st nb g G C) := by
  unfold multMM3
  cases ssA with
  | true => exact fullTemp_spec add α M N nc lo hi hM hN hMN hNM dm A (B C) crm g G C
  | false =>
    cases ssB with
    | true =>
      cases st with
      | true =>
        exact blockTemp_spec add α M N nc lo hi hM hN hMN hNM dm A (fun C => (B C).val) crm ccm nb hnb g C
          (hB rfl rfl rfl) nc 0 C (by omega) (by omega) (by intro r c; rw [if_neg (by omega)])
      | false => exact fullTemp_spec add α M N nc lo hi hM hN hMN hNM dm A (B C) crm g G C
    | false => exact doMM_spec add α M N nc lo hi hM hN hMN hNM dm A (B C) crm ccm g C

theorem multMM2_spec (add : Bool) (α : K) (M N nc lo hi : Nat) (hM : lo < M) (hN : hi < N) (hMN : N ≤ M + hi) (hNM : M ≤ N + lo)
    (dm : Bool) (A : BArg K) (B : (Nat → Nat → K) → MArg K) (crm ccm cc : Bool) (ssA ssB st : Bool) (nb : Nat) (hnb : 0 < nb)
    (g : Nat → K) (G C : Nat → Nat → K)
    (hB : ssA = false → ssB = true → st = true → BehindC nc (fun C => (B C).val) C) :
    MulAddMR add α M N nc (bandMat lo hi A.val) (B C).val (mval cc C)
      (mval cc (multMM2 add α M N nc lo hi dm A B crm ccm cc ssA ssB st nb g G C)) := by
  unfold multMM2
  cases cc with
  | true =>
    simp only [if_true]
    refine mulAddMR_star ?_
    rw [mval_mval, mval_mval]
    refine multMM3_spec add (star α) M N nc lo hi hM hN hMN hNM dm A.cjg (fun C => (B C).cjg) crm ccm ssA ssB st nb hnb g G C ?_
    intro h1 h2 h3 C' j hj h i c hc hc'
    have := hB h1 h2 h3 C' j hj h i c hc hc'
    simp only [MArg.val, MArg.cjg, cj_not] at this ⊢
    rw [this]
  | false => exact multMM3_spec add α M N nc lo hi hM hN hMN hNM dm A B crm ccm ssA ssB st nb hnb g G C hB

/-- **C93.** `C (+)= alpha*A*B` for a band matrix `A` of `M`×`N` elements and a dense matrix `B` of `N`×`nc`, of any storage
and conjugation: every element of `C` gets exactly the matrix product of the band part of `A` and `B`.  `A` may share memory
with `C`.  `B` may share memory with `C`; if it then has the same steps, this is proved where overwriting columns of `C`
does not reach columns of `B` further to the right (in particular `B` = `C` or `C.conjugate()`). -/
theorem multMM_partial (add : Bool) (α : K) (M N nc lo hi : Nat) (hM : 0 < M → lo < M) (hN : 0 < N → hi < N)
    (dm : Bool) (A : BArg K) (B : (Nat → Nat → K) → MArg K) (crm ccm cc : Bool) (ssA ssB st : Bool) (nb : Nat) (hnb : 0 < nb)
    (g : Nat → K) (G C : Nat → Nat → K)
    (hB : ssA = false → ssB = true → st = true → BehindC nc (fun C => (B C).val) C) :
    MulAddMR add α M N nc (bandMat lo hi A.val) (B C).val (mval cc C)
      (mval cc (multMM add α M N nc lo hi dm A B crm ccm cc ssA ssB st nb g G C)) := by
  unfold multMM
  by_cases h0 : M > 0 ∧ nc > 0
  · rw [if_pos h0]
    by_cases h1 : N = 0 ∨ α = 0
    · rw [if_pos h1]
      intro i c
      simp only [mval]
      rw [addZ]
      by_cases h : i < M ∧ c < nc
      · rw [if_pos h, if_pos h]
        cases add <;> rcases h1 with rfl | rfl <;> simp [cj_z]
      · rw [if_neg h, if_neg h]
    · rw [if_neg h1]
      push Not at h1
      have hM' := hM h0.1
      have hN' := hN (by omega)
      by_cases h2 : N > M + hi
      · rw [if_pos h2]
        intro i c
        rw [multMM2_spec add α M (M+hi) nc lo hi hM' (by omega) (by omega) (by omega) dm A B crm ccm cc ssA ssB st nb hnb g G C hB
          i c]
        split
        · congr 2
          symm
          refine sum_range_mono _ _ 0 (by omega) (fun k _ => by rw [Nat.zero_add]) ?_
          intro k hk hk'
          simp only [bandMat]
          rw [if_neg (by omega), zero_mul]
        · rfl
      · rw [if_neg h2]
        by_cases h3 : M > N + lo
        · rw [if_pos h3]
          have hs := multMM2_spec add α (N+lo) N nc lo hi (by omega) hN' (by omega) (by omega) dm A B crm ccm cc ssA ssB st nb hnb
            g G C hB
          have hzr : ∀ i c, N + lo ≤ i → ∑ k ∈ Finset.range N, bandMat lo hi A.val i k * (B C).val k c = 0 :=
            fun i c hi' => band_row_zero _ _ _ _ (fun k => (B C).val k c) _ (by omega)
          intro i c
          have hs := hs i c
          cases add with
          | true =>
            simp only [if_true] at hs ⊢
            rw [hs]
            by_cases hi' : i < N + lo ∧ c < nc
            · rw [if_pos hi', if_pos (show i < M ∧ c < nc by omega)]
            · rw [if_neg hi']
              split
              · rw [hzr i c (by omega), mul_zero, add_zero]
              · rfl
          | false =>
            simp only [mval, Bool.false_eq_true, if_false, zeroRows] at hs ⊢
            by_cases hi' : i < N + lo ∧ c < nc
            · rw [if_pos hi'] at hs
              rw [if_neg (by omega), if_pos (show i < M ∧ c < nc by omega), hs]
            · by_cases h4 : i < M ∧ c < nc
              · rw [if_pos (by omega), if_pos h4, hzr i c (by omega), mul_zero, add_zero, cj_z]
              · rw [if_neg hi'] at hs
                rw [if_neg (by omega), if_neg h4, hs]
        · rw [if_neg h3]
          exact multMM2_spec add α M N nc lo hi hM' hN' (by omega) (by omega) dm A B crm ccm cc ssA ssB st nb hnb g G C hB
  · rw [if_neg h0]
    intro i c
    rw [if_neg (by omega)]

/-- The hypotheses are met with `B = C` (`C = A*C`, blocks of 2 columns, 3 columns, tridiagonal `A`). -/
theorem multMM_example : BehindC 3 (fun C => (⟨C, false, true, false⟩ : MArg ℚ).val) (fun i c => (i : ℚ) + c) ∧
    ∃ R : Nat → Nat → ℚ, R = multMM false 1 3 3 3 1 1 false ⟨fun i j => (i : ℚ) + 2*j + 1, true, false, false⟩
      (fun C => ⟨C, false, true, false⟩) false true false false true true 2 (fun _ => 0) (fun _ _ => 0) (fun i c => i + c) ∧
    R 0 2 = 11 ∧ R 1 0 = 16 ∧ R 2 1 = 31 := by
  refine ⟨fun C' j hj h i c hc _ => h i c hc, _, rfl, ?_, ?_, ?_⟩ <;> decide +kernel

/-- **C93 is violated** if `B` and `C` are overlapping, shifted column ranges of one matrix with more than 64 columns
(`TMV_BLOCKSIZE`): `m.colRange(1,66) = A * m.colRange(0,65)` with the 1×1 matrix `A = [2]` and `m = (1, …, 1)` gives 4 instead of 2
in the last column, since the first block of 64 columns of the result has overwritten the column of `B` that is read then. -/
theorem multMM_shift_violated :
    let R := multMM false 1 1 1 65 0 0 true ⟨fun _ _ => (2:ℚ), true, true, false⟩
      (fun C => ⟨fun i c => if c = 0 then 1 else C i (c-1), true, false, false⟩) true false false false true true 64 (fun _ => 0)
      (fun _ _ => 0) (fun _ _ => 1)
    R 0 63 = 2 ∧ R 0 64 = 4 := by
  refine ⟨?_, ?_⟩ <;> decide +kernel

end TMV.BandMM
