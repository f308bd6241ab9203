import Verif.Model.SymBandMul
import Mathlib.Tactic.Ring
import Mathlib.Tactic.NormNum
import Mathlib.Tactic.SplitIfs
import Mathlib.Data.Rat.Star
import Mathlib.Algebra.BigOperators.Ring.Finset
import Mathlib.Algebra.BigOperators.Fin
import Mathlib.Algebra.Star.BigOperators

/-! Products of symmetric and Hermitian band matrices with vectors and matrices (`Model/SymBandMul`).  Property C133. -/
namespace TMV.SymBandMul
variable {K : Type _} [Field K] [StarRing K]

/-- A Hermitian band matrix has a real diagonal. -/
def SB.Valid (A : SB K) (N : Nat) : Prop := A.h = true → ∀ i, i < N → star (A.d i i) = A.d i i

/-- `Σ_j A(i,j) x(j)`. -/
def rowDot (N : Nat) (A : SB K) (x : Nat → K) (i : Nat) : K := ∑ j ∈ Finset.range N, A.el i j * x j

/-! ### The two triangles -/

theorem el_split (A : SB K) (i j : Nat) : A.el i j = A.lowerEl i j + (if i < j ∧ j ≤ i + A.k then A.el i j else 0) := by
  unfold SB.lowerEl
  by_cases h1 : j ≤ i ∧ i ≤ j + A.k
  · rw [if_pos h1, if_neg (by omega), add_zero]
  · rw [if_neg h1, zero_add]
    by_cases h2 : i < j ∧ j ≤ i + A.k
    · rw [if_pos h2]
    · rw [if_neg h2]; unfold SB.el; rw [if_neg (by omega)]

theorem rowDot_split (N : Nat) (A : SB K) (x : Nat → K) (i : Nat) :
    rowDot N A x i = ∑ j ∈ Finset.range N, A.lowerEl i j * x j + ∑ j ∈ Finset.range (N - 1), A.upperOffEl i j * x (j + 1) := by
  unfold rowDot
  cases N with
  | zero => simp
  | succ n =>
    have : ∑ j ∈ Finset.range (n + 1), A.el i j * x j = ∑ j ∈ Finset.range (n + 1), A.lowerEl i j * x j +
        ∑ j ∈ Finset.range (n + 1), (if i < j ∧ j ≤ i + A.k then A.el i j else 0) * x j := by
      rw [← Finset.sum_add_distrib]
      refine Finset.sum_congr rfl fun j _ => ?_
      rw [← add_mul, ← el_split]
    rw [this, Finset.sum_range_succ' (fun j => (if i < j ∧ j ≤ i + A.k then A.el i j else 0) * x j)]
    simp [SB.upperOffEl]

theorem upper_zero_k (A : SB K) (hk : A.k = 0) (i j : Nat) : A.upperOffEl i j = 0 := by
  unfold SB.upperOffEl; rw [if_neg (by omega)]

theorem upper_zero_last (N : Nat) (A : SB K) (x : Nat → K) (i : Nat) (hi : ¬ i < N - 1) :
    ∑ j ∈ Finset.range (N - 1), A.upperOffEl i j * x (j + 1) = 0 := by
  refine Finset.sum_eq_zero fun j hj => ?_
  have := Finset.mem_range.mp hj
  unfold SB.upperOffEl; rw [if_neg (by omega), zero_mul]

theorem upper_zero (N : Nat) (A : SB K) (x : Nat → K) (i : Nat) (h : ¬(N > 1 ∧ A.k > 0)) :
    ∑ j ∈ Finset.range (N - 1), A.upperOffEl i j * x (j + 1) = 0 := by
  by_cases hN : N > 1
  · refine Finset.sum_eq_zero fun j _ => ?_
    rw [upper_zero_k A (by omega), zero_mul]
  · rw [show N - 1 = 0 by omega]; simp

theorem unitA_spec (add : Bool) (N : Nat) (A : SB K) (x y : Nat → K) (i : Nat) :
    unitA add N A x y i = if i < N then (if add then y i else 0) + rowDot N A x i else y i := by
  unfold unitA
  dsimp only
  by_cases hi : i < N
  · rw [if_pos hi, rowDot_split]
    by_cases h : N > 1 ∧ A.k > 0
    · rw [if_pos h]
      by_cases hl : i < N - 1
      · rw [if_pos hl, if_pos hi, add_assoc]
      · rw [if_neg hl, if_pos hi, upper_zero_last N A x i hl, add_zero]
    · rw [if_neg h, if_pos hi, upper_zero N A x i h, add_zero]
  · rw [if_neg hi]
    by_cases h : N > 1 ∧ A.k > 0
    · rw [if_pos h, if_neg (by omega), if_neg hi]
    · rw [if_neg h, if_neg hi]

theorem rowDot_mul (N : Nat) (A : SB K) (α : K) (x : Nat → K) (i : Nat) : rowDot N A (fun j => α * x j) i = α * rowDot N A x i := by
  unfold rowDot
  rw [Finset.mul_sum]
  exact Finset.sum_congr rfl fun j _ => by ring

theorem nonBlasLow_spec [DecidableEq K] (add x1 y1 : Bool) (g : Nat → K) (N : Nat) (α : K) (A : SB K) (x y : Nat → K) (i : Nat) :
    nonBlasLow add x1 y1 g N α A x y i = if i < N then (if add then y i else 0) + α * rowDot N A x i else y i := by
  unfold nonBlasLow
  by_cases hi : i < N
  · rw [if_pos hi]
    cases x1
    · cases y1
      · simp only [Bool.not_false, if_true, putV, if_pos hi, unitA_spec, rowDot_mul]
        cases add <;> simp
      · simp only [Bool.not_false, Bool.not_true, if_true, if_false, Bool.false_eq_true, unitA_spec, rowDot_mul, if_pos hi]
    · simp only [Bool.not_true, Bool.false_eq_true, if_false]
      by_cases h : (!y1) = true ∨ α ≠ 1
      · rw [if_pos h]
        simp only [putV, if_pos hi, unitA_spec]
        cases add <;> simp
      · rw [if_neg h, unitA_spec, if_pos hi]
        have : α = 1 := by by_contra e; exact h (Or.inr e)
        rw [this, one_mul]
  · rw [if_neg hi]
    cases x1
    · cases y1 <;> simp [putV, hi, unitA_spec]
    · simp only [Bool.not_true, Bool.false_eq_true, if_false]
      split
      · simp [putV, hi]
      · rw [unitA_spec, if_neg hi]

/-! ### Replacing `A` -/

theorem transpose_el (A : SB K) (hh : A.h = false) (i j : Nat) : A.transpose.el i j = A.el i j := by
  unfold SB.el SB.transpose
  by_cases hb : i ≤ j + A.k ∧ j ≤ i + A.k
  · rw [if_pos hb, if_pos hb]
    dsimp only
    have hc : (A.c != A.h) = A.c := by rw [hh]; cases A.c <;> rfl
    rw [hc]
    rcases lt_trichotomy i j with h | h | h
    · cases A.up <;> simp [not_le.mpr h, h.le]
    · subst h; cases A.up <;> simp
    · cases A.up <;> simp [not_le.mpr h, h.le]
  · rw [if_neg hb, if_neg hb]

theorem adjoint_el (A : SB K) (N : Nat) (hh : A.h = true) (hV : A.Valid N) (i j : Nat) (hi : i < N) : A.adjoint.el i j = A.el i j := by
  unfold SB.el SB.adjoint
  by_cases hb : i ≤ j + A.k ∧ j ≤ i + A.k
  · rw [if_pos hb, if_pos hb]
    dsimp only
    have hc : (A.c != A.h) = !A.c := by rw [hh]; cases A.c <;> rfl
    have hc' : ((!A.c) != A.h) = A.c := by rw [hh]; cases A.c <;> rfl
    rw [hc, hc']
    rcases lt_trichotomy i j with h | h | h
    · cases A.up <;> simp [not_le.mpr h, h.le]
    · subst h
      have := hV hh i hi
      cases A.up <;> cases A.c <;> simp [cj, this]
    · cases A.up <;> simp [not_le.mpr h, h.le]
  · rw [if_neg hb, if_neg hb]

theorem conjugate_el (A : SB K) (i j : Nat) : A.conjugate.el i j = star (A.el i j) := by
  unfold SB.el SB.conjugate
  dsimp only
  by_cases hb : i ≤ j + A.k ∧ j ≤ i + A.k
  · rw [if_pos hb, if_pos hb]
    by_cases hs : (if A.up = true then i ≤ j else j ≤ i)
    · rw [if_pos hs, if_pos hs]; cases A.c <;> simp [cj]
    · rw [if_neg hs, if_neg hs]; cases A.c <;> cases A.h <;> simp [cj]
  · rw [if_neg hb, if_neg hb, star_zero]

theorem rowDot_conj (N : Nat) (A : SB K) (x : Nat → K) (i : Nat) :
    rowDot N A.conjugate (fun j => star (x j)) i = star (rowDot N A x i) := by
  unfold rowDot
  rw [star_sum]
  exact Finset.sum_congr rfl fun j _ => by rw [conjugate_el, star_mul']

theorem rowDot_congr (N : Nat) (A A' : SB K) (x : Nat → K) (i : Nat) (h : ∀ j, A'.el i j = A.el i j) : rowDot N A' x i = rowDot N A x i :=
  Finset.sum_congr rfl fun j _ => by rw [h]

theorem nonBlas_spec [DecidableEq K] (add x1 y1 yc : Bool) (g : Nat → K) (N : Nat) (α : K) (A : SB K) (hV : A.Valid N) (x y : Nat → K)
    (i : Nat) : cj yc (nonBlas add x1 y1 yc g N α A x y i) =
      if i < N then (if add then cj yc (y i) else 0) + α * rowDot N A x i else cj yc (y i) := by
  unfold nonBlas
  have hA : ∀ j, i < N → (if A.up then (if A.h then A.adjoint else A.transpose) else A).el i j = A.el i j := by
    intro j hi
    cases hu : A.up
    · rfl
    · cases hh : A.h
      · exact transpose_el A hh i j
      · exact adjoint_el A N hh hV i j hi
  cases yc
  · simp only [cj, Bool.false_eq_true, if_false]
    rw [nonBlasLow_spec]
    by_cases hi : i < N
    · rw [if_pos hi, if_pos hi, rowDot_congr N A _ x i fun j => hA j hi]
    · rw [if_neg hi, if_neg hi]
  · simp only [cj, if_true]
    rw [nonBlasLow_spec, rowDot_conj]
    by_cases hi : i < N
    · rw [if_pos hi, if_pos hi, rowDot_congr N A _ x i fun j => hA j hi]
      cases add <;> simp
    · rw [if_neg hi, if_neg hi]

/-! ### Matrix times vector -/

/-- **C133, vector.**  `y (+)= alpha*A*x`: whatever the storage of `A`, the steps of the vectors, a conjugation of `y`, and whether or not `x`
begins at the same place as `y`, every element of `y` becomes `alpha*Σ_j A(i,j) x(j)` (added to the old one for `+=`), with `x` as it was
before; nothing beyond `y` changes. -/
theorem multMV_spec [DecidableEq K] (add ss x1 y1 yc : Bool) (g : Nat → K) (N : Nat) (α : K) (A : SB K) (hV : A.Valid N) (x y : Nat → K) :
    (∀ i, i < N → cj yc (multMV add ss x1 y1 yc g N α A x y i) =
      (if add then cj yc (y i) else 0) + α * ∑ j ∈ Finset.range N, A.el i j * x j) ∧
    ∀ i, ¬ i < N → multMV add ss x1 y1 yc g N α A x y i = y i := by
  have cjinj : ∀ a b : K, cj yc a = cj yc b → a = b := by
    intro a b h; cases yc <;> simpa [cj] using h
  have main : ∀ i, cj yc (multMV add ss x1 y1 yc g N α A x y i) =
      if i < N then (if add then cj yc (y i) else 0) + α * rowDot N A x i else cj yc (y i) := by
    intro i
    unfold multMV
    by_cases hN : N > 0
    · rw [if_pos hN]
      by_cases h0 : α = 0
      · rw [if_pos h0, h0, zero_mul, add_zero]
        cases add
        · by_cases hi : i < N
          · simp [hi, cj]
          · simp [hi]
        · simp
      · rw [if_neg h0]
        cases ss
        · simp only [Bool.false_eq_true, if_false]
          exact nonBlas_spec add x1 y1 yc g N α A hV x y i
        · simp only [if_true]
          have hs := nonBlas_spec false x1 true false g N 1 A hV x g i
          simp only [cj, Bool.false_eq_true, if_false, zero_add, one_mul] at hs
          by_cases hi : i < N
          · rw [if_pos hi] at hs
            cases yc <;> cases add <;> simp [putV, hi, cj, hs]
          · cases yc <;> simp [putV, hi]
    · rw [if_neg hN, if_neg (by omega)]
  refine ⟨fun i hi => ?_, fun i hi => ?_⟩
  · rw [main, if_pos hi]; rfl
  · apply cjinj; rw [main, if_neg hi]

/-! ### Matrix times matrix -/

theorem doMM_spec (add : Bool) (N c1 c2 : Nat) (A : SB K) (B C : Nat → Nat → K) (i j : Nat) :
    doMM add N c1 c2 1 A B C i j =
      if i < N ∧ c1 ≤ j ∧ j < c2 then (if add then C i j else 0) + rowDot N A (fun l => B l j) i else C i j := by
  unfold doMM
  dsimp only
  by_cases hi : i < N ∧ c1 ≤ j ∧ j < c2
  · rw [if_pos hi, rowDot_split]
    by_cases h : N > 1 ∧ A.k > 0
    · rw [if_pos h]
      by_cases hl : i < N - 1
      · rw [if_pos ⟨hl, hi.2⟩, if_pos hi, one_mul, add_assoc]
      · rw [if_neg (fun e => hl e.1), if_pos hi, upper_zero_last N A (fun l => B l j) i hl, add_zero, one_mul]
    · rw [if_neg h, if_pos hi, upper_zero N A (fun l => B l j) i h, add_zero, one_mul]
  · rw [if_neg hi]
    by_cases h : N > 1 ∧ A.k > 0
    · rw [if_pos h, if_neg (by omega), if_neg hi]
    · rw [if_neg h, if_neg hi]

theorem fullTemp_spec (add inC : Bool) (g : Nat → Nat → K) (N R : Nat) (α : K) (A : SB K) (B : BSrc K) (X : Nat → Nat → K) (i j : Nat) :
    fullTemp add inC g N R α A B X i j = if i < N ∧ j < R then
      (if add then X i j else 0) + α * rowDot N (aMat inC A X) (fun l => B.rd X l j) i else X i j := by
  unfold fullTemp
  by_cases h : i < N ∧ j < R
  · rw [if_pos h, if_pos h, doMM_spec, if_pos (show i < N ∧ 0 ≤ j ∧ j < R from ⟨h.1, by omega, h.2⟩)]
    cases add <;> simp
  · rw [if_neg h, if_neg h]

/-- `B` does not change in the columns that are still to come. -/
def Ahead (B : BSrc K) : Prop := ∀ (j : Nat) (X Y : Nat → Nat → K), (∀ l q, j ≤ q → Y l q = X l q) → ∀ l q, j ≤ q → B.rd Y l q = B.rd X l q

theorem ahead_apart (E : Nat → Nat → K) : Ahead (.apart E) := fun _ _ _ _ _ _ _ => rfl

theorem ahead_same (c : Bool) : Ahead (.inC false c : BSrc K) := fun j X Y h l q hq => by
  simp only [BSrc.rd, Bool.false_eq_true, if_false, h l q hq]

theorem blockTemp_spec (add : Bool) (N R nb : Nat) (α : K) (A : SB K) (B : BSrc K) (hB : Ahead B) : ∀ (n j : Nat) (X : Nat → Nat → K),
    R - j = n → ∀ i q, blockTemp add false N R nb α A B j X i q =
      if i < N ∧ j ≤ q ∧ q < R then (if add then X i q else 0) + α * rowDot N A (fun l => B.rd X l q) i else X i q := by
  intro n
  induction n using Nat.strong_induction_on with
  | _ n ih =>
    intro j X hn i q
    unfold blockTemp
    by_cases hj : j < R
    · rw [dif_pos hj]
      have hlt : j < min R (j + (nb + 1)) := by omega
      rw [ih (R - min R (j + (nb + 1))) (by omega) _ _ rfl]
      have haM : aMat false A X = A := rfl
      rw [haM]
      set j2 := min R (j + (nb + 1)) with hj2
      have hle : j2 ≤ R := by omega
      have hsame : ∀ l q, j2 ≤ q → doMM add N j j2 1 A (fun l q => α * B.rd X l q) X l q = X l q := by
        intro l q hq; rw [doMM_spec, if_neg (by omega)]
      by_cases h : i < N ∧ j2 ≤ q ∧ q < R
      · rw [if_pos h, if_pos (show i < N ∧ j ≤ q ∧ q < R from ⟨h.1, by omega, h.2.2⟩), hsame i q h.2.1]
        congr 2
        refine Finset.sum_congr rfl fun l _ => ?_
        dsimp only
        rw [hB j2 X _ hsame l q h.2.1]
      · rw [if_neg h, doMM_spec]
        by_cases h2 : i < N ∧ j ≤ q ∧ q < j2
        · rw [if_pos h2, if_pos (show i < N ∧ j ≤ q ∧ q < R from ⟨h2.1, h2.2.1, by omega⟩), rowDot_mul]
        · rw [if_neg h2, if_neg (by omega)]
    · rw [dif_neg hj, if_neg (by omega)]

theorem multMMnc_spec [DecidableEq K] (add inC : Bool) (g : Nat → Nat → K) (N R nb : Nat) (α : K) (A : SB K) (B : BSrc K) (X : Nat → Nat → K)
    (i j : Nat) : multMMnc add inC g N R nb α A B X i j = if i < N ∧ j < R then
      (if add then X i j else 0) + α * rowDot N (aMat inC A X) (fun l => B.rd X l j) i else X i j := by
  have hb : ∀ B : BSrc K, Ahead B → blockTemp add false N R nb α A B 0 X i j = if i < N ∧ j < R then
      (if add then X i j else 0) + α * rowDot N (aMat false A X) (fun l => B.rd X l j) i else X i j := by
    intro B hB
    rw [blockTemp_spec add N R nb α A B hB _ 0 X rfl i j]
    simp only [Nat.zero_le, true_and]; rfl
  unfold multMMnc
  cases inC
  · simp only [Bool.false_eq_true, if_false]
    cases B with
    | apart E => exact hb _ (ahead_apart E)
    | inC t c =>
      cases t
      · exact hb _ (ahead_same c)
      · exact fullTemp_spec add false g N R α A (.inC true c) X i j
  · simp only [if_true]
    exact fullTemp_spec add true g N R α A B X i j

omit [Field K] [StarRing K] in
theorem aMat_conj (inC : Bool) (A : SB K) (X : Nat → Nat → K) : aMat inC A.conjugate X = (aMat inC A X).conjugate := by
  cases inC <;> rfl

theorem BSrc.conj_rd (B : BSrc K) (X : Nat → Nat → K) (i j : Nat) : B.conjugate.rd X i j = star (B.rd X i j) := by
  cases B with
  | apart E => rfl
  | inC t c => cases c <;> simp [BSrc.conjugate, BSrc.rd, cj]

/-- **C133, matrix.**  `C (+)= alpha*A*B`: whether `A` is apart from `C` or stored in its array, whether `B` is apart from `C` or is `C`, its
conjugate, transpose or adjoint, and for every block size, each element of `C` becomes `alpha*Σ_l A(i,l) B(l,j)` (added to the old one for
`+=`), with `A` and `B` as they were before; nothing beyond `C` changes. -/
theorem multMM_spec [DecidableEq K] (add inC cc : Bool) (g : Nat → Nat → K) (N R nb : Nat) (α : K) (A : SB K) (B : BSrc K) (X : Nat → Nat → K) :
    (∀ i j, i < N → j < R → cj cc (multMM add inC cc g N R nb α A B X i j) =
      (if add then cj cc (X i j) else 0) + α * ∑ l ∈ Finset.range N, (aMat inC A X).el i l * B.rd X l j) ∧
    ∀ i j, ¬(i < N ∧ j < R) → multMM add inC cc g N R nb α A B X i j = X i j := by
  refine ⟨fun i j hi hj => ?_, fun i j h => ?_⟩
  · unfold multMM
    rw [if_pos ⟨by omega, by omega⟩]
    by_cases h0 : α = 0
    · rw [if_pos h0, h0, zero_mul, add_zero]
      cases add <;> simp [hi, hj, cj]
    · rw [if_neg h0]
      cases cc
      · simp only [Bool.false_eq_true, if_false, cj]
        rw [multMMnc_spec, if_pos ⟨hi, hj⟩]; rfl
      · simp only [if_true, cj]
        rw [multMMnc_spec, if_pos ⟨hi, hj⟩, aMat_conj]
        have : rowDot N (aMat inC A X).conjugate (fun l => B.conjugate.rd X l j) i = star (rowDot N (aMat inC A X) (fun l => B.rd X l j) i) := by
          rw [← rowDot_conj]
          exact Finset.sum_congr rfl fun l _ => by dsimp only; rw [BSrc.conj_rd]
        rw [this]
        cases add <;> simp [rowDot]
  · unfold multMM
    by_cases hN : N > 0 ∧ R > 0
    · rw [if_pos hN]
      by_cases h0 : α = 0
      · rw [if_pos h0]; cases add <;> simp [h]
      · rw [if_neg h0]
        cases cc
        · simp only [Bool.false_eq_true, if_false]
          rw [multMMnc_spec, if_neg h]
        · simp only [if_true]
          rw [multMMnc_spec, if_neg h]
    · rw [if_neg hN]

/-! ### Cases that meet the hypotheses -/

/-- A Hermitian band matrix (over ℚ, so real) with one diagonal on each side, stored above the diagonal, times a vector kept where the result goes. -/
example : multMV (K := ℚ) true true false true true (fun _ => 7) 3 2 ⟨fun i j => i + 2 * j + 1, 1, true, true, false⟩ (fun j => j + 1) (fun _ => 10) 1 =
    10 + 2 * (3 * 1 + 4 * 2 + 6 * 3) := by
  have h := (multMV_spec (K := ℚ) true true false true true (fun _ => 7) 3 2 ⟨fun i j => i + 2 * j + 1, 1, true, true, false⟩
    (fun _ _ _ => by simp) (fun j => j + 1) (fun _ => 10)).1 1 (by norm_num)
  simp [cj, SB.el, Finset.sum_range_succ] at h
  rw [h]; norm_num

/-- `C = A*C^T` for a band matrix stored in `C` itself. -/
example : multMM (K := ℚ) false true false (fun _ _ => 7) 2 2 63 3 ⟨fun _ _ => 0, 1, false, false, false⟩ (.inC true false) (fun i j => i + 2 * j + 1) 0 1 =
    3 * (1 * 2 + 2 * 4) := by
  have h := (multMM_spec (K := ℚ) false true false (fun _ _ => 7) 2 2 63 3 ⟨fun _ _ => 0, 1, false, false, false⟩ (.inC true false)
    (fun i j => i + 2 * j + 1)).1 0 1 (by norm_num) (by norm_num)
  simp [cj, SB.el, aMat, BSrc.rd, Finset.sum_range_succ] at h
  rw [h]; norm_num

end TMV.SymBandMul
