import Verif.Model.MixSym
import Mathlib.Tactic.Ring
import Mathlib.Tactic.NormNum
import Mathlib.Tactic.SplitIfs
import Mathlib.Data.Rat.Star
import Mathlib.Algebra.BigOperators.Ring.Finset

/-! Sums, products and quotients of a symmetric or Hermitian matrix with a diagonal, triangular, band or symmetric band matrix
(`Model/MixSym`).  Property C132. -/
namespace TMV.MixSym
open SymBandSum
variable {K : Type _}

/-! ### Vocabulary -/

/-- The operand is apart from the destination, or begins at its first element: the aliases that the library can notice. -/
def Op.Seen : Op K → Prop
  | .apart _ => True
  | A => A.ss = true

/-- `S` is a symmetric (Hermitian) matrix: one given by its elements is equal to its transpose (adjoint), and a Hermitian one kept in `C`
has a real diagonal. -/
def Sy.Valid [Star K] (S : Sy K) (N : Nat) (X : Nat → Nat → K) : Prop :=
  match S.src with
  | none => ∀ i j, i < N → j < N → S.A i j = cj S.h (S.A j i)
  | some _ => S.h = true → ∀ i, i < N → star (X i i) = X i i

/-- Nothing outside the destination changes. -/
def Same (N : Nat) (X Y : Nat → Nat → K) : Prop := ∀ i j, ¬(i < N ∧ j < N) → Y i j = X i j

variable [Field K] [StarRing K]

theorem cj_cj' (a b : Bool) (x : K) : cj a (cj b x) = cj (a != b) x := by
  cases a <;> cases b <;> simp [cj]

/-- The `re` pass changes nothing that `S` is read from. -/
theorem rd_re (re : K → K) (hre : ∀ x : K, star x = x → re x = x) (S : Sy K) (N : Nat) (X : Nat → Nat → K) (hS : S.Valid N X) (i j : Nat) :
    S.rd (if S.h then fun i j => if i = j ∧ i < N then re (X i j) else X i j else X) i j = S.rd X i j := by
  unfold Sy.rd
  cases hs : S.src with
  | none => rfl
  | some q =>
    unfold Sy.Valid at hS; rw [hs] at hS
    have : (if S.h then fun i j => if i = j ∧ i < N then re (X i j) else X i j else X) = X := by
      funext a b
      split
      · rename_i hh
        dsimp only
        split
        · rename_i h; rw [h.1] at *; exact hre _ (hS hh _ h.2)
        · rfl
      · rfl
    rw [this]

/-- `S(i,j)` and `S(j,i)` are equal or conjugate. -/
theorem rd_symm (S : Sy K) (N : Nat) (X : Nat → Nat → K) (hS : S.Valid N X) (i j : Nat) (hi : i < N) (hj : j < N) (hij : i ≠ j) :
    cj S.h (S.rd X j i) = S.rd X i j := by
  unfold Sy.rd
  cases hs : S.src with
  | none =>
    unfold Sy.Valid at hS; rw [hs] at hS
    exact (hS i j hi hj).symm
  | some q =>
    obtain ⟨lower, c⟩ := q
    dsimp only
    cases lower
    · simp only [Bool.false_eq_true, if_false]
      by_cases h : i ≤ j
      · rw [if_pos h, if_neg (by omega), cj_cj']; cases c <;> cases S.h <;> rfl
      · rw [if_neg h, if_pos (by omega), cj_cj']; cases c <;> cases S.h <;> rfl
    · simp only [if_true]
      by_cases h : i ≤ j
      · rw [if_pos h, if_neg (by omega), cj_cj']; cases c <;> cases S.h <;> rfl
      · rw [if_neg h, if_pos (by omega), cj_cj']; cases c <;> cases S.h <;> rfl

theorem copyS_in (re : K → K) (hre : ∀ x : K, star x = x → re x = x) (S : Sy K) (N : Nat) (X : Nat → Nat → K) (hS : S.Valid N X) (i j : Nat)
    (hi : i < N) (hj : j < N) : copyS re S N X i j = S.rd X i j := by
  unfold copyS
  dsimp only
  by_cases h : j < i
  · rw [if_pos ⟨h, hi⟩, if_pos ⟨by omega, hi⟩, rd_re re hre S N X hS, rd_symm S N X hS i j hi hj (by omega)]
  · rw [if_neg (by omega), if_pos ⟨by omega, hj⟩, rd_re re hre S N X hS]

theorem copyS_out (re : K → K) (S : Sy K) (N : Nat) (X : Nat → Nat → K) (i j : Nat) (h : ¬(i < N ∧ j < N)) : copyS re S N X i j = X i j := by
  unfold copyS
  dsimp only
  by_cases h1 : j < i ∧ i < N
  · exact absurd ⟨h1.2, by omega⟩ h
  rw [if_neg h1]
  by_cases h2 : i ≤ j ∧ j < N
  · exact absurd ⟨by omega, h2.2⟩ h
  rw [if_neg h2]
  split
  · exact if_neg (by rintro ⟨e, l⟩; exact h ⟨l, e ▸ l⟩)
  · rfl

theorem scaled_in (re : K → K) (hre : ∀ x : K, star x = x → re x = x) (x : K) (S : Sy K) (N : Nat) (X : Nat → Nat → K) (hS : S.Valid N X)
    (i j : Nat) (hi : i < N) (hj : j < N) : scale x N (copyS re S N X) i j = x * S.rd X i j := by
  unfold scale; rw [if_pos ⟨hi, hj⟩, copyS_in re hre S N X hS i j hi hj]

theorem scaled_out (re : K → K) (x : K) (S : Sy K) (N : Nat) (X : Nat → Nat → K) (i j : Nat) (h : ¬(i < N ∧ j < N)) :
    scale x N (copyS re S N X) i j = X i j := by
  unfold scale; rw [if_neg h, copyS_out re S N X i j h]

omit [Field K] [StarRing K] in
theorem apart_of_not_ss {A : Op K} (h : A.Seen) (hs : A.ss = false) : ∃ E, A = .apart E := by
  cases A with
  | apart E => exact ⟨E, rfl⟩
  | diagOf p q c => exact absurd (show Op.ss _ = true from h) (by rw [hs]; simp)
  | triC a b c d => simp [Op.ss] at hs
  | bandC a b c d => simp [Op.ss] at hs
  | symBandC a b c d => simp [Op.ss] at hs

/-! ### Sums -/

/-- **C132, sum into a full matrix.**  `C = x1*A + x2*S` for `A` triangular, band, symmetric band, or (for a real `C`) diagonal: every
element of `C` becomes `x1*A(i,j) + x2*S(i,j)`, whether the operands are apart from `C` or kept in it. -/
theorem sum_into_matrix (re : K → K) (hre : ∀ x : K, star x = x → re x = x) (x1 : K) (A : Op K) (x2 : K) (S : Sy K) (N : Nat)
    (X : Nat → Nat → K) (hA : A.Seen) (hS : S.Valid N X) :
    (∀ i j, i < N → j < N → sumOS re x1 A x2 S N X i j = x1 * A.rd X i j + x2 * S.rd X i j) ∧ Same N X (sumOS re x1 A x2 S N X) := by
  unfold sumOS
  cases hs : A.ss
  · obtain ⟨E, rfl⟩ := apart_of_not_ss hA hs
    simp only [Bool.false_eq_true, if_false]
    refine ⟨fun i j hi hj => ?_, fun i j h => ?_⟩
    · unfold addE
      rw [if_pos ⟨hi, hj⟩, scaled_in re hre x2 S N X hS i j hi hj]
      simp only [Op.rd]; ring
    · unfold addE
      rw [if_neg h, scaled_out re x2 S N X i j h]
  · simp only [if_true]
    refine ⟨fun i j hi hj => ?_, fun i j h => ?_⟩
    · unfold addE
      rw [if_pos ⟨hi, hj⟩, scaled_in re hre x2 S N X hS i j hi hj]; ring
    · unfold addE
      rw [if_neg h, scaled_out re x2 S N X i j h]

/-- **C132, sum of a diagonal and a symmetric matrix into a complex matrix**, for a diagonal matrix apart from the destination. -/
theorem sum_diag_complex_partial (re : K → K) (hre : ∀ x : K, star x = x → re x = x) (x1 : K) (D : Nat → Nat → K) (x2 : K) (S : Sy K) (N : Nat)
    (X : Nat → Nat → K) (hS : S.Valid N X) :
    (∀ i j, i < N → j < N → sumDSc re x1 (.apart D) x2 S N X i j = x1 * D i j + x2 * S.rd X i j) ∧
    Same N X (sumDSc re x1 (.apart D) x2 S N X) := by
  have : sumDSc re x1 (.apart D) x2 S N X = sumOS re x1 (.apart D) x2 S N X := rfl
  rw [this]
  exact sum_into_matrix re hre x1 (.apart D) x2 S N X trivial hS

/-- The code is wrong when the diagonal matrix is a view of the destination's own diagonal: `C = D + S` gives `2 S` there.  The copy that
was made for this case is not used. -/
theorem sum_diag_complex_violated : ∃ (S : Sy ℚ) (X : Nat → Nat → ℚ), S.Valid 1 X ∧ Op.Seen (.diagOf id id false : Op ℚ) ∧
    sumDSc id 1 (.diagOf id id false) 1 S 1 X 0 0 ≠ 1 * (Op.diagOf id id false).rd X 0 0 + 1 * S.rd X 0 0 := by
  refine ⟨⟨false, none, fun _ _ => 3⟩, fun _ _ => 5, ?_, rfl, ?_⟩
  · intro i j _ _; simp [cj]
  · simp [sumDSc, addE, scale, copyS, Op.rd, Op.ss, Sy.rd, cj]

/-- A diagonal matrix kept in `C` away from its first element (here in the second column) is not noticed either, and is overwritten before it is added. -/
theorem sum_unseen_violated : ∃ (S : Sy ℚ) (X : Nat → Nat → ℚ), S.Valid 2 X ∧
    sumOS id 1 (.diagOf id (fun _ => 1) false) 1 S 2 X 0 0 ≠ 1 * (Op.diagOf id (fun _ => 1) false).rd X 0 0 + 1 * S.rd X 0 0 := by
  refine ⟨⟨false, none, fun _ _ => 3⟩, fun _ _ => 5, ?_, ?_⟩
  · intro i j _ _; simp [cj]
  · simp [sumOS, addE, scale, copyS, Op.rd, Op.ss, Sy.rd, cj]

/-- **C132, sum of a diagonal and a symmetric matrix into a symmetric matrix** (kept in the upper triangle): the stored elements become those of
`x1*D + x2*S` and nothing else changes. -/
theorem sum_diag_sym [DecidableEq K] (re : K → K) (x1 : K) (A : Op K) (x2 : K) (S : Sy K) (N : Nat) (X : Nat → Nat → K) (hA : A.Seen)
    (hr : S.h = true → re x1 = x1 ∧ re x2 = x2) :
    ∃ Y, sumDSS re x1 A x2 S N X = some Y ∧ (∀ i j, i ≤ j → j < N → Y i j = x1 * (if i = j then A.rd X i j else 0) + x2 * S.rd X i j) ∧
      ∀ i j, ¬(i ≤ j ∧ j < N) → Y i j = X i j := by
  unfold sumDSS
  rw [if_neg (by rintro ⟨h, h' | h'⟩; exacts [h' (hr h).1, h' (hr h).2])]
  have hin : ∀ i j, i ≤ j → j < N → scaleS x2 N (copySS S N X) i j = x2 * S.rd X i j := by
    intro i j h1 h2; unfold scaleS copySS; rw [if_pos ⟨h1, h2⟩, if_pos ⟨h1, h2⟩]
  have hout : ∀ i j, ¬(i ≤ j ∧ j < N) → scaleS x2 N (copySS S N X) i j = X i j := by
    intro i j h; unfold scaleS copySS; rw [if_neg h, if_neg h]
  cases hs : A.ss
  · obtain ⟨E, rfl⟩ := apart_of_not_ss hA hs
    simp only [Bool.false_eq_true, if_false]
    refine ⟨_, rfl, fun i j h1 h2 => ?_, fun i j h => ?_⟩
    · by_cases e : i = j
      · rw [if_pos ⟨e, by omega⟩, hin i j h1 h2, if_pos e]; simp only [Op.rd]; ring
      · rw [if_neg (fun h => e h.1), hin i j h1 h2, if_neg e]; ring
    · rw [if_neg (by rintro ⟨e, l⟩; exact h (by omega)), hout i j h]
  · simp only [if_true]
    refine ⟨_, rfl, fun i j h1 h2 => ?_, fun i j h => ?_⟩
    · by_cases e : i = j
      · rw [if_pos ⟨e, by omega⟩, hin i j h1 h2, if_pos e]; ring
      · rw [if_neg (fun h => e h.1), hin i j h1 h2, if_neg e]; ring
    · rw [if_neg (by rintro ⟨e, l⟩; exact h (by omega)), hout i j h]

/-! ### Products -/

/-- **C132, product.**  `C = x*A*S` for a diagonal or triangular `A`. -/
theorem prod_left (re : K → K) (hre : ∀ x : K, star x = x → re x = x) (x : K) (A : Op K) (S : Sy K) (N : Nat) (X : Nat → Nat → K)
    (hA : A.Seen) (hS : S.Valid N X) :
    (∀ i j, i < N → j < N → prodOS re x A S N X i j = x * ∑ k ∈ Finset.range N, A.rd X i k * S.rd X k j) ∧
    Same N X (prodOS re x A S N X) := by
  have key : ∀ E : Nat → Nat → K,
      (∀ i j, i < N → j < N → mulL E N (scale x N (copyS re S N X)) i j = x * ∑ k ∈ Finset.range N, E i k * S.rd X k j) ∧
      Same N X (mulL E N (scale x N (copyS re S N X))) := by
    intro E
    refine ⟨fun i j hi hj => ?_, fun i j h => ?_⟩
    · unfold mulL
      rw [if_pos ⟨hi, hj⟩, Finset.mul_sum]
      refine Finset.sum_congr rfl fun k hk => ?_
      rw [scaled_in re hre x S N X hS k j (Finset.mem_range.mp hk) hj]; ring
    · unfold mulL
      rw [if_neg h, scaled_out re x S N X i j h]
  unfold prodOS
  cases hs : A.ss
  · obtain ⟨E, rfl⟩ := apart_of_not_ss hA hs
    exact key E
  · exact key (A.rd X)

/-- **C132, product.**  `C = x*S*A` for a diagonal or triangular `A`. -/
theorem prod_right (re : K → K) (hre : ∀ x : K, star x = x → re x = x) (x : K) (A : Op K) (S : Sy K) (N : Nat) (X : Nat → Nat → K)
    (hA : A.Seen) (hS : S.Valid N X) :
    (∀ i j, i < N → j < N → prodSO re x S A N X i j = x * ∑ k ∈ Finset.range N, S.rd X i k * A.rd X k j) ∧
    Same N X (prodSO re x S A N X) := by
  have key : ∀ E : Nat → Nat → K,
      (∀ i j, i < N → j < N → mulR E N (scale x N (copyS re S N X)) i j = x * ∑ k ∈ Finset.range N, S.rd X i k * E k j) ∧
      Same N X (mulR E N (scale x N (copyS re S N X))) := by
    intro E
    refine ⟨fun i j hi hj => ?_, fun i j h => ?_⟩
    · unfold mulR
      rw [if_pos ⟨hi, hj⟩, Finset.mul_sum]
      refine Finset.sum_congr rfl fun k hk => ?_
      rw [scaled_in re hre x S N X hS i k hi (Finset.mem_range.mp hk)]; ring
    · unfold mulR
      rw [if_neg h, scaled_out re x S N X i j h]
  unfold prodSO
  cases hs : A.ss
  · obtain ⟨E, rfl⟩ := apart_of_not_ss hA hs
    exact key E
  · exact key (A.rd X)

/-! ### Quotients -/

/-- **C132, quotient**, for a diagonal matrix apart from the destination.  `C = x*S/D` throws just when `D` has a zero on its diagonal, and
otherwise `D C = x S`. -/
theorem quot_left_partial [DecidableEq K] (re : K → K) (hre : ∀ x : K, star x = x → re x = x) (x : K) (S : Sy K) (D : Nat → Nat → K) (N : Nat)
    (X : Nat → Nat → K) (hS : S.Valid N X) :
    (quotSD re x S (.apart D) N X = none ↔ ∃ i < N, D i i = 0) ∧
    ∀ Y, quotSD re x S (.apart D) N X = some Y →
      (∀ i j, i < N → j < N → D i i * Y i j = x * S.rd X i j) ∧ Same N X Y := by
  by_cases h : ∃ i < N, D i i = 0
  · have : quotSD re x S (.apart D) N X = none := if_pos h
    rw [this]; exact ⟨⟨fun _ => h, fun _ => rfl⟩, fun Y e => by simp at e⟩
  · have he : quotSD re x S (.apart D) N X = some _ := if_neg h
    rw [he]
    refine ⟨⟨fun e => by simp at e, fun e => absurd e h⟩, fun Y e => ?_⟩
    rw [← Option.some.inj e]
    refine ⟨fun i j hi hj => ?_, fun i j hn => ?_⟩
    · simp only [Op.rd]
      have : D i i ≠ 0 := fun e => h ⟨i, hi, e⟩
      rw [if_pos ⟨hi, hj⟩, scaled_in re hre x S N X hS i j hi hj, mul_div_cancel₀ _ this]
    · dsimp only; rw [if_neg hn, scaled_out re x S N X i j hn]

/-- **C132, quotient**, `C = x*S%D`: `C D = x S`. -/
theorem quot_right_partial [DecidableEq K] (re : K → K) (hre : ∀ x : K, star x = x → re x = x) (x : K) (S : Sy K) (D : Nat → Nat → K) (N : Nat)
    (X : Nat → Nat → K) (hS : S.Valid N X) :
    (rquotSD re x S (.apart D) N X = none ↔ ∃ i < N, D i i = 0) ∧
    ∀ Y, rquotSD re x S (.apart D) N X = some Y →
      (∀ i j, i < N → j < N → Y i j * D j j = x * S.rd X i j) ∧ Same N X Y := by
  by_cases h : ∃ i < N, D i i = 0
  · have : rquotSD re x S (.apart D) N X = none := if_pos h
    rw [this]; exact ⟨⟨fun _ => h, fun _ => rfl⟩, fun Y e => by simp at e⟩
  · have he : rquotSD re x S (.apart D) N X = some _ := if_neg h
    rw [he]
    refine ⟨⟨fun e => by simp at e, fun e => absurd e h⟩, fun Y e => ?_⟩
    rw [← Option.some.inj e]
    refine ⟨fun i j hi hj => ?_, fun i j hn => ?_⟩
    · simp only [Op.rd]
      have : D j j ≠ 0 := fun e => h ⟨j, hj, e⟩
      rw [if_pos ⟨hi, hj⟩, scaled_in re hre x S N X hS i j hi hj, div_mul_cancel₀ _ this]
    · dsimp only; rw [if_neg hn, scaled_out re x S N X i j hn]

/-- The quotient by a diagonal matrix that is a view of the destination's diagonal is wrong: `D` is overwritten before the division. -/
theorem quot_violated : ∃ (S : Sy ℚ) (X : Nat → Nat → ℚ), S.Valid 1 X ∧ Op.Seen (.diagOf id id false : Op ℚ) ∧
    ∃ Y, quotSD id 1 S (.diagOf id id false) 1 X = some Y ∧ X 0 0 * Y 0 0 ≠ 1 * S.rd X 0 0 := by
  refine ⟨⟨false, none, fun _ _ => 3⟩, fun _ _ => 5, ?_, rfl, ?_⟩
  · intro i j _ _; simp [cj]
  · refine ⟨_, if_neg ?_, ?_⟩
    · rintro ⟨i, hi, h⟩
      obtain rfl : i = 0 := by omega
      simp [scale, copyS, Op.rd, Sy.rd, cj] at h
    · simp [scale, copyS, Op.rd, Sy.rd, cj]

/-! ### A symmetric band matrix added to a band matrix -/

/-- **C132, `B += x*S`.**  For `S` apart from `B`, or kept on and below the diagonal of `B`'s array: every element in the band of `S` grows by
`x*S(i,j)`; the others do not change. -/
theorem band_add_sym_partial (x : K) (S : Src K) (k N lo hi : Nat) (X : Nat → Nat → K) (hk : k ≤ lo ∧ k ≤ hi)
    (hS : (∃ A, S = .apart A) ∨ ∃ h c, S = .inC true h c) :
    ∃ Y, bandAddSym x S k N lo hi X = some Y ∧ (∀ i j, i < N → j < N → Y i j = X i j + x * el S k X i j) ∧ Same N X Y := by
  unfold bandAddSym
  rw [if_neg (by omega)]
  refine ⟨_, rfl, fun i j hi' hj => ?_, fun i j h => ?_⟩
  · by_cases hb : i ≤ j + k ∧ j ≤ i + k
    · have hel : el S k X i j = S.rd X i j := by unfold el; rw [if_pos hb]
      rw [hel]
      by_cases hk0 : k > 0
      · rw [if_pos hk0]
        dsimp only
        by_cases hl : j < i
        · have hnb : ¬ bnd N 0 k i j := by unfold bnd; omega
          rw [if_pos ⟨⟨hi', hj, hb.1, hb.2⟩, hl⟩, if_neg hnb]
          rcases hS with ⟨A, rfl⟩ | ⟨h, c, rfl⟩
          · rfl
          · simp only [Src.rd, if_true, if_pos (show j ≤ i by omega), if_neg hnb]
        · rw [if_neg (fun h => hl h.2), if_pos ⟨hi', hj, by omega, hb.2⟩]
      · rw [if_neg hk0, if_pos ⟨hi', hj, by omega, hb.2⟩]
    · have hel : el S k X i j = 0 := by unfold el; rw [if_neg hb]
      have hnb : ¬ bnd N 0 k i j := by unfold bnd; omega
      have hnb' : ¬ (bnd N k k i j ∧ j < i) := by unfold bnd; omega
      rw [hel]
      by_cases hk0 : k > 0
      · rw [if_pos hk0]; dsimp only; rw [if_neg hnb', if_neg hnb]; ring
      · rw [if_neg hk0, if_neg hnb]; ring
  · have hnb : ¬ bnd N 0 k i j := by unfold bnd; omega
    have hnb' : ¬ (bnd N k k i j ∧ j < i) := by unfold bnd; omega
    by_cases hk0 : k > 0
    · rw [if_pos hk0]; dsimp only; rw [if_neg hnb', if_neg hnb]
    · rw [if_neg hk0, if_neg hnb]

/-- Too narrow a band is refused. -/
theorem band_add_sym_refused (x : K) (S : Src K) (k N lo hi : Nat) (X : Nat → Nat → K) (hk : lo < k ∨ hi < k) :
    bandAddSym x S k N lo hi X = none := if_pos hk

/-- The code is wrong for a symmetric band matrix kept above the diagonal of `B`'s own array: the part below the diagonal is added from elements
that have changed already. -/
theorem band_add_sym_violated : ∃ (X : Nat → Nat → ℚ) (Y : Nat → Nat → ℚ), bandAddSym 1 (.inC false false false) 1 2 1 1 X = some Y ∧
    Y 1 0 ≠ X 1 0 + 1 * el (.inC false false false) 1 X 1 0 := by
  refine ⟨fun _ _ => 1, _, rfl, ?_⟩
  simp [bnd, Src.rd, el, cj]

/-! ### Cases that meet the hypotheses -/

/-- A Hermitian (here real) matrix kept in the lower triangle of `C`, and the upper triangle of `C` with an implicit unit diagonal. -/
example : ∃ (S : Sy ℚ) (X : Nat → Nat → ℚ), S.Valid 3 X ∧ (Op.triC true true false false : Op ℚ).Seen ∧
    sumOS id 2 (.triC true true false false) 3 S 3 X 0 1 = 2 * X 0 1 + 3 * X 1 0 := by
  refine ⟨⟨true, some (true, false), fun _ _ => 0⟩, fun i j => i + 10 * j, fun _ i _ => by simp, rfl, ?_⟩
  have h := (sum_into_matrix (K := ℚ) id (fun _ _ => rfl) 2 (.triC true true false false) 3 ⟨true, some (true, false), fun _ _ => 0⟩ 3
    (fun i j => (i : ℚ) + 10 * j) rfl (fun _ i _ => by simp)).1 0 1 (by norm_num) (by norm_num)
  rw [h]; simp [Op.rd, Sy.rd, cj]

/-- The diagonal of `C` times a symmetric matrix kept in the upper triangle of `C`. -/
example : ∃ (S : Sy ℚ) (X : Nat → Nat → ℚ), S.Valid 3 X ∧ (Op.diagOf id id false : Op ℚ).Seen ∧ S.src.isSome = true :=
  ⟨⟨false, some (false, false), fun _ _ => 0⟩, fun i j => i + 10 * j, fun h => by simp at h, rfl, rfl⟩

/-- A diagonal matrix that can be divided by. -/
example : ∃ Y, quotSD (K := ℚ) id 2 ⟨false, none, fun i j => i + j⟩ (.apart fun _ _ => 4) 3 (fun _ _ => 0) = some Y := by
  unfold quotSD
  refine ⟨_, if_neg ?_⟩
  rintro ⟨i, _, h⟩; simp [Op.rd] at h

end TMV.MixSym
