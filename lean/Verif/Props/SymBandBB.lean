import Verif.Model.SymBandBB
import Verif.Props.SymBandMul

/-! Products of symmetric band matrices with band matrices and with each other (`Model/SymBandBB`).  Property C134. -/
namespace TMV.SymBandBB
open SymBandMul
variable {K : Type _} [Field K] [StarRing K]

/-- The whole of an `N` by `M` band matrix. -/
def whole (N M lo hi : Nat) : Win := ⟨0, 0, N, M, lo, hi⟩

omit [StarRing K] in
theorem prodBB_pos (add : Bool) (α : K) (P : Nat → Nat → K) (plo phi : Int) (wq : Win) (E : Nat → Nat → K) (wc : Win) (X : Nat → Nat → K)
    (h : min ((wc.cs : Int) - 1) (plo + wq.lo) ≤ wc.lo ∧ min ((wc.rs : Int) - 1) (phi + wq.hi) ≤ wc.hi) :
    prodBB add α P plo phi wq E wc X = some fun i j => if wc.r0 ≤ i ∧ wc.c0 ≤ j ∧ wc.has (i - wc.r0) (j - wc.c0) then
      (if add then X i j else 0) + α * ∑ l ∈ Finset.range wq.cs, P (i - wc.r0) l * wel wq E l (j - wc.c0) else X i j := by
  unfold prodBB; rw [if_pos h]

theorem Win.sub_pos (w : Win) (i1 i2 j1 j2 : Nat) (nlo nhi : Int) (h : w.hasSub i1 i2 j1 j2 nlo nhi)
    (hv : (⟨w.r0 + i1, w.c0 + j1, i2 - i1, j2 - j1, nlo, nhi⟩ : Win).ok) :
    w.sub i1 i2 j1 j2 nlo nhi = some ⟨w.r0 + i1, w.c0 + j1, i2 - i1, j2 - j1, nlo, nhi⟩ := by
  unfold Win.sub; rw [if_pos ⟨h, hv⟩]

/-- The element `(i,j)` after the first of the two steps. -/
def step1 (add : Bool) (α : K) (A : SB K) (N : Nat) (b : Nat → K) (x : K) (i : Nat) : K :=
  (if add then x else 0) + α * ∑ l ∈ Finset.range N, A.lowerEl i l * b l

theorem step1_last (add : Bool) (α : K) (A : SB K) (N : Nat) (b : Nat → K) (x : K) (i : Nat)
    (h : ∑ l ∈ Finset.range (N - 1), A.upperOffEl i l * b (l + 1) = 0) :
    step1 add α A N b x i = (if add then x else 0) + α * rowDot N A b i := by
  unfold step1; rw [rowDot_split, h, add_zero]

theorem step1_add (add : Bool) (α : K) (A : SB K) (N : Nat) (b : Nat → K) (x : K) (i : Nat) :
    step1 add α A N b x i + α * ∑ l ∈ Finset.range (N - 1), A.upperOffEl i l * b (l + 1) = (if add then x else 0) + α * rowDot N A b i := by
  unfold step1; rw [rowDot_split]; ring

theorem doMM_spec (add : Bool) (α : K) (A : SB K) (N M lb hb lo hi : Nat) (hN : 0 < N) (hM : 0 < M) (hlb : lb < N) (hhb : hb < M)
    (hlo : lo < N) (hhi : hi < M) (hl : min (N - 1) (A.k + lb) ≤ lo) (hh : min (M - 1) (A.k + hb) ≤ hi)
    (hx : ¬(1 < N ∧ 0 < A.k ∧ lb = 0 ∧ hb = M - 1)) (E X : Nat → Nat → K) :
    ∃ Y, doMM add α A (whole N M lb hb) E (whole N M lo hi) X = some Y ∧ ∀ i j, Y i j = if (whole N M lo hi).has i j then
      (if add then X i j else 0) + α * rowDot N A (fun l => wel (whole N M lb hb) E l j) i else X i j := by
  have h1 : prodBB add α A.lowerEl A.k 0 (whole N M lb hb) E (whole N M lo hi) X = some fun i j => if (whole N M lo hi).has i j then
      step1 add α A N (fun l => wel (whole N M lb hb) E l j) (X i j) i else X i j := by
    rw [prodBB_pos add α A.lowerEl A.k 0 (whole N M lb hb) E (whole N M lo hi) X (by simp only [whole]; omega)]
    congr 1; funext i j
    by_cases hin : (whole N M lo hi).has i j
    · rw [if_pos hin, if_pos ⟨Nat.zero_le _, Nat.zero_le _, hin⟩]; rfl
    · rw [if_neg hin, if_neg (fun e => hin e.2.2)]
  unfold doMM
  rw [h1]
  simp only [Option.bind_some]
  by_cases hc : N > 1 ∧ A.k > 0
  · rw [if_pos (show (whole N M lb hb).cs > 1 ∧ A.k > 0 from hc)]
    by_cases hlb0 : 0 < lb
    · rw [if_pos (show (whole N M lb hb).lo > 0 by simp only [whole]; omega)]
      rw [Win.sub_pos _ _ _ _ _ _ _ (by simp only [whole, Win.hasSub, Win.okij]; split_ifs <;> omega)
        (by simp only [whole, Win.ok]; split_ifs <;> omega)]
      simp only [Option.bind_some]
      rw [Win.sub_pos _ _ _ _ _ _ _ (by simp only [whole, Win.hasSub, Win.okij]; split_ifs <;> omega)
        (by simp only [whole, Win.ok]; split_ifs <;> omega)]
      simp only [Option.bind_some]
      rw [prodBB_pos _ _ _ _ _ _ _ _ _ (by simp only [whole]; split_ifs <;> omega)]
      refine ⟨_, rfl, fun i j => ?_⟩
      have hw : ∀ l, l < N - 1 → wel ⟨(whole N M lb hb).r0 + 1, (whole N M lb hb).c0 + 0, (whole N M lb hb).cs - 1,
          (whole N M lo hi).rs - 0, (whole N M lb hb).lo - 1, if (whole N M lb hb).hi = ((whole N M lb hb).rs : Int) - 1
            then (whole N M lb hb).hi else (whole N M lb hb).hi + 1⟩ E l j = wel (whole N M lb hb) E (l + 1) j := by
        intro l hln
        unfold wel
        by_cases hb2 : (whole N M lb hb).has (l + 1) j
        · rw [if_pos hb2, if_pos]
          · simp only [whole]; congr 1; omega
          · simp only [whole, Win.has] at hb2 ⊢; split_ifs <;> omega
        · rw [if_neg hb2, if_neg]
          simp only [whole, Win.has] at hb2 ⊢; split_ifs <;> omega
      by_cases hin : (whole N M lo hi).has i j
      · rw [if_pos hin]
        by_cases hil : i < N - 1
        · rw [if_pos (by simp only [whole, Win.has] at hin ⊢; split_ifs <;> omega)]
          simp only [if_true, if_pos hin]
          rw [← step1_add]
          congr 2
          refine Finset.sum_congr rfl fun l hm => ?_
          have hm' : l < N - 1 := Finset.mem_range.mp hm
          exact congrArg₂ (· * ·) rfl (hw l hm')
        · rw [if_neg (by simp only [whole, Win.has] at hin ⊢; omega)]
          rw [step1_last, if_pos hin]
          exact upper_zero_last N A (fun l => wel (whole N M lb hb) E l j) i hil
      · rw [if_neg hin, if_neg (by simp only [whole, Win.has] at hin ⊢; split_ifs <;> omega), if_neg hin]
    · rw [if_neg (show ¬(whole N M lb hb).lo > 0 by simp only [whole]; omega)]
      have hlb0' : lb = 0 := by omega
      have hbM : hb + 1 < M := by omega
      rw [Win.sub_pos _ _ _ _ _ _ _ (by simp only [whole, Win.hasSub, Win.okij]; split_ifs <;> omega)
        (by simp only [whole, Win.ok]; split_ifs <;> omega)]
      simp only [Option.bind_some]
      rw [Win.sub_pos _ _ _ _ _ _ _ (by simp only [whole, Win.hasSub, Win.okij]; omega)
        (by simp only [whole, Win.ok]; omega)]
      simp only [Option.bind_some]
      rw [prodBB_pos _ _ _ _ _ _ _ _ _ (by simp only [whole]; split_ifs <;> omega)]
      refine ⟨_, rfl, fun i j => ?_⟩
      have hw : ∀ l, l < N - 1 → 0 < j → wel ⟨(whole N M lb hb).r0 + 1, (whole N M lb hb).c0 + 1, (whole N M lb hb).cs - 1,
          (whole N M lo hi).rs - 1, (whole N M lb hb).lo, (whole N M lb hb).hi⟩ E l (j - ((whole N M lo hi).c0 + 1)) =
            wel (whole N M lb hb) E (l + 1) j := by
        intro l hln hj
        unfold wel
        by_cases hb2 : (whole N M lb hb).has (l + 1) j
        · rw [if_pos hb2, if_pos]
          · simp only [whole]; congr 1 <;> omega
          · simp only [whole, Win.has] at hb2 ⊢; omega
        · rw [if_neg hb2, if_neg]
          simp only [whole, Win.has] at hb2 ⊢; omega
      by_cases hin : (whole N M lo hi).has i j
      · rw [if_pos hin]
        by_cases hil : i < N - 1 ∧ 0 < j
        · rw [if_pos (by simp only [whole, Win.has] at hin ⊢; split_ifs <;> omega)]
          simp only [if_true, if_pos hin]
          rw [← step1_add]
          congr 2
          refine Finset.sum_congr rfl fun l hm => ?_
          have hm' : l < N - 1 := Finset.mem_range.mp hm
          exact congrArg₂ (· * ·) rfl (hw l hm' hil.2)
        · rw [if_neg (by simp only [whole, Win.has] at hin ⊢; omega)]
          rw [if_pos hin, step1_last]
          by_cases hi2 : i < N - 1
          · refine Finset.sum_eq_zero fun l _ => ?_
            unfold wel
            rw [if_neg (by simp only [whole, Win.has]; omega), mul_zero]
          · exact upper_zero_last N A (fun l => wel (whole N M lb hb) E l j) i hi2
      · rw [if_neg hin, if_neg (by simp only [whole, Win.has] at hin ⊢; split_ifs <;> omega), if_neg hin]
  · rw [if_neg (show ¬((whole N M lb hb).cs > 1 ∧ A.k > 0) from hc)]
    refine ⟨_, rfl, fun i j => ?_⟩
    by_cases hin : (whole N M lo hi).has i j
    · rw [if_pos hin, if_pos hin, step1_last]
      exact upper_zero N A (fun l => wel (whole N M lb hb) E l j) i hc
    · rw [if_neg hin, if_neg hin]

/-! ### The whole operation -/

/-- The element `(i,j)` of an `N` by `M` band matrix with `lb` and `hb` diagonals whose numbers are `E`. -/
def bandEl (N M lb hb : Nat) (E : Nat → Nat → K) (i j : Nat) : K := if i < N ∧ j < M ∧ i ≤ j + lb ∧ j ≤ i + hb then E i j else 0

omit [StarRing K] in
theorem wel_whole (N M lb hb : Nat) (E : Nat → Nat → K) (i j : Nat) : wel (whole N M lb hb) E i j = bandEl N M lb hb E i j := by
  unfold wel bandEl
  by_cases h : i < N ∧ j < M ∧ i ≤ j + lb ∧ j ≤ i + hb
  · rw [if_pos h, if_pos (by simp only [whole, Win.has]; omega)]; simp only [whole, Nat.zero_add]
  · rw [if_neg h, if_neg (by simp only [whole, Win.has]; omega)]

theorem has_whole (N M lo hi i j : Nat) : (whole N M lo hi).has i j ↔ i < N ∧ j < M ∧ i ≤ j + lo ∧ j ≤ i + hi := by
  simp only [whole, Win.has]; omega

/-- The sizes and widths that `C (+)= alpha*A*B` asks for: those of matrices, and room in `C` for the product's diagonals. -/
def Fits (N M k lb hb lo hi : Nat) : Prop :=
  0 < N ∧ 0 < M ∧ k < N ∧ lb < N ∧ hb < M ∧ lo < N ∧ hi < M ∧ min (N - 1) (k + lb) ≤ lo ∧ min (M - 1) (k + hb) ≤ hi

theorem tempMM_spec (add : Bool) (g : Nat → Nat → K) (α : K) (A : SB K) (N M lb hb lo hi : Nat) (hf : Fits N M A.k lb hb lo hi)
    (hx : ¬(1 < N ∧ 0 < A.k ∧ lb = 0 ∧ hb = M - 1)) (E X : Nat → Nat → K) :
    ∃ Y, tempMM add g α A (whole N M lb hb) E (whole N M lo hi) X = some Y ∧ ∀ i j, Y i j = if (whole N M lo hi).has i j then
      (if add then X i j else 0) + α * rowDot N A (fun l => wel (whole N M lb hb) E l j) i else X i j := by
  obtain ⟨hN, hM, hk, hlb, hhb, hlo, hhi, hl, hh⟩ := hf
  obtain ⟨Y, hY, hs⟩ := doMM_spec false 1 A N M lb hb lo hi hN hM hlb hhb hlo hhi hl hh hx E g
  refine ⟨fun i j => if (whole N M lo hi).has i j then (if add then X i j + α * Y i j else α * Y i j) else X i j, ?_, fun i j => ?_⟩
  · unfold tempMM; rw [hY]; rfl
  · dsimp only
    by_cases hin : (whole N M lo hi).has i j
    · rw [if_pos hin, if_pos hin, hs, if_pos hin]
      cases add <;> simp
    · rw [if_neg hin, if_neg hin]

omit [Field K] [StarRing K] in
theorem aMat_k (inC : Bool) (A : SB K) (X : Nat → Nat → K) : (aMat inC A X).k = A.k := by cases inC <;> rfl

theorem multMMnc_spec (add inC : Bool) (g : Nat → Nat → K) (α : K) (A : SB K) (N M lb hb lo hi : Nat) (hf : Fits N M A.k lb hb lo hi)
    (hx : ¬(1 < N ∧ 0 < A.k ∧ lb = 0 ∧ hb = M - 1)) (B : BSrc K) (X : Nat → Nat → K) :
    ∃ Y, multMMnc add inC g α A (whole N M lb hb) B (whole N M lo hi) X = some Y ∧ ∀ i j, Y i j = if (whole N M lo hi).has i j then
      (if add then X i j else 0) + α * rowDot N (aMat inC A X) (fun l => wel (whole N M lb hb) (B.rd X) l j) i else X i j := by
  have hf' : Fits N M (aMat inC A X).k lb hb lo hi := by rw [aMat_k]; exact hf
  have hx' : ¬(1 < N ∧ 0 < (aMat inC A X).k ∧ lb = 0 ∧ hb = M - 1) := by rw [aMat_k]; exact hx
  unfold multMMnc
  dsimp only
  generalize (inC || match B with | .apart _ => false | .inC .. => true) = s
  cases s
  swap
  · exact tempMM_spec add g α _ N M lb hb lo hi hf' hx' _ X
  · obtain ⟨hN, hM, hk, hlb, hhb, hlo, hhi, hl, hh⟩ := hf'
    exact doMM_spec add α _ N M lb hb lo hi hN hM hlb hhb hlo hhi hl hh hx' _ X

/-- **C134, band.**  `C (+)= alpha*A*B` for a symmetric or Hermitian band `A` (wherever it is stored, also in `C`) and band matrices `B` (also in
`C`: as it is, transposed, conjugated) and `C`, which has room for the diagonals of the product: every element in `C`'s band becomes
`alpha*Σ_l A(i,l) B(l,j)` (added to the old one for `+=`) with the old values of `A` and `B`; nothing else is written, and outside `C`'s
band that sum is zero.  Missing, because the code fails there: an `A` that is not diagonal times an upper triangular band matrix whose band
reaches the last corner (`multMM_triangular_fails`). -/
theorem multMM_spec_partial [DecidableEq K] (add inC cc : Bool) (g : Nat → Nat → K) (α : K) (A : SB K) (N M lb hb lo hi : Nat)
    (hf : Fits N M A.k lb hb lo hi) (hx : ¬(1 < N ∧ 0 < A.k ∧ lb = 0 ∧ hb = M - 1)) (B : BSrc K) (X : Nat → Nat → K) :
    ∃ Y, multMM add inC cc g α A (whole N M lb hb) B (whole N M lo hi) X = some Y ∧
      (∀ i j, i < N → j < M → i ≤ j + lo → j ≤ i + hi → cj cc (Y i j) =
        (if add then cj cc (X i j) else 0) + α * ∑ l ∈ Finset.range N, (aMat inC A X).el i l * bandEl N M lb hb (B.rd X) l j) ∧
      (∀ i j, ¬(i < N ∧ j < M ∧ i ≤ j + lo ∧ j ≤ i + hi) → Y i j = X i j) ∧
      ∀ i j, i < N → j < M → ¬(i ≤ j + lo ∧ j ≤ i + hi) →
        ∑ l ∈ Finset.range N, (aMat inC A X).el i l * bandEl N M lb hb (B.rd X) l j = 0 := by
  have hz : ∀ i j, i < N → j < M → ¬(i ≤ j + lo ∧ j ≤ i + hi) →
      ∑ l ∈ Finset.range N, (aMat inC A X).el i l * bandEl N M lb hb (B.rd X) l j = 0 := by
    intro i j hi hj h
    refine Finset.sum_eq_zero fun l hl => ?_
    have hl' := Finset.mem_range.mp hl
    obtain ⟨_, _, _, _, _, _, _, h1, h2⟩ := hf
    by_cases hb1 : i ≤ l + A.k ∧ l ≤ i + A.k
    · unfold bandEl; rw [if_neg (by omega), mul_zero]
    · unfold SB.el; rw [aMat_k, if_neg hb1, zero_mul]
  have hpos : (whole N M lo hi).cs > 0 ∧ (whole N M lo hi).rs > 0 := ⟨hf.1, hf.2.1⟩
  have hrow : ∀ (A' : SB K) (E : Nat → Nat → K) i j, rowDot N A' (fun l => wel (whole N M lb hb) E l j) i =
      ∑ l ∈ Finset.range N, A'.el i l * bandEl N M lb hb E l j := by
    intro A' E i j
    exact Finset.sum_congr rfl fun l _ => by dsimp only; rw [wel_whole]
  unfold multMM
  rw [if_pos hpos]
  by_cases h0 : α = 0
  · rw [if_pos h0]
    refine ⟨_, rfl, fun i j hi' hj h1 h2 => ?_, fun i j h => ?_, hz⟩
    · have hin := (has_whole N M lo hi i j).mpr ⟨hi', hj, h1, h2⟩
      rw [h0, zero_mul, add_zero]
      cases add <;> simp [hin, cj]
    · have hin : ¬(whole N M lo hi).has i j := fun e => h ((has_whole N M lo hi i j).mp e)
      cases add <;> simp [hin]
  · rw [if_neg h0]
    cases cc
    · simp only [Bool.false_eq_true, if_false, cj]
      obtain ⟨Y, hY, hs⟩ := multMMnc_spec add inC g α A N M lb hb lo hi hf hx B X
      refine ⟨Y, hY, fun i j hi' hj h1 h2 => ?_, fun i j h => ?_, hz⟩
      · rw [hs, if_pos ((has_whole N M lo hi i j).mpr ⟨hi', hj, h1, h2⟩), hrow]
      · rw [hs, if_neg fun e => h ((has_whole N M lo hi i j).mp e)]
    · simp only [if_true, cj]
      obtain ⟨Y, hY, hs⟩ := multMMnc_spec add inC g (star α) A.conjugate N M lb hb lo hi hf hx B.conjugate X
      refine ⟨Y, hY, fun i j hi' hj h1 h2 => ?_, fun i j h => ?_, hz⟩
      · rw [hs, if_pos ((has_whole N M lo hi i j).mpr ⟨hi', hj, h1, h2⟩), hrow, aMat_conj]
        have : ∑ l ∈ Finset.range N, (aMat inC A X).conjugate.el i l * bandEl N M lb hb (B.conjugate.rd X) l j =
            star (∑ l ∈ Finset.range N, (aMat inC A X).el i l * bandEl N M lb hb (B.rd X) l j) := by
          rw [star_sum]
          refine Finset.sum_congr rfl fun l _ => ?_
          rw [conjugate_el, star_mul']
          congr 1
          unfold bandEl
          split_ifs
          · rw [BSrc.conj_rd]
          · rw [star_zero]
        rw [this]
        cases add <;> simp
      · rw [hs, if_neg fun e => h ((has_whole N M lo hi i j).mp e)]

/-- The case left out of `multMM_spec_partial`: whatever the numbers, an assertion fails. -/
theorem doMM_none (add : Bool) (α : K) (A : SB K) (N M hb lo hi : Nat) (hN : 1 < N) (hk : 0 < A.k) (hhb : hb = M - 1)
    (hhi : hi < M) (E X : Nat → Nat → K) : doMM add α A (whole N M 0 hb) E (whole N M lo hi) X = none := by
  unfold doMM
  dsimp only
  cases prodBB add α A.lowerEl A.k 0 (whole N M 0 hb) E (whole N M lo hi) X with
  | none => rfl
  | some X1 =>
    simp only [Option.bind_some]
    rw [if_pos (show (whole N M 0 hb).cs > 1 ∧ A.k > 0 from ⟨hN, hk⟩), if_neg (show ¬(whole N M 0 hb).lo > 0 by simp only [whole]; omega)]
    by_cases hM1 : M = 1
    · have : (whole N M lo hi).sub 0 ((whole N M 0 hb).cs - 1) 1 (whole N M lo hi).rs
          (if ((whole N M lo hi).cs : Int) - 2 ≤ (whole N M lo hi).lo then ((whole N M lo hi).cs : Int) - 2 else (whole N M lo hi).lo + 1)
          ((whole N M lo hi).hi - 1) = none := by
        unfold Win.sub
        rw [if_neg]
        rintro ⟨_, hv⟩
        simp only [Win.ok, whole] at hv
        omega
      rw [this]; rfl
    · have : (whole N M 0 hb).sub 1 (whole N M 0 hb).cs 1 (whole N M lo hi).rs (whole N M 0 hb).lo (whole N M 0 hb).hi = none := by
        unfold Win.sub
        rw [if_neg]
        rintro ⟨hv, _⟩
        simp only [Win.hasSub, whole] at hv
        omega
      rw [this]
      cases (whole N M lo hi).sub 0 ((whole N M 0 hb).cs - 1) 1 (whole N M lo hi).rs
          (if ((whole N M lo hi).cs : Int) - 2 ≤ (whole N M lo hi).lo then ((whole N M lo hi).cs : Int) - 2 else (whole N M lo hi).lo + 1)
          ((whole N M lo hi).hi - 1) <;> rfl

/-- **C134, violated.**  `C (+)= alpha*A*B`, `alpha ≠ 0`, for an `A` with at least one diagonal on each side and an upper triangular band matrix
`B` (no diagonal below the main one) whose band reaches the last corner: however much room `C` has, and whatever the numbers, the call does
not succeed: an assertion about the widths of an intermediate view fails. -/
theorem multMM_triangular_fails [DecidableEq K] (add inC cc : Bool) (g : Nat → Nat → K) (α : K) (h0 : α ≠ 0) (A : SB K) (N M lo hi : Nat)
    (hN : 1 < N) (hM : 0 < M) (hk : 0 < A.k) (hhi : hi < M) (B : BSrc K) (X : Nat → Nat → K) :
    multMM add inC cc g α A (whole N M 0 (M - 1)) B (whole N M lo hi) X = none := by
  have nc : ∀ (α : K) (A : SB K) (B : BSrc K), 0 < A.k → multMMnc add inC g α A (whole N M 0 (M - 1)) B (whole N M lo hi) X = none := by
    intro α A B hk
    have hk' : 0 < (aMat inC A X).k := by rw [aMat_k]; exact hk
    unfold multMMnc tempMM
    dsimp only
    rw [doMM_none _ _ _ N M (M - 1) lo hi hN hk' rfl hhi, doMM_none _ _ _ N M (M - 1) lo hi hN hk' rfl hhi]
    generalize (inC || match B with | .apart _ => false | .inC .. => true) = s
    cases s <;> rfl
  unfold multMM
  rw [if_pos (show (whole N M lo hi).cs > 0 ∧ (whole N M lo hi).rs > 0 from ⟨by simp only [whole]; omega, hM⟩), if_neg h0]
  cases cc
  · exact nc α A B hk
  · exact nc (star α) A.conjugate B.conjugate hk

/-! ### Two symmetric band matrices -/

theorem transpose_el' (A : SB K) (i j : Nat) : A.transpose.el i j = A.el j i := by
  unfold SB.el SB.transpose
  dsimp only
  by_cases hb : i ≤ j + A.k ∧ j ≤ i + A.k
  · rw [if_pos hb, if_pos hb.symm]
    cases A.up <;> simp
  · rw [if_neg hb, if_neg fun e => hb e.symm]

theorem multSSnc_spec [DecidableEq K] (add aIn bIn : Bool) (g : Nat → Nat → K) (α : K) (A B : SB K) (N lo hi : Nat) (hN : 0 < N)
    (hA : A.k < N) (hB : B.k < N) (hlo : lo < N) (hhi : hi < N) (hl : min (N - 1) (A.k + B.k) ≤ lo) (hh : min (N - 1) (A.k + B.k) ≤ hi)
    (X : Nat → Nat → K) : ∃ Y, multSSnc add aIn bIn g α A B N (whole N N lo hi) X = some Y ∧
      (∀ i j, i < N → j < N → i ≤ j + lo → j ≤ i + hi → Y i j =
        (if add then X i j else 0) + α * ∑ l ∈ Finset.range N, (aMat aIn A X).el i l * (aMat bIn B X).el l j) ∧
      ∀ i j, ¬(i < N ∧ j < N ∧ i ≤ j + lo ∧ j ≤ i + hi) → Y i j = X i j := by
  have hbe : ∀ (S : SB K) (α : K) l j, l < N → j < N → bandEl N N S.k S.k (fun i j => α * S.el i j) l j = α * S.el l j := by
    intro S α l j hl hj
    unfold bandEl
    by_cases h : l ≤ j + S.k ∧ j ≤ l + S.k
    · rw [if_pos ⟨hl, hj, h⟩]
    · rw [if_neg fun e => h e.2.2]; unfold SB.el; rw [if_neg h, mul_zero]
  unfold multSSnc
  by_cases hk : A.k > B.k
  · rw [if_pos hk]
    obtain ⟨Y, hY, h1, h2, _⟩ := multMM_spec_partial add aIn false g 1 A N N B.k B.k lo hi ⟨hN, hN, hA, hB, hB, hlo, hhi, hl, hh⟩ (by omega)
      (.apart fun i j => α * (aMat bIn B X).el i j) X
    refine ⟨Y, hY, fun i j hi hj hb1 hb2 => ?_, h2⟩
    have := h1 i j hi hj hb1 hb2
    simp only [cj, Bool.false_eq_true, if_false] at this
    rw [this, one_mul, Finset.mul_sum]
    congr 1
    refine Finset.sum_congr rfl fun l hl => ?_
    have hb := hbe (aMat bIn B X) α l j (Finset.mem_range.mp hl) hj
    rw [aMat_k] at hb
    change (aMat aIn A X).el i l * bandEl N N B.k B.k (fun i j => α * (aMat bIn B X).el i j) l j = _
    rw [hb]; ring
  · rw [if_neg hk]
    set B' : SB K := if bIn then { B with up := !B.up } else B.transpose with hB'
    have hk' : B'.k = B.k := by rw [hB']; cases bIn <;> rfl
    have hm : aMat bIn B' (fun i j => X j i) = (aMat bIn B X).transpose := by rw [hB']; cases bIn <;> rfl
    obtain ⟨Y, hY, h1, h2, _⟩ := multMM_spec_partial add bIn false (fun i j => g j i) 1 B' N N A.k A.k hi lo
      ⟨hN, hN, by omega, hA, hA, hhi, hlo, by omega, by omega⟩ (by omega) (.apart fun i j => α * (aMat aIn A X).el j i) (fun i j => X j i)
    refine ⟨fun i j => Y j i, ?_, fun i j hi' hj hb1 hb2 => ?_, fun i j h => ?_⟩
    · have : (⟨0, 0, (whole N N lo hi).rs, (whole N N lo hi).cs, (whole N N lo hi).hi, (whole N N lo hi).lo⟩ : Win) = whole N N hi lo := rfl
      rw [this]
      change Option.map _ (multMM add bIn false (fun i j => g j i) 1 B' (whole N N A.k A.k) _ _ _) = _
      rw [hY]; rfl
    · have := h1 j i hj hi' hb2 hb1
      simp only [cj, Bool.false_eq_true, if_false] at this
      dsimp only
      rw [this, one_mul, Finset.mul_sum, hm]
      congr 1
      refine Finset.sum_congr rfl fun l hl => ?_
      have hb : bandEl N N A.k A.k (fun i j => α * (aMat aIn A X).el j i) l i = α * (aMat aIn A X).el i l := by
        have := hbe (aMat aIn A X).transpose α l i (Finset.mem_range.mp hl) hi'
        simp only [transpose_el'] at this
        have hkk : (aMat aIn A X).transpose.k = A.k := aMat_k aIn A X
        rw [hkk] at this
        exact this
      change (aMat bIn B X).transpose.el j l * bandEl N N A.k A.k (fun i j => α * (aMat aIn A X).el j i) l i = _
      rw [transpose_el', hb]; ring
    · exact h2 j i (by omega)

/-- **C134, two symmetric band matrices.**  `C (+)= alpha*A*B` for symmetric or Hermitian band matrices `A` and `B`, each apart from `C` or stored in
its array, and a band matrix `C` with room for the product: every element in `C`'s band becomes `alpha*Σ_l A(i,l) B(l,j)` (added to the old one
for `+=`), with the old values of `A` and `B`, and nothing else is written. -/
theorem multSS_spec [DecidableEq K] (add aIn bIn cc : Bool) (g : Nat → Nat → K) (α : K) (A B : SB K) (N lo hi : Nat) (hN : 0 < N)
    (hA : A.k < N) (hB : B.k < N) (hlo : lo < N) (hhi : hi < N) (hl : min (N - 1) (A.k + B.k) ≤ lo) (hh : min (N - 1) (A.k + B.k) ≤ hi)
    (X : Nat → Nat → K) : ∃ Y, multSS add aIn bIn cc g α A B N (whole N N lo hi) X = some Y ∧
      (∀ i j, i < N → j < N → i ≤ j + lo → j ≤ i + hi → cj cc (Y i j) =
        (if add then cj cc (X i j) else 0) + α * ∑ l ∈ Finset.range N, (aMat aIn A X).el i l * (aMat bIn B X).el l j) ∧
      ∀ i j, ¬(i < N ∧ j < N ∧ i ≤ j + lo ∧ j ≤ i + hi) → Y i j = X i j := by
  unfold multSS
  rw [if_pos (show (whole N N lo hi).cs > 0 ∧ (whole N N lo hi).rs > 0 from ⟨hN, hN⟩)]
  by_cases h0 : α = 0
  · rw [if_pos h0]
    refine ⟨_, rfl, fun i j hi' hj h1 h2 => ?_, fun i j h => ?_⟩
    · have hin := (has_whole N N lo hi i j).mpr ⟨hi', hj, h1, h2⟩
      rw [h0, zero_mul, add_zero]
      cases add <;> simp [hin, cj]
    · have hin : ¬(whole N N lo hi).has i j := fun e => h ((has_whole N N lo hi i j).mp e)
      cases add <;> simp [hin]
  · rw [if_neg h0]
    cases cc
    · simp only [Bool.false_eq_true, if_false, cj]
      exact multSSnc_spec add aIn bIn g α A B N lo hi hN hA hB hlo hhi hl hh X
    · simp only [if_true, cj]
      obtain ⟨Y, hY, h1, h2⟩ := multSSnc_spec add aIn bIn g (star α) A.conjugate B.conjugate N lo hi hN hA hB hlo hhi hl hh X
      refine ⟨Y, hY, fun i j hi' hj hb1 hb2 => ?_, h2⟩
      rw [h1 i j hi' hj hb1 hb2, aMat_conj, aMat_conj]
      have : ∑ l ∈ Finset.range N, (aMat aIn A X).conjugate.el i l * (aMat bIn B X).conjugate.el l j =
          star (∑ l ∈ Finset.range N, (aMat aIn A X).el i l * (aMat bIn B X).el l j) := by
        rw [star_sum]
        exact Finset.sum_congr rfl fun l _ => by rw [conjugate_el, conjugate_el, star_mul']
      rw [this]
      cases add <;> simp

/-! ### Cases that meet the hypotheses -/

/-- A tridiagonal symmetric matrix times a bidiagonal 3 by 4 band matrix. -/
example : ∃ Y, multMM (K := ℚ) true false false (fun _ _ => 7) 2 ⟨fun i j => i + 2 * j + 1, 1, true, false, false⟩ (whole 3 4 0 1)
    (.apart fun i j => i + j + 1) (whole 3 4 1 2) (fun _ _ => 10) = some Y ∧ Y 1 1 = 10 + 2 * (3 * 2 + 4 * 3) := by
  obtain ⟨Y, hY, h, _⟩ := multMM_spec_partial (K := ℚ) true false false (fun _ _ => 7) 2 ⟨fun i j => i + 2 * j + 1, 1, true, false, false⟩
    3 4 0 1 1 2 (by simp [Fits]) (by simp) (.apart fun i j => i + j + 1) (fun _ _ => 10)
  refine ⟨Y, hY, ?_⟩
  have := h 1 1 (by norm_num) (by norm_num) (by norm_num) (by norm_num)
  simp [cj, SB.el, aMat, bandEl, BSrc.rd, Finset.sum_range_succ] at this
  rw [this]; norm_num

/-- The same matrix times an upper triangular one. -/
example : multMM (K := ℚ) false false false (fun _ _ => 7) 2 ⟨fun i j => i + 2 * j + 1, 1, true, false, false⟩ (whole 3 3 0 2)
    (.apart fun i j => i + j + 1) (whole 3 3 2 2) (fun _ _ => 10) = none :=
  multMM_triangular_fails (K := ℚ) false false false (fun _ _ => 7) 2 (by norm_num) _ 3 3 2 2 (by norm_num) (by norm_num) (by norm_num)
    (by norm_num) _ _

/-- `C = 3*A*B` where `B`, the wider one, is stored in `C`. -/
example : ∃ Y, multSS (K := ℚ) false false true false (fun _ _ => 7) 3 ⟨fun i _ => i + 1, 0, true, false, false⟩
    ⟨fun _ _ => 0, 1, false, true, false⟩ 2 (whole 2 2 1 1) (fun i j => 5 * i + j + 1) = some Y ∧ Y 0 1 = 3 * 6 ∧ Y 1 0 = 3 * (2 * 6) := by
  obtain ⟨Y, hY, h, _⟩ := multSS_spec (K := ℚ) false false true false (fun _ _ => 7) 3 ⟨fun i _ => i + 1, 0, true, false, false⟩
    ⟨fun _ _ => 0, 1, false, true, false⟩ 2 1 1 (by norm_num) (by norm_num) (by norm_num) (by norm_num) (by norm_num) (by norm_num) (by norm_num)
    (fun i j => 5 * i + j + 1)
  refine ⟨Y, hY, ?_, ?_⟩
  · have := h 0 1 (by norm_num) (by norm_num) (by norm_num) (by norm_num)
    simp [cj, SB.el, aMat, Finset.sum_range_succ] at this
    rw [this]; norm_num
  · have := h 1 0 (by norm_num) (by norm_num) (by norm_num) (by norm_num)
    simp [cj, SB.el, aMat, Finset.sum_range_succ] at this
    rw [this]; norm_num

end TMV.SymBandBB
