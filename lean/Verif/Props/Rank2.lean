import Verif.Model.Rank2
import Verif.Props.SymRK

/-! C91: rank-2 and rank-2k updates. -/
namespace TMV.Rank2
open Tri (Ord splitAt)
open SymRK (put realDiag multBlock RealDiag Updated re_of_real realDiag_id)
open TriProd (tr)
open Classical

variable {K : Type} [RCLike K]

/-- The rank-2 term of `Rank2Update`: `alpha*x^y* + conj(alpha)*y^x*` (no conjugations if the matrix is symmetric). -/
def S2 (ha : Bool) (α : K) (x y : Nat → K) : Nat → Nat → K :=
  fun i j => α * x i * cj ha (y j) + cj ha α * y i * cj ha (x j)

theorem cj_zero (c : Bool) : cj c (0 : K) = 0 := by cases c <;> simp [cj]
theorem cj_add (c : Bool) (a b : K) : cj c (a + b) = cj c a + cj c b := by cases c <;> simp [cj]
theorem cj_mul (c : Bool) (a b : K) : cj c (a * b) = cj c a * cj c b := by cases c <;> simp [cj, mul_comm]
theorem cj_sum (c : Bool) (n : Nat) (f : Nat → K) : cj c (∑ l ∈ Finset.range n, f l) = ∑ l ∈ Finset.range n, cj c (f l) := by
  cases c <;> simp [cj]
theorem cj_self (c : Bool) (a : K) : cj c (cj c a) = a := by cases c <;> simp [cj]
theorem cj_comm (c d : Bool) (a : K) : cj c (cj d a) = cj d (cj c a) := by cases c <;> cases d <;> simp [cj]
theorem cj_real {α : K} (h : RCLike.im α = 0) (c : Bool) : cj c α = α := by
  cases c
  · rfl
  · exact RCLike.conj_eq_iff_im.mpr h

/-- The stored triangle (size `N`) of `A` becomes `A + S` (or `S`), nothing else changes. -/
def UpdT (up add : Bool) (N : Nat) (S A B : Nat → Nat → K) : Prop :=
  ∀ i j, B i j = if stored up i j ∧ i < N ∧ j < N then put add (A i j) (S i j) else A i j

/-- `T` is symmetric, or Hermitian. -/
def SymT (ha : Bool) (T : Nat → Nat → K) : Prop := ∀ i j, cj ha (T i j) = T j i

theorem S2_sym (ha : Bool) (α : K) (x y : Nat → K) : SymT ha (S2 ha α x y) := by
  intro i j
  simp only [S2, cj_add, cj_mul, cj_self]
  ring

theorem SymT.im {T : Nat → Nat → K} (h : SymT true T) (i : Nat) : RCLike.im (T i i) = 0 := by
  have := h i i
  exact RCLike.conj_eq_iff_im.mp this

theorem put_add (add : Bool) (old a b : K) : put add old a + b = put add old (a + b) := by
  unfold put; split <;> ring

theorem two_re {z w : K} (h : w = star z) : 2 * ((RCLike.re z : ℝ) : K) = z + w := by
  rw [h, show star z = (starRingEnd K) z from rfl, RCLike.add_conj]

theorem updT_realDiag {up ha add : Bool} {N : Nat} {S A B : Nat → Nat → K} (hS : SymT ha S)
    (hh : ha = true → add = true → RealDiag N A) (h : UpdT up add N S A B) :
    UpdT up add N S A (if ha then realDiag N B else B) := by
  cases ha with
  | false => simpa using h
  | true =>
    rw [if_pos rfl, realDiag_id]
    · exact h
    · intro i hi
      rw [h i i, if_pos ⟨by cases up <;> simp [stored], hi, hi⟩]
      unfold put
      cases add
      · exact hS.im i
      · rw [if_pos rfl, map_add, hh rfl rfl i hi, hS.im i, add_zero]

theorem elem_eq (ha add : Bool) (x y : Nat → K) (old : K) (a j : Nat) :
    (if x j ≠ 0 then
        (if y j ≠ 0 then put add old (x a * cj ha (y j) + y a * cj ha (x j)) else put add old (y a * cj ha (x j)))
       else if y j ≠ 0 then put add old (x a * cj ha (y j))
       else if add then old else 0) = put add old (S2 ha 1 x y a j) := by
  have h1 : cj ha (1 : K) = 1 := by cases ha <;> simp [cj]
  by_cases hx : x j = 0 <;> by_cases hy : y j = 0 <;> simp [S2, hx, hy, cj_zero, h1, put]

theorem upper2_spec (ha add : Bool) (N : Nat) (hN : 0 < N) (x y : Nat → K) (A : Nat → Nat → K)
    (hh : ha = true → add = true → RealDiag N A) : UpdT true add N (S2 ha 1 x y) A (upper2 ha add N x y A) := by
  unfold upper2
  dsimp only
  refine updT_realDiag (S2_sym ha 1 x y) hh ?_
  have hl := up_inv (fun j (A : Nat → Nat → K) => fun a b =>
    if b = j ∧ a ≤ j then
      (if x j ≠ 0 then
        (if y j ≠ 0 then put add (A a j) (x a * cj ha (y j) + y a * cj ha (x j)) else put add (A a j) (y a * cj ha (x j)))
       else if y j ≠ 0 then put add (A a j) (x a * cj ha (y j))
       else if add then A a j else 0)
    else A a b) (fun j B => ∀ a b, B a b = if a ≤ b ∧ 1 ≤ b ∧ b < j then put add (A a b) (S2 ha 1 x y a b) else A a b)
    (N-1) 1 A (by intro a b; rw [if_neg (by omega)]) (by
      intro j B h1 h2 hI a b
      beta_reduce
      by_cases hab : b = j ∧ a ≤ j
      · obtain ⟨rfl, hb⟩ := hab
        rw [if_pos ⟨rfl, hb⟩, elem_eq, hI a b, if_neg (by omega), if_pos (by omega)]
      · rw [if_neg hab, hI a b]
        by_cases hc : a ≤ b ∧ 1 ≤ b ∧ b < j
        · rw [if_pos hc, if_pos (by omega)]
        · rw [if_neg hc, if_neg (by omega)])
  generalize up _ (N-1) 1 A = B at *
  intro i j
  by_cases hij : i = 0 ∧ j = 0
  · obtain ⟨rfl, rfl⟩ := hij
    rw [if_pos (show stored true 0 0 ∧ 0 < N ∧ 0 < N from ⟨by simp [stored], hN, hN⟩), setE_self, hl 0 0,
      if_neg (show ¬ (0 ≤ 0 ∧ 1 ≤ 0 ∧ 0 < 1 + (N-1)) by omega)]
    congr 1
    by_cases h0 : x 0 = 0 ∨ y 0 = 0
    · rw [if_pos h0]
      rcases h0 with h0 | h0 <;> simp [S2, h0, cj_zero]
    · rw [if_neg h0]
      cases ha
      · simp only [Bool.false_eq_true, if_false, S2, cj]; ring
      · rw [if_pos rfl, two_re rfl]
        simp [S2, cj, mul_comm]
  · rw [setE_ne _ _ _ _ hij, hl i j]
    by_cases hc : i ≤ j ∧ 1 ≤ j ∧ j < 1 + (N-1)
    · rw [if_pos hc, if_pos ⟨by simp [stored]; omega, by omega, by omega⟩]
    · rw [if_neg hc, if_neg]
      simp only [stored, if_true]
      omega

theorem lower2_spec (ha add : Bool) (N : Nat) (x y : Nat → K) (A : Nat → Nat → K)
    (hh : ha = true → add = true → RealDiag N A) : UpdT false add N (S2 ha 1 x y) A (lower2 ha add N x y A) := by
  unfold lower2
  dsimp only
  refine updT_realDiag (S2_sym ha 1 x y) hh ?_
  intro i j
  have := SymRK.cols_loop_down add (S2 ha 1 x y) A N (fun j (A : Nat → Nat → K) => fun a b =>
    if b = j ∧ j ≤ a ∧ a < N then
      (if y j ≠ 0 then
        (if x j ≠ 0 then put add (A a j) (x a * cj ha (y j) + y a * cj ha (x j)) else put add (A a j) (x a * cj ha (y j)))
       else if x j ≠ 0 then put add (A a j) (y a * cj ha (x j))
       else if add then A a j else 0)
    else A a b) (by
      intro j B a b
      by_cases hab : b = j ∧ j ≤ a ∧ a < N
      · rw [if_pos hab, if_pos hab]
        rw [← elem_eq]
        by_cases hx : x j = 0 <;> by_cases hy : y j = 0 <;> simp [hx, hy]
      · rw [if_neg hab, if_neg hab]) i j
  rw [this]
  by_cases hc : j ≤ i ∧ i < N
  · rw [if_pos hc, if_pos ⟨by simpa [stored] using hc.1, hc.2, by omega⟩]
  · rw [if_neg hc, if_neg]
    simp only [stored, Bool.false_eq_true, if_false]
    omega

theorem unitA_spec (up ha add : Bool) (N : Nat) (hN : 0 < N) (x y : Nat → K) (A : Nat → Nat → K)
    (hh : ha = true → add = true → RealDiag N A) : UpdT up add N (S2 ha 1 x y) A (unitA up ha add N x y A) := by
  unfold unitA
  cases up
  · exact lower2_spec ha add N x y A hh
  · exact upper2_spec ha add N hN x y A hh

theorem UpdT.congr {up add : Bool} {N : Nat} {S S' A B : Nat → Nat → K} (h : UpdT up add N S A B)
    (hs : ∀ i j, i < N → j < N → S i j = S' i j) : UpdT up add N S' A B := by
  intro i j
  rw [h i j]
  by_cases hc : stored up i j ∧ i < N ∧ j < N
  · rw [if_pos hc, if_pos hc, hs i j hc.2.1 hc.2.2]
  · rw [if_neg hc, if_neg hc]

/-- The vector that is scaled by `alpha` is `x`, or it does not matter. -/
def Good (ha : Bool) (α : K) (x y : VArg K) : Prop :=
  ha = true → RCLike.im α = 0 ∨ (x.step1 = false ∨ x.conj = true) ∨ (y.step1 = true ∧ y.conj = false)

theorem nonBlas_spec (up ha add : Bool) (N : Nat) (hN : 0 < N) (α : K) (x y : VArg K) (A : Nat → Nat → K)
    (hg : Good ha α x y) (hh : ha = true → add = true → RealDiag N A) :
    UpdT up add N (S2 ha α x.val y.val) A (nonBlas up ha add N α x y A) := by
  have c1 : cj ha (1 : K) = 1 := by cases ha <;> simp [cj]
  have hx : S2 ha 1 (fun i => α * x.val i) y.val = S2 ha α x.val y.val := by
    funext i j; simp only [S2, cj_mul, c1]; ring
  unfold nonBlas
  by_cases h1 : x.step1 = false ∨ x.conj = true
  · rw [if_pos h1, ← hx]; exact unitA_spec up ha add N hN _ _ A hh
  · rw [if_neg h1]
    by_cases h2 : y.step1 = false ∨ y.conj = true
    · rw [if_pos h2]
      refine (unitA_spec up ha add N hN _ _ A hh).congr fun i j _ _ => ?_
      have : cj ha α = α := by
        cases ha
        · rfl
        · rcases hg rfl with h | h | h
          · exact cj_real h _
          · exact absurd h h1
          · rcases h2 with h2 | h2 <;> simp [h2] at h
      simp only [S2, cj_mul, c1, this]; ring
    · rw [if_neg h2]
      by_cases h3 : α ≠ 1
      · rw [if_pos h3, ← hx]; exact unitA_spec up ha add N hN _ _ A hh
      · have : α = 1 := not_not.mp h3
        rw [if_neg h3, this]; exact unitA_spec up ha add N hN _ _ A hh

theorem UpdT.tr {up add : Bool} {N : Nat} {S A B : Nat → Nat → K} (h : UpdT (!up) add N S (tr A) B) :
    UpdT up add N (tr S) A (tr B) := by
  intro i j
  show B j i = _
  rw [h j i]
  have e : stored (!up) j i ↔ stored up i j := by cases up <;> simp [stored]
  by_cases hc : stored up i j ∧ i < N ∧ j < N
  · rw [if_pos hc, if_pos ⟨e.mpr hc.1, hc.2.2, hc.2.1⟩]; rfl
  · rw [if_neg hc, if_neg (fun h => hc ⟨e.mp h.1, h.2.2, h.2.1⟩)]; rfl

theorem S2_conj (ha : Bool) (α : K) (x y : VArg K) (i j : Nat) :
    S2 ha (star α) x.cjg.val y.cjg.val i j = star (S2 ha α x.val y.val i j) := by
  cases ha <;> simp [S2, cj, VArg.cjg]

theorem value_sym {up ha : Bool} {N : Nat} {S A B : Nat → Nat → K} (hS : SymT ha S)
    (hu : UpdT up false N S A B) {i j : Nat} (hi : i < N) (hj : j < N) :
    value up false ha B i j = S i j := by
  unfold value
  by_cases h : stored up i j
  · rw [if_pos h, hu i j, if_pos ⟨h, hi, hj⟩]; rfl
  · have h' : stored up j i := by cases up <;> simp [stored] at h ⊢ <;> omega
    rw [if_neg h, hu j i, if_pos ⟨h', hj, hi⟩]
    exact hS j i

theorem rank2nc_spec (o : Ord) (up ha add : Bool) (N : Nat) (hN : 0 < N) (α : K) (x y : VArg K) (mem M : Nat → Nat → K)
    (hg : Good ha α x y) (hg' : o = .rm → Good ha (star α) x.cjg y.cjg) (hh : ha = true → add = true → RealDiag N M) :
    UpdT up add N (S2 ha α x.val y.val) M (rank2nc o up ha add N α x y mem M) := by
  unfold rank2nc
  cases o with
  | cm => exact nonBlas_spec up ha add N hN α x y M hg hh
  | rm =>
    cases ha
    · simp only [Bool.false_eq_true, if_false]
      refine (UpdT.tr (nonBlas_spec (!up) false add N hN α x y (tr M) hg (fun h => by simp at h))).congr fun i j _ _ => ?_
      exact S2_sym false α x.val y.val j i
    · simp only [if_true]
      refine (UpdT.tr (nonBlas_spec (!up) true add N hN (star α) x.cjg y.cjg (tr M) (hg' rfl) (fun h h' => hh h h'))).congr fun i j _ _ => ?_
      show S2 true (star α) _ _ j i = _
      rw [S2_conj]
      exact S2_sym true α x.val y.val j i
  | no =>
    intro i j
    dsimp only
    by_cases hc : stored up i j ∧ i < N ∧ j < N
    · rw [if_pos hc, if_pos hc, value_sym (S2_sym ha α x.val y.val)
        (nonBlas_spec false ha false N hN α x y mem hg (fun _ h => by simp at h)) hc.2.1 hc.2.2]
    · rw [if_neg hc, if_neg hc]

/-- What the caller sees: every element of the `N × N` matrix is updated by `T`, nothing else in memory changes. -/
structure Upd2 (up ca ha add : Bool) (N : Nat) (T M M' : Nat → Nat → K) : Prop where
  elems : ∀ i j, i < N → j < N → value up ca ha M' i j = (if add then value up ca ha M i j else 0) + T i j
  frame : ∀ i j, ¬ (stored up i j ∧ i < N ∧ j < N) → M' i j = M i j

theorem upd2_of {up ca ha add : Bool} {N : Nat} {T M M' : Nat → Nat → K} (hT : SymT ha T)
    (h : UpdT up add N (fun i j => cj ca (T i j)) M M') : Upd2 up ca ha add N T M M' := by
  refine ⟨fun i j hi hj => ?_, fun i j hc => by rw [h i j, if_neg hc]⟩
  unfold value
  by_cases hs : stored up i j
  · rw [if_pos hs, if_pos hs, h i j, if_pos ⟨hs, hi, hj⟩]
    cases add <;> simp [put, cj_add, cj_self]
  · have h' : stored up j i := by cases up <;> simp [stored] at hs ⊢ <;> omega
    rw [if_neg hs, if_neg hs, h j i, if_pos ⟨h', hj, hi⟩]
    have := hT j i
    cases add <;> simp [put, cj_add, cj_self, this]

/-- The combinations of layouts for which the right vector is scaled: `alpha` is real, the vectors have the same layout, or
`x` is not contiguous. -/
def Lay (ha : Bool) (α : K) (x y : VArg K) : Prop :=
  ha = true → RCLike.im α = 0 ∨ (x.step1 = y.step1 ∧ x.conj = y.conj) ∨ x.step1 = false

theorem Lay.good {ha : Bool} {α : K} {x y : VArg K} (h : Lay ha α x y) : Good ha α x y := by
  intro e
  rcases h e with h | ⟨h1, h2⟩ | h
  · exact .inl h
  · right
    rw [h1, h2]
    cases y.step1 <;> cases y.conj <;> simp
  · exact .inr (.inl (.inl h))

theorem Lay.cjg {ha : Bool} {α : K} {x y : VArg K} (h : Lay ha α x y) : Lay ha (star α) x.cjg y.cjg := by
  intro e
  rcases h e with h | ⟨h1, h2⟩ | h
  · left; rw [show star α = (starRingEnd K) α from rfl, RCLike.conj_im, h, neg_zero]
  · right; left; exact ⟨h1, by simp [VArg.cjg, h2]⟩
  · exact .inr (.inr h)

/-- **C91** (rank 2): `Rank2Update<add>(alpha,x,y,A)` adds (or assigns) `alpha*x^y + alpha*y^x` to a symmetric `A`,
`alpha*x^y* + conj(alpha)*y^x*` to a Hermitian `A`, in every element, and writes only the stored triangle — for every storage
order and triangle, if `alpha ≠ 0` or `add`, and if, for Hermitian `A`, `alpha` is real or the layouts of `x` and `y` are such
that the right one is scaled. -/
theorem rank2_partial (o : Ord) (up ca ha add : Bool) (N : Nat) (α : K) (x y : VArg K) (mem M : Nat → Nat → K)
    (h0 : add = false → α ≠ 0) (hl : Lay ha α x y) (hh : ha = true → add = true → RealDiag N M) :
    Upd2 up ca ha add N (fun i j => α * x.val i * cj ha (y.val j) + cj ha α * y.val i * cj ha (x.val j)) M
      (rank2 o up ca ha add N α x y mem M) := by
  refine upd2_of (S2_sym ha α x.val y.val) ?_
  unfold rank2
  by_cases h : α ≠ 0 ∧ N > 0
  · rw [if_pos h]
    cases ca
    · exact rank2nc_spec o up ha add N h.2 α x y mem M hl.good (fun _ => hl.cjg.good) hh
    · refine (rank2nc_spec o up ha add N h.2 (star α) x.cjg y.cjg mem M hl.cjg.good (fun _ => hl.cjg.cjg.good) hh).congr fun i j _ _ => ?_
      rw [S2_conj]; rfl
  · rw [if_neg h]
    intro i j
    by_cases hN : N > 0
    · have hα : α = 0 := by by_contra hne; exact h ⟨hne, hN⟩
      cases add
      · exact absurd hα (h0 rfl)
      · simp [hα, put, cj_zero, cj_add]
    · rw [if_neg (by omega)]

/-- Scaling `y` instead of `x`: for Hermitian `A`, complex `alpha`, contiguous `x` and strided `y` the result has `alpha` and
`conj(alpha)` exchanged (TMV_Rank2_VVS.cpp:339-346).  `x = (1)`, `y = (i)`, `alpha = i`: -2 instead of 2. -/
theorem rank2_violated (mem : Nat → Nat → ℂ) :
    let x : VArg ℂ := ⟨fun _ => 1, true, false⟩
    let y : VArg ℂ := ⟨fun _ => Complex.I, false, false⟩
    rank2 .cm false false true false 1 Complex.I x y mem (fun _ _ => 0) 0 0 = -2 ∧
    Complex.I * x.val 0 * star (y.val 0) + star Complex.I * y.val 0 * star (x.val 0) = 2 := by
  refine ⟨?_, ?_⟩
  · simp [rank2, rank2nc, nonBlas, unitA, lower2, down, realDiag, put, cj]
    norm_num
  · simp
    norm_num

/-- VIOLATED: `alpha = 0` without `add` leaves `A` as it was. -/
theorem rank2_zero_violated (o : Ord) (up ca ha : Bool) (N : Nat) (x y : VArg K) (mem M : Nat → Nat → K) :
    rank2 o up ca ha false N 0 x y mem M = M := by
  unfold rank2
  rw [if_neg (by simp)]

/-! ### Rank 2k -/

/-- The rank-2k term. -/
def S2K (ha : Bool) (kx : Nat) (α : K) (x y : Nat → Nat → K) : Nat → Nat → K :=
  fun i j => α * ∑ l ∈ Finset.range kx, x i l * cj ha (y j l) + cj ha α * ∑ l ∈ Finset.range kx, y i l * cj ha (x j l)

theorem S2K_sym (ha : Bool) (kx : Nat) (α : K) (x y : Nat → Nat → K) : SymT ha (S2K ha kx α x y) := by
  intro i j
  simp only [S2K, cj_add, cj_mul, cj_sum, cj_self]
  rw [add_comm]
  simp only [mul_comm]

theorem rank2KRec_spec (nb nb2 : Nat) (hnb : 0 < nb) (hnb2 : 0 < nb2) (o : Ord) (ha add : Bool) (kx : Nat) (α : K)
    (mem : Nat → Nat → K) :
    ∀ (fuel N : Nat) (x y : MArg K) (A : Nat → Nat → K), N < fuel → x.rm = true → y.rm = true →
      UpdT false add N (S2K ha kx α x.val y.val) A (rank2KRec nb nb2 o ha add kx α mem fuel N x y A) := by
  have conv : ∀ (N : Nat) (S A B : Nat → Nat → K), UpdT false add N S A B ↔
      ∀ i j, B i j = if j ≤ i ∧ i < N then put add (A i j) (S i j) else A i j := by
    intro N S A B
    refine forall₂_congr fun i j => ?_
    have : (stored false i j ∧ i < N ∧ j < N) ↔ (j ≤ i ∧ i < N) := by
      simp only [stored, Bool.false_eq_true, if_false]; omega
    simp only [this]
  intro fuel
  induction fuel with
  | zero => intro N x y A h; omega
  | succ fuel ih =>
    intro N x y A hf hx hy
    rw [conv, rank2KRec]
    by_cases hb : N ≤ nb2
    · rw [if_pos hb]
      by_cases hN1 : N = 1
      · rw [if_pos hN1]
        subst hN1
        intro i j
        by_cases hij : i = 0 ∧ j = 0
        · obtain ⟨rfl, rfl⟩ := hij
          rw [setE_self, if_pos (show (0:Nat) ≤ 0 ∧ 0 < 1 by omega)]
          congr 1
          cases ha
          · simp only [Bool.false_eq_true, if_false, S2K, cj]
            rw [two_mul]
            congr 2
            exact Finset.sum_congr rfl fun l _ => mul_comm _ _
          · rw [if_pos rfl, two_re rfl]
            simp only [S2K, cj, if_true, star_mul', star_sum, star_star]
            congr 2
            exact Finset.sum_congr rfl fun l _ => mul_comm _ _
        · rw [setE_ne _ _ _ _ hij, if_neg (by omega)]
      · rw [if_neg hN1, if_pos ⟨hx, hy⟩]
        have hp : ∀ (old : K) (a b : Nat), put add old (α * ∑ l ∈ Finset.range kx, x.val a l * cj ha (y.val b l)) +
              ∑ l ∈ Finset.range kx, y.val a l * (cj ha α * cj ha (x.val b l)) = put add old (S2K ha kx α x.val y.val a b) := by
          intro old a b
          rw [put_add]
          congr 2
          rw [Finset.mul_sum]
          exact Finset.sum_congr rfl fun l _ => by ring
        simp only [hp]
        by_cases ho : o = .rm
        · rw [if_pos ho]
          intro i j
          refine (SymRK.rows_loop add (S2K ha kx α x.val y.val) A N 0 _ (fun _ _ _ _ => rfl) i j).trans ?_
          by_cases hc : j ≤ i ∧ i < N
          · rw [if_pos hc, if_pos (by omega)]
          · rw [if_neg hc, if_neg (by omega)]
        · rw [if_neg ho]
          intro i j
          exact SymRK.cols_loop add (S2K ha kx α x.val y.val) A N _ (fun _ _ _ _ => rfl) i j
    · rw [if_neg hb]
      obtain ⟨hk1, hk2⟩ := Tri.splitAt_spec nb N hnb (by omega)
      generalize hk : splitAt nb N = k at hk1 hk2
      have e1 := (conv _ _ _ _).mp (ih k x y A (by omega) hx hy)
      generalize rank2KRec nb nb2 o ha add kx α mem fuel k x y A = A1 at e1
      generalize hA2 : multBlock true (cj ha α) k (N-k) k kx (y.rows k).val (fun l j => cj ha (x.val j l))
        (multBlock add α k (N-k) k kx (x.rows k).val (fun l j => cj ha (y.val j l)) A1) = A2
      have e2 : ∀ i j, A2 i j = if k ≤ i ∧ i < N ∧ j < k then
          put add (A i j) (S2K ha kx α x.val y.val i j) else A1 i j := by
        intro i j
        rw [← hA2]
        unfold multBlock
        by_cases hc : k ≤ i ∧ i < N ∧ j < k
        · rw [if_pos hc, if_pos (by omega), if_pos (by omega), e1 i j, if_neg (by omega)]
          rw [show ∀ a b : K, put true a b = a + b from fun _ _ => rfl, put_add]
          simp only [S2K, MArg.rows]
          rw [show k + (i - k) = i by omega]
        · rw [if_neg hc, if_neg (by omega), if_neg (by omega)]
      have e3 := (conv _ _ _ _).mp (ih (N-k) (x.rows k) (y.rows k) (Tri.sub A2 k k) (by omega) hx hy)
      intro i j
      simp only [Tri.paste]
      by_cases hc : k ≤ i ∧ i < k + (N-k) ∧ k ≤ j ∧ j < k + (N-k)
      · have ho : A2 i j = A i j := by rw [e2 i j, if_neg (by omega), e1 i j, if_neg (by omega)]
        rw [if_pos hc, e3 (i-k) (j-k)]
        simp only [Tri.sub]
        rw [show k + (i - k) = i by omega, show k + (j - k) = j by omega, ho]
        have hs : S2K ha kx α (x.rows k).val (y.rows k).val (i-k) (j-k) = S2K ha kx α x.val y.val i j := by
          simp only [S2K, MArg.rows]
          rw [show k + (i - k) = i by omega, show k + (j - k) = j by omega]
        rw [hs]
        by_cases hd : j ≤ i ∧ i < N
        · rw [if_pos (by omega), if_pos hd]
        · rw [if_neg (by omega), if_neg hd]
      · rw [if_neg hc, e2 i j]
        by_cases hd : k ≤ i ∧ i < N ∧ j < k
        · rw [if_pos hd, if_pos (by omega)]
        · rw [if_neg hd, e1 i j]
          by_cases he : j ≤ i ∧ i < k
          · rw [if_pos he, if_pos (by omega)]
          · rw [if_neg he, if_neg (by omega)]

theorem S2K_conj (ha : Bool) (kx : Nat) (α : K) (x y : MArg K) (i j : Nat) :
    S2K ha kx (star α) x.cjg.val y.cjg.val i j = star (S2K ha kx α x.val y.val i j) := by
  cases ha <;> simp [S2K, cj, MArg.cjg]

theorem nonBlas2K_spec (nb nb2 : Nat) (hnb : 0 < nb) (hnb2 : 0 < nb2) (o : Ord) (up ca ha add : Bool) (N kx : Nat) (α : K)
    (x y : MArg K) (mem M : Nat → Nat → K) (hx : x.rm = true) (hy : y.rm = true) :
    UpdT up add N (fun i j => cj ca (S2K ha kx α x.val y.val i j)) M
      (nonBlas2K nb nb2 o up ca ha add N kx α x y mem M) := by
  unfold nonBlas2K
  dsimp only
  have key : ∀ (o' : Ord) (c : Bool) (M' : Nat → Nat → K), UpdT false add N (fun i j => cj c (S2K ha kx α x.val y.val i j)) M'
      (if c = true then rank2KRec nb nb2 o' ha add kx (star α) mem (N+1) N x.cjg y.cjg M'
        else rank2KRec nb nb2 o' ha add kx α mem (N+1) N x y M') := by
    intro o' c M'
    cases c
    · exact rank2KRec_spec nb nb2 hnb hnb2 o' ha add kx α mem (N+1) N x y M' (by omega) hx hy
    · refine (rank2KRec_spec nb nb2 hnb hnb2 o' ha add kx (star α) mem (N+1) N x.cjg y.cjg M' (by omega) hx hy).congr fun i j _ _ => ?_
      rw [S2K_conj]; rfl
  cases up
  · simp only [Bool.false_eq_true, if_false, false_and]
    exact key o ca M
  · simp only [if_true, true_and]
    refine (UpdT.tr (up := true) (key _ (if ha = true then !ca else ca) (tr M))).congr fun i j _ _ => ?_
    have := S2K_sym ha kx α x.val y.val j i
    show cj _ (S2K ha kx α x.val y.val j i) = cj ca _
    rw [← this, SymRK.cj_cj]
    cases ha <;> cases ca <;> simp

/-- **C91** (rank 2k): `Rank2KUpdate<add>(alpha,x,y,A)` with row-major `x` and `y` that share no storage with `A` adds (or
assigns) `alpha*x*y^T + alpha*y*x^T`, for Hermitian `A` `alpha*x*y^† + conj(alpha)*y*x^†`, in every element and writes only the
stored triangle, for every storage of `A`, block size and shape (with the restrictions of `rank2_partial` for one column). -/
theorem rank2K_partial (nb nb2 : Nat) (hnb : 0 < nb) (hnb2 : 0 < nb2) (o : Ord) (up ca ha add : Bool) (N kx : Nat) (α : K)
    (x y : MArg K) (mem M : Nat → Nat → K) (hx : x.rm = true) (hy : y.rm = true) (h0 : add = false → α ≠ 0)
    (hl : kx = 1 → Lay ha α (x.col 0) (y.col 0)) (hh : ha = true → add = true → RealDiag N M) :
    Upd2 up ca ha add N (fun i j => α * ∑ l ∈ Finset.range kx, x.val i l * cj ha (y.val j l) +
      cj ha α * ∑ l ∈ Finset.range kx, y.val i l * cj ha (x.val j l)) M (rank2K nb nb2 o up ca ha add N kx α x y mem M) := by
  unfold rank2K
  by_cases h : α ≠ 0 ∧ N > 0
  · rw [if_pos h]
    by_cases h1 : kx = 1
    · rw [if_pos h1]
      subst h1
      have := rank2_partial o up ca ha add N α (x.col 0) (y.col 0) mem M h0 (hl rfl) hh
      simp only [Finset.sum_range_one]
      simpa only [MArg.col, mul_assoc] using this
    · rw [if_neg h1]
      exact upd2_of (S2K_sym ha kx α x.val y.val) (nonBlas2K_spec nb nb2 hnb hnb2 o up ca ha add N kx α x y mem M hx hy)
  · rw [if_neg h]
    refine upd2_of (S2K_sym ha kx α x.val y.val) ?_
    intro i j
    by_cases hN : N > 0
    · have hα : α = 0 := by by_contra hne; exact h ⟨hne, hN⟩
      cases add
      · exact absurd hα (h0 rfl)
      · simp [hα, put, cj_zero, S2K]
    · rw [if_neg (by omega)]

/-- With column-major `x`, `y` the base case loops over `N` columns, whatever their number (TMV_Rank2K_MMS.cpp:126):
2×3 matrices whose third columns are ones and whose others are zero leave a 2×2 `A` unchanged. -/
theorem rank2K_violated (mem M : Nat → Nat → ℝ) :
    let x : MArg ℝ := ⟨fun _ l => if l = 2 then 1 else 0, false, true, false⟩
    rank2K 64 32 .cm false false false true 2 3 1 x x mem M 0 0 = M 0 0 ∧
    (∑ l ∈ Finset.range 3, x.val 0 l * x.val 0 l) + ∑ l ∈ Finset.range 3, x.val 0 l * x.val 0 l = 2 := by
  refine ⟨?_, ?_⟩
  · simp [rank2K, nonBlas2K, rank2KRec, up, rank2, rank2nc, nonBlas, unitA, lower2, down, MArg.col]
  · simp [Finset.sum_range_succ]
    norm_num

/-- With `add == false` each column overwrites what the previous ones gave: only the last of the two columns is left. -/
theorem rank2K_assign_violated (mem M : Nat → Nat → ℝ) :
    let x : MArg ℝ := ⟨fun _ l => if l = 0 then 1 else 0, false, true, false⟩
    rank2K 64 32 .cm false false false false 2 2 1 x x mem M 0 0 = 0 ∧
    (∑ l ∈ Finset.range 2, x.val 0 l * x.val 0 l) + ∑ l ∈ Finset.range 2, x.val 0 l * x.val 0 l = 2 := by
  refine ⟨?_, ?_⟩
  · simp [rank2K, nonBlas2K, rank2KRec, up, rank2, rank2nc, nonBlas, unitA, lower2, down, MArg.col]
  · simp [Finset.sum_range_succ]
    norm_num

/-- A concrete case of the hypotheses: a Hermitian 2×2 matrix, complex `alpha`, row-major operands with two columns. -/
example (mem : Nat → Nat → ℂ) :
    let x : MArg ℂ := ⟨fun i l => i + 2 * l + Complex.I, true, false, false⟩
    Upd2 true false true true 2 (fun i j => Complex.I * ∑ l ∈ Finset.range 2, x.val i l * cj true (x.val j l) +
      cj true Complex.I * ∑ l ∈ Finset.range 2, x.val i l * cj true (x.val j l)) (fun _ _ => 1)
      (rank2K 64 32 .rm true false true true 2 2 Complex.I x x mem (fun _ _ => 1)) :=
  rank2K_partial 64 32 (by norm_num) (by norm_num) .rm true false true true 2 2 Complex.I _ _ mem _ rfl rfl (by simp) (by simp)
    (fun _ _ i _ => by simp)

end TMV.Rank2
