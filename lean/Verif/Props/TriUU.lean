import Verif.Model.TriUU
import Verif.Spec.MulTri
import Mathlib.Tactic.Ring

/-! Products of triangular matrices: `B = alpha*A*B`, upper. -/
namespace TMV.TriUU
open TMV.Tri
variable {K : Type _} [Field K] [StarRing K] [DecidableEq K]

/-- An element of the product of two upper triangular matrices. -/
def P (a b : Nat → Nat → K) (i j : Nat) : K := ∑ k ∈ Finset.Ico i (j + 1), a i k * b k j

omit [StarRing K] [DecidableEq K] in
theorem P_first (a b : Nat → Nat → K) {i j : Nat} (h : i ≤ j) : P a b i j = a i i * b i j + ∑ k ∈ Finset.Ico (i + 1) (j + 1), a i k * b k j :=
  Finset.sum_eq_sum_Ico_succ_bot (by omega) _

omit [StarRing K] [DecidableEq K] in
theorem P_last (a b : Nat → Nat → K) {i j : Nat} (h : i ≤ j) : P a b i j = ∑ k ∈ Finset.Ico i j, a i k * b k j + a i j * b j j :=
  Finset.sum_Ico_succ_top h _

omit [StarRing K] [DecidableEq K] in
theorem P_split (a b : Nat → Nat → K) {i m j : Nat} (h : i ≤ m) (h' : m ≤ j + 1) :
    P a b i j = ∑ k ∈ Finset.Ico i m, a i k * b k j + ∑ k ∈ Finset.Ico m (j + 1), a i k * b k j :=
  (Finset.sum_Ico_consecutive _ h h').symm

omit [StarRing K] [DecidableEq K] in
theorem P_congr {a b a' b' : Nat → Nat → K} {i j : Nat} (h : ∀ k, i ≤ k → k ≤ j → a i k = a' i k) (h' : ∀ k, i ≤ k → k ≤ j → b k j = b' k j) :
    P a b i j = P a' b' i j := by
  refine Finset.sum_congr rfl fun k hk => ?_
  rw [Finset.mem_Ico] at hk
  rw [h k hk.1 (by omega), h' k hk.1 (by omega)]

omit [StarRing K] [DecidableEq K] in
theorem el_off (u : Bool) (x : Nat → Nat → K) {i j : Nat} (h : i ≠ j) : el u x i j = x i j := if_neg fun h' => h h'.2

omit [StarRing K] [DecidableEq K] in
theorem el_diag (x : Nat → Nat → K) (i : Nat) : el true x i i = 1 := if_pos ⟨rfl, rfl⟩

omit [StarRing K] [DecidableEq K] in
theorem el_false (x : Nat → Nat → K) (i j : Nat) : el false x i j = x i j := if_neg fun h => by simp at h

omit [StarRing K] [DecidableEq K] in
theorem el_congr {u : Bool} {x y : Nat → Nat → K} {i j : Nat} (h : x i j = y i j) : el u x i j = el u y i j := by
  unfold el; rw [h]

omit [DecidableEq K] in
theorem rd_congr (A : Src K) {X Y : Nat → Nat → K} {i j : Nat} (h : X i j = Y i j) (h' : X j i = Y j i) : A.rd X i j = A.rd Y i j := by
  cases A <;> simp [Src.rd, h, h']

omit [DecidableEq K] in
theorem rd_congr_same {A : Src K} (hA : ∀ c, A ≠ .other c) {X Y : Nat → Nat → K} {i j : Nat} (h : X i j = Y i j) : A.rd X i j = A.rd Y i j := by
  cases A with
  | apart A => rfl
  | same c => simp [Src.rd, h]
  | other c => exact absurd rfl (hA c)

omit [DecidableEq K] in
theorem rd_congr_other {A : Src K} (hA : ∀ c, A ≠ .same c) {X Y : Nat → Nat → K} {i j : Nat} (h : X j i = Y j i) : A.rd X i j = A.rd Y i j := by
  cases A with
  | apart A => rfl
  | same c => exact absurd rfl (hA c)
  | other c => simp [Src.rd, h]

/-- What `B = alpha*A*B` is to make of the array. -/
def MulEq (A : Src K) (ua ub : Bool) (α : K) (o n : Nat) (X X' : Nat → Nat → K) : Prop :=
  ∀ p c, X' p c = if St ub o n p c then α * P (el ua (A.rd X)) (el ub X) p c else X p c

theorem rrMul_val (A : Src K) (ua ub : Bool) (α : K) (o n : Nat) (X : Nat → Nat → K) (hA : ∀ c, A ≠ .other c)
    (hU : ub = true → ua = true ∧ α = 1) : MulEq A ua ub α o n X (rrMul A ua ub α o n X) := by
  have := up_inv (fun i X => rrStep A ua ub α o n i X)
    (fun r Y => ∀ p c, Y p c = if St ub o n p c ∧ p < r then α * P (el ua (A.rd X)) (el ub X) p c else X p c) n o X
    (by intro p c; rw [if_neg]; unfold St; omega) (by
      intro r Y h1 h2 hY
      have hr : ∀ p c, r ≤ p → Y p c = X p c := fun p c h => by rw [hY, if_neg (by omega)]
      have hS : ∀ c, ∑ k ∈ Finset.Ico (r + 1) (c + 1), A.rd Y r k * el ub Y k c =
          ∑ k ∈ Finset.Ico (r + 1) (c + 1), el ua (A.rd X) r k * el ub X k c := by
        intro c
        refine Finset.sum_congr rfl fun k hk => ?_
        rw [Finset.mem_Ico] at hk
        rw [el_off ua _ (by omega), rd_congr_same hA (hr r k (by omega)), el_congr (hr k c (by omega))]
      have hd : A.rd Y r r = A.rd X r r := rd_congr_same hA (hr r r (by omega))
      intro p c
      by_cases hpr : p = r
      swap
      · have e : rrStep A ua ub α o n r Y p c = Y p c := by
          unfold rrStep; cases ua <;> cases ub <;> simp [hpr]
        rw [e, hY]
        by_cases h : St ub o n p c ∧ p < r
        · rw [if_pos h, if_pos ⟨h.1, by omega⟩]
        · rw [if_neg h, if_neg fun h' => h ⟨h'.1, by omega⟩]
      · subst hpr
        by_cases hin : p ≤ c ∧ c < o + n
        swap
        · have e : rrStep A ua ub α o n p Y p c = Y p c := by
            have q2 : ¬ (c = p) := by omega
            unfold rrStep; cases ua <;> cases ub <;> simp [hin, q2] <;> (intro _ _; exfalso; omega)
          rw [e, hr p c (le_refl _), if_neg]; unfold St; omega
        · by_cases hc : c = p
          · subst hc
            have q1 : ¬ (c + 1 ≤ c ∧ c < o + n) := by omega
            cases ub with
            | true =>
              obtain ⟨rfl, rfl⟩ := hU rfl
              have e : rrStep A true true 1 o n c Y c c = Y c c := by unfold rrStep; simp
              rw [e, hr c c (le_refl _), if_neg fun h => absurd (h.1.2.2.2 rfl) (lt_irrefl _)]
            | false =>
              rw [if_pos (by unfold St; simp; omega), P_first _ _ (le_refl _), Finset.Ico_self, Finset.sum_empty, add_zero, el_false]
              cases ua with
              | true =>
                have e : rrStep A true false α o n c Y c c = Y c c * α := by
                  unfold rrStep; simp only [if_true]; rw [if_neg (by simp), if_pos ⟨rfl, le_refl _, by omega⟩]; simp
                rw [e, hr c c (le_refl _), el_diag]; ring
              | false =>
                have e : rrStep A false false α o n c Y c c = Y c c * (if α ≠ 1 then A.rd Y c c * α else A.rd Y c c) := by
                  unfold rrStep; simp
                rw [e, hr c c (le_refl _), hd, el_false]
                by_cases h1 : α = 1
                · simp [h1]; ring
                · rw [if_pos h1]; ring
          · have hlt : p < c := by omega
            have q1 : p + 1 ≤ c ∧ c < o + n := by omega
            rw [if_pos (by unfold St; omega), P_first _ _ hin.1, ← hS, el_off ub X (by omega)]
            cases ub with
            | true =>
              obtain ⟨rfl, rfl⟩ := hU rfl
              have e : rrStep A true true 1 o n p Y p c =
                  Y p c + ∑ k ∈ Finset.Ico (p + 1) (c + 1), A.rd Y p k * el true Y k c := by
                unfold rrStep; simp [hlt, hin.2]
              rw [e, hr p c (le_refl _), el_diag]; ring
            | false =>
              cases ua with
              | true =>
                have e : rrStep A true false α o n p Y p c =
                    (Y p c + ∑ k ∈ Finset.Ico (p + 1) (c + 1), A.rd Y p k * el false Y k c) * α := by
                  unfold rrStep; simp [hlt, hin.1, hin.2]
                rw [e, hr p c (le_refl _), el_diag]; ring
              | false =>
                have e : rrStep A false false α o n p Y p c = (if α ≠ 1 then A.rd Y p p * α else A.rd Y p p) * Y p c +
                    α * ∑ k ∈ Finset.Ico (p + 1) (c + 1), A.rd Y p k * el false Y k c := by
                  unfold rrStep; simp [hlt, hin.2, hc, el_false]
                rw [e, hr p c (le_refl _), hd, el_false]
                by_cases h1 : α = 1
                · simp [h1]
                · rw [if_pos h1]; ring)
  intro p c
  refine (this p c).trans ?_
  by_cases h : St ub o n p c
  · rw [if_pos h, if_pos ⟨h, by unfold St at h; omega⟩]
  · rw [if_neg h, if_neg fun h' => h h'.1]

theorem crStep_val (A : Src K) (ua ub : Bool) (o n j : Nat) (Y : Nat → Nat → K) (hA : ∀ c, A ≠ .same c) (hU : ub = true → ua = true)
    (HO : o ≤ j) (HJ : j < o + n) (p c : Nat) :
    crStep A ua ub o n j Y p c = if St ub o n p c ∧ p ≤ j ∧ j ≤ c then
      (if p < j then Y p c + A.rd Y p j * el ub Y j c else Y p c * el ua (A.rd Y) j j) else Y p c := by
  by_cases hin : St ub o n p c ∧ p ≤ j ∧ j ≤ c
  · rw [if_pos hin]
    obtain ⟨⟨i1, i2, i3, i4⟩, i5, i6⟩ := hin
    by_cases hp : p < j
    · rw [if_pos hp]
      have hne : p ≠ j := by omega
      by_cases hc : c = j
      · subst hc
        cases ub with
        | true =>
          have := hU rfl; subst this
          unfold crStep
          simp only [if_true]
          rw [if_pos ⟨i1, hp, trivial⟩, if_neg (by omega), el_diag, mul_one]
          congr 1
          exact rd_congr_other hA (if_neg (by omega))
        | false =>
          cases ua
          · unfold crStep; simp [hne, i1, hp, i3, el_false]
          · unfold crStep; simp [i1, hp, i3, el_false]
      · have hjc : j < c := by omega
        rw [el_off ub Y (by omega)]
        cases ub with
        | true =>
          have := hU rfl; subst this
          unfold crStep; simp [i1, hp, i3, hjc, hc]
        | false =>
          cases ua
          · unfold crStep; simp [hne, i1, hp, i3, i6]
          · unfold crStep; simp [i1, hp, i3, i6]
    · rw [if_neg hp]
      have hpj : p = j := by omega
      subst hpj
      cases ua with
      | true => rw [el_diag]; cases ub <;> (unfold crStep; simp)
      | false =>
        rw [el_false]
        cases ub with
        | true => exact absurd (hU rfl) (by simp)
        | false =>
          unfold crStep
          simp only [if_false, Bool.false_eq_true]
          rw [if_pos ⟨trivial, i6, i3⟩, if_neg (by omega)]
          congr 1
          exact rd_congr_other hA (if_neg (by omega))
  · rw [if_neg hin]
    unfold crStep
    cases ub with
    | true =>
      have := hU rfl; subst this
      simp only [if_true]
      have n1 : ¬ (o ≤ p ∧ p < j ∧ c = j) ∨ ¬ (j < o + n) := by
        by_contra hh; rw [not_or, not_not, not_not] at hh
        exact hin ⟨⟨hh.1.1, by omega, by omega, fun _ => by omega⟩, by omega, by omega⟩
      have n2 : ¬ (o ≤ p ∧ p < j ∧ j + 1 ≤ c ∧ c < o + n) := fun h => hin ⟨⟨h.1, by omega, h.2.2.2, fun _ => by omega⟩, by omega, by omega⟩
      by_cases h : o ≤ p ∧ p < j ∧ c = j
      · exact absurd h (by
          intro h
          rcases n1 with n1 | n1
          · exact n1 h
          · exact n1 (HJ))
      · rw [if_neg h, if_neg n2]
    | false =>
      have n2 : ¬ (o ≤ p ∧ p < j ∧ j ≤ c ∧ c < o + n) := fun h => hin ⟨⟨h.1, by omega, h.2.2.2, fun h => by simp at h⟩, by omega, by omega⟩
      have n3 : ¬ (p = j ∧ j ≤ c ∧ c < o + n) ∨ ¬ o ≤ j := by
        by_contra hh; rw [not_or, not_not, not_not] at hh
        exact hin ⟨⟨by omega, by omega, by omega, fun h => by simp at h⟩, by omega, by omega⟩
      cases ua
      · simp only [if_false, Bool.false_eq_true]
        by_cases h : p = j ∧ j ≤ c ∧ c < o + n
        · rcases n3 with n3 | n3
          · exact absurd h n3
          · exact absurd HO n3
        · rw [if_neg h, if_neg n2]
      · simp only [if_true, Bool.false_eq_true, if_false]
        rw [if_neg n2]

/-- The invariant of the loop of `CRMultEqMM`: rows before `r` have the terms of the columns of `A` before `r`. -/
def CrInv (A : Src K) (ua ub : Bool) (o n : Nat) (X : Nat → Nat → K) (r : Nat) (Y : Nat → Nat → K) : Prop :=
  ∀ p c, Y p c = if St ub o n p c ∧ p < r then ∑ k ∈ Finset.Ico p (min r (c + 1)), el ua (A.rd X) p k * el ub X k c else X p c

theorem cr_step (A : Src K) (ua ub : Bool) (o n : Nat) (X : Nat → Nat → K) (hA : ∀ c, A ≠ .same c) (hU : ub = true → ua = true)
    (r : Nat) (Y : Nat → Nat → K) (h1 : o ≤ r) (h2 : r < o + n) (hY : CrInv A ua ub o n X r Y) :
    CrInv A ua ub o n X (r + 1) (crStep A ua ub o n r Y) := by
  have hr : ∀ p c, r ≤ p → Y p c = X p c := fun p c h => by rw [hY, if_neg (by omega)]
  intro p c
  rw [crStep_val A ua ub o n r Y hA hU h1 h2]
  by_cases hst : St ub o n p c
  swap
  · rw [if_neg fun h => hst h.1, if_neg fun h => hst h.1, hY, if_neg fun h => hst h.1]
  · by_cases hp : p < r
    · have hrd : A.rd Y p r = A.rd X p r := rd_congr_other hA (hr r p (le_refl _))
      by_cases hc : r ≤ c
      · rw [if_pos ⟨hst, by omega, hc⟩, if_pos hp, if_pos ⟨hst, by omega⟩, hY, if_pos ⟨hst, hp⟩, hrd, el_congr (hr r c (le_refl _)),
          show min r (c + 1) = r by omega, show min (r + 1) (c + 1) = r + 1 by omega, Finset.sum_Ico_succ_top (by omega),
          el_off ua _ (show p ≠ r by omega)]
      · rw [if_neg (by omega), if_pos ⟨hst, by omega⟩, hY, if_pos ⟨hst, hp⟩, show min r (c + 1) = c + 1 by omega,
          show min (r + 1) (c + 1) = c + 1 by omega]
    · by_cases hpr : p = r
      · subst hpr
        have hrd : A.rd Y p p = A.rd X p p := rd_congr_other hA (hr p p (le_refl _))
        have hpc : p ≤ c := hst.2.1
        rw [if_pos ⟨hst, le_refl _, hpc⟩, if_neg hp, if_pos ⟨hst, by omega⟩, show min (p + 1) (c + 1) = p + 1 by omega,
          Finset.sum_Ico_succ_top (le_refl _), Finset.Ico_self, Finset.sum_empty, zero_add, hr p c (le_refl _), el_congr hrd]
        have : el ub X p c = X p c := by
          cases ub
          · exact el_false _ _ _
          · exact el_off _ _ (by have := hst.2.2.2 rfl; omega)
        rw [this, mul_comm]
      · rw [if_neg (by omega), if_neg (by omega), hr p c (by omega)]

theorem crMul_val (A : Src K) (ua ub : Bool) (α : K) (o n : Nat) (X : Nat → Nat → K) (hA : ∀ c, A ≠ .same c)
    (hU : ub = true → ua = true ∧ α = 1) : MulEq A ua ub α o n X (crMul A ua ub α o n X) := by
  have fin : ∀ Y, CrInv A ua ub o n X (o + n) Y → ∀ p c, Y p c = if St ub o n p c then P (el ua (A.rd X)) (el ub X) p c else X p c := by
    intro Y hY p c
    rw [hY]
    by_cases h : St ub o n p c
    · have := h.2.1; have := h.2.2.1
      rw [if_pos ⟨h, by omega⟩, if_pos h, show min (o + n) (c + 1) = c + 1 by omega]; rfl
    · rw [if_neg h, if_neg fun h' => h h'.1]
  intro p c
  unfold crMul
  by_cases hu : ua = true ∧ ub = true
  · rw [if_pos hu]
    obtain ⟨rfl, rfl⟩ := hu
    obtain ⟨-, rfl⟩ := hU rfl
    by_cases hn : n = 0
    · subst hn
      rw [if_neg (by unfold St; omega)]; rfl
    · have := up_inv (fun j X => crStep A true true o n j X) (CrInv A true true o n X) (n - 1) (o + 1) X
        (by
          intro p c
          by_cases h : St true o n p c ∧ p < o + 1
          · have h1 := h.1.1; have h2 := h.1.2.1; have h3 := h.1.2.2.2 rfl
            have hp : p = o := by omega
            subst hp
            rw [if_pos h, show min (p + 1) (c + 1) = p + 1 by omega, Finset.sum_Ico_succ_top (le_refl _), Finset.Ico_self,
              Finset.sum_empty, zero_add, el_diag, one_mul, el_off _ _ (by omega)]
          · rw [if_neg h])
        (fun i s h1 h2 h3 => cr_step A true true o n X hA (fun _ => rfl) i s (by omega) (by omega) h3)
      rw [show o + 1 + (n - 1) = o + n by omega] at this
      rw [fin _ this, one_mul]
  · rw [if_neg hu]
    have hub : ub = false := by
      cases ub
      · rfl
      · exact absurd ⟨(hU rfl).1, rfl⟩ hu
    subst hub
    have := up_inv (fun j X => crStep A ua false o n j X) (CrInv A ua false o n X) n o X
      (by intro p c; rw [if_neg]; intro h; have := h.1.1; omega)
      (fun i s h1 h2 h3 => cr_step A ua false o n X hA (fun h => by simp at h) i s (by omega) (by omega) h3)
    unfold scaleT
    rw [fin _ this]
    by_cases h : St false o n p c
    · rw [if_pos h, if_pos h, if_pos h, mul_comm]
    · rw [if_neg h, if_neg h, if_neg h]

theorem cStep_val (A : Src K) (ua ub : Bool) (α : K) (o j : Nat) (Y : Nat → Nat → K) (hU : ub = true → ua = true ∧ α = 1) (p c : Nat) :
    cStep A ua ub α o j Y p c = if c = j ∧ o ≤ p ∧ p ≤ j ∧ (ub = true → p < j) then α * P (el ua (A.rd Y)) (el ub Y) p j else Y p c := by
  unfold cStep
  cases ub with
  | true =>
    obtain ⟨rfl, rfl⟩ := hU rfl
    simp only [if_true]
    by_cases h : o ≤ p ∧ p < j ∧ c = j
    · obtain ⟨h1, h2, rfl⟩ := h
      have hq : o ≤ p ∧ p < c ∧ True := ⟨h1, h2, trivial⟩
      have hq' : o ≤ p ∧ p < c ∧ c = c := ⟨h1, h2, rfl⟩
      have e : (if c = c ∧ o ≤ p ∧ p ≤ c ∧ (True → p < c) then 1 * P (el true (A.rd Y)) (el true Y) p c else Y p c) =
          P (el true (A.rd Y)) (el true Y) p c := by
        rw [if_pos ⟨rfl, h1, by omega, fun _ => h2⟩, one_mul]
      refine Eq.trans ?_ e.symm
      rw [P_last _ _ (by omega), el_diag, mul_one, if_pos hq']
      congr 1
      · rw [if_pos hq']
        refine Finset.sum_congr rfl fun k hk => ?_
        rw [Finset.mem_Ico] at hk
        rw [el_off true Y (by omega)]
      · rw [el_off true _ (by omega)]
        cases A <;> simp [Src.ss, Src.rd]
    · rw [if_neg h, if_neg h, if_neg fun h' => h ⟨h'.2.1, h'.2.2.2 trivial, h'.1⟩]
  | false =>
    simp only [if_false, Bool.false_eq_true]
    by_cases h : o ≤ p ∧ p ≤ j ∧ c = j
    · rw [if_pos h, if_pos ⟨h.2.2, h.1, h.2.1, fun h => h.elim⟩]
      rfl
    · rw [if_neg h, if_neg fun h' => h ⟨h'.2.1, h'.2.2.1, h'.1⟩]

/-- The invariant of the loops of `CMultEqMM`: the columns in `D` are done. -/
def CInv (A : Src K) (ua ub : Bool) (α : K) (o n : Nat) (X : Nat → Nat → K) (D : Nat → Prop) [DecidablePred D] (Y : Nat → Nat → K) : Prop :=
  ∀ p c, Y p c = if St ub o n p c ∧ D c then α * P (el ua (A.rd X)) (el ub X) p c else X p c

theorem c_step (A : Src K) (ua ub : Bool) (α : K) (o n : Nat) (X : Nat → Nat → K) (hU : ub = true → ua = true ∧ α = 1)
    (D D' : Nat → Prop) [DecidablePred D] [DecidablePred D'] (j : Nat) (Y : Nat → Nat → K) (h2 : j < o + n) (hY : CInv A ua ub α o n X D Y)
    (hj : ¬ D j) (hA : A.ss = false ∨ ∀ c, c ≤ j → ¬ D c) (hD : ∀ c, D' c ↔ D c ∨ c = j) :
    CInv A ua ub α o n X D' (cStep A ua ub α o j Y) := by
  intro p c
  rw [cStep_val A ua ub α o j Y hU]
  by_cases hc : c = j
  · subst hc
    by_cases h : o ≤ p ∧ p ≤ c ∧ (ub = true → p < c)
    · rw [if_pos ⟨rfl, h⟩, if_pos ⟨⟨h.1, h.2.1, h2, h.2.2⟩, (hD c).mpr (Or.inr rfl)⟩]
      congr 1
      refine P_congr (fun k h3 h4 => el_congr ?_) (fun k h3 h4 => el_congr ?_)
      · rcases hA with hA | hA
        · cases A with
          | apart A => rfl
          | same c => simp [Src.ss] at hA
          | other c => simp [Src.ss] at hA
        · refine rd_congr A ?_ ?_
          · rw [hY, if_neg fun h => hA k h4 h.2]
          · rw [hY, if_neg fun h => hA p (by omega) h.2]
      · rw [hY, if_neg fun h => hj h.2]
    · rw [if_neg fun h' => h h'.2, if_neg fun h' => h ⟨h'.1.1, h'.1.2.1, h'.1.2.2.2⟩, hY, if_neg fun h' => hj h'.2]
  · rw [if_neg fun h => hc h.1, hY]
    by_cases h : St ub o n p c ∧ D c
    · rw [if_pos h, if_pos ⟨h.1, (hD c).mpr (Or.inl h.2)⟩]
    · rw [if_neg h, if_neg fun h' => h ⟨h'.1, ((hD c).mp h'.2).resolve_right hc⟩]

theorem cMul_val (A : Src K) (ua ub : Bool) (α : K) (o n : Nat) (X : Nat → Nat → K)
    (hU : ub = true → ua = true ∧ α = 1) : MulEq A ua ub α o n X (cMul A ua ub α o n X) := by
  intro p c
  unfold cMul
  cases ub with
  | true =>
    simp only [if_true]
    have := down_inv (fun r X => cStep A ua true α o (o + 1 + r) X) (fun r Y => CInv A ua true α o n X (fun c => o + 1 + r ≤ c) Y) (n - 1) X
      (by intro p c; rw [if_neg]; intro h; have := h.1.1; have := h.1.2.2.1; have := h.2; have := h.1.2.1; omega)
      (fun i s h1 h3 => c_step A ua true α o n X hU _ _ (o + 1 + i) s (by omega) h3 (by omega) (Or.inr fun c h => by omega)
        (fun c => by constructor <;> intro h <;> omega))
    rw [this]
    by_cases h : St true o n p c
    · have h3 := h.2.2.2 rfl; have h4 := h.1
      rw [if_pos h, if_pos ⟨h, by omega⟩]
    · rw [if_neg h, if_neg fun h' => h h'.1]
  | false =>
    simp only [if_false, Bool.false_eq_true]
    by_cases hs : A.ss = true
    · rw [if_pos hs]
      have := down_inv (fun r X => cStep A ua false α o (o + r) X) (fun r Y => CInv A ua false α o n X (fun c => o + r ≤ c) Y) n X
        (by intro p c; rw [if_neg]; intro h; have := h.1.2.2.1; have := h.2; omega)
        (fun i s h1 h3 => c_step A ua false α o n X hU _ _ (o + i) s (by omega) h3 (by omega) (Or.inr fun c h => by omega)
          (fun c => by constructor <;> intro h <;> omega))
      rw [this]
      by_cases h : St false o n p c
      · have h3 := h.1; have h4 := h.2.1
        rw [if_pos h, if_pos ⟨h, by omega⟩]
      · rw [if_neg h, if_neg fun h' => h h'.1]
    · rw [if_neg hs]
      have := up_inv (fun j X => cStep A ua false α o j X) (fun r Y => CInv A ua false α o n X (fun c => c < r) Y) n o X
        (by intro p c; rw [if_neg]; intro h; have := h.1.1; have := h.1.2.1; have := h.2; omega)
        (fun i s h1 h2 h3 => c_step A ua false α o n X hU _ _ i s (by omega) h3 (by omega) (Or.inl (by simpa using hs))
          (fun c => by constructor <;> intro h <;> omega))
      rw [this]
      by_cases h : St false o n p c
      · have h3 := h.2.2.1
        rw [if_pos h, if_pos ⟨h, by omega⟩]
      · rw [if_neg h, if_neg fun h' => h h'.1]

/-- The layouts of an operand in the array of the destination. -/
def Src.Compat (A : Src K) (oa ob : Ord) : Prop := match A with
  | .apart _ => True
  | .same _ => oa = ob
  | .other _ => oa = flip ob

theorem leafU_val (oa ob : Ord) (A : Src K) (ua ub : Bool) (α : K) (o n : Nat) (X : Nat → Nat → K)
    (hU : ub = true → ua = true ∧ α = 1) (hC : A.Compat oa ob) : MulEq A ua ub α o n X (leafU oa ob A ua ub α o n X) := by
  unfold leafU
  by_cases h1 : oa = .rm ∧ ob = .rm
  · rw [if_pos h1]
    refine rrMul_val A ua ub α o n X ?_ hU
    rintro c rfl
    rw [h1.1, h1.2] at hC
    simp [Src.Compat, flip] at hC
  · rw [if_neg h1]
    by_cases h2 : oa = .cm ∧ ob = .rm
    · rw [if_pos h2]
      refine crMul_val A ua ub α o n X ?_ hU
      rintro c rfl
      rw [h2.1, h2.2] at hC
      simp [Src.Compat] at hC
    · rw [if_neg h2]
      by_cases h3 : ob = .cm
      · rw [if_pos h3]; exact cMul_val A ua ub α o n X hU
      · rw [if_neg h3]
        intro p c
        dsimp only
        by_cases h : St ub o n p c
        · rw [if_pos h, if_pos h, cMul_val (.apart (A.rd X)) ua ub α o n X hU, if_pos h]; rfl
        · rw [if_neg h, if_neg h]

theorem blkU_val (A : Src K) (ua ub : Bool) (α : K) (o n k : Nat) (X : Nat → Nat → K) (p c : Nat) :
    blkU A ua ub α o n k X p c = if o ≤ p ∧ p < o + k ∧ o + k ≤ c ∧ c < o + n then α * P (el ua (A.rd X)) (el ub X) p c else X p c := by
  unfold blkU
  by_cases hb : o ≤ p ∧ p < o + k ∧ o + k ≤ c ∧ c < o + n
  swap
  · rw [if_neg hb]
    by_cases hs : A.tri = true
    · rw [if_pos hs, if_neg hb]
    · rw [if_neg hs]; dsimp only; rw [if_neg hb, if_neg hb]
  · rw [if_pos hb]
    have s1 : ∑ l ∈ Finset.Ico p (o + k), el ua (A.rd X) p l * X l c = ∑ l ∈ Finset.Ico p (o + k), el ua (A.rd X) p l * el ub X l c := by
      refine Finset.sum_congr rfl fun l hl => ?_
      rw [Finset.mem_Ico] at hl
      rw [el_off ub X (by omega)]
    have s2 : ∑ l ∈ Finset.Ico (o + k) (c + 1), A.rd X p l * el ub X l c =
        ∑ l ∈ Finset.Ico (o + k) (c + 1), el ua (A.rd X) p l * el ub X l c := by
      refine Finset.sum_congr rfl fun l hl => ?_
      rw [Finset.mem_Ico] at hl
      rw [el_off ua _ (by omega)]
    by_cases hs : A.tri = true
    · rw [if_pos hs, if_pos hb, s1, s2, P_split _ _ (show p ≤ o + k by omega) (by omega), mul_add]
    · rw [if_neg hs]
      dsimp only
      rw [if_pos hb, if_pos hb, s1, P_split _ _ (show p ≤ o + k by omega) (by omega), mul_add, ← s2]
      congr 2
      refine Finset.sum_congr rfl fun l hl => ?_
      rw [Finset.mem_Ico] at hl
      congr 1
      · refine rd_congr_other ?_ (if_neg (by omega))
        rintro c rfl
        exact hs rfl
      · exact el_congr (if_neg (by omega))

theorem splitU_bd {nb : Nat} (hnb : 0 < nb) (sto : Bool) {n : Nat} (hn : 1 < n) : 0 < splitU nb sto n ∧ splitU nb sto n < n := by
  unfold splitU
  split_ifs with h1 h2
  · omega
  · have h3 : 0 < n / 2 / nb := Nat.div_pos (by omega) hnb
    have := Nat.div_mul_le_self (n / 2) nb
    have := Nat.mul_pos h3 hnb
    omega
  · omega

theorem eqU_val (nb nb2 : Nat) (hnb : 0 < nb) (hnb2 : 0 < nb2) (oa ob : Ord) (A : Src K) (ua ub : Bool) (α : K)
    (hU : ub = true → ua = true ∧ α = 1) (hC : A.Compat oa ob) : ∀ (fuel o n : Nat) (X : Nat → Nat → K), n < fuel →
      MulEq A ua ub α o n X (eqU nb nb2 oa ob A ua ub α fuel o n X) := by
  intro fuel
  induction fuel with
  | zero => intro o n X h; omega
  | succ fuel ih =>
    intro o n X hf
    rw [eqU]
    by_cases hn : n ≤ nb2
    · rw [if_pos hn]; exact leafU_val oa ob A ua ub α o n X hU hC
    · rw [if_neg hn]
      dsimp only
      have hk0 := splitU_bd hnb A.tri (show 1 < n by omega)
      generalize splitU nb A.tri n = k at hk0 ⊢
      have hv := blkU_val A ua ub α o n k X
      generalize blkU A ua ub α o n k X = X1 at hv ⊢
      have e1 := ih o k X1 (by omega)
      have e2 := ih (o + k) (n - k) (eqU nb nb2 oa ob A ua ub α fuel o k X1) (by omega)
      intro p c
      refine (e2 p c).trans ?_
      have h0 : ∀ p c, eqU nb nb2 oa ob A ua ub α fuel o k X1 p c = if St ub o k p c then α * P (el ua (A.rd X)) (el ub X) p c else X1 p c := by
        intro p c
        rw [e1 p c]
        by_cases h : St ub o k p c
        · rw [if_pos h, if_pos h]
          have h3 := h.1; have h4 := h.2.1; have h5 := h.2.2.1
          congr 1
          refine P_congr (fun l h3 h4 => el_congr (rd_congr A ?_ ?_)) (fun l h3 h4 => el_congr ?_)
          · rw [hv, if_neg (by omega)]
          · rw [hv, if_neg (by omega)]
          · rw [hv, if_neg (by omega)]
        · rw [if_neg h, if_neg h]
      have h1 : ∀ p c, ¬ (o ≤ p ∧ p ≤ c ∧ c < o + k) → ¬ (o ≤ p ∧ p < o + k ∧ o + k ≤ c ∧ c < o + n) →
          eqU nb nb2 oa ob A ua ub α fuel o k X1 p c = X p c := by
        intro p c h h'
        rw [h0, if_neg fun h'' => h ⟨h''.1, h''.2.1, h''.2.2.1⟩, hv, if_neg h']
      by_cases c1 : St ub (o + k) (n - k) p c
      · have h3 := c1.1; have h4 := c1.2.1; have h5 := c1.2.2.1
        rw [if_pos c1, if_pos ⟨by omega, h4, by omega, c1.2.2.2⟩]
        congr 1
        exact P_congr (fun l h3 h4 => el_congr (rd_congr A (h1 _ _ (by omega) (by omega)) (h1 _ _ (by omega) (by omega))))
          (fun l h3 h4 => el_congr (h1 _ _ (by omega) (by omega)))
      · rw [if_neg c1, h0]
        by_cases c2 : St ub o k p c
        · have h3 := c2.1; have h4 := c2.2.1; have h5 := c2.2.2.1
          rw [if_pos c2, if_pos ⟨h3, h4, by omega, c2.2.2.2⟩]
        · rw [if_neg c2, hv]
          by_cases c3 : o ≤ p ∧ p < o + k ∧ o + k ≤ c ∧ c < o + n
          · rw [if_pos c3, if_pos ⟨c3.1, by omega, c3.2.2.2, fun _ => by omega⟩]
          · rw [if_neg c3, if_neg]
            rintro ⟨h3, h4, h5, h6⟩
            by_cases h7 : c < o + k
            · exact c2 ⟨h3, h4, h7, h6⟩
            · by_cases h8 : o + k ≤ p
              · exact c1 ⟨h8, h4, by omega, h6⟩
              · exact c3 ⟨h3, by omega, by omega, h5⟩

end TMV.TriUU
