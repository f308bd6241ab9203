import Verif.Props.TriUU

/-! Products of triangular matrices: `B = alpha*A*B`, lower, `A` apart from `B`. -/
namespace TMV.TriUU
open TMV.Tri
variable {K : Type _} [Field K] [StarRing K] [DecidableEq K]

/-- An element of the product of two lower triangular matrices. -/
def PL (a b : Nat → Nat → K) (i j : Nat) : K := ∑ k ∈ Finset.Ico j (i + 1), a i k * b k j

omit [StarRing K] [DecidableEq K] in
theorem PL_last (a b : Nat → Nat → K) {i j : Nat} (h : j ≤ i) : PL a b i j = ∑ k ∈ Finset.Ico j i, a i k * b k j + a i i * b i j :=
  Finset.sum_Ico_succ_top h _

omit [StarRing K] [DecidableEq K] in
theorem PL_first (a b : Nat → Nat → K) {i j : Nat} (h : j ≤ i) : PL a b i j = a i j * b j j + ∑ k ∈ Finset.Ico (j + 1) (i + 1), a i k * b k j :=
  Finset.sum_eq_sum_Ico_succ_bot (by omega) _

omit [StarRing K] [DecidableEq K] in
theorem PL_split (a b : Nat → Nat → K) {i m j : Nat} (h : j ≤ m) (h' : m ≤ i + 1) :
    PL a b i j = ∑ k ∈ Finset.Ico j m, a i k * b k j + ∑ k ∈ Finset.Ico m (i + 1), a i k * b k j :=
  (Finset.sum_Ico_consecutive _ h h').symm

omit [StarRing K] [DecidableEq K] in
theorem PL_congr {a b b' : Nat → Nat → K} {i j : Nat} (h' : ∀ k, j ≤ k → k ≤ i → b k j = b' k j) :
    PL a b i j = PL a b' i j := by
  refine Finset.sum_congr rfl fun k hk => ?_
  rw [Finset.mem_Ico] at hk
  rw [h' k hk.1 (by omega)]

/-- What `B = alpha*A*B` is to make of the array. -/
def MulEqL (A : Nat → Nat → K) (ua ub : Bool) (α : K) (o n : Nat) (X X' : Nat → Nat → K) : Prop :=
  ∀ p c, X' p c = if StL ub o n p c then α * PL (el ua A) (el ub X) p c else X p c

omit [StarRing K] in
theorem rrStepL_off (A : Nat → Nat → K) (ua ub : Bool) (α : K) (o i : Nat) (Y : Nat → Nat → K) {p c : Nat} (h : ¬ (p = i ∧ o ≤ c ∧ c ≤ i))
    (ho : o ≤ i) : rrStepL A ua ub α o i Y p c = Y p c := by
  unfold rrStepL
  have n1 : ¬ (p = i ∧ o ≤ c ∧ c < i) := by omega
  have n2 : ¬ (p = i ∧ c = i) := by omega
  cases ua
  · simp only [Bool.false_eq_true, if_false]; rw [if_neg n2, if_neg n1]
  · simp only [if_true]; rw [if_neg n1, if_neg n1]

omit [StarRing K] in
theorem rrStepL_lt (A : Nat → Nat → K) (ua ub : Bool) (α : K) (o i : Nat) (Y : Nat → Nat → K) {c : Nat} (h1 : o ≤ c) (h2 : c < i)
    (hU : ub = true → ua = true ∧ α = 1) :
    rrStepL A ua ub α o i Y i c = α * PL (el ua A) (el ub Y) i c := by
  unfold rrStepL
  have y1 : True ∧ o ≤ c ∧ c < i := ⟨trivial, h1, h2⟩
  have n2 : ¬ (True ∧ c = i) := by omega
  have hs : ∑ k ∈ Finset.Ico c i, el ua A i k * el ub Y k c = ∑ k ∈ Finset.Ico c i, A i k * el ub Y k c := by
    refine Finset.sum_congr rfl fun k hk => ?_
    rw [Finset.mem_Ico] at hk
    rw [el_off ua A (by omega)]
  rw [PL_last _ _ (by omega), hs, el_off ub Y (show i ≠ c by omega)]
  cases ua
  · have hub : ub = false := by
      cases ub
      · rfl
      · exact absurd (hU rfl).1 (by simp)
    subst hub
    simp only [Bool.false_eq_true, if_false]
    rw [if_neg n2, if_pos y1, el_false]
    simp only [el_false]
    by_cases h : α = 1
    · simp [h]; ring
    · rw [if_pos h]; ring
  · simp only [if_true]
    rw [if_pos y1, if_pos y1, el_diag]; ring

omit [StarRing K] in
theorem rrStepL_diag (A : Nat → Nat → K) (ua ub : Bool) (α : K) (o i : Nat) (Y : Nat → Nat → K) :
    rrStepL A ua ub α o i Y i i = if ua = true then Y i i else α * (A i i * Y i i) := by
  unfold rrStepL
  have n1 : ¬ (True ∧ o ≤ i ∧ i < i) := by omega
  cases ua
  · simp only [Bool.false_eq_true, if_false]
    rw [if_pos ⟨trivial, trivial⟩, if_neg n1]
    by_cases h : α = 1
    · simp [h]; ring
    · rw [if_pos h]; ring
  · simp only [if_true]; rw [if_neg n1, if_neg n1]

omit [StarRing K] in
theorem rrMulL_val (A : Nat → Nat → K) (ua ub : Bool) (α : K) (o n : Nat) (X : Nat → Nat → K)
    (hU : ub = true → ua = true ∧ α = 1) : MulEqL A ua ub α o n X (rrMulL A ua ub α o n X) := by
  have := down_inv (fun r X => rrStepL A ua ub α o (o + r) X)
    (fun r Y => ∀ p c, Y p c = if StL ub o n p c ∧ o + r ≤ p ∧ ¬ (ua = true ∧ p = c) then α * PL (el ua A) (el ub X) p c else X p c) n X
    (by intro p c; rw [if_neg]; unfold StL St; omega) (by
      intro r Y h1 hY
      have hr : ∀ p c, p < o + r + 1 → Y p c = X p c := fun p c h => by rw [hY, if_neg (by omega)]
      intro p c
      by_cases hpr : p = o + r ∧ o ≤ c ∧ c ≤ o + r
      swap
      · rw [rrStepL_off A ua ub α o (o + r) Y hpr (by omega), hY]
        by_cases h : StL ub o n p c ∧ o + (r + 1) ≤ p ∧ ¬ (ua = true ∧ p = c)
        · rw [if_pos h, if_pos ⟨h.1, by omega, h.2.2⟩]
        · rw [if_neg h, if_neg]
          rintro ⟨h2, h3, h4⟩
          refine h ⟨h2, ?_, h4⟩
          have := h2.1; have := h2.2.1
          by_contra h5
          exact hpr ⟨by omega, by omega, by omega⟩
      · obtain ⟨hp, hc1, hc2⟩ := hpr
        subst hp
        by_cases hc : c = o + r
        · subst hc
          rw [rrStepL_diag, hr _ _ (by omega)]
          cases ua
          · have hub : ub = false := by
              cases ub
              · rfl
              · exact absurd (hU rfl).1 (by simp)
            subst hub
            simp only [Bool.false_eq_true, if_false]
            rw [if_pos ⟨⟨by omega, le_refl _, by omega, fun h => by simp at h⟩, le_refl _, fun h => by simp at h⟩, PL_last _ _ (le_refl _),
              Finset.Ico_self, Finset.sum_empty, zero_add, el_false, el_false]
          · simp
        · rw [rrStepL_lt A ua ub α o (o + r) Y hc1 (by omega) hU, if_pos ⟨⟨hc1, hc2, by omega, fun _ => by omega⟩, le_refl _, by omega⟩]
          congr 1
          refine PL_congr fun k h2 h3 => el_congr (hr _ _ (by omega)))
  intro p c
  unfold rrMulL
  by_cases hu : ua = true ∧ ¬ ub = true
  · rw [if_pos hu]
    obtain ⟨rfl, hub⟩ := hu
    have hub : ub = false := by simpa using hub
    subst hub
    by_cases hd : p = c ∧ o ≤ p ∧ p < o + n
    · rw [if_pos hd]
      obtain ⟨rfl, h1, h2⟩ := hd
      rw [this, if_neg (by simp), if_pos ⟨h1, le_refl _, h2, fun h => by simp at h⟩, PL_last _ _ (le_refl _), Finset.Ico_self,
        Finset.sum_empty, zero_add, el_diag, el_false]; ring
    · rw [if_neg hd, this]
      by_cases h : StL false o n p c
      · have h1 := h.1; have h2 := h.2.1; have h3 := h.2.2.1
        rw [if_pos h, if_pos ⟨h, by omega, by omega⟩]
      · rw [if_neg h, if_neg fun h' => h h'.1]
  · rw [if_neg hu, this]
    by_cases h : StL ub o n p c
    · have h1 := h.1; have h2 := h.2.1; have h3 := h.2.2.1
      have hx : ¬ (ua = true ∧ p = c) := by
        rintro ⟨h4, h5⟩
        refine hu ⟨h4, fun h6 => ?_⟩
        have := h.2.2.2 h6; omega
      rw [if_pos h, if_pos ⟨h, by omega, hx⟩]
    · rw [if_neg h, if_neg fun h' => h h'.1]

omit [StarRing K] [DecidableEq K] in
theorem crStepL_val (A : Nat → Nat → K) (ua ub : Bool) (o n j : Nat) (Y : Nat → Nat → K) (hU : ub = true → ua = true)
    (HO : o ≤ j) (HJ : j < o + n) (p c : Nat) :
    crStepL A ua ub o n j Y p c = if StL ub o n p c ∧ j ≤ p ∧ c ≤ j then
      (if j < p then Y p c + A p j * el ub Y j c else Y p c * el ua A j j) else Y p c := by
  unfold crStepL
  by_cases hin : StL ub o n p c ∧ j ≤ p ∧ c ≤ j
  · rw [if_pos hin]
    obtain ⟨⟨i1, i2, i3, i4⟩, i5, i6⟩ := hin
    by_cases hp : j < p
    · rw [if_pos hp]
      have hne : ¬ p = j := by omega
      by_cases hc : c = j
      · subst hc
        cases ub with
        | true =>
          have := hU rfl; subst this
          simp [hp, i3, el_diag]
        | false => cases ua <;> simp [hp, i3, i1, el_false, hne]
      · have hjc : c < j := by omega
        rw [el_off ub Y (by omega)]
        cases ub with
        | true =>
          have := hU rfl; subst this
          simp [hp, i3, i1, hjc, hc]
        | false => cases ua <;> simp [hp, i3, i1, i6, hne]
    · rw [if_neg hp]
      have hpj : p = j := by omega
      subst hpj
      cases ua with
      | true => rw [el_diag]; cases ub <;> simp
      | false =>
        rw [el_false]
        cases ub with
        | true => exact absurd (hU rfl) (by simp)
        | false => simp [i1, i6]
  · rw [if_neg hin]
    cases ub with
    | true =>
      have := hU rfl; subst this
      simp only [if_true]
      rw [if_neg, if_neg]
      · exact fun h => hin ⟨⟨h.2.2.1, by omega, by omega, fun _ => by omega⟩, by omega, by omega⟩
      · exact fun h => hin ⟨⟨by omega, by omega, by omega, fun _ => by omega⟩, by omega, by omega⟩
    | false =>
      have n2 : ¬ (j < p ∧ p < o + n ∧ o ≤ c ∧ c ≤ j) := fun h => hin ⟨⟨h.2.2.1, by omega, by omega, fun h => by simp at h⟩, by omega, by omega⟩
      have n3 : ¬ (p = j ∧ o ≤ c ∧ c ≤ j) := fun h => hin ⟨⟨h.2.1, by omega, by omega, fun h => by simp at h⟩, by omega, by omega⟩
      cases ua
      · simp only [Bool.false_eq_true, if_false]; rw [if_neg n3, if_neg n2]
      · simp only [Bool.false_eq_true, if_false, if_true]; rw [if_neg n2]

omit [StarRing K] [DecidableEq K] in
theorem crMulL_val (A : Nat → Nat → K) (ua ub : Bool) (α : K) (o n : Nat) (X : Nat → Nat → K)
    (hU : ub = true → ua = true ∧ α = 1) : MulEqL A ua ub α o n X (crMulL A ua ub α o n X) := by
  have := down_inv (fun r X => crStepL A ua ub o n (o + r) X)
    (fun r Y => ∀ p c, Y p c = if StL ub o n p c ∧ o + r ≤ p then
      ∑ k ∈ Finset.Ico (max (o + r) c) (p + 1), el ua A p k * el ub X k c else X p c) n X
    (by intro p c; rw [if_neg]; unfold StL St; omega) (by
      intro r Y h1 hY
      have hr : ∀ p c, p < o + r + 1 → Y p c = X p c := fun p c h => by rw [hY, if_neg (by omega)]
      intro p c
      rw [crStepL_val A ua ub o n (o + r) Y (fun h => (hU h).1) (by omega) (by omega)]
      by_cases hst : StL ub o n p c
      swap
      · rw [if_neg fun h => hst h.1, if_neg fun h => hst h.1, hY, if_neg fun h => hst h.1]
      · have q1 := hst.1; have q2 := hst.2.1; have q3 := hst.2.2.1
        by_cases hp : o + r < p
        · by_cases hc : c ≤ o + r
          · rw [if_pos ⟨hst, by omega, hc⟩, if_pos hp, if_pos ⟨hst, by omega⟩, hY, if_pos ⟨hst, by omega⟩, el_congr (hr (o + r) c (by omega)),
              show max (o + (r + 1)) c = o + r + 1 by omega, show max (o + r) c = o + r by omega,
              Finset.sum_eq_sum_Ico_succ_bot (show o + r < p + 1 by omega), el_off ua _ (show p ≠ o + r by omega), add_comm]
          · rw [if_neg (by omega), if_pos ⟨hst, by omega⟩, hY, if_pos ⟨hst, by omega⟩, show max (o + (r + 1)) c = c by omega,
              show max (o + r) c = c by omega]
        · by_cases hpr : p = o + r
          · subst hpr
            rw [if_pos ⟨hst, le_refl _, by omega⟩, if_neg hp, if_pos ⟨hst, le_refl _⟩, show max (o + r) c = o + r by omega,
              Finset.sum_Ico_succ_top (le_refl _), Finset.Ico_self, Finset.sum_empty, zero_add, hr _ _ (by omega)]
            have : el ub X (o + r) c = X (o + r) c := by
              cases ub
              · exact el_false _ _ _
              · exact el_off _ _ (by have := hst.2.2.2 rfl; omega)
            rw [this, mul_comm]
          · rw [if_neg (by omega), if_neg (by omega), hr p c (by omega)])
  intro p c
  unfold crMulL
  have fin : ∀ p c, down (fun r X => crStepL A ua ub o n (o + r) X) n X p c = if StL ub o n p c then PL (el ua A) (el ub X) p c else X p c := by
    intro p c
    rw [this]
    by_cases h : StL ub o n p c
    · have h1 := h.1; have h2 := h.2.1; have h3 := h.2.2.1
      rw [if_pos h, if_pos ⟨h, by omega⟩, show max (o + 0) c = c by omega]; rfl
    · rw [if_neg h, if_neg fun h' => h h'.1]
  by_cases hu : ua = true ∧ ub = true
  · rw [if_pos hu, fin]
    rw [(hU hu.2).2, one_mul]
  · rw [if_neg hu, fin]
    have hub : ub = false := by
      cases ub
      · rfl
      · exact absurd ⟨(hU rfl).1, rfl⟩ hu
    subst hub
    have hs : (o ≤ c ∧ c ≤ p ∧ p < o + n) ↔ StL false o n p c := by unfold StL St; simp
    by_cases h : StL false o n p c
    · rw [if_pos (hs.mpr h), if_pos h, if_pos h, mul_comm]
    · rw [if_neg fun h' => h (hs.mp h'), if_neg h, if_neg h]

omit [StarRing K] [DecidableEq K] in
theorem cStepL_val (A : Nat → Nat → K) (ua ub : Bool) (α : K) (o n j : Nat) (Y : Nat → Nat → K) (hU : ub = true → ua = true ∧ α = 1)
    (p c : Nat) : cStepL A ua ub α o n j Y p c = if c = j ∧ j ≤ p ∧ p < o + n ∧ (ub = true → j < p) then
      α * PL (el ua A) (el ub Y) p j else Y p c := by
  unfold cStepL
  cases ub with
  | true =>
    obtain ⟨rfl, rfl⟩ := hU rfl
    simp only [if_true]
    by_cases h : j < p ∧ p < o + n ∧ c = j
    · obtain ⟨h1, h2, rfl⟩ := h
      have hq' : c < p ∧ p < o + n ∧ c = c := ⟨h1, h2, rfl⟩
      have e : (if c = c ∧ c ≤ p ∧ p < o + n ∧ (True → c < p) then 1 * PL (el true A) (el true Y) p c else Y p c) =
          PL (el true A) (el true Y) p c := by
        rw [if_pos ⟨rfl, by omega, h2, fun _ => h1⟩, one_mul]
      refine Eq.trans ?_ e.symm
      rw [PL_first _ _ (by omega), el_diag, mul_one, if_pos hq', add_comm]
      congr 1
      · rw [el_off true _ (by omega)]
      · rw [if_pos hq']
        refine Finset.sum_congr rfl fun k hk => ?_
        rw [Finset.mem_Ico] at hk
        rw [el_off true Y (by omega)]
    · rw [if_neg h, if_neg h, if_neg fun h' => h ⟨h'.2.2.2 trivial, h'.2.2.1, h'.1⟩]
  | false =>
    simp only [if_false, Bool.false_eq_true]
    by_cases h : j ≤ p ∧ p < o + n ∧ c = j
    · rw [if_pos h, if_pos ⟨h.2.2, h.1, h.2.1, fun h => h.elim⟩]
      rfl
    · rw [if_neg h, if_neg fun h' => h ⟨h'.2.1, h'.2.2.1, h'.1⟩]

omit [StarRing K] [DecidableEq K] in
theorem cMulL_val (A : Nat → Nat → K) (ua ub : Bool) (α : K) (o n : Nat) (X : Nat → Nat → K)
    (hU : ub = true → ua = true ∧ α = 1) : MulEqL A ua ub α o n X (cMulL A ua ub α o n X) := by
  have := up_inv (fun j X => cStepL A ua ub α o n j X)
    (fun r Y => ∀ p c, Y p c = if StL ub o n p c ∧ c < r then α * PL (el ua A) (el ub X) p c else X p c) (if ub then n - 1 else n) o X
    (by intro p c; rw [if_neg]; unfold StL St; omega) (by
      intro r Y h1 h2 hY
      intro p c
      rw [cStepL_val A ua ub α o n r Y hU]
      by_cases hc : c = r
      · subst hc
        have hr : ∀ k, Y k c = X k c := fun k => by rw [hY, if_neg (by omega)]
        by_cases h : c ≤ p ∧ p < o + n ∧ (ub = true → c < p)
        · rw [if_pos ⟨rfl, h⟩, if_pos ⟨⟨h1, h.1, h.2.1, h.2.2⟩, by omega⟩]
          congr 1
          exact PL_congr fun k _ _ => el_congr (hr k)
        · rw [if_neg fun h' => h h'.2, if_neg fun h' => h ⟨h'.1.2.1, h'.1.2.2.1, h'.1.2.2.2⟩, hr]
      · rw [if_neg fun h => hc h.1, hY]
        by_cases h : StL ub o n p c ∧ c < r
        · rw [if_pos h, if_pos ⟨h.1, by omega⟩]
        · rw [if_neg h, if_neg fun h' => h ⟨h'.1, by omega⟩])
  intro p c
  refine (this p c).trans ?_
  by_cases h : StL ub o n p c
  · have h1 := h.1; have h2 := h.2.1; have h3 := h.2.2.1; have h4 := h.2.2.2
    have hc : c < o + (if ub = true then n - 1 else n) := by
      cases ub
      · simp; omega
      · have := h4 rfl; simp; omega
    rw [if_pos h, if_pos ⟨h, hc⟩]
  · rw [if_neg h, if_neg fun h' => h h'.1]

omit [StarRing K] in
theorem leafL_val (oa ob : Ord) (A : Nat → Nat → K) (ua ub : Bool) (α : K) (o n : Nat) (X : Nat → Nat → K)
    (hU : ub = true → ua = true ∧ α = 1) : MulEqL A ua ub α o n X (leafL oa ob A ua ub α o n X) := by
  unfold leafL
  split_ifs with h1 h2 h3
  · exact rrMulL_val A ua ub α o n X hU
  · exact crMulL_val A ua ub α o n X hU
  · exact cMulL_val A ua ub α o n X hU
  · intro p c
    dsimp only
    by_cases h : StL ub o n p c
    · rw [if_pos h, if_pos h, cMulL_val A ua ub α o n X hU, if_pos h]
    · rw [if_neg h, if_neg h]

omit [StarRing K] [DecidableEq K] in
theorem blkL_val (A : Nat → Nat → K) (ua ub : Bool) (α : K) (o n k : Nat) (X : Nat → Nat → K) (p c : Nat) :
    blkL A ua ub α o n k X p c = if o + k ≤ p ∧ p < o + n ∧ o ≤ c ∧ c < o + k then α * PL (el ua A) (el ub X) p c else X p c := by
  unfold blkL
  dsimp only
  by_cases hb : o + k ≤ p ∧ p < o + n ∧ o ≤ c ∧ c < o + k
  swap
  · rw [if_neg hb, if_neg hb, if_neg hb]
  · rw [if_pos hb, if_pos hb, if_pos hb, PL_split _ _ (show c ≤ o + k by omega) (by omega), mul_add, add_comm]
    congr 2
    · refine Finset.sum_congr rfl fun l hl => ?_
      rw [Finset.mem_Ico] at hl
      rw [el_off ua A (by omega)]
      congr 1
      exact el_congr (if_neg (by omega))
    · refine Finset.sum_congr rfl fun l hl => ?_
      rw [Finset.mem_Ico] at hl
      rw [el_off ub X (by omega)]

omit [StarRing K] in
theorem eqL_val (nb nb2 : Nat) (hnb : 0 < nb) (hnb2 : 0 < nb2) (oa ob : Ord) (A : Nat → Nat → K) (ua ub : Bool) (α : K)
    (hU : ub = true → ua = true ∧ α = 1) : ∀ (fuel o n : Nat) (X : Nat → Nat → K), n < fuel →
      MulEqL A ua ub α o n X (eqL nb nb2 oa ob A ua ub α fuel o n X) := by
  intro fuel
  induction fuel with
  | zero => intro o n X h; omega
  | succ fuel ih =>
    intro o n X hf
    rw [eqL]
    by_cases hn : n ≤ nb2
    · rw [if_pos hn]; exact leafL_val oa ob A ua ub α o n X hU
    · rw [if_neg hn]
      dsimp only
      have hk0 := splitU_bd hnb false (show 1 < n by omega)
      generalize splitU nb false n = k at hk0 ⊢
      have hv := blkL_val A ua ub α o n k X
      generalize blkL A ua ub α o n k X = X1 at hv ⊢
      have e1 := ih o k X1 (by omega)
      have e2 := ih (o + k) (n - k) (eqL nb nb2 oa ob A ua ub α fuel o k X1) (by omega)
      intro p c
      refine (e2 p c).trans ?_
      have h0 : ∀ p c, eqL nb nb2 oa ob A ua ub α fuel o k X1 p c = if StL ub o k p c then α * PL (el ua A) (el ub X) p c else X1 p c := by
        intro p c
        rw [e1 p c]
        by_cases h : StL ub o k p c
        · rw [if_pos h, if_pos h]
          have h3 := h.1; have h4 := h.2.1; have h5 := h.2.2.1
          congr 1
          refine PL_congr fun l h3 h4 => el_congr ?_
          rw [hv, if_neg (by omega)]
        · rw [if_neg h, if_neg h]
      have h1 : ∀ p c, ¬ (o ≤ c ∧ c ≤ p ∧ p < o + k) → ¬ (o + k ≤ p ∧ p < o + n ∧ o ≤ c ∧ c < o + k) →
          eqL nb nb2 oa ob A ua ub α fuel o k X1 p c = X p c := by
        intro p c h h'
        rw [h0, if_neg fun h'' => h ⟨h''.1, h''.2.1, h''.2.2.1⟩, hv, if_neg h']
      by_cases c1 : StL ub (o + k) (n - k) p c
      · have h3 := c1.1; have h4 := c1.2.1; have h5 := c1.2.2.1
        rw [if_pos c1, if_pos ⟨by omega, h4, by omega, c1.2.2.2⟩]
        congr 1
        exact PL_congr fun l h3 h4 => el_congr (h1 _ _ (by omega) (by omega))
      · rw [if_neg c1, h0]
        by_cases c2 : StL ub o k p c
        · have h3 := c2.1; have h4 := c2.2.1; have h5 := c2.2.2.1
          rw [if_pos c2, if_pos ⟨h3, h4, by omega, c2.2.2.2⟩]
        · rw [if_neg c2, hv]
          by_cases c3 : o + k ≤ p ∧ p < o + n ∧ o ≤ c ∧ c < o + k
          · rw [if_pos c3, if_pos ⟨c3.2.2.1, by omega, c3.2.1, fun _ => by omega⟩]
          · rw [if_neg c3, if_neg]
            rintro ⟨h3, h4, h5, h6⟩
            by_cases h7 : p < o + k
            · exact c2 ⟨h3, h4, h7, h6⟩
            · by_cases h8 : o + k ≤ c
              · exact c1 ⟨h8, h4, by omega, h6⟩
              · exact c3 ⟨by omega, by omega, by omega, by omega⟩

end TMV.TriUU
