import Verif.Props.TriUUL
import Mathlib.Algebra.Star.BigOperators
import Mathlib.Data.Complex.BigOperators
import Mathlib.Tactic.NormNum

/-! Products of triangular matrices: `C += alpha*A*B`, and the product. -/
namespace TMV.TriUU
open TMV.Tri
variable {K : Type _} [Field K] [StarRing K] [DecidableEq K]

/-- What `C += alpha*A*B` is to make of the array. -/
def AddEq (A B : Nat → Nat → K) (ua ub : Bool) (α : K) (o n : Nat) (C C' : Nat → Nat → K) : Prop :=
  ∀ p c, C' p c = if St false o n p c then C p c + α * P (el ua A) (el ub B) p c else C p c

theorem St_false (o n i j : Nat) : St false o n i j ↔ o ≤ i ∧ i ≤ j ∧ j < o + n := by unfold St; simp

omit [StarRing K] [DecidableEq K] in
theorem el_false' (x : Nat → Nat → K) : el false x = x := by funext i j; exact el_false x i j

omit [StarRing K] [DecidableEq K] in
theorem rrAddStep_val (A B : Nat → Nat → K) (ua ub : Bool) (α : K) (o n i : Nat) (C : Nat → Nat → K) (hi : i < o + n) (p c : Nat) :
    rrAddStep A B ua ub α o n i C p c = if p = i ∧ i ≤ c ∧ c < o + n then C p c + α * P (el ua A) (el ub B) p c else C p c := by
  unfold rrAddStep
  by_cases hp : p = i ∧ i ≤ c ∧ c < o + n
  swap
  · rw [if_neg hp]
    have n1 : ¬ (p = i ∧ i + 1 ≤ c ∧ c < o + n) := by omega
    have n2 : ¬ (p = i ∧ c = i) := by omega
    cases ua
    · simp only [Bool.false_eq_true, if_false]; rw [if_neg hp]
    · cases ub
      · simp only [Bool.false_eq_true, if_true, if_false]; rw [if_neg hp, if_neg n1]
      · simp only [if_true]
        rw [if_neg n2, if_neg n1, if_neg n1]
  · rw [if_pos hp]
    obtain ⟨rfl, h1, h2⟩ := hp
    cases ua
    · simp only [Bool.false_eq_true, if_false]
      rw [if_pos ⟨trivial, h1, h2⟩, el_false']; rfl
    · rw [P_first _ _ h1, el_diag]
      have hs : ∑ k ∈ Finset.Ico (p + 1) (c + 1), el true A p k * el ub B k c = ∑ k ∈ Finset.Ico (p + 1) (c + 1), A p k * el ub B k c := by
        refine Finset.sum_congr rfl fun k hk => ?_
        rw [Finset.mem_Ico] at hk
        rw [el_off true A (by omega)]
      rw [hs]
      by_cases hc : c = p
      · subst hc
        cases ub
        · simp [h2, el_false]
        · simp [el_diag]
      · have h3 : p < c := by omega
        cases ub
        · simp [h1, h2, h3, el_false]; ring
        · simp [h2, h3, hc, el_off true B (show p ≠ c by omega)]; ring

omit [StarRing K] [DecidableEq K] in
theorem crAddStep_val (A B : Nat → Nat → K) (ua ub : Bool) (α : K) (o n j : Nat) (C : Nat → Nat → K) (ho : o ≤ j) (hj : j < o + n) (p c : Nat) :
    crAddStep A B ua ub α o n j C p c = if o ≤ p ∧ p ≤ j ∧ j ≤ c ∧ c < o + n then C p c + α * (el ua A p j * el ub B j c) else C p c := by
  unfold crAddStep
  by_cases hp : o ≤ p ∧ p ≤ j ∧ j ≤ c ∧ c < o + n
  swap
  · rw [if_neg hp]
    have n1 : ¬ (o ≤ p ∧ p < j ∧ j + 1 ≤ c ∧ c < o + n) := by omega
    have n2 : ¬ (o ≤ p ∧ p < j ∧ c = j) := by omega
    have n3 : ¬ (p = j ∧ j + 1 ≤ c ∧ c < o + n) := by omega
    have n4 : ¬ (p = j ∧ c = j) := by omega
    have n5 : ¬ (o ≤ p ∧ p < j ∧ j ≤ c ∧ c < o + n) := by omega
    have n6 : ¬ (p = j ∧ j ≤ c ∧ c < o + n) := by omega
    have n7 : ¬ (o ≤ p ∧ p < j + 1 ∧ j + 1 ≤ c ∧ c < o + n) := by omega
    have n8 : ¬ (o ≤ p ∧ p < j + 1 ∧ c = j) := by omega
    have n9 : ¬ (o ≤ p ∧ p < j + 1 ∧ j ≤ c ∧ c < o + n) := by omega
    cases ua <;> cases ub <;> simp only [Bool.false_eq_true, if_true, if_false]
    · rw [if_neg n9]
    · rw [if_neg n8, if_neg n7]
    · rw [if_neg n6, if_neg n5]
    · rw [if_neg n4, if_neg n3, if_neg n2, if_neg n1]
  · rw [if_pos hp]
    obtain ⟨h0, h1, h2, h3⟩ := hp
    by_cases hpj : p = j
    · subst hpj
      by_cases hc : c = p
      · subst hc
        cases ua <;> cases ub <;> simp [h0, h3, el_false, el_diag]
      · have h4 : p < c := by omega
        rw [el_off ub B (show p ≠ c by omega)]
        cases ua <;> cases ub <;> simp [h0, h2, h3, h4, hc, el_false, el_diag]
    · have h5 : p < j := by omega
      have h6 : p < j + 1 := by omega
      rw [el_off ua A hpj]
      by_cases hc : c = j
      · subst hc
        cases ua <;> cases ub <;> simp [h0, h1, h3, h5, hpj, el_false, el_diag]
      · have h4 : j < c := by omega
        rw [el_off ub B (show j ≠ c by omega)]
        cases ua <;> cases ub <;> simp [h0, h1, h2, h3, h4, h5, hpj, hc]

omit [StarRing K] [DecidableEq K] in
theorem cAddStep_val (A B : Nat → Nat → K) (ua ub : Bool) (α : K) (o j : Nat) (C : Nat → Nat → K) (ho : o ≤ j) (p c : Nat) :
    cAddStep A B ua ub α o j C p c = if o ≤ p ∧ p ≤ j ∧ c = j then C p c + α * P (el ua A) (el ub B) p c else C p c := by
  unfold cAddStep
  by_cases hp : o ≤ p ∧ p ≤ j ∧ c = j
  swap
  · rw [if_neg hp]
    have n2 : ¬ (o ≤ p ∧ p < j ∧ c = j) := by omega
    have n4 : ¬ (p = j ∧ c = j) := by omega
    have n8 : ¬ (o ≤ p ∧ p < j + 1 ∧ c = j) := by omega
    cases ua <;> cases ub <;> simp only [Bool.false_eq_true, if_true, if_false]
    · rw [if_neg n8]
    · rw [if_neg n8, if_neg n2]
    · rw [if_neg n8]
    · rw [if_neg n4, if_neg n2, if_neg n2]
  · rw [if_pos hp]
    obtain ⟨h0, h1, rfl⟩ := hp
    have h6 : p < c + 1 := by omega
    cases ub
    · simp only [Bool.false_eq_true, if_false]
      rw [if_pos ⟨h0, h6, trivial⟩, el_false']; rfl
    · rw [P_last _ _ h1, el_diag, mul_one]
      have hs : ∑ k ∈ Finset.Ico p c, el ua A p k * el true B k c = ∑ k ∈ Finset.Ico p c, el ua A p k * B k c := by
        refine Finset.sum_congr rfl fun k hk => ?_
        rw [Finset.mem_Ico] at hk
        rw [el_off true B (by omega)]
      rw [hs]
      by_cases hc : p = c
      · subst hc
        cases ua
        · simp [h0, el_false]
        · simp [el_diag]
      · have h5 : p < c := by omega
        rw [el_off ua A hc]
        cases ua
        · simp [h0, h5, h1]; ring
        · simp [h0, h5, hc]; ring

omit [StarRing K] [DecidableEq K] in
theorem rrAdd_val (A B : Nat → Nat → K) (ua ub : Bool) (α : K) (o n : Nat) (C : Nat → Nat → K) :
    AddEq A B ua ub α o n C (up (fun i C => rrAddStep A B ua ub α o n i C) n o C) := by
  have := up_inv (fun i C => rrAddStep A B ua ub α o n i C)
    (fun r Y => ∀ p c, Y p c = if St false o n p c ∧ p < r then C p c + α * P (el ua A) (el ub B) p c else C p c) n o C
    (by intro p c; rw [if_neg]; rw [St_false]; omega) (by
      intro r Y h1 h2 hY p c
      simp only [St_false] at hY ⊢
      rw [rrAddStep_val A B ua ub α o n r Y h2]
      by_cases h : p = r ∧ r ≤ c ∧ c < o + n
      · rw [if_pos h, if_pos (by omega), hY, if_neg (by omega)]
      · rw [if_neg h, hY]
        by_cases h' : (o ≤ p ∧ p ≤ c ∧ c < o + n) ∧ p < r
        · rw [if_pos h', if_pos (by omega)]
        · rw [if_neg h', if_neg (by omega)])
  intro p c
  refine (this p c).trans ?_
  simp only [St_false]
  by_cases h : o ≤ p ∧ p ≤ c ∧ c < o + n
  · rw [if_pos h, if_pos (by omega)]
  · rw [if_neg h, if_neg fun h' => h h'.1]

omit [StarRing K] [DecidableEq K] in
theorem crAdd_val (A B : Nat → Nat → K) (ua ub : Bool) (α : K) (o n : Nat) (C : Nat → Nat → K) :
    AddEq A B ua ub α o n C (up (fun i C => crAddStep A B ua ub α o n i C) n o C) := by
  have := up_inv (fun i C => crAddStep A B ua ub α o n i C)
    (fun r Y => ∀ p c, Y p c = if St false o n p c ∧ p < r then
      C p c + α * ∑ k ∈ Finset.Ico p (min r (c + 1)), el ua A p k * el ub B k c else C p c) n o C
    (by intro p c; rw [if_neg]; rw [St_false]; omega) (by
      intro r Y h1 h2 hY p c
      simp only [St_false] at hY ⊢
      rw [crAddStep_val A B ua ub α o n r Y h1 h2]
      by_cases h : o ≤ p ∧ p ≤ r ∧ r ≤ c ∧ c < o + n
      · rw [if_pos h, if_pos (by omega), show min (r + 1) (c + 1) = r + 1 by omega, Finset.sum_Ico_succ_top h.2.1, hY]
        by_cases hp : p = r
        · subst hp
          rw [if_neg (by omega), Finset.Ico_self, Finset.sum_empty, zero_add]
        · rw [if_pos (by omega), show min r (c + 1) = r by omega]; ring
      · rw [if_neg h, hY]
        by_cases h' : (o ≤ p ∧ p ≤ c ∧ c < o + n) ∧ p < r
        · rw [if_pos h', if_pos (by omega), show min (r + 1) (c + 1) = min r (c + 1) by omega]
        · rw [if_neg h', if_neg (by omega)])
  intro p c
  refine (this p c).trans ?_
  simp only [St_false]
  by_cases h : o ≤ p ∧ p ≤ c ∧ c < o + n
  · rw [if_pos h, if_pos (by omega), show min (o + n) (c + 1) = c + 1 by omega]; rfl
  · rw [if_neg h, if_neg fun h' => h h'.1]

omit [StarRing K] [DecidableEq K] in
theorem cAdd_val (A B : Nat → Nat → K) (ua ub : Bool) (α : K) (o n : Nat) (C : Nat → Nat → K) :
    AddEq A B ua ub α o n C (up (fun j C => cAddStep A B ua ub α o j C) n o C) := by
  have := up_inv (fun j C => cAddStep A B ua ub α o j C)
    (fun r Y => ∀ p c, Y p c = if St false o n p c ∧ c < r then C p c + α * P (el ua A) (el ub B) p c else C p c) n o C
    (by intro p c; rw [if_neg]; rw [St_false]; omega) (by
      intro r Y h1 h2 hY p c
      simp only [St_false] at hY ⊢
      rw [cAddStep_val A B ua ub α o r Y h1]
      by_cases h : o ≤ p ∧ p ≤ r ∧ c = r
      · rw [if_pos h, if_pos (by omega), hY, if_neg (by omega)]
      · rw [if_neg h, hY]
        by_cases h' : (o ≤ p ∧ p ≤ c ∧ c < o + n) ∧ c < r
        · rw [if_pos h', if_pos (by omega)]
        · rw [if_neg h', if_neg (by omega)])
  intro p c
  refine (this p c).trans ?_
  simp only [St_false]
  by_cases h : o ≤ p ∧ p ≤ c ∧ c < o + n
  · rw [if_pos h, if_pos (by omega)]
  · rw [if_neg h, if_neg fun h' => h h'.1]

omit [StarRing K] [DecidableEq K] in
theorem addLeaf_val (A B : Nat → Nat → K) (ua ub : Bool) (α : K) (o n : Nat) (oa ob oc : Ord) (C : Nat → Nat → K) :
    AddEq A B ua ub α o n C (addLeaf A B ua ub α o n 4 oa ob oc C) := by
  have r := rrAdd_val A B ua ub α o n C
  have s := crAdd_val A B ua ub α o n C
  have t := cAdd_val A B ua ub α o n C
  have t' : ∀ Y, AddEq A B ua ub α o n C Y → AddEq A B ua ub α o n C (fun p c => if St false o n p c then Y p c else C p c) := by
    intro Y h p c
    dsimp only
    rw [h]
    by_cases h : St false o n p c
    · rw [if_pos h]
    · rw [if_neg h, if_neg h]
  cases oa <;> cases ob <;> cases oc <;> simp [addLeaf] <;> first | exact r | exact s | exact t | exact t' _ t

omit [StarRing K] [DecidableEq K] in
theorem addBlk_val (A B : Nat → Nat → K) (ua ub : Bool) (α : K) (o n k : Nat) (C : Nat → Nat → K) (p c : Nat) :
    addBlk A B ua ub α o n k C p c = if o ≤ p ∧ p < o + k ∧ o + k ≤ c ∧ c < o + n then
      C p c + α * P (el ua A) (el ub B) p c else C p c := by
  unfold addBlk
  dsimp only
  by_cases hb : o ≤ p ∧ p < o + k ∧ o + k ≤ c ∧ c < o + n
  swap
  · rw [if_neg hb, if_neg hb, if_neg hb]
  · rw [if_pos hb, if_pos hb, if_pos hb, P_split _ _ (show p ≤ o + k by omega) (by omega), mul_add, add_assoc]
    congr 3
    · refine Finset.sum_congr rfl fun l hl => ?_
      rw [Finset.mem_Ico] at hl
      rw [el_off ub B (by omega)]
    · refine Finset.sum_congr rfl fun l hl => ?_
      rw [Finset.mem_Ico] at hl
      rw [el_off ua A (by omega)]

omit [StarRing K] [DecidableEq K] in
theorem addU_val (nb nb2 : Nat) (hnb : 0 < nb) (hnb2 : 0 < nb2) (oa ob oc : Ord) (A B : Nat → Nat → K) (ua ub : Bool) (α : K) :
    ∀ (fuel o n : Nat) (C : Nat → Nat → K), n < fuel → AddEq A B ua ub α o n C (addU nb nb2 oa ob oc A B ua ub α fuel o n C) := by
  intro fuel
  induction fuel with
  | zero => intro o n X h; omega
  | succ fuel ih =>
    intro o n C hf
    rw [addU]
    by_cases hn : n ≤ nb2
    · rw [if_pos hn]; exact addLeaf_val A B ua ub α o n oa ob oc C
    · rw [if_neg hn]
      dsimp only
      have hk0 := splitU_bd hnb false (show 1 < n by omega)
      generalize splitU nb false n = k at hk0 ⊢
      have e1 := ih o k C (by omega)
      generalize addU nb nb2 oa ob oc A B ua ub α fuel o k C = C1 at e1 ⊢
      have e2 := addBlk_val A B ua ub α o n k C1
      generalize addBlk A B ua ub α o n k C1 = C2 at e2 ⊢
      have e3 := ih (o + k) (n - k) C2 (by omega)
      intro p c
      unfold AddEq at e1 e3
      simp only [St_false] at e1 e3 ⊢
      rw [e3, e2, e1]
      by_cases c1 : o + k ≤ p ∧ p ≤ c ∧ c < o + k + (n - k)
      · rw [if_pos c1, if_neg (by omega), if_neg (by omega), if_pos (by omega)]
      · rw [if_neg c1]
        by_cases c2 : o ≤ p ∧ p < o + k ∧ o + k ≤ c ∧ c < o + n
        · rw [if_pos c2, if_neg (by omega), if_pos (by omega)]
        · rw [if_neg c2]
          by_cases c3 : o ≤ p ∧ p ≤ c ∧ c < o + k
          · rw [if_pos c3, if_pos (by omega)]
          · rw [if_neg c3, if_neg (by omega)]

/-! ### The product -/

/-- What `C (+)= alpha*A*B` is to make of the array of a `C` that is not conjugated. -/
def ProdEq (add uc : Bool) (α : K) (N : Nat) (a b X X' : Nat → Nat → K) : Prop :=
  ∀ i j, X' i j = if St uc 0 N i j then (if add then X i j else 0) + α * P a b i j else X i j

omit [DecidableEq K] in
theorem setT_el (uc : Bool) (N : Nat) (a X : Nat → Nat → K) (u : Bool) (hu : uc = true → u = true) {i j : Nat} (h : i ≤ j) (hj : j < N) :
    el uc (setT uc N (el u a) X) i j = el u a i j := by
  unfold setT
  by_cases hd : uc = true ∧ i = j
  · obtain ⟨h1, rfl⟩ := hd
    rw [h1, hu h1, el_diag, el_diag]
  · have h1 : el uc (fun i j => if St uc 0 N i j then el u a i j else X i j) i j = if St uc 0 N i j then el u a i j else X i j := if_neg hd
    rw [h1, if_pos ⟨by omega, h, by omega, fun h' => lt_of_le_of_ne h fun h'' => hd ⟨h', h''⟩⟩]

/-- The preconditions of the product (TMV_MultUU.cpp:755-758): an implicit diagonal of `C` only for `C = A*B` with implicit diagonals; and an
operand in the array of `C` has the corresponding layout. -/
structure Pre (add uc : Bool) (oc : Ord) (α : K) (A B : Opd K) : Prop where
  unit : uc = true → A.unit = true ∧ B.unit = true ∧ α = 1 ∧ add = false
  layA : A.src.Compat A.ord oc

theorem tempMul_val (nb nb2 : Nat) (hnb : 0 < nb) (hnb2 : 0 < nb2) (add uc : Bool) (oc : Ord) (α : K) (N : Nat) (A B : Opd K)
    (h : Pre add uc oc α A B) (X : Nat → Nat → K) : ProdEq add uc α N (A.el X) (B.el X) X (tempMul nb nb2 add uc α N A B X) := by
  unfold tempMul
  obtain ⟨ut, hut⟩ : ∃ ut, ut = (uc && B.unit) := ⟨_, rfl⟩
  rw [← hut]
  have hutc : ut = uc := by
    rw [hut]
    cases uc
    · rfl
    · rw [(h.unit rfl).2.1]; rfl
  subst hutc
  have hT := eqU_val nb nb2 hnb hnb2 A.ord (if B.ord = .rm then .rm else .cm) (.apart (A.src.rd X)) A.unit ut α
    (fun h' => ⟨(h.unit h').1, (h.unit h').2.2.1⟩) trivial (N + 1) 0 N (setT ut N (B.el X) X) (by omega)
  dsimp only
  generalize eqU nb nb2 A.ord (if B.ord = .rm then .rm else .cm) (.apart (A.src.rd X)) A.unit ut α (N + 1) 0 N (setT ut N (B.el X) X) = T at hT ⊢
  have hv : ∀ i j, St ut 0 N i j → el ut T i j = α * P (A.el X) (B.el X) i j := by
    intro i j hs
    have : el ut T i j = T i j := if_neg fun h' => by have := hs.2.2.2 h'.1; omega
    rw [this, hT, if_pos hs]
    congr 1
    refine P_congr (fun k _ _ => rfl) fun k h1 h2 => ?_
    exact setT_el ut N (B.src.rd X) X B.unit (fun h' => (h.unit h').2.1) h2 (by have := hs.2.2.1; omega)
  intro i j
  by_cases hs : St ut 0 N i j
  · cases add
    · simp only [Bool.false_eq_true, if_false]
      unfold setT
      rw [if_pos hs, if_pos hs, hv i j hs, zero_add]
    · simp only [if_true]
      rw [if_pos hs, if_pos hs, hv i j hs]
  · cases add
    · simp only [Bool.false_eq_true, if_false]
      unfold setT
      rw [if_neg hs, if_neg hs]
    · simp only [if_true]
      rw [if_neg hs, if_neg hs]

omit [Field K] [StarRing K] [DecidableEq K] in
theorem Src.ss_false {A : Src K} (h : ¬ A.ss = true) : ∃ a, A = .apart a := by
  cases A with
  | apart a => exact ⟨a, rfl⟩
  | same c => exact absurd rfl h
  | other c => exact absurd rfl h

theorem mulNC_val (nb nb2 : Nat) (hnb : 0 < nb) (hnb2 : 0 < nb2) (add uc : Bool) (oc : Ord) (α : K) (N : Nat) (A B : Opd K)
    (h : Pre add uc oc α A B) (X : Nat → Nat → K) : ProdEq add uc α N (A.el X) (B.el X) X (mulNC nb nb2 add uc oc α N A B X) := by
  unfold mulNC
  by_cases h0 : α = 0
  · subst h0
    rw [if_pos rfl]
    intro i j
    cases add
    · simp only [Bool.false_eq_true, if_false, zero_mul, add_zero]; rfl
    · simp
  · rw [if_neg h0]
    cases add with
    | true =>
      rw [if_pos rfl]
      have huc : uc = false := by
        cases uc
        · rfl
        · exact absurd (h.unit rfl).2.2.2 (by simp)
      subst huc
      by_cases hs : (A.src.ss || B.src.ss) = true
      · rw [if_pos hs]; exact tempMul_val nb nb2 hnb hnb2 true false oc α N A B h X
      · rw [if_neg hs]
        intro i j
        rw [addU_val nb nb2 hnb hnb2 _ _ _ _ _ _ _ _ (N + 1) 0 N X (by omega)]
        rfl
    | false =>
      rw [if_neg (by simp)]
      have hUA : uc = true → A.unit = true ∧ α = 1 := fun h' => ⟨(h.unit h').1, (h.unit h').2.2.1⟩
      have hUB : uc = true → B.unit = true ∧ α = 1 := fun h' => ⟨(h.unit h').2.1, (h.unit h').2.2.1⟩
      by_cases hs : A.src.ss = true
      · rw [if_pos hs]
        by_cases hsb : B.src.ss = true
        · rw [if_pos hsb]
          by_cases hi : isSame uc B = true
          · rw [if_pos hi]
            have hB : B.el X = el uc X := by
              unfold isSame at hi
              unfold Opd.el
              cases hb : B.src with
              | apart a => rw [hb] at hi; simp at hi
              | other c => rw [hb] at hi; simp at hi
              | same c =>
                rw [hb] at hi
                simp at hi
                rw [hi.2, hi.1]; rfl
            intro i j
            rw [eqU_val nb nb2 hnb hnb2 A.ord oc A.src A.unit uc α hUA h.layA (N + 1) 0 N X (by omega), hB]
            by_cases hst : St uc 0 N i j
            · rw [if_pos hst, if_pos hst, if_neg (by simp), zero_add]; rfl
            · rw [if_neg hst, if_neg hst]
          · rw [if_neg hi]; exact tempMul_val nb nb2 hnb hnb2 false uc oc α N A B h X
        · rw [if_neg hsb]
          obtain ⟨b, hb⟩ := Src.ss_false hsb
          intro i j
          dsimp only
          rw [eqL_val nb nb2 hnb hnb2 _ _ _ _ uc α hUB (N + 1) 0 N _ (by omega)]
          by_cases hst : St uc 0 N i j
          · have hst' : StL uc 0 N j i := hst
            rw [if_pos hst, if_pos hst', if_neg (by simp), zero_add]
            congr 1
            unfold PL P
            refine Finset.sum_congr rfl fun k hk => ?_
            rw [Finset.mem_Ico] at hk
            have e1 : el B.unit (fun i j => B.src.rd (setT uc N (A.el X) X) j i) j k = B.el X k j := by
              unfold Opd.el el
              rw [hb]
              by_cases hd : B.unit = true ∧ j = k
              · rw [if_pos hd, if_pos ⟨hd.1, hd.2.symm⟩]
              · rw [if_neg hd, if_neg fun h' => hd ⟨h'.1, h'.2.symm⟩]; rfl
            have e2 : el uc (fun i j => setT uc N (A.el X) X j i) k i = A.el X i k := by
              have := setT_el uc N (A.src.rd X) X A.unit (fun h' => (h.unit h').1) hk.1 (show k < N by have := hst.2.2.1; omega)
              refine Eq.trans ?_ this
              unfold el
              by_cases hd : uc = true ∧ k = i
              · rw [if_pos hd, if_pos ⟨hd.1, hd.2.symm⟩]
              · rw [if_neg hd, if_neg fun h' => hd ⟨h'.1, h'.2.symm⟩]; rfl
            rw [e1, e2, mul_comm]
          · have hst' : ¬ StL uc 0 N j i := hst
            rw [if_neg hst, if_neg hst']
            unfold setT
            rw [if_neg hst]
      · rw [if_neg hs]
        obtain ⟨a, ha⟩ := Src.ss_false hs
        intro i j
        rw [eqU_val nb nb2 hnb hnb2 A.ord oc A.src A.unit uc α hUA h.layA (N + 1) 0 N _ (by omega)]
        by_cases hst : St uc 0 N i j
        · rw [if_pos hst, if_pos hst, if_neg (by simp), zero_add]
          congr 1
          refine P_congr (fun k _ _ => ?_) fun k h1 h2 => ?_
          · unfold Opd.el; rw [ha]; rfl
          · exact setT_el uc N (B.src.rd X) X B.unit (fun h' => (h.unit h').2.1) h2 (by have := hst.2.2.1; omega)
        · rw [if_neg hst, if_neg hst]
          unfold setT
          rw [if_neg hst]

omit [DecidableEq K] in
theorem conj_rd (A : Src K) (X : Nat → Nat → K) (i j : Nat) : A.conj.rd X i j = star (A.rd X i j) := by
  cases A with
  | apart a => rfl
  | same c => cases c <;> simp [Src.conj, Src.rd, cj]
  | other c => cases c <;> simp [Src.conj, Src.rd, cj]

omit [DecidableEq K] in
theorem conj_el (A : Opd K) (X : Nat → Nat → K) (i j : Nat) : ({ A with src := A.src.conj } : Opd K).el X i j = star (A.el X i j) := by
  unfold Opd.el el
  dsimp only
  split_ifs with h
  · simp
  · exact conj_rd _ _ _ _

omit [StarRing K] [DecidableEq K] in
/-- The sum over the indices within the triangle is the product of the matrices. -/
theorem P_eq (a b : Nat → Nat → K) {i j N : Nat} (hj : j < N) :
    P a b i j = ∑ k ∈ Finset.range N, triMat true a i k * triMat true b k j := by
  symm
  unfold P
  refine (Finset.sum_subset (s₁ := Finset.Ico i (j + 1)) ?_ ?_).symm.trans ?_
  · intro k hk; rw [Finset.mem_Ico] at hk; rw [Finset.mem_range]; omega
  · intro k _ hk
    rw [Finset.mem_Ico] at hk
    unfold triMat
    by_cases h : i ≤ k
    · rw [if_neg (show ¬ (if true = true then k ≤ j else j ≤ k) by simp; omega), mul_zero]
    · rw [if_neg (show ¬ (if true = true then i ≤ k else k ≤ i) by simp; omega), zero_mul]
  · refine Finset.sum_congr rfl fun k hk => ?_
    rw [Finset.mem_Ico] at hk
    unfold triMat
    rw [if_pos (show if true = true then i ≤ k else k ≤ i by simp; omega), if_pos (show if true = true then k ≤ j else j ≤ k by simp; omega)]

omit [StarRing K] [DecidableEq K] in
theorem Pre.conj [StarRing K] {add uc : Bool} {oc : Ord} {α : K} {A B : Opd K} (h : Pre add uc oc α A B) :
    Pre add uc oc (star α) { A with src := A.src.conj } { B with src := B.src.conj } := by
  refine ⟨fun h' => ⟨(h.unit h').1, (h.unit h').2.1, ?_, (h.unit h').2.2.2⟩, ?_⟩
  · rw [(h.unit h').2.2.1, star_one]
  · have := h.layA
    cases hs : A.src <;> rw [hs] at this <;> exact this

/-- The elements of `C` before or after. -/
def cel (uc cc : Bool) (X : Nat → Nat → K) : Nat → Nat → K := el uc fun i j => cj cc (X i j)

theorem mulUU_raw (nb nb2 : Nat) (hnb : 0 < nb) (hnb2 : 0 < nb2) (add cc uc : Bool) (oc : Ord) (α : K) (N : Nat) (A B : Opd K)
    (h : Pre add uc oc α A B) (X : Nat → Nat → K) (i j : Nat) :
    cj cc (mulUU nb nb2 add cc uc oc α N A B X i j) = if St uc 0 N i j then
      (if add then cj cc (X i j) else 0) + α * P (A.el X) (B.el X) i j else cj cc (X i j) := by
  unfold mulUU
  by_cases hN : N > 0
  swap
  · rw [if_neg hN, if_neg]; unfold St; omega
  · rw [if_pos hN]
    cases cc with
    | false =>
      rw [if_neg (by simp)]
      exact mulNC_val nb nb2 hnb hnb2 add uc oc α N A B h X i j
    | true =>
      rw [if_pos rfl, mulNC_val nb nb2 hnb hnb2 add uc oc (star α) N _ _ h.conj X i j]
      by_cases hst : St uc 0 N i j
      · rw [if_pos hst, if_pos hst]
        have : P (({ A with src := A.src.conj } : Opd K).el X) (({ B with src := B.src.conj } : Opd K).el X) i j =
            star (P (A.el X) (B.el X) i j) := by
          unfold P
          rw [star_sum]
          refine Finset.sum_congr rfl fun k _ => ?_
          rw [conj_el, conj_el, star_mul']
        rw [this]
        cases add <;> simp [cj, star_add, star_mul']
      · rw [if_neg hst, if_neg hst]

/-- **C128** `C = alpha*A*B` and `C += alpha*A*B` for upper triangular matrices: in every case of layouts, implicit diagonals, conjugation and
sharing of the array, the elements of `C` become those of the product (or sum), the elements of `A` and `B` being those before the call. -/
theorem mulUU_spec (nb nb2 : Nat) (hnb : 0 < nb) (hnb2 : 0 < nb2) (add cc uc : Bool) (oc : Ord) (α : K) (N : Nat) (A B : Opd K)
    (h : Pre add uc oc α A B) (X : Nat → Nat → K) :
    MulAddTri true add α N (triMat true (A.el X)) (triMat true (B.el X)) (cel uc cc X) (cel uc cc (mulUU nb nb2 add cc uc oc α N A B X)) := by
  intro i j
  by_cases hin : i ≤ j ∧ j < N
  swap
  · have h2 : ¬ if true = true then i ≤ j ∧ j < N else j ≤ i ∧ i < N := by simpa using hin
    rw [if_neg h2]
    unfold cel
    refine el_congr ?_
    rw [mulUU_raw nb nb2 hnb hnb2 add cc uc oc α N A B h X, if_neg]
    exact fun h' => hin ⟨h'.2.1, by have := h'.2.2.1; omega⟩
  · have h2 : if true = true then i ≤ j ∧ j < N else j ≤ i ∧ i < N := by simpa using hin
    rw [if_pos h2, ← P_eq _ _ hin.2]
    by_cases hd : uc = true ∧ i = j
    · obtain ⟨rfl, rfl⟩ := hd
      obtain ⟨u1, u2, rfl, rfl⟩ := h.unit rfl
      unfold cel
      rw [el_diag, P_first _ _ (le_refl _), Finset.Ico_self, Finset.sum_empty]
      have e1 : A.el X i i = 1 := by unfold Opd.el; rw [u1]; exact el_diag _ _
      have e2 : B.el X i i = 1 := by unfold Opd.el; rw [u2]; exact el_diag _ _
      rw [e1, e2]; simp
    · have e : ∀ Y : Nat → Nat → K, cel uc cc Y i j = cj cc (Y i j) := fun Y => if_neg hd
      have hst : St uc 0 N i j := ⟨by omega, hin.1, by omega, fun h' => lt_of_le_of_ne hin.1 fun h'' => hd ⟨h', h''⟩⟩
      rw [e, e, mulUU_raw nb nb2 hnb hnb2 add cc uc oc α N A B h X, if_pos hst]

/-- **C128** nothing but the stored elements of `C` changes in the array. -/
theorem mulUU_frame (nb nb2 : Nat) (hnb : 0 < nb) (hnb2 : 0 < nb2) (add cc uc : Bool) (oc : Ord) (α : K) (N : Nat) (A B : Opd K)
    (h : Pre add uc oc α A B) (X : Nat → Nat → K) (i j : Nat) (hn : ¬ (i ≤ j ∧ j < N ∧ (uc = true → i < j))) :
    mulUU nb nb2 add cc uc oc α N A B X i j = X i j := by
  have := mulUU_raw nb nb2 hnb hnb2 add cc uc oc α N A B h X i j
  rw [if_neg fun h' => hn ⟨h'.2.1, by have := h'.2.2.1; omega, h'.2.2.2⟩] at this
  cases cc
  · exact this
  · exact star_injective this

omit [DecidableEq K] in
theorem tr_el (A : Opd K) (X : Nat → Nat → K) (i j : Nat) : A.tr.el (fun i j => X j i) i j = A.el X j i := by
  unfold Opd.el Opd.tr el
  dsimp only
  by_cases hd : A.unit = true ∧ i = j
  · rw [if_pos hd, if_pos ⟨hd.1, hd.2.symm⟩]
  · rw [if_neg hd, if_neg fun h' => hd ⟨h'.1, h'.2.symm⟩]
    cases A.src <;> rfl

omit [Field K] [StarRing K] [DecidableEq K] in
theorem flip_flip (o : Ord) : flip (flip o) = o := by cases o <;> rfl

/-- **C128** the same for lower triangular matrices. -/
theorem mulLL_spec (nb nb2 : Nat) (hnb : 0 < nb) (hnb2 : 0 < nb2) (add cc uc : Bool) (oc : Ord) (α : K) (N : Nat) (A B : Opd K)
    (hu : uc = true → A.unit = true ∧ B.unit = true ∧ α = 1 ∧ add = false) (hl : B.src.Compat B.ord oc) (X : Nat → Nat → K) :
    MulAddTri false add α N (triMat false (A.el X)) (triMat false (B.el X)) (cel uc cc X) (cel uc cc (mulLL nb nb2 add cc uc oc α N A B X)) := by
  have hp : Pre add uc (flip oc) α B.tr A.tr := by
    refine ⟨fun h => ⟨(hu h).2.1, (hu h).1, (hu h).2.2⟩, ?_⟩
    unfold Opd.tr
    dsimp only
    cases hs : B.src <;> rw [hs] at hl <;> simp only [Src.Compat] at hl ⊢
    · rw [hl]
    · rw [hl]
  have h := mulUU_spec nb nb2 hnb hnb2 add cc uc (flip oc) α N B.tr A.tr hp (fun i j => X j i)
  have hc : ∀ (Y : Nat → Nat → K) i j, cel uc cc (fun i j => Y j i) j i = cel uc cc Y i j := by
    intro Y i j
    unfold cel el
    by_cases hd : uc = true ∧ i = j
    · rw [if_pos hd, if_pos ⟨hd.1, hd.2.symm⟩]
    · rw [if_neg hd, if_neg fun h' => hd ⟨h'.1, h'.2.symm⟩]
  intro i j
  have := h j i
  rw [hc X i j] at this
  refine (hc (mulLL nb nb2 add cc uc oc α N A B X) i j).symm.trans (this.trans ?_)
  by_cases hin : j ≤ i ∧ i < N
  · rw [if_pos (show if true = true then j ≤ i ∧ i < N else i ≤ j ∧ j < N by simpa using hin),
      if_pos (show if false = true then i ≤ j ∧ j < N else j ≤ i ∧ i < N by simpa using hin)]
    congr 2
    refine Finset.sum_congr rfl fun k _ => ?_
    unfold triMat
    simp only [tr_el, if_true, Bool.false_eq_true, if_false]
    exact mul_comm _ _
  · rw [if_neg (show ¬ if true = true then j ≤ i ∧ i < N else i ≤ j ∧ j < N by simpa using hin),
      if_neg (show ¬ if false = true then i ≤ j ∧ j < N else j ≤ i ∧ i < N by simpa using hin)]

/-- **C128** nothing but the stored elements of `C` changes in the array. -/
theorem mulLL_frame (nb nb2 : Nat) (hnb : 0 < nb) (hnb2 : 0 < nb2) (add cc uc : Bool) (oc : Ord) (α : K) (N : Nat) (A B : Opd K)
    (hu : uc = true → A.unit = true ∧ B.unit = true ∧ α = 1 ∧ add = false) (hl : B.src.Compat B.ord oc) (X : Nat → Nat → K) (i j : Nat)
    (hn : ¬ (j ≤ i ∧ i < N ∧ (uc = true → j < i))) : mulLL nb nb2 add cc uc oc α N A B X i j = X i j := by
  have hp : Pre add uc (flip oc) α B.tr A.tr := by
    refine ⟨fun h => ⟨(hu h).2.1, (hu h).1, (hu h).2.2⟩, ?_⟩
    unfold Opd.tr
    dsimp only
    cases hs : B.src <;> rw [hs] at hl <;> simp only [Src.Compat] at hl ⊢
    · rw [hl]
    · rw [hl]
  exact mulUU_frame nb nb2 hnb hnb2 add cc uc (flip oc) α N B.tr A.tr hp (fun i j => X j i) j i hn

/-- A case that meets the hypotheses: `C = 2*conj(C)*C` in place, 3×3, in blocks. -/
example : mulUU 1 1 false false false .cm (2:ℂ) 3 ⟨.same true, false, .cm⟩ ⟨.same false, false, .cm⟩
    (fun i j => if i = j then (if i = 0 then 2 else 1) else Complex.I) 0 1 = 2 * Complex.I := by
  have := mulUU_raw 1 1 (by omega) (by omega) false false false .cm (2:ℂ) 3 ⟨.same true, false, .cm⟩ ⟨.same false, false, .cm⟩
    ⟨fun h => by simp at h, rfl⟩ (fun i j => if i = j then (if i = 0 then 2 else 1) else Complex.I) 0 1
  refine this.trans ?_
  rw [if_pos (by unfold St; simp)]
  simp [P, Finset.sum_range_succ, Opd.el, el, Src.rd, cj, map_ofNat]
  ring

end TMV.TriUU
