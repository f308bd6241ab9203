import Verif.Props.TriDivTU

/-! Division of a triangular matrix by a triangular matrix (C130): lower. -/
namespace TMV.TriDivT
open TMV.Tri
variable {K : Type _} [Field K] [DecidableEq K]

omit [DecidableEq K] in
theorem lo_lt (u : Bool) (X : Nat → Nat → K) {i j : Nat} (h : j < i) : lowerMat u X i j = X i j := by simp [lowerMat, h]

omit [DecidableEq K] in
theorem lo_gt (u : Bool) (X : Nat → Nat → K) {i j : Nat} (h : i < j) : lowerMat u X i j = 0 := by
  simp [lowerMat, show ¬ j < i by omega, show i ≠ j by omega]

omit [DecidableEq K] in
theorem lo_eq (u : Bool) (X : Nat → Nat → K) (i : Nat) : lowerMat u X i i = if u then 1 else X i i := by simp [lowerMat]

omit [DecidableEq K] in
theorem lo_le (X : Nat → Nat → K) {i j : Nat} (h : j ≤ i) : lowerMat false X i j = X i j := by
  rcases Nat.lt_or_eq_of_le h with h | h
  · exact lo_lt _ _ h
  · subst h; simp [lo_eq]

/-- Equality of the matrices that two lower triangles stand for, on the rows `< N`. -/
def EqL (ub : Bool) (N : Nat) (Y U : Nat → Nat → K) : Prop := ∀ a c, a < N → lowerMat ub Y a c = U a c

theorem divRow_simL (ua ub : Bool) (A X U : Nat → Nat → K) (i N : Nat) (hi : i < N) (hub : ub = true → ua = true) (hua : ua = false)
    (hU : EqL ub N X U) : Option.Rel (EqL ub N) (divRow A i 0 (i + 1) X) (diagDivM ua A i N U) := by
  subst hua
  have hub : ub = false := by cases ub <;> simp_all
  subst hub
  unfold divRow diagDivM
  simp only [Bool.false_eq_true, if_false]
  by_cases h0 : A i i = 0
  · rw [if_pos h0, if_pos h0]; exact .none
  · rw [if_neg h0, if_neg h0]
    by_cases h1 : A i i = 1
    · rw [if_neg (by simpa using h1)]
      refine .some fun a c ha => ?_
      rw [h1, hU a c ha]; simp
    · rw [if_pos h1]
      refine .some fun a c ha => ?_
      rw [← hU a c ha]
      by_cases hai : a = i
      · subst hai
        by_cases hc : c ≤ a
        · rw [lo_le _ hc, lo_le _ hc, if_pos ⟨rfl, by omega, by omega⟩, if_pos ⟨rfl, by omega⟩]
        · rw [lo_gt _ _ (by omega), lo_gt _ _ (by omega)]; split <;> simp
      · rw [if_neg (by tauto)]
        unfold lowerMat; simp [hai]

omit [DecidableEq K] in
theorem rowSubL_simL (ub : Bool) (A X U : Nat → Nat → K) (i N : Nat) (hi : i < N) (hU : EqL ub N X U) :
    EqL ub N (rowSubL ub A i X) (subRowM A i 0 i N U) := by
  intro a c ha
  unfold subRowM
  by_cases hai : a = i ∧ c < N
  · rw [if_pos hai]
    obtain ⟨rfl, hc⟩ := hai
    have hs : ∑ k ∈ Finset.range a, A a (0 + k) * U (0 + k) c = ∑ k ∈ Finset.range a, A a k * lowerMat ub X k c :=
      Finset.sum_congr rfl fun k hk => by
        rw [Finset.mem_range] at hk
        rw [Nat.zero_add, hU k c (by omega)]
    rw [hs, ← hU a c ha]
    by_cases h : c < a
    · rw [lo_lt _ _ h, lo_lt _ _ h, rowSubL, if_pos ⟨rfl, h⟩]
    · have z : ∑ k ∈ Finset.range a, A a k * lowerMat ub X k c = 0 := Finset.sum_eq_zero fun k hk => by
        rw [Finset.mem_range] at hk
        rw [lo_gt _ _ (by omega), mul_zero]
      rw [z, sub_zero]
      have e : rowSubL ub A a X a c = X a c := by rw [rowSubL, if_neg (by omega)]
      rcases Nat.lt_or_eq_of_le (Nat.le_of_not_lt h) with h | h
      · rw [lo_gt _ _ h, lo_gt _ _ h]
      · subst h; rw [lo_eq, lo_eq, e]
  · rw [if_neg hai, ← hU a c ha]
    have e : ∀ c', ¬ (a = i ∧ c' < i) → rowSubL ub A i X a c' = X a c' := fun c' h => by rw [rowSubL, if_neg h]
    unfold lowerMat
    rw [e a (by omega)]
    by_cases h : c < a
    · rw [if_pos h, if_pos h, e c (by omega)]
    · rw [if_neg h, if_neg h]

theorem rowL_sim (ua ub : Bool) (N : Nat) (A B : Nat → Nat → K) (hub : ub = true → ua = true) :
    Option.Rel (EqL ub N) (rowL ua ub N A B) (rowLowerM ua N N A (lowerMat ub B)) := by
  unfold rowL rowLowerM
  by_cases hua : ua = true
  · rw [if_pos hua]
    refine forRange_sim _ _ _ _ _ _ _ (fun _ _ _ => rfl) fun i Y U _ hi h => ?_
    have := rowSubL_simL ub A Y U i N (by omega) h
    unfold diagDivM; rw [if_pos hua]; exact .some this
  · rw [if_neg hua]
    refine forRange_sim _ _ _ _ _ _ _ (fun _ _ _ => rfl) fun i Y U _ hi h => ?_
    exact divRow_simL ua ub A _ _ i N (by omega) hub (by simpa using hua) (rowSubL_simL ub A Y U i N (by omega) h)

omit [DecidableEq K] in
theorem outSubL_simL (A X U : Nat → Nat → K) (j N : Nat) (hj : j < N) (hU : EqL false N X U) :
    EqL false N (outSubL A j (j + 1) N X) (subOuterM A j (j + 1) (N - 1 - j) N U) := by
  intro a c ha
  unfold subOuterM
  have e : ∀ c, outSubL A j (j + 1) N X a c = if j + 1 ≤ a ∧ a < N ∧ c < j + 1 then X a c - A a j * X j c else X a c := fun _ => rfl
  by_cases h : c ≤ a
  · rw [lo_le _ h, e]
    by_cases h2 : j + 1 ≤ a
    · rw [if_pos (show j + 1 ≤ a ∧ a < j + 1 + (N - 1 - j) ∧ c < N by omega), ← hU a c ha, ← hU j c hj, lo_le _ h]
      by_cases h3 : c < j + 1
      · rw [if_pos (by omega), lo_le _ (by omega)]
      · rw [if_neg (by omega), lo_gt _ _ (by omega)]; ring
    · rw [if_neg (by omega), if_neg (by omega), ← hU a c ha, lo_le _ h]
  · rw [lo_gt _ _ (by omega)]
    by_cases h2 : j + 1 ≤ a ∧ a < j + 1 + (N - 1 - j) ∧ c < N
    · rw [if_pos h2, ← hU a c ha, ← hU j c hj, lo_gt _ _ (by omega), lo_gt _ _ (by omega)]; ring
    · rw [if_neg h2, ← hU a c ha, lo_gt _ _ (by omega)]

omit [DecidableEq K] in
theorem outSubL_simL' (A X U : Nat → Nat → K) (j N : Nat) (hj : j < N) (hU : EqL true N X U) :
    EqL true N (outSubL A j j N (colSubL A j N X)) (subOuterM A j (j + 1) (N - 1 - j) N U) := by
  intro a c ha
  unfold subOuterM
  have e1 : ∀ a c, colSubL A j N X a c = if j + 1 ≤ a ∧ a < N ∧ c = j then X a c - A a j else X a c := fun _ _ => rfl
  have e : ∀ c, outSubL A j j N (colSubL A j N X) a c =
    if j + 1 ≤ a ∧ a < N ∧ c < j then colSubL A j N X a c - A a j * colSubL A j N X j c else colSubL A j N X a c := fun _ => rfl
  rcases lt_trichotomy c a with h | h | h
  · rw [lo_lt _ _ h, e, e1, e1]
    by_cases h2 : j + 1 ≤ a
    · rw [if_pos (show j + 1 ≤ a ∧ a < j + 1 + (N - 1 - j) ∧ c < N by omega), ← hU a c ha, ← hU j c hj, lo_lt _ _ h]
      rcases lt_trichotomy c j with h3 | h3 | h3
      · rw [if_pos (by omega), if_neg (by omega), if_neg (by omega), lo_lt _ _ h3]
      · subst h3
        rw [if_neg (by omega), if_pos (by omega), lo_eq]; simp
      · rw [if_neg (by omega), if_neg (by omega), lo_gt _ _ h3]; ring
    · rw [if_neg (by omega), if_neg (by omega), if_neg (by omega), ← hU a c ha, lo_lt _ _ h]
  · subst h
    by_cases h2 : j + 1 ≤ c ∧ c < j + 1 + (N - 1 - j) ∧ c < N
    · rw [if_pos h2, ← hU c c ha, ← hU j c hj, lo_gt _ _ (show j < c by omega), lo_eq, lo_eq]; simp
    · rw [if_neg h2, ← hU c c ha, lo_eq, lo_eq]; simp
  · rw [lo_gt _ _ h]
    by_cases h2 : j + 1 ≤ a ∧ a < j + 1 + (N - 1 - j) ∧ c < N
    · rw [if_pos h2, ← hU a c ha, ← hU j c hj, lo_gt _ _ h, lo_gt _ _ (by omega)]; ring
    · rw [if_neg h2, ← hU a c ha, lo_gt _ _ h]

theorem colL_sim (ua ub : Bool) (N : Nat) (A B : Nat → Nat → K) (hub : ub = true → ua = true) :
    Option.Rel (EqL ub N) (colL ua ub N A B) (colLowerM ua N N A (lowerMat ub B)) := by
  unfold colL colLowerM
  cases ua with
  | true =>
    rw [if_pos rfl]
    cases ub with
    | true =>
      rw [if_pos rfl]
      refine forRange_sim _ _ _ _ _ _ _ (fun _ _ _ => rfl) fun i Y U _ hi h => ?_
      exact .some (outSubL_simL' A Y U i N (by omega) h)
    | false =>
      rw [if_neg (by simp)]
      refine forRange_sim _ _ _ _ _ _ _ (fun _ _ _ => rfl) fun i Y U _ hi h => ?_
      exact .some (outSubL_simL A Y U i N (by omega) h)
  | false =>
    have : ub = false := by cases ub <;> simp_all
    subst this
    rw [if_neg (by simp)]
    refine forRange_sim _ _ _ _ _ _ _ (fun _ _ _ => rfl) fun i Y U _ hi h => ?_
    have h1 := divRow_simL false false A Y U i N (by omega) (by simp) rfl h
    cases e1 : divRow A i 0 (i + 1) Y with
    | none => cases e2 : diagDivM false A i N U with
      | none => exact .none
      | some t' => rw [e1, e2] at h1; cases h1
    | some s' => cases e2 : diagDivM false A i N U with
      | none => rw [e1, e2] at h1; cases h1
      | some t' =>
        rw [e1, e2] at h1
        cases h1 with
        | some h1 => exact .some (outSubL_simL A s' t' i N (by omega) h1)

/-- `(i,j)` is stored by the lower triangle. -/
def SL (ub : Bool) (N i j : Nat) : Prop := i < N ∧ j < N ∧ j ≤ i ∧ (ub = true → i ≠ j)

omit [DecidableEq K] in
theorem rowSubL_frame {ub : Bool} {A X : Nat → Nat → K} {i N a c : Nat} (hi : i < N) (h : ¬ SL ub N a c) : rowSubL ub A i X a c = X a c := by
  rw [rowSubL, if_neg]; intro h'; exact h ⟨by omega, by omega, by omega, fun _ => by omega⟩

theorem divRow_frameL {A X Y : Nat → Nat → K} {i N a c : Nat} (hi : i < N) (h : ¬ SL false N a c) (e : divRow A i 0 (i + 1) X = some Y) :
    Y a c = X a c := by
  unfold divRow at e
  split at e
  · cases e
  split at e <;> cases e
  · dsimp only; rw [if_neg]; intro h'; exact h ⟨by omega, by omega, by omega, by simp⟩
  · rfl

omit [DecidableEq K] in
theorem outSubL_frame {ub : Bool} {A X : Nat → Nat → K} {j hi N a c : Nat} (hl : hi ≤ j + 1) (h : ¬ SL ub N a c) :
    outSubL A j hi N X a c = X a c := by
  rw [outSubL, if_neg]; intro h'; exact h ⟨by omega, by omega, by omega, fun _ => by omega⟩

omit [DecidableEq K] in
theorem colSubL_frame {ub : Bool} {A X : Nat → Nat → K} {j N a c : Nat} (h : ¬ SL ub N a c) :
    colSubL A j N X a c = X a c := by
  rw [colSubL, if_neg]; intro h'; exact h ⟨by omega, by omega, by omega, fun _ => by omega⟩

theorem rowL_frame (ua ub : Bool) (N : Nat) (A B X : Nat → Nat → K) (hub : ub = true → ua = true) (h : rowL ua ub N A B = some X) :
    ∀ a c, ¬ SL ub N a c → X a c = B a c := by
  unfold rowL at h
  cases ua with
  | true =>
    rw [if_pos rfl] at h
    refine forRange_post _ (fun _ Y => ∀ a c, ¬ SL ub N a c → Y a c = B a c) N 0 B X (fun _ _ _ => rfl) ?_ h
    intro i s s' _ hi hs e a c hac
    cases e
    rw [rowSubL_frame (by omega) hac, hs a c hac]
  | false =>
    have : ub = false := by cases ub <;> simp_all
    subst this
    rw [if_neg (by simp)] at h
    refine forRange_post _ (fun _ Y => ∀ a c, ¬ SL false N a c → Y a c = B a c) N 0 B X (fun _ _ _ => rfl) ?_ h
    intro i s s' _ hi hs e a c hac
    rw [divRow_frameL (by omega) hac e, rowSubL_frame (by omega) hac, hs a c hac]

theorem colL_frame (ua ub : Bool) (N : Nat) (A B X : Nat → Nat → K) (hub : ub = true → ua = true) (h : colL ua ub N A B = some X) :
    ∀ a c, ¬ SL ub N a c → X a c = B a c := by
  unfold colL at h
  cases ua with
  | true =>
    rw [if_pos rfl] at h
    cases ub with
    | true =>
      rw [if_pos rfl] at h
      refine forRange_post _ (fun _ Y => ∀ a c, ¬ SL true N a c → Y a c = B a c) N 0 B X (fun _ _ _ => rfl) ?_ h
      intro i s s' _ hi hs e a c hac
      cases e
      rw [outSubL_frame (by omega) hac, colSubL_frame hac, hs a c hac]
    | false =>
      rw [if_neg (by simp)] at h
      refine forRange_post _ (fun _ Y => ∀ a c, ¬ SL false N a c → Y a c = B a c) N 0 B X (fun _ _ _ => rfl) ?_ h
      intro i s s' _ hi hs e a c hac
      cases e
      rw [outSubL_frame (by omega) hac, hs a c hac]
  | false =>
    have : ub = false := by cases ub <;> simp_all
    subst this
    rw [if_neg (by simp)] at h
    refine forRange_post _ (fun _ Y => ∀ a c, ¬ SL false N a c → Y a c = B a c) N 0 B X (fun _ _ _ => rfl) ?_ h
    intro i s s' _ hi hs e a c hac
    obtain ⟨t, e1, e2⟩ := map_some' e
    subst e2
    rw [outSubL_frame (by omega) hac, divRow_frameL (by omega) hac e1, hs a c hac]

/-- The result for a lower triangle. -/
def DivL (ua ub : Bool) (N : Nat) (A B X : Nat → Nat → K) : Prop :=
  (∀ i j, i < N → j < N → ∑ k ∈ Finset.range N, lowerMat ua A i k * lowerMat ub X k j = lowerMat ub B i j) ∧
  ∀ i j, ¬ SL ub N i j → X i j = B i j

omit [DecidableEq K] in
theorem solM_of_eqL {ua ub : Bool} {N : Nat} {A B X U : Nat → Nat → K} (h : EqL ub N X U)
    (s : SolM N N (lowerMat ua A) U (lowerMat ub B)) (i j : Nat) (hi : i < N) (hj : j < N) :
    ∑ k ∈ Finset.range N, lowerMat ua A i k * lowerMat ub X k j = lowerMat ub B i j := by
  rw [← s.1 i j hi hj]
  refine Finset.sum_congr rfl fun k hk => ?_
  rw [Finset.mem_range] at hk
  rw [h k j hk]

theorem rowL_sound (ua ub : Bool) (N : Nat) (A B X : Nat → Nat → K) (hub : ub = true → ua = true) (h : rowL ua ub N A B = some X) :
    DivL ua ub N A B X := by
  refine ⟨?_, rowL_frame ua ub N A B X hub h⟩
  have s := rowL_sim ua ub N A B hub
  rw [h] at s
  obtain ⟨U, e, hU⟩ := rel_some s
  exact solM_of_eqL hU (rowLowerM_sound ua N N A _ _ e)

theorem colL_sound (ua ub : Bool) (N : Nat) (A B X : Nat → Nat → K) (hub : ub = true → ua = true) (h : colL ua ub N A B = some X) :
    DivL ua ub N A B X := by
  refine ⟨?_, colL_frame ua ub N A B X hub h⟩
  have s := colL_sim ua ub N A B hub
  rw [h] at s
  obtain ⟨U, e, hU⟩ := rel_some s
  exact solM_of_eqL hU (colLowerM_sound ua N N A _ _ e)

/-- What one column has to satisfy. -/
def ColOKL (ua ub : Bool) (N : Nat) (A B Y : Nat → Nat → K) (j : Nat) : Prop :=
  ∀ i, i < N → ∑ k ∈ Finset.range N, lowerMat ua A i k * lowerMat ub Y k j = lowerMat ub B i j

omit [DecidableEq K] in
theorem colOKL_of (ua ub : Bool) (N : Nat) (A B Y : Nat → Nat → K) (j : Nat) (hj : j < N)
    (h : ∀ i, i < N - j → ∑ k ∈ Finset.range (N - j), lowerMat ua A (j + i) (j + k) * lowerMat ub Y (j + k) j = lowerMat ub B (j + i) j) :
    ColOKL ua ub N A B Y j := by
  intro i hi
  rw [sum_split (k := j) _ (by omega)]
  rw [Finset.sum_eq_zero (s := Finset.range j) (fun k hk => by
    rw [Finset.mem_range] at hk; rw [lo_gt ub Y (by omega), mul_zero]), zero_add]
  by_cases hij : j ≤ i
  · have := h (i - j) (by omega)
    rw [show j + (i - j) = i by omega] at this
    exact this
  · rw [lo_gt ub B (by omega)]
    refine Finset.sum_eq_zero fun k _ => ?_
    rw [lo_gt ua A (by omega), zero_mul]

omit [DecidableEq K] in
theorem colOKL_congr {ua ub : Bool} {N : Nat} {A B Y Y' : Nat → Nat → K} {j : Nat} (h : ∀ k, Y' k j = Y k j) (hY : ColOKL ua ub N A B Y j) :
    ColOKL ua ub N A B Y' j := by
  intro i hi
  rw [← hY i hi]
  refine Finset.sum_congr rfl fun k _ => ?_
  congr 1
  unfold lowerMat
  by_cases e : k = j
  · subst e; simp [h]
  · simp [h, e]

theorem colsL_sound (oa : Ord) (ua ub : Bool) (N : Nat) (A B X : Nat → Nat → K) (hub : ub = true → ua = true)
    (h : colsL oa ua ub N A B = some X) : DivL ua ub N A B X := by
  have key : (∀ j, j < N → ColOKL ua ub N A B X j) ∧ (∀ a c, N ≤ c → X a c = B a c) ∧ ∀ a c, ¬ SL ub N a c → X a c = B a c := by
    unfold colsL at h
    cases ub with
    | true =>
      have hua : ua = true := hub rfl
      rw [if_pos rfl] at h
      have := forRange_post _ (fun r Y => (∀ j, j < r → ColOKL ua true N A B Y j) ∧ (∀ a c, r ≤ c → Y a c = B a c) ∧
        ∀ a c, ¬ SL true N a c → Y a c = B a c) N 0 B X ⟨fun _ h => by omega, fun _ _ _ => rfl, fun _ _ _ => rfl⟩ ?_ h
      · simpa using this
      intro j Y Y' _ hj ⟨i1, i2, i3⟩ e
      have hj : j < N := by omega
      obtain ⟨x, e1, e2⟩ := map_some' e
      have sv := lowerV_sound _ _ _ _ _ _ e1
      have hoff : ∀ a c, ¬ (c = j ∧ j + 1 ≤ a ∧ a < N) → Y' a c = Y a c := by
        intro a c hac
        rw [← e2, putCol, if_neg (by omega), colSubL, if_neg (by omega)]
      have hin : ∀ a, j + 1 ≤ a → a < N → Y' a j = x (a - (j + 1)) := by
        intro a ha haN
        rw [← e2, putCol, if_pos (by omega)]
      refine ⟨?_, fun a c hc => by rw [hoff a c (by omega), i2 a c (by omega)], fun a c hac => ?_⟩
      · intro c hc
        by_cases hcj : c = j
        · subst hcj
          refine colOKL_of ua true N A B Y' c hj fun i hi => ?_
          obtain ⟨m, hm⟩ : ∃ m, N - c = m + 1 := ⟨N - c - 1, by omega⟩
          have hm' : N - (c + 1) = m := by omega
          rw [hm, Finset.sum_range_succ', Nat.add_zero, lo_eq]
          by_cases hic : i = 0
          · subst hic
            rw [Finset.sum_eq_zero (fun k hk => by rw [lo_gt ua A (by omega), zero_mul]), Nat.add_zero, lo_eq, lo_eq, hua]; simp
          · have h1 : ∑ k ∈ Finset.range (N - (c + 1)), lowerMat ua (sub A (c + 1) (c + 1)) (i - 1) k * x k =
                colSubL A c N Y (c + 1 + (i - 1)) c := sv.1 (i - 1) (by omega)
            have e3 : ∑ k ∈ Finset.range m, lowerMat ua A (c + i) (c + (k + 1)) * lowerMat true Y' (c + (k + 1)) c =
                ∑ k ∈ Finset.range (N - (c + 1)), lowerMat ua (sub A (c + 1) (c + 1)) (i - 1) k * x k := by
              rw [hm']
              refine Finset.sum_congr rfl fun k hk => ?_
              rw [Finset.mem_range] at hk
              rw [lowerMat_shift, lo_lt true _ (by omega), hin _ (by omega) (by omega), show c + 1 + (i - 1) = c + i by omega,
                show c + (k + 1) - (c + 1) = k by omega, show c + (k + 1) = c + 1 + k by omega]
            have hcs : colSubL A c N Y (c + 1 + (i - 1)) c = Y (c + i) c - A (c + i) c := by
              rw [colSubL, if_pos ⟨by omega, by omega, rfl⟩, show c + 1 + (i - 1) = c + i by omega]
            rw [e3, h1, hcs, lo_lt ua A (by omega), lo_lt _ _ (by omega), i2 _ c (by omega)]; simp
        · exact colOKL_congr (fun k => hoff k c (by omega)) (i1 c (by omega))
      · rw [hoff a c (fun h' => hac ⟨by omega, by omega, by omega, fun _ => by omega⟩), i3 a c hac]
    | false =>
      rw [if_neg (by simp)] at h
      have := forRange_post _ (fun r Y => (∀ j, j < r → ColOKL ua false N A B Y j) ∧ (∀ a c, r ≤ c → Y a c = B a c) ∧
        ∀ a c, ¬ SL false N a c → Y a c = B a c) N 0 B X ⟨fun _ h => by omega, fun _ _ _ => rfl, fun _ _ _ => rfl⟩ ?_ h
      · simpa using this
      intro j Y Y' _ hj ⟨i1, i2, i3⟩ e
      have hj : j < N := by omega
      obtain ⟨x, e1, e2⟩ := map_some' e
      have sv := lowerV_sound _ _ _ _ _ _ e1
      have hoff : ∀ a c, ¬ (c = j ∧ j ≤ a ∧ a < N) → Y' a c = Y a c := by
        intro a c hac
        rw [← e2, putCol, if_neg (by omega)]
      have hin : ∀ a, j ≤ a → a < N → Y' a j = x (a - j) := by
        intro a ha haN
        rw [← e2, putCol, if_pos (by omega)]
      refine ⟨?_, fun a c hc => by rw [hoff a c (by omega), i2 a c (by omega)], fun a c hac => ?_⟩
      · intro c hc
        by_cases hcj : c = j
        · subst hcj
          refine colOKL_of ua false N A B Y' c hj fun i hi => ?_
          have h1 : ∑ k ∈ Finset.range (N - c), lowerMat ua (sub A c c) i k * x k = Y (c + i) c := sv.1 i hi
          rw [lo_le B (by omega), ← i2 _ c (le_refl _), ← h1]
          refine Finset.sum_congr rfl fun k hk => ?_
          rw [Finset.mem_range] at hk
          rw [lowerMat_shift, lo_le Y' (by omega), hin _ (by omega) (by omega), show c + k - c = k by omega]
        · exact colOKL_congr (fun k => hoff k c (by omega)) (i1 c (by omega))
      · rw [hoff a c (fun h' => hac ⟨by omega, by omega, by omega, by simp⟩), i3 a c hac]
  exact ⟨fun i j hi hj => key.1 j hj i hi, key.2.2⟩

theorem doL_sound (nb nb2 : Nat) (hnb : 0 < nb) (hnb2 : 0 < nb2) (oa : Ord) (brm ua ub : Bool) (hub : ub = true → ua = true) :
    ∀ (fuel N : Nat) (A B X : Nat → Nat → K), doL nb nb2 oa brm ua ub fuel N A B = some X → DivL ua ub N A B X := by
  intro fuel
  induction fuel with
  | zero => intro N A B X h; cases h
  | succ fuel ih =>
    intro N A B X h
    rw [doL] at h
    by_cases hN : N ≤ nb2
    · rw [if_pos hN] at h
      cases brm with
      | true =>
        rw [if_pos rfl] at h
        by_cases ho : oa = .rm
        · rw [if_pos ho] at h; exact rowL_sound ua ub N A B X hub h
        · rw [if_neg ho] at h; exact colL_sound ua ub N A B X hub h
      | false => rw [if_neg (by simp)] at h; exact colsL_sound oa ua ub N A B X hub h
    rw [if_neg hN] at h
    obtain ⟨k0, kN⟩ := splitAt_spec nb N hnb (by omega)
    generalize hk : splitAt nb N = k at *
    dsimp only at h
    obtain ⟨B00, e00, h⟩ := bind_some' h
    obtain ⟨B10, e10, h⟩ := bind_some' h
    obtain ⟨B11, e11, h⟩ := map_some' h
    have s11 := ih _ _ _ _ e11
    have s00 := ih _ _ _ _ e00
    have s10 := lowerM_sound nb nb2 hnb hnb2 _ _ _ _ _ _ _ _ e10
    have x11 : ∀ i j, k ≤ i → i < N → k ≤ j → j < N → X i j = B11 (i - k) (j - k) := fun i j hi hiN hj hjN => by
      rw [← h, paste, if_pos (by omega)]
    have x10 : ∀ i j, k ≤ i → i < N → j < k → X i j = B10 (i - k) j := fun i j hi hiN hj => by
      rw [← h, paste, if_neg (by omega), paste, if_pos (by omega), Nat.sub_zero]
    have x00 : ∀ i j, i < k → j < k → X i j = B00 i j := fun i j hi hj => by
      rw [← h, paste, if_neg (by omega), paste, if_neg (by omega), paste, if_pos (by omega), Nat.sub_zero, Nat.sub_zero]
    have xo : ∀ i j, ¬ (i < N ∧ j < N ∧ (k ≤ i ∨ j < k)) → X i j = B i j := fun i j hij => by
      rw [← h, paste, if_neg (by omega), paste, if_neg (by omega), paste, if_neg (by omega)]
    have u00 : ∀ i j, i < k → j < k → lowerMat ub X i j = lowerMat ub B00 i j := fun i j hi hj => by
      unfold lowerMat; rw [x00 i j hi hj, x00 i i hi hi]
    have u11 : ∀ i j, i < N - k → j < N - k → lowerMat ub X (k + i) (k + j) = lowerMat ub B11 i j := fun i j hi hj => by
      unfold lowerMat
      rw [x11 (k + i) (k + j) (by omega) (by omega) (by omega) (by omega), x11 (k + i) (k + i) (by omega) (by omega) (by omega) (by omega)]
      simp
    refine ⟨fun i j hi hj => ?_, fun i j hij => ?_⟩
    · rw [sum_split (k := k) _ (by omega)]
      by_cases hik : i < k
      · rw [Finset.sum_eq_zero (s := Finset.range (N - k)) (fun l _ => by rw [lo_gt ua A (by omega), zero_mul]), add_zero]
        by_cases hjk : j < k
        · rw [← s00.1 i j hik hjk]
          refine Finset.sum_congr rfl fun l hl => ?_
          rw [Finset.mem_range] at hl
          rw [u00 l j hl hjk]
        · rw [Finset.sum_eq_zero (s := Finset.range k) (fun l hl => by
            rw [Finset.mem_range] at hl; rw [lo_gt ub X (by omega), mul_zero]), lo_gt ub B (by omega)]
      · by_cases hjk : j < k
        · have h1 := s10.1 (i - k) j (by omega) hjk
          rw [subMul, if_pos (by omega)] at h1
          have e1 : ∑ l ∈ Finset.range (N - k), lowerMat ua A i (k + l) * lowerMat ub X (k + l) j =
              ∑ l ∈ Finset.range (N - k), lowerMat ua (sub A k k) (i - k) l * B10 l j :=
            Finset.sum_congr rfl fun l hl => by
              rw [Finset.mem_range] at hl
              rw [lowerMat_shift, show k + (i - k) = i by omega, lo_lt ub X (by omega), x10 _ j (by omega) (by omega) hjk,
                show k + l - k = l by omega]
          have e2 : ∑ l ∈ Finset.range k, lowerMat ua A i l * lowerMat ub X l j =
              ∑ l ∈ Finset.range k, sub A k 0 (i - k) l * lowerMat ub B00 l j :=
            Finset.sum_congr rfl fun l hl => by
              rw [Finset.mem_range] at hl
              rw [← u00 l j hl hjk, lo_lt ua A (by omega)]
              simp [sub, show k + (i - k) = i by omega]
          rw [e1, e2, h1, lo_lt ub B (by omega)]
          simp [sub, show k + (i - k) = i by omega]
        · rw [Finset.sum_eq_zero (s := Finset.range k) (fun l hl => by
            rw [Finset.mem_range] at hl; rw [lo_gt ub X (by omega), mul_zero]), zero_add]
          have h1 := s11.1 (i - k) (j - k) (by omega) (by omega)
          have e1 : lowerMat ub (sub B k k) (i - k) (j - k) = lowerMat ub B i j := by
            rw [lowerMat_shift, show k + (i - k) = i by omega, show k + (j - k) = j by omega]
          rw [← e1, ← h1]
          refine Finset.sum_congr rfl fun l hl => ?_
          rw [Finset.mem_range] at hl
          rw [lowerMat_shift, show k + (i - k) = i by omega, ← u11 l (j - k) hl (by omega), show k + (j - k) = j by omega]
    · by_cases hin : i < N ∧ j < N ∧ (k ≤ i ∨ j < k)
      swap
      · exact xo i j hin
      have hn : ¬ (j ≤ i ∧ (ub = true → i ≠ j)) := fun h' => hij ⟨by omega, by omega, h'.1, h'.2⟩
      by_cases hik : i < k
      · have hjk : j < k := by omega
        rw [x00 i j hik hjk, s00.2 i j fun h' => hn h'.2.2]
      · have hjk : ¬ j < k := fun hjk => hn ⟨by omega, fun _ => by omega⟩
        rw [x11 i j (by omega) (by omega) (by omega) (by omega), s11.2 (i - k) (j - k) fun h' => hn
          ⟨by have := h'.2.2.1; omega, fun hu => by have := h'.2.2.2 hu; omega⟩]
        simp [sub, show k + (i - k) = i by omega, show k + (j - k) = j by omega]

/-- No exception if no element of the diagonal is zero. -/
theorem doL_isSome (nb nb2 : Nat) (hnb : 0 < nb) (hnb2 : 0 < nb2) (oa : Ord) (brm ua ub : Bool) :
    ∀ (fuel N : Nat) (A B : Nat → Nat → K), N < fuel → (∀ i, i < N → dg ua A i ≠ 0) → (doL nb nb2 oa brm ua ub fuel N A B).isSome := by
  intro fuel
  induction fuel with
  | zero => intro N A B h; omega
  | succ fuel ih =>
    intro N A B hf hd
    rw [doL]
    by_cases hN : N ≤ nb2
    · rw [if_pos hN]
      cases brm with
      | true =>
        rw [if_pos rfl]
        by_cases ho : oa = .rm
        · rw [if_pos ho]; unfold rowL
          cases ua with
          | true => rw [if_pos rfl]; exact forRange_isSome _ _ _ _ fun _ _ _ _ => rfl
          | false =>
            rw [if_neg (by simp)]
            exact forRange_isSome _ _ _ _ fun i _ _ hi => divRow_isSome (by simpa [dg] using hd i (by omega))
        · rw [if_neg ho]; unfold colL
          cases ua with
          | true =>
            rw [if_pos rfl]
            split <;> exact forRange_isSome _ _ _ _ fun _ _ _ _ => rfl
          | false =>
            rw [if_neg (by simp)]; exact forRange_isSome _ _ _ _ fun i _ _ hi => by
              rw [Option.isSome_map]; exact divRow_isSome (by simpa [dg] using hd i (by omega))
      | false =>
        rw [if_neg (by simp)]; unfold colsL
        split
        · exact forRange_isSome _ _ _ _ fun j _ _ hj => by
            simp only [Option.isSome_map]; exact lowerV_isSome _ _ _ _ _ fun i hi => by rw [dg_sub]; exact hd _ (by omega)
        · exact forRange_isSome _ _ _ _ fun j _ _ hj => by
            simp only [Option.isSome_map]; exact lowerV_isSome _ _ _ _ _ fun i hi => by rw [dg_sub]; exact hd _ (by omega)
    · rw [if_neg hN]
      obtain ⟨k0, kN⟩ := splitAt_spec nb N hnb (by omega)
      generalize splitAt nb N = k at *
      dsimp only
      obtain ⟨B00, e00⟩ := Option.isSome_iff_exists.mp (ih k A B (by omega) fun i hi => hd _ (by omega))
      rw [e00, Option.bind_some]
      obtain ⟨B10, e10⟩ := Option.isSome_iff_exists.mp (lowerM_isSome nb nb2 hnb hnb2 oa brm ua (N - k) k (sub A k k)
        (subMul (N - k) k k (sub A k 0) (lowerMat ub B00) (sub B k 0)) fun i hi => by rw [dg_sub]; exact hd _ (by omega))
      rw [e10, Option.bind_some, Option.isSome_map]
      exact ih (N - k) _ _ (by omega) fun i hi => by rw [dg_sub]; exact hd _ (by omega)

end TMV.TriDivT
