import Verif.Model.TriDivT
import Verif.Props.Tri

/-! Division of a triangular matrix by a triangular matrix (C130): upper. -/
namespace TMV.TriDivT
open TMV.Tri
variable {K : Type _} [Field K] [DecidableEq K]

/-- Two loops running down in step. -/
theorem forDown_sim {S T : Type _} (R : S → T → Prop) (f : Nat → S → Option S) (g : Nat → T → Option T) :
    ∀ (n : Nat) (s : S) (t : T), R s t → (∀ i s t, i < n → R s t → Option.Rel R (f i s) (g i t)) →
      Option.Rel R (forDown f n s) (forDown g n t) := by
  intro n
  induction n with
  | zero => intro s t h _; exact .some h
  | succ n ih =>
    intro s t h hb
    have h1 := hb n s t (by omega) h
    simp only [forDown]
    cases e1 : f n s with
    | none => cases e2 : g n t with
      | none => exact .none
      | some t' => rw [e1, e2] at h1; cases h1
    | some s' => cases e2 : g n t with
      | none => rw [e1, e2] at h1; cases h1
      | some t' =>
        rw [e1, e2] at h1
        cases h1 with
        | some h1 => exact ih s' t' h1 fun i s t hi => hb i s t (by omega)

/-- Two loops running up in step. -/
theorem forRange_sim {S T : Type _} (R : S → T → Prop) (f : Nat → S → Option S) (g : Nat → T → Option T) :
    ∀ (n lo : Nat) (s : S) (t : T), R s t → (∀ i s t, lo ≤ i → i < lo + n → R s t → Option.Rel R (f i s) (g i t)) →
      Option.Rel R (forRange f n lo s) (forRange g n lo t) := by
  intro n
  induction n with
  | zero => intro lo s t h _; exact .some h
  | succ n ih =>
    intro lo s t h hb
    have h1 := hb lo s t le_rfl (by omega) h
    simp only [forRange]
    cases e1 : f lo s with
    | none => cases e2 : g lo t with
      | none => exact .none
      | some t' => rw [e1, e2] at h1; cases h1
    | some s' => cases e2 : g lo t with
      | none => rw [e1, e2] at h1; cases h1
      | some t' =>
        rw [e1, e2] at h1
        cases h1 with
        | some h1 => exact ih (lo + 1) s' t' h1 fun i s t hi hi2 => hb i s t (by omega) (by omega)

theorem rel_some {S T : Type _} {R : S → T → Prop} {x : S} {o : Option T} (h : Option.Rel R (some x) o) : ∃ t, o = some t ∧ R x t := by
  cases h with
  | some h => exact ⟨_, rfl, h⟩

omit [DecidableEq K] in
theorem up_lt (u : Bool) (X : Nat → Nat → K) {i j : Nat} (h : i < j) : upperMat u X i j = X i j := by simp [upperMat, h]

omit [DecidableEq K] in
theorem up_gt (u : Bool) (X : Nat → Nat → K) {i j : Nat} (h : j < i) : upperMat u X i j = 0 := by
  simp [upperMat, show ¬ i < j by omega, show i ≠ j by omega]

omit [DecidableEq K] in
theorem up_eq (u : Bool) (X : Nat → Nat → K) (i : Nat) : upperMat u X i i = if u then 1 else X i i := by simp [upperMat]

/-- The row of an upper triangular matrix after its division is the row of the matrix it stands for. -/
theorem divRow_sim (ua ub : Bool) (A X : Nat → Nat → K) (i N : Nat) (hub : ub = true → ua = true) (hua : ua = false) :
    Option.Rel (fun Y U => upperMat ub Y = U) (divRow A i i N X) (diagDivM ua A i N (upperMat ub X)) := by
  subst hua
  have hub : ub = false := by cases ub <;> simp_all
  subst hub
  unfold divRow diagDivM
  simp only [Bool.false_eq_true, if_false]
  by_cases h0 : A i i = 0
  · rw [if_pos h0, if_pos h0]; exact .none
  · rw [if_neg h0, if_neg h0]
    by_cases h1 : A i i = 1
    · rw [if_neg (by simpa using h1)]
      refine .some ?_
      funext a c
      rw [h1]; simp
    · rw [if_pos h1]
      refine .some ?_
      funext a c
      by_cases ha : a = i
      · subst ha
        by_cases hc : c < N
        · rw [if_pos ⟨rfl, hc⟩]
          rcases lt_trichotomy a c with h | h | h
          · rw [up_lt _ _ h, up_lt _ _ h, if_pos ⟨rfl, by omega, hc⟩]
          · subst h; rw [up_eq, up_eq]; simp [hc]
          · rw [up_gt _ _ h, up_gt _ _ h, zero_div]
        · rw [if_neg (by tauto)]
          rcases lt_trichotomy a c with h | h | h
          · rw [up_lt _ _ h, up_lt _ _ h, if_neg (by tauto)]
          · subst h; rw [up_eq, up_eq]; simp [hc]
          · rw [up_gt _ _ h, up_gt _ _ h]
      · rw [if_neg (by tauto)]
        unfold upperMat; simp [ha]

omit [DecidableEq K] in
theorem rowSubU_sim (ub : Bool) (A X : Nat → Nat → K) (i N : Nat) (hi : i < N) :
    upperMat ub (rowSubU ub A i N X) = subRowM A i (i + 1) (N - 1 - i) N (upperMat ub X) := by
  have hs : ∀ c, ∑ k ∈ Finset.range (N - 1 - i), A i (i + 1 + k) * upperMat ub X (i + 1 + k) c =
      ∑ k ∈ Finset.Ico (i + 1) N, A i k * upperMat ub X k c := fun c => by
    rw [Finset.sum_Ico_eq_sum_range]; rw [show N - (i + 1) = N - 1 - i by omega]
  funext a c
  unfold subRowM
  by_cases ha : a = i ∧ c < N
  · rw [if_pos ha, hs]
    obtain ⟨rfl, hc⟩ := ha
    rcases lt_trichotomy a c with h | h | h
    · rw [up_lt _ _ h, up_lt _ _ h, rowSubU, if_pos ⟨rfl, h, hc⟩]
    · subst h
      have : ∑ k ∈ Finset.Ico (a + 1) N, A a k * upperMat ub X k a = 0 := Finset.sum_eq_zero fun k hk => by
        rw [Finset.mem_Ico] at hk; rw [up_gt _ _ (by omega), mul_zero]
      have e : rowSubU ub A a N X a a = X a a := by rw [rowSubU, if_neg (by omega)]
      rw [this, sub_zero, up_eq, up_eq, e]
    · have : ∑ k ∈ Finset.Ico (a + 1) N, A a k * upperMat ub X k c = 0 := Finset.sum_eq_zero fun k hk => by
        rw [Finset.mem_Ico] at hk; rw [up_gt _ _ (by omega), mul_zero]
      rw [this, sub_zero, up_gt _ _ h, up_gt _ _ h]
  · rw [if_neg ha]
    have e : rowSubU ub A i N X a c = X a c := by rw [rowSubU, if_neg (by omega)]
    rcases lt_trichotomy a c with h | h | h
    · rw [up_lt _ _ h, up_lt _ _ h, e]
    · subst h; rw [up_eq, up_eq, e]
    · rw [up_gt _ _ h, up_gt _ _ h]

theorem rowU_sim (ua ub : Bool) (N : Nat) (A B : Nat → Nat → K) (hub : ub = true → ua = true) :
    Option.Rel (fun Y U => upperMat ub Y = U) (rowU ua ub N A B) (rowUpperM ua N N A (upperMat ub B)) := by
  unfold rowU rowUpperM
  by_cases hua : ua = true
  · rw [if_pos hua]
    refine forDown_sim _ _ _ _ _ _ rfl fun i Y U hi h => ?_
    subst h
    rw [← rowSubU_sim ub A Y i N hi]
    unfold diagDivM; rw [if_pos hua]; exact .some rfl
  · rw [if_neg hua]
    refine forDown_sim _ _ _ _ _ _ rfl fun i Y U hi h => ?_
    subst h
    rw [← rowSubU_sim ub A Y i N hi]
    exact divRow_sim ua ub A _ i N hub (by simpa using hua)

omit [DecidableEq K] in
theorem outSubU_sim (A X : Nat → Nat → K) (j N : Nat) (hj : j < N) :
    upperMat false (outSubU A j j N X) = subOuterM A j 0 j N (upperMat false X) := by
  funext a c
  unfold subOuterM
  have e : outSubU A j j N X a c = if a < j ∧ j ≤ c ∧ c < N then X a c - A a j * X j c else X a c := rfl
  have z : ∀ {c}, j ≤ c → upperMat false X j c = X j c := fun {c} h => by
    rcases Nat.lt_or_eq_of_le h with h | h
    · exact up_lt _ _ h
    · subst h; simp [up_eq]
  by_cases ha : 0 ≤ a ∧ a < 0 + j ∧ c < N
  · rw [if_pos ha]
    rcases lt_trichotomy a c with h | h | h
    · rw [up_lt _ _ h, up_lt _ _ h, e]
      by_cases hc : j ≤ c
      · rw [if_pos (by omega), z hc]
      · rw [if_neg (by omega), up_gt _ _ (by omega)]; ring
    · subst h
      rw [if_neg (by omega)] at e
      rw [up_eq, up_eq, e, up_gt _ _ (show a < j by omega)]; ring
    · rw [up_gt _ _ h, up_gt _ _ h, up_gt _ _ (show c < j by omega)]; ring
  · rw [if_neg ha]
    rw [if_neg (by omega)] at e
    rcases lt_trichotomy a c with h | h | h
    · rw [up_lt _ _ h, up_lt _ _ h, e]
    · subst h; rw [up_eq, up_eq, e]
    · rw [up_gt _ _ h, up_gt _ _ h]

omit [DecidableEq K] in
theorem outSubU_sim' (A X : Nat → Nat → K) (j N : Nat) (hj : j < N) :
    upperMat true (colSubU A j (outSubU A j (j + 1) N X)) = subOuterM A j 0 j N (upperMat true X) := by
  funext a c
  unfold subOuterM
  have e : outSubU A j (j + 1) N X a c = if a < j ∧ j + 1 ≤ c ∧ c < N then X a c - A a j * X j c else X a c := rfl
  have e' : colSubU A j (outSubU A j (j + 1) N X) a c = if a < j ∧ c = j then outSubU A j (j + 1) N X a c - A a j else
    outSubU A j (j + 1) N X a c := rfl
  by_cases ha : 0 ≤ a ∧ a < 0 + j ∧ c < N
  · rw [if_pos ha]
    rcases lt_trichotomy a c with h | h | h
    · rw [up_lt _ _ h, up_lt _ _ h, e', e]
      rcases lt_trichotomy j c with hc | hc | hc
      · rw [if_neg (by omega), if_pos (by omega), up_lt _ _ hc]
      · subst hc
        rw [if_pos (by omega), if_neg (by omega), up_eq]; simp
      · rw [if_neg (by omega), if_neg (by omega), up_gt _ _ hc]; ring
    · subst h
      rw [up_eq, up_eq, up_gt _ _ (show a < j by omega)]; simp
    · rw [up_gt _ _ h, up_gt _ _ h, up_gt _ _ (show c < j by omega)]; ring
  · rw [if_neg ha]
    rw [if_neg (by omega)] at e
    rw [if_neg (by omega), e] at e'
    rcases lt_trichotomy a c with h | h | h
    · rw [up_lt _ _ h, up_lt _ _ h, e']
    · subst h; rw [up_eq, up_eq]; simp
    · rw [up_gt _ _ h, up_gt _ _ h]

/-- With an implicit diagonal, the update with the first column is empty. -/
theorem colUpperM_unit (N nc : Nat) (A B : Nat → Nat → K) : colUpperM true N nc A B =
    forDown (fun j B => some (subOuterM A j 0 j nc B)) N B := by
  have g : ∀ (n : Nat) (B : Nat → Nat → K), forDown (fun j B => some (subOuterM A j 0 j nc B)) (n + 1) B =
      forDown (fun r B => some (subOuterM A (r + 1) 0 (r + 1) nc B)) n B := by
    intro n
    induction n with
    | zero =>
      intro B
      simp only [forDown, Option.bind_some]
      refine congrArg some ?_
      funext a c; unfold subOuterM; rw [if_neg (by omega)]
    | succ n ih =>
      intro B
      rw [forDown, Option.bind_some, ih]; rfl
  unfold colUpperM; rw [if_pos rfl]
  cases N with
  | zero => rfl
  | succ n => exact (g n B).symm

theorem colU_sim (ua ub : Bool) (N : Nat) (A B : Nat → Nat → K) (hub : ub = true → ua = true) :
    Option.Rel (fun Y U => upperMat ub Y = U) (colU ua ub N A B) (colUpperM ua N N A (upperMat ub B)) := by
  cases ua with
  | true =>
    rw [colUpperM_unit]
    unfold colU; rw [if_pos rfl]
    cases ub with
    | true =>
      rw [if_pos rfl]
      refine forDown_sim _ _ _ _ _ _ rfl fun i Y U hi h => ?_
      subst h
      rw [← outSubU_sim' A Y i N hi]; exact .some rfl
    | false =>
      rw [if_neg (by simp)]
      refine forDown_sim _ _ _ _ _ _ rfl fun i Y U hi h => ?_
      subst h
      rw [← outSubU_sim A Y i N hi]; exact .some rfl
  | false =>
    have : ub = false := by cases ub <;> simp_all
    subst this
    unfold colU colUpperM
    rw [if_neg (by simp), if_neg (by simp)]
    refine forDown_sim _ _ _ _ _ _ rfl fun i Y U hi h => ?_
    subst h
    have h1 := divRow_sim false false A Y i N (by simp) rfl
    cases e1 : divRow A i i N Y with
    | none => cases e2 : diagDivM false A i N (upperMat false Y) with
      | none => exact .none
      | some t' => rw [e1, e2] at h1; cases h1
    | some s' => cases e2 : diagDivM false A i N (upperMat false Y) with
      | none => rw [e1, e2] at h1; cases h1
      | some t' =>
        rw [e1, e2] at h1
        cases h1 with
        | some h1 => exact .some (by rw [outSubU_sim A s' i N hi, h1])

end TMV.TriDivT
