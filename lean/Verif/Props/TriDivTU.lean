import Verif.Props.TriDivT
import Verif.Spec.DivTri

/-! Division of a triangular matrix by a triangular matrix (C130): upper, the recursion. -/
namespace TMV.TriDivT
open TMV.Tri
variable {K : Type _} [Field K] [DecidableEq K]

/-- `(i,j)` is stored by the upper triangle. -/
def SU (ub : Bool) (N i j : Nat) : Prop := i < N ∧ j < N ∧ i ≤ j ∧ (ub = true → i ≠ j)

omit [DecidableEq K] in
theorem rowSubU_frame {ub : Bool} {A X : Nat → Nat → K} {i N a c : Nat} (h : ¬ SU ub N a c) : rowSubU ub A i N X a c = X a c := by
  rw [rowSubU, if_neg]; intro h'; exact h ⟨by omega, by omega, by omega, fun _ => by omega⟩

theorem divRow_frame {A X Y : Nat → Nat → K} {i N a c : Nat} (hi : i < N) (h : ¬ SU false N a c) (e : divRow A i i N X = some Y) : Y a c = X a c := by
  unfold divRow at e
  split at e
  · cases e
  split at e <;> cases e
  · dsimp only; rw [if_neg]; intro h'; exact h ⟨by omega, by omega, by omega, by simp⟩
  · rfl

omit [DecidableEq K] in
theorem outSubU_frame {ub : Bool} {A X : Nat → Nat → K} {j lo N a c : Nat} (hl : j ≤ lo) (h : ¬ SU ub N a c) :
    outSubU A j lo N X a c = X a c := by
  rw [outSubU, if_neg]; intro h'; exact h ⟨by omega, by omega, by omega, fun _ => by omega⟩

omit [DecidableEq K] in
theorem colSubU_frame {ub : Bool} {A X : Nat → Nat → K} {j N a c : Nat} (hj : j < N) (h : ¬ SU ub N a c) :
    colSubU A j X a c = X a c := by
  rw [colSubU, if_neg]; intro h'; exact h ⟨by omega, by omega, by omega, fun _ => by omega⟩

theorem rowU_frame (ua ub : Bool) (N : Nat) (A B X : Nat → Nat → K) (hub : ub = true → ua = true) (h : rowU ua ub N A B = some X) :
    ∀ a c, ¬ SU ub N a c → X a c = B a c := by
  unfold rowU at h
  cases ua with
  | true =>
    rw [if_pos rfl] at h
    refine forDown_post _ (fun _ Y => ∀ a c, ¬ SU ub N a c → Y a c = B a c) N B X (fun _ _ _ => rfl) ?_ h
    intro i s s' _ hs e a c hac
    cases e
    rw [rowSubU_frame hac, hs a c hac]
  | false =>
    have : ub = false := by cases ub <;> simp_all
    subst this
    rw [if_neg (by simp)] at h
    refine forDown_post _ (fun _ Y => ∀ a c, ¬ SU false N a c → Y a c = B a c) N B X (fun _ _ _ => rfl) ?_ h
    intro i s s' hi hs e a c hac
    rw [divRow_frame hi hac e, rowSubU_frame hac, hs a c hac]

theorem map_some' {α β} {x : Option α} {f : α → β} {y : β} (h : x.map f = some y) : ∃ a, x = some a ∧ f a = y := by
  cases x with
  | none => cases h
  | some a => exact ⟨a, rfl, by simpa using h⟩

theorem colU_frame (ua ub : Bool) (N : Nat) (A B X : Nat → Nat → K) (hub : ub = true → ua = true) (h : colU ua ub N A B = some X) :
    ∀ a c, ¬ SU ub N a c → X a c = B a c := by
  unfold colU at h
  cases ua with
  | true =>
    rw [if_pos rfl] at h
    cases ub with
    | true =>
      rw [if_pos rfl] at h
      refine forDown_post _ (fun _ Y => ∀ a c, ¬ SU true N a c → Y a c = B a c) N B X (fun _ _ _ => rfl) ?_ h
      intro i s s' hi hs e a c hac
      cases e
      rw [colSubU_frame hi hac, outSubU_frame (by omega) hac, hs a c hac]
    | false =>
      rw [if_neg (by simp)] at h
      refine forDown_post _ (fun _ Y => ∀ a c, ¬ SU false N a c → Y a c = B a c) N B X (fun _ _ _ => rfl) ?_ h
      intro i s s' hi hs e a c hac
      cases e
      rw [outSubU_frame (by omega) hac, hs a c hac]
  | false =>
    have : ub = false := by cases ub <;> simp_all
    subst this
    rw [if_neg (by simp)] at h
    refine forDown_post _ (fun _ Y => ∀ a c, ¬ SU false N a c → Y a c = B a c) N B X (fun _ _ _ => rfl) ?_ h
    intro i s s' hi hs e a c hac
    obtain ⟨t, e1, e2⟩ := map_some' e
    subst e2
    rw [outSubU_frame (by omega) hac, divRow_frame hi hac e1, hs a c hac]

/-- The result for an upper triangle. -/
def DivU (ua ub : Bool) (N : Nat) (A B X : Nat → Nat → K) : Prop :=
  (∀ i j, i < N → j < N → ∑ k ∈ Finset.range N, upperMat ua A i k * upperMat ub X k j = upperMat ub B i j) ∧
  ∀ i j, ¬ SU ub N i j → X i j = B i j

theorem rowU_sound (ua ub : Bool) (N : Nat) (A B X : Nat → Nat → K) (hub : ub = true → ua = true) (h : rowU ua ub N A B = some X) :
    DivU ua ub N A B X := by
  refine ⟨?_, rowU_frame ua ub N A B X hub h⟩
  have s := rowU_sim ua ub N A B hub
  rw [h] at s
  obtain ⟨U, e, rfl⟩ := rel_some s
  exact (rowUpperM_sound ua N N A _ _ e).1

theorem colU_sound (ua ub : Bool) (N : Nat) (A B X : Nat → Nat → K) (hub : ub = true → ua = true) (h : colU ua ub N A B = some X) :
    DivU ua ub N A B X := by
  refine ⟨?_, colU_frame ua ub N A B X hub h⟩
  have s := colU_sim ua ub N A B hub
  rw [h] at s
  obtain ⟨U, e, rfl⟩ := rel_some s
  intro i j hi hj
  exact (colUpperM_sound ua N N (by omega) A _ _ e).1 i j hi hj

/-- What one column has to satisfy. -/
def ColOK (ua ub : Bool) (N : Nat) (A B Y : Nat → Nat → K) (j : Nat) : Prop :=
  ∀ i, i < N → ∑ k ∈ Finset.range N, upperMat ua A i k * upperMat ub Y k j = upperMat ub B i j

omit [DecidableEq K] in
theorem colOK_of (ua ub : Bool) (N : Nat) (A B Y : Nat → Nat → K) (j : Nat) (hj : j < N)
    (h : ∀ i, i ≤ j → ∑ k ∈ Finset.range (j + 1), upperMat ua A i k * upperMat ub Y k j = upperMat ub B i j) : ColOK ua ub N A B Y j := by
  intro i hi
  rw [sum_split (k := j + 1) _ (by omega)]
  rw [Finset.sum_eq_zero (s := Finset.range (N - (j + 1))) (fun k _ => by rw [up_gt ub Y (by omega), mul_zero]), add_zero]
  by_cases hij : i ≤ j
  · exact h i hij
  · rw [up_gt ub B (by omega)]
    refine Finset.sum_eq_zero fun k hk => ?_
    rw [Finset.mem_range] at hk
    rw [up_gt ua A (by omega), zero_mul]

omit [DecidableEq K] in
theorem colOK_congr {ua ub : Bool} {N : Nat} {A B Y Y' : Nat → Nat → K} {j : Nat} (h : ∀ k, Y' k j = Y k j) (hY : ColOK ua ub N A B Y j) :
    ColOK ua ub N A B Y' j := by
  intro i hi
  rw [← hY i hi]
  refine Finset.sum_congr rfl fun k _ => ?_
  congr 1
  unfold upperMat
  by_cases e : k = j
  · subst e; simp [h]
  · simp [h, e]

theorem colsU_sound (oa : Ord) (ua ub : Bool) (N : Nat) (A B X : Nat → Nat → K) (hub : ub = true → ua = true)
    (h : colsU oa ua ub N A B = some X) : DivU ua ub N A B X := by
  have key : (∀ j, j < N → ColOK ua ub N A B X j) ∧ (∀ a c, N ≤ c → X a c = B a c) ∧ ∀ a c, ¬ SU ub N a c → X a c = B a c := by
    unfold colsU at h
    cases ub with
    | true =>
      have hua : ua = true := hub rfl
      rw [if_pos rfl] at h
      have := forRange_post _ (fun r Y => (∀ j, j < r → ColOK ua true N A B Y j) ∧ (∀ a c, r ≤ c → Y a c = B a c) ∧
        ∀ a c, ¬ SU true N a c → Y a c = B a c) N 0 B X ⟨fun _ h => by omega, fun _ _ _ => rfl, fun _ _ _ => rfl⟩ ?_ h
      · simpa using this
      intro j Y Y' _ hj ⟨i1, i2, i3⟩ e
      have hj : j < N := by omega
      obtain ⟨x, e1, e2⟩ := map_some' e
      have sv := upperV_sound _ _ _ _ _ _ e1
      have hoff : ∀ a c, ¬ (c = j ∧ a < j) → Y' a c = Y a c := by
        intro a c hac
        rw [← e2, putCol, if_neg (by omega), colSubU, if_neg (by omega)]
      have hin : ∀ a, a < j → Y' a j = x a := by
        intro a ha
        rw [← e2, putCol, if_pos (by omega), Nat.sub_zero]
      refine ⟨?_, fun a c hc => by rw [hoff a c (by omega), i2 a c (by omega)], fun a c hac => ?_⟩
      · intro c hc
        by_cases hcj : c = j
        · subst hcj
          refine colOK_of ua true N A B Y' c hj fun i hi => ?_
          rw [Finset.sum_range_succ, up_eq]
          by_cases hic : i = c
          · subst hic
            rw [Finset.sum_eq_zero (fun k hk => by rw [Finset.mem_range] at hk; rw [up_gt ua A (by omega), zero_mul]), up_eq, up_eq, hua]; simp
          · have h1 := sv.1 i (by omega)
            have e3 : ∑ k ∈ Finset.range c, upperMat ua A i k * upperMat true Y' k c = ∑ k ∈ Finset.range c, upperMat ua A i k * x k :=
              Finset.sum_congr rfl fun k hk => by
                rw [Finset.mem_range] at hk
                rw [up_lt _ _ hk, hin k hk]
            rw [e3, h1, up_lt ua A (by omega), up_lt _ _ (by omega)]
            have hcs : colSubU A c Y i c = Y i c - A i c := by rw [colSubU, if_pos ⟨by omega, rfl⟩]
            dsimp only
            rw [hcs, i2 i c (by omega)]; simp
        · exact colOK_congr (fun k => hoff k c (by omega)) (i1 c (by omega))
      · rw [hoff a c (fun h' => hac ⟨by omega, by omega, by omega, fun _ => by omega⟩), i3 a c hac]
    | false =>
      rw [if_neg (by simp)] at h
      have := forRange_post _ (fun r Y => (∀ j, j < r → ColOK ua false N A B Y j) ∧ (∀ a c, r ≤ c → Y a c = B a c) ∧
        ∀ a c, ¬ SU false N a c → Y a c = B a c) N 0 B X ⟨fun _ h => by omega, fun _ _ _ => rfl, fun _ _ _ => rfl⟩ ?_ h
      · simpa using this
      intro j Y Y' _ hj ⟨i1, i2, i3⟩ e
      have hj : j < N := by omega
      obtain ⟨x, e1, e2⟩ := map_some' e
      have sv := upperV_sound _ _ _ _ _ _ e1
      have hoff : ∀ a c, ¬ (c = j ∧ a < j + 1) → Y' a c = Y a c := by
        intro a c hac
        rw [← e2, putCol, if_neg (by omega)]
      have hin : ∀ a, a < j + 1 → Y' a j = x a := by
        intro a ha
        rw [← e2, putCol, if_pos (by omega), Nat.sub_zero]
      refine ⟨?_, fun a c hc => by rw [hoff a c (by omega), i2 a c (by omega)], fun a c hac => ?_⟩
      · intro c hc
        by_cases hcj : c = j
        · subst hcj
          refine colOK_of ua false N A B Y' c hj fun i hi => ?_
          have z : ∀ (Z : Nat → Nat → K) {k}, k ≤ c → upperMat false Z k c = Z k c := fun Z {k} h => by
            rcases Nat.lt_or_eq_of_le h with h | h
            · exact up_lt _ _ h
            · subst h; simp [up_eq]
          have h1 : ∑ k ∈ Finset.range (c + 1), upperMat ua A i k * x k = Y i c := sv.1 i (by omega)
          rw [z B hi, ← i2 i c (le_refl _), ← h1]
          refine Finset.sum_congr rfl fun k hk => ?_
          rw [Finset.mem_range] at hk
          rw [z Y' (by omega), hin k hk]
        · exact colOK_congr (fun k => hoff k c (by omega)) (i1 c (by omega))
      · rw [hoff a c (fun h' => hac ⟨by omega, by omega, by omega, by simp⟩), i3 a c hac]
  exact ⟨fun i j hi hj => key.1 j hj i hi, key.2.2⟩

theorem doU_sound (nb nb2 : Nat) (hnb : 0 < nb) (hnb2 : 0 < nb2) (oa : Ord) (brm ua ub : Bool) (hub : ub = true → ua = true) :
    ∀ (fuel N : Nat) (A B X : Nat → Nat → K), doU nb nb2 oa brm ua ub fuel N A B = some X → DivU ua ub N A B X := by
  intro fuel
  induction fuel with
  | zero => intro N A B X h; cases h
  | succ fuel ih =>
    intro N A B X h
    rw [doU] at h
    by_cases hN : N ≤ nb2
    · rw [if_pos hN] at h
      cases brm with
      | true =>
        rw [if_pos rfl] at h
        by_cases ho : oa = .rm
        · rw [if_pos ho] at h; exact rowU_sound ua ub N A B X hub h
        · rw [if_neg ho] at h; exact colU_sound ua ub N A B X hub h
      | false => rw [if_neg (by simp)] at h; exact colsU_sound oa ua ub N A B X hub h
    rw [if_neg hN] at h
    obtain ⟨k0, kN⟩ := splitAt_spec nb N hnb (by omega)
    generalize hk : splitAt nb N = k at *
    dsimp only at h
    obtain ⟨B11, e11, h⟩ := bind_some' h
    obtain ⟨B01, e01, h⟩ := bind_some' h
    obtain ⟨B00, e00, h⟩ := map_some' h
    have s11 := ih _ _ _ _ e11
    have s00 := ih _ _ _ _ e00
    have s01 := upperM_sound nb nb2 hnb hnb2 _ _ _ _ _ _ _ _ e01
    have x00 : ∀ i j, i < k → j < k → X i j = B00 i j := fun i j hi hj => by
      rw [← h, paste, if_pos (by omega), Nat.sub_zero, Nat.sub_zero]
    have x01 : ∀ i j, i < k → k ≤ j → j < N → X i j = B01 i (j - k) := fun i j hi hj hjN => by
      rw [← h, paste, if_neg (by omega), paste, if_pos (by omega), Nat.sub_zero]
    have x11 : ∀ i j, k ≤ i → i < N → k ≤ j → j < N → X i j = B11 (i - k) (j - k) := fun i j hi hiN hj hjN => by
      rw [← h, paste, if_neg (by omega), paste, if_neg (by omega), paste, if_pos (by omega)]
    have xo : ∀ i j, ¬ (i < N ∧ j < N ∧ (i < k ∨ k ≤ j)) → X i j = B i j := fun i j hij => by
      rw [← h, paste, if_neg (by omega), paste, if_neg (by omega), paste, if_neg (by omega)]
    have u00 : ∀ i j, i < k → j < k → upperMat ub X i j = upperMat ub B00 i j := fun i j hi hj => by
      unfold upperMat; rw [x00 i j hi hj, x00 i i hi hi]
    have u11 : ∀ i j, i < N - k → j < N - k → upperMat ub X (k + i) (k + j) = upperMat ub B11 i j := fun i j hi hj => by
      unfold upperMat
      rw [x11 (k + i) (k + j) (by omega) (by omega) (by omega) (by omega), x11 (k + i) (k + i) (by omega) (by omega) (by omega) (by omega)]
      simp
    refine ⟨fun i j hi hj => ?_, fun i j hij => ?_⟩
    · rw [sum_split (k := k) _ (by omega)]
      by_cases hik : i < k
      · by_cases hjk : j < k
        · rw [Finset.sum_eq_zero (s := Finset.range (N - k)) (fun l _ => by rw [up_gt ub X (by omega), mul_zero]), add_zero,
            ← s00.1 i j hik hjk]
          refine Finset.sum_congr rfl fun l hl => ?_
          rw [Finset.mem_range] at hl
          rw [u00 l j hl hjk]
        · have h1 := s01.1 i (j - k) hik (by omega)
          rw [subMul, if_pos (by omega)] at h1
          have e1 : ∑ l ∈ Finset.range k, upperMat ua A i l * upperMat ub X l j = ∑ l ∈ Finset.range k, upperMat ua A i l * B01 l (j - k) :=
            Finset.sum_congr rfl fun l hl => by
              rw [Finset.mem_range] at hl
              rw [up_lt ub X (by omega), x01 l j hl (by omega) hj]
          have e2 : ∑ l ∈ Finset.range (N - k), upperMat ua A i (k + l) * upperMat ub X (k + l) j =
              ∑ l ∈ Finset.range (N - k), sub A 0 k i l * upperMat ub B11 l (j - k) :=
            Finset.sum_congr rfl fun l hl => by
              rw [Finset.mem_range] at hl
              rw [← u11 l (j - k) hl (by omega), show k + (j - k) = j by omega, up_lt ua A (by omega)]
              simp [sub]
          rw [e1, e2, h1, up_lt ub B (by omega)]
          simp [sub, show k + (j - k) = j by omega]
      · rw [Finset.sum_eq_zero (s := Finset.range k) (fun l hl => by
          rw [Finset.mem_range] at hl; rw [up_gt ua A (by omega), zero_mul]), zero_add]
        by_cases hjk : j < k
        · rw [Finset.sum_eq_zero (s := Finset.range (N - k)) (fun l _ => by rw [up_gt ub X (by omega), mul_zero]), up_gt ub B (by omega)]
        · have h1 := s11.1 (i - k) (j - k) (by omega) (by omega)
          have e1 : upperMat ub (sub B k k) (i - k) (j - k) = upperMat ub B i j := by
            rw [upperMat_shift, show k + (i - k) = i by omega, show k + (j - k) = j by omega]
          rw [← e1, ← h1]
          refine Finset.sum_congr rfl fun l hl => ?_
          rw [Finset.mem_range] at hl
          rw [upperMat_shift, show k + (i - k) = i by omega, ← u11 l (j - k) hl (by omega), show k + (j - k) = j by omega]
    · by_cases hin : i < N ∧ j < N ∧ (i < k ∨ k ≤ j)
      swap
      · exact xo i j hin
      have hn : ¬ (i ≤ j ∧ (ub = true → i ≠ j)) := fun h' => hij ⟨by omega, by omega, h'.1, h'.2⟩
      by_cases hik : i < k
      · have hjk : j < k := by
          by_contra hjk
          exact hn ⟨by omega, fun _ => by omega⟩
        rw [x00 i j hik hjk, s00.2 i j fun h' => hn h'.2.2]
      · rw [x11 i j (by omega) (by omega) (by omega) (by omega), s11.2 (i - k) (j - k) fun h' => hn
          ⟨by have := h'.2.2.1; omega, fun hu => by have := h'.2.2.2 hu; omega⟩]
        simp [sub, show k + (i - k) = i by omega, show k + (j - k) = j by omega]

theorem divRow_isSome {A X : Nat → Nat → K} {i lo hi : Nat} (h : A i i ≠ 0) : (divRow A i lo hi X).isSome := by
  unfold divRow; rw [if_neg h]; split <;> rfl

/-- No exception if no element of the diagonal is zero. -/
theorem doU_isSome (nb nb2 : Nat) (hnb : 0 < nb) (hnb2 : 0 < nb2) (oa : Ord) (brm ua ub : Bool) :
    ∀ (fuel N : Nat) (A B : Nat → Nat → K), N < fuel → (∀ i, i < N → dg ua A i ≠ 0) → (doU nb nb2 oa brm ua ub fuel N A B).isSome := by
  intro fuel
  induction fuel with
  | zero => intro N A B h; omega
  | succ fuel ih =>
    intro N A B hf hd
    rw [doU]
    by_cases hN : N ≤ nb2
    · rw [if_pos hN]
      cases brm with
      | true =>
        rw [if_pos rfl]
        by_cases ho : oa = .rm
        · rw [if_pos ho]; unfold rowU
          cases ua with
          | true => rw [if_pos rfl]; exact forDown_isSome _ _ _ fun _ _ _ => rfl
          | false => rw [if_neg (by simp)]; exact forDown_isSome _ _ _ fun i _ hi => divRow_isSome (by simpa [dg] using hd i hi)
        · rw [if_neg ho]; unfold colU
          cases ua with
          | true =>
            rw [if_pos rfl]
            split <;> exact forDown_isSome _ _ _ fun _ _ _ => rfl
          | false =>
            rw [if_neg (by simp)]; exact forDown_isSome _ _ _ fun i _ hi => by
              rw [Option.isSome_map]; exact divRow_isSome (by simpa [dg] using hd i hi)
      | false =>
        rw [if_neg (by simp)]; unfold colsU
        split
        · exact forRange_isSome _ _ _ _ fun j _ _ hj => by
            simp only [Option.isSome_map]; exact upperV_isSome _ _ _ _ _ fun i hi => hd i (by omega)
        · exact forRange_isSome _ _ _ _ fun j _ _ hj => by
            simp only [Option.isSome_map]; exact upperV_isSome _ _ _ _ _ fun i hi => hd i (by omega)
    · rw [if_neg hN]
      obtain ⟨k0, kN⟩ := splitAt_spec nb N hnb (by omega)
      generalize splitAt nb N = k at *
      dsimp only
      obtain ⟨B11, e11⟩ := Option.isSome_iff_exists.mp (ih (N - k) (sub A k k) (sub B k k) (by omega) fun i hi => by rw [dg_sub]; exact hd _ (by omega))
      rw [e11, Option.bind_some]
      obtain ⟨B01, e01⟩ := Option.isSome_iff_exists.mp (upperM_isSome nb nb2 hnb hnb2 oa brm ua k (N - k) A
        (subMul k (N - k) (N - k) (sub A 0 k) (upperMat ub B11) (sub B 0 k)) fun i hi => hd i (by omega))
      rw [e01, Option.bind_some, Option.isSome_map]
      exact ih k A B (by omega) fun i hi => hd i (by omega)

end TMV.TriDivT
