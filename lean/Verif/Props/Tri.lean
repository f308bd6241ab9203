import Verif.Model.Tri
import Verif.Spec.Lin
import Mathlib.Algebra.BigOperators.Intervals
import Mathlib.Algebra.BigOperators.Ring.Finset
import Mathlib.Tactic.Ring
import Mathlib.Tactic.FieldSimp
import Mathlib.Tactic.LinearCombination
import Mathlib.Data.Rat.Defs
import Mathlib.Algebra.Field.Rat

/-! C30: triangular solves. -/
namespace TMV

section loops
variable {S : Type _}

theorem forRange_post (body : Nat → S → Option S) (I : Nat → S → Prop) :
    ∀ (n lo : Nat) (s s' : S), I lo s →
      (∀ i s s', lo ≤ i → i < lo + n → I i s → body i s = some s' → I (i+1) s') →
      forRange body n lo s = some s' → I (lo + n) s' := by
  intro n
  induction n with
  | zero => intro lo s s' h _ e; cases e; exact h
  | succ n ih =>
    intro lo s s' h hb e
    simp only [forRange] at e
    cases h1 : body lo s with
    | none => rw [h1] at e; cases e
    | some s1 =>
      rw [h1] at e
      have := ih (lo+1) s1 s' (hb lo s s1 le_rfl (by omega) h h1)
        (fun i s s' a b => hb i s s' (by omega) (by omega)) e
      rwa [show lo + (n+1) = lo + 1 + n by omega]

theorem forDown_post (body : Nat → S → Option S) (I : Nat → S → Prop) :
    ∀ (n : Nat) (s s' : S), I n s →
      (∀ i s s', i < n → I (i+1) s → body i s = some s' → I i s') →
      forDown body n s = some s' → I 0 s' := by
  intro n
  induction n with
  | zero => intro s s' h _ e; cases e; exact h
  | succ n ih =>
    intro s s' h hb e
    simp only [forDown] at e
    cases h1 : body n s with
    | none => rw [h1] at e; cases e
    | some s1 =>
      rw [h1] at e
      exact ih s1 s' (hb n s s1 (by omega) h h1) (fun i s s' a => hb i s s' (by omega)) e

theorem forRange_isSome (body : Nat → S → Option S) :
    ∀ (n lo : Nat) (s : S), (∀ i s, lo ≤ i → i < lo + n → (body i s).isSome) →
      (forRange body n lo s).isSome := by
  intro n
  induction n with
  | zero => intro lo s _; rfl
  | succ n ih =>
    intro lo s h
    obtain ⟨s1, h1⟩ := Option.isSome_iff_exists.mp (h lo s le_rfl (by omega))
    simp only [forRange, h1, Option.bind_some]
    exact ih _ _ (fun i s a b => h i s (by omega) (by omega))

theorem forDown_isSome (body : Nat → S → Option S) :
    ∀ (n : Nat) (s : S), (∀ i s, i < n → (body i s).isSome) → (forDown body n s).isSome := by
  intro n
  induction n with
  | zero => intro s _; rfl
  | succ n ih =>
    intro s h
    obtain ⟨s1, h1⟩ := Option.isSome_iff_exists.mp (h n s (by omega))
    simp only [forDown, h1, Option.bind_some]
    exact ih _ (fun i s a => h i s (by omega))

end loops

variable {K : Type _} [Field K]

theorem sum_split {k N : Nat} (f : Nat → K) (h : k ≤ N) : ∑ l ∈ Finset.range N, f l =
    ∑ l ∈ Finset.range k, f l + ∑ l ∈ Finset.range (N-k), f (k+l) := by
  conv_lhs => rw [show N = k + (N-k) by omega]
  exact Finset.sum_range_add _ _ _

/-- The diagonal element meant by `ua`. -/
def dg (ua : Bool) (A : Nat → Nat → K) (i : Nat) : K := if ua then 1 else A i i

theorem upperMat_sum (ua : Bool) (A : Nat → Nat → K) (x : Nat → K) (N i : Nat) (hi : i < N) :
    ∑ k ∈ Finset.range N, upperMat ua A i k * x k =
      dg ua A i * x i + ∑ k ∈ Finset.Ico (i+1) N, A i k * x k := by
  rw [Finset.range_eq_Ico, ← Finset.sum_Ico_consecutive _ (Nat.zero_le i) hi.le,
    Finset.sum_eq_sum_Ico_succ_bot hi]
  rw [Finset.sum_eq_zero (s := Finset.Ico 0 i), zero_add]
  · congr 1
    · simp [upperMat, dg]
    · refine Finset.sum_congr rfl fun k hk => ?_
      rw [Finset.mem_Ico] at hk
      simp [upperMat, show i < k by omega]
  · intro k hk
    rw [Finset.mem_Ico] at hk
    simp [upperMat, show ¬ i < k by omega, show ¬ i = k by omega]

theorem lowerMat_sum (ua : Bool) (A : Nat → Nat → K) (x : Nat → K) (N i : Nat) (hi : i < N) :
    ∑ k ∈ Finset.range N, lowerMat ua A i k * x k =
      ∑ k ∈ Finset.range i, A i k * x k + dg ua A i * x i := by
  rw [Finset.range_eq_Ico, ← Finset.sum_Ico_consecutive _ (Nat.zero_le i) hi.le,
    Finset.sum_eq_sum_Ico_succ_bot hi]
  rw [Finset.sum_eq_zero (s := Finset.Ico (i+1) N), add_zero, Finset.range_eq_Ico]
  · congr 1
    · refine Finset.sum_congr rfl fun k hk => ?_
      rw [Finset.mem_Ico] at hk
      simp [lowerMat, show k < i by omega]
    · simp [lowerMat, dg]
  · intro k hk
    rw [Finset.mem_Ico] at hk
    simp [lowerMat, show ¬ k < i by omega, show ¬ i = k by omega]

namespace Tri
variable [DecidableEq K]

theorem subRow_eq (A : Nat → Nat → K) (i lo n : Nat) (b : Nat → K) (hi : i < lo ∨ lo + n ≤ i) :
    subRow A i lo n b = some (Function.update b i (b i - ∑ k ∈ Finset.Ico lo (lo+n), A i k * b k)) := by
  obtain ⟨c, h1, h2⟩ := forRange_inv
    (fun j b => some (Function.update b i (b i - b j * A i j)))
    (fun j c => c = Function.update b i (b i - ∑ k ∈ Finset.Ico lo j, A i k * b k)) n lo b
    (by simp)
    (by
      intro j c hj1 hj2 hc
      refine ⟨_, rfl, ?_⟩
      subst hc
      have : j ≠ i := by omega
      simp only [Function.update_self, Function.update_of_ne this, Function.update_idem]
      rw [Finset.sum_Ico_succ_top hj1]
      congr 1
      ring)
  rw [subRow, h1, h2]

theorem subCol_eq (A : Nat → Nat → K) (j lo n : Nat) (b : Nat → K) (hj : j < lo ∨ lo + n ≤ j) :
    subCol A j lo n b = some (fun i => if lo ≤ i ∧ i < lo+n then b i - b j * A i j else b i) := by
  obtain ⟨c, h1, h2⟩ := forRange_inv
    (fun i b => some (Function.update b i (b i - b j * A i j)))
    (fun m c => c = fun i => if lo ≤ i ∧ i < m then b i - b j * A i j else b i) n lo b
    (by funext i; rw [if_neg (by omega)])
    (by
      intro m c hj1 hj2 hc
      refine ⟨_, rfl, ?_⟩
      subst hc
      funext i
      by_cases h : i = m
      · subst h
        rw [Function.update_self]
        dsimp only
        rw [if_neg (by omega), if_neg (by omega), if_pos (by omega)]
      · rw [Function.update_of_ne h]
        by_cases h' : lo ≤ i ∧ i < m
        · rw [if_pos h', if_pos (by omega)]
        · rw [if_neg h', if_neg (by omega)])
  rw [subCol, h1, h2]

theorem diagDiv_some {ua : Bool} {A : Nat → Nat → K} {i : Nat} {b c : Nat → K}
    (h : diagDiv ua A i b = some c) :
    dg ua A i * c i = b i ∧ ∀ k, k ≠ i → c k = b k := by
  unfold diagDiv at h
  cases ua with
  | true => simp only [if_true, Option.some.injEq] at h; subst h; simp [dg]
  | false =>
    simp only [Bool.false_eq_true, if_false, divBy] at h
    by_cases hd : A i i = 0
    · simp [hd] at h
    · simp only [hd, if_false, Option.map_some, Option.some.injEq] at h
      subst h
      refine ⟨?_, fun k hk => Function.update_of_ne hk _ _⟩
      simp only [dg, Bool.false_eq_true, if_false, Function.update_self]
      field_simp

theorem diagDiv_isSome {ua : Bool} {A : Nat → Nat → K} {i : Nat} {b : Nat → K}
    (h : dg ua A i ≠ 0) : (diagDiv ua A i b).isSome := by
  unfold diagDiv
  cases ua with
  | true => rfl
  | false =>
    have : A i i ≠ 0 := by simpa [dg] using h
    simp [divBy, this]

theorem bind_some' {α β} {x : Option α} {f : α → Option β} {y : β} (h : x.bind f = some y) :
    ∃ a, x = some a ∧ f a = some y := by
  cases x with
  | none => cases h
  | some a => exact ⟨a, rfl, h⟩

theorem rowUpper_sound (ua : Bool) (N : Nat) (hN : 0 < N) (A : Nat → Nat → K) (b x : Nat → K)
    (h : rowUpper ua N A b = some x) : SolV N (upperMat ua A) x b := by
  have key : (∀ i, i < N → dg ua A i * x i + ∑ k ∈ Finset.Ico (i+1) N, A i k * x k = b i) ∧
      ∀ i, N ≤ i → x i = b i := by
    simp only [rowUpper, Option.bind_eq_bind] at h
    obtain ⟨b1, h1, h2⟩ := bind_some' h
    obtain ⟨d1, d2⟩ := diagDiv_some h1
    have hs : (∀ i, N-1 ≤ i → i < N → dg ua A i * b1 i + ∑ k ∈ Finset.Ico (i+1) N, A i k * b1 k = b i) ∧
        (∀ i, i < N-1 → b1 i = b i) ∧ ∀ i, N ≤ i → b1 i = b i := by
      refine ⟨fun i a c => ?_, fun i a => d2 i (by omega), fun i a => d2 i (by omega)⟩
      have : i = N-1 := by omega
      subst this
      rw [show N - 1 + 1 = N by omega]
      simp [d1]
    by_cases h1N : N = 1
    · rw [if_pos h1N] at h2
      cases h2
      exact ⟨fun i a => hs.1 i (by omega) a, hs.2.2⟩
    · rw [if_neg h1N] at h2
      have := forDown_post _ (fun r c =>
        (∀ i, r ≤ i → i < N → dg ua A i * c i + ∑ k ∈ Finset.Ico (i+1) N, A i k * c k = b i) ∧
        (∀ i, i < r → c i = b i) ∧ ∀ i, N ≤ i → c i = b i) (N-1) b1 x hs
        (by
          intro r c c' hr ⟨i1, i2, i3⟩ e
          obtain ⟨c1, e1, e2⟩ := bind_some' e
          rw [subRow_eq _ _ _ _ _ (Or.inl (by omega))] at e1
          cases e1
          obtain ⟨f1, f2⟩ := diagDiv_some e2
          rw [Function.update_self, show r + 1 + (N-1-r) = N by omega] at f1
          have f3 : ∀ k, k ≠ r → c' k = c k := fun k hk => by
            rw [f2 k hk, Function.update_of_ne hk]
          refine ⟨fun i a a' => ?_, fun i a => by rw [f3 i (by omega), i2 i (by omega)],
            fun i a => by rw [f3 i (by omega), i3 i a]⟩
          have hsum : ∀ j, r ≤ j → ∑ k ∈ Finset.Ico (j+1) N, A i k * c' k =
              ∑ k ∈ Finset.Ico (j+1) N, A i k * c k := by
            intro j hj
            refine Finset.sum_congr rfl fun k hk => ?_
            rw [Finset.mem_Ico] at hk
            rw [f3 k (by omega)]
          by_cases hir : i = r
          · subst hir
            rw [f1, hsum _ le_rfl, i2 i (by omega)]
            ring
          · rw [f3 i hir, hsum _ a]
            exact i1 i (by omega) a') h2
      exact ⟨fun i a => this.1 i (Nat.zero_le _) a, this.2.2⟩
  exact ⟨fun i hi => by rw [upperMat_sum ua A x N i hi]; exact key.1 i hi, key.2⟩

theorem colUpper_sound (ua : Bool) (N : Nat) (hN : 0 < N) (A : Nat → Nat → K) (b x : Nat → K)
    (h : colUpper ua N A b = some x) : SolV N (upperMat ua A) x b := by
  have key : (∀ i, i < N → dg ua A i * x i + ∑ k ∈ Finset.Ico (i+1) N, A i k * x k = b i) ∧
      ∀ i, N ≤ i → x i = b i := by
    simp only [colUpper, Option.bind_eq_bind] at h
    obtain ⟨b1, h1, h2⟩ := bind_some' h
    have := forDown_post _ (fun r c =>
        (∀ i, r < i → i < N → dg ua A i * c i + ∑ k ∈ Finset.Ico (i+1) N, A i k * c k = b i) ∧
        (∀ i, i ≤ r → c i + ∑ k ∈ Finset.Ico (r+1) N, A i k * c k = b i) ∧
        ∀ i, N ≤ i → c i = b i) (N-1) b b1
        ⟨fun i a a' => by omega, fun i a => by rw [show N - 1 + 1 = N by omega]; simp, fun i _ => rfl⟩
        (by
          intro r c c' hr ⟨i1, i2, i3⟩ e
          by_cases hz : c (r+1) = 0
          · simp only [hz, ne_eq, not_true_eq_false, if_false, Option.some.injEq] at e
            subst e
            refine ⟨fun i a a' => ?_, fun i a => ?_, i3⟩
            · by_cases hi : i = r+1
              · subst hi
                rw [← i2 (r+1) le_rfl]
                simp [hz]
              · exact i1 i (by omega) a'
            · rw [Finset.sum_eq_sum_Ico_succ_bot (by omega), hz, ← i2 i (by omega)]
              ring
          · simp only [ne_eq, hz, not_false_eq_true, if_true] at e
            obtain ⟨c1, e1, e2⟩ := bind_some' e
            obtain ⟨f1, f2⟩ := diagDiv_some e1
            rw [subCol_eq _ _ _ _ _ (Or.inr (by omega))] at e2
            cases e2
            have g : ∀ k, r+1 ≤ k → (if 0 ≤ k ∧ k < 0 + (r+1) then c1 k - c1 (r+1) * A k (r+1) else c1 k) = c1 k :=
              fun k hk => if_neg (by omega)
            have gs : ∀ j i, r+1 ≤ j → ∑ k ∈ Finset.Ico j N,
                A i k * (if 0 ≤ k ∧ k < 0 + (r+1) then c1 k - c1 (r+1) * A k (r+1) else c1 k) =
                ∑ k ∈ Finset.Ico j N, A i k * c1 k := by
              intro j i hj
              refine Finset.sum_congr rfl fun k hk => ?_
              rw [Finset.mem_Ico] at hk
              rw [g k (by omega)]
            have gs2 : ∀ j i, r+1 < j → ∑ k ∈ Finset.Ico j N, A i k * c1 k =
                ∑ k ∈ Finset.Ico j N, A i k * c k := by
              intro j i hj
              refine Finset.sum_congr rfl fun k hk => ?_
              rw [Finset.mem_Ico] at hk
              rw [f2 k (by omega)]
            refine ⟨fun i a a' => ?_, fun i a => ?_, fun i a => ?_⟩
            · dsimp only
              rw [g i (by omega), gs _ _ (by omega), gs2 _ _ (by omega)]
              by_cases hi : i = r+1
              · subst hi
                rw [f1, i2 _ le_rfl]
              · rw [f2 i hi]
                exact i1 i (by omega) a'
            · dsimp only
              rw [gs _ _ (by omega), if_pos (by omega), Finset.sum_eq_sum_Ico_succ_bot (by omega),
                gs2 _ _ (by omega), ← i2 i (by omega), f2 i (by omega)]
              ring
            · dsimp only
              rw [g i (by omega), f2 i (by omega), i3 i a]) h1
    obtain ⟨i1, i2, i3⟩ := this
    by_cases hc : ¬ ua = true ∧ b1 0 ≠ 0
    · rw [if_pos (by simpa using hc)] at h2
      obtain ⟨f1, f2⟩ := diagDiv_some h2
      have gs : ∀ j i, 0 < j → ∑ k ∈ Finset.Ico j N, A i k * x k =
                ∑ k ∈ Finset.Ico j N, A i k * b1 k := by
        intro j i hj
        refine Finset.sum_congr rfl fun k hk => ?_
        rw [Finset.mem_Ico] at hk
        rw [f2 k (by omega)]
      refine ⟨fun i a => ?_, fun i a => by rw [f2 i (by omega), i3 i a]⟩
      rw [gs _ _ (by omega)]
      by_cases hi : i = 0
      · subst hi; rw [f1]; exact i2 0 le_rfl
      · rw [f2 i hi]; exact i1 i (by omega) a
    · rw [if_neg (by simpa using hc)] at h2
      cases h2
      refine ⟨fun i a => ?_, i3⟩
      by_cases hi : i = 0
      · subst hi
        rw [← i2 0 le_rfl]
        congr 1
        by_cases hu : ua = true
        · simp [dg, hu]
        · have : x 0 = 0 := by by_contra hx; exact hc ⟨hu, hx⟩
          simp [this]
      · exact i1 i (by omega) a
  exact ⟨fun i hi => by rw [upperMat_sum ua A x N i hi]; exact key.1 i hi, key.2⟩

theorem rowLower_sound (ua : Bool) (N : Nat) (hN : 0 < N) (A : Nat → Nat → K) (b x : Nat → K)
    (h : rowLower ua N A b = some x) : SolV N (lowerMat ua A) x b := by
  have key : (∀ i, i < N → ∑ k ∈ Finset.range i, A i k * x k + dg ua A i * x i = b i) ∧
      ∀ i, N ≤ i → x i = b i := by
    simp only [rowLower, Option.bind_eq_bind] at h
    obtain ⟨b1, h1, h2⟩ := bind_some' h
    obtain ⟨d1, d2⟩ := diagDiv_some h1
    have := forRange_post _ (fun r c =>
        (∀ i, i < r → ∑ k ∈ Finset.range i, A i k * c k + dg ua A i * c i = b i) ∧
        (∀ i, r ≤ i → c i = b i)) (N-1) 1 b1 x
        ⟨fun i a => by obtain rfl : i = 0 := by omega
                       simp [d1], fun i a => d2 i (by omega)⟩
        (by
          intro r c c' hr1 hr ⟨i1, i2⟩ e
          obtain ⟨c1, e1, e2⟩ := bind_some' e
          rw [subRow_eq _ _ _ _ _ (Or.inr (by omega))] at e1
          cases e1
          obtain ⟨f1, f2⟩ := diagDiv_some e2
          rw [Function.update_self] at f1
          have f3 : ∀ k, k ≠ r → c' k = c k := fun k hk => by
            rw [f2 k hk, Function.update_of_ne hk]
          have hsum : ∀ j i, j ≤ r → ∑ k ∈ Finset.range j, A i k * c' k =
              ∑ k ∈ Finset.range j, A i k * c k := by
            intro j i hj
            refine Finset.sum_congr rfl fun k hk => ?_
            rw [Finset.mem_range] at hk
            rw [f3 k (by omega)]
          refine ⟨fun i a => ?_, fun i a => by rw [f3 i (by omega), i2 i (by omega)]⟩
          rw [hsum i i (by omega)]
          by_cases hir : i = r
          · subst hir
            rw [f1, i2 i le_rfl, Finset.range_eq_Ico, zero_add]
            ring
          · rw [f3 i hir]
            exact i1 i (by omega)) h2
    rw [show 1 + (N-1) = N by omega] at this
    exact this
  exact ⟨fun i hi => by rw [lowerMat_sum ua A x N i hi]; exact key.1 i hi, key.2⟩

theorem colLower_sound (ua : Bool) (N : Nat) (hN : 0 < N) (A : Nat → Nat → K) (b x : Nat → K)
    (h : colLower ua N A b = some x) : SolV N (lowerMat ua A) x b := by
  have key : (∀ i, i < N → ∑ k ∈ Finset.range i, A i k * x k + dg ua A i * x i = b i) ∧
      ∀ i, N ≤ i → x i = b i := by
    simp only [colLower, Option.bind_eq_bind] at h
    obtain ⟨b1, h1, h2⟩ := bind_some' h
    have := forRange_post _ (fun r c =>
        (∀ i, i < r → ∑ k ∈ Finset.range i, A i k * c k + dg ua A i * c i = b i) ∧
        (∀ i, r ≤ i → i < N → ∑ k ∈ Finset.range r, A i k * c k + c i = b i) ∧
        ∀ i, N ≤ i → c i = b i) (N-1) 0 b b1
        ⟨fun i a => by omega, fun i a _ => by simp, fun i _ => rfl⟩
        (by
          intro r c c' _ hr ⟨i1, i2, i3⟩ e
          by_cases hz : c r = 0
          · simp only [hz, ne_eq, not_true_eq_false, if_false, Option.some.injEq] at e
            subst e
            refine ⟨fun i a => ?_, fun i a a' => ?_, i3⟩
            · by_cases hi : i = r
              · subst hi
                rw [← i2 i le_rfl (by omega)]
                simp [hz]
              · exact i1 i (by omega)
            · rw [Finset.sum_range_succ, hz, ← i2 i (by omega) a']
              ring
          · simp only [ne_eq, hz, not_false_eq_true, if_true] at e
            obtain ⟨c1, e1, e2⟩ := bind_some' e
            obtain ⟨f1, f2⟩ := diagDiv_some e1
            rw [subCol_eq _ _ _ _ _ (Or.inl (by omega))] at e2
            cases e2
            have g : ∀ k, k ≤ r → (if r+1 ≤ k ∧ k < r+1+(N-1-r) then c1 k - c1 r * A k r else c1 k) = c1 k :=
              fun k hk => if_neg (by omega)
            have gs : ∀ j i, j ≤ r+1 → ∑ k ∈ Finset.range j,
                A i k * (if r+1 ≤ k ∧ k < r+1+(N-1-r) then c1 k - c1 r * A k r else c1 k) =
                ∑ k ∈ Finset.range j, A i k * c1 k := by
              intro j i hj
              refine Finset.sum_congr rfl fun k hk => ?_
              rw [Finset.mem_range] at hk
              rw [g k (by omega)]
            have gs2 : ∀ j i, j ≤ r → ∑ k ∈ Finset.range j, A i k * c1 k =
                ∑ k ∈ Finset.range j, A i k * c k := by
              intro j i hj
              refine Finset.sum_congr rfl fun k hk => ?_
              rw [Finset.mem_range] at hk
              rw [f2 k (by omega)]
            refine ⟨fun i a => ?_, fun i a a' => ?_, fun i a => ?_⟩
            · dsimp only
              rw [g i (by omega), gs _ _ (by omega), gs2 _ _ (by omega)]
              by_cases hi : i = r
              · subst hi
                rw [f1, i2 _ le_rfl (by omega)]
              · rw [f2 i hi]
                exact i1 i (by omega)
            · dsimp only
              rw [gs _ _ (by omega), if_pos (by omega), Finset.sum_range_succ,
                gs2 _ _ (by omega), ← i2 i (by omega) a', f2 i (by omega)]
              ring
            · dsimp only
              rw [if_neg (by omega), f2 i (by omega), i3 i a]) h1
    rw [zero_add] at this
    obtain ⟨i1, i2, i3⟩ := this
    by_cases hc : ¬ ua = true ∧ b1 (N-1) ≠ 0
    · rw [if_pos (by simpa using hc)] at h2
      obtain ⟨f1, f2⟩ := diagDiv_some h2
      have gs : ∀ j i, j ≤ N-1 → ∑ k ∈ Finset.range j, A i k * x k =
                ∑ k ∈ Finset.range j, A i k * b1 k := by
        intro j i hj
        refine Finset.sum_congr rfl fun k hk => ?_
        rw [Finset.mem_range] at hk
        rw [f2 k (by omega)]
      refine ⟨fun i a => ?_, fun i a => by rw [f2 i (by omega), i3 i a]⟩
      rw [gs _ _ (by omega)]
      by_cases hi : i = N-1
      · subst hi; rw [f1]; exact i2 _ le_rfl a
      · rw [f2 i hi]; exact i1 i (by omega)
    · rw [if_neg (by simpa using hc)] at h2
      cases h2
      refine ⟨fun i a => ?_, i3⟩
      by_cases hi : i = N-1
      · subst hi
        rw [← i2 _ le_rfl a]
        congr 1
        by_cases hu : ua = true
        · simp [dg, hu]
        · have : x (N-1) = 0 := by by_contra hx; exact hc ⟨hu, hx⟩
          simp [this]
      · exact i1 i (by omega)
  exact ⟨fun i hi => by rw [lowerMat_sum ua A x N i hi]; exact key.1 i hi, key.2⟩

/-! ### No exception without a zero on the diagonal -/

theorem rowUpper_isSome (ua : Bool) (N : Nat) (A : Nat → Nat → K) (b : Nat → K) (hN : 0 < N)
    (hd : ∀ i, i < N → dg ua A i ≠ 0) : (rowUpper ua N A b).isSome := by
  simp only [rowUpper, Option.bind_eq_bind]
  obtain ⟨c, hc⟩ := Option.isSome_iff_exists.mp (diagDiv_isSome (b := b) (hd (N-1) (by omega)))
  rw [hc, Option.bind_some]
  split
  · rfl
  · apply forDown_isSome
    intro r s hr
    rw [subRow_eq _ _ _ _ _ (Or.inl (by omega)), Option.bind_some]
    exact diagDiv_isSome (hd r (by omega))

theorem colUpper_isSome (ua : Bool) (N : Nat) (A : Nat → Nat → K) (b : Nat → K) (hN : 0 < N)
    (hd : ∀ i, i < N → dg ua A i ≠ 0) : (colUpper ua N A b).isSome := by
  simp only [colUpper, Option.bind_eq_bind]
  obtain ⟨c, hc⟩ := Option.isSome_iff_exists.mp (forDown_isSome (fun r b =>
    if b (r+1) ≠ 0 then (diagDiv ua A (r+1) b).bind (subCol A (r+1) 0 (r+1)) else some b) (N-1) b
    (by
      intro r s hr
      split
      · obtain ⟨c, hc⟩ := Option.isSome_iff_exists.mp (diagDiv_isSome (b := s) (hd (r+1) (by omega)))
        rw [hc, Option.bind_some, subCol_eq _ _ _ _ _ (Or.inr (by omega))]
        rfl
      · rfl))
  rw [hc, Option.bind_some]
  split
  · exact diagDiv_isSome (hd 0 hN)
  · rfl

theorem rowLower_isSome (ua : Bool) (N : Nat) (A : Nat → Nat → K) (b : Nat → K) (hN : 0 < N)
    (hd : ∀ i, i < N → dg ua A i ≠ 0) : (rowLower ua N A b).isSome := by
  simp only [rowLower, Option.bind_eq_bind]
  obtain ⟨c, hc⟩ := Option.isSome_iff_exists.mp (diagDiv_isSome (b := b) (hd 0 (by omega)))
  rw [hc, Option.bind_some]
  apply forRange_isSome
  intro r s _ hr
  rw [subRow_eq _ _ _ _ _ (Or.inr (by omega)), Option.bind_some]
  exact diagDiv_isSome (hd r (by omega))

theorem colLower_isSome (ua : Bool) (N : Nat) (A : Nat → Nat → K) (b : Nat → K) (hN : 0 < N)
    (hd : ∀ i, i < N → dg ua A i ≠ 0) : (colLower ua N A b).isSome := by
  simp only [colLower, Option.bind_eq_bind]
  obtain ⟨c, hc⟩ := Option.isSome_iff_exists.mp (forRange_isSome (fun j b =>
    if b j ≠ 0 then (diagDiv ua A j b).bind (subCol A j (j+1) (N-1-j)) else some b) (N-1) 0 b
    (by
      intro r s _ hr
      split
      · obtain ⟨c, hc⟩ := Option.isSome_iff_exists.mp (diagDiv_isSome (b := s) (hd r (by omega)))
        rw [hc, Option.bind_some, subCol_eq _ _ _ _ _ (Or.inl (by omega))]
        rfl
      · rfl))
  rw [hc, Option.bind_some]
  split
  · exact diagDiv_isSome (hd _ (by omega))
  · rfl

/-! ### Trimming zeros -/

theorem trimHi_spec (b : Nat → K) : ∀ n, trimHi b n ≤ n ∧ ∀ k, trimHi b n ≤ k → k < n → b k = 0
  | 0 => ⟨le_rfl, fun k _ h => by omega⟩
  | n+1 => by
    unfold trimHi
    split
    · rename_i h
      have := trimHi_spec b n
      refine ⟨by omega, fun k a c => ?_⟩
      by_cases hk : k = n
      · rw [hk, h]
      · exact this.2 k a (by omega)
    · exact ⟨le_rfl, fun k a c => by omega⟩

theorem trimLo_spec (b : Nat → K) : ∀ n i, i ≤ trimLo b n i ∧ trimLo b n i ≤ i + n ∧
    ∀ k, i ≤ k → k < trimLo b n i → b k = 0
  | 0, i => ⟨le_rfl, le_rfl, fun k a c => by simp only [trimLo] at c; omega⟩
  | n+1, i => by
    unfold trimLo
    split
    · rename_i h
      have := trimLo_spec b n (i+1)
      refine ⟨by omega, by omega, fun k a c => ?_⟩
      by_cases hk : k = i
      · rw [hk, h]
      · exact this.2.2 k (by omega) c
    · exact ⟨le_rfl, by omega, fun k a c => by omega⟩

/-- **C30** (vector, upper): whenever `b /= U` returns, the result solves `U x = b`. -/
theorem upperV_sound (o : Ord) (ua : Bool) (N : Nat) (A : Nat → Nat → K) (b x : Nat → K)
    (h : upperV o ua N A b = some x) : SolV N (upperMat ua A) x b := by
  unfold upperV at h
  by_cases hN : N = 0
  · rw [if_pos hN] at h; cases h; subst hN
    exact ⟨fun i hi => by omega, fun _ _ => rfl⟩
  rw [if_neg hN] at h
  dsimp only at h
  obtain ⟨t1, t2⟩ := trimHi_spec b N
  generalize hi2 : trimHi b N = i2 at *
  have main : ∀ y, SolV i2 (upperMat ua A) y b → SolV N (upperMat ua A) y b := by
    intro y ⟨s1, s2⟩
    have hz : ∀ k, i2 ≤ k → k < N → y k = 0 := fun k a c => by rw [s2 k a, t2 k a c]
    refine ⟨fun i hi => ?_, fun i hi => s2 i (by omega)⟩
    by_cases hii : i < i2
    · rw [← s1 i hii]
      refine (Finset.sum_subset (by intro k; simp only [Finset.mem_range]; omega) ?_).symm
      intro k a c
      simp only [Finset.mem_range] at a c
      rw [hz k (by omega) a, mul_zero]
    · rw [t2 i (by omega) hi]
      refine Finset.sum_eq_zero fun k hk => ?_
      simp only [Finset.mem_range] at hk
      by_cases hki : i2 ≤ k
      · rw [hz k hki hk, mul_zero]
      · simp [upperMat, show ¬ i < k by omega, show ¬ i = k by omega]
  by_cases h0 : i2 = 0
  · rw [if_pos h0] at h
    cases h
    subst h0
    exact main _ ⟨fun i hi => by omega, fun _ _ => rfl⟩
  · rw [if_neg h0] at h
    apply main
    cases o with
    | rm => exact rowUpper_sound ua i2 (by omega) A b x h
    | cm => exact colUpper_sound ua i2 (by omega) A b x h
    | no => exact rowUpper_sound ua i2 (by omega) A b x h

/-- **C30** (vector, lower): whenever `b /= L` returns, the result solves `L x = b`. -/
theorem lowerV_sound (o : Ord) (ua : Bool) (N : Nat) (A : Nat → Nat → K) (b x : Nat → K)
    (h : lowerV o ua N A b = some x) : SolV N (lowerMat ua A) x b := by
  unfold lowerV at h
  by_cases hN : N = 0
  · rw [if_pos hN] at h; cases h; subst hN
    exact ⟨fun i hi => by omega, fun _ _ => rfl⟩
  rw [if_neg hN] at h
  dsimp only at h
  obtain ⟨_, t1, t2⟩ := trimLo_spec b N 0
  rw [zero_add] at t1
  generalize hi1 : trimLo b N 0 = i1 at *
  have t3 : ∀ k, k < i1 → b k = 0 := fun k hk => t2 k (Nat.zero_le _) hk
  by_cases h0 : i1 = N
  · rw [if_pos h0] at h
    cases h
    subst h0
    refine ⟨fun i hi => ?_, fun _ _ => rfl⟩
    rw [t3 i hi]
    refine Finset.sum_eq_zero fun k hk => ?_
    rw [t3 k (by simpa using hk), mul_zero]
  · rw [if_neg h0] at h
    cases hc : doLower o ua (N-i1) (fun i j => A (i1+i) (i1+j)) (fun i => b (i1+i)) with
    | none => rw [hc] at h; cases h
    | some c =>
      rw [hc, Option.map_some] at h
      cases h
      obtain ⟨s1, s2⟩ : SolV (N-i1) (lowerMat ua (fun i j => A (i1+i) (i1+j))) c (fun i => b (i1+i)) := by
        cases o with
        | rm => exact rowLower_sound ua _ (by omega) _ _ _ hc
        | cm => exact colLower_sound ua _ (by omega) _ _ _ hc
        | no => exact rowLower_sound ua _ (by omega) _ _ _ hc
      refine ⟨fun i hi => ?_, fun i hi => ?_⟩
      · rw [show N = i1 + (N - i1) by omega, Finset.sum_range_add]
        have z : ∑ k ∈ Finset.range i1, lowerMat ua A i k * (if k < i1 then b k else c (k-i1)) = 0 := by
          refine Finset.sum_eq_zero fun k hk => ?_
          have hk' : k < i1 := by simpa using hk
          rw [if_pos hk', t3 k hk', mul_zero]
        rw [z, zero_add]
        by_cases hii : i < i1
        · rw [t3 i hii]
          refine Finset.sum_eq_zero fun k _ => ?_
          simp [lowerMat, show ¬ i1 + k < i by omega, show ¬ i = i1 + k by omega]
        · have := s1 (i - i1) (by omega)
          dsimp only at this
          rw [show i1 + (i - i1) = i by omega] at this
          rw [← this]
          refine Finset.sum_congr rfl fun k _ => ?_
          dsimp only
          rw [if_neg (by omega), show i1 + k - i1 = k by omega]
          congr 1
          simp only [lowerMat]
          rw [show i1 + (i - i1) = i by omega]
          by_cases e1 : k < i - i1
          · rw [if_pos e1, if_pos (by omega)]
          · rw [if_neg e1, if_neg (by omega)]
            by_cases e2 : i - i1 = k
            · rw [if_pos e2, if_pos (by omega)]
            · rw [if_neg e2, if_neg (by omega)]
      · dsimp only
        rw [if_neg (by omega), s2 (i-i1) (by omega)]
        dsimp only
        rw [show i1 + (i - i1) = i by omega]

theorem upperV_isSome (o : Ord) (ua : Bool) (N : Nat) (A : Nat → Nat → K) (b : Nat → K)
    (hd : ∀ i, i < N → dg ua A i ≠ 0) : (upperV o ua N A b).isSome := by
  unfold upperV
  split
  · rfl
  dsimp only
  split
  · rfl
  · have t := (trimHi_spec b N).1
    have : ∀ i, i < trimHi b N → dg ua A i ≠ 0 := fun i hi => hd i (by omega)
    cases o
    · exact rowUpper_isSome _ _ _ _ (by omega) this
    · exact colUpper_isSome _ _ _ _ (by omega) this
    · exact rowUpper_isSome _ _ _ _ (by omega) this

theorem lowerV_isSome (o : Ord) (ua : Bool) (N : Nat) (A : Nat → Nat → K) (b : Nat → K)
    (hd : ∀ i, i < N → dg ua A i ≠ 0) : (lowerV o ua N A b).isSome := by
  unfold lowerV
  split
  · rfl
  dsimp only
  split
  · rfl
  · have t := (trimLo_spec b N 0).2.1
    have : ∀ i, i < N - trimLo b N 0 → dg ua (fun i j => A (trimLo b N 0 + i) (trimLo b N 0 + j)) i ≠ 0 :=
      fun i hi => hd (trimLo b N 0 + i) (by omega)
    rw [Option.isSome_map]
    cases o
    · exact rowLower_isSome _ _ _ _ (by omega) this
    · exact colLower_isSome _ _ _ _ (by omega) this
    · exact rowLower_isSome _ _ _ _ (by omega) this

/-! ### Matrix right-hand sides -/

theorem diagDivM_some {ua : Bool} {A : Nat → Nat → K} {i nc : Nat} {B C : Nat → Nat → K}
    (h : diagDivM ua A i nc B = some C) :
    (∀ c, c < nc → dg ua A i * C i c = B i c) ∧ ∀ k c, ¬ (k = i ∧ c < nc) → C k c = B k c := by
  unfold diagDivM at h
  cases ua with
  | true => simp only [if_true, Option.some.injEq] at h; subst h; simp [dg]
  | false =>
    simp only [Bool.false_eq_true, if_false] at h
    by_cases hd : A i i = 0
    · simp [hd] at h
    · simp only [hd, if_false, Option.some.injEq] at h
      subst h
      refine ⟨fun c hc => ?_, fun k c hk => if_neg hk⟩
      simp only [dg, Bool.false_eq_true, if_false, true_and, hc, if_true]
      field_simp

theorem diagDivM_isSome {ua : Bool} {A : Nat → Nat → K} {i nc : Nat} {B : Nat → Nat → K}
    (h : dg ua A i ≠ 0) : (diagDivM ua A i nc B).isSome := by
  unfold diagDivM
  cases ua with
  | true => rfl
  | false =>
    have : A i i ≠ 0 := by simpa [dg] using h
    simp [this]

theorem upper_conv {ua : Bool} {A X B : Nat → Nat → K} {N nc : Nat}
    (h1 : ∀ i c, i < N → c < nc → dg ua A i * X i c + ∑ k ∈ Finset.Ico (i+1) N, A i k * X k c = B i c)
    (h2 : ∀ i c, ¬ (i < N ∧ c < nc) → X i c = B i c) : SolM N nc (upperMat ua A) X B :=
  ⟨fun i c hi hc => by rw [upperMat_sum ua A (fun k => X k c) N i hi]; exact h1 i c hi hc, h2⟩

theorem lower_conv {ua : Bool} {A X B : Nat → Nat → K} {N nc : Nat}
    (h1 : ∀ i c, i < N → c < nc → ∑ k ∈ Finset.range i, A i k * X k c + dg ua A i * X i c = B i c)
    (h2 : ∀ i c, ¬ (i < N ∧ c < nc) → X i c = B i c) : SolM N nc (lowerMat ua A) X B :=
  ⟨fun i c hi hc => by rw [lowerMat_sum ua A (fun k => X k c) N i hi]; exact h1 i c hi hc, h2⟩

theorem rowUpperM_sound (ua : Bool) (N nc : Nat) (A B X : Nat → Nat → K)
    (h : rowUpperM ua N nc A B = some X) : SolM N nc (upperMat ua A) X B := by
  have := forDown_post _ (fun r C =>
      (∀ i c, r ≤ i → i < N → c < nc → dg ua A i * C i c + ∑ k ∈ Finset.Ico (i+1) N, A i k * C k c = B i c) ∧
      (∀ i c, ¬ (r ≤ i ∧ i < N ∧ c < nc) → C i c = B i c)) N B X
      ⟨fun i c a a' _ => by omega, fun i c _ => rfl⟩
      (by
        intro r C C' hr ⟨i1, i2⟩ e
        obtain ⟨f1, f2⟩ := diagDivM_some e
        have f3 : ∀ k c, ¬ (k = r ∧ c < nc) → C' k c = C k c := fun k c hk => by
          rw [f2 k c hk, subRowM, if_neg hk]
        refine ⟨fun i c a a' hc => ?_, fun i c a => by rw [f3 i c (by omega), i2 i c (by omega)]⟩
        have hsum : ∑ k ∈ Finset.Ico (i+1) N, A i k * C' k c = ∑ k ∈ Finset.Ico (i+1) N, A i k * C k c := by
          refine Finset.sum_congr rfl fun k hk => ?_
          rw [Finset.mem_Ico] at hk
          rw [f3 k c (by omega)]
        rw [hsum]
        by_cases hir : i = r
        · subst hir
          rw [f1 c hc, subRowM, if_pos ⟨rfl, hc⟩, Finset.sum_Ico_eq_sum_range, i2 i c (by omega),
            show N - (i+1) = N - 1 - i by omega]
          ring
        · rw [f3 i c (by omega)]
          exact i1 i c (by omega) a' hc) h
  exact upper_conv (fun i c hi hc => this.1 i c (Nat.zero_le _) hi hc) (fun i c a => this.2 i c (by omega))

theorem colUpperM_step {ua : Bool} {N nc r : Nat} {A B C C1 C' : Nat → Nat → K} (hr : r < N)
    (i1 : ∀ i c, r < i → i < N → c < nc → dg ua A i * C i c + ∑ k ∈ Finset.Ico (i+1) N, A i k * C k c = B i c)
    (i2 : ∀ i c, i ≤ r → c < nc → C i c + ∑ k ∈ Finset.Ico (r+1) N, A i k * C k c = B i c)
    (i3 : ∀ i c, ¬ (i < N ∧ c < nc) → C i c = B i c)
    (f1 : ∀ c, c < nc → dg ua A r * C1 r c = C r c) (f2 : ∀ k c, ¬ (k = r ∧ c < nc) → C1 k c = C k c)
    (e : C' = subOuterM A r 0 r nc C1) :
    (∀ i c, r ≤ i → i < N → c < nc → dg ua A i * C' i c + ∑ k ∈ Finset.Ico (i+1) N, A i k * C' k c = B i c) ∧
    (∀ i c, i < r → c < nc → C' i c + ∑ k ∈ Finset.Ico r N, A i k * C' k c = B i c) ∧
    (∀ i c, ¬ (i < N ∧ c < nc) → C' i c = B i c) := by
  subst e
  have g : ∀ k c, r ≤ k → subOuterM A r 0 r nc C1 k c = C1 k c := fun k c hk => by
    rw [subOuterM, if_neg (by omega)]
  have gs : ∀ i j c, r ≤ j → ∑ k ∈ Finset.Ico j N, A i k * subOuterM A r 0 r nc C1 k c =
      ∑ k ∈ Finset.Ico j N, A i k * C1 k c := by
    intro i j c hj
    refine Finset.sum_congr rfl fun k hk => ?_
    rw [Finset.mem_Ico] at hk
    rw [g k c (by omega)]
  have gs2 : ∀ i j c, r < j → ∑ k ∈ Finset.Ico j N, A i k * C1 k c =
      ∑ k ∈ Finset.Ico j N, A i k * C k c := by
    intro i j c hj
    refine Finset.sum_congr rfl fun k hk => ?_
    rw [Finset.mem_Ico] at hk
    rw [f2 k c (by omega)]
  refine ⟨fun i c a a' hc => ?_, fun i c a hc => ?_, fun i c a => ?_⟩
  · rw [g i c a, gs _ _ _ (by omega), gs2 _ _ _ (by omega)]
    by_cases hi : i = r
    · subst hi; rw [f1 c hc, i2 i c le_rfl hc]
    · rw [f2 i c (by omega)]; exact i1 i c (by omega) a' hc
  · rw [gs _ _ _ le_rfl, Finset.sum_eq_sum_Ico_succ_bot hr, gs2 _ _ _ (by omega), ← i2 i c (by omega) hc,
      subOuterM, if_pos (by omega), f2 i c (by omega)]
    ring
  · by_cases hc : c < nc
    · rw [g i c (by omega), f2 i c (by omega), i3 i c a]
    · rw [subOuterM, if_neg (by omega), f2 i c (by omega), i3 i c a]

theorem colUpperM_sound (ua : Bool) (N nc : Nat) (hN : 0 < N) (A B X : Nat → Nat → K)
    (h : colUpperM ua N nc A B = some X) : SolM N nc (upperMat ua A) X B := by
  unfold colUpperM at h
  cases ua with
  | true =>
    rw [if_pos rfl] at h
    have := forDown_post _ (fun r C =>
      (∀ i c, r < i → i < N → c < nc → dg true A i * C i c + ∑ k ∈ Finset.Ico (i+1) N, A i k * C k c = B i c) ∧
      (∀ i c, i ≤ r → c < nc → C i c + ∑ k ∈ Finset.Ico (r+1) N, A i k * C k c = B i c) ∧
      (∀ i c, ¬ (i < N ∧ c < nc) → C i c = B i c)) (N-1) B X
      ⟨fun i c a a' _ => by omega, fun i c a _ => by rw [show N - 1 + 1 = N by omega]; simp, fun i c _ => rfl⟩
      (by
        intro r C C' hr ⟨i1, i2, i3⟩ e
        cases e
        have := colUpperM_step (C1 := C) (by omega) i1 i2 i3 (fun c _ => by simp [dg]) (fun _ _ _ => rfl) rfl
        refine ⟨fun i c a => this.1 i c (by omega), fun i c a => this.2.1 i c (by omega), this.2.2⟩) h
    refine upper_conv (fun i c hi hc => ?_) this.2.2
    by_cases h0 : i = 0
    · subst h0
      have := this.2.1 0 c le_rfl hc
      simpa [dg] using this
    · exact this.1 i c (by omega) hi hc
  | false =>
    simp only [Bool.false_eq_true, if_false] at h
    have := forDown_post _ (fun r C =>
      (∀ i c, r ≤ i → i < N → c < nc → dg false A i * C i c + ∑ k ∈ Finset.Ico (i+1) N, A i k * C k c = B i c) ∧
      (∀ i c, i < r → c < nc → C i c + ∑ k ∈ Finset.Ico r N, A i k * C k c = B i c) ∧
      (∀ i c, ¬ (i < N ∧ c < nc) → C i c = B i c)) N B X
      ⟨fun i c a a' _ => by omega, fun i c a _ => by simp, fun i c _ => rfl⟩
      (by
        intro r C C' hr ⟨i1, i2, i3⟩ e
        cases hC1 : diagDivM false A r nc C with
        | none => rw [hC1] at e; cases e
        | some C1 =>
          rw [hC1, Option.map_some] at e
          obtain ⟨f1, f2⟩ := diagDivM_some hC1
          exact colUpperM_step hr (fun i c a => i1 i c (by omega)) (fun i c a => i2 i c (by omega)) i3 f1 f2
            (Option.some.inj e).symm) h
    exact upper_conv (fun i c hi hc => this.1 i c (Nat.zero_le _) hi hc) this.2.2

theorem rowLowerM_sound (ua : Bool) (N nc : Nat) (A B X : Nat → Nat → K)
    (h : rowLowerM ua N nc A B = some X) : SolM N nc (lowerMat ua A) X B := by
  have := forRange_post _ (fun r C =>
      (∀ i c, i < r → c < nc → ∑ k ∈ Finset.range i, A i k * C k c + dg ua A i * C i c = B i c) ∧
      (∀ i c, ¬ (i < r ∧ c < nc) → C i c = B i c)) N 0 B X
      ⟨fun i c a a' => by omega, fun i c _ => rfl⟩
      (by
        intro r C C' _ hr ⟨i1, i2⟩ e
        obtain ⟨f1, f2⟩ := diagDivM_some e
        have f3 : ∀ k c, ¬ (k = r ∧ c < nc) → C' k c = C k c := fun k c hk => by
          rw [f2 k c hk, subRowM, if_neg hk]
        refine ⟨fun i c a hc => ?_, fun i c a => by rw [f3 i c (by omega), i2 i c (by omega)]⟩
        have hsum : ∑ k ∈ Finset.range i, A i k * C' k c = ∑ k ∈ Finset.range i, A i k * C k c := by
          refine Finset.sum_congr rfl fun k hk => ?_
          rw [Finset.mem_range] at hk
          rw [f3 k c (by omega)]
        rw [hsum]
        by_cases hir : i = r
        · subst hir
          rw [f1 c hc, subRowM, if_pos ⟨rfl, hc⟩, i2 i c (by omega)]
          simp only [zero_add]
          ring
        · rw [f3 i c (by omega)]
          exact i1 i c (by omega) hc) h
  rw [zero_add] at this
  exact lower_conv this.1 this.2

theorem colLowerM_sound (ua : Bool) (N nc : Nat) (A B X : Nat → Nat → K)
    (h : colLowerM ua N nc A B = some X) : SolM N nc (lowerMat ua A) X B := by
  have := forRange_post _ (fun r C =>
      (∀ i c, i < r → c < nc → ∑ k ∈ Finset.range i, A i k * C k c + dg ua A i * C i c = B i c) ∧
      (∀ i c, r ≤ i → i < N → c < nc → ∑ k ∈ Finset.range r, A i k * C k c + C i c = B i c) ∧
      (∀ i c, ¬ (i < N ∧ c < nc) → C i c = B i c)) N 0 B X
      ⟨fun i c a a' => by omega, fun i c a _ _ => by simp, fun i c _ => rfl⟩
      (by
        intro r C C' _ hr ⟨i1, i2, i3⟩ e
        cases hC1 : diagDivM ua A r nc C with
        | none => rw [hC1] at e; cases e
        | some C1 =>
          rw [hC1, Option.map_some] at e
          cases e
          obtain ⟨f1, f2⟩ := diagDivM_some hC1
          have g : ∀ k c, k ≤ r → subOuterM A r (r+1) (N-1-r) nc C1 k c = C1 k c := fun k c hk => by
            rw [subOuterM, if_neg (by omega)]
          have gs : ∀ i j c, j ≤ r+1 → ∑ k ∈ Finset.range j, A i k * subOuterM A r (r+1) (N-1-r) nc C1 k c =
              ∑ k ∈ Finset.range j, A i k * C1 k c := by
            intro i j c hj
            refine Finset.sum_congr rfl fun k hk => ?_
            rw [Finset.mem_range] at hk
            rw [g k c (by omega)]
          have gs2 : ∀ i j c, j ≤ r → ∑ k ∈ Finset.range j, A i k * C1 k c =
              ∑ k ∈ Finset.range j, A i k * C k c := by
            intro i j c hj
            refine Finset.sum_congr rfl fun k hk => ?_
            rw [Finset.mem_range] at hk
            rw [f2 k c (by omega)]
          refine ⟨fun i c a hc => ?_, fun i c a a' hc => ?_, fun i c a => ?_⟩
          · rw [g i c (by omega), gs _ _ _ (by omega), gs2 _ _ _ (by omega)]
            by_cases hi : i = r
            · subst hi; rw [f1 c hc, i2 i c le_rfl (by omega) hc]
            · rw [f2 i c (by omega)]; exact i1 i c (by omega) hc
          · rw [gs _ _ _ le_rfl, Finset.sum_range_succ, gs2 _ _ _ le_rfl, ← i2 i c (by omega) a' hc,
              subOuterM, if_pos (by omega), f2 i c (by omega)]
            ring
          · rw [subOuterM, if_neg (by omega), f2 i c (by omega), i3 i c a]) h
  rw [zero_add] at this
  exact lower_conv this.1 this.2.2

theorem colsM_sound (f : (Nat → K) → Option (Nat → K)) (N nc : Nat) (T B X : Nat → Nat → K)
    (hf : ∀ b x, f b = some x → SolV N T x b) (h : colsM f N nc B = some X) : SolM N nc T X B := by
  have := forRange_post _ (fun j C =>
      (∀ i c, i < N → c < j → ∑ k ∈ Finset.range N, T i k * C k c = B i c) ∧
      (∀ i c, ¬ (i < N ∧ c < j) → C i c = B i c)) nc 0 B X
      ⟨fun i c _ a => by omega, fun _ _ _ => rfl⟩
      (by
        intro j C C' _ hj ⟨i1, i2⟩ e
        cases hx : f (fun i => C i j) with
        | none => rw [hx] at e; cases e
        | some x =>
          rw [hx, Option.map_some] at e
          cases e
          obtain ⟨s1, _⟩ := hf _ _ hx
          refine ⟨fun i c a b => ?_, fun i c a => ?_⟩
          · by_cases hc : c = j
            · subst hc
              rw [← i2 i c (by omega)]
              refine Eq.trans ?_ (s1 i a)
              refine Finset.sum_congr rfl fun k hk => ?_
              rw [Finset.mem_range] at hk
              dsimp only
              rw [if_pos ⟨rfl, hk⟩]
            · rw [← i1 i c a (by omega)]
              refine Finset.sum_congr rfl fun k hk => ?_
              dsimp only
              rw [if_neg (by omega)]
          · dsimp only
            rw [if_neg (by omega)]
            exact i2 i c (by omega)) h
  rw [zero_add] at this
  exact this

theorem colsM_isSome (f : (Nat → K) → Option (Nat → K)) (N nc : Nat) (B : Nat → Nat → K)
    (hf : ∀ b, (f b).isSome) : (colsM f N nc B).isSome := by
  apply forRange_isSome
  intro i s _ _
  rw [Option.isSome_map]
  exact hf _

theorem splitAt_spec (nb N : Nat) (hnb : 0 < nb) (hN : 1 < N) : 0 < splitAt nb N ∧ splitAt nb N < N := by
  unfold splitAt
  split
  · rename_i h
    have h1 : N/2/nb*nb ≤ N/2 := Nat.div_mul_le_self _ _
    have h2 : 1 ≤ N/2/nb := (Nat.one_le_div_iff hnb).mpr h.le
    have h3 : 1 * 1 ≤ N/2/nb*nb := Nat.mul_le_mul h2 hnb
    omega
  · omega

theorem upperMat_shift (ua : Bool) (A : Nat → Nat → K) (r i k : Nat) :
    upperMat ua (sub A r r) i k = upperMat ua A (r+i) (r+k) := by
  simp only [upperMat, sub, add_lt_add_iff_left, add_right_inj]

theorem lowerMat_shift (ua : Bool) (A : Nat → Nat → K) (r i k : Nat) :
    lowerMat ua (sub A r r) i k = lowerMat ua A (r+i) (r+k) := by
  simp only [lowerMat, sub, add_lt_add_iff_left, add_right_inj]

theorem upperRec_sound (nb nb2 : Nat) (hnb : 0 < nb) (hnb2 : 0 < nb2) (o : Ord) (brm ua : Bool) (nc : Nat) :
    ∀ (fuel N : Nat) (A B X : Nat → Nat → K), 0 < N → upperRec nb nb2 o brm ua nc fuel N A B = some X →
      SolM N nc (upperMat ua A) X B := by
  intro fuel
  induction fuel with
  | zero => intro N A B X _ h; cases h
  | succ fuel ih =>
    intro N A B X hN h
    unfold upperRec at h
    by_cases hs : N ≤ nb2
    · rw [if_pos hs] at h
      by_cases hb : brm = true
      · rw [if_pos hb] at h
        by_cases ho : o = .rm
        · rw [if_pos ho] at h; exact rowUpperM_sound _ _ _ _ _ _ h
        · rw [if_neg ho] at h; exact colUpperM_sound _ _ _ hN _ _ _ h
      · rw [if_neg hb] at h
        exact colsM_sound _ _ _ _ _ _ (fun b x => upperV_sound o ua N A b x) h
    · rw [if_neg hs] at h
      obtain ⟨k1, k2⟩ := splitAt_spec nb N hnb (by omega)
      dsimp only at h
      generalize splitAt nb N = k at *
      obtain ⟨B1, e1, e2⟩ := bind_some' h
      cases hB0 : upperRec nb nb2 o brm ua nc fuel k A (subMul k nc (N-k) (sub A 0 k) B1 B) with
      | none => rw [hB0] at e2; cases e2
      | some B0 =>
        rw [hB0, Option.map_some] at e2
        cases e2
        obtain ⟨s1, s2⟩ := ih _ _ _ _ (by omega) e1
        obtain ⟨t1, t2⟩ := ih _ _ _ _ k1 hB0
        have v0 : ∀ l c, l < k → c < nc →
            paste (paste B k 0 (N-k) nc B1) 0 0 k nc B0 l c = B0 l c := fun l c a b => by
          rw [paste, if_pos (by omega)]; rfl
        have v1 : ∀ l c, l < N-k → c < nc →
            paste (paste B k 0 (N-k) nc B1) 0 0 k nc B0 (k+l) c = B1 l c := fun l c a b => by
          rw [paste, if_neg (by omega), paste, if_pos (by omega), show k + l - k = l by omega]; rfl
        refine ⟨fun i c hi hc => ?_, fun i c hic => ?_⟩
        · rw [sum_split _ k2.le]
          rw [Finset.sum_congr rfl (g := fun l => upperMat ua A i l * B0 l c) (fun l hl => by
            rw [v0 l c (by simpa using hl) hc])]
          rw [Finset.sum_congr (s₁ := Finset.range (N-k)) rfl (g := fun l => upperMat ua A i (k+l) * B1 l c)
            (fun l hl => by rw [v1 l c (by simpa using hl) hc])]
          by_cases hik : i < k
          · rw [t1 i c hik hc, subMul, if_pos ⟨hik, hc⟩]
            rw [Finset.sum_congr rfl (g := fun l => upperMat ua A i (k+l) * B1 l c) (fun l hl => by
              simp only [sub, zero_add, upperMat, show i < k + l by omega, if_true])]
            ring
          · rw [Finset.sum_eq_zero (s := Finset.range k) (fun l hl => by
              have : l < k := by simpa using hl
              simp [upperMat, show ¬ i < l by omega, show ¬ i = l by omega]), zero_add]
            have := s1 (i-k) c (by omega) hc
            simp only [upperMat_shift, show k + (i-k) = i by omega] at this
            rw [this]
            simp only [sub, zero_add, show k + (i-k) = i by omega]
        · rw [paste, if_neg (by omega), paste, if_neg (by omega)]

theorem lowerRec_sound (nb nb2 : Nat) (hnb : 0 < nb) (hnb2 : 0 < nb2) (o : Ord) (brm ua : Bool) (nc : Nat) :
    ∀ (fuel N : Nat) (A B X : Nat → Nat → K), 0 < N → lowerRec nb nb2 o brm ua nc fuel N A B = some X →
      SolM N nc (lowerMat ua A) X B := by
  intro fuel
  induction fuel with
  | zero => intro N A B X _ h; cases h
  | succ fuel ih =>
    intro N A B X hN h
    unfold lowerRec at h
    by_cases hs : N ≤ nb2
    · rw [if_pos hs] at h
      by_cases hb : brm = true
      · rw [if_pos hb] at h
        by_cases ho : o = .rm
        · rw [if_pos ho] at h; exact rowLowerM_sound _ _ _ _ _ _ h
        · rw [if_neg ho] at h; exact colLowerM_sound _ _ _ _ _ _ h
      · rw [if_neg hb] at h
        exact colsM_sound _ _ _ _ _ _ (fun b x => lowerV_sound o ua N A b x) h
    · rw [if_neg hs] at h
      obtain ⟨k1, k2⟩ := splitAt_spec nb N hnb (by omega)
      dsimp only at h
      generalize splitAt nb N = k at *
      obtain ⟨B0, e1, e2⟩ := bind_some' h
      cases hB1 : lowerRec nb nb2 o brm ua nc fuel (N-k) (sub A k k)
        (subMul (N-k) nc k (sub A k 0) B0 (sub B k 0)) with
      | none => rw [hB1] at e2; cases e2
      | some B1 =>
        rw [hB1, Option.map_some] at e2
        cases e2
        obtain ⟨s1, s2⟩ := ih _ _ _ _ k1 e1
        obtain ⟨t1, t2⟩ := ih _ _ _ _ (by omega) hB1
        have v0 : ∀ l c, l < k → c < nc →
            paste (paste B 0 0 k nc B0) k 0 (N-k) nc B1 l c = B0 l c := fun l c a b => by
          rw [paste, if_neg (by omega), paste, if_pos (by omega)]; rfl
        have v1 : ∀ l c, l < N-k → c < nc →
            paste (paste B 0 0 k nc B0) k 0 (N-k) nc B1 (k+l) c = B1 l c := fun l c a b => by
          rw [paste, if_pos (by omega), show k + l - k = l by omega]; rfl
        refine ⟨fun i c hi hc => ?_, fun i c hic => ?_⟩
        · rw [sum_split _ k2.le]
          rw [Finset.sum_congr rfl (g := fun l => lowerMat ua A i l * B0 l c) (fun l hl => by
            rw [v0 l c (by simpa using hl) hc])]
          rw [Finset.sum_congr (s₁ := Finset.range (N-k)) rfl (g := fun l => lowerMat ua A i (k+l) * B1 l c)
            (fun l hl => by rw [v1 l c (by simpa using hl) hc])]
          by_cases hik : i < k
          · rw [s1 i c hik hc, Finset.sum_eq_zero (s := Finset.range (N-k)) (fun l hl => by
              simp [lowerMat, show ¬ k + l < i by omega, show ¬ i = k + l by omega]), add_zero]
          · have := t1 (i-k) c (by omega) hc
            simp only [lowerMat_shift, show k + (i-k) = i by omega] at this
            rw [this, subMul, if_pos ⟨by omega, hc⟩]
            simp only [sub, zero_add, show k + (i-k) = i by omega]
            rw [Finset.sum_congr rfl (g := fun l => A i l * B0 l c) (fun l hl => by
              have : l < k := by simpa using hl
              simp only [lowerMat, show l < i by omega, if_true])]
            ring
        · rw [paste, if_neg (by omega), paste, if_neg (by omega)]

theorem dg_sub (ua : Bool) (A : Nat → Nat → K) (r i : Nat) : dg ua (sub A r r) i = dg ua A (r+i) := rfl

theorem upperRec_isSome (nb nb2 : Nat) (hnb : 0 < nb) (hnb2 : 0 < nb2) (o : Ord) (brm ua : Bool) (nc : Nat) :
    ∀ (fuel N : Nat) (A B : Nat → Nat → K), N < fuel → (∀ i, i < N → dg ua A i ≠ 0) →
      (upperRec nb nb2 o brm ua nc fuel N A B).isSome := by
  intro fuel
  induction fuel with
  | zero => intro N A B h; omega
  | succ fuel ih =>
    intro N A B hf hd
    unfold upperRec
    split
    · split
      · split
        · exact forDown_isSome _ _ _ (fun i s hi => diagDivM_isSome (hd i hi))
        · unfold colUpperM
          split
          · exact forDown_isSome _ _ _ (fun i s hi => rfl)
          · refine forDown_isSome _ _ _ (fun i s hi => ?_)
            rw [Option.isSome_map]
            exact diagDivM_isSome (hd i hi)
      · exact colsM_isSome _ _ _ _ (fun b => upperV_isSome o ua N A b hd)
    · obtain ⟨k1, k2⟩ := splitAt_spec nb N hnb (by omega)
      dsimp only
      generalize splitAt nb N = k at *
      obtain ⟨B1, e1⟩ := Option.isSome_iff_exists.mp
        (ih (N-k) (sub A k k) (sub B k 0) (by omega) (fun i hi => by rw [dg_sub]; exact hd _ (by omega)))
      rw [e1, Option.bind_some, Option.isSome_map]
      exact ih _ _ _ (by omega) (fun i hi => hd i (by omega))

theorem lowerRec_isSome (nb nb2 : Nat) (hnb : 0 < nb) (hnb2 : 0 < nb2) (o : Ord) (brm ua : Bool) (nc : Nat) :
    ∀ (fuel N : Nat) (A B : Nat → Nat → K), N < fuel → (∀ i, i < N → dg ua A i ≠ 0) →
      (lowerRec nb nb2 o brm ua nc fuel N A B).isSome := by
  intro fuel
  induction fuel with
  | zero => intro N A B h; omega
  | succ fuel ih =>
    intro N A B hf hd
    unfold lowerRec
    split
    · split
      · split
        · exact forRange_isSome _ _ _ _ (fun i s _ hi => diagDivM_isSome (hd i (by omega)))
        · refine forRange_isSome _ _ _ _ (fun i s _ hi => ?_)
          rw [Option.isSome_map]
          exact diagDivM_isSome (hd i (by omega))
      · exact colsM_isSome _ _ _ _ (fun b => lowerV_isSome o ua N A b hd)
    · obtain ⟨k1, k2⟩ := splitAt_spec nb N hnb (by omega)
      dsimp only
      generalize splitAt nb N = k at *
      obtain ⟨B1, e1⟩ := Option.isSome_iff_exists.mp
        (ih k A B (by omega) (fun i hi => hd i (by omega)))
      rw [e1, Option.bind_some, Option.isSome_map]
      exact ih _ _ _ (by omega) (fun i hi => by rw [dg_sub]; exact hd _ (by omega))

/-- **C30** (matrix right-hand side, upper): for every size, number of columns, block sizes, storage order and
diagonal type, whenever `B /= U` returns the result solves `U X = B`. -/
theorem upperM_sound (nb nb2 : Nat) (hnb : 0 < nb) (hnb2 : 0 < nb2) (o : Ord) (brm ua : Bool) (N nc : Nat)
    (A B X : Nat → Nat → K) (h : upperM nb nb2 o brm ua N nc A B = some X) :
    SolM N nc (upperMat ua A) X B := by
  unfold upperM at h
  by_cases h0 : N = 0 ∨ nc = 0
  · rw [if_pos h0] at h; cases h
    exact ⟨fun i c a b => by omega, fun _ _ _ => rfl⟩
  rw [if_neg h0] at h
  by_cases h1 : nc = 1
  · rw [if_pos h1] at h; subst h1
    exact colsM_sound _ _ _ _ _ _ (fun b x => upperV_sound o ua N A b x) h
  · rw [if_neg h1] at h
    exact upperRec_sound nb nb2 hnb hnb2 o brm ua nc _ _ _ _ _ (by omega) h

/-- **C30** (matrix right-hand side, lower). -/
theorem lowerM_sound (nb nb2 : Nat) (hnb : 0 < nb) (hnb2 : 0 < nb2) (o : Ord) (brm ua : Bool) (N nc : Nat)
    (A B X : Nat → Nat → K) (h : lowerM nb nb2 o brm ua N nc A B = some X) :
    SolM N nc (lowerMat ua A) X B := by
  unfold lowerM at h
  by_cases h0 : N = 0 ∨ nc = 0
  · rw [if_pos h0] at h; cases h
    exact ⟨fun i c a b => by omega, fun _ _ _ => rfl⟩
  rw [if_neg h0] at h
  by_cases h1 : nc = 1
  · rw [if_pos h1] at h; subst h1
    exact colsM_sound _ _ _ _ _ _ (fun b x => lowerV_sound o ua N A b x) h
  · rw [if_neg h1] at h
    exact lowerRec_sound nb nb2 hnb hnb2 o brm ua nc _ _ _ _ _ (by omega) h

/-- **C30**: no exception when the diagonal has no zero (or is implicit). -/
theorem upperM_isSome (nb nb2 : Nat) (hnb : 0 < nb) (hnb2 : 0 < nb2) (o : Ord) (brm ua : Bool) (N nc : Nat)
    (A B : Nat → Nat → K) (hd : ∀ i, i < N → dg ua A i ≠ 0) : (upperM nb nb2 o brm ua N nc A B).isSome := by
  unfold upperM
  split
  · rfl
  split
  · exact colsM_isSome _ _ _ _ (fun b => upperV_isSome o ua N A b hd)
  · exact upperRec_isSome nb nb2 hnb hnb2 o brm ua nc _ _ _ _ (by omega) hd

theorem lowerM_isSome (nb nb2 : Nat) (hnb : 0 < nb) (hnb2 : 0 < nb2) (o : Ord) (brm ua : Bool) (N nc : Nat)
    (A B : Nat → Nat → K) (hd : ∀ i, i < N → dg ua A i ≠ 0) : (lowerM nb nb2 o brm ua N nc A B).isSome := by
  unfold lowerM
  split
  · rfl
  split
  · exact colsM_isSome _ _ _ _ (fun b => lowerV_isSome o ua N A b hd)
  · exact lowerRec_isSome nb nb2 hnb hnb2 o brm ua nc _ _ _ _ (by omega) hd

/-- **C30**: if the triangular system has no solution, the division raises. -/
theorem upperV_raises (o : Ord) (ua : Bool) (N : Nat) (A : Nat → Nat → K) (b : Nat → K)
    (h : ¬ ∃ x : Nat → K, ∀ i, i < N → ∑ k ∈ Finset.range N, upperMat ua A i k * x k = b i) :
    upperV o ua N A b = none := by
  cases e : upperV o ua N A b with
  | none => rfl
  | some x => exact absurd ⟨x, (upperV_sound o ua N A b x e).1⟩ h

theorem lowerV_raises (o : Ord) (ua : Bool) (N : Nat) (A : Nat → Nat → K) (b : Nat → K)
    (h : ¬ ∃ x : Nat → K, ∀ i, i < N → ∑ k ∈ Finset.range N, lowerMat ua A i k * x k = b i) :
    lowerV o ua N A b = none := by
  cases e : lowerV o ua N A b with
  | none => rfl
  | some x => exact absurd ⟨x, (lowerV_sound o ua N A b x e).1⟩ h

theorem upperM_raises (nb nb2 : Nat) (hnb : 0 < nb) (hnb2 : 0 < nb2) (o : Ord) (brm ua : Bool) (N nc : Nat)
    (A B : Nat → Nat → K)
    (h : ¬ ∃ X : Nat → Nat → K, ∀ i c, i < N → c < nc →
      ∑ k ∈ Finset.range N, upperMat ua A i k * X k c = B i c) :
    upperM nb nb2 o brm ua N nc A B = none := by
  cases e : upperM nb nb2 o brm ua N nc A B with
  | none => rfl
  | some x => exact absurd ⟨x, (upperM_sound nb nb2 hnb hnb2 o brm ua N nc A B x e).1⟩ h

theorem lowerM_raises (nb nb2 : Nat) (hnb : 0 < nb) (hnb2 : 0 < nb2) (o : Ord) (brm ua : Bool) (N nc : Nat)
    (A B : Nat → Nat → K)
    (h : ¬ ∃ X : Nat → Nat → K, ∀ i c, i < N → c < nc →
      ∑ k ∈ Finset.range N, lowerMat ua A i k * X k c = B i c) :
    lowerM nb nb2 o brm ua N nc A B = none := by
  cases e : lowerM nb nb2 o brm ua N nc A B with
  | none => rfl
  | some x => exact absurd ⟨x, (lowerM_sound nb nb2 hnb hnb2 o brm ua N nc A B x e).1⟩ h

/-- A zero on the diagonal alone does not make the division raise: `(2,0) / diag(1,0)` (column major)
returns, with a solution. -/
theorem zero_diag_not_raised_violated :
    ∃ A : Nat → Nat → ℚ, ∃ b : Nat → ℚ, A 1 1 = 0 ∧ (upperV .cm false 2 A b).isSome = true :=
  ⟨fun i j => if i = 0 ∧ j = 0 then 1 else 0, fun i => if i = 0 then 2 else 0, by decide, by decide +kernel⟩

/-- Non-vacuity: a 2×2 system, `U = [2 1; 0 4]`, `b = (5,4)`, solution `(2,1)`. -/
example : (upperV .cm false 2 (fun i j => if i = 0 ∧ j = 0 then (2:ℚ) else if i = 0 then 1 else 4)
    (fun i => if i = 0 then 5 else 4)).map (fun x => (x 0, x 1)) = some (2, 1) := by decide +kernel

example : (lowerV .rm true 3 (fun i j => ((i + 2*j : Nat) : ℚ)) (fun i => if i = 0 then 0 else 4)).map
    (fun x => (x 0, x 1, x 2)) = some (0, 4, -12) := by decide +kernel

end Tri
end TMV
