import Verif.Model.TriMM
import Verif.Props.TriMul
import Verif.Spec.MulAdd

/-! **C79**: triangle times vector and matrix, into a destination, with or without adding. -/
namespace TMV.TriMul
open TMV.Tri
variable {K : Type _} [Field K] [DecidableEq K]

theorem mulV_aux (add unit : Bool) (f : (Nat → K) → Nat → K) (T : Nat → Nat → K) (α : K) (N : Nat) (x y : Nat → K)
    (hf : ∀ x, IsMulV N T x (f x)) : MulAddV add α N T x y (mulV add unit f α N x y) := by
  intro i
  unfold mulV
  by_cases h0 : α = 0
  · rw [if_pos h0, h0]
    cases add
    · simp
    · simp
  · rw [if_neg h0]
    by_cases h1 : (!add && unit) = true
    · rw [if_pos h1]
      have ha : add = false := by cases add <;> simp_all
      subst ha
      by_cases hi : i < N
      · rw [if_pos hi, if_pos hi, hf x i, if_pos hi]; simp [mul_comm]
      · rw [if_neg hi, if_neg hi]
    · rw [if_neg h1]
      by_cases hi : i < N
      · rw [if_pos hi, if_pos hi, hf _ i, if_pos hi]
        have : ∑ k ∈ Finset.range N, T i k * (α * x k) = α * ∑ k ∈ Finset.range N, T i k * x k := by
          rw [Finset.mul_sum]; exact Finset.sum_congr rfl fun _ _ => by ring
        rw [this]
        cases add <;> simp
      · rw [if_neg hi, if_neg hi]

/-- **C79**, vectors: `y = alpha*U*x`, `y += alpha*U*x`, `y` not stored in `U`. -/
theorem mulV_upper (add unit : Bool) (o : Ord) (ua : Bool) (α : K) (N : Nat) (A : Nat → Nat → K) (x y : Nat → K) :
    MulAddV add α N (upperMat ua A) x y (mulV add unit (upperV o ua N A) α N x y) :=
  mulV_aux add unit _ _ α N x y (upperV_spec o ua N A)

/-- **C79**, vectors: `y = alpha*L*x`, `y += alpha*L*x`. -/
theorem mulV_lower (add unit : Bool) (o : Ord) (ss ua : Bool) (α : K) (N : Nat) (A : Nat → Nat → K) (x y : Nat → K) :
    MulAddV add α N (lowerMat ua A) x y (mulV add unit (lowerV o ss ua N A) α N x y) :=
  mulV_aux add unit _ _ α N x y (lowerV_spec o ss ua N A)

theorem rrAddU_spec (α : K) (N nc : Nat) (A B C : Nat → Nat → K) :
    MulAddM true α N nc (upperMat false A) B C (rrAddU α N nc A B C) := by
  have := up_inv (fun i (C : Nat → Nat → K) => fun a c => if a = i ∧ c < nc then C a c + α * ∑ k ∈ Finset.range (N-i), A i (i+k) * B (i+k) c else C a c)
    (fun r X => ∀ i c, X i c = if i < r ∧ c < nc then C i c + α * ∑ k ∈ Finset.range N, upperMat false A i k * B k c else C i c) N 0 C
    (by intro i c; rw [if_neg (by omega)]) (by
      intro r X h1 h2 hX i c
      dsimp only
      by_cases hi : i = r ∧ c < nc
      · obtain ⟨rfl, hc⟩ := hi
        rw [if_pos ⟨rfl, hc⟩, if_pos ⟨by omega, hc⟩, hX, if_neg (by omega)]
        congr 2
        rw [sum_split (fun k => upperMat false A i k * B k c) (show i ≤ N by omega)]
        have z : ∑ k ∈ Finset.range i, upperMat false A i k * B k c = 0 := by
          refine Finset.sum_eq_zero fun k hk => ?_
          have : k < i := by simpa using hk
          simp only [upperMat]; rw [if_neg (by omega), if_neg (by omega), zero_mul]
        rw [z, zero_add]
        refine Finset.sum_congr rfl fun k _ => ?_
        congr 1
        unfold upperMat
        by_cases hk : k = 0
        · subst hk; simp
        · rw [if_pos (by omega)]
      · rw [if_neg hi, hX]
        by_cases hc : c < nc
        · by_cases hr : i < r
          · rw [if_pos ⟨hr, hc⟩, if_pos ⟨by omega, hc⟩]
          · rw [if_neg (by omega), if_neg (by omega)]
        · rw [if_neg (by omega), if_neg (by omega)])
  rw [Nat.zero_add] at this
  exact fun i c => (this i c).trans (by simp)

theorem rrAddL_spec (α : K) (N nc : Nat) (A B C : Nat → Nat → K) :
    MulAddM true α N nc (lowerMat false A) B C (rrAddL α N nc A B C) := by
  have := up_inv (fun i (C : Nat → Nat → K) => fun a c => if a = i ∧ c < nc then C a c + α * ∑ k ∈ Finset.range (i+1), A i k * B k c else C a c)
    (fun r X => ∀ i c, X i c = if i < r ∧ c < nc then C i c + α * ∑ k ∈ Finset.range N, lowerMat false A i k * B k c else C i c) N 0 C
    (by intro i c; rw [if_neg (by omega)]) (by
      intro r X h1 h2 hX i c
      dsimp only
      by_cases hi : i = r ∧ c < nc
      · obtain ⟨rfl, hc⟩ := hi
        rw [if_pos ⟨rfl, hc⟩, if_pos ⟨by omega, hc⟩, hX, if_neg (by omega)]
        congr 2
        rw [sum_split (fun k => lowerMat false A i k * B k c) (show i+1 ≤ N by omega)]
        have z : ∑ k ∈ Finset.range (N-(i+1)), lowerMat false A i (i+1+k) * B (i+1+k) c = 0 := by
          refine Finset.sum_eq_zero fun k hk => ?_
          simp only [lowerMat]; rw [if_neg (by omega), if_neg (by omega), zero_mul]
        rw [z, add_zero]
        refine Finset.sum_congr rfl fun k hk => ?_
        have : k < i+1 := by simpa using hk
        congr 1
        unfold lowerMat
        by_cases hk : k = i
        · subst hk; simp
        · rw [if_pos (by omega)]
      · rw [if_neg hi, hX]
        by_cases hc : c < nc
        · by_cases hr : i < r
          · rw [if_pos ⟨hr, hc⟩, if_pos ⟨by omega, hc⟩]
          · rw [if_neg (by omega), if_neg (by omega)]
        · rw [if_neg (by omega), if_neg (by omega)])
  rw [Nat.zero_add] at this
  exact fun i c => (this i c).trans (by simp)

theorem crAddU_spec (α : K) (N nc : Nat) (A B C : Nat → Nat → K) :
    MulAddM true α N nc (upperMat false A) B C (crAddU α N nc A B C) := by
  have := up_inv (fun j (C : Nat → Nat → K) => fun a c => if a < j+1 ∧ c < nc then C a c + α * A a j * B j c else C a c)
    (fun r X => ∀ i c, X i c = if i < r ∧ c < nc then C i c + α * ∑ k ∈ Finset.range r, upperMat false A i k * B k c else C i c) N 0 C
    (by intro i c; rw [if_neg (by omega)]) (by
      intro r X h1 h2 hX i c
      dsimp only
      by_cases hi : i < r+1 ∧ c < nc
      · rw [if_pos hi, if_pos hi, hX, Finset.sum_range_succ]
        have e : upperMat false A i r = A i r := by
          unfold upperMat
          by_cases hk : i = r
          · subst hk; simp
          · rw [if_pos (by omega)]
        rw [e]
        by_cases hr : i < r
        · rw [if_pos ⟨hr, hi.2⟩]; ring
        · rw [if_neg (by omega)]
          have z : ∑ k ∈ Finset.range r, upperMat false A i k * B k c = 0 := by
            refine Finset.sum_eq_zero fun k hk => ?_
            have : k < r := by simpa using hk
            simp only [upperMat]; rw [if_neg (by omega), if_neg (by omega), zero_mul]
          rw [z]; ring
      · rw [if_neg hi, if_neg hi, hX, if_neg (by omega)])
  rw [Nat.zero_add] at this
  exact fun i c => (this i c).trans (by simp)

theorem crAddL_spec (α : K) (N nc : Nat) (A B C : Nat → Nat → K) :
    MulAddM true α N nc (lowerMat false A) B C (crAddL α N nc A B C) := by
  have := up_inv (fun j (C : Nat → Nat → K) => fun a c => if j ≤ a ∧ a < N ∧ c < nc then C a c + α * A a j * B j c else C a c)
    (fun r X => ∀ i c, X i c = if i < N ∧ c < nc then C i c + α * ∑ k ∈ Finset.range r, lowerMat false A i k * B k c else C i c) N 0 C
    (by intro i c; simp) (by
      intro r X h1 h2 hX i c
      dsimp only
      by_cases hi : i < N ∧ c < nc
      · rw [if_pos hi, hX, if_pos hi, Finset.sum_range_succ]
        by_cases hr : r ≤ i
        · rw [if_pos ⟨hr, hi⟩]
          have e : lowerMat false A i r = A i r := by
            unfold lowerMat
            by_cases hk : i = r
            · subst hk; simp
            · rw [if_pos (by omega)]
          rw [e]; ring
        · rw [if_neg (by omega)]
          have e : lowerMat false A i r = 0 := by
            unfold lowerMat
            rw [if_neg (by omega), if_neg (by omega)]
          rw [e]; ring
      · rw [if_neg (by tauto), if_neg hi, hX, if_neg hi])
  rw [Nat.zero_add] at this
  exact fun i c => (this i c).trans (by simp)

theorem cAdd_spec (f : (Nat → K) → Nat → K) (T : Nat → Nat → K) (α : K) (N nc : Nat) (hf : ∀ x, IsMulV N T x (f x))
    (B C : Nat → Nat → K) : MulAddM true α N nc T B C (cAdd f α N nc B C) := by
  have := up_inv (fun j (C : Nat → Nat → K) => fun a c => if c = j ∧ a < N then mulV true false f α N (fun i => B i j) (fun i => C i j) a else C a c)
    (fun r X => ∀ i c, X i c = if i < N ∧ c < r then C i c + α * ∑ k ∈ Finset.range N, T i k * B k c else C i c) nc 0 C
    (by intro i c; rw [if_neg (by omega)]) (by
      intro r X h1 h2 hX i c
      dsimp only
      by_cases hi : c = r ∧ i < N
      · obtain ⟨rfl, hi⟩ := hi
        rw [if_pos ⟨rfl, hi⟩, if_pos ⟨hi, by omega⟩, mulV_aux true false f T α N _ _ hf i, if_pos hi, if_pos rfl, hX, if_neg (by omega)]
      · rw [if_neg hi, hX]
        by_cases hc : i < N ∧ c < r
        · rw [if_pos hc, if_pos (by omega)]
        · rw [if_neg hc, if_neg (by omega)])
  rw [Nat.zero_add] at this
  exact fun i c => (this i c).trans (by simp)

theorem nonUnitCopy_upper (ua : Bool) (A : Nat → Nat → K) : upperMat false (nonUnitCopy ua A) = upperMat ua A := by
  funext i k
  unfold upperMat nonUnitCopy
  by_cases h : i < k
  · rw [if_pos h, if_pos h, if_neg (by omega)]
  · rw [if_neg h, if_neg h]
    by_cases h2 : i = k
    · subst h2; cases ua <;> simp
    · rw [if_neg h2, if_neg h2]

theorem nonUnitCopy_lower (ua : Bool) (A : Nat → Nat → K) : lowerMat false (nonUnitCopy ua A) = lowerMat ua A := by
  funext i k
  unfold lowerMat nonUnitCopy
  by_cases h : k < i
  · rw [if_pos h, if_pos h, if_neg (by omega)]
  · rw [if_neg h, if_neg h]
    by_cases h2 : i = k
    · subst h2; cases ua <;> simp
    · rw [if_neg h2, if_neg h2]

theorem unit_upper (A : Nat → Nat → K) (B : Nat → Nat → K) {N i c : Nat} (hi : i < N) :
    ∑ k ∈ Finset.range N, upperMat true A i k * B k c =
      B i c + ∑ k ∈ Finset.range (N-1), upperMat false (sub A 0 1) i k * sub B 1 0 k c := by
  rw [upperMat_row true A (fun k => B k c) hi]
  have : dg true A i = 1 := rfl
  rw [this, one_mul]
  congr 1
  rw [sum_split (fun k => upperMat false (sub A 0 1) i k * sub B 1 0 k c) (show i ≤ N-1 by omega)]
  have z : ∑ k ∈ Finset.range i, upperMat false (sub A 0 1) i k * sub B 1 0 k c = 0 := by
    refine Finset.sum_eq_zero fun k hk => ?_
    have : k < i := by simpa using hk
    simp only [upperMat]; rw [if_neg (by omega), if_neg (by omega), zero_mul]
  rw [z, zero_add]
  refine Finset.sum_congr rfl fun k _ => ?_
  simp only [upperMat, sub]
  by_cases hk : k = 0
  · subst hk; simp [add_comm]
  · rw [if_pos (by omega), show 0 + i = i by omega, show 1 + (i+k) = i+1+k by omega, Nat.zero_add]

theorem unit_lower (A : Nat → Nat → K) (B : Nat → Nat → K) {N i c : Nat} (hi : i < N) :
    ∑ k ∈ Finset.range N, lowerMat true A i k * B k c =
      B i c + (if 0 < i then ∑ k ∈ Finset.range (N-1), lowerMat false (sub A 1 0) (i-1) k * B k c else 0) := by
  rw [lowerMat_row true A (fun k => B k c) hi]
  have : dg true A i = 1 := rfl
  rw [this, one_mul]
  congr 1
  by_cases h0 : 0 < i
  · rw [if_pos h0, sum_split (fun k => lowerMat false (sub A 1 0) (i-1) k * B k c) (show i ≤ N-1 by omega)]
    have z : ∑ k ∈ Finset.range (N-1-i), lowerMat false (sub A 1 0) (i-1) (i+k) * B (i+k) c = 0 := by
      refine Finset.sum_eq_zero fun k hk => ?_
      simp only [lowerMat]; rw [if_neg (by omega), if_neg (by omega), zero_mul]
    rw [z, add_zero]
    refine Finset.sum_congr rfl fun k hk => ?_
    have hk' : k < i := by simpa using hk
    simp only [lowerMat, sub]
    rw [show 1 + (i-1) = i by omega, Nat.zero_add]
    by_cases hk : k = i-1
    · rw [if_neg (by omega), if_pos (by omega)]; simp [hk]
    · rw [if_pos (by omega)]
  · have : i = 0 := by omega
    subst this; simp

theorem addUpper_spec (nb nb2 : Nat) (hnb : 0 < nb) (hnb2 : 0 < nb2) (brm crm : Bool) (nc : Nat) :
    ∀ (fuel : Nat) (o : Ord) (N : Nat) (ua : Bool) (α : K) (A B C : Nat → Nat → K), N < fuel →
      MulAddM true α N nc (upperMat ua A) B C (addUpper nb nb2 brm crm nc fuel o N ua α A B C) := by
  intro fuel
  induction fuel with
  | zero => intro o N _ _ _ _ _ h; omega
  | succ fuel ih =>
    intro o N ua α A B C hf
    unfold addUpper
    by_cases h1 : N ≤ nb2
    · rw [if_pos h1]
      by_cases h2 : (ua : Prop) ∧ ((o = .rm ∧ (crm : Prop)) ∨ (o = .cm ∧ (brm : Prop)))
      · rw [if_pos h2]
        have hu : ua = true := h2.1
        subst hu
        dsimp only
        intro i c
        by_cases hic : i < N ∧ c < nc
        · rw [if_pos hic, addScaled, if_pos hic, unit_upper A B hic.1, if_pos rfl]
          by_cases hN : N > 1
          · rw [if_pos hN, paste]
            have i1 := ih o (N-1) false α (sub A 0 1) (sub B 1 0) C (by omega)
            by_cases hl : i < N-1
            · rw [if_pos (by omega), Nat.sub_zero, Nat.sub_zero, i1 i c, if_pos ⟨hl, hic.2⟩, if_pos rfl]
              ring
            · rw [if_neg (by omega)]
              have z : ∑ k ∈ Finset.range (N-1), upperMat false (sub A 0 1) i k * sub B 1 0 k c = 0 := by
                refine Finset.sum_eq_zero fun k hk => ?_
                have : k < N-1 := by simpa using hk
                simp only [upperMat]; rw [if_neg (by omega), if_neg (by omega), zero_mul]
              rw [z]; ring
          · rw [if_neg hN, show N - 1 = 0 by omega]; simp
        · rw [if_neg hic, addScaled, if_neg hic]
          by_cases hN : N > 1
          · rw [if_pos hN, paste, if_neg (by omega)]
          · rw [if_neg hN]
      · rw [if_neg h2]
        by_cases h3 : o = .rm ∧ (crm : Prop)
        · rw [if_pos h3]
          have hu : ua = false := by
            cases ua
            · rfl
            · exact absurd ⟨rfl, Or.inl h3⟩ h2
          subst hu
          exact rrAddU_spec α N nc A B C
        · rw [if_neg h3]
          by_cases h4 : o = .cm ∧ (brm : Prop)
          · rw [if_pos h4]
            have hu : ua = false := by
              cases ua
              · rfl
              · exact absurd ⟨rfl, Or.inr h4⟩ h2
            subst hu
            exact crAddU_spec α N nc A B C
          · rw [if_neg h4]
            by_cases h5 : o = .no
            · rw [if_pos h5]
              dsimp only
              rw [← nonUnitCopy_upper ua A]
              split
              · exact crAddU_spec α N nc _ B C
              · exact cAdd_spec _ _ α N nc (upperV_spec .cm false N _) B C
            · rw [if_neg h5]
              exact cAdd_spec _ _ α N nc (upperV_spec o ua N A) B C
    · rw [if_neg h1]
      obtain ⟨k1, k2⟩ := splitAt_spec nb N hnb (by omega)
      dsimp only
      generalize splitAt nb N = k at *
      have i1 := ih o k ua α A B C (by omega)
      generalize addUpper nb nb2 brm crm nc fuel o k ua α A B C = C0 at *
      generalize hC1 : addMul α k nc (N-k) (sub A 0 k) (sub B k 0) (paste C 0 0 k nc C0) = C1
      have e1 : ∀ i c, sub C1 k 0 i c = C (k+i) c := by
        intro i c
        rw [← hC1]
        simp only [sub, addMul, zero_add]
        rw [if_neg (by omega), paste, if_neg (by omega)]
      have i2 := ih o (N-k) ua α (sub A k k) (sub B k 0) (sub C1 k 0) (by omega)
      intro i c
      by_cases hic : i < N ∧ c < nc
      · rw [if_pos hic, if_pos rfl]
        by_cases hik : k ≤ i
        · rw [paste, if_pos (by omega), i2, if_pos (by omega), if_pos rfl, e1, show k + (i-k) = i by omega, Nat.sub_zero]
          congr 2
          rw [sum_split (fun l => upperMat ua A i l * B l c) (le_of_lt k2)]
          have z : ∑ l ∈ Finset.range k, upperMat ua A i l * B l c = 0 := by
            refine Finset.sum_eq_zero fun l hl => ?_
            have : l < k := by simpa using hl
            simp only [upperMat]; rw [if_neg (by omega), if_neg (by omega), zero_mul]
          rw [z, zero_add]
          refine Finset.sum_congr rfl fun l _ => ?_
          rw [upperMat_shift, show k + (i-k) = i by omega]
          simp only [sub, Nat.zero_add]
        · rw [paste, if_neg (by omega), ← hC1, addMul, if_pos (by omega), paste, if_pos (by omega),
            Nat.sub_zero, Nat.sub_zero, i1, if_pos (by omega), if_pos rfl]
          rw [sum_split (fun l => upperMat ua A i l * B l c) (le_of_lt k2), mul_add, add_assoc]
          congr 3
          refine Finset.sum_congr rfl fun l _ => ?_
          simp only [sub, zero_add, upperMat]
          rw [if_pos (by omega)]
      · rw [if_neg hic, paste, if_neg (by omega), ← hC1, addMul, if_neg (by omega), paste, if_neg (by omega)]

theorem addLower_spec (nb nb2 : Nat) (hnb : 0 < nb) (hnb2 : 0 < nb2) (brm crm : Bool) (nc : Nat) :
    ∀ (fuel : Nat) (o : Ord) (N : Nat) (ua : Bool) (α : K) (A B C : Nat → Nat → K), N < fuel →
      MulAddM true α N nc (lowerMat ua A) B C (addLower nb nb2 brm crm nc fuel o N ua α A B C) := by
  intro fuel
  induction fuel with
  | zero => intro o N _ _ _ _ _ h; omega
  | succ fuel ih =>
    intro o N ua α A B C hf
    unfold addLower
    by_cases h1 : N ≤ nb2
    · rw [if_pos h1]
      by_cases h2 : (ua : Prop) ∧ ((o = .rm ∧ (crm : Prop)) ∨ (o = .cm ∧ (brm : Prop)))
      · rw [if_pos h2]
        have hu : ua = true := h2.1
        subst hu
        dsimp only
        intro i c
        by_cases hic : i < N ∧ c < nc
        · rw [if_pos hic, addScaled, if_pos hic, unit_lower A B hic.1, if_pos rfl]
          by_cases hN : N > 1
          · rw [if_pos hN, paste]
            have i1 := ih o (N-1) false α (sub A 1 0) B (sub C 1 0) (by omega)
            by_cases hl : 0 < i
            · rw [if_pos (by omega), Nat.sub_zero, i1 (i-1) c, if_pos (by omega), if_pos rfl, if_pos hl]
              simp only [sub, Nat.zero_add]
              rw [show 1 + (i-1) = i by omega]
              ring
            · rw [if_neg (by omega), if_neg hl]; ring
          · rw [if_neg hN, if_neg (by omega)]; ring
        · rw [if_neg hic, addScaled, if_neg hic]
          by_cases hN : N > 1
          · rw [if_pos hN, paste, if_neg (by omega)]
          · rw [if_neg hN]
      · rw [if_neg h2]
        by_cases h3 : o = .rm ∧ (crm : Prop)
        · rw [if_pos h3]
          have hu : ua = false := by
            cases ua
            · rfl
            · exact absurd ⟨rfl, Or.inl h3⟩ h2
          subst hu
          exact rrAddL_spec α N nc A B C
        · rw [if_neg h3]
          by_cases h4 : o = .cm ∧ (brm : Prop)
          · rw [if_pos h4]
            have hu : ua = false := by
              cases ua
              · rfl
              · exact absurd ⟨rfl, Or.inr h4⟩ h2
            subst hu
            exact crAddL_spec α N nc A B C
          · rw [if_neg h4]
            by_cases h5 : o = .no
            · rw [if_pos h5]
              dsimp only
              rw [← nonUnitCopy_lower ua A]
              split
              · exact crAddL_spec α N nc _ B C
              · exact cAdd_spec _ _ α N nc (lowerV_spec .cm false false N _) B C
            · rw [if_neg h5]
              exact cAdd_spec _ _ α N nc (lowerV_spec o false ua N A) B C
    · rw [if_neg h1]
      obtain ⟨k1, k2⟩ := splitAt_spec nb N hnb (by omega)
      dsimp only
      generalize splitAt nb N = k at *
      have i1 := ih o (N-k) ua α (sub A k k) (sub B k 0) (sub C k 0) (by omega)
      generalize addLower nb nb2 brm crm nc fuel o (N-k) ua α (sub A k k) (sub B k 0) (sub C k 0) = C0 at *
      generalize hC1 : paste (paste C k 0 (N-k) nc C0) k 0 (N-k) nc
        (addMul α (N-k) nc k (sub A k 0) B (sub (paste C k 0 (N-k) nc C0) k 0)) = C1
      have e1 : ∀ i c, i < k → C1 i c = C i c := by
        intro i c hi
        rw [← hC1, paste, if_neg (by omega), paste, if_neg (by omega)]
      have i2 := ih o k ua α A B C1 (by omega)
      intro i c
      by_cases hic : i < N ∧ c < nc
      · rw [if_pos hic, if_pos rfl]
        by_cases hik : k ≤ i
        · rw [paste, if_neg (by omega), ← hC1, paste, if_pos (by omega), addMul, if_pos (by omega)]
          simp only [sub, Nat.sub_zero, Nat.zero_add]
          rw [paste, if_pos (by omega), show k + (i-k) - k = i - k by omega, Nat.sub_zero, i1, if_pos (by omega), if_pos rfl]
          rw [sum_split (fun l => lowerMat ua A i l * B l c) (le_of_lt k2)]
          simp only [sub, Nat.zero_add]
          rw [show k + (i-k) = i by omega]
          have e2 : ∑ l ∈ Finset.range k, lowerMat ua A i l * B l c = ∑ l ∈ Finset.range k, A i l * B l c := by
            refine Finset.sum_congr rfl fun l hl => ?_
            have : l < k := by simpa using hl
            simp only [lowerMat]; rw [if_pos (by omega)]
          have e3 : ∑ l ∈ Finset.range (N-k), lowerMat ua (sub A k k) (i-k) l * B (k+l) c =
              ∑ l ∈ Finset.range (N-k), lowerMat ua A i (k+l) * B (k+l) c := by
            refine Finset.sum_congr rfl fun l hl => ?_
            have := lowerMat_shift ua A k (i-k) l
            rw [show k + (i-k) = i by omega] at this
            rw [this]
          rw [e2, e3]; ring
        · rw [paste, if_pos (by omega), Nat.sub_zero, Nat.sub_zero, i2, if_pos (by omega), if_pos rfl, e1 i c (by omega)]
          congr 2
          rw [sum_split (fun l => lowerMat ua A i l * B l c) (le_of_lt k2)]
          have z : ∑ l ∈ Finset.range (N-k), lowerMat ua A i (k+l) * B (k+l) c = 0 := by
            refine Finset.sum_eq_zero fun l hl => ?_
            simp only [lowerMat]; rw [if_neg (by omega), if_neg (by omega), zero_mul]
          rw [z, add_zero]
      · rw [if_neg hic, paste, if_neg (by omega), ← hC1, paste, if_neg (by omega), paste, if_neg (by omega)]

theorem fullTemp_spec (add : Bool) (g : Nat → (Nat → Nat → K) → Nat → Nat → K) (T : Nat → Nat → K) (α : K) (N nc : Nat)
    (hg : ∀ n X, IsMulM 1 N n T X (g n X)) (B C : Nat → Nat → K) : MulAddM add α N nc T B C (fullTemp add g α N nc B C) := by
  intro i c
  unfold fullTemp
  by_cases hic : i < N ∧ c < nc
  · rw [if_pos hic, if_pos hic, hg nc _ i c, if_pos hic, one_mul]
    have : ∑ k ∈ Finset.range N, T i k * (α * B k c) = α * ∑ k ∈ Finset.range N, T i k * B k c := by
      rw [Finset.mul_sum]; exact Finset.sum_congr rfl fun _ _ => by ring
    rw [this]
    cases add <;> simp
  · rw [if_neg hic, if_neg hic]

theorem blockTemp_spec (g : Nat → (Nat → Nat → K) → Nat → Nat → K) (T : Nat → Nat → K) (φ : K → K) (α : K) (bs N nc : Nat) (hbs : 0 < bs)
    (hg : ∀ n X, IsMulM 1 N n T X (g n X)) : ∀ (fuel j : Nat) (C : Nat → Nat → K), nc < j + fuel → ∀ i c,
    blockTemp g φ α bs N nc fuel j C i c =
      if i < N ∧ j ≤ c ∧ c < nc then C i c + α * ∑ k ∈ Finset.range N, T i k * φ (C k c) else C i c := by
  intro fuel
  induction fuel with
  | zero => intro j C h i c; rw [if_neg (by omega)]; rfl
  | succ fuel ih =>
    intro j C h i c
    unfold blockTemp
    by_cases hj : j < nc
    · rw [if_pos hj]
      rw [ih _ _ (by omega)]
      by_cases hic : i < N ∧ j ≤ c ∧ c < nc
      · rw [if_pos hic]
        by_cases h2 : min nc (j+bs) ≤ c
        · rw [if_pos ⟨hic.1, h2, hic.2.2⟩, if_neg (by omega)]
          congr 2
          refine Finset.sum_congr rfl fun k _ => ?_
          rw [if_neg (by omega)]
        · rw [if_neg (by omega), if_pos (by omega), hg _ _ i (c-j), if_pos (by omega), one_mul]
          congr 1
          rw [Finset.mul_sum]
          refine Finset.sum_congr rfl fun k _ => ?_
          rw [show j + (c-j) = c by omega]; ring
      · rw [if_neg hic, if_neg (by omega), if_neg (by omega)]
    · rw [if_neg hj, if_neg (by omega)]

theorem mulM_aux (upper add : Bool) (al : Alias) (φ : K → K) (nb nb2 : Nat) (hnb : 0 < nb) (hnb2 : 0 < nb2) (o : Ord) (brm crm cst : Bool)
    (N nc : Nat) (ua : Bool) (α : K) (A B C : Nat → Nat → K)
    (hB : al.bc = true → al.st = true → ∀ i c, i < N → c < nc → B i c = φ (C i c)) :
    MulAddM add α N nc (if upper then upperMat ua A else lowerMat ua A) B C
      (mulM upper add al φ nb nb2 o brm crm cst N nc ua α A B C) := by
  have hg : ∀ (rm st : Bool) n X, IsMulM 1 N n (if upper then upperMat ua A else lowerMat ua A) X
      (if upper then upperRec nb nb2 o false rm st n (N+1) N ua 1 A X else lowerRec nb nb2 o false rm st n (N+1) N ua 1 A X) := by
    intro rm st n X
    cases upper
    · exact lowerRec_spec nb nb2 hnb hnb2 o rm st n (N+1) N false ua 1 A X (by omega)
    · exact upperRec_spec nb nb2 hnb hnb2 o rm st n (N+1) N false ua 1 A X (by omega)
  unfold mulM
  dsimp only
  by_cases hN : N > 0 ∧ nc > 0
  · rw [if_pos hN]
    by_cases h0 : α = 0
    · rw [if_pos h0, h0]
      intro i c
      cases add <;> simp
    · rw [if_neg h0]
      by_cases h1 : al.ac = true
      · rw [if_pos h1]
        exact fullTemp_spec add _ _ α N nc (hg _ _) B C
      · rw [if_neg h1]
        by_cases h2 : (!add) = true
        · rw [if_pos h2]
          have ha : add = false := by simpa using h2
          subst ha
          intro i c
          rw [hg crm cst nc _ i c]
          by_cases hic : i < N ∧ c < nc
          · rw [if_pos hic, if_pos hic, one_mul, Finset.mul_sum]
            simp only [Bool.false_eq_true, if_false, zero_add]
            refine Finset.sum_congr rfl fun k hk => ?_
            have hk' : k < N := by simpa using hk
            rw [if_pos (show k < N ∧ c < nc from ⟨hk', hic.2⟩)]; ring
          · rw [if_neg hic, if_neg hic, if_neg hic]
        · rw [if_neg h2]
          have ha : add = true := by simpa using h2
          subst ha
          by_cases h3 : al.bc = true
          · rw [if_pos h3]
            by_cases h4 : al.st = true
            · rw [if_pos h4]
              intro i c
              rw [blockTemp_spec _ _ φ α nb N nc hnb (hg _ _) _ _ _ (by omega)]
              by_cases hic : i < N ∧ c < nc
              · rw [if_pos ⟨hic.1, Nat.zero_le _, hic.2⟩, if_pos hic, if_pos rfl]
                congr 2
                refine Finset.sum_congr rfl fun k hk => ?_
                rw [hB h3 h4 k c (by simpa using hk) hic.2]
              · rw [if_neg (by omega), if_neg hic]
            · rw [if_neg h4]
              exact fullTemp_spec true _ _ α N nc (hg _ _) B C
          · rw [if_neg h3]
            cases upper
            · exact addLower_spec nb nb2 hnb hnb2 brm crm nc (N+1) o N ua α A B C (by omega)
            · exact addUpper_spec nb nb2 hnb hnb2 brm crm nc (N+1) o N ua α A B C (by omega)
  · rw [if_neg hN]
    intro i c
    rw [if_neg (by omega)]

/-- **C79**: `C = alpha*U*B` and `C += alpha*U*B` for an upper triangle `U`, also when `C` begins at the first element of `U`, and when
`B` is `C`, its conjugate or another view that begins at its first element. -/
theorem mulM_upper (add : Bool) (al : Alias) (φ : K → K) (nb nb2 : Nat) (hnb : 0 < nb) (hnb2 : 0 < nb2) (o : Ord) (brm crm cst : Bool)
    (N nc : Nat) (ua : Bool) (α : K) (A B C : Nat → Nat → K)
    (hB : al.bc = true → al.st = true → ∀ i c, i < N → c < nc → B i c = φ (C i c)) :
    MulAddM add α N nc (upperMat ua A) B C (mulM true add al φ nb nb2 o brm crm cst N nc ua α A B C) :=
  mulM_aux true add al φ nb nb2 hnb hnb2 o brm crm cst N nc ua α A B C hB

/-- **C79**: `C = alpha*L*B` and `C += alpha*L*B` for a lower triangle `L`. -/
theorem mulM_lower (add : Bool) (al : Alias) (φ : K → K) (nb nb2 : Nat) (hnb : 0 < nb) (hnb2 : 0 < nb2) (o : Ord) (brm crm cst : Bool)
    (N nc : Nat) (ua : Bool) (α : K) (A B C : Nat → Nat → K)
    (hB : al.bc = true → al.st = true → ∀ i c, i < N → c < nc → B i c = φ (C i c)) :
    MulAddM add α N nc (lowerMat ua A) B C (mulM false add al φ nb nb2 o brm crm cst N nc ua α A B C) :=
  mulM_aux false add al φ nb nb2 hnb hnb2 o brm crm cst N nc ua α A B C hB

/-- **C79 violated** when the destination vector is the first column of the matrix that holds the triangle: `m.col(0) = m.upperTri()*x`
does not store the product (for the 1×1 matrix (2) and x = (3) it stores 9 instead of 6). -/
theorem mulV_alias_violated : ¬ ∀ (N : Nat) (m : Nat → Nat → ℚ) (x : Nat → ℚ), x 0 ≠ 0 → x (N-1) ≠ 0 →
    MulAddV false 1 N (upperMat false m) x (fun i => m i 0) (fun i => mulVCol0 1 N x m i 0) := by
  intro hc
  have := hc 1 (fun _ _ => 2) (fun _ => 3) (by norm_num) (by norm_num) 0
  simp [mulVCol0, up, upperMat] at this

/-- `C` itself as second operand meets the hypothesis. -/
example (C : Nat → Nat → ℚ) : let al : Alias := ⟨false, true, true⟩
    al.bc = true → al.st = true → ∀ i c, i < 5 → c < 7 → C i c = id (C i c) := by simp

end TMV.TriMul
