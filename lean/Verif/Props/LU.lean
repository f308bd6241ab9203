import Verif.Model.LU
import Verif.Props.Tri
import Verif.Props.PermVal
import Mathlib.Algebra.Order.AbsoluteValue.Basic

/-! C27, C28: LU decomposition with partial pivoting. -/
namespace TMV

theorem swapProd_congr (p q : Nat → Nat) (n i : Nat) (h : ∀ k, i ≤ k → k < i + n → p k = q k) :
    swapProd p n i = swapProd q n i := by
  induction n generalizing i with
  | zero => rfl
  | succ n ih =>
    simp only [swapProd]
    rw [h i le_rfl (by omega), ih (i+1) (fun k a b => h k (by omega) (by omega))]

theorem swapProd_shift (p q : Nat → Nat) (r : Nat) (n i a : Nat)
    (h : ∀ k, i ≤ k → k < i + n → p (r+k) = q k + r) :
    swapProd p n (r+i) (r+a) = r + swapProd q n i a := by
  induction n generalizing i with
  | zero => rfl
  | succ n ih =>
    simp only [swapProd, Equiv.Perm.mul_apply]
    rw [add_assoc, ih (i+1) (fun k a b => h k (by omega) (by omega)), h i le_rfl (by omega)]
    generalize swapProd q n (i+1) a = x
    simp only [Equiv.swap_apply_def]
    split_ifs <;> omega

theorem swapProd_ge (p : Nat → Nat) (n i : Nat) (hp : ∀ k, i ≤ k → k < i + n → k ≤ p k) (k : Nat)
    (hk : i ≤ k) : i ≤ swapProd p n i k := by
  by_contra h
  have h' : swapProd p n i k < i := by omega
  have := Perm.swapProd_fix p n i hp _ h'
  have := (swapProd p n i).injective this
  omega

namespace LU
open TMV.Tri
variable {K : Type _} [Field K] {S : Type _} [Field S] [LinearOrder S] [IsStrictOrderedRing S]

section
variable [DecidableEq K]

theorem maxAbsLoop_spec (ab : AbsoluteValue K S) (v : Nat → K) : ∀ (n i : Nat) (cur : S × Nat),
    (∀ k, k < i → ab (v k) ≤ cur.1) → (cur.1 = ab (v cur.2) ∧ cur.2 < i ∨ cur = (0, 0)) →
    (∀ k, k < i + n → ab (v k) ≤ (maxAbsLoop ab v n i cur).1) ∧
    ((maxAbsLoop ab v n i cur).1 = ab (v (maxAbsLoop ab v n i cur).2) ∧
      (maxAbsLoop ab v n i cur).2 < i + n ∨ maxAbsLoop ab v n i cur = (0, 0)) := by
  intro n
  induction n with
  | zero => intro i cur h1 h2; exact ⟨h1, h2⟩
  | succ n ih =>
    intro i cur h1 h2
    simp only [maxAbsLoop]
    have := ih (i+1) (if ab (v i) > cur.1 then (ab (v i), i) else cur)
      (by
        intro k hk
        by_cases hg : ab (v i) > cur.1
        · rw [if_pos hg]
          by_cases hki : k = i
          · subst hki; exact le_rfl
          · exact (h1 k (by omega)).trans hg.le
        · rw [if_neg hg]
          by_cases hki : k = i
          · subst hki; exact not_lt.mp hg
          · exact h1 k (by omega))
      (by
        by_cases hg : ab (v i) > cur.1
        · rw [if_pos hg]; exact Or.inl ⟨rfl, by simp⟩
        · rw [if_neg hg]
          rcases h2 with h | h
          · exact Or.inl ⟨h.1, by omega⟩
          · exact Or.inr h)
    rw [show i + 1 + n = i + (n+1) by omega] at this
    exact this

theorem maxAbs_spec (ab : AbsoluteValue K S) (v : Nat → K) (n : Nat) (hn : 0 < n) :
    (maxAbs ab v n).2 < n ∧ (maxAbs ab v n).1 = ab (v (maxAbs ab v n).2) ∧
    ∀ k, k < n → ab (v k) ≤ (maxAbs ab v n).1 := by
  obtain ⟨h1, h2⟩ := maxAbsLoop_spec ab v n 0 (0, 0) (fun k hk => by omega) (Or.inr rfl)
  rw [zero_add] at h1 h2
  rcases h2 with h | h
  · exact ⟨h.2, h.1, h1⟩
  · have h0 := h1 0 hn
    unfold maxAbs
    rw [h] at h0 ⊢
    exact ⟨hn, le_antisymm (ab.nonneg _) h0, fun k hk => by have := h1 k hk; rwa [h] at this⟩

theorem swapRows_eq (n : Nat) (A : Nat → Nat → K) (i1 i2 a b : Nat) (hb : b < n) :
    swapRows n A i1 i2 a b = A (Equiv.swap i1 i2 a) b := by
  rw [swapRows, if_pos hb, Equiv.swap_apply_def]
  split_ifs <;> rfl

theorem permuteRows_eq (nc : Nat) (p : Nat → Nat) (n i : Nat) (A : Nat → Nat → K) (a b : Nat) (hb : b < nc) :
    permuteRows nc p n i A a b = A (swapProd p n i a) b := by
  induction n generalizing i A with
  | zero => rfl
  | succ n ih =>
    simp only [permuteRows, swapProd, Equiv.Perm.mul_apply]
    rw [ih, swapRows_eq _ _ _ _ _ _ hb]

theorem reversePermuteRows_eq (nc : Nat) (p : Nat → Nat) (n i : Nat) (A : Nat → Nat → K) (a b : Nat)
    (hb : b < nc) : reversePermuteRows nc p n i A a b = A ((swapProd p n i)⁻¹ a) b := by
  induction n generalizing i a with
  | zero => rfl
  | succ n ih =>
    simp only [reversePermuteRows, swapProd, mul_inv_rev, Equiv.Perm.mul_apply, Equiv.swap_inv]
    rw [swapRows_eq _ _ _ _ _ _ hb, ih]

theorem swapRows_out (n : Nat) (A : Nat → Nat → K) (i1 i2 a b : Nat) (hb : ¬ b < n) :
    swapRows n A i1 i2 a b = A a b := by rw [swapRows, if_neg hb]

end

/-- **Specification** of an LU decomposition of the `M`×`N` matrix `A`, stored in `A'` (unit lower triangle and
upper triangle) with interchanges `P`: row `i` of `P⁻¹A` is row `i` of `L*U`, the interchange list is normalised,
and the multipliers are bounded by 1. `swapProd P R 0` is the rearrangement of rows the interchanges do. -/
structure IsLU (ab : K → S) (M N : Nat) (A A' : Nat → Nat → K) (P : Nat → Nat) : Prop where
  range : ∀ k, k < min N M → k ≤ P k ∧ P k < M
  prod : ∀ i j, i < M → j < N → A (swapProd P (min N M) 0 i) j =
    ∑ k ∈ Finset.range (min N M), lowerMat true A' i k * upperMat false A' k j
  bound : ∀ i k, k < min N M → k < i → i < M → ab (A' i k) ≤ 1

/-- The state after `j` columns have been done. -/
structure Part (ab : K → S) (M N j : Nat) (A A' : Nat → Nat → K) (P : Nat → Nat) : Prop where
  range : ∀ k, k < j → k ≤ P k ∧ P k < M
  done : ∀ i c, i < M → c < j → c < N → A (swapProd P j 0 i) c =
    ∑ k ∈ Finset.range j, lowerMat true A' i k * upperMat false A' k c
  todo : ∀ i c, i < M → j ≤ c → c < N → A' i c = A (swapProd P j 0 i) c
  bound : ∀ i k, k < j → k < i → i < M → ab (A' i k) ≤ 1

theorem Part.init (ab : K → S) (M N : Nat) (A : Nat → Nat → K) (P : Nat → Nat) : Part ab M N 0 A A P :=
  ⟨fun k h => by omega, fun i c _ h => by omega, fun i c _ _ _ => rfl, fun i k h => by omega⟩

/-- One column: `u` is the new part of `U` above the diagonal, `v` the remainder of the column, `q` the pivot. -/
theorem Part.step {ab : K → S} {M N j : Nat} {A A' A3 : Nat → Nat → K} {P P' : Nat → Nat} (hjM : j < M)
    (hjN : j < N) (hI : Part ab M N j A A' P) (u v : Nat → K) (q : Nat) (hq1 : j ≤ q) (hq2 : q < M)
    (hP : ∀ k, k < j → P' k = P k) (hPj : P' j = q)
    (hu : ∀ i, i < j → ∑ k ∈ Finset.range j, lowerMat true A' i k * u k = A' i j)
    (hv : ∀ i, j ≤ i → i < M → A' i j = ∑ k ∈ Finset.range j, A' i k * u k + v i)
    (h1 : ∀ a b, a < M → b < N → b ≠ j → A3 a b = A' (Equiv.swap j q a) b)
    (h2 : ∀ a, a < j → A3 a j = u a) (h3 : A3 j j = v q)
    (h4 : ∀ a, j < a → a < M → A3 a j * A3 j j = v (Equiv.swap j q a))
    (h5 : ∀ a, j < a → a < M → ab (A3 a j) ≤ 1) : Part ab M N (j+1) A A3 P' := by
  have hσ : swapProd P' (j+1) 0 = swapProd P j 0 * Equiv.swap j q := by
    rw [Perm.swapProd_add, swapProd_congr P' P j 0 (fun k _ h => hP k (by omega))]
    simp [swapProd, hPj]
  have τlt : ∀ a, a < M → Equiv.swap j q a < M := fun a ha => Equiv.swap_lt hjM hq2 ha
  have τfix : ∀ a, a < j → Equiv.swap j q a = a := fun a ha =>
    Equiv.swap_apply_of_ne_of_ne (by omega) (by omega)
  have τge : ∀ a, j ≤ a → j ≤ Equiv.swap j q a := fun a ha => by
    rw [Equiv.swap_apply_def]; split_ifs <;> omega
  have hL : ∀ i k, i < M → k < j → lowerMat true A3 i k = lowerMat true A' (Equiv.swap j q i) k := by
    intro i k hi hk
    by_cases hij : i < j
    · rw [τfix i hij]
      simp only [lowerMat]
      rw [h1 i k hi (by omega) (by omega), τfix i hij]
      simp
    · have := τge i (by omega)
      simp only [lowerMat]
      rw [if_pos (by omega), if_pos (by omega), h1 i k hi (by omega) (by omega)]
  refine ⟨fun k hk => ?_, fun i c hi hc hcN => ?_, fun i c hi hc hcN => ?_, fun i k hk hki hi => ?_⟩
  · by_cases h : k = j
    · rw [h, hPj]; exact ⟨hq1, hq2⟩
    · rw [hP k (by omega)]; exact hI.range k (by omega)
  · rw [hσ, Equiv.Perm.mul_apply, Finset.sum_range_succ]
    by_cases hcj : c = j
    · subst hcj
      rw [← hI.todo _ _ (τlt i hi) le_rfl hcN]
      have e1 : ∑ k ∈ Finset.range c, lowerMat true A3 i k * upperMat false A3 k c =
          ∑ k ∈ Finset.range c, lowerMat true A' (Equiv.swap c q i) k * u k := by
        refine Finset.sum_congr rfl fun k hk => ?_
        have hk' : k < c := by simpa using hk
        rw [hL i k hi hk']
        simp [upperMat, hk', h2 k hk']
      rw [e1]
      by_cases hic : i < c
      · rw [τfix i hic, hu i hic]
        simp [lowerMat, show ¬ c < i by omega, show ¬ i = c by omega]
      · rw [hv _ (τge i (by omega)) (τlt i hi)]
        have e2 : ∑ k ∈ Finset.range c, lowerMat true A' (Equiv.swap c q i) k * u k =
            ∑ k ∈ Finset.range c, A' (Equiv.swap c q i) k * u k := by
          refine Finset.sum_congr rfl fun k hk => ?_
          have hk' : k < c := by simpa using hk
          have := τge i (by omega)
          simp only [lowerMat]
          rw [if_pos (by omega)]
        rw [e2]
        congr 1
        by_cases hic' : i = c
        · subst hic'
          simp [lowerMat, upperMat, h3]
        · rw [← h4 i (by omega) hi]
          simp [lowerMat, upperMat, show c < i by omega]
    · rw [hI.done _ c (τlt i hi) (by omega) hcN]
      have e0 : upperMat false A3 j c = 0 := by
        simp [upperMat, show ¬ j < c by omega, show ¬ j = c by omega]
      rw [e0, mul_zero, add_zero]
      refine Finset.sum_congr rfl fun k hk => ?_
      have hk' : k < j := by simpa using hk
      rw [hL i k hi hk']
      congr 1
      simp only [upperMat]
      rw [h1 k c (by omega) hcN hcj, τfix k hk']
      by_cases hkc : k = c
      · subst hkc; simp [h1 k k (by omega) hcN hcj, τfix k hk']
      · simp [hkc]
  · rw [hσ, Equiv.Perm.mul_apply, h1 i c hi hcN (by omega), hI.todo _ c (τlt i hi) (by omega) hcN]
  · by_cases hkj : k = j
    · subst hkj; exact h5 i hki hi
    · rw [h1 i k hi (by omega) (by omega)]
      by_cases hij : i < j
      · rw [τfix i hij]; exact hI.bound i k (by omega) hki hi
      · exact hI.bound _ k (by omega) (by have := τge i (by omega); omega) (τlt i hi)

theorem Part.final {ab : K → S} {M N : Nat} {A A' : Nat → Nat → K} {P : Nat → Nat} (hMN : N ≤ M)
    (h : Part ab M N N A A' P) : IsLU ab M N A A' P := by
  have e : min N M = N := by omega
  constructor
  · rw [e]; exact h.range
  · rw [e]; intro i j hi hj; exact h.done i j hi hj hj
  · rw [e]; exact h.bound

variable [DecidableEq K]

theorem bound_div (ab : AbsoluteValue K S) (x d : K) (hd : d ≠ 0) (h : ab x ≤ ab d) : ab (x / d) ≤ 1 := by
  rw [map_div₀]
  exact div_le_one_of_le₀ h (ab.nonneg _)

/-- One iteration of the non-blocked algorithm. -/
theorem nonBlockStep_spec (ab : AbsoluteValue K S) (uf : S → Bool) (huf : ∀ x, uf x = true ↔ x = 0)
    (M N j : Nat) (A A' : Nat → Nat → K) (P : Nat → Nat) (hjM : j < M) (hjN : j < N)
    (hI : Part ab M N j A A' P) :
    ∃ s, nonBlockStep ab uf M N j (A', P) = some s ∧ Part ab M N (j+1) A s.1 s.2 := by
  -- the column update
  obtain ⟨u, v, A1, hA1, hu, hv, ha1, ha2, ha3⟩ : ∃ (u v : Nat → K) (A1 : Nat → Nat → K),
      colUpdate M j A' = some A1 ∧
      (∀ i, i < j → ∑ k ∈ Finset.range j, lowerMat true A' i k * u k = A' i j) ∧
      (∀ i, j ≤ i → i < M → A' i j = ∑ k ∈ Finset.range j, A' i k * u k + v i) ∧
      (∀ a b, b ≠ j → A1 a b = A' a b) ∧ (∀ a, a < j → A1 a j = u a) ∧
      (∀ a, j ≤ a → a < M → A1 a j = v a) := by
    by_cases h0 : j > 0
    · obtain ⟨u, hu⟩ := Option.isSome_iff_exists.mp
        (lowerV_isSome .cm true j A' (fun i => A' i j) (fun i _ => by simp [dg]))
      have hs := lowerV_sound _ _ _ _ _ _ hu
      refine ⟨u, fun i => A' i j - ∑ k ∈ Finset.range j, A' i k * u k, _,
        by rw [colUpdate, if_pos h0, hu, Option.map_some],
        hs.1, fun i a b => by ring, fun a b hb => ?_, fun a ha => ?_, fun a ha ha' => ?_⟩
      · dsimp only
        rw [if_neg (by omega), if_neg (by omega)]
      · dsimp only
        rw [if_neg (by omega), if_pos (by omega)]
      · dsimp only
        rw [if_pos (by omega), if_neg (by omega)]
        congr 1
        refine Finset.sum_congr rfl fun k hk => ?_
        have hk' : k < j := by simpa using hk
        rw [if_neg (by omega), if_pos (by omega)]
    · have : j = 0 := by omega
      subst this
      exact ⟨fun _ => 0, fun i => A' i 0, A', by rw [colUpdate, if_neg h0], fun i a => by omega,
        fun i _ _ => by simp, fun _ _ _ => rfl, fun a ha => by omega, fun _ _ _ => rfl⟩
  refine ⟨pivotCol ab uf M N j A1 P, by rw [nonBlockStep, hA1, Option.map_some], ?_⟩
  unfold pivotCol
  obtain ⟨m1, m2, m3⟩ := maxAbs_spec ab (fun i => A1 (j+i) j) (M-j) (by omega)
  generalize hpm : maxAbs ab (fun i => A1 (j+i) j) (M-j) = pm at m1 m2 m3 ⊢
  obtain ⟨piv, ip⟩ := pm
  dsimp only at m1 m2 m3 ⊢
  have hvle : ∀ a, j ≤ a → a < M → ab (v a) ≤ piv := by
    intro a h1 h2
    have := m3 (a-j) (by omega)
    rw [show j + (a-j) = a by omega, ha3 a h1 h2] at this
    exact this
  by_cases hz : uf piv = true
  · rw [if_pos hz]
    have hp0 : piv = 0 := (huf _).mp hz
    refine Part.step hjM hjN hI u v j le_rfl hjM (fun k hk => Function.update_of_ne (by omega) _ _)
      (Function.update_self _ _ _) hu hv ?_ ?_ ?_ ?_ ?_
    · intro a b _ _ hb
      dsimp only
      rw [if_neg (by omega), ha1 a b hb]; simp
    · intro a ha
      dsimp only
      rw [if_neg (by omega), ha2 a ha]
    all_goals have hv0 : ∀ a, j ≤ a → a < M → v a = 0 := fun a h1 h2 => by
                have := hvle a h1 h2
                rw [hp0] at this
                exact ab.eq_zero.mp (le_antisymm this (ab.nonneg _))
    · dsimp only
      rw [if_pos (by omega), hv0 j le_rfl hjM]
    · intro a ha1 ha2
      dsimp only
      rw [if_pos (by omega), zero_mul, Equiv.swap_self, Equiv.refl_apply, hv0 a ha1.le ha2]
    · intro a ha1 ha2
      dsimp only
      rw [if_pos (by omega), map_zero]
      exact zero_le_one
  · rw [if_neg hz]
    have hp0 : piv ≠ 0 := fun h => hz ((huf _).mpr h)
    -- the row swap
    obtain ⟨q, A2, hq, hA2, hq1, hq2, b1⟩ : ∃ (q : Nat) (A2 : Nat → Nat → K),
        (if ip ≠ 0 then ip + j else j) = q ∧ (if ip ≠ 0 then swapRows N A1 (ip + j) j else A1) = A2 ∧
        q = j + ip ∧ q < M ∧ ∀ a b, b < N → A2 a b = A1 (Equiv.swap j q a) b := by
      by_cases hip : ip = 0
      · refine ⟨j, A1, by simp [hip], by simp [hip], by omega, hjM, fun a b _ => by simp⟩
      · refine ⟨ip+j, swapRows N A1 (ip+j) j, by simp [hip], by simp [hip], by omega, by omega,
          fun a b hb => by rw [swapRows_eq _ _ _ _ _ _ hb, Equiv.swap_comm]⟩
    simp only [hq, hA2]
    have hjq : Equiv.swap j q j = q := Equiv.swap_apply_left _ _
    have hvq : A2 j j = v q := by rw [b1 j j hjN, hjq, ha3 q (by omega) hq2]
    have hpq : piv = ab (v q) := by
      rw [m2, show j + ip = q by omega, ha3 q (by omega) hq2]
    have hd : A2 j j ≠ 0 := by
      rw [hvq]; intro h; apply hp0; rw [hpq, h, map_zero]
    rw [if_pos hd]
    have τge : ∀ a, j ≤ a → j ≤ Equiv.swap j q a := fun a ha => by
      rw [Equiv.swap_apply_def]; split_ifs <;> omega
    have τlt : ∀ a, a < M → Equiv.swap j q a < M := fun a ha => Equiv.swap_lt hjM hq2 ha
    refine Part.step hjM hjN hI u v q (by omega) hq2 (fun k hk => Function.update_of_ne (by omega) _ _)
      (Function.update_self _ _ _) hu hv ?_ ?_ ?_ ?_ ?_
    · intro a b _ hbN hb
      rw [if_neg (by omega), b1 a b hbN, ha1 _ b hb]
    · intro a ha
      rw [if_neg (by omega), b1 a j hjN, Equiv.swap_apply_of_ne_of_ne (by omega) (by omega), ha2 a ha]
    · rw [if_neg (by omega), hvq]
    · intro a h1 h2
      rw [if_pos (by omega), if_neg (by omega), div_mul_cancel₀ _ hd, b1 a j hjN,
        ha3 _ (τge a h1.le) (τlt a h2)]
    · intro a h1 h2
      rw [if_pos (by omega)]
      refine bound_div ab _ _ hd ?_
      rw [hvq, ← hpq, b1 a j hjN, ha3 _ (τge a h1.le) (τlt a h2)]
      exact hvle _ (τge a h1.le) (τlt a h2)

/-- **C27/C28** for the unblocked algorithm, every shape (also wide), every matrix. -/
theorem nonBlock_spec (ab : AbsoluteValue K S) (uf : S → Bool) (huf : ∀ x, uf x = true ↔ x = 0)
    (nb nb2 : Nat) (hnb : 0 < nb) (hnb2 : 0 < nb2) (M N : Nat) (A : Nat → Nat → K) (P : Nat → Nat) :
    ∃ s, nonBlock ab uf nb nb2 M N A P = some s ∧ IsLU ab M N A s.1 s.2 := by
  obtain ⟨s, h1, h2⟩ := forRange_inv (nonBlockStep ab uf M N)
    (fun j s => Part ab M N j A s.1 s.2) (min N M) 0 (A, P) (Part.init _ _ _ _ _)
    (by
      intro j s _ hj hI
      exact nonBlockStep_spec ab uf huf M N j A s.1 s.2 (by omega) (by omega) hI)
  rw [zero_add] at h2
  unfold nonBlock
  rw [h1, Option.bind_some]
  by_cases hw : N > M
  · rw [if_pos hw]
    obtain ⟨X, hX⟩ := Option.isSome_iff_exists.mp (lowerM_isSome nb nb2 hnb hnb2 .cm false true M (N-M) s.1
      (sub s.1 0 M) (fun i _ => by simp [dg]))
    obtain ⟨x1, x2⟩ := lowerM_sound nb nb2 hnb hnb2 _ _ _ _ _ _ _ _ hX
    rw [hX, Option.map_some]
    have e : min N M = M := by omega
    rw [e] at h2
    refine ⟨_, rfl, ?_⟩
    have hin : ∀ i k, k < M → paste s.1 0 M M (N-M) X i k = s.1 i k := fun i k hk => by
      rw [paste, if_neg (by omega)]
    have hL : ∀ i k, k < M → lowerMat true (paste s.1 0 M M (N-M) X) i k = lowerMat true s.1 i k := by
      intro i k hk
      simp [lowerMat, hin i k hk]
    constructor
    · rw [e]; exact h2.range
    · rw [e]; intro i j hi hj
      dsimp only
      by_cases hjM : j < M
      · rw [h2.done i j hi hjM hj]
        refine Finset.sum_congr rfl fun k hk => ?_
        have hk' : k < M := by simpa using hk
        rw [hL i k hk']
        congr 1
        simp only [upperMat]
        rw [hin k j hjM, hin k k hk']
      · rw [← h2.todo i j hi (by omega) hj]
        have := x1 i (j-M) hi (by omega)
        simp only [sub, zero_add, show M + (j-M) = j by omega] at this
        rw [← this]
        refine Finset.sum_congr rfl fun k hk => ?_
        have hk' : k < M := by simpa using hk
        rw [hL i k hk']
        congr 1
        simp only [upperMat, show k < j by omega, if_true]
        rw [paste, if_pos (by omega)]
        simp
    · rw [e]; intro i k hk hki hi
      dsimp only
      rw [hin i k hk]
      exact h2.bound i k hk hki hi
  · rw [if_neg hw]
    have e : min N M = N := by omega
    rw [e] at h2
    exact ⟨s, rfl, Part.final (by omega) h2⟩

/-- The `R == 1` branch. -/
theorem one_spec (ab : AbsoluteValue K S) (uf : S → Bool) (huf : ∀ x, uf x = true ↔ x = 0)
    (M : Nat) (hM : 0 < M) (A : Nat → Nat → K) : IsLU ab M 1 A (one ab uf M A).1 (one ab uf M A).2 := by
  obtain ⟨m1, m2, m3⟩ := maxAbs_spec ab (fun i => A i 0) M hM
  apply Part.final (by omega)
  have I0 := Part.init ab M 1 A (fun _ => 0)
  unfold one
  generalize hpm : maxAbs ab (fun i => A i 0) M = pm at m1 m2 m3 ⊢
  obtain ⟨piv, p⟩ := pm
  dsimp only at m1 m2 m3 ⊢
  by_cases hz : uf piv = true
  · have hp0 : piv = 0 := (huf _).mp hz
    have hv0 : ∀ a, a < M → A a 0 = 0 := fun a h2 => by
      have := m3 a h2
      rw [hp0] at this
      exact ab.eq_zero.mp (le_antisymm this (ab.nonneg _))
    simp only [hz, if_true, ne_eq, not_true_eq_false, if_false]
    refine Part.step (q := 0) hM one_pos I0 (fun _ => 0) (fun i => A i 0) le_rfl hM (fun k hk => by omega)
      rfl (fun i hi => by omega) (fun i _ _ => by simp) (fun a b _ _ _ => by omega) (fun a ha => by omega)
      ?_ ?_ ?_
    · rw [if_pos (by omega), hv0 0 hM]
    · intro a _ h
      rw [if_pos (by omega), zero_mul, Equiv.swap_self, Equiv.refl_apply, hv0 a h]
    · intro a _ h
      rw [if_pos (by omega), map_zero]; exact zero_le_one
  · have hp0 : piv ≠ 0 := fun h => hz ((huf _).mpr h)
    simp only [hz, Bool.false_eq_true, if_false]
    rw [if_pos hp0]
    obtain ⟨A2, hA2, b1⟩ : ∃ (A2 : Nat → Nat → K), (if p ≠ 0 then swapRows 1 A p 0 else A) = A2 ∧
        ∀ a, A2 a 0 = A (Equiv.swap 0 p a) 0 := by
      by_cases hip : p = 0
      · exact ⟨A, by simp [hip], fun a => by simp [hip]⟩
      · exact ⟨swapRows 1 A p 0, by simp [hip],
          fun a => by rw [swapRows_eq _ _ _ _ _ _ one_pos, Equiv.swap_comm]⟩
    simp only [hA2]
    have hd : A2 0 0 ≠ 0 := by
      rw [b1, Equiv.swap_apply_left]; intro h; apply hp0; rw [m2, h, map_zero]
    refine Part.step (q := p) hM one_pos I0 (fun _ => 0) (fun i => A i 0) (by omega) m1 (fun k hk => by omega)
      rfl (fun i hi => by omega) (fun i _ _ => by simp) (fun a b _ _ _ => by omega) (fun a ha => by omega)
      ?_ ?_ ?_
    · rw [if_neg (by omega), b1, Equiv.swap_apply_left]
    · intro a h1 h2
      rw [if_pos (by omega), if_neg (by omega), div_mul_cancel₀ _ hd, b1]
    · intro a h1 h2
      rw [if_pos (by omega)]
      refine bound_div ab _ _ hd ?_
      rw [b1, b1, Equiv.swap_apply_left, ← m2]
      exact m3 _ (Equiv.swap_lt hM m1 h2)

/-- What the first column of the `R == 2` branch leaves behind, described as the state after one column (`A'`)
plus the already updated second column (`s.1`), with the pivot for the second column. -/
theorem twoB_spec (ab : AbsoluteValue K S) (uf : S → Bool) (huf : ∀ x, uf x = true ↔ x = 0)
    (M : Nat) (hM : 2 ≤ M) (A : Nat → Nat → K) :
    ∃ s A', twoB ab M (twoA ab uf M A) = some s ∧
      Part ab M 2 1 A A' (fun _ => (twoA ab uf M A).2.2) ∧
      (∀ a, a < M → s.1 a 0 = A' a 0) ∧ s.1 0 1 = A' 0 1 ∧
      (∀ a, 1 ≤ a → a < M → A' a 1 = A' a 0 * A' 0 1 + s.1 a 1) ∧
      1 ≤ s.2.2 ∧ s.2.2 < M ∧ s.2.1 = ab (s.1 s.2.2 1) ∧ ∀ a, 1 ≤ a → a < M → ab (s.1 a 1) ≤ s.2.1 := by
  obtain ⟨m1, m2, m3⟩ := maxAbs_spec ab (fun i => A i 0) M (by omega)
  have I0 := Part.init ab M 2 A (fun _ => 0)
  unfold twoA
  generalize hpm : maxAbs ab (fun i => A i 0) M = pm at m1 m2 m3 ⊢
  obtain ⟨piv, ip⟩ := pm
  dsimp only at m1 m2 m3 ⊢
  by_cases hz : uf piv = true
  · have hp0 : piv = 0 := (huf _).mp hz
    have hv0 : ∀ a, a < M → A a 0 = 0 := fun a h2 => by
      have := m3 a h2
      rw [hp0] at this
      exact ab.eq_zero.mp (le_antisymm this (ab.nonneg _))
    simp only [hz, if_true, twoB, ne_eq, not_true_eq_false, if_false]
    obtain ⟨n1, n2, n3⟩ := maxAbs_spec ab
      (fun i => if 1 = 0 ∧ 1 + i < M then (0:K) else A (1+i) 1) (M-1) (by omega)
    refine ⟨_, fun a b => if b = 0 ∧ a < M then 0 else A a b, rfl, ?_, fun _ _ => rfl, rfl, ?_, ?_, ?_, ?_, ?_⟩
    · refine Part.step (q := 0) (by omega) (by omega) I0 (fun _ => 0) (fun i => A i 0) le_rfl (by omega)
        (fun k hk => by omega)
        rfl (fun i hi => by omega) (fun i _ _ => by simp) (fun a b _ _ hb => ?_) (fun a ha => by omega)
        ?_ ?_ ?_
      · rw [if_neg (by omega)]; simp
      · rw [if_pos (by omega), hv0 0 (by omega)]
      · intro a _ h
        rw [if_pos (by omega), zero_mul, Equiv.swap_self, Equiv.refl_apply, hv0 a h]
      · intro a _ h
        rw [if_pos (by omega), map_zero]; exact zero_le_one
    · intro a h1 h2
      dsimp only
      rw [if_pos (by omega : 0 = 0 ∧ a < M), zero_mul, zero_add]
    · dsimp only; omega
    · dsimp only; omega
    · dsimp only
      rw [n2, add_comm 1]
    · intro a h1 h2
      have := n3 (a-1) (by omega)
      rw [show 1 + (a-1) = a by omega] at this
      exact this
  · have hp0 : piv ≠ 0 := fun h => hz ((huf _).mpr h)
    simp only [hz, Bool.false_eq_true, if_false, twoB]
    rw [if_pos hp0]
    obtain ⟨A2, hA2, b1⟩ : ∃ (A2 : Nat → Nat → K), (if ip ≠ 0 then swapRows 2 A ip 0 else A) = A2 ∧
        ∀ a b, b < 2 → A2 a b = A (Equiv.swap 0 ip a) b := by
      by_cases hip : ip = 0
      · exact ⟨A, by simp [hip], fun a => by simp [hip]⟩
      · exact ⟨swapRows 2 A ip 0, by simp [hip],
          fun a b hb => by rw [swapRows_eq _ _ _ _ _ _ hb, Equiv.swap_comm]⟩
    simp only [hA2]
    have hd : A2 0 0 ≠ 0 := by
      rw [b1 _ _ (by omega), Equiv.swap_apply_left]; intro h; apply hp0; rw [m2, h, map_zero]
    generalize hinv : (A2 0 0)⁻¹ = inv
    obtain ⟨s, e1, e2⟩ := forRange_inv (fun i t => some (two1 ab inv (A2 0 1) i t))
      (fun m s => (∀ a, s.1 a 0 = if 1 ≤ a ∧ a < m then A2 a 0 * inv else A2 a 0) ∧
        (∀ a, s.1 a 1 = if 1 ≤ a ∧ a < m then A2 a 1 - A2 a 0 * inv * A2 0 1 else A2 a 1) ∧
        (∀ a, 1 ≤ a → a < m → ab (s.1 a 1) ≤ s.2.1) ∧
        ((s.2.1 = ab (s.1 s.2.2 1) ∧ 1 ≤ s.2.2 ∧ s.2.2 < m) ∨ s.2 = (0, 1))) (M-1) 1 (A2, 0, 1)
      ⟨fun a => by rw [if_neg (by omega)], fun a => by rw [if_neg (by omega)], fun a h h' => by omega,
        Or.inr rfl⟩
      (by
        intro m s hm1 hm2 ⟨j1, j2, j3, j4⟩
        refine ⟨_, rfl, ?_⟩
        have em0 := j1 m
        have em1 := j2 m
        rw [if_neg (by omega)] at em0 em1
        -- the updated array
        obtain ⟨B, hB, B0, B1⟩ : ∃ B, setE (setE s.1 m 0 (s.1 m 0 * inv)) m 1
            (setE s.1 m 0 (s.1 m 0 * inv) m 1 - setE s.1 m 0 (s.1 m 0 * inv) m 0 * A2 0 1) = B ∧
            (∀ a, B a 0 = if 1 ≤ a ∧ a < m+1 then A2 a 0 * inv else A2 a 0) ∧
            (∀ a, B a 1 = if 1 ≤ a ∧ a < m+1 then A2 a 1 - A2 a 0 * inv * A2 0 1 else A2 a 1) := by
          refine ⟨_, rfl, fun a => ?_, fun a => ?_⟩
          · rw [setE_ne _ _ _ _ (by omega)]
            by_cases ha : a = m
            · subst ha
              rw [setE_self, if_pos (by omega), em0]
            · rw [setE_ne _ _ _ _ (by omega), j1 a]
              by_cases h : 1 ≤ a ∧ a < m
              · rw [if_pos h, if_pos (by omega)]
              · rw [if_neg h, if_neg (by omega)]
          · by_cases ha : a = m
            · subst ha
              rw [setE_self, if_pos (by omega), setE_self, setE_ne _ _ _ _ (by omega), em0, em1]
            · rw [setE_ne _ _ _ _ (by omega), setE_ne _ _ _ _ (by omega), j2 a]
              by_cases h : 1 ≤ a ∧ a < m
              · rw [if_pos h, if_pos (by omega)]
              · rw [if_neg h, if_neg (by omega)]
        have Bs : ∀ a, a < m → B a 1 = s.1 a 1 := fun a ha => by
          rw [B1, j2]
          by_cases h : 1 ≤ a ∧ a < m
          · rw [if_pos h, if_pos (by omega)]
          · rw [if_neg h, if_neg (by omega)]
        simp only [two1, hB]
        by_cases hg : ab (B m 1) > s.2.1
        · rw [if_pos hg]
          refine ⟨B0, B1, fun a h h' => ?_, Or.inl ⟨rfl, hm1, Nat.lt_succ_self _⟩⟩
          by_cases ha : a = m
          · subst ha; exact le_rfl
          · dsimp only
            rw [Bs a (by omega)]
            exact (j3 a h (by omega)).trans hg.le
        · rw [if_neg hg]
          refine ⟨B0, B1, fun a h h' => ?_, ?_⟩
          · by_cases ha : a = m
            · subst ha; exact not_lt.mp hg
            · dsimp only
              rw [Bs a (by omega)]
              exact j3 a h (by omega)
          · rcases j4 with j4 | j4
            · refine Or.inl ⟨?_, j4.2.1, Nat.lt_succ_of_lt j4.2.2⟩
              dsimp only
              rw [Bs _ j4.2.2]
              exact j4.1
            · exact Or.inr j4)
    rw [show 1 + (M-1) = M by omega] at e2
    obtain ⟨j1, j2, j3, j4⟩ := e2
    refine ⟨s, fun a b => if b = 0 then s.1 a 0 else A2 a b, e1, ?_, fun a _ => by simp, ?_, ?_, ?_, ?_, ?_, j3⟩
    · refine Part.step (q := ip) (by omega) (by omega) I0 (fun _ => 0) (fun i => A i 0) (by omega) m1
        (fun k hk => by omega)
        rfl (fun i hi => by omega) (fun i _ _ => by simp) (fun a b _ _ hb => ?_) (fun a ha => by omega)
        ?_ ?_ ?_
      · rw [if_neg hb, b1 _ _ (by omega)]
      · rw [if_pos rfl, j1, if_neg (by omega), b1 _ _ (by omega), Equiv.swap_apply_left]
      · intro a h1 h
        rw [if_pos rfl, if_pos rfl, j1, if_pos (by omega), j1, if_neg (by omega), ← hinv,
          inv_mul_cancel_right₀ hd, b1 _ _ (by omega)]
      · intro a h1 h
        rw [if_pos rfl, j1, if_pos (by omega), ← hinv, ← div_eq_mul_inv]
        refine bound_div ab _ _ hd ?_
        rw [b1 _ _ (by omega), b1 _ _ (by omega), Equiv.swap_apply_left, ← m2]
        exact m3 _ (Equiv.swap_lt (by omega) m1 h)
    · dsimp only
      rw [j2, if_neg (by omega), if_neg (by omega)]
    · intro a h1 h2
      dsimp only
      rw [if_neg (by omega), if_pos rfl, if_neg (by omega), j1, j2, if_pos (by omega), if_pos (by omega)]
      ring
    · rcases j4 with h | h
      · exact h.2.1
      · rw [h]
    · rcases j4 with h | h
      · exact h.2.2
      · rw [h]; dsimp only; omega
    · rcases j4 with h | h
      · exact h.1
      · have := j3 1 le_rfl (by omega)
        rw [h] at this ⊢
        exact le_antisymm (ab.nonneg _) this

/-- The `R == 2` branch, for a matrix that is not wide. -/
theorem two_spec (ab : AbsoluteValue K S) (uf : S → Bool) (huf : ∀ x, uf x = true ↔ x = 0)
    (M : Nat) (hM : 2 ≤ M) (A : Nat → Nat → K) :
    ∃ s, two ab uf M 2 A = some s ∧ IsLU ab M 2 A s.1 s.2 := by
  obtain ⟨s, A', e, I1, s0, s01, s1, p1, p2, p3, p4⟩ := twoB_spec ab uf huf M hM A
  refine ⟨_, by rw [two, e, Option.map_some], ?_⟩
  apply Part.final hM
  dsimp only
  have ed : twoD 2 (twoA ab uf M A).2.2 (twoC uf M s).1 = (twoC uf M s).1 := by
    rw [twoD, if_neg (by omega)]
  rw [ed]
  have hu : ∀ i, i < 1 → ∑ k ∈ Finset.range 1, lowerMat true A' i k * (fun k => A' k 1) k = A' i 1 := by
    intro i hi
    have : i = 0 := by omega
    subst this
    simp [lowerMat]
  have hv : ∀ i, 1 ≤ i → i < M → A' i 1 = ∑ k ∈ Finset.range 1, A' i k * (fun k => A' k 1) k + s.1 i 1 := by
    intro i h1 h2
    rw [Finset.sum_range_one]
    exact s1 i h1 h2
  have hb : ∀ b, b < 2 → b ≠ 1 → b = 0 := fun b h h' => by omega
  generalize (twoA ab uf M A).2.2 = ip0 at *
  unfold twoC
  by_cases hz : uf s.2.1 = true
  · have hp0 : s.2.1 = 0 := (huf _).mp hz
    have hv0 : ∀ a, 1 ≤ a → a < M → s.1 a 1 = 0 := fun a h1 h2 => by
      have := p4 a h1 h2
      rw [hp0] at this
      exact ab.eq_zero.mp (le_antisymm this (ab.nonneg _))
    simp only [hz, if_true, ne_eq, not_true_eq_false, false_and, if_false]
    refine Part.step (q := 1) (by omega) (by omega) I1 (fun k => A' k 1) (fun i => s.1 i 1) le_rfl (by omega)
      (fun k hk => by rw [if_pos (by omega)]) (if_neg (by omega)) hu hv ?_ ?_ ?_ ?_ ?_
    · intro a b ha h1 h2
      rw [if_neg (by omega), hb b h1 h2, s0 a ha]; simp
    · intro a ha
      have : a = 0 := by omega
      subst this
      rw [if_neg (by omega), s01]
    · rw [if_pos (by omega), hv0 1 le_rfl (by omega)]
    · intro a h1 h2
      rw [if_pos (by omega), zero_mul, Equiv.swap_self, Equiv.refl_apply, hv0 a (by omega) h2]
    · intro a h1 h2
      rw [if_pos (by omega), map_zero]; exact zero_le_one
  · have hp0 : s.2.1 ≠ 0 := fun h => hz ((huf _).mpr h)
    simp only [hz, Bool.false_eq_true, if_false]
    by_cases hM2 : M > 2
    · rw [if_pos ⟨hp0, hM2⟩]
      obtain ⟨A2, hA2, b1⟩ : ∃ (A2 : Nat → Nat → K), (if s.2.2 ≠ 1 then swapRows 2 s.1 s.2.2 1 else s.1) = A2 ∧
          ∀ a b, b < 2 → A2 a b = s.1 (Equiv.swap 1 s.2.2 a) b := by
        by_cases hip : s.2.2 = 1
        · exact ⟨s.1, by simp [hip], fun a => by simp [hip]⟩
        · exact ⟨swapRows 2 s.1 s.2.2 1, by simp [hip],
            fun a b hb => by rw [swapRows_eq _ _ _ _ _ _ hb, Equiv.swap_comm]⟩
      simp only [hA2]
      have τge : ∀ a, 1 ≤ a → 1 ≤ Equiv.swap 1 s.2.2 a := fun a ha => by
        rw [Equiv.swap_apply_def]; split_ifs <;> omega
      have τlt : ∀ a, a < M → Equiv.swap 1 s.2.2 a < M := fun a ha => Equiv.swap_lt (by omega) p2 ha
      have hd : A2 1 1 ≠ 0 := by
        rw [b1 _ _ (by omega), Equiv.swap_apply_left]; intro h; apply hp0; rw [p3, h, map_zero]
      refine Part.step (q := s.2.2) (by omega) (by omega) I1 (fun k => A' k 1) (fun i => s.1 i 1) p1 p2
        (fun k hk => by rw [if_pos (by omega)]) (if_neg (by omega)) hu hv ?_ ?_ ?_ ?_ ?_
      · intro a b ha h1 h2
        rw [if_neg (by omega), b1 _ _ h1, hb b h1 h2, s0 _ (τlt a ha)]
      · intro a ha
        have : a = 0 := by omega
        subst this
        rw [if_neg (by omega), b1 _ _ (by omega), Equiv.swap_apply_of_ne_of_ne (by omega) (by omega), s01]
      · rw [if_neg (by omega), b1 _ _ (by omega), Equiv.swap_apply_left]
      · intro a h1 h2
        rw [if_pos (by omega), if_neg (by omega), div_mul_cancel₀ _ hd, b1 _ _ (by omega)]
      · intro a h1 h2
        rw [if_pos (by omega)]
        refine bound_div ab _ _ hd ?_
        rw [b1 _ _ (by omega), b1 _ _ (by omega), Equiv.swap_apply_left, ← p3]
        exact p4 _ (τge a (by omega)) (τlt a h2)
    · rw [if_neg (fun h => hM2 h.2)]
      have hq : s.2.2 = 1 := by omega
      refine Part.step (q := s.2.2) (by omega) (by omega) I1 (fun k => A' k 1) (fun i => s.1 i 1) p1 p2
        (fun k hk => by rw [if_pos (by omega)]) (if_neg (by omega)) hu hv ?_ ?_ ?_ ?_ ?_
      · intro a b ha h1 h2
        rw [hb b h1 h2, s0 _ ha, hq]; simp
      · intro a ha
        have : a = 0 := by omega
        subst this
        exact s01
      · rw [hq]
      · intro a h1 h2; omega
      · intro a h1 h2; omega

/-- The recursive step, as mathematics: a decomposition of the left part and one of the Schur complement combine. -/
theorem IsLU.combine {ab : K → S} {M N N1 : Nat} (hNM : N ≤ M) (h1 : N1 < N)
    {A A0 A01 A11 : Nat → Nat → K} {P0 P1 : Nat → Nat}
    (hL : IsLU ab M N1 A A0 P0)
    (hU : ∀ i c, i < N1 → c < N-N1 → ∑ k ∈ Finset.range N1, lowerMat true A0 i k * A01 k c =
      A (swapProd P0 N1 0 i) (N1+c))
    (hS : IsLU ab (M-N1) (N-N1)
      (fun i c => A (swapProd P0 N1 0 (N1+i)) (N1+c) - ∑ k ∈ Finset.range N1, A0 (N1+i) k * A01 k c) A11 P1)
    {P : Nat → Nat} (hPa : ∀ k, k < N1 → P k = P0 k) (hPb : ∀ k, N1 ≤ k → P k = P1 (k-N1) + N1)
    {B : Nat → Nat → K}
    (b0 : ∀ i k, i < M → k < N1 → B i k = A0 (swapProd P (N-N1) N1 i) k)
    (b01 : ∀ i c, i < N1 → c < N-N1 → B i (N1+c) = A01 i c)
    (b11 : ∀ i c, i < M-N1 → c < N-N1 → B (N1+i) (N1+c) = A11 i c) :
    IsLU ab M N A B P := by
  have e1 : min N1 M = N1 := by omega
  have e2 : min (N-N1) (M-N1) = N-N1 := by omega
  have e3 : min N M = N := by omega
  obtain ⟨l1, l2, l3⟩ := hL
  obtain ⟨s1, s2, s3⟩ := hS
  rw [e1] at l1 l2 l3
  rw [e2] at s1 s2 s3
  have hσ : swapProd P N 0 = swapProd P0 N1 0 * swapProd P (N-N1) N1 := by
    conv_lhs => rw [show N = N1 + (N-N1) by omega]
    rw [Perm.swapProd_add, swapProd_congr P P0 N1 0 (fun k _ h => hPa k (by omega)), zero_add]
  have hfix : ∀ a, a < N1 → swapProd P (N-N1) N1 a = a := by
    intro a ha
    refine Perm.swapProd_fix P _ _ (fun k h h' => ?_) a ha
    rw [hPb k h]
    have := (s1 (k-N1) (by omega)).1
    omega
  have hsh : ∀ a, swapProd P (N-N1) N1 (N1+a) = N1 + swapProd P1 (N-N1) 0 a := by
    intro a
    have := swapProd_shift P P1 N1 (N-N1) 0 a (fun k h h' => by rw [hPb _ (by omega)]; congr 2; omega)
    rwa [add_zero] at this
  have hlt : ∀ a, a < M-N1 → swapProd P1 (N-N1) 0 a < M-N1 := by
    intro a ha
    exact swapProd_lt P1 _ _ _ (by omega) (fun k _ h' => (s1 k (by omega)).2) a ha
  have hge : ∀ i, i < M → N1 ≤ i → N1 ≤ swapProd P (N-N1) N1 i ∧ swapProd P (N-N1) N1 i < M := by
    intro i hi h
    have := hsh (i-N1)
    rw [show N1 + (i-N1) = i by omega] at this
    have := hlt (i-N1) (by omega)
    omega
  have hB0 : ∀ i k, i < M → k < N1 → lowerMat true B i k = lowerMat true A0 (swapProd P (N-N1) N1 i) k := by
    intro i k hi hk
    by_cases h : i < N1
    · rw [hfix i h]
      simp only [lowerMat]
      rw [b0 i k hi hk, hfix i h]
      simp
    · obtain ⟨g1, g2⟩ := hge i hi (by omega)
      simp only [lowerMat]
      rw [if_pos (by omega), if_pos (by omega), b0 i k hi hk]
  have hU0 : ∀ k c, k < N1 → c < N1 → upperMat false B k c = upperMat false A0 k c := by
    intro k c hk hc
    simp only [upperMat]
    rw [b0 k c (by omega) hc, hfix k hk]
    by_cases h : k = c
    · subst h; simp [b0 k k (by omega) hk, hfix k hk]
    · simp [h]
  refine ⟨?_, ?_, ?_⟩
  · rw [e3]
    intro k hk
    by_cases h : k < N1
    · rw [hPa k h]; exact l1 k h
    · rw [hPb k (by omega)]
      have := s1 (k-N1) (by omega)
      omega
  · rw [e3]
    intro i j hi hj
    rw [hσ, Equiv.Perm.mul_apply, sum_split _ h1.le]
    by_cases hjN : j < N1
    · -- left block column
      have z : ∑ l ∈ Finset.range (N-N1), lowerMat true B i (N1+l) * upperMat false B (N1+l) j = 0 := by
        refine Finset.sum_eq_zero fun l _ => ?_
        simp [upperMat, show ¬ N1 + l < j by omega, show ¬ N1 + l = j by omega]
      rw [z, add_zero]
      have hlt' : swapProd P (N-N1) N1 i < M := by
        by_cases h : i < N1
        · rw [hfix i h]; exact hi
        · exact (hge i hi (by omega)).2
      rw [l2 _ j hlt' hjN]
      refine Finset.sum_congr rfl fun k hk => ?_
      have hk' : k < N1 := by simpa using hk
      rw [hB0 i k hi hk', hU0 k j hk' hjN]
    · obtain ⟨c, rfl⟩ : ∃ c, j = N1 + c := ⟨j - N1, by omega⟩
      have eU : ∀ k, k < N1 → upperMat false B k (N1+c) = A01 k c := by
        intro k hk
        simp only [upperMat, show k < N1 + c by omega, if_true]
        exact b01 k c hk (by omega)
      have e4 : ∑ k ∈ Finset.range N1, lowerMat true B i k * upperMat false B k (N1+c) =
          ∑ k ∈ Finset.range N1, lowerMat true A0 (swapProd P (N-N1) N1 i) k * A01 k c := by
        refine Finset.sum_congr rfl fun k hk => ?_
        have hk' : k < N1 := by simpa using hk
        rw [hB0 i k hi hk', eU k hk']
      rw [e4]
      by_cases hiN : i < N1
      · have z : ∑ l ∈ Finset.range (N-N1), lowerMat true B i (N1+l) * upperMat false B (N1+l) (N1+c) = 0 := by
          refine Finset.sum_eq_zero fun l _ => ?_
          simp [lowerMat, show ¬ N1 + l < i by omega, show ¬ i = N1 + l by omega]
        rw [z, add_zero, hfix i hiN, hU i c hiN (by omega)]
      · obtain ⟨a, rfl⟩ : ∃ a, i = N1 + a := ⟨i - N1, by omega⟩
        rw [hsh a]
        have := s2 a c (by omega) (by omega)
        have e5 : ∑ l ∈ Finset.range (N-N1), lowerMat true B (N1+a) (N1+l) * upperMat false B (N1+l) (N1+c) =
            ∑ l ∈ Finset.range (N-N1), lowerMat true A11 a l * upperMat false A11 l c := by
          refine Finset.sum_congr rfl fun l hl => ?_
          have hl' : l < N-N1 := by simpa using hl
          congr 1
          · simp only [lowerMat, add_lt_add_iff_left, add_right_inj]
            rw [b11 a l (by omega) hl']
            simp
          · simp only [upperMat, add_lt_add_iff_left, add_right_inj]
            rw [b11 l c (by omega) (by omega), b11 l l (by omega) hl']
        have e6 : ∑ k ∈ Finset.range N1, lowerMat true A0 (N1 + swapProd P1 (N-N1) 0 a) k * A01 k c =
            ∑ k ∈ Finset.range N1, A0 (N1 + swapProd P1 (N-N1) 0 a) k * A01 k c := by
          refine Finset.sum_congr rfl fun k hk => ?_
          have hk' : k < N1 := by simpa using hk
          simp only [lowerMat]
          rw [if_pos (by omega)]
        rw [e5, e6, ← this]
        ring
  · rw [e3]
    intro i k hk hki hi
    by_cases h : k < N1
    · rw [b0 i k hi h]
      by_cases h' : i < N1
      · rw [hfix i h']; exact l3 i k h hki hi
      · obtain ⟨g1, g2⟩ := hge i hi (by omega)
        exact l3 _ k h (by omega) g2
    · obtain ⟨a, rfl⟩ : ∃ a, i = N1 + a := ⟨i - N1, by omega⟩
      obtain ⟨l, rfl⟩ : ∃ l, k = N1 + l := ⟨k - N1, by omega⟩
      rw [b11 a l (by omega) (by omega)]
      exact s3 a l (by omega) (by omega) (by omega)

/-- Valid block sizes. -/
def Blk.OK (bs : Blk) : Prop := 0 < bs.lu ∧ 0 < bs.lu2 ∧ 0 < bs.tri ∧ 0 < bs.tri2

/-- **C27/C28** for the recursive algorithm with any block sizes: every matrix with at least as many rows as
columns (in particular every square matrix, singular or not) is decomposed. -/
theorem recursive_spec (ab : AbsoluteValue K S) (uf : S → Bool) (huf : ∀ x, uf x = true ↔ x = 0)
    (bs : Blk) (hbs : bs.OK) : ∀ (fuel M N : Nat) (A : Nat → Nat → K), N ≤ M → N < fuel →
      ∃ s, recursive ab uf bs fuel M N A = some s ∧ IsLU ab M N A s.1 s.2 := by
  obtain ⟨h1, h2, h3, h4⟩ := hbs
  intro fuel
  induction fuel with
  | zero => intro M N A _ h; omega
  | succ fuel ih =>
    intro M N A hNM hf
    have e3 : min N M = N := by omega
    unfold recursive
    rw [e3]
    dsimp only
    by_cases hR : N > bs.lu2
    · rw [if_pos hR]
      obtain ⟨k1, k2⟩ := splitAt_spec bs.lu N h1 (by omega)
      generalize splitAt bs.lu N = N1 at *
      obtain ⟨s0, es0, hs0⟩ := ih M N1 A (by omega) (by omega)
      rw [es0, Option.bind_some]
      obtain ⟨A01, eA01⟩ := Option.isSome_iff_exists.mp (lowerM_isSome bs.tri bs.tri2 h3 h4 .cm false true N1
        (N-N1) s0.1 (permuteRows (N-N1) s0.2 N1 0 (sub A 0 N1)) (fun i _ => by simp [dg]))
      obtain ⟨x1, x2⟩ := lowerM_sound _ _ h3 h4 _ _ _ _ _ _ _ _ eA01
      rw [eA01, Option.bind_some]
      obtain ⟨s1, es1, hs1⟩ := ih (M-N1) (N-N1) (subMul (M-N1) (N-N1) N1 (sub s0.1 N1 0) A01
        (sub (permuteRows (N-N1) s0.2 N1 0 (sub A 0 N1)) N1 0)) (by omega) (by omega)
      rw [es1, Option.map_some]
      refine ⟨_, rfl, ?_⟩
      have hs1' : IsLU ab (M-N1) (N-N1) (fun i c => A (swapProd s0.2 N1 0 (N1+i)) (N1+c) -
          ∑ k ∈ Finset.range N1, s0.1 (N1+i) k * A01 k c) s1.1 s1.2 := by
        obtain ⟨r1, r2, r3⟩ := hs1
        refine ⟨r1, fun i j hi hj => ?_, r3⟩
        rw [← r2 i j hi hj]
        have hlt : swapProd s1.2 (min (N-N1) (M-N1)) 0 i < M-N1 :=
          swapProd_lt s1.2 _ _ _ (by omega) (fun k _ h' => (r1 k (by omega)).2) i hi
        rw [subMul, if_pos ⟨hlt, hj⟩]
        simp only [sub, zero_add]
        rw [permuteRows_eq _ _ _ _ _ _ _ hj]
        simp only [sub, zero_add]
      refine IsLU.combine hNM k2 hs0 ?_ hs1' (P := fun k => if k < N1 then s0.2 k else s1.2 (k-N1) + N1)
        (fun k hk => if_pos hk) (fun k hk => if_neg (by omega)) ?_ ?_ ?_
      · intro i c hi hc
        rw [x1 i c hi hc, permuteRows_eq _ _ _ _ _ _ _ hc]
        simp only [sub, zero_add]
      · intro i k hi hk
        dsimp only
        rw [paste, if_neg (by omega), paste, if_neg (by omega), paste, if_pos (by omega)]
        simp only [Nat.sub_zero]
        rw [permuteRows_eq _ _ _ _ _ _ _ hk]
      · intro i c hi hc
        dsimp only
        rw [paste, if_neg (by omega), paste, if_pos (by omega)]
        simp only [Nat.sub_zero, Nat.add_sub_cancel_left]
      · intro i c hi hc
        dsimp only
        rw [paste, if_pos (by omega)]
        simp only [Nat.add_sub_cancel_left]
    · rw [if_neg hR]
      split
      · exact nonBlock_spec ab uf huf _ _ h3 h4 M N A _
      · by_cases hN2 : N = 2
        · rw [if_pos hN2]; subst hN2
          exact two_spec ab uf huf M hNM A
        · rw [if_neg hN2]
          by_cases hN1 : N = 1
          · rw [if_pos hN1]; subst hN1
            exact ⟨_, rfl, one_spec ab uf huf M hNM A⟩
          · rw [if_neg hN1]
            have : N = 0 := by omega
            subst this
            exact ⟨_, rfl, ⟨fun k hk => by omega, fun i j _ h => by omega, fun i k hk => by omega⟩⟩

/-- **C27 and C28** for the public entry point `LU_Decompose(A,P)`: for every storage order and every `M`×`N`
matrix with `N ≤ M` (every square matrix, singular or not), `A = P⁻¹…`, i.e. the rows of `A` rearranged by the
interchanges are `L*U` with `L` unit lower and `U` upper triangular as stored, the interchanges are a valid
normalised list, and every multiplier has absolute value at most 1. -/
theorem decompose_spec (ab : AbsoluteValue K S) (uf : S → Bool) (huf : ∀ x, uf x = true ↔ x = 0)
    (bs : Blk) (hbs : bs.OK) (st : Store) (M N : Nat) (A : Nat → Nat → K) (hNM : N ≤ M) :
    ∃ s, decompose ab uf bs st M N A = some s ∧ IsLU ab M N A s.1 s.2 := by
  have key : ∃ s, (if M > 0 ∧ N > 0 then recursive ab uf bs (min N M + 1) M N A else some (A, fun _ => 0)) =
      some s ∧ IsLU ab M N A s.1 s.2 := by
    by_cases h : M > 0 ∧ N > 0
    · rw [if_pos h]
      exact recursive_spec ab uf huf bs hbs _ M N A hNM (by omega)
    · rw [if_neg h]
      refine ⟨_, rfl, ⟨fun k hk => by omega, fun i j _ h' => by omega, fun i k hk => by omega⟩⟩
  cases st with
  | cm => exact key
  | no => exact key
  | rm =>
    obtain ⟨s, e, h⟩ := key
    exact ⟨s, by simp only [decompose]; rw [e]; rfl, h⟩

end LU
end TMV
