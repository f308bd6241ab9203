import Verif.Props.LDLPiv

/-! C32: the invariant of the state, and what a 1×1 and a 2×2 step have to do. -/
namespace TMV.LDL
noncomputable section
open Classical
variable {K : Type} [RCLike K]

/-- The state after `j` columns; `A0`: the matrix storage at the start; `S`: what remains. -/
structure Good (h : Bool) (N : Nat) (H A0 : Nat → Nat → K) (j : Nat) (s : St K) (S : Nat → Nat → K) : Prop where
  le : j ≤ N
  inv : Inv h N H j (swapProd s.P j 0) s.A s.xD S
  range : ∀ k, k < j → k ≤ s.P k ∧ s.P k < N
  det : DetRel h (lead j (pseudoDiag h (fun i => s.A i i) s.xD)).det (s.logdet, s.signdet)
  diag : h = true → ∀ k, k < N → RCLike.im (s.A k k) = 0
  frame : ∀ a b, ¬ (b ≤ a ∧ a < N) → s.A a b = A0 a b

theorem Good.one {h : Bool} {N : Nat} {H A0 : Nat → Nat → K} {j : Nat} {s s' : St K} {S S' : Nat → Nat → K}
    (hG : Good h N H A0 j s S) (p : Nat) (hj : j ≤ p) (hp : p < N)
    (hA : ∀ i q, i < N → q < j → q ≤ i → s'.A i q = s.A (Equiv.swap j p i) q)
    (hd : s'.A j j = S p p) (hl : ∀ i, j < i → i < N → s'.A i j * S p p = S (Equiv.swap j p i) p)
    (hS : ∀ i k, j + 1 ≤ i → j + 1 ≤ k → i < N → k < N →
      S' i k = S (Equiv.swap j p i) (Equiv.swap j p k) - S (Equiv.swap j p i) p * cj h (s'.A k j))
    (hx : s'.xD = s.xD) (hP : s'.P = Function.update s.P j p)
    (ht : (s'.logdet, s'.signdet) = detUpd h (S p p) (s.logdet, s.signdet))
    (hdiag : h = true → ∀ k, k < N → RCLike.im (s'.A k k) = 0)
    (hframe : ∀ a b, ¬ (b ≤ a ∧ a < N) → s'.A a b = s.A a b) : Good h N H A0 (j+1) s' S' := by
  have hjN : j < N := by omega
  have hσ : swapProd s'.P (j+1) 0 = swapProd s.P j 0 * Equiv.swap j p := by
    rw [Perm.swapProd_add, swapProd_congr s'.P s.P j 0 (fun k _ h => by rw [hP, Function.update_of_ne (by omega)])]
    simp [swapProd, hP]
  have τfix : ∀ a, a < j → Equiv.swap j p a = a := fun a ha => Equiv.swap_apply_of_ne_of_ne (by omega) (by omega)
  refine ⟨by omega, ?_, fun k hk => ?_, ?_, hdiag, fun a b hc => (hframe a b hc).trans (hG.frame a b hc)⟩
  · rw [hσ, hx]
    refine (hG.inv.swap (A' := s'.A) j p le_rfl hj hjN hp hA).one hjN (fun _ _ _ _ _ => rfl) ?_ ?_ ?_
    · rw [Equiv.swap_apply_left]; exact hd
    · intro i h1 h2
      rw [Equiv.swap_apply_left, hd]
      exact hl i h1 h2
    · intro i k h1 h2 h3 h4
      rw [Equiv.swap_apply_left]
      exact hS i k h1 h2 h3 h4
  · rw [hP]
    by_cases hkj : k = j
    · subst hkj; rw [Function.update_self]; exact ⟨hj, hp⟩
    · rw [Function.update_of_ne hkj]; exact hG.range k (by omega)
  · rw [ht, hx, det_one h j _ s.xD hG.inv.out, hd]
    refine detUpd_spec ?_ fun hh => ?_
    · have : lead j (pseudoDiag h (fun i => s'.A i i) s.xD) = lead j (pseudoDiag h (fun i => s.A i i) s.xD) := by
        refine lead_congr fun i k hi hk => ?_
        simp only [pseudoDiag]
        rw [hA i i (by omega) hi le_rfl, τfix i hi]
      rw [this]
      exact hG.det
    · exact real_of_cj (hG.inv.sym p p hj hj hp hp) hh

theorem Good.two {h : Bool} {N : Nat} {H A0 : Nat → Nat → K} {j : Nat} {s s' : St K} {S S' : Nat → Nat → K}
    (hG : Good h N H A0 j s S) (p : Nat) (hj : j + 1 ≤ p) (hp : p < N)
    (hA : ∀ i q, i < N → q < j → q ≤ i → s'.A i q = s.A (Equiv.swap (j+1) p i) q)
    (hd0 : s'.A j j = S j j) (hd1 : s'.A (j+1) (j+1) = S p p) (hz : s'.A (j+1) j = 0)
    (hl0 : ∀ i, j + 2 ≤ i → i < N → s'.A i j * S j j + s'.A i (j+1) * S p j = S (Equiv.swap (j+1) p i) j)
    (hl1 : ∀ i, j + 2 ≤ i → i < N → s'.A i j * cj h (S p j) + s'.A i (j+1) * S p p = S (Equiv.swap (j+1) p i) p)
    (hS : ∀ i k, j + 2 ≤ i → j + 2 ≤ k → i < N → k < N →
      S' i k = S (Equiv.swap (j+1) p i) (Equiv.swap (j+1) p k) -
        (S (Equiv.swap (j+1) p i) j * cj h (s'.A k j) + S (Equiv.swap (j+1) p i) p * cj h (s'.A k (j+1))))
    (hx : s'.xD = Function.update s.xD j (S p j)) (hP : s'.P = Function.update (Function.update s.P j j) (j+1) p)
    (ht : (s'.logdet, s'.signdet) = detUpd h (S j j * S p p - S p j * cj h (S p j)) (s.logdet, s.signdet))
    (hdiag : h = true → ∀ k, k < N → RCLike.im (s'.A k k) = 0)
    (hframe : ∀ a b, ¬ (b ≤ a ∧ a < N) → s'.A a b = s.A a b) : Good h N H A0 (j+2) s' S' := by
  have hσ : swapProd s'.P (j+2) 0 = swapProd s.P j 0 * Equiv.swap (j+1) p := by
    rw [Perm.swapProd_add, swapProd_congr s'.P s.P j 0 (fun k _ h => by
      rw [hP, Function.update_of_ne (by omega), Function.update_of_ne (by omega)])]
    congr 1
    simp only [swapProd, hP, zero_add, mul_one]
    rw [Function.update_of_ne (by omega), Function.update_self, Function.update_self, Equiv.swap_self]
    rfl
  have τfix : ∀ a, a < j + 1 → Equiv.swap (j+1) p a = a := fun a ha => Equiv.swap_apply_of_ne_of_ne (by omega) (by omega)
  refine ⟨by omega, ?_, fun k hk => ?_, ?_, hdiag, fun a b hc => (hframe a b hc).trans (hG.frame a b hc)⟩
  · rw [hσ]
    refine (hG.inv.swap (A' := s'.A) (j+1) p (by omega) (by omega) (by omega) hp hA).two (by omega) (fun _ _ _ _ _ => rfl) ?_ ?_ ?_ hz ?_ ?_ ?_
    · rw [Equiv.swap_apply_left, τfix j (by omega)]; exact hx
    · rw [τfix j (by omega)]; exact hd0
    · rw [Equiv.swap_apply_left]; exact hd1
    · intro i h1 h2
      rw [Equiv.swap_apply_left, τfix j (by omega)]
      exact hl0 i h1 h2
    · intro i h1 h2
      rw [Equiv.swap_apply_left, τfix j (by omega)]
      exact hl1 i h1 h2
    · intro i k h1 h2 h3 h4
      rw [Equiv.swap_apply_left, τfix j (by omega)]
      exact hS i k h1 h2 h3 h4
  · rw [hP]
    by_cases hkj : k = j + 1
    · subst hkj; rw [Function.update_self]; exact ⟨hj, hp⟩
    · rw [Function.update_of_ne hkj]
      by_cases hkj : k = j
      · subst hkj; rw [Function.update_self]; omega
      · rw [Function.update_of_ne hkj]; exact hG.range k (by omega)
  · rw [ht, hx, det_two h j _ s.xD hG.inv.out, hd0, hd1]
    have r1 := hG.inv.sym j j le_rfl le_rfl (by omega) (by omega)
    have r2 := hG.inv.sym p p (by omega) (by omega) hp hp
    refine detUpd_spec ?_ (real_of_cj ?_)
    · have : lead j (pseudoDiag h (fun i => s'.A i i) s.xD) = lead j (pseudoDiag h (fun i => s.A i i) s.xD) := by
        refine lead_congr fun i k hi hk => ?_
        simp only [pseudoDiag]
        rw [hA i i (by omega) hi le_rfl, τfix i (by omega)]
      rw [this]
      exact hG.det
    · rw [cj_sub, cj_mul, cj_mul, ← r1, ← r2, cj_inv]; ring

/-- A 1×1 step after which what remains is in the triangle. -/
theorem Good.one' {h : Bool} {N : Nat} {H A0 : Nat → Nat → K} {j : Nat} {s s' : St K} {S : Nat → Nat → K}
    (hG : Good h N H A0 j s S) (p : Nat) (hj : j ≤ p) (hp : p < N)
    (hA : ∀ i q, i < N → q < j → q ≤ i → s'.A i q = s.A (Equiv.swap j p i) q)
    (hd : s'.A j j = S p p) (hl : ∀ i, j < i → i < N → s'.A i j * S p p = S (Equiv.swap j p i) p)
    (hS : ∀ i k, j + 1 ≤ k → k ≤ i → i < N →
      s'.A i k = S (Equiv.swap j p i) (Equiv.swap j p k) - S (Equiv.swap j p i) p * cj h (s'.A k j))
    (hx : s'.xD = s.xD) (hP : s'.P = Function.update s.P j p)
    (ht : (s'.logdet, s'.signdet) = detUpd h (S p p) (s.logdet, s.signdet))
    (hframe : ∀ a b, ¬ (b ≤ a ∧ a < N) → s'.A a b = s.A a b) : Good h N H A0 (j+1) s' (symFull h s'.A) := by
  have hjN : j < N := by omega
  have τlt : ∀ i, i < N → Equiv.swap j p i < N := fun i hi => Equiv.swap_lt hjN hp hi
  have τge : ∀ i, j ≤ i → j ≤ Equiv.swap j p i := fun i hi => by rw [Equiv.swap_apply_def]; split_ifs <;> omega
  have hpr : cj h (S p p) = S p p := (hG.inv.sym p p hj hj hp hp).symm
  have sym : ∀ i k, j + 1 ≤ i → j + 1 ≤ k → i < N → k < N →
      cj h (S (Equiv.swap j p i) (Equiv.swap j p k) - S (Equiv.swap j p i) p * cj h (s'.A k j)) =
        S (Equiv.swap j p k) (Equiv.swap j p i) - S (Equiv.swap j p k) p * cj h (s'.A i j) := by
    intro i k h1 h2 h3 h4
    rw [cj_sub, cj_mul, cj_inv, ← hG.inv.sym _ _ (τge k (by omega)) (τge i (by omega)) (τlt k h4) (τlt i h3),
      ← hl i (by omega) h3, ← hl k (by omega) h4, cj_mul, hpr]
    ring
  refine hG.one p hj hp hA hd hl ?_ hx hP ht ?_ hframe
  · intro i k h1 h2 h3 h4
    simp only [symFull]
    split_ifs with hki
    · exact hS i k h2 hki h3
    · rw [hS k i h1 (by omega) h4, sym k i h2 h1 h4 h3]
  · intro hh k hk
    rcases lt_trichotomy k j with hkj | rfl | hkj
    · rw [hA k k hk hkj le_rfl]
      rw [Equiv.swap_apply_of_ne_of_ne (by omega) (by omega)]
      exact hG.diag hh k hk
    · rw [hd]; exact real_of_cj hpr.symm hh
    · refine real_of_cj ?_ hh
      rw [hS k k hkj le_rfl hk, sym k k hkj hkj hk hk]

/-- A 2×2 step after which what remains is in the triangle. -/
theorem Good.two' {h : Bool} {N : Nat} {H A0 : Nat → Nat → K} {j : Nat} {s s' : St K} {S : Nat → Nat → K}
    (hG : Good h N H A0 j s S) (p : Nat) (hj : j + 1 ≤ p) (hp : p < N)
    (hA : ∀ i q, i < N → q < j → q ≤ i → s'.A i q = s.A (Equiv.swap (j+1) p i) q)
    (hd0 : s'.A j j = S j j) (hd1 : s'.A (j+1) (j+1) = S p p) (hz : s'.A (j+1) j = 0)
    (hl0 : ∀ i, j + 2 ≤ i → i < N → s'.A i j * S j j + s'.A i (j+1) * S p j = S (Equiv.swap (j+1) p i) j)
    (hl1 : ∀ i, j + 2 ≤ i → i < N → s'.A i j * cj h (S p j) + s'.A i (j+1) * S p p = S (Equiv.swap (j+1) p i) p)
    (hS : ∀ i k, j + 2 ≤ k → k ≤ i → i < N →
      s'.A i k = S (Equiv.swap (j+1) p i) (Equiv.swap (j+1) p k) -
        (S (Equiv.swap (j+1) p i) j * cj h (s'.A k j) + S (Equiv.swap (j+1) p i) p * cj h (s'.A k (j+1))))
    (hx : s'.xD = Function.update s.xD j (S p j)) (hP : s'.P = Function.update (Function.update s.P j j) (j+1) p)
    (ht : (s'.logdet, s'.signdet) = detUpd h (S j j * S p p - S p j * cj h (S p j)) (s.logdet, s.signdet))
    (hframe : ∀ a b, ¬ (b ≤ a ∧ a < N) → s'.A a b = s.A a b) : Good h N H A0 (j+2) s' (symFull h s'.A) := by
  have τlt : ∀ i, i < N → Equiv.swap (j+1) p i < N := fun i hi => Equiv.swap_lt (by omega) hp hi
  have τge : ∀ i, j ≤ i → j ≤ Equiv.swap (j+1) p i := fun i hi => by rw [Equiv.swap_apply_def]; split_ifs <;> omega
  have hpr : cj h (S p p) = S p p := (hG.inv.sym p p (by omega) (by omega) hp hp).symm
  have hjr : cj h (S j j) = S j j := (hG.inv.sym j j le_rfl le_rfl (by omega) (by omega)).symm
  have sym : ∀ i k, j + 2 ≤ i → j + 2 ≤ k → i < N → k < N →
      cj h (S (Equiv.swap (j+1) p i) (Equiv.swap (j+1) p k) -
        (S (Equiv.swap (j+1) p i) j * cj h (s'.A k j) + S (Equiv.swap (j+1) p i) p * cj h (s'.A k (j+1)))) =
      S (Equiv.swap (j+1) p k) (Equiv.swap (j+1) p i) -
        (S (Equiv.swap (j+1) p k) j * cj h (s'.A i j) + S (Equiv.swap (j+1) p k) p * cj h (s'.A i (j+1))) := by
    intro i k h1 h2 h3 h4
    rw [cj_sub, ← hG.inv.sym _ _ (τge k (by omega)) (τge i (by omega)) (τlt k h4) (τlt i h3),
      ← hl0 i h1 h3, ← hl0 k h2 h4, ← hl1 i h1 h3, ← hl1 k h2 h4]
    simp only [cj_add, cj_mul, cj_inv, hpr, hjr]
    ring
  refine hG.two p hj hp hA hd0 hd1 hz hl0 hl1 ?_ hx hP ht ?_ hframe
  · intro i k h1 h2 h3 h4
    simp only [symFull]
    split_ifs with hki
    · exact hS i k h2 hki h3
    · rw [hS k i h1 (by omega) h4, sym k i h2 h1 h4 h3]
  · intro hh k hk
    rcases lt_trichotomy k j with hkj | rfl | hkj
    · rw [hA k k hk hkj le_rfl]
      rw [Equiv.swap_apply_of_ne_of_ne (by omega) (by omega)]
      exact hG.diag hh k hk
    · rw [hd0]; exact real_of_cj hjr.symm hh
    · by_cases hk1 : k = j + 1
      · subst hk1; rw [hd1]; exact real_of_cj hpr.symm hh
      · refine real_of_cj ?_ hh
        rw [hS k k (by omega) le_rfl hk, sym k k (by omega) (by omega) hk hk]

theorem Good.congr {h : Bool} {N : Nat} {H A0 : Nat → Nat → K} {j : Nat} {s : St K} {S S' : Nat → Nat → K}
    (hG : Good h N H A0 j s S) (hS : ∀ i k, j ≤ i → j ≤ k → i < N → k < N → S' i k = S i k) : Good h N H A0 j s S' :=
  ⟨hG.le, hG.inv.congr hG.le (fun _ _ _ _ _ => rfl) hS, hG.range, hG.det, hG.diag, hG.frame⟩

/-- The elements of `L` next to a 2×2 block. -/
theorem two_solve {h : Bool} {x y z a b d : K} (hd : x*y - z*cj h z = d) (hd0 : d ≠ 0) (hdr : cj h d = d) :
    (a * (y / d) + b * (z / (-d))) * x + (a * cj h (z / (-d)) + b * (x / d)) * z = a ∧
    (a * (y / d) + b * (z / (-d))) * cj h z + (a * cj h (z / (-d)) + b * (x / d)) * y = b := by
  rw [cj_div, cj_neg, hdr]
  constructor
  · field_simp
    rw [← hd]; ring
  · field_simp
    rw [← hd]; ring

/-- The two forms of the update by a 2×2 block. -/
theorem two_comm {h : Bool} {x y z l0 l1 m0 m1 : K} (hx : cj h x = x) (hy : cj h y = y) :
    l0 * cj h (m0 * x + m1 * z) + l1 * cj h (m0 * cj h z + m1 * y) =
      (l0 * x + l1 * z) * cj h m0 + (l0 * cj h z + l1 * y) * cj h m1 := by
  simp only [cj_add, cj_mul, cj_inv, hx, hy]
  ring

end
end TMV.LDL
