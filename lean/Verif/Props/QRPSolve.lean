import Verif.Props.QRPDiv
import Verif.Props.LUDiv

/-! C87: division by a QR decomposition with column pivoting, the permutation. -/
namespace TMV.QR
noncomputable section
open Classical TMV.Tri

variable {K : Type} [RCLike K]

theorem swapsPerm_swapProd (P : Nat → Nat) : ∀ n, swapsPerm P n = swapProd P n 0
  | 0 => rfl
  | n+1 => by rw [swapsPerm, swapsPerm_swapProd P n, swapProd_snoc, Nat.zero_add]

section
variable {M N r : Nat} {V : Nat → Nat → K} {β : Nat → K} {C : Nat → Nat → K} {P : Nat → Nat}

theorem swapsPerm_lt (hP : ∀ i, i < N → P i < N) {k : Nat} (hk : k < N) : swapsPerm P N k < N := by
  rw [swapsPerm_swapProd]
  exact swapProd_lt P N 0 N (by omega) (fun k _ h => hP k (by omega)) k hk

theorem swapsPerm_symm_lt (hP : ∀ i, i < N → P i < N) {k : Nat} (hk : k < N) : (swapsPerm P N).symm k < N := by
  rw [swapsPerm_swapProd]
  exact swapProd_inv_lt P N 0 N (by omega) (fun k _ h => hP k (by omega)) k hk

theorem swapsPerm_symm_fix (hP : ∀ i, i < N → P i < N) {k : Nat} (hk : N ≤ k) : (swapsPerm P N).symm k = k := by
  rw [Equiv.symm_apply_eq]
  exact (swapsPerm_fix N le_rfl hP k hk).symm

theorem sum_swapsPerm (hP : ∀ i, i < N → P i < N) (f : Nat → K) :
    ∑ l ∈ Finset.range N, f (swapsPerm P N l) = ∑ l ∈ Finset.range N, f l := by
  refine Finset.sum_bij' (fun l _ => swapsPerm P N l) (fun l _ => (swapsPerm P N).symm l) ?_ ?_ ?_ ?_ ?_
  · intro l hl; exact Finset.mem_range.mpr (swapsPerm_lt hP (Finset.mem_range.mp hl))
  · intro l hl; exact Finset.mem_range.mpr (swapsPerm_symm_lt hP (Finset.mem_range.mp hl))
  · intro l _; simp
  · intro l _; simp
  · intro l _; rfl

theorem permuteRows_swaps (nc : Nat) (n : Nat) (A : Nat → Nat → K) {a b : Nat} (hb : b < nc) :
    LU.permuteRows nc P n 0 A a b = A (swapsPerm P n a) b := by
  rw [LU.permuteRows_eq _ _ _ _ _ _ _ hb, swapsPerm_swapProd]

theorem reversePermuteRows_swaps (nc : Nat) (n : Nat) (A : Nat → Nat → K) {a b : Nat} (hb : b < nc) :
    LU.reversePermuteRows nc P n 0 A a b = A ((swapsPerm P n).symm a) b := by
  rw [LU.reversePermuteRows_eq _ _ _ _ _ _ _ hb, swapsPerm_swapProd]; rfl

variable (h : Fact M N V β (fun p c => C p (swapsPerm P N c))) (hP : ∀ i, i < N → P i < N) (hg : Graded r N V)
include h hP hg

/-- `C` being the decomposed matrix: `x = C⁻¹ m` never fails and is a least squares solution. -/
theorem pLDiv {nb tb tb2 : Nat} (hnb : 0 < nb) (htb : 0 < tb) (htb2 : 0 < tb2) (o : Ord) (brm : Bool) (nc : Nat) (Z0 m x : Nat → Nat → K) :
    ∃ X, qrpLDiv nb tb tb2 o brm M N nc r V β P Z0 m x = some X ∧
      (∀ c, c < nc → ∀ z : Nat → K, ∑ p ∈ Finset.range M, ‖∑ l ∈ Finset.range N, C p l * X l c - m p c‖ ^ 2 ≤
        ∑ p ∈ Finset.range M, ‖∑ l ∈ Finset.range N, C p l * z l - m p c‖ ^ 2) ∧
      (∀ a c, a < N → r ≤ (swapsPerm P N).symm a → c < nc → X a c = 0) ∧
      (r = N → M = N → ∀ c, c < nc → ∀ p, p < M → ∑ l ∈ Finset.range N, C p l * X l c = m p c) ∧
      ∀ a c, ¬ (a < N ∧ c < nc) → X a c = x a c := by
  obtain ⟨X, hX, x1, x2, x4, x3⟩ := h.lDivR hg hnb htb htb2 o brm nc Z0 m x
  refine ⟨LU.reversePermuteRows nc P N 0 X, by rw [qrpLDiv, hX]; rfl, ?_⟩
  have e : ∀ (w : Nat → K) p, ∑ l ∈ Finset.range N, C p l * w ((swapsPerm P N).symm l) = ∑ l ∈ Finset.range N, C p (swapsPerm P N l) * w l := by
      intro w p
      rw [← sum_swapsPerm hP]
      simp
  have e1 : ∀ c, c < nc → ∀ p, ∑ l ∈ Finset.range N, C p l * LU.reversePermuteRows nc P N 0 X l c = ∑ l ∈ Finset.range N, C p (swapsPerm P N l) * X l c := by
      intro c hc p
      rw [← e (fun l => X l c) p]
      exact Finset.sum_congr rfl fun l _ => by rw [reversePermuteRows_swaps nc N X hc]
  refine ⟨?_, ?_, ?_, ?_⟩
  · intro c hc z
    have e2 : ∀ p, ∑ l ∈ Finset.range N, C p l * z l = ∑ l ∈ Finset.range N, C p (swapsPerm P N l) * z (swapsPerm P N l) := by
      intro p
      rw [sum_swapsPerm hP fun l => C p l * z l]
    simp only [e1 c hc, e2]
    exact x1 c hc fun l => z (swapsPerm P N l)
  · intro a c ha hr hc
    rw [reversePermuteRows_swaps nc N X hc]
    exact x2 _ c hr (swapsPerm_symm_lt hP ha) hc
  · intro h1 h2 c hc p hp
    rw [e1 c hc p]
    exact x4 h1 h2 c hc p hp
  · intro a c hac
    by_cases hc : c < nc
    · rw [reversePermuteRows_swaps nc N X hc, swapsPerm_symm_fix hP (by omega), x3 a c hac]
    · rw [LU.reversePermuteRows_out _ _ _ _ _ _ _ hc, x3 a c hac]

/-- `x = m C⁻¹` never fails, solves the `r` equations of the pivot columns, with the least norm; and all of them if that is possible. -/
theorem pRDiv {nb tb tb2 : Nat} (hnb : 0 < nb) (htb : 0 < tb) (htb2 : 0 < tb2) (o : Ord) (brm : Bool) (nr : Nat) (Z0 m x : Nat → Nat → K) :
    ∃ X, qrpRDiv nb tb tb2 o brm M N nr r V β P Z0 m x = some X ∧
      (∀ a, a < nr → ∀ c, c < N → (swapsPerm P N).symm c < r → ∑ p ∈ Finset.range M, X a p * C p c = m a c) ∧
      (∀ a, a < nr → ∀ z : Nat → K, (∀ c, c < N → (swapsPerm P N).symm c < r → ∑ p ∈ Finset.range M, z p * C p c = m a c) →
        ∑ p ∈ Finset.range M, ‖X a p‖ ^ 2 ≤ ∑ p ∈ Finset.range M, ‖z p‖ ^ 2) ∧
      (∀ a, a < nr → (∃ z : Nat → K, ∀ c, c < N → ∑ p ∈ Finset.range M, z p * C p c = m a c) →
        ∀ c, c < N → ∑ p ∈ Finset.range M, X a p * C p c = m a c) ∧
      ∀ a p, ¬ (a < nr ∧ p < M) → X a p = x a p := by
  have hle := h.le
  have hrN := hg.1
  obtain ⟨x', hx'⟩ : ∃ x' : Nat → Nat → K, x' = trM (LU.permuteRows nr P N 0 (trM (paste x 0 0 nr N m))) := ⟨_, rfl⟩
  have hq : qrpRDiv nb tb tb2 o brm M N nr r V β P Z0 m x = qrRDiv nb tb tb2 o brm M N nr r V β Z0 x' x' := by
    unfold qrpRDiv qrRDiv
    dsimp only
    rw [← hx']
    have : paste x' 0 0 nr N x' = x' := by
      funext a b
      simp [paste]
    rw [this]
  rw [hq]
  obtain ⟨X, hX, x1, x2, x3, x4⟩ := h.rDivR hg hnb htb htb2 o brm nr Z0 x' x'
  have hm : ∀ a c, a < nr → c < N → x' a c = m a (swapsPerm P N c) := by
    intro a c ha hc
    have := swapsPerm_lt hP hc
    rw [hx']
    show LU.permuteRows nr P N 0 (trM (paste x 0 0 nr N m)) c a = _
    rw [permuteRows_swaps nr N _ ha]
    simp [trM, paste, ha, this]
  refine ⟨X, hX, ?_, ?_, ?_, ?_⟩
  · intro a ha c hc hr
    have := x1 a ha _ hr
    rw [hm a _ ha (by omega)] at this
    simpa using this
  · intro a ha z hz
    refine x2 a ha z fun c hc => ?_
    rw [hm a c ha (by omega)]
    exact hz _ (swapsPerm_lt hP (by omega)) (by simpa using hc)
  · rintro a ha ⟨z, hz⟩ c hc
    have := x3 a ha ⟨z, fun c hc => by
      rw [hm a c ha hc]
      exact hz _ (swapsPerm_lt hP hc)⟩ _ (swapsPerm_symm_lt hP hc)
    rw [hm a _ ha (swapsPerm_symm_lt hP hc)] at this
    simpa using this
  · intro a p hap
    rw [x4 a p hap, hx']
    show LU.permuteRows nr P N 0 (trM (paste x 0 0 nr N m)) p a = _
    by_cases ha : a < nr
    · rw [permuteRows_swaps nr N _ ha, swapsPerm_fix N le_rfl hP p (by omega)]
      simp only [trM, paste]
      rw [if_neg (by omega)]
    · rw [LU.permuteRows_out _ _ _ _ _ _ _ ha]
      simp only [trM, paste]
      rw [if_neg (by omega)]

/-- The inverse never fails and has three of the properties of the pseudo-inverse. -/
theorem pInverse {nb ib mb mb2 : Nat} (hnb : 0 < nb) (hib : 0 < ib) (hmb : 0 < mb) (hmb2 : 0 < mb2) (o : Ord) (crm st : Bool)
    (Z0 minv : Nat → Nat → K) :
    ∃ X, qrpInverse nb ib mb mb2 o crm st M N r V β P Z0 minv = some X ∧
      (∀ p q, p < M → q < M → ∑ c ∈ Finset.range N, C p c * X c q = star (∑ c ∈ Finset.range N, C q c * X c p)) ∧
      (∀ p c, p < M → c < N → ∑ q ∈ Finset.range M, (∑ l ∈ Finset.range N, C p l * X l q) * C q c = C p c) ∧
      (∀ a p, a < N → p < M → ∑ q ∈ Finset.range M, X a q * (∑ l ∈ Finset.range N, C q l * X l p) = X a p) ∧
      ∀ a p, ¬ (a < N ∧ p < M) → X a p = minv a p := by
  obtain ⟨X, hX, x1, x2, x3, x4⟩ := h.inverseR hg hnb hib hmb hmb2 o crm st Z0 minv
  refine ⟨LU.reversePermuteRows M P N 0 X, by rw [qrpInverse, hX]; rfl, ?_⟩
  have hv : ∀ a p, p < M → LU.reversePermuteRows M P N 0 X a p = X ((swapsPerm P N).symm a) p := fun a p hp => reversePermuteRows_swaps M N X hp
  have e1 : ∀ p q, q < M → ∑ c ∈ Finset.range N, C p c * LU.reversePermuteRows M P N 0 X c q = ∑ c ∈ Finset.range N, C p (swapsPerm P N c) * X c q := by
    intro p q hq
    rw [← sum_swapsPerm hP]
    exact Finset.sum_congr rfl fun l _ => by rw [hv _ q hq, Equiv.symm_apply_apply]
  refine ⟨?_, ?_, ?_, ?_⟩
  · intro p q hp hq
    rw [e1 p q hq, e1 q p hp]
    exact x1 p q hp hq
  · intro p c hp hc
    have := x2 p _ hp (swapsPerm_symm_lt hP hc)
    simp only [Equiv.apply_symm_apply] at this
    rw [← this]
    refine Finset.sum_congr rfl fun q hq => ?_
    rw [e1 p q (Finset.mem_range.mp hq)]
  · intro a p ha hp
    rw [hv a p hp, ← x3 _ p (swapsPerm_symm_lt hP ha) hp]
    refine Finset.sum_congr rfl fun q hq => ?_
    rw [e1 q p hp, hv a q (Finset.mem_range.mp hq)]
  · intro a p hap
    by_cases hp : p < M
    · rw [hv a p hp, swapsPerm_symm_fix hP (by omega), x4 a p hap]
    · rw [LU.reversePermuteRows_out _ _ _ _ _ _ _ hp, x4 a p hap]

end

end
end TMV.QR
