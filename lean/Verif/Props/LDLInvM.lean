import Verif.Props.LDLInvD
import Verif.Props.PermVal

/-! C76: the inverse of symmetric and Hermitian matrices, assembly. -/
namespace TMV.LDL
noncomputable section
open Classical
open Tri (Ord sub paste)
open SymRK (Updated RealDiag)
open TriProd (IsInv)
variable {K : Type} [RCLike K]

/-! Interchanges. -/

theorem swapRC_all (h : Bool) (N a b : Nat) (A : Nat → Nat → K) (hab : a ≤ b) (i k : Nat) (hiN : i < N)
    (hkN : k < N) : symFull h (swapRC h N a b A) i k = symFull h A (Equiv.swap a b i) (Equiv.swap a b k) := by
  have key : ∀ i k, i < N → k ≤ i → symFull h (swapRC h N a b A) i k = symFull h A (Equiv.swap a b i) (Equiv.swap a b k) := by
    intro i k hiN hki
    by_cases hka : a ≤ k
    · exact swapRC_full h N a b A hab i k (by omega) hka hiN (by omega)
    · rw [symFull, if_pos hki, swapRC_left h N a b A hab i k (by omega),
        Equiv.swap_apply_of_ne_of_ne (show k ≠ a by omega) (show k ≠ b by omega), symFull, if_pos]
      by_cases h1 : i = a
      · subst h1; rw [Equiv.swap_apply_left]; omega
      · by_cases h2 : i = b
        · subst h2; rw [Equiv.swap_apply_right]; omega
        · rw [Equiv.swap_apply_of_ne_of_ne h1 h2]; exact hki
  by_cases hki : k ≤ i
  · exact key i k hiN hki
  · rw [← symFull_cj h _ k i (by omega), key k i hkN (by omega), symFull_cj]
    intro hc
    have := (Equiv.swap a b).injective hc
    omega

theorem swap_lt {N a b i : Nat} (ha : a < N) (hb : b < N) (hi : i < N) : Equiv.swap a b i < N := by
  by_cases h1 : i = a
  · subst h1; rw [Equiv.swap_apply_left]; exact hb
  · by_cases h2 : i = b
    · subst h2; rw [Equiv.swap_apply_right]; exact ha
    · rw [Equiv.swap_apply_of_ne_of_ne h1 h2]; exact hi

theorem reversePermuteRC_aux (h : Bool) (N : Nat) (P : Nat → Nat) (hP : ∀ k, k < N → k ≤ P k ∧ P k < N) :
    ∀ n, n ≤ N → ∀ S : Nat → Nat → K,
    (∀ i j, i < N → j < N → symFull h (down (fun i S => swapRC h N i (P i) S) n S) i j =
      symFull h S ((swapProd P n 0)⁻¹ i) ((swapProd P n 0)⁻¹ j)) ∧
    ∀ i j, ¬ (j ≤ i ∧ i < N) → down (fun i S => swapRC h N i (P i) S) n S i j = S i j := by
  intro n
  induction n with
  | zero => intro _ S; exact ⟨fun i j _ _ => by simp [down, swapProd], fun _ _ _ => rfl⟩
  | succ n ih =>
    intro hn S
    obtain ⟨i1, i2⟩ := ih (by omega) (swapRC h N n (P n) S)
    have hlt : ∀ i, i < N → (swapProd P n 0)⁻¹ i < N := by
      intro i hi
      have hfix : ∀ k, N ≤ k → swapProd P n 0 k = k := fun k hk =>
        LU.swapProd_ge_fix P n 0 N (by omega) (fun k _ hk => (hP k (by omega)).2) k hk
      by_contra hc
      have := hfix _ (not_lt.mp hc)
      rw [← Equiv.Perm.mul_apply, mul_inv_cancel, Equiv.Perm.one_apply] at this
      omega
    constructor
    · intro i j hi hj
      show symFull h (down _ n (swapRC h N n (P n) S)) i j = _
      rw [i1 i j hi hj, swapRC_all h N n (P n) S (hP n (by omega)).1 _ _ (hlt i hi) (hlt j hj), Perm.swapProd_add, mul_inv_rev]
      simp [swapProd]
    · intro i j hij
      show down _ n (swapRC h N n (P n) S) i j = _
      rw [i2 i j hij, swapRC_out h N n (P n) S (hP n (by omega)).1 (hP n (by omega)).2 i j hij]

section
variable {h : Bool} {N : Nat} {H A : Nat → Nat → K} {xD : Nat → K} {P : Nat → Nat} (hL : IsLDL h N H A xD P)
include hL

/-- `LDL_Inverse` computes the lower triangle of the inverse of `H` and writes nothing else. -/
theorem inverse_isLDL (bk : IBlk) (hnb : 0 < bk.nb) (hnb2 : 0 < bk.nb2) (hmb : 0 < bk.mb) (hmb2 : 0 < bk.mb2) (hti : 0 < bk.ti)
    (o : Ord) (crm cst : Bool) (sinv : Nat → Nat → K) (hd : (lead N H).det ≠ 0) :
    ∃ V, inverse bk o crm cst h N A xD P sinv = some V ∧ IsInv N H (symFull h V) ∧
      (h = true → RealDiag N V) ∧ ∀ i j, ¬ (j ≤ i ∧ i < N) → V i j = sinv i j := by
  unfold inverse
  by_cases hN : N > 0
  swap
  · rw [if_neg hN]
    exact ⟨sinv, rfl, fun i j hi => by omega, fun _ i hi => by omega, fun _ _ _ => rfl⟩
  rw [if_pos hN]
  dsimp only
  generalize hS0 : (fun i j => if j ≤ i ∧ i < N then A i j else sinv i j : Nat → Nat → K) = S0
  have e0 : ∀ i j, j ≤ i → i < N → S0 i j = A i j := fun i j h1 h2 => by rw [← hS0]; exact if_pos ⟨h1, h2⟩
  have e0' : ∀ i j, ¬ (j ≤ i ∧ i < N) → S0 i j = sinv i j := fun i j h1 => by rw [← hS0]; exact if_neg h1
  obtain ⟨t1, t2⟩ := TriProd.triInverse_spec bk.ti bk.mb bk.mb2 hti hmb hmb2 (LU.Ord.tr o) crm cst true N (TriProd.tr S0)
  obtain ⟨V', eV⟩ : ∃ V', TriProd.triInverse bk.ti bk.mb bk.mb2 (LU.Ord.tr o) crm cst true N (TriProd.tr S0) = some V' := by
    apply Option.ne_none_iff_exists'.mp
    intro hc
    exact absurd (t1.mp hc).1 (by simp)
  obtain ⟨v1, v2⟩ := t2 V' eV
  rw [eV]
  simp only [Option.map_some, Option.bind_some]
  -- the unit lower triangle of `S1` is the inverse of that of `A`
  generalize hS1 : TriProd.tr V' = S1
  have hV' : V' = TriProd.tr S1 := by rw [← hS1]; rfl
  rw [hV'] at v1 v2
  have f1 : ∀ i j, j ≤ i → i < N → i = j → S1 i j = A i j := fun i j h1 h2 h3 => by
    rw [← e0 i j h1 h2]; exact v2 j i (by simp; omega)
  have f1' : ∀ i j, ¬ (j ≤ i ∧ i < N) → S1 i j = sinv i j := fun i j h1 => by
    rw [← e0' i j h1]; exact v2 j i (by simp; omega)
  have hlow : ∀ i j, i < N → j < N → lowerMat true S0 i j = lowerMat true A i j := fun i j hi hj => by
    unfold lowerMat
    by_cases c : j < i
    · rw [if_pos c, if_pos c, e0 i j (by omega) hi]
    · rw [if_neg c, if_neg c]; simp
  have hXL : lead N (lowerMat true S1) * lead N (lowerMat true A) = 1 := by
    ext i j
    simp only [lead, Matrix.mul_apply, Matrix.of_apply]
    have := v1 j i j.isLt i.isLt
    rw [Finset.sum_range] at this
    simp only [TriProd.tr_upper] at this
    rw [Matrix.one_apply]
    have e : (i = j) ↔ ((j : Nat) = i) := by rw [Fin.ext_iff]; exact eq_comm
    simp only [e]
    rw [← this]
    refine Finset.sum_congr rfl fun k _ => ?_
    rw [hlow k j k.isLt j.isLt, mul_comm]
  have hX1 : ∀ k, k + 1 < N → xD k ≠ 0 → S1 (k+1) k = 0 := by
    intro k hk hx
    have := congrFun (congrFun hXL ⟨k+1, hk⟩) ⟨k, by omega⟩
    simp only [lead, Matrix.mul_apply, Matrix.of_apply] at this
    rw [Matrix.one_apply_ne (by simp [Fin.ext_iff])] at this
    rw [Finset.sum_eq_single (⟨k, by omega⟩ : Fin N)] at this
    · simpa [lowerMat] using this
    · intro l _ hl
      have hl' : (l : Nat) ≠ k := fun e => hl (Fin.ext e)
      show lowerMat true S1 (k+1) l * lowerMat true A l k = 0
      by_cases c1 : (l : Nat) < k
      · have : lowerMat true A l k = 0 := by unfold lowerMat; rw [if_neg (by omega), if_neg (by omega)]
        rw [this, mul_zero]
      · by_cases c2 : (l : Nat) = k + 1
        · have : lowerMat true A l k = 0 := by
            unfold lowerMat; rw [if_pos (by omega), c2]; exact (hL.block k hk hx).1
          rw [this, mul_zero]
        · have : lowerMat true S1 (k+1) l = 0 := by unfold lowerMat; rw [if_neg (by omega), if_neg (by omega)]
          rw [this, zero_mul]
    · intro hc; exact absurd (Finset.mem_univ _) hc
  have hr1 : h = true → ∀ k, 0 ≤ k → k < N → RCLike.im (S1 k k) = 0 := fun hh k _ hk => by
    rw [f1 k k le_rfl hk rfl]; exact hL.real hh k hk
  -- the inverse of the blocks
  obtain ⟨d1, d2⟩ := invertDiag_aux h N (N+1) 0 S1 xD (by omega) (fun k _ => hL.blocks k) hr1
  generalize invertDiag h N (N+1) 0 (S1, xD) = r at d1 d2
  have hb2 : Blocks N r.2 := by
    intro k hk hx
    rw [d2] at hx ⊢
    unfold xInv at hx ⊢
    have : xD k ≠ 0 := by
      intro hc
      rw [if_neg (by tauto)] at hx
      exact hx hc
    have : xD (k+1) = 0 := hL.blocks k hk this
    rw [this]; simp
  have hdd : ∀ a, a < N → dInv h N 0 (fun k => S1 k k) xD a = dInv h N 0 (fun k => A k k) xD a := by
    intro a ha
    have g : ∀ k, k < N → S1 k k = A k k := fun k hk => f1 k k le_rfl hk rfl
    unfold dInv blkDet
    by_cases c1 : a + 1 < N ∧ xD a ≠ 0
    · rw [if_pos c1, if_pos c1]; dsimp only; rw [g a ha, g (a+1) c1.1]
    · rw [if_neg c1, if_neg c1]
      by_cases c2 : 0 < a ∧ xD (a-1) ≠ 0
      · rw [if_pos c2, if_pos c2]; dsimp only; rw [show a - 1 + 1 = a by omega, g a ha, g (a-1) (by omega)]
      · rw [if_neg c2, if_neg c2]; dsimp only; rw [g a ha]
  have hxx : ∀ a, a < N → xInv h N 0 (fun k => S1 k k) xD a = xInv h N 0 (fun k => A k k) xD a := by
    intro a ha
    have g : ∀ k, k < N → S1 k k = A k k := fun k hk => f1 k k le_rfl hk rfl
    unfold xInv blkDet
    by_cases c1 : 0 ≤ a ∧ a + 1 < N ∧ xD a ≠ 0
    · rw [if_pos c1, if_pos c1]; dsimp only; rw [g a ha, g (a+1) c1.2.1]
    · rw [if_neg c1, if_neg c1]
  have hreal : h = true → RealDiag N r.1 := by
    intro hh k hk
    rw [d1, if_pos ⟨rfl, by omega, hk⟩, hdd k hk]
    refine real_of_cj (h := h) ?_ hh
    have g : ∀ k, k < N → cj h (A k k) = A k k := fun k hk => cj_real fun hh => hL.real hh k hk
    unfold dInv blkDet
    by_cases c1 : k + 1 < N ∧ xD k ≠ 0
    · rw [if_pos c1]; dsimp only
      rw [cj_div, cj_sub, cj_mul, cj_mul, cj_inv, g k hk, g (k+1) c1.1, mul_comm (cj h (xD k))]
    · rw [if_neg c1]
      by_cases c2 : 0 < k ∧ xD (k-1) ≠ 0
      · rw [if_pos c2]; dsimp only
        rw [show k - 1 + 1 = k by omega, cj_div, cj_sub, cj_mul, cj_mul, cj_inv, g k hk, g (k-1) (by omega), mul_comm (cj h (xD (k-1)))]
      · rw [if_neg c2]; dsimp only; rw [cj_div, cj_one, g k hk]
  have hz2 : ∀ k, k + 1 < N → r.2 k ≠ 0 → r.1 (k+1) k = 0 := by
    intro k hk hx
    rw [d1, if_neg (by omega)]
    apply hX1 k hk
    intro hc
    rw [d2] at hx
    unfold xInv at hx
    rw [if_neg (by tauto)] at hx
    exact hx hc
  have hcomb := combine_spec bk hnb hnb2 hmb hmb2 o crm cst h (N+1) N r.2 r.1 (by omega) hb2 hz2 hreal
  generalize combine bk o crm cst h (N+1) N r.2 r.1 = S2 at hcomb
  have hfull : ∀ i j, i < N → j < N → symFull h S2 i j =
      xdx h N (lowerMat true r.1) (fun i => r.1 i i) r.2 i j := by
    intro i j hi hj
    unfold symFull
    by_cases c : j ≤ i
    · rw [if_pos c, hcomb, if_pos ⟨c, hi⟩]
    · rw [if_neg c, hcomb, if_pos ⟨by omega, hj⟩, xdx_cj]
      exact hreal
  have hlow2 : lowerMat true r.1 = lowerMat true S1 := by
    funext i j
    unfold lowerMat
    by_cases c : j < i
    · rw [if_pos c, if_pos c, d1, if_neg (by omega)]
    · rw [if_neg c, if_neg c]; simp
  obtain ⟨q1, q2⟩ := reversePermuteRC_aux h N P hL.range N le_rfl S2
  refine ⟨_, rfl, ?_, ?_, ?_⟩
  · -- the product
    have hDD : lead N (pseudoDiag h (fun i => r.1 i i) r.2) * lead N (pseudoDiag h (fun i => A i i) xD) = 1 := by
      ext i j
      simp only [lead, Matrix.mul_apply, Matrix.of_apply]
      have hp := pseudo_inv h N (fun k => A k k) xD hL.blocks (hL.regular hd) hL.real (fun c => if c = (j : Nat) then 1 else 0) i i.isLt
      rw [Finset.sum_range] at hp
      rw [Matrix.one_apply]
      simp only [Fin.ext_iff]
      rw [← hp]
      refine Finset.sum_congr rfl fun l _ => ?_
      congr 1
      · unfold pseudoDiag
        by_cases c1 : (i : Nat) = l
        · rw [if_pos c1, if_pos c1]; dsimp only; rw [d1, if_pos ⟨rfl, by omega, i.isLt⟩, hdd i i.isLt]
        · rw [if_neg c1, if_neg c1, d2, d2, hxx _ i.isLt, hxx _ l.isLt]
      · rw [Finset.sum_eq_single (j : Nat)]
        · simp
        · intro c _ hc; rw [if_neg hc, mul_zero]
        · intro hc; exact absurd (Finset.mem_range.mpr j.isLt) hc
    let L := lead N (lowerMat true A)
    let D := lead N (pseudoDiag h (fun i => A i i) xD)
    let X := lead N (lowerMat true S1)
    let D' := lead N (pseudoDiag h (fun i => r.1 i i) r.2)
    let Lh : Matrix (Fin N) (Fin N) K := Matrix.of fun i k => cj h (lowerMat true A k i)
    let Xh : Matrix (Fin N) (Fin N) K := Matrix.of fun i k => cj h (lowerMat true S1 k i)
    have hLhXh : Lh * Xh = 1 := by
      ext i j
      have := congrArg (cj h) (congrFun (congrFun hXL j) i)
      simp only [lead, Matrix.mul_apply, Matrix.of_apply, Lh, Xh] at this ⊢
      rw [cj_sum] at this
      rw [Matrix.one_apply] at this ⊢
      have e : cj h (if j = i then (1:K) else 0) = if i = j then 1 else 0 := by
        by_cases c : j = i
        · rw [if_pos c, if_pos c.symm, cj_one]
        · rw [if_neg c, if_neg (fun e => c e.symm), cj_zero]
      rw [e] at this
      rw [← this]
      exact Finset.sum_congr rfl fun k _ => by rw [cj_mul, mul_comm]
    have hDD' : D * D' = 1 := mul_eq_one_comm.mp hDD
    have hLX : L * X = 1 := mul_eq_one_comm.mp hXL
    have hprod : (L * D * Lh) * (Xh * D' * X) = 1 := by
      calc (L * D * Lh) * (Xh * D' * X) = L * D * (Lh * Xh) * D' * X := by simp only [Matrix.mul_assoc]
        _ = L * (D * D') * X := by rw [hLhXh, Matrix.mul_one, Matrix.mul_assoc L D D']
        _ = 1 := by rw [hDD', Matrix.mul_one, hLX]
    intro i' j' hi' hj'
    obtain ⟨i, hi, rfl⟩ : ∃ i, i < N ∧ i' = swapProd P N 0 i := ⟨_, hL.inv_lt hi', by simp⟩
    obtain ⟨j, hj, rfl⟩ : ∃ j, j < N ∧ j' = swapProd P N 0 j := ⟨_, hL.inv_lt hj', by simp⟩
    have e := congrFun (congrFun hprod ⟨i, hi⟩) ⟨j, hj⟩
    rw [Matrix.one_apply] at e
    simp only [Fin.ext_iff] at e
    simp only [(swapProd P N 0).injective.eq_iff]
    rw [← e, Matrix.mul_apply, ← hL.sum_perm, Finset.sum_range]
    refine Finset.sum_congr rfl fun k _ => ?_
    congr 1
    · rw [hL.prod i k hi k.isLt]
      simp only [L, D, Lh, lead, Matrix.mul_apply, Matrix.of_apply]
      rw [Finset.sum_comm, Finset.sum_range]
      refine Finset.sum_congr rfl fun l _ => ?_
      rw [Finset.sum_range, Finset.sum_mul]
    · unfold reversePermuteRC
      rw [q1 _ _ (hL.lt k.isLt) hj']
      simp only [← Equiv.Perm.mul_apply, inv_mul_cancel, Equiv.Perm.one_apply]
      rw [hfull k j k.isLt hj, hlow2]
      simp only [xdx, X, D', Xh, lead, Matrix.mul_apply, Matrix.of_apply]
      simp only [Finset.mul_sum, Finset.sum_mul]
      rw [Finset.sum_comm, Finset.sum_range]
      refine Finset.sum_congr rfl fun l _ => ?_
      rw [Finset.sum_range]
      exact Finset.sum_congr rfl fun m _ => by ring
  · intro hh i hi
    have e := q1 i i hi hi
    have e2 : symFull h (down (fun i S => swapRC h N i (P i) S) N S2) i i = down (fun i S => swapRC h N i (P i) S) N S2 i i := if_pos le_rfl
    show RCLike.im (down (fun i S => swapRC h N i (P i) S) N S2 i i) = 0
    rw [← e2, e, hfull _ _ (hL.inv_lt hi) (hL.inv_lt hi)]
    exact xdx_real h N _ _ _ hreal _ hh
  · intro i j hij
    show down (fun i S => swapRC h N i (P i) S) N S2 i j = _
    rw [q2 i j hij, hcomb, if_neg hij, d1, if_neg (by omega), f1' i j hij]

/-- `doMakeInverse(minv)` for a full matrix. -/
theorem makeInverse_isLDL (bk : IBlk) (hnb : 0 < bk.nb) (hnb2 : 0 < bk.nb2) (hmb : 0 < bk.mb) (hmb2 : 0 < bk.mb2) (hti : 0 < bk.ti)
    (o : Ord) (crm cst : Bool) (s : St K) (hs : s.A = A ∧ s.xD = xD ∧ s.P = P) (minv : Nat → Nat → K) (hd : (lead N H).det ≠ 0) :
    ∃ V, makeInverse bk o crm cst h N s minv = some V ∧ IsInv N H V ∧ ∀ i j, ¬ (i < N ∧ j < N) → V i j = minv i j := by
  obtain ⟨sA, sx, sP⟩ := hs
  unfold makeInverse
  rw [sA, sx, sP]
  dsimp only
  generalize hm : (if h then (fun i j => if i = j ∧ i < N then ((RCLike.re (minv i i) : ℝ) : K) else minv i j) else minv :
    Nat → Nat → K) = m0
  have hm0 : ∀ i j, ¬ (i < N ∧ j < N) → m0 i j = minv i j := by
    intro i j hij
    rw [← hm]
    cases h
    · rfl
    · simp only [if_true]; rw [if_neg (by omega)]
  obtain ⟨V, e, v1, v2, v3⟩ := inverse_isLDL hL bk hnb hnb2 hmb hmb2 hti o crm cst m0 hd
  rw [e]
  simp only [Option.bind_some]
  refine ⟨_, rfl, ?_, ?_⟩
  · intro i j hi hj
    rw [← v1 i j hi hj]
    refine Finset.sum_congr rfl fun k hk => ?_
    have hk := Finset.mem_range.mp hk
    congr 1
    unfold symFull
    by_cases hN : N > 1
    · rw [if_pos hN]
      by_cases c : j ≤ k
      · rw [if_pos c, if_neg (by omega)]
      · rw [if_neg c, if_pos ⟨by omega, hj⟩]
    · rw [if_neg hN, if_pos (by omega)]
  · intro i j hij
    by_cases hN : N > 1
    · rw [if_pos hN]
      rw [if_neg (by omega), v3 i j (by omega), hm0 i j hij]
    · rw [if_neg hN, v3 i j (by omega), hm0 i j hij]

end

/-- `makeInverse(sinv)` / `sinv = A.inverse()` for a regular symmetric or Hermitian `A` and a `sinv` of the same kind: the lower triangle of
`sinv` becomes that of `A⁻¹`, nothing else is written. -/
theorem inverse_spec (nb nb2 bs : Nat) (hnb : 0 < nb) (hnb2 : 0 < nb2) (hbs : 0 < bs) (bk : IBlk) (hk : 0 < bk.nb) (hk2 : 0 < bk.nb2)
    (hm : 0 < bk.mb) (hm2 : 0 < bk.mb2) (hti : 0 < bk.ti) (o o' : Ord) (cm crm cst h : Bool) (N : Nat)
    (A g LD0 sinv : Nat → Nat → K) (P0 : Nat → Nat) (hA : ∀ i j, i < N → j < N → A i j = cj h (A j i))
    (hd : (Matrix.of fun i j : Fin N => A i j).det ≠ 0) :
    let s := make nb nb2 bs o cm h N A g LD0 P0
    ∃ V, inverse bk o' crm cst h N s.A s.xD s.P sinv = some V ∧
      (∀ i j, i < N → j < N → ∑ k ∈ Finset.range N, A i k * symFull h V k j = if i = j then 1 else 0) ∧
      (h = true → ∀ i, i < N → RCLike.im (V i i) = 0) ∧ ∀ i j, ¬ (j ≤ i ∧ i < N) → V i j = sinv i j :=
  inverse_isLDL (make_isLDL nb nb2 bs hnb hnb2 hbs o cm h N A g LD0 P0 hA).1 bk hk hk2 hm hm2 hti o' crm cst sinv hd

/-- `makeInverse(minv)` for a regular symmetric or Hermitian `A` and a full matrix `minv`. -/
theorem makeInverse_spec (nb nb2 bs : Nat) (hnb : 0 < nb) (hnb2 : 0 < nb2) (hbs : 0 < bs) (bk : IBlk) (hk : 0 < bk.nb) (hk2 : 0 < bk.nb2)
    (hm : 0 < bk.mb) (hm2 : 0 < bk.mb2) (hti : 0 < bk.ti) (o o' : Ord) (cm crm cst h : Bool) (N : Nat)
    (A g LD0 minv : Nat → Nat → K) (P0 : Nat → Nat) (hA : ∀ i j, i < N → j < N → A i j = cj h (A j i))
    (hd : (Matrix.of fun i j : Fin N => A i j).det ≠ 0) :
    ∃ V, makeInverse bk o' crm cst h N (make nb nb2 bs o cm h N A g LD0 P0) minv = some V ∧
      (∀ i j, i < N → j < N → ∑ k ∈ Finset.range N, A i k * V k j = if i = j then 1 else 0) ∧
      ∀ i j, ¬ (i < N ∧ j < N) → V i j = minv i j :=
  makeInverse_isLDL (make_isLDL nb nb2 bs hnb hnb2 hbs o cm h N A g LD0 P0 hA).1 bk hk hk2 hm hm2 hti o' crm cst _ ⟨rfl, rfl, rfl⟩ minv hd

/-- The hypotheses are met by a Hermitian matrix whose decomposition has a 2×2 block. -/
example (g LD0 minv : Nat → Nat → ℂ) (P0 : Nat → Nat) :
    let A : Nat → Nat → ℂ := fun i j => if i = j then 0 else if i < j then Complex.I else -Complex.I
    ∃ V, makeInverse ⟨64, 32, 32, 64, 32, 32⟩ .rm true false true 2 (make 64 32 48 .cm true true 2 A g LD0 P0) minv = some V ∧
      (∀ i j, i < 2 → j < 2 → ∑ k ∈ Finset.range 2, A i k * V k j = if i = j then 1 else 0) ∧
      ∀ i j, ¬ (i < 2 ∧ j < 2) → V i j = minv i j := by
  intro A
  refine makeInverse_spec 64 32 48 (by decide) (by decide) (by decide) ⟨64, 32, 32, 64, 32, 32⟩ (by decide) (by decide) (by decide)
    (by decide) (by decide) .cm .rm true true false true 2 A g LD0 minv P0 (fun i j _ _ => ?_) ?_
  · simp only [A, cj, if_true]
    by_cases c1 : i = j
    · rw [if_pos c1, if_pos c1.symm]; simp
    · have c1' : ¬ j = i := fun e => c1 e.symm
      by_cases c2 : i < j
      · have c3 : ¬ j < i := by omega
        simp [c1, c1', c2, c3]
      · have c3 : j < i := by omega
        simp [c1, c1', c2, c3]
  · simp [Matrix.det_fin_two, A]

end
end TMV.LDL
