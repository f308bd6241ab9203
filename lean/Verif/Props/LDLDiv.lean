import Verif.Model.LDLDiv
import Verif.Props.LDL
import Verif.Props.LUDiv

/-! C74: division by symmetric and Hermitian matrices through their LDL decomposition. -/
namespace TMV.LDL
noncomputable section
open Classical
open Tri (Ord sub paste)
variable {K : Type} [RCLike K]

theorem lmult2_spec (nc i : Nat) (a b c cc : K) (m : Nat → Nat → K) (x y : Nat) :
    lmult2 nc i a b c cc m x y = if x = i ∧ y < nc then a * m i y + cc * m (i+1) y
      else if x = i + 1 ∧ y < nc then b * m (i+1) y + c * m i y else m x y := by
  have := up_inv (fun k (m : Nat → Nat → K) =>
    let tempx := m i k
    let m := setE m i k (a * m i k + cc * m (i+1) k)
    setE m (i+1) k (b * m (i+1) k + c * tempx)) (fun n r => ∀ x y, r x y = if x = i ∧ y < n then a * m i y + cc * m (i+1) y
      else if x = i + 1 ∧ y < n then b * m (i+1) y + c * m i y else m x y) nc 0 m (fun x y => by simp) ?_
  · have h := this x y
    rw [Nat.zero_add] at h
    exact h
  · intro k r _ hk ih x y
    have e0 : r i k = m i k := by rw [ih, if_neg (by omega), if_neg (by omega)]
    have e1 : r (i+1) k = m (i+1) k := by rw [ih, if_neg (by omega), if_neg (by omega)]
    dsimp only [setE]
    rw [if_neg (by omega : ¬ (i + 1 = i ∧ k = k)), e0, e1]
    by_cases c1 : x = i + 1 ∧ y = k
    · rw [if_pos c1, if_neg (by omega), if_pos (by omega), c1.2]
    · rw [if_neg c1]
      by_cases c2 : x = i ∧ y = k
      · rw [if_pos c2, if_pos (by omega), c2.2]
      · rw [if_neg c2, ih]
        have d1 : (x = i ∧ y < k) ↔ (x = i ∧ y < k + 1) := by omega
        have d2 : (x = i + 1 ∧ y < k) ↔ (x = i + 1 ∧ y < k + 1) := by omega
        simp only [d1, d2]

theorem symLMult2_spec (h mc : Bool) (nc i : Nat) (a b c : K) (ha : h = true → RCLike.im a = 0) (hb : h = true → RCLike.im b = 0)
    (m : Nat → Nat → K) (x y : Nat) :
    symLMult2 h mc nc i a b c m x y = if x = i ∧ y < nc then a * m i y + cj h c * m (i+1) y
      else if x = i + 1 ∧ y < nc then b * m (i+1) y + c * m i y else m x y := by
  have key : ∀ a' b' c' cc' : K, cj mc a' = a → cj mc b' = b → cj mc c' = c → cj mc cc' = cj h c →
      cj mc (lmult2 nc i a' b' c' cc' (fun x y => cj mc (m x y)) x y) = if x = i ∧ y < nc then a * m i y + cj h c * m (i+1) y
      else if x = i + 1 ∧ y < nc then b * m (i+1) y + c * m i y else m x y := by
    intro a' b' c' cc' e1 e2 e3 e4
    rw [lmult2_spec]
    split_ifs
    · rw [cj_add, cj_mul, cj_mul, cj_inv, cj_inv, e1, e4]
    · rw [cj_add, cj_mul, cj_mul, cj_inv, cj_inv, e2, e3]
    · rw [cj_inv]
  dsimp only [symLMult2]
  have ra : h = true → ((RCLike.re a : ℝ) : K) = a := fun hh => (RCLike.conj_eq_iff_re.mp (RCLike.conj_eq_iff_im.mpr (ha hh)))
  have rb : h = true → ((RCLike.re b : ℝ) : K) = b := fun hh => (RCLike.conj_eq_iff_re.mp (RCLike.conj_eq_iff_im.mpr (hb hh)))
  cases h <;> cases mc
  · exact key _ _ _ _ rfl rfl rfl rfl
  · exact key _ _ _ _ (by simp [cj]) (by simp [cj]) (by simp [cj]) (by simp [cj])
  · exact key _ _ _ _ (ra rfl) (rb rfl) rfl rfl
  · refine key _ _ _ _ ?_ ?_ (by simp [cj]) (by simp [cj])
    · rw [ra rfl]; simp only [cj, if_true]; exact RCLike.conj_eq_iff_im.mpr (ha rfl)
    · rw [rb rfl]; simp only [cj, if_true]; exact RCLike.conj_eq_iff_im.mpr (hb rfl)

/-- The subdiagonal of a block-diagonal matrix: no two elements in sequence. -/
def Blocks (N : Nat) (xD : Nat → K) : Prop := ∀ k, k + 2 < N → xD k ≠ 0 → xD (k+1) = 0

/-- All blocks are regular. -/
def Regular (h : Bool) (N : Nat) (D xD : Nat → K) : Prop := ∀ k, k < N → (k = 0 ∨ xD (k-1) = 0) →
  ((k = N - 1 ∨ xD k = 0) → D k ≠ 0) ∧ (k + 1 < N → xD k ≠ 0 → D k * D (k+1) - xD k * cj h (xD k) ≠ 0)

/-- Row `k` of the product of the block-diagonal matrix and the column `f`. -/
theorem pseudo_sum (h : Bool) (N : Nat) (D xD : Nat → K) (f : Nat → K) (k : Nat) (hk : k < N) :
    ∑ l ∈ Finset.range N, pseudoDiag h D xD k l * f l =
      (if 0 < k then xD (k-1) * f (k-1) else 0) + D k * f k + (if k + 1 < N then cj h (xD k) * f (k+1) else 0) := by
  have e : ∀ l, pseudoDiag h D xD k l * f l =
      (if l = k - 1 then (if 0 < k then xD (k-1) * f (k-1) else 0) else 0) + (if l = k then D k * f k else 0) +
      (if l = k + 1 then cj h (xD k) * f (k+1) else 0) := by
    intro l
    unfold pseudoDiag
    by_cases c1 : k = l
    · subst c1
      rw [if_pos rfl, if_pos rfl, if_neg (by omega : ¬ k = k + 1)]
      by_cases c0 : 0 < k
      · rw [if_neg (by omega)]; ring
      · rw [if_pos (by omega), if_neg c0]; ring
    · rw [if_neg c1, if_neg (by omega : ¬ l = k)]
      by_cases c2 : k = l + 1
      · subst c2
        rw [if_pos rfl, if_pos (by omega), if_pos (by omega), if_neg (by omega)]; simp
      · rw [if_neg c2]
        by_cases c3 : l = k + 1
        · subst c3
          rw [if_pos rfl, if_pos rfl]
          rw [if_neg (by omega)]; simp
        · rw [if_neg c3, if_neg c3]
          by_cases c4 : l = k - 1
          · rw [if_pos c4, if_neg (by omega)]; simp
          · rw [if_neg c4]; simp
  rw [Finset.sum_congr rfl fun l _ => e l, Finset.sum_add_distrib, Finset.sum_add_distrib, Finset.sum_ite_eq', Finset.sum_ite_eq',
    Finset.sum_ite_eq', if_pos (Finset.mem_range.mpr (by omega)), if_pos (Finset.mem_range.mpr hk)]
  simp only [Finset.mem_range]

theorem solve2 {x y z w δ a b : K} (hd : x * y - z * w = δ) (h0 : δ ≠ 0) :
    x * (y / δ * a + w / -δ * b) + w * (x / δ * b + z / -δ * a) = a ∧
    z * (y / δ * a + w / -δ * b) + y * (x / δ * b + z / -δ * a) = b := by
  constructor
  · field_simp
    rw [← hd]; ring
  · field_simp
    rw [← hd]; ring

theorem pseudoLDiv_aux (h mc : Bool) (N nc : Nat) (D xD : Nat → K) (hb : Blocks N xD) (hr : Regular h N D xD)
    (hD : h = true → ∀ k, k < N → RCLike.im (D k) = 0) : ∀ (fuel i : Nat) (m : Nat → Nat → K), N ≤ fuel + i →
    (i = 0 ∨ N ≤ i ∨ xD (i-1) = 0) →
    (∀ k c, i ≤ k → k < N → c < nc → (if i < k then xD (k-1) * pseudoLDiv h mc N nc D xD fuel i m (k-1) c else 0) +
      D k * pseudoLDiv h mc N nc D xD fuel i m k c +
      (if k + 1 < N then cj h (xD k) * pseudoLDiv h mc N nc D xD fuel i m (k+1) c else 0) = m k c) ∧
    (∀ k c, ¬ (i ≤ k ∧ k < N ∧ c < nc) → pseudoLDiv h mc N nc D xD fuel i m k c = m k c) := by
  intro fuel
  induction fuel with
  | zero => intro i m hf _; exact ⟨fun k c _ _ _ => by omega, fun k c _ => rfl⟩
  | succ fuel ih =>
    intro i m hf hi
    unfold pseudoLDiv
    by_cases hiN : i < N
    swap
    · rw [if_neg hiN]; exact ⟨fun k c _ _ _ => by omega, fun k c _ => rfl⟩
    rw [if_pos hiN]
    obtain ⟨r1, r2⟩ := hr i hiN (hi.imp_right fun hi => hi.resolve_left (by omega))
    by_cases c1 : i = N - 1 ∨ xD i = 0
    · rw [if_pos c1]
      have hd := r1 c1
      rw [reH_real (fun hh => hD hh i hiN)]
      obtain ⟨s1, s2⟩ := ih (i+1) (fun a c => if a = i ∧ c < nc then m a c / D i else m a c) (by omega)
        (by rcases c1 with c1 | c1; · right; left; omega
            · right; right; simpa using c1)
      constructor
      · intro k c hk hkN hc
        by_cases hki : k = i
        · subst hki
          rw [if_neg (by omega), s2 k c (by omega), if_pos ⟨rfl, hc⟩]
          have : (if k + 1 < N then cj h (xD k) * pseudoLDiv h mc N nc D xD fuel (k+1)
              (fun a c => if a = k ∧ c < nc then m a c / D k else m a c) (k+1) c else 0) = 0 := by
            rcases c1 with c1 | c1
            · rw [if_neg (by omega)]
            · rw [c1]; simp
          rw [this]
          field_simp
          ring
        · have := s1 k c (by omega) hkN hc
          rw [if_neg (by omega : ¬ (k = i ∧ c < nc))] at this
          rw [← this]
          congr 2
          by_cases c3 : i + 1 < k
          · rw [if_pos (by omega), if_pos c3]
          · rw [if_pos (by omega), if_neg c3]
            have hki' : k - 1 = i := by omega
            rw [hki']
            rcases c1 with c1 | c1
            · omega
            · rw [c1, zero_mul]
      · intro k c hk
        rw [s2 k c (by omega), if_neg (by omega)]
    · rw [if_neg c1]
      push Not at c1
      have hi1 : i + 1 < N := by omega
      have hd := r2 hi1 c1.2
      have hdr : h = true → ∀ z : K, RCLike.im z = 0 → RCLike.im (z / (D i * D (i+1) - xD i * cj h (xD i))) = 0 := by
        intro hh z hz
        have e1 := RCLike.conj_eq_iff_re.mp (RCLike.conj_eq_iff_im.mpr (hD hh i hiN))
        have e2 := RCLike.conj_eq_iff_re.mp (RCLike.conj_eq_iff_im.mpr (hD hh (i+1) hi1))
        have e3 := RCLike.conj_eq_iff_re.mp (RCLike.conj_eq_iff_im.mpr hz)
        subst hh
        refine RCLike.conj_eq_iff_im.mp ?_
        rw [← e1, ← e2, ← e3]
        simp [cj, mul_comm]
      rw [invert2_spec (fun hh => hD hh i hiN) (fun hh => hD hh (i+1) hi1) c1.2]
      dsimp only
      generalize hδ : D i * D (i+1) - xD i * cj h (xD i) = δ at *
      obtain ⟨s1, s2⟩ := ih (i+2) (symLMult2 h mc nc i (D (i+1) / δ) (D i / δ) (xD i / -δ) m) (by omega)
        (by by_cases h2 : i + 2 < N
            · right; right; exact hb i h2 c1.2
            · right; left; omega)
      have sp := symLMult2_spec h mc nc i (D (i+1) / δ) (D i / δ) (xD i / -δ) (fun hh => hdr hh _ (hD hh (i+1) hi1))
        (fun hh => hdr hh _ (hD hh i hiN)) m
      have hcd : cj h δ = δ := by
        rw [← hδ, cj_sub, cj_mul, cj_mul, cj_inv, cj_real (fun hh => hD hh i hiN), cj_real (fun hh => hD hh (i+1) hi1)]; ring
      have e0 : ∀ c, c < nc → pseudoLDiv h mc N nc D xD fuel (i+2) (symLMult2 h mc nc i (D (i+1) / δ) (D i / δ) (xD i / -δ) m) i c
          = D (i+1) / δ * m i c + cj h (xD i / -δ) * m (i+1) c := fun c hc => by
        rw [s2 i c (by omega), sp, if_pos ⟨rfl, hc⟩]
      have e1 : ∀ c, c < nc → pseudoLDiv h mc N nc D xD fuel (i+2) (symLMult2 h mc nc i (D (i+1) / δ) (D i / δ) (xD i / -δ) m) (i+1) c
          = D i / δ * m (i+1) c + xD i / -δ * m i c := fun c hc => by
        rw [s2 (i+1) c (by omega), sp, if_neg (by omega), if_pos ⟨rfl, hc⟩]
      have hcx : cj h (xD i / -δ) = cj h (xD i) / -δ := by rw [cj_div, cj_neg, hcd]
      constructor
      · intro k c hk hkN hc
        by_cases hki : k = i
        · subst hki
          rw [if_neg (by omega), if_pos hi1, e0 c hc, e1 c hc, hcx]
          rw [zero_add]
          exact (solve2 hδ hd).1
        · by_cases hki1 : k = i + 1
          · subst hki1
            have hz : (if i + 1 + 1 < N then cj h (xD (i+1)) * pseudoLDiv h mc N nc D xD fuel (i+2)
                (symLMult2 h mc nc i (D (i+1) / δ) (D i / δ) (xD i / -δ) m) (i+1+1) c else 0) = 0 := by
              by_cases h2 : i + 2 < N
              · rw [hb i h2 c1.2]; simp
              · rw [if_neg h2]
            rw [if_pos (by omega), hz, Nat.add_sub_cancel, e0 c hc, e1 c hc, hcx]
            rw [add_zero]
            exact (solve2 hδ hd).2
          · have := s1 k c (by omega) hkN hc
            have e3 : symLMult2 h mc nc i (D (i+1) / δ) (D i / δ) (xD i / -δ) m k c = m k c := by
              rw [sp, if_neg (by omega), if_neg (by omega)]
            rw [← e3, ← this]
            congr 2
            by_cases c3 : i + 2 < k
            · rw [if_pos (by omega), if_pos c3]
            · rw [if_pos (by omega), if_neg c3]
              have hki' : k - 1 = i + 1 := by omega
              rw [hki', hb i (by omega) c1.2, zero_mul]
      · intro k c hk
        rw [s2 k c (by omega), sp, if_neg (by omega), if_neg (by omega)]

/-- `PseudoDiag_LDivEq` solves the block-diagonal system. -/
theorem pseudoLDiv_spec (h mc : Bool) (N nc : Nat) (D xD : Nat → K) (hb : Blocks N xD) (hr : Regular h N D xD)
    (hD : h = true → ∀ k, k < N → RCLike.im (D k) = 0) (m : Nat → Nat → K) :
    SolM N nc (pseudoDiag h D xD) (pseudoLDiv h mc N nc D xD (N+1) 0 m) m := by
  obtain ⟨s1, s2⟩ := pseudoLDiv_aux h mc N nc D xD hb hr hD (N+1) 0 m (by omega) (Or.inl rfl)
  refine ⟨fun k c hk hc => ?_, fun k c hk => s2 k c (by omega)⟩
  rw [pseudo_sum h N D xD _ k hk]
  exact s1 k c (by omega) hk hc

/-- The blocks of a regular block-diagonal matrix are regular. -/
theorem regular_of_det {h : Bool} {N : Nat} {D xD : Nat → K} (hb : Blocks N xD)
    (hdet : (lead N (pseudoDiag h D xD)).det ≠ 0) : Regular h N D xD := by
  intro k hk hk0
  constructor
  · intro hx hd
    refine hdet (Matrix.det_eq_zero_of_row_eq_zero ⟨k, hk⟩ fun l => ?_)
    simp only [lead, Matrix.of_apply, pseudoDiag]
    by_cases c1 : k = l
    · rw [if_pos c1]; exact hd
    · rw [if_neg c1]
      by_cases c2 : k = l + 1
      · rw [if_pos c2]
        rcases hk0 with e | e
        · omega
        · rw [c2] at e; exact e
      · rw [if_neg c2]
        by_cases c3 : (l : Nat) = k + 1
        · rw [if_pos c3]
          rcases hx with e | e
          · have := l.isLt; omega
          · rw [e]; simp
        · rw [if_neg c3]
  · intro hk1 hx hd
    refine hdet (Matrix.exists_vecMul_eq_zero_iff.mp ⟨fun l => if (l : Nat) = k then xD k else if (l : Nat) = k + 1 then - D k else 0,
      fun hv => hx ?_, ?_⟩)
    · have := congrFun hv ⟨k, hk⟩
      simpa using this
    · funext l
      simp only [Matrix.vecMul, dotProduct, lead, Matrix.of_apply, Pi.zero_apply]
      rw [Finset.sum_fin_eq_sum_range]
      have e : ∀ q ∈ Finset.range N, (if hq : q < N then (if q = k then xD k else if q = k + 1 then - D k else 0) *
          pseudoDiag h D xD q l else 0) = (if q = k then xD k * pseudoDiag h D xD k l else 0) +
          (if q = k + 1 then - D k * pseudoDiag h D xD (k+1) l else 0) := by
        intro q hq
        rw [dif_pos (Finset.mem_range.mp hq)]
        by_cases c1 : q = k
        · subst c1; rw [if_pos rfl, if_pos rfl, if_neg (by omega), add_zero]
        · rw [if_neg c1, if_neg c1]
          by_cases c2 : q = k + 1
          · subst c2; rw [if_pos rfl, if_pos rfl, zero_add]
          · rw [if_neg c2, if_neg c2]; simp
      rw [Finset.sum_congr rfl e, Finset.sum_add_distrib, Finset.sum_ite_eq', Finset.sum_ite_eq', if_pos (Finset.mem_range.mpr hk),
        if_pos (Finset.mem_range.mpr hk1)]
      unfold pseudoDiag
      by_cases c1 : (l : Nat) = k
      · rw [if_pos c1.symm, if_neg (by omega), if_pos (by omega), c1]; ring
      · rw [if_neg (fun e => c1 e.symm)]
        by_cases c2 : (l : Nat) = k + 1
        · rw [if_neg (by omega), if_pos c2, if_pos c2.symm]
          linear_combination -hd
        · have a1 : (if k = (l : Nat) + 1 then xD l else if (l : Nat) = k + 1 then cj h (xD k) else 0) = 0 := by
            rw [if_neg c2]
            by_cases c3 : k = l + 1
            · rw [if_pos c3]
              rcases hk0 with e | e
              · omega
              · rw [c3] at e; exact e
            · rw [if_neg c3]
          have a2 : (if k + 1 = (l : Nat) then D (k+1) else if k + 1 = (l : Nat) + 1 then xD l
              else if (l : Nat) = k + 1 + 1 then cj h (xD (k+1)) else 0) = 0 := by
            rw [if_neg (by omega), if_neg (by omega)]
            by_cases c3 : (l : Nat) = k + 1 + 1
            · rw [if_pos c3, hb k (by have := l.isLt; omega) hx]; simp
            · rw [if_neg c3]
          rw [a1, a2]; ring

section
variable {h : Bool} {N : Nat} {H A : Nat → Nat → K} {xD : Nat → K} {P : Nat → Nat} (hL : IsLDL h N H A xD P)
include hL

theorem _root_.TMV.IsLDL.blocks : Blocks N xD := fun k hk hx => (hL.block k (by omega) hx).2 hk

theorem _root_.TMV.IsLDL.lt {k : Nat} (hk : k < N) : swapProd P N 0 k < N := (swapProd_lt P N hL.range k).mpr hk

theorem _root_.TMV.IsLDL.inv_lt {k : Nat} (hk : k < N) : (swapProd P N 0)⁻¹ k < N :=
  (swapProd_lt P N hL.range _).mp (by simpa using hk)

theorem _root_.TMV.IsLDL.fix {k : Nat} (hk : N ≤ k) : swapProd P N 0 k = k :=
  LU.swapProd_ge_fix P N 0 N (by omega) (fun k _ hk => (hL.range k (by omega)).2) k hk

theorem _root_.TMV.IsLDL.inv_fix {k : Nat} (hk : N ≤ k) : (swapProd P N 0)⁻¹ k = k := by
  rw [Equiv.Perm.inv_eq_iff_eq, hL.fix hk]

theorem _root_.TMV.IsLDL.sum_perm (f : Nat → K) : ∑ k ∈ Finset.range N, f (swapProd P N 0 k) = ∑ k ∈ Finset.range N, f k := by
  refine Finset.sum_equiv (swapProd P N 0) (fun k => ?_) (fun _ _ => rfl)
  simp only [Finset.mem_range]
  exact (swapProd_lt P N hL.range k).symm

theorem _root_.TMV.IsLDL.det : (lead N H).det = (lead N (pseudoDiag h (fun i => A i i) xD)).det := by
  rw [← lead_perm N _ (swapProd_lt P N hL.range) H]
  have : (lead N fun i k => H (swapProd P N 0 i) (swapProd P N 0 k)) =
      lead N (lowerMat true A) * lead N (pseudoDiag h (fun i => A i i) xD) *
      Matrix.of fun i k : Fin N => cj h (lowerMat true A k i) := by
    ext i k
    simp only [lead, Matrix.mul_apply, Matrix.of_apply]
    rw [hL.prod i k i.isLt k.isLt, Finset.sum_comm, Finset.sum_range]
    refine Finset.sum_congr rfl fun l _ => ?_
    rw [Finset.sum_range, Finset.sum_mul]
  rw [this, Matrix.det_mul, Matrix.det_mul, det_lower, det_lower_cj, one_mul, mul_one]

theorem _root_.TMV.IsLDL.regular (hd : (lead N H).det ≠ 0) : Regular h N (fun i => A i i) xD :=
  regular_of_det hL.blocks (by rwa [← hL.det])

/-- `LDL_LDivEq` solves `H X = B`. -/
theorem lDivEq_spec (nb nb2 : Nat) (hnb : 0 < nb) (hnb2 : 0 < nb2) (o : Ord) (brm mc : Bool) (nc : Nat) (B : Nat → Nat → K)
    (hd : (lead N H).det ≠ 0) : ∃ X, lDivEq nb nb2 o h brm mc N nc A xD P B = some X ∧ SolM N nc H X B := by
  obtain ⟨Y, eY⟩ := Option.isSome_iff_exists.mp (Tri.lowerM_isSome nb nb2 hnb hnb2 o brm true N nc A
    (LU.permuteRows nc P N 0 B) (fun i _ => by simp [dg]))
  obtain ⟨Z, eZ⟩ := Option.isSome_iff_exists.mp (Tri.upperM_isSome nb nb2 hnb hnb2 (LU.Ord.tr o) brm true N nc
    (fun i j => cj h (A j i)) (pseudoLDiv h mc N nc (fun i => A i i) xD (N+1) 0 Y) (fun i _ => by simp [dg]))
  refine ⟨LU.reversePermuteRows nc P N 0 Z, ?_, ?_⟩
  · unfold lDivEq
    simp only [eY, Option.bind_some, eZ]
  obtain ⟨l1, l2⟩ := Tri.lowerM_sound _ _ hnb hnb2 _ _ _ _ _ _ _ _ eY
  obtain ⟨u1, u2⟩ := Tri.upperM_sound _ _ hnb hnb2 _ _ _ _ _ _ _ _ eZ
  obtain ⟨p1, p2⟩ := pseudoLDiv_spec h mc N nc (fun i => A i i) xD hL.blocks (hL.regular hd) hL.real Y
  constructor
  · intro i' c hi' hc
    obtain ⟨i, hi, rfl⟩ : ∃ i, i < N ∧ i' = swapProd P N 0 i := ⟨_, hL.inv_lt hi', by simp⟩
    rw [← LU.permuteRows_eq nc P N 0 B i c hc, ← l1 i c hi hc, ← hL.sum_perm]
    rw [Finset.sum_congr rfl fun j hj => by
      rw [LU.reversePermuteRows_eq _ _ _ _ _ _ _ hc, ← Equiv.Perm.mul_apply, inv_mul_cancel, Equiv.Perm.one_apply,
        hL.prod i j hi (Finset.mem_range.mp hj), Finset.sum_mul], Finset.sum_comm]
    refine Finset.sum_congr rfl fun k hk => ?_
    rw [← p1 k c (Finset.mem_range.mp hk) hc, Finset.mul_sum, Finset.sum_congr rfl fun j _ => Finset.sum_mul _ _ _, Finset.sum_comm]
    refine Finset.sum_congr rfl fun l hl => ?_
    rw [← u1 l c (Finset.mem_range.mp hl) hc, Finset.mul_sum, Finset.mul_sum]
    refine Finset.sum_congr rfl fun j _ => ?_
    have e : upperMat true (fun i j => cj h (A j i)) l j = cj h (lowerMat true A j l) := by
      unfold upperMat lowerMat
      by_cases c1 : l < j
      · rw [if_pos c1, if_pos c1]
      · rw [if_neg c1, if_neg c1]
        by_cases c2 : l = j
        · rw [if_pos c2, if_pos c2.symm]; simp
        · rw [if_neg c2, if_neg (fun e => c2 e.symm)]; simp
    rw [e]; ring
  · intro i c hic
    by_cases hc : c < nc
    · rw [LU.reversePermuteRows_eq _ _ _ _ _ _ _ hc, hL.inv_fix (by omega), u2 i c hic, p2 i c hic, l2 i c hic,
        LU.permuteRows_eq _ _ _ _ _ _ _ hc, hL.fix (by omega)]
    · rw [LU.reversePermuteRows_out _ _ _ _ _ _ _ hc, u2 i c hic, p2 i c hic, l2 i c hic, LU.permuteRows_out _ _ _ _ _ _ _ hc]

/-- `LDL_RDivEq` solves `X H = B`. -/
theorem rDivEq_spec (nb nb2 : Nat) (hnb : 0 < nb) (hnb2 : 0 < nb2) (o : Ord) (bcm mc : Bool) (nr : Nat) (B : Nat → Nat → K)
    (hH : ∀ i j, i < N → j < N → H i j = cj h (H j i)) (hd : (lead N H).det ≠ 0) :
    ∃ X, rDivEq nb nb2 o h bcm mc N nr A xD P B = some X ∧ SolM N nr (fun i j => H j i) (fun i j => X j i) (fun i j => B j i) := by
  obtain ⟨Y, eY, s1, s2⟩ := lDivEq_spec hL nb nb2 hnb hnb2 o bcm (if h then !mc else mc) nr (fun i j => cj h (B j i)) hd
  refine ⟨fun i j => cj h (Y j i), ?_, ?_, ?_⟩
  · unfold rDivEq; rw [eY]; rfl
  · intro i c hi hc
    have := congrArg (cj h) (s1 i c hi hc)
    rw [cj_inv, cj_sum] at this
    show ∑ k ∈ Finset.range N, H k i * cj h (Y k c) = B c i
    rw [← this]
    refine Finset.sum_congr rfl fun k hk => ?_
    rw [cj_mul, ← hH k i (Finset.mem_range.mp hk) hi]
  · intro i c hic
    show cj h (Y i c) = B c i
    rw [s2 i c hic, cj_inv]

end

theorem make_isLDL (nb nb2 bs : Nat) (hnb : 0 < nb) (hnb2 : 0 < nb2) (hbs : 0 < bs) (o : Ord) (cm h : Bool) (N : Nat)
    (A g LD0 : Nat → Nat → K) (P0 : Nat → Nat) (hA : ∀ i j, i < N → j < N → A i j = cj h (A j i)) :
    let s := make nb nb2 bs o cm h N A g LD0 P0
    IsLDL h N A s.A s.xD s.P ∧
    ((lead N A).det = 0 → s.signdet = 0) ∧ ((lead N A).det ≠ 0 →
      s.signdet * ((Real.exp s.logdet : ℝ) : K) = (lead N A).det ∧ ‖s.signdet‖ = 1) := by
  intro s
  have hr : h = true → ∀ k, k < N → RCLike.im (if k ≤ k ∧ k < N then A k k else g k k) = 0 := by
    intro hh k hk
    rw [if_pos ⟨le_rfl, hk⟩]
    exact real_of_cj (hA k k hk hk) hh
  have e : ∀ i j, i < N → j < N → symFull h (fun i j => if j ≤ i ∧ i < N then A i j else g i j) i j = A i j := by
    intro i j hi hj
    unfold symFull
    by_cases c : j ≤ i
    · rw [if_pos c]; exact if_pos ⟨c, hi⟩
    · rw [if_neg c, hA i j hi hj]; dsimp only; rw [if_pos ⟨by omega, hj⟩]
  have d1 := (decompose_spec nb nb2 bs hnb hnb2 hbs o cm h N (fun i j => if j ≤ i ∧ i < N then A i j else g i j) LD0 P0 hr).1
  have d2 := decompose_det nb nb2 bs hnb hnb2 hbs o cm h N (fun i j => if j ≤ i ∧ i < N then A i j else g i j) LD0 P0 hr
  have e2 : (Matrix.of fun i j : Fin N => symFull h (fun i j => if j ≤ i ∧ i < N then A i j else g i j) i j) = lead N A := by
    ext i j
    exact e i j i.isLt j.isLt
  dsimp only at d2
  rw [e2] at d2
  refine ⟨⟨d1.range, fun i j hi hj => ?_, d1.block, d1.real⟩, d2⟩
  exact (e _ _ (d1.lt hi) (d1.lt hj)).symm.trans (d1.prod i j hi hj)

/-- `m /= A` for a regular symmetric or Hermitian matrix. -/
theorem lDiv_spec (nb nb2 bs tb tb2 : Nat) (hnb : 0 < nb) (hnb2 : 0 < nb2) (hbs : 0 < bs) (htb : 0 < tb) (htb2 : 0 < tb2) (o : Ord)
    (cm h brm mc : Bool) (N nc : Nat) (A g LD0 B : Nat → Nat → K) (P0 : Nat → Nat) (hA : ∀ i j, i < N → j < N → A i j = cj h (A j i))
    (hd : (Matrix.of fun i j : Fin N => A i j).det ≠ 0) :
    let s := make nb nb2 bs o cm h N A g LD0 P0
    ∃ X, lDivEq tb tb2 o h brm mc N nc s.A s.xD s.P B = some X ∧ SolM N nc A X B :=
  lDivEq_spec (make_isLDL nb nb2 bs hnb hnb2 hbs o cm h N A g LD0 P0 hA).1 tb tb2 htb htb2 o brm mc nc B hd

/-- `m %= A` for a regular symmetric or Hermitian matrix: the result `X` is `B A⁻¹`. -/
theorem rDiv_spec (nb nb2 bs tb tb2 : Nat) (hnb : 0 < nb) (hnb2 : 0 < nb2) (hbs : 0 < bs) (htb : 0 < tb) (htb2 : 0 < tb2) (o : Ord)
    (cm h bcm mc : Bool) (N nr : Nat) (A g LD0 B : Nat → Nat → K) (P0 : Nat → Nat) (hA : ∀ i j, i < N → j < N → A i j = cj h (A j i))
    (hd : (Matrix.of fun i j : Fin N => A i j).det ≠ 0) :
    let s := make nb nb2 bs o cm h N A g LD0 P0
    ∃ X, rDivEq tb tb2 o h bcm mc N nr s.A s.xD s.P B = some X ∧
      (∀ r j, r < nr → j < N → ∑ k ∈ Finset.range N, X r k * A k j = B r j) ∧
      ∀ r j, ¬ (r < nr ∧ j < N) → X r j = B r j := by
  intro s
  obtain ⟨X, e, s1, s2⟩ := rDivEq_spec (make_isLDL nb nb2 bs hnb hnb2 hbs o cm h N A g LD0 P0 hA).1 tb tb2 htb htb2 o bcm mc nr B hA hd
  refine ⟨X, e, fun r j hr hj => ?_, fun r j hrj => s2 j r (by tauto)⟩
  refine Eq.trans ?_ (s1 j r hj hr)
  exact Finset.sum_congr rfl fun k _ => mul_comm _ _

/-- `det()` and `logDet(&sign)`. -/
theorem det_spec (nb nb2 bs : Nat) (hnb : 0 < nb) (hnb2 : 0 < nb2) (hbs : 0 < bs) (o : Ord) (cm h : Bool) (N : Nat)
    (A g LD0 : Nat → Nat → K) (P0 : Nat → Nat) (hA : ∀ i j, i < N → j < N → A i j = cj h (A j i)) :
    let s := make nb nb2 bs o cm h N A g LD0 P0
    let δ := (Matrix.of fun i j : Fin N => A i j).det
    det s = δ ∧ (δ ≠ 0 → s.logdet = Real.log ‖δ‖ ∧ s.signdet = δ / ((‖δ‖ : ℝ) : K)) := by
  intro s δ
  obtain ⟨-, d1, d2⟩ := make_isLDL nb nb2 bs hnb hnb2 hbs o cm h N A g LD0 P0 hA
  have hδ : (lead N A).det = δ := rfl
  rw [hδ] at d1 d2
  by_cases h0 : δ = 0
  · refine ⟨?_, fun hne => absurd h0 hne⟩
    unfold det
    rw [if_pos (d1 h0), h0]
  · obtain ⟨d3, d4⟩ := d2 h0
    have hs : s.signdet ≠ 0 := fun e => by
      have d4' : ‖s.signdet‖ = 1 := d4
      rw [e] at d4'; simp at d4'
    have hn : ‖δ‖ = Real.exp s.logdet := by
      rw [← d3, norm_mul, d4, one_mul, RCLike.norm_ofReal, abs_of_pos (Real.exp_pos _)]
    refine ⟨?_, fun _ => ⟨?_, ?_⟩⟩
    · unfold det
      rw [if_neg hs]; exact d3
    · rw [hn, Real.log_exp]
    · rw [hn, eq_div_iff]
      · exact d3
      · exact_mod_cast (Real.exp_pos s.logdet).ne'

/-- `isSingular()` is true for every singular matrix. -/
theorem isSingular_spec_partial (nb nb2 bs : Nat) (hnb : 0 < nb) (hnb2 : 0 < nb2) (hbs : 0 < bs) (o : Ord) (cm h : Bool) (eps : ℝ)
    (N : Nat) (A g LD0 : Nat → Nat → K) (P0 : Nat → Nat) (hA : ∀ i j, i < N → j < N → A i j = cj h (A j i))
    (hd : (Matrix.of fun i j : Fin N => A i j).det = 0) : isSingular eps N (make nb nb2 bs o cm h N A g LD0 P0) :=
  Or.inl ((make_isLDL nb nb2 bs hnb hnb2 hbs o cm h N A g LD0 P0 hA).2.1 hd)

/-- `[[0,1],[1,0]]` is regular, but `isSingular()` is true for it: the 2×2 block has zeros on its diagonal. -/
theorem isSingular_violated (nb nb2 bs : Nat) (hbs : 2 ≤ bs) (o : Ord) (cm h : Bool) (eps : ℝ) (g LD0 : Nat → Nat → ℝ) (P0 : Nat → Nat) :
    let A : Nat → Nat → ℝ := fun i j => if i = j then 0 else 1
    (Matrix.of fun i j : Fin 2 => A i j).det = -1 ∧ isSingular eps 2 (make nb nb2 bs o cm h 2 A g LD0 P0) := by
  intro A
  have hα : 0 < alpha := by unfold alpha; positivity
  have hc : choose h 2 0 (fun i => if 0 ≤ i ∧ i < 2 then A i 0 else g i 0)
      (fun p i => if i ≤ p then (if i ≤ p ∧ p < 2 then A p i else g p i) else (if p ≤ i ∧ i < 2 then A i p else g i p)) = .two 1 := by
    have m1 : LU.maxAbs (fun z : ℝ => ‖z‖) (fun i => if 0 ≤ 0 + i ∧ 0 + i < 2 then A (0+i) 0 else g (0+i) 0) (2-0) = (1, 1) := by
      simp [LU.maxAbs, LU.maxAbsLoop, A]
    have m2 : (LU.maxAbs (fun z : ℝ => ‖z‖) (fun i => if 0 + i ≤ 1 then (if 0 + i ≤ 1 ∧ 1 < 2 then A 1 (0+i) else g 1 (0+i)) else
      (if 1 ≤ 0 + i ∧ 0 + i < 2 then A (0+i) 1 else g (0+i) 1)) (1-0)).1 = 1 := by
      simp [LU.maxAbs, LU.maxAbsLoop, A]
    unfold choose
    dsimp only
    rw [m1]
    dsimp only
    rw [m2]
    have hz : ‖reH h (A 0 0)‖ = 0 := by cases h <;> simp [reH, A]
    have hz1 : ‖reH h (A 1 1)‖ = 0 := by cases h <;> simp [reH, A]
    simp [hz, hz1, hα, not_le.mpr hα]
  refine ⟨by simp [Matrix.det_fin_two, A], Or.inr ⟨0, 0, by omega, by omega, ?_⟩⟩
  have e : (make nb nb2 bs o cm h 2 A g LD0 P0).A 0 0 = 0 := by
    unfold make decompose
    dsimp only
    rw [if_neg (by omega)]
    rw [nonBlock, if_pos (by omega), if_neg (by omega)]
    dsimp only
    rw [hc]
    dsimp only
    rw [nonBlock, if_neg (by omega)]
    unfold step2 swapRC step2cm step2rm
    dsimp only
    cases cm <;> cases h <;> simp [up, down, setE, A]
  rw [e]; simp

/-- A Hermitian matrix with a complex element that is regular. -/
example (g LD0 B : Nat → Nat → ℂ) (P0 : Nat → Nat) (nc : Nat) :
    let A : Nat → Nat → ℂ := fun i j => if i = j then 0 else if i < j then Complex.I else -Complex.I
    ∃ X, lDivEq 64 32 .cm true false false 2 nc (make 64 32 48 .cm true true 2 A g LD0 P0).A (make 64 32 48 .cm true true 2 A g LD0 P0).xD
      (make 64 32 48 .cm true true 2 A g LD0 P0).P B = some X ∧ SolM 2 nc A X B := by
  intro A
  refine lDiv_spec 64 32 48 64 32 (by decide) (by decide) (by decide) (by decide) (by decide) .cm true true false false 2 nc A g LD0 B P0
    (fun i j _ _ => ?_) ?_
  · simp only [A, cj, if_true]
    by_cases c1 : i = j
    · rw [if_pos c1, if_pos c1.symm]; simp
    · have c1' : ¬ j = i := fun e => c1 e.symm
      by_cases c2 : i < j
      · have c3 : ¬ j < i := by omega
        simp [c1, c1', c2, c3]
      · have c3 : j < i := by omega
        simp [c1, c1', c2, c3]
  · simp [Matrix.det_fin_two, A]

end
end TMV.LDL
