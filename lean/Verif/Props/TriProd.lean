import Verif.Model.TriProd
import Verif.Props.TriMul

set_option linter.unusedSectionVars false

/-! In-place products of triangles (C41) and triangle inverse. -/
namespace TMV.TriProd
open TMV.Tri TMV.TriMul
variable {K : Type _} [Field K] [DecidableEq K]

/-- What the in-place product `C = alpha*S*T` leaves behind (`S`, `T` are triangles of the old `C`). -/
def IsProd (α : K) (N : Nat) (S T C C' : Nat → Nat → K) : Prop :=
  ∀ i j, C' i j = if i < N ∧ j < N then α * ∑ k ∈ Finset.range N, S i k * T k j else C i j

theorem lower_col (ub : Bool) (C : Nat → Nat → K) (f : Nat → K) {N j : Nat} (hj : j < N) :
    ∑ k ∈ Finset.range N, f k * lowerMat ub C k j =
      f j * dia ub C j + ∑ k ∈ Finset.range (N-1-j), f (j+1+k) * C (j+1+k) j := by
  rw [sum_split _ (show j+1 ≤ N by omega), Finset.sum_range_succ, show N - (j+1) = N-1-j by omega]
  have z : ∑ k ∈ Finset.range j, f k * lowerMat ub C k j = 0 := by
    refine Finset.sum_eq_zero fun k hk => ?_
    have : k < j := by simpa using hk
    simp only [lowerMat]; rw [if_neg (by omega), if_neg (by omega), mul_zero]
  rw [z, zero_add]
  congr 1
  · simp [lowerMat, dia]
  · refine Finset.sum_congr rfl fun k _ => ?_
    simp only [lowerMat]; rw [if_pos (by omega)]

theorem upper_col (ub : Bool) (C : Nat → Nat → K) (f : Nat → K) {N j : Nat} (hj : j < N) :
    ∑ k ∈ Finset.range N, f k * upperMat ub C k j =
      f j * dia ub C j + ∑ k ∈ Finset.range j, f k * C k j := by
  rw [sum_split _ (show j+1 ≤ N by omega), Finset.sum_range_succ]
  have z : ∑ k ∈ Finset.range (N-(j+1)), f (j+1+k) * upperMat ub C (j+1+k) j = 0 := by
    refine Finset.sum_eq_zero fun k hk => ?_
    simp only [upperMat]; rw [if_neg (by omega), if_neg (by omega), mul_zero]
  rw [z, add_zero, add_comm]
  congr 1
  · simp [upperMat, dia]
  · refine Finset.sum_congr rfl fun k hk => ?_
    have : k < j := by simpa using hk
    simp only [upperMat]; rw [if_pos (by omega)]

theorem ulStep_spec (α : K) (o : Ord) (ua ub : Bool) (N j : Nat) (hj : j < N) (C : Nat → Nat → K) (i b : Nat) :
    ulStep α o ua ub N j C i b = if b = j ∧ i < N then
      α * ∑ k ∈ Finset.range N, upperMat ua C i k * lowerMat ub C k j else C i b := by
  unfold ulStep
  dsimp only
  by_cases hb : b = j
  · subst hb
    rw [lower_col ub C (fun k => upperMat ua C i k) hj]
    by_cases hi : i = b
    · subst hi
      rw [setE_self, if_pos ⟨rfl, hj⟩, add_comm]
      congr 2
      · simp [upperMat, dia]
      · refine Finset.sum_congr rfl fun k _ => ?_
        simp only [upperMat]; rw [if_pos (by omega)]
    · rw [setE_ne _ _ _ _ (by omega)]
      by_cases hlt : i < b
      · rw [if_neg (by omega), if_pos ⟨rfl, hlt⟩, if_pos ⟨rfl, hlt⟩, if_pos ⟨rfl, by omega⟩, mul_add]
        congr 1
        · simp only [upperMat]; rw [if_pos hlt]; ring
        · congr 1
          refine Finset.sum_congr rfl fun k _ => ?_
          rw [if_neg (by omega), if_neg (by omega)]
          simp only [upperMat]; rw [if_pos (by omega)]
      · by_cases hN : i < N
        · rw [if_pos ⟨rfl, by omega, hN⟩, if_pos ⟨rfl, hN⟩, upperV_spec, if_pos (by omega)]
          congr 1
          have : upperMat ua C i b = 0 := by simp only [upperMat]; rw [if_neg (by omega), if_neg hi]
          rw [this, zero_mul, zero_add]
          refine Finset.sum_congr rfl fun k _ => ?_
          rw [if_neg (by omega), if_neg (by omega), upperMat_shift, show b + 1 + (i - (b+1)) = i by omega]
          congr 1
          unfold upperMat
          dsimp only
          by_cases h1 : i < b+1+k
          · rw [if_pos h1, if_pos h1, if_neg (by omega), if_neg (by omega)]
          · rw [if_neg h1, if_neg h1]
            split
            · split
              · rfl
              · rw [if_neg (by omega), if_neg (by omega)]
            · rfl
        · rw [if_neg (by omega), if_neg (by omega), if_neg (by omega), if_neg (by omega)]
  · rw [setE_ne _ _ _ _ (by omega), if_neg (by omega), if_neg (by omega), if_neg (by omega), if_neg (by omega)]

theorem luStep_spec (α : K) (o : Ord) (ua ub : Bool) (N j : Nat) (hj : j < N) (C : Nat → Nat → K) (i b : Nat) :
    luStep α o ua ub N j C i b = if b = j ∧ i < N then
      α * ∑ k ∈ Finset.range N, lowerMat ua C i k * upperMat ub C k j else C i b := by
  unfold luStep
  dsimp only
  by_cases hb : b = j
  · subst hb
    rw [upper_col ub C (fun k => lowerMat ua C i k) hj]
    by_cases hi : i = b
    · subst hi
      rw [setE_self, if_pos ⟨rfl, hj⟩, add_comm]
      congr 2
      · simp [lowerMat, dia]
      · refine Finset.sum_congr rfl fun k hk => ?_
        have : k < i := by simpa using hk
        simp only [lowerMat]; rw [if_pos (by omega)]
    · rw [setE_ne _ _ _ _ (by omega)]
      by_cases hlt : i < b
      · rw [if_pos ⟨rfl, hlt⟩, if_pos ⟨rfl, by omega⟩, lowerV_spec, if_pos hlt]
        congr 1
        have : lowerMat ua C i b = 0 := by simp only [lowerMat]; rw [if_neg (by omega), if_neg hi]
        rw [this, zero_mul, zero_add]
        refine Finset.sum_congr rfl fun k hk => ?_
        have hk' : k < b := by simpa using hk
        rw [if_neg (by omega), if_neg (by omega)]
        congr 1
        unfold lowerMat
        dsimp only
        by_cases h1 : k < i
        · rw [if_pos h1, if_pos h1, if_neg (by omega), if_neg (by omega)]
        · rw [if_neg h1, if_neg h1]
          split
          · split
            · rfl
            · rw [if_neg (by omega), if_neg (by omega)]
          · rfl
      · rw [if_neg (by omega)]
        by_cases hN : i < N
        · rw [if_pos ⟨rfl, by omega, hN⟩, if_pos ⟨rfl, by omega, hN⟩, if_pos ⟨rfl, by omega⟩, mul_add]
          congr 1
          · simp only [lowerMat]; rw [if_pos (by omega)]; ring
          · congr 1
            refine Finset.sum_congr rfl fun k hk => ?_
            have hk' : k < b := by simpa using hk
            rw [if_neg (by omega), if_neg (by omega)]
            simp only [lowerMat]; rw [if_pos (by omega)]
        · rw [if_neg (by omega), if_neg (by omega), if_neg (by omega)]
  · rw [setE_ne _ _ _ _ (by omega), if_neg (by omega), if_neg (by omega), if_neg (by omega), if_neg (by omega)]

theorem ulCol_spec (α : K) (o : Ord) (ua ub : Bool) (N : Nat) (C : Nat → Nat → K) :
    IsProd α N (upperMat ua C) (lowerMat ub C) C (ulCol α o ua ub N C) := by
  have := up_inv (ulStep α o ua ub N) (fun r D => ∀ i j, D i j = if i < N ∧ j < r then
      α * ∑ k ∈ Finset.range N, upperMat ua C i k * lowerMat ub C k j else C i j) N 0 C
    (by intro i j; rw [if_neg (by omega)]) (by
      intro r D _ hr hD i j
      rw [ulStep_spec α o ua ub N r (by omega)]
      by_cases h : j = r ∧ i < N
      · obtain ⟨rfl, hi⟩ := h
        rw [if_pos ⟨rfl, hi⟩, if_pos ⟨hi, by omega⟩]
        congr 1
        rw [lower_col _ _ _ (by omega), lower_col _ _ _ (by omega)]
        -- columns ≥ r are still the old ones
        have old : ∀ a c, j ≤ c → D a c = C a c := fun a c hc => by rw [hD, if_neg (by omega)]
        congr 1
        · have e1 : upperMat ua D i j = upperMat ua C i j := by
            unfold upperMat; split
            · exact old _ _ (by omega)
            · split
              · subst i; rw [old _ _ (by omega)]
              · rfl
          rw [e1]; unfold dia; rw [old _ _ (by omega)]
        · refine Finset.sum_congr rfl fun k _ => ?_
          rw [old _ j (by omega)]
          congr 1
          unfold upperMat; split
          · exact old _ _ (by omega)
          · split
            · rename_i h2; subst h2; rw [old _ _ (by omega)]
            · rfl
      · rw [if_neg h, hD]
        by_cases h' : i < N ∧ j < r
        · rw [if_pos h', if_pos (by omega)]
        · rw [if_neg h', if_neg (by omega)])
  rw [Nat.zero_add] at this
  exact this

theorem luCol_spec (α : K) (o : Ord) (ua ub : Bool) (N : Nat) (C : Nat → Nat → K) :
    IsProd α N (lowerMat ua C) (upperMat ub C) C (luCol α o ua ub N C) := by
  have := down_inv (luStep α o ua ub N) (fun r D => ∀ i j, D i j = if i < N ∧ r ≤ j ∧ j < N then
      α * ∑ k ∈ Finset.range N, lowerMat ua C i k * upperMat ub C k j else C i j) N C
    (by intro i j; rw [if_neg (by omega)]) (by
      intro r D hr hD i j
      rw [luStep_spec α o ua ub N r (by omega)]
      by_cases h : j = r ∧ i < N
      · obtain ⟨rfl, hi⟩ := h
        rw [if_pos ⟨rfl, hi⟩, if_pos ⟨hi, by omega⟩]
        congr 1
        rw [upper_col _ _ _ (by omega), upper_col _ _ _ (by omega)]
        have old : ∀ a c, c ≤ j → D a c = C a c := fun a c hc => by rw [hD, if_neg (by omega)]
        congr 1
        · have e1 : lowerMat ua D i j = lowerMat ua C i j := by
            unfold lowerMat; split
            · exact old _ _ (by omega)
            · split
              · subst i; rw [old _ _ (by omega)]
              · rfl
          rw [e1]; unfold dia; rw [old _ _ (by omega)]
        · refine Finset.sum_congr rfl fun k hk => ?_
          have hk' : k < j := by simpa using hk
          rw [old _ j (by omega)]
          congr 1
          unfold lowerMat; split
          · exact old _ _ (by omega)
          · split
            · rename_i h2; subst h2; rw [old _ _ (by omega)]
            · rfl
      · rw [if_neg h, hD]
        by_cases h' : i < N ∧ r + 1 ≤ j ∧ j < N
        · rw [if_pos h', if_pos (by omega)]
        · rw [if_neg h', if_neg (by omega)])
  intro i j
  have := this i j
  simp only [Nat.zero_le, true_and] at this
  exact this

theorem tr_upper (ua : Bool) (C : Nat → Nat → K) (i j : Nat) : upperMat ua (tr C) i j = lowerMat ua C j i := by
  unfold upperMat lowerMat tr
  by_cases h : i < j
  · rw [if_pos h, if_pos h]
  · rw [if_neg h, if_neg h]
    by_cases h2 : i = j
    · subst h2; rfl
    · rw [if_neg h2, if_neg (by omega)]

theorem tr_lower (ua : Bool) (C : Nat → Nat → K) (i j : Nat) : lowerMat ua (tr C) i j = upperMat ua C j i := by
  rw [← tr_upper]; rfl

theorem IsProd.tr_ul {α : K} {N : Nat} {ua ub : Bool} {C D : Nat → Nat → K}
    (h : IsProd α N (upperMat ub (tr C)) (lowerMat ua (tr C)) (tr C) D) :
    IsProd α N (upperMat ua C) (lowerMat ub C) C (tr D) := by
  intro i j
  show D j i = _
  rw [h j i]
  by_cases hh : i < N ∧ j < N
  · rw [if_pos hh.symm, if_pos hh]
    congr 1
    refine Finset.sum_congr rfl fun k _ => ?_
    rw [tr_upper, tr_lower, mul_comm]
  · rw [if_neg (by omega), if_neg hh]; rfl

theorem IsProd.tr_lu {α : K} {N : Nat} {ua ub : Bool} {C D : Nat → Nat → K}
    (h : IsProd α N (lowerMat ub (tr C)) (upperMat ua (tr C)) (tr C) D) :
    IsProd α N (lowerMat ua C) (upperMat ub C) C (tr D) := by
  intro i j
  show D j i = _
  rw [h j i]
  by_cases hh : i < N ∧ j < N
  · rw [if_pos hh.symm, if_pos hh]
    congr 1
    refine Finset.sum_congr rfl fun k _ => ?_
    rw [tr_upper, tr_lower, mul_comm]
  · rw [if_neg (by omega), if_neg hh]; rfl


/-! ### Recursive block versions -/

theorem upperMat_sub_congr {ua : Bool} {C D : Nat → Nat → K} {k n : Nat}
    (h : ∀ i j, k ≤ i → i < n → k ≤ j → j < n → D i j = C i j) {a b : Nat} (ha : k + a < n) (hb : k + b < n) :
    upperMat ua (sub D k k) a b = upperMat ua C (k+a) (k+b) := by
  rw [upperMat_shift]; unfold upperMat
  rw [h _ _ (by omega) ha (by omega) hb, h _ _ (by omega) ha (by omega) ha]

theorem lowerMat_sub_congr {ua : Bool} {C D : Nat → Nat → K} {k n : Nat}
    (h : ∀ i j, k ≤ i → i < n → k ≤ j → j < n → D i j = C i j) {a b : Nat} (ha : k + a < n) (hb : k + b < n) :
    lowerMat ua (sub D k k) a b = lowerMat ua C (k+a) (k+b) := by
  rw [lowerMat_shift]; unfold lowerMat
  rw [h _ _ (by omega) ha (by omega) hb, h _ _ (by omega) ha (by omega) ha]

theorem ulRec_spec (nb nb2 : Nat) (hnb : 0 < nb) (hnb2 : 0 < nb2) (o : Ord) (crm st : Bool) :
    ∀ (fuel N : Nat) (ua ub : Bool) (α : K) (C : Nat → Nat → K), N < fuel →
      IsProd α N (upperMat ua C) (lowerMat ub C) C (ulRec nb nb2 o crm st fuel N ua ub α C) := by
  intro fuel
  induction fuel with
  | zero => intro N _ _ _ _ h; omega
  | succ fuel ih =>
    intro N ua ub α C hf
    unfold ulRec
    split_ifs with h1 h2
    · exact IsProd.tr_ul (ulCol_spec α o ub ua N (tr C))
    · exact ulCol_spec α o ua ub N C
    · obtain ⟨k1, k2⟩ := splitAt_spec nb N hnb (by omega)
      dsimp only
      generalize splitAt nb N = k at *
      have i1 := ih k ua ub α C (by omega)
      generalize ulRec nb nb2 o crm st fuel k ua ub α C = D1 at *
      generalize hC1 : paste C 0 0 k k D1 = C1
      have e1 : ∀ i j, C1 i j = if i < k ∧ j < k then
          α * ∑ l ∈ Finset.range k, upperMat ua C i l * lowerMat ub C l j else C i j := by
        intro i j; rw [← hC1, paste]
        by_cases h : i < k ∧ j < k
        · rw [if_pos (by omega), if_pos h, Nat.sub_zero, Nat.sub_zero, i1, if_pos h]
        · rw [if_neg (by omega), if_neg h]
      generalize hC2 : TriMul.addMul α k k (N-k) (sub C1 0 k) (sub C1 k 0) C1 = C2
      have e2 : ∀ i j, C2 i j = if i < k ∧ j < k then
          α * ∑ l ∈ Finset.range k, upperMat ua C i l * lowerMat ub C l j
            + α * ∑ l ∈ Finset.range (N-k), C i (k+l) * C (k+l) j else C i j := by
        intro i j; rw [← hC2, TriMul.addMul, e1]
        by_cases h : i < k ∧ j < k
        · rw [if_pos h, if_pos h, if_pos h]
          congr 2
          refine Finset.sum_congr rfl fun l _ => ?_
          simp only [sub, zero_add]
          rw [e1, e1, if_neg (by omega), if_neg (by omega)]
        · rw [if_neg h, if_neg h, if_neg h]
      have i3 := TriMul.upperRec_spec nb nb2 hnb hnb2 o crm st k (N-k+1) (N-k) false ua α (sub C2 k k) (sub C2 k 0) (by omega)
      generalize TriMul.upperRec nb nb2 o false crm st k (N-k+1) (N-k) ua α (sub C2 k k) (sub C2 k 0) = D3 at *
      generalize hC3 : paste C2 k 0 (N-k) k D3 = C3
      have f2 : ∀ i j, k ≤ i → i < N → k ≤ j → j < N → C2 i j = C i j := by
        intro i j _ _ _ _; rw [e2, if_neg (by omega)]
      have e3 : ∀ i j, C3 i j = if k ≤ i ∧ i < N ∧ j < k then
          α * ∑ l ∈ Finset.range (N-k), upperMat ua C i (k+l) * C (k+l) j else C2 i j := by
        intro i j; rw [← hC3, paste]
        by_cases h : k ≤ i ∧ i < N ∧ j < k
        · rw [if_pos (by omega), if_pos h, Nat.sub_zero, i3, if_pos (by omega)]
          congr 1
          refine Finset.sum_congr rfl fun l hl => ?_
          have hl' : l < N - k := by simpa using hl
          rw [upperMat_sub_congr f2 (by omega) (by omega), show k + (i-k) = i by omega]
          simp only [sub, zero_add]
          rw [e2, if_neg (by omega)]
        · rw [if_neg (by omega), if_neg h]
      have i4 := TriMul.upperRec_spec nb nb2 hnb hnb2 o crm st k (N-k+1) (N-k) false ub α (tr (sub C3 k k)) (tr (sub C3 0 k)) (by omega)
      generalize TriMul.upperRec nb nb2 o false crm st k (N-k+1) (N-k) ub α (tr (sub C3 k k)) (tr (sub C3 0 k)) = D4 at *
      generalize hC4 : paste C3 0 k k (N-k) (tr D4) = C4
      have f3 : ∀ i j, k ≤ i → i < N → k ≤ j → j < N → C3 i j = C i j := by
        intro i j _ _ _ _; rw [e3, if_neg (by omega), e2, if_neg (by omega)]
      have e4 : ∀ i j, C4 i j = if i < k ∧ k ≤ j ∧ j < N then
          α * ∑ l ∈ Finset.range (N-k), C i (k+l) * lowerMat ub C (k+l) j else C3 i j := by
        intro i j; rw [← hC4, paste]
        by_cases h : i < k ∧ k ≤ j ∧ j < N
        · rw [if_pos (by omega), if_pos h, Nat.sub_zero, tr, i4, if_pos (by omega)]
          congr 1
          refine Finset.sum_congr rfl fun l hl => ?_
          have hl' : l < N - k := by simpa using hl
          rw [tr_upper, lowerMat_sub_congr f3 (by omega) (by omega), show k + (j-k) = j by omega, mul_comm]
          simp only [sub, tr, zero_add]
          rw [e3, if_neg (by omega), e2, if_neg (by omega)]
        · rw [if_neg (by omega), if_neg h]
      have i5 := ih (N-k) ua ub α (sub C4 k k) (by omega)
      generalize ulRec nb nb2 o crm st fuel (N-k) ua ub α (sub C4 k k) = D5 at *
      have f4 : ∀ i j, k ≤ i → i < N → k ≤ j → j < N → C4 i j = C i j := by
        intro i j _ _ _ _; rw [e4, if_neg (by omega), e3, if_neg (by omega), e2, if_neg (by omega)]
      intro i j
      rw [paste]
      by_cases hij : i < N ∧ j < N
      · rw [if_pos hij, sum_split _ (le_of_lt k2)]
        by_cases hi : i < k
        · rw [if_neg (by omega), e4]
          by_cases hj : j < k
          · rw [if_neg (by omega), e3, if_neg (by omega), e2, if_pos ⟨hi, hj⟩, ← mul_add]
            congr 2
            refine Finset.sum_congr rfl fun l _ => ?_
            simp only [upperMat, lowerMat]; rw [if_pos (by omega), if_pos (by omega)]
          · rw [if_pos (by omega)]
            congr 1
            have z : ∑ l ∈ Finset.range k, upperMat ua C i l * lowerMat ub C l j = 0 := by
              refine Finset.sum_eq_zero fun l hl => ?_
              have : l < k := by simpa using hl
              simp only [lowerMat]; rw [if_neg (by omega), if_neg (by omega), mul_zero]
            rw [z, zero_add]
            refine Finset.sum_congr rfl fun l _ => ?_
            simp only [upperMat]; rw [if_pos (by omega)]
        · have z : ∑ l ∈ Finset.range k, upperMat ua C i l * lowerMat ub C l j = 0 := by
            refine Finset.sum_eq_zero fun l hl => ?_
            have : l < k := by simpa using hl
            simp only [upperMat]; rw [if_neg (by omega), if_neg (by omega), zero_mul]
          rw [z, zero_add]
          by_cases hj : j < k
          · rw [if_neg (by omega), e4, if_neg (by omega), e3, if_pos (by omega)]
            congr 1
            refine Finset.sum_congr rfl fun l _ => ?_
            simp only [lowerMat]; rw [if_pos (by omega)]
          · rw [if_pos (by omega), i5, if_pos (by omega)]
            congr 1
            refine Finset.sum_congr rfl fun l hl => ?_
            have hl' : l < N - k := by simpa using hl
            rw [upperMat_sub_congr f4 (by omega) (by omega), lowerMat_sub_congr f4 (by omega) (by omega),
              show k + (i-k) = i by omega, show k + (j-k) = j by omega]
      · rw [if_neg hij, if_neg (by omega), e4, if_neg (by omega), e3, if_neg (by omega), e2, if_neg (by omega)]

theorem luRec_spec (nb nb2 : Nat) (hnb : 0 < nb) (hnb2 : 0 < nb2) (o : Ord) (crm st : Bool) :
    ∀ (fuel N : Nat) (ua ub : Bool) (α : K) (C : Nat → Nat → K), N < fuel →
      IsProd α N (lowerMat ua C) (upperMat ub C) C (luRec nb nb2 o crm st fuel N ua ub α C) := by
  intro fuel
  induction fuel with
  | zero => intro N _ _ _ _ h; omega
  | succ fuel ih =>
    intro N ua ub α C hf
    unfold luRec
    split_ifs with h1 h2
    · exact IsProd.tr_lu (luCol_spec α o ub ua N (tr C))
    · exact luCol_spec α o ua ub N C
    · obtain ⟨k1, k2⟩ := splitAt_spec nb N hnb (by omega)
      dsimp only
      generalize splitAt nb N = k at *
      have i1 := ih (N-k) ua ub α (sub C k k) (by omega)
      generalize luRec nb nb2 o crm st fuel (N-k) ua ub α (sub C k k) = D1 at *
      generalize hC1 : paste C k k (N-k) (N-k) D1 = C1
      have e1 : ∀ i j, C1 i j = if k ≤ i ∧ i < N ∧ k ≤ j ∧ j < N then
          α * ∑ l ∈ Finset.range (N-k), lowerMat ua C i (k+l) * upperMat ub C (k+l) j else C i j := by
        intro i j; rw [← hC1, paste]
        by_cases h : k ≤ i ∧ i < N ∧ k ≤ j ∧ j < N
        · rw [if_pos (by omega), if_pos h, i1, if_pos (by omega)]
          congr 1
          refine Finset.sum_congr rfl fun l _ => ?_
          rw [lowerMat_shift, upperMat_shift, show k + (i-k) = i by omega, show k + (j-k) = j by omega]
        · rw [if_neg (by omega), if_neg h]
      generalize hC2 : paste C1 k k (N-k) (N-k) (TriMul.addMul α (N-k) (N-k) k (sub C1 k 0) (sub C1 0 k) (sub C1 k k)) = C2
      have e2 : ∀ i j, C2 i j = if k ≤ i ∧ i < N ∧ k ≤ j ∧ j < N then
          α * ∑ l ∈ Finset.range (N-k), lowerMat ua C i (k+l) * upperMat ub C (k+l) j
            + α * ∑ l ∈ Finset.range k, C i l * C l j else C i j := by
        intro i j; rw [← hC2, paste]
        by_cases h : k ≤ i ∧ i < N ∧ k ≤ j ∧ j < N
        · rw [if_pos (by omega), if_pos h, TriMul.addMul, if_pos (by omega)]
          simp only [sub, zero_add]
          rw [show k + (i-k) = i by omega, show k + (j-k) = j by omega, e1, if_pos h]
          congr 2
          refine Finset.sum_congr rfl fun l hl => ?_
          have : l < k := by simpa using hl
          rw [e1, e1, if_neg (by omega), if_neg (by omega)]
        · rw [if_neg (by omega), if_neg h, e1, if_neg h]
      have i3 := TriMul.lowerRec_spec nb nb2 hnb hnb2 o crm st (N-k) (k+1) k false ua α C2 (sub C2 0 k) (by omega)
      generalize TriMul.lowerRec nb nb2 o false crm st (N-k) (k+1) k ua α C2 (sub C2 0 k) = D3 at *
      generalize hC3 : paste C2 0 k k (N-k) D3 = C3
      have g2 : ∀ i j, i < k → j < k → lowerMat ua C2 i j = lowerMat ua C i j := by
        intro i j hi hj
        have o2 : ∀ i j, i < k → j < k → C2 i j = C i j := by
          intro i j _ _; rw [e2, if_neg (by omega)]
        unfold lowerMat; rw [o2 _ _ hi hj, o2 _ _ hi hi]
      have e3 : ∀ i j, C3 i j = if i < k ∧ k ≤ j ∧ j < N then
          α * ∑ l ∈ Finset.range k, lowerMat ua C i l * C l j else C2 i j := by
        intro i j; rw [← hC3, paste]
        by_cases h : i < k ∧ k ≤ j ∧ j < N
        · rw [if_pos (by omega), if_pos h, Nat.sub_zero, i3, if_pos (by omega)]
          congr 1
          refine Finset.sum_congr rfl fun l hl => ?_
          have hl' : l < k := by simpa using hl
          rw [g2 _ _ h.1 hl']
          simp only [sub, zero_add]
          rw [show k + (j-k) = j by omega, e2, if_neg (by omega)]
        · rw [if_neg (by omega), if_neg h]
      have i4 := TriMul.lowerRec_spec nb nb2 hnb hnb2 o crm st (N-k) (k+1) k false ub α (tr C3) (tr (sub C3 k 0)) (by omega)
      generalize TriMul.lowerRec nb nb2 o false crm st (N-k) (k+1) k ub α (tr C3) (tr (sub C3 k 0)) = D4 at *
      generalize hC4 : paste C3 k 0 (N-k) k (tr D4) = C4
      have g3 : ∀ i j, i < k → j < k → upperMat ub C3 i j = upperMat ub C i j := by
        intro i j hi hj
        have o3 : ∀ i j, i < k → j < k → C3 i j = C i j := by
          intro i j _ _; rw [e3, if_neg (by omega), e2, if_neg (by omega)]
        unfold upperMat; rw [o3 _ _ hi hj, o3 _ _ hi hi]
      have e4 : ∀ i j, C4 i j = if k ≤ i ∧ i < N ∧ j < k then
          α * ∑ l ∈ Finset.range k, C i l * upperMat ub C l j else C3 i j := by
        intro i j; rw [← hC4, paste]
        by_cases h : k ≤ i ∧ i < N ∧ j < k
        · rw [if_pos (by omega), if_pos h, Nat.sub_zero, tr, i4, if_pos (by omega)]
          congr 1
          refine Finset.sum_congr rfl fun l hl => ?_
          have hl' : l < k := by simpa using hl
          rw [tr_lower, g3 _ _ hl' h.2.2, mul_comm]
          simp only [sub, tr, zero_add]
          rw [show k + (i-k) = i by omega, e3, if_neg (by omega), e2, if_neg (by omega)]
        · rw [if_neg (by omega), if_neg h]
      have i5 := ih k ua ub α C4 (by omega)
      generalize luRec nb nb2 o crm st fuel k ua ub α C4 = D5 at *
      have o4 : ∀ i j, i < k → j < k → C4 i j = C i j := by
        intro i j _ _; rw [e4, if_neg (by omega), e3, if_neg (by omega), e2, if_neg (by omega)]
      intro i j
      rw [paste]
      by_cases hij : i < N ∧ j < N
      · rw [if_pos hij, sum_split _ (le_of_lt k2)]
        by_cases hi : i < k
        · have z : ∑ l ∈ Finset.range (N-k), lowerMat ua C i (k+l) * upperMat ub C (k+l) j = 0 := by
            refine Finset.sum_eq_zero fun l hl => ?_
            simp only [lowerMat]; rw [if_neg (by omega), if_neg (by omega), zero_mul]
          rw [z, add_zero]
          by_cases hj : j < k
          · rw [if_pos (by omega), i5, if_pos (by omega), Nat.sub_zero, Nat.sub_zero]
            congr 1
            refine Finset.sum_congr rfl fun l hl => ?_
            have hl' : l < k := by simpa using hl
            unfold lowerMat upperMat
            rw [o4 _ _ hi hl', o4 _ _ hi hi, o4 _ _ hl' hj, o4 _ _ hl' hl']
          · rw [if_neg (by omega), e4, if_neg (by omega), e3, if_pos (by omega)]
            congr 1
            refine Finset.sum_congr rfl fun l hl => ?_
            have hl' : l < k := by simpa using hl
            simp only [upperMat]; rw [if_pos (by omega)]
        · rw [if_neg (by omega), e4]
          by_cases hj : j < k
          · rw [if_pos (by omega)]
            congr 1
            have z : ∑ l ∈ Finset.range (N-k), lowerMat ua C i (k+l) * upperMat ub C (k+l) j = 0 := by
              refine Finset.sum_eq_zero fun l hl => ?_
              simp only [upperMat]; rw [if_neg (by omega), if_neg (by omega), mul_zero]
            rw [z, add_zero]
            refine Finset.sum_congr rfl fun l hl => ?_
            have hl' : l < k := by simpa using hl
            simp only [lowerMat]; rw [if_pos (by omega)]
          · rw [if_neg (by omega), e3, if_neg (by omega), e2, if_pos (by omega), ← mul_add, add_comm]
            congr 2
            refine Finset.sum_congr rfl fun l hl => ?_
            have hl' : l < k := by simpa using hl
            simp only [lowerMat, upperMat]; rw [if_pos (by omega), if_pos (by omega)]
      · rw [if_neg hij, if_neg (by omega), e4, if_neg (by omega), e3, if_neg (by omega), e2, if_neg (by omega)]

/-- C41: `m = alpha * m.upperTri() * m.lowerTri()` (any unit/non-unit combination) needs no temporary and
stores exactly the product of the two old triangles in the `N`×`N` matrix, and nothing else. -/
theorem multUL_spec (nb nb2 : Nat) (hnb : 0 < nb) (hnb2 : 0 < nb2) (o : Ord) (crm st ua ub : Bool) (N : Nat)
    (α : K) (C : Nat → Nat → K) :
    IsProd α N (upperMat ua C) (lowerMat ub C) C (multUL nb nb2 o crm st ua ub N α C) := by
  unfold multUL
  split_ifs with h1 h2
  · intro i j; rw [if_neg (by omega)]
  · intro i j; rw [h2, zero_mul]
  · exact ulRec_spec nb nb2 hnb hnb2 o crm st (N+1) N ua ub α C (by omega)

/-- C41: `m = alpha * m.lowerTri() * m.upperTri()` in place. -/
theorem multLU_spec (nb nb2 : Nat) (hnb : 0 < nb) (hnb2 : 0 < nb2) (o : Ord) (crm st ua ub : Bool) (N : Nat)
    (α : K) (C : Nat → Nat → K) :
    IsProd α N (lowerMat ua C) (upperMat ub C) C (multLU nb nb2 o crm st ua ub N α C) := by
  unfold multLU
  split_ifs with h1 h2
  · intro i j; rw [if_neg (by omega)]
  · intro i j; rw [h2, zero_mul]
  · exact luRec_spec nb nb2 hnb hnb2 o crm st (N+1) N ua ub α C (by omega)

/-! ### Inverse of a triangle -/

/-- `V` is a right inverse of `T` (size `N`). -/
def IsInv (N : Nat) (T V : Nat → Nat → K) : Prop :=
  ∀ i j, i < N → j < N → ∑ k ∈ Finset.range N, T i k * V k j = if i = j then 1 else 0

theorem upperMat_congr {ua : Bool} {C D : Nat → Nat → K} {n : Nat}
    (h : ∀ i j, i < n → j < n → D i j = C i j) {a b : Nat} (ha : a < n) (hb : b < n) :
    upperMat ua D a b = upperMat ua C a b := by
  unfold upperMat; rw [h _ _ ha hb, h _ _ ha ha]

theorem triInv_spec (nb mb mb2 : Nat) (hnb : 0 < nb) (hmb : 0 < mb) (hmb2 : 0 < mb2) (o : Ord) (brm st ua : Bool) :
    ∀ (fuel N : Nat) (U : Nat → Nat → K), 0 < N → N < fuel →
      (triInv nb mb mb2 o brm st ua fuel N U = none ↔ ua = false ∧ ∃ i < N, U i i = 0) ∧
      ∀ V, triInv nb mb mb2 o brm st ua fuel N U = some V →
        IsInv N (upperMat ua U) (upperMat ua V) ∧
        ∀ i j, ¬ (j < N ∧ (i < j ∨ (i = j ∧ ua = false))) → V i j = U i j := by
  intro fuel
  induction fuel with
  | zero => intro N _ _ h; omega
  | succ fuel ih =>
    intro N U hN hf
    unfold triInv
    by_cases h1 : N = 1
    · subst h1
      rw [if_pos rfl]
      cases ua
      · rw [if_neg (by simp)]
        by_cases h0 : U 0 0 = 0
        · rw [if_pos h0]
          exact ⟨⟨fun _ => ⟨rfl, 0, by omega, h0⟩, fun _ => rfl⟩, by simp⟩
        · rw [if_neg h0]
          refine ⟨⟨fun h => by simp at h, ?_⟩, ?_⟩
          · rintro ⟨_, i, hi, hz⟩
            obtain rfl : i = 0 := by omega
            exact absurd hz h0
          · rintro V hV
            obtain rfl := Option.some.inj hV
            refine ⟨?_, ?_⟩
            · intro i j hi hj
              obtain rfl : i = 0 := by omega
              obtain rfl : j = 0 := by omega
              simp [upperMat, setE_self, h0]
            · intro i j hij
              exact setE_ne _ _ _ _ (by simp at hij; omega)
      · rw [if_pos rfl]
        refine ⟨⟨fun h => by simp at h, by simp⟩, ?_⟩
        rintro V hV
        obtain rfl := Option.some.inj hV
        refine ⟨?_, fun _ _ _ => rfl⟩
        intro i j hi hj
        obtain rfl : i = 0 := by omega
        obtain rfl : j = 0 := by omega
        simp [upperMat]
    · rw [if_neg h1]
      obtain ⟨k1, k2⟩ := splitAt_spec nb N hnb (by omega)
      dsimp only
      generalize splitAt nb N = k at *
      obtain ⟨n0, s0⟩ := ih k U k1 (by omega)
      obtain ⟨n1, s1⟩ := ih (N-k) (sub U k k) (by omega) (by omega)
      have hex : (∃ i < N, U i i = 0) ↔ (∃ i < k, U i i = 0) ∨ ∃ i < N-k, sub U k k i i = 0 := by
        constructor
        · rintro ⟨i, hi, hz⟩
          by_cases hik : i < k
          · exact .inl ⟨i, hik, hz⟩
          · refine .inr ⟨i-k, by omega, ?_⟩
            simp only [sub]; rw [show k + (i-k) = i by omega]; exact hz
        · rintro (⟨i, hi, hz⟩ | ⟨i, hi, hz⟩)
          · exact ⟨i, by omega, hz⟩
          · exact ⟨k+i, by omega, hz⟩
      rw [hex]
      cases hr0 : triInv nb mb mb2 o brm st ua fuel k U with
      | none =>
        have := n0.1 hr0
        exact ⟨⟨fun _ => ⟨this.1, .inl this.2⟩, fun _ => rfl⟩, by simp⟩
      | some V0 =>
        cases hr1 : triInv nb mb mb2 o brm st ua fuel (N-k) (sub U k k) with
        | none =>
          have := n1.1 hr1
          exact ⟨⟨fun _ => ⟨this.1, .inr this.2⟩, fun _ => rfl⟩, by simp⟩
        | some V1 =>
          obtain ⟨inv0, fr0⟩ := s0 V0 hr0
          obtain ⟨inv1, fr1⟩ := s1 V1 hr1
          refine ⟨⟨fun h => by simp at h, ?_⟩, ?_⟩
          · rintro ⟨hu, h | h⟩
            · exact absurd (n0.2 ⟨hu, h⟩) (by simp [hr0])
            · exact absurd (n1.2 ⟨hu, h⟩) (by simp [hr1])
          intro V hV
          simp only [Option.bind_some, Option.map_some] at hV
          have hV := Option.some.inj hV
          generalize hW0 : paste (paste U 0 0 k k V0) k k (N-k) (N-k) V1 = W0 at hV
          have w0 : ∀ i j, W0 i j = if i < k ∧ j < k then V0 i j
              else if k ≤ i ∧ i < N ∧ k ≤ j ∧ j < N then V1 (i-k) (j-k) else U i j := by
            intro i j; rw [← hW0, paste, paste]
            by_cases h : i < k ∧ j < k
            · rw [if_neg (by omega), if_pos (by omega), if_pos h, Nat.sub_zero, Nat.sub_zero]
            · rw [if_neg h]
              by_cases h' : k ≤ i ∧ i < N ∧ k ≤ j ∧ j < N
              · rw [if_pos (by omega), if_pos h']
              · rw [if_neg (by omega), if_neg (by omega), if_neg h']
          have i2 := TriMul.upperRec_spec mb mb2 hmb hmb2 o brm st (N-k) (k+1) k false ua (-1) W0 (sub W0 0 k) (by omega)
          generalize TriMul.upperRec mb mb2 o false brm st (N-k) (k+1) k ua (-1) W0 (sub W0 0 k) = D2 at *
          generalize hW1 : paste W0 0 k k (N-k) D2 = W1 at hV
          have w1 : ∀ i j, W1 i j = if i < k ∧ k ≤ j ∧ j < N then
              -∑ l ∈ Finset.range k, upperMat ua V0 i l * U l j else W0 i j := by
            intro i j; rw [← hW1, paste]
            by_cases h : i < k ∧ k ≤ j ∧ j < N
            · rw [if_pos (by omega), if_pos h, i2, if_pos (by omega), neg_one_mul]
              congr 1
              refine Finset.sum_congr rfl fun l hl => ?_
              have hl' : l < k := by simpa using hl
              rw [Nat.sub_zero, upperMat_congr (D := W0) (C := V0) (n := k) (fun i j hi hj => by rw [w0, if_pos ⟨hi, hj⟩]) h.1 hl']
              simp only [sub, zero_add]
              rw [w0, if_neg (by omega), if_neg (by omega), show k + (j-k) = j by omega]
            · rw [if_neg (by omega), if_neg h]
          have i3 := TriMul.lowerRec_spec mb mb2 hmb hmb2 o brm st k (N-k+1) (N-k) false ua 1
            (tr (sub W1 k k)) (tr (sub W1 0 k)) (by omega)
          generalize TriMul.lowerRec mb mb2 o false brm st k (N-k+1) (N-k) ua 1
            (tr (sub W1 k k)) (tr (sub W1 0 k)) = D3 at *
          have w2 : ∀ i j, V i j = if i < k ∧ k ≤ j ∧ j < N then
              -∑ m ∈ Finset.range (N-k), upperMat ua V1 m (j-k) * ∑ l ∈ Finset.range k, upperMat ua V0 i l * U l (k+m)
              else W0 i j := by
            intro i j; rw [← hV, paste]
            by_cases h : i < k ∧ k ≤ j ∧ j < N
            · rw [if_pos (by omega), if_pos h, tr, i3, if_pos (by omega), one_mul, ← Finset.sum_neg_distrib]
              refine Finset.sum_congr rfl fun m hm => ?_
              have hm' : m < N-k := by simpa using hm
              rw [tr_lower, upperMat_congr (C := V1) (n := N-k) (fun a b ha hb => by
                  simp only [sub]; rw [w1, if_neg (by omega), w0, if_neg (by omega), if_pos (by omega),
                    show k+a-k = a by omega, show k+b-k = b by omega]) hm' (by omega)]
              simp only [sub, zero_add, tr]
              rw [w1, if_pos (by omega), Nat.sub_zero, mul_neg]
            · rw [if_neg (by omega), if_neg h, w1, if_neg h]
          have u00 : ∀ i j, i < k → j < k → upperMat ua V i j = upperMat ua V0 i j := fun i j hi hj =>
            upperMat_congr (n := k) (fun a b ha hb => by rw [w2, if_neg (by omega), w0, if_pos ⟨ha, hb⟩]) hi hj
          have u11 : ∀ i j, i < N-k → j < N-k → upperMat ua V (k+i) (k+j) = upperMat ua V1 i j := by
            intro i j hi hj
            rw [← upperMat_shift]
            exact upperMat_congr (n := N-k) (fun a b ha hb => by
              simp only [sub]
              rw [w2, if_neg (by omega), w0, if_neg (by omega), if_pos (by omega),
                show k+a-k = a by omega, show k+b-k = b by omega]) hi hj
          have u10 : ∀ (W : Nat → Nat → K) i j, j < k → upperMat ua W (k+i) j = 0 := by
            intro W i j hj; simp only [upperMat]; rw [if_neg (by omega), if_neg (by omega)]
          refine ⟨?_, ?_⟩
          · intro i j hi hj
            rw [sum_split _ (le_of_lt k2)]
            by_cases hik : i < k
            · by_cases hjk : j < k
              · have z : ∑ l ∈ Finset.range (N-k), upperMat ua U i (k+l) * upperMat ua V (k+l) j = 0 :=
                  Finset.sum_eq_zero fun l _ => by rw [u10 V l j hjk, mul_zero]
                rw [z, add_zero, ← inv0 i j hik hjk]
                refine Finset.sum_congr rfl fun l hl => ?_
                have hl' : l < k := by simpa using hl
                rw [u00 l j hl' hjk]
              · rw [if_neg (by omega)]
                obtain ⟨c, rfl⟩ : ∃ c, j = k + c := ⟨j-k, by omega⟩
                have a1 : ∑ l ∈ Finset.range k, upperMat ua U i l * upperMat ua V l (k+c) =
                    -∑ m ∈ Finset.range (N-k), upperMat ua V1 m c * U i (k+m) := by
                  have : ∀ l ∈ Finset.range k, upperMat ua U i l * upperMat ua V l (k+c) =
                      -∑ m ∈ Finset.range (N-k), upperMat ua V1 m c *
                        (upperMat ua U i l * ∑ p ∈ Finset.range k, upperMat ua V0 l p * U p (k+m)) := by
                    intro l hl
                    have hl' : l < k := by simpa using hl
                    have : upperMat ua V l (k+c) = V l (k+c) := by unfold upperMat; rw [if_pos (by omega)]
                    rw [this, w2, if_pos (by omega), mul_neg, Finset.mul_sum, show k+c-k = c by omega]
                    congr 1
                    refine Finset.sum_congr rfl fun m _ => ?_
                    ring
                  rw [Finset.sum_congr rfl this, Finset.sum_neg_distrib, Finset.sum_comm]
                  congr 1
                  refine Finset.sum_congr rfl fun m _ => ?_
                  rw [← Finset.mul_sum]
                  congr 1
                  simp only [Finset.mul_sum]
                  rw [Finset.sum_comm]
                  have : ∀ p ∈ Finset.range k, ∑ l ∈ Finset.range k, upperMat ua U i l * (upperMat ua V0 l p * U p (k+m))
                      = (if i = p then 1 else 0) * U p (k+m) := by
                    intro p hp
                    rw [← inv0 i p hik (by simpa using hp), Finset.sum_mul]
                    exact Finset.sum_congr rfl fun l _ => by ring
                  rw [Finset.sum_congr rfl this]
                  simp [hik]
                rw [a1, neg_add_eq_zero]
                refine Finset.sum_congr rfl fun m hm => ?_
                have hm' : m < N-k := by simpa using hm
                rw [u11 m c hm' (by omega), mul_comm]
                congr 1
                unfold upperMat; rw [if_pos (by omega)]
            · obtain ⟨a, rfl⟩ : ∃ a, i = k + a := ⟨i-k, by omega⟩
              have z : ∑ l ∈ Finset.range k, upperMat ua U (k+a) l * upperMat ua V l j = 0 :=
                Finset.sum_eq_zero fun l hl => by rw [u10 U a l (by simpa using hl), zero_mul]
              rw [z, zero_add]
              by_cases hjk : j < k
              · rw [if_neg (by omega)]
                exact Finset.sum_eq_zero fun l _ => by rw [u10 V l j hjk, mul_zero]
              · obtain ⟨c, rfl⟩ : ∃ c, j = k + c := ⟨j-k, by omega⟩
                have := inv1 a c (by omega) (by omega)
                simp only [add_right_inj]
                rw [← this]
                refine Finset.sum_congr rfl fun l hl => ?_
                rw [u11 l c (by simpa using hl) (by omega), upperMat_shift]
          · intro i j hij
            rw [w2, if_neg (by omega), w0]
            by_cases hk : i < k ∧ j < k
            · rw [if_pos hk]; exact fr0 i j (fun ⟨_, b⟩ => hij ⟨by omega, b⟩)
            · rw [if_neg hk]
              by_cases hk' : k ≤ i ∧ i < N ∧ k ≤ j ∧ j < N
              · rw [if_pos hk', fr1 (i-k) (j-k) (fun ⟨_, b⟩ => hij ⟨by omega, b.imp (by omega) (And.imp_left (by omega))⟩)]
                simp only [sub]; rw [show k + (i-k) = i by omega, show k + (j-k) = j by omega]
              · rw [if_neg hk']

/-- `UpperTriMatrix::invertSelf`: throws exactly when a (non-unit) diagonal element is zero; otherwise the
triangle now holds the inverse and neither the other triangle nor a unit diagonal was touched. -/
theorem triInverse_spec (nb mb mb2 : Nat) (hnb : 0 < nb) (hmb : 0 < mb) (hmb2 : 0 < mb2) (o : Ord) (brm st ua : Bool)
    (N : Nat) (U : Nat → Nat → K) :
    (triInverse nb mb mb2 o brm st ua N U = none ↔ ua = false ∧ ∃ i < N, U i i = 0) ∧
    ∀ V, triInverse nb mb mb2 o brm st ua N U = some V →
      IsInv N (upperMat ua U) (upperMat ua V) ∧
      ∀ i j, ¬ (j < N ∧ (i < j ∨ (i = j ∧ ua = false))) → V i j = U i j := by
  unfold triInverse
  split
  · exact triInv_spec nb mb mb2 hnb hmb hmb2 o brm st ua (N+1) N U (by omega) (by omega)
  · obtain rfl : N = 0 := by omega
    refine ⟨⟨by simp, by simp⟩, ?_⟩
    rintro V hV
    obtain rfl := Option.some.inj hV
    exact ⟨fun i j h => by omega, fun _ _ _ => rfl⟩

end TMV.TriProd
