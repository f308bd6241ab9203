import Verif.Props.LDLDiv
import Verif.Props.SymMM
import Verif.Props.TriProd

/-! C76: the inverse of symmetric and Hermitian matrices through their LDL decomposition. -/
namespace TMV.LDL
noncomputable section
open Classical
open Tri (Ord sub paste)
open SymRK (Updated RealDiag)
variable {K : Type} [RCLike K]

theorem pseudoLMult_aux (h mc : Bool) (N nc : Nat) (D xD : Nat → K) (hb : Blocks N xD)
    (hD : h = true → ∀ k, k < N → RCLike.im (D k) = 0) : ∀ (fuel i : Nat) (m : Nat → Nat → K), N ≤ fuel + i →
    (i = 0 ∨ N ≤ i ∨ xD (i-1) = 0) → ∀ k c, pseudoLMult h mc N nc D xD fuel i m k c =
      if i ≤ k ∧ k < N ∧ c < nc then (if i < k then xD (k-1) * m (k-1) c else 0) + D k * m k c +
        (if k + 1 < N then cj h (xD k) * m (k+1) c else 0) else m k c := by
  intro fuel
  induction fuel with
  | zero => intro i m hf _ k c; rw [if_neg (by omega)]; rfl
  | succ fuel ih =>
    intro i m hf hi k c
    unfold pseudoLMult
    by_cases hiN : i < N
    swap
    · rw [if_neg hiN, if_neg (by omega)]
    rw [if_pos hiN]
    by_cases c1 : i = N - 1 ∨ xD i = 0
    · rw [if_pos c1, ih (i+1) _ (by omega) (by
        rcases c1 with c1 | c1
        · right; left; omega
        · right; right; simpa using c1), reH_real (fun hh => hD hh i hiN)]
      by_cases cc : i ≤ k ∧ k < N ∧ c < nc
      swap
      · rw [if_neg cc, if_neg (by omega), if_neg (by omega)]
      rw [if_pos cc]
      by_cases hki : k = i
      · subst hki
        have : (if k + 1 < N then cj h (xD k) * m (k+1) c else 0) = 0 := by
          rcases c1 with c1 | c1
          · rw [if_neg (by omega)]
          · rw [c1]; simp
        rw [this, if_neg (by omega), if_pos ⟨rfl, cc.2.2⟩, if_neg (by omega)]
        ring
      · rw [if_pos (by omega), if_neg (by omega : ¬ (k = i ∧ c < nc)), if_neg (by omega : ¬ (k + 1 = i ∧ c < nc))]
        congr 2
        rw [if_pos (by omega : i < k)]
        by_cases c3 : i + 1 < k
        · rw [if_pos c3, if_neg (by omega)]
        · rw [if_neg c3]
          have : k - 1 = i := by omega
          rw [this]
          rcases c1 with c1 | c1
          · omega
          · rw [c1, zero_mul]
    · rw [if_neg c1]
      push Not at c1
      have hi1 : i + 1 < N := by omega
      have hb' : i + 2 < N → xD (i+1) = 0 := fun h2 => hb i h2 c1.2
      rw [ih (i+2) _ (by omega) (by
        by_cases h2 : i + 2 < N
        · right; right; exact hb' h2
        · right; left; omega)]
      have sp := symLMult2_spec h mc nc i (D i) (D (i+1)) (xD i) (fun hh => hD hh i hiN) (fun hh => hD hh (i+1) hi1) m
      by_cases cc : i ≤ k ∧ k < N ∧ c < nc
      swap
      · rw [if_neg cc, if_neg (by omega), sp, if_neg (by omega), if_neg (by omega)]
      rw [if_pos cc]
      by_cases hki : k = i
      · subst hki
        rw [if_neg (by omega), sp, if_pos ⟨rfl, cc.2.2⟩, if_neg (by omega), if_pos hi1, zero_add]
      · by_cases hki1 : k = i + 1
        · subst hki1
          have : (if i + 1 + 1 < N then cj h (xD (i+1)) * m (i+1+1) c else 0) = 0 := by
            by_cases h2 : i + 2 < N
            · rw [hb' h2]; simp
            · rw [if_neg h2]
          rw [if_neg (by omega), sp, if_neg (by omega), if_pos ⟨rfl, cc.2.2⟩, if_pos (by omega), this, Nat.add_sub_cancel]
          ring
        · have e : ∀ q, i + 2 ≤ q → symLMult2 h mc nc i (D i) (D (i+1)) (xD i) m q c = m q c := fun q hq => by
            rw [sp, if_neg (by omega), if_neg (by omega)]
          rw [if_pos (by omega), e k (by omega), e (k+1) (by omega)]
          congr 2
          rw [if_pos (by omega : i < k)]
          by_cases c3 : i + 2 < k
          · rw [if_pos c3, e (k-1) (by omega)]
          · rw [if_neg c3]
            have : k - 1 = i + 1 := by omega
            rw [this, hb' (by omega), zero_mul]

/-- `PseudoDiag_LMultEq` multiplies by the block-diagonal matrix. -/
theorem pseudoLMult_spec (h mc : Bool) (N nc : Nat) (D xD : Nat → K) (hb : Blocks N xD)
    (hD : h = true → ∀ k, k < N → RCLike.im (D k) = 0) (fuel : Nat) (hf : N ≤ fuel) (m : Nat → Nat → K) (k c : Nat) :
    pseudoLMult h mc N nc D xD fuel 0 m k c =
      if k < N ∧ c < nc then ∑ l ∈ Finset.range N, pseudoDiag h D xD k l * m l c else m k c := by
  rw [pseudoLMult_aux h mc N nc D xD hb hD fuel 0 m (by omega) (Or.inl rfl)]
  by_cases cc : k < N ∧ c < nc
  · rw [if_pos cc, if_pos ⟨by omega, cc⟩, pseudo_sum h N D xD (fun l => m l c) k cc.1]
  · rw [if_neg cc, if_neg (by omega)]

/-- `X† D X`, `X` has `N` rows. -/
def xdx (h : Bool) (N : Nat) (X : Nat → Nat → K) (D xD : Nat → K) (i j : Nat) : K :=
  ∑ p ∈ Finset.range N, cj h (X p i) * ∑ q ∈ Finset.range N, pseudoDiag h D xD p q * X q j

theorem pseudoDiag_cj (h : Bool) {N : Nat} {D xD : Nat → K} (hD : h = true → ∀ k, k < N → RCLike.im (D k) = 0) (p q : Nat) (hp : p < N) :
    cj h (pseudoDiag h D xD p q) = pseudoDiag h D xD q p := by
  unfold pseudoDiag
  by_cases c1 : p = q
  · subst c1; rw [if_pos rfl]; exact cj_real fun hh => hD hh p hp
  · have c1' : ¬ q = p := fun e => c1 e.symm
    rw [if_neg c1, if_neg c1']
    by_cases c2 : p = q + 1
    · have c3 : ¬ q = p + 1 := by omega
      rw [if_pos c2, if_neg c3, if_pos c2]
    · rw [if_neg c2]
      by_cases c3 : q = p + 1
      · rw [if_pos c3, if_pos c3]; exact cj_inv h _
      · rw [if_neg c3, if_neg c3, if_neg c2]; exact cj_zero h

theorem xdx_cj (h : Bool) (N : Nat) (X : Nat → Nat → K) (D xD : Nat → K) (hD : h = true → ∀ k, k < N → RCLike.im (D k) = 0) (i j : Nat) :
    cj h (xdx h N X D xD i j) = xdx h N X D xD j i := by
  unfold xdx
  rw [cj_sum]
  simp only [cj_mul, cj_sum, cj_inv, Finset.mul_sum]
  rw [Finset.sum_comm]
  refine Finset.sum_congr rfl fun q hq => Finset.sum_congr rfl fun p hp => ?_
  rw [pseudoDiag_cj h hD p q (Finset.mem_range.mp hp)]
  ring

theorem xdx_real (h : Bool) (N : Nat) (X : Nat → Nat → K) (D xD : Nat → K) (hD : h = true → ∀ k, k < N → RCLike.im (D k) = 0) (i : Nat)
    (hh : h = true) : RCLike.im (xdx h N X D xD i i) = 0 :=
  real_of_cj (xdx_cj h N X D xD hD i i).symm hh

/-- The sum splits at a block boundary. -/
theorem xdx_split (h : Bool) (N k : Nat) (hk : k ≤ N) (hk0 : 0 < k) (X : Nat → Nat → K) (D xD : Nat → K) (hx : k < N → xD (k-1) = 0) (i j : Nat) :
    xdx h N X D xD i j = xdx h k X D xD i j + xdx h (N-k) (fun l => X (k+l)) (fun l => D (k+l)) (fun l => xD (k+l)) i j := by
  obtain ⟨n, rfl⟩ : ∃ n, N = k + n := ⟨N - k, by omega⟩
  rw [Nat.add_sub_cancel_left]
  unfold xdx
  rw [Finset.sum_range_add]
  congr 1
  · refine Finset.sum_congr rfl fun p hp => ?_
    have hp' : p < k := by simpa using hp
    rw [Finset.sum_range_add]
    have : ∑ q ∈ Finset.range n, pseudoDiag h D xD p (k+q) * X (k+q) j = 0 := by
      refine Finset.sum_eq_zero fun q hq => ?_
      have hq' : q < n := by simpa using hq
      unfold pseudoDiag
      rw [if_neg (by omega), if_neg (by omega)]
      by_cases c : k + q = p + 1
      · rw [if_pos c]
        have : p = k - 1 := by omega
        rw [this, hx (by omega)]; simp
      · rw [if_neg c, zero_mul]
    rw [this, add_zero]
  · refine Finset.sum_congr rfl fun p hp => ?_
    have hp' : p < n := by simpa using hp
    rw [Finset.sum_range_add]
    have : ∑ q ∈ Finset.range k, pseudoDiag h D xD (k+p) q * X q j = 0 := by
      refine Finset.sum_eq_zero fun q hq => ?_
      have hq' : q < k := by simpa using hq
      unfold pseudoDiag
      rw [if_neg (by omega)]
      by_cases c : k + p = q + 1
      · rw [if_pos c]
        have : q = k - 1 := by omega
        rw [this, hx (by omega), zero_mul]
      · rw [if_neg c, if_neg (by omega), zero_mul]
    rw [this, zero_add]
    congr 1
    refine Finset.sum_congr rfl fun q _ => ?_
    congr 1
    unfold pseudoDiag
    have e1 : (k + p = k + q) ↔ p = q := by omega
    have e2 : (k + p = k + q + 1) ↔ p = q + 1 := by omega
    have e3 : (k + q = k + p + 1) ↔ q = p + 1 := by omega
    simp only [e1, e2, e3]

theorem xdx_congr {h : Bool} {N : Nat} {X X' : Nat → Nat → K} {D D' xD xD' : Nat → K} {i j : Nat}
    (hX : ∀ p, p < N → X' p i = X p i) (hX' : ∀ p, p < N → X' p j = X p j) (hD : ∀ p, p < N → D' p = D p) (hx : ∀ p, p + 1 < N → xD' p = xD p) :
    xdx h N X' D' xD' i j = xdx h N X D xD i j := by
  unfold xdx
  refine Finset.sum_congr rfl fun p hp => ?_
  have hp' : p < N := by simpa using hp
  rw [hX p hp']
  congr 1
  refine Finset.sum_congr rfl fun q hq => ?_
  have hq' : q < N := by simpa using hq
  rw [hX' q hq']
  congr 1
  unfold pseudoDiag
  by_cases c1 : p = q
  · rw [if_pos c1, if_pos c1, hD p hp']
  · rw [if_neg c1, if_neg c1]
    by_cases c2 : p = q + 1
    · rw [if_pos c2, if_pos c2, hx q (by omega)]
    · rw [if_neg c2, if_neg c2]
      by_cases c3 : q = p + 1
      · rw [if_pos c3, if_pos c3, hx p (by omega)]
      · rw [if_neg c3, if_neg c3]

theorem Blocks.sub {N : Nat} {xD : Nat → K} (hb : Blocks N xD) (k n : Nat) (hn : k + n ≤ N) : Blocks n fun i => xD (k+i) :=
  fun i hi hx => hb (k+i) (by omega) hx

/-- `LDLt_AddXtDX` adds `X† D X`. -/
theorem addXtDX_spec (nb nb2 bs : Nat) (hnb : 0 < nb) (hnb2 : 0 < nb2) (o : Ord) (h : Bool) (n : Nat) :
    ∀ (fuel N : Nat) (X : Nat → Nat → K) (D xD : Nat → K) (S : Nat → Nat → K), N ≤ fuel → 0 < N → Blocks N xD →
    (h = true → ∀ k, k < N → RCLike.im (D k) = 0) → (h = true → RealDiag n S) →
    Updated true n (xdx h N X D xD) S (addXtDX nb nb2 bs o h n fuel N X D xD S) := by
  intro fuel
  induction fuel with
  | zero => intro N X D xD S h1 h2; omega
  | succ fuel ih =>
    intro N X D xD S hf hN hb hD hS
    unfold addXtDX
    by_cases c1 : N = 1
    · rw [if_pos c1]
      subst c1
      have := SymRK.rank1_spec o h h true n (D 0) (X 0) S (by simp) (fun hh => ⟨hD hh 0 (by omega), fun _ => hS hh⟩)
      intro i j
      rw [this i j]
      have e : D 0 * (cj h (X 0 i) * cj h (cj h (X 0 j))) = xdx h 1 X D xD i j := by
        unfold xdx
        rw [Finset.sum_range_one, Finset.sum_range_one, cj_inv]
        simp only [pseudoDiag, if_true]
        ring
      dsimp only
      rw [e]
    · rw [if_neg c1]
      by_cases c2 : (N = 2 ∧ xD 0 ≠ 0) ∨ N ≤ bs
      · rw [if_pos c2]
        dsimp only
        have e : ∀ i j, j < n → (1 : K) * ∑ l ∈ Finset.range N, cj h (X l i) * pseudoLMult h false N n D xD (N+1) 0 X l j =
            xdx h N X D xD i j := by
          intro i j hj
          rw [one_mul]
          unfold xdx
          refine Finset.sum_congr rfl fun l hl => ?_
          rw [pseudoLMult_spec h false N n D xD hb hD (N+1) (by omega), if_pos ⟨Finset.mem_range.mp hl, hj⟩]
        have := SymRK.symMul_spec_partial nb nb2 hnb hnb2 (o == .rm) h true n N 1 (fun i l => cj h (X l i))
          (pseudoLMult h false N n D xD (N+1) 0 X) S (by simp) (fun hh => ⟨fun i hi => by
            rw [e i i hi]; exact xdx_real h N X D xD hD i hh, fun _ => hS hh⟩)
        intro i j
        rw [this i j]
        by_cases cc : j ≤ i ∧ i < n
        · rw [if_pos cc, if_pos cc]
          dsimp only
          rw [e i j (by omega)]
        · rw [if_neg cc, if_neg cc]
      · rw [if_neg c2]
        push Not at c2
        dsimp only
        generalize hk : (if xD (N/2-1) ≠ 0 then N/2+1 else N/2) = k
        have hk1 : 0 < k ∧ k < N ∧ xD (k-1) = 0 := by
          rw [← hk]
          by_cases c3 : xD (N/2-1) = 0
          · rw [if_neg (by simpa using c3)]
            exact ⟨by omega, by omega, c3⟩
          · rw [if_pos c3]
            have h2 : N ≠ 2 := fun e => by subst e; exact c3 (c2.1 rfl)
            have := hb (N/2-1) (by omega) c3
            refine ⟨by omega, by omega, ?_⟩
            rw [Nat.add_sub_cancel]
            rwa [show N/2-1+1 = N/2 by omega] at this
        obtain ⟨hk0, hkN, hkx⟩ := hk1
        have h1 := ih k X D xD S (by omega) hk0 (fun q hq hx => hb q (by omega) hx) (fun hh q hq => hD hh q (by omega)) hS
        generalize addXtDX nb nb2 bs o h n fuel k X D xD S = S1 at h1
        have hS1 : h = true → RealDiag n S1 := by
          intro hh i hi
          rw [h1 i i, if_pos ⟨le_rfl, hi⟩, if_pos rfl, map_add, hS hh i hi,
            xdx_real h k X D xD (fun hh q hq => hD hh q (by omega)) i hh, add_zero]
        have h2 := ih (N-k) (fun l => X (k+l)) (fun l => D (k+l)) (fun l => xD (k+l)) S1 (by omega) (by omega)
          (hb.sub k (N-k) (by omega)) (fun hh q hq => hD hh (k+q) (by omega)) hS1
        intro i j
        rw [h2 i j]
        by_cases cc : j ≤ i ∧ i < n
        · rw [if_pos cc, if_pos cc, if_pos rfl, if_pos rfl, h1 i j, if_pos cc, if_pos rfl,
            xdx_split h N k hkN.le hk0 X D xD (fun _ => hkx) i j, add_assoc]
        · rw [if_neg cc, if_neg cc, h1 i j, if_neg cc]

theorem lowerMat_sub (S : Nat → Nat → K) (k a b : Nat) : lowerMat true (sub S k k) a b = lowerMat true S (k+a) (k+b) := by
  unfold lowerMat Tri.sub
  have e1 : (b < a) ↔ (k + b < k + a) := by omega
  have e2 : (a = b) ↔ (k + a = k + b) := by omega
  simp only [e1, e2]

/-- `LDLt_CombineInverse` computes the lower triangle of `X† D X`, where `X` is the unit lower triangle of `S` and `D` has the diagonal
of `S` and the subdiagonal `xD`. -/
theorem combine_spec (bk : IBlk) (hnb : 0 < bk.nb) (hnb2 : 0 < bk.nb2) (hmb : 0 < bk.mb) (hmb2 : 0 < bk.mb2) (o : Ord) (crm cst h : Bool) :
    ∀ (fuel N : Nat) (xD : Nat → K) (S : Nat → Nat → K), N ≤ fuel → Blocks N xD →
    (∀ k, k + 1 < N → xD k ≠ 0 → S (k+1) k = 0) → (h = true → RealDiag N S) → ∀ i j,
    combine bk o crm cst h fuel N xD S i j =
      if j ≤ i ∧ i < N then xdx h N (lowerMat true S) (fun i => S i i) xD i j else S i j := by
  intro fuel
  induction fuel with
  | zero => intro N xD S hf _ _ _ i j; rw [if_neg (by omega)]; rfl
  | succ fuel ih =>
    intro N xD S hf hb hz hS i j
    unfold combine
    by_cases c1 : N > 1
    swap
    · rw [if_neg c1]
      by_cases cc : j ≤ i ∧ i < N
      · rw [if_pos cc]
        obtain rfl : i = 0 := by omega
        obtain rfl : j = 0 := by omega
        obtain rfl : N = 1 := by omega
        simp [xdx, pseudoDiag, lowerMat]
      · rw [if_neg cc]
    rw [if_pos c1]
    by_cases c2 : N = 2
    · rw [if_pos c2]
      subst c2
      by_cases c3 : xD 0 = 0
      · rw [if_neg (by simpa using c3)]
        rw [reH_real (fun hh => hS hh 1 (by omega))]
        have hr : reH h (cj h (S 1 0) * (S 1 1 * S 1 0)) = cj h (S 1 0) * (S 1 1 * S 1 0) := by
          refine reH_real (real_of_cj ?_)
          rw [cj_mul, cj_mul, cj_inv, cj_real (fun hh => hS hh 1 (by omega))]; ring
        rw [hr]
        dsimp only [setE]
        by_cases cc : j ≤ i ∧ i < 2
        · rw [if_pos cc]
          have : (i = 0 ∧ j = 0) ∨ (i = 1 ∧ j = 0) ∨ (i = 1 ∧ j = 1) := by omega
          rcases this with ⟨rfl, rfl⟩ | ⟨rfl, rfl⟩ | ⟨rfl, rfl⟩ <;>
            simp [xdx, pseudoDiag, lowerMat, Finset.sum_range_succ, c3]
        · rw [if_neg cc, if_neg (by omega), if_neg (by omega)]
      · rw [if_pos c3]
        have h10 := hz 0 (by omega) c3
        rw [Nat.zero_add] at h10
        dsimp only [setE]
        by_cases cc : j ≤ i ∧ i < 2
        · rw [if_pos cc]
          have : (i = 0 ∧ j = 0) ∨ (i = 1 ∧ j = 0) ∨ (i = 1 ∧ j = 1) := by omega
          rcases this with ⟨rfl, rfl⟩ | ⟨rfl, rfl⟩ | ⟨rfl, rfl⟩ <;>
            simp [xdx, pseudoDiag, lowerMat, Finset.sum_range_succ, h10]
        · rw [if_neg cc, if_neg (by omega)]
    rw [if_neg c2]
    generalize hk : (if xD (N/2-1) ≠ 0 then N/2+1 else N/2) = k
    have hk1 : 0 < k ∧ k < N ∧ xD (k-1) = 0 := by
      rw [← hk]
      by_cases c3 : xD (N/2-1) = 0
      · rw [if_neg (by simpa using c3)]
        exact ⟨by omega, by omega, c3⟩
      · rw [if_pos c3]
        have := hb (N/2-1) (by omega) c3
        refine ⟨by omega, by omega, ?_⟩
        rw [Nat.add_sub_cancel]
        rwa [show N/2-1+1 = N/2 by omega] at this
    obtain ⟨hk0, hkN, hkx⟩ := hk1
    clear hk
    have hS0 : h = true → ∀ q, q < N → RCLike.im (S q q) = 0 := hS
    have h1 := ih k xD S (by omega) (fun q hq hx => hb q (by omega) hx) (fun q hq hx => hz q (by omega) hx)
      (fun hh q hq => hS hh q (by omega))
    generalize combine bk o crm cst h fuel k xD S = S1 at h1
    have hD1 : (fun i => S1 (k+i) (k+i)) = fun i => S (k+i) (k+i) := by
      funext a; rw [h1, if_neg (by omega)]
    have hX1 : sub S1 k 0 = fun p j => S (k+p) j := by
      funext a b; show S1 (k+a) (0+b) = _; rw [h1, if_neg (by omega), Nat.zero_add]
    rw [hD1, hX1]
    have h2 := addXtDX_spec bk.nb bk.nb2 bk.bs hnb hnb2 o h k (N+1) (N-k) (fun p j => S (k+p) j) (fun i => S (k+i) (k+i))
      (fun i => xD (k+i)) S1 (by omega) (by omega) (hb.sub k (N-k) (by omega)) (fun hh q hq => hS hh (k+q) (by omega))
      (fun hh q hq => by
        rw [h1 q q, if_pos ⟨le_rfl, hq⟩]
        exact xdx_real h k _ _ xD (fun hh q hq => hS hh q (by omega)) q hh)
    generalize addXtDX bk.nb bk.nb2 bk.bs o h k (N+1) (N-k) (fun p j => S (k+p) j) (fun i => S (k+i) (k+i))
      (fun i => xD (k+i)) S1 = S2 at h2
    have h2' : ∀ a b, k ≤ a → S2 a b = S a b := fun a b ha => by
      rw [h2 a b, if_neg (by omega), h1 a b, if_neg (by omega)]
    have hX2 : sub S2 k 0 = fun p j => S (k+p) j := by
      funext a b; show S2 (k+a) (0+b) = _; rw [h2' _ _ (by omega), Nat.zero_add]
    rw [hX2]
    generalize hS3 : paste S2 k 0 (N-k) k (pseudoLMult h false (N-k) k (fun i => S (k+i) (k+i)) (fun i => xD (k+i)) (N+1) 0
      fun p j => S (k+p) j) = S3
    have h3 : ∀ a b, S3 a b = if k ≤ a ∧ a < N ∧ b < k then
        ∑ l ∈ Finset.range (N-k), pseudoDiag h (fun i => S (k+i) (k+i)) (fun i => xD (k+i)) (a-k) l * S (k+l) b else S2 a b := by
      intro a b
      rw [← hS3]
      unfold Tri.paste
      by_cases cc : k ≤ a ∧ a < N ∧ b < k
      · rw [if_pos cc, if_pos (by omega), Nat.sub_zero, pseudoLMult_spec h false (N-k) k _ _ (hb.sub k (N-k) (by omega))
          (fun hh q hq => hS hh (k+q) (by omega)) (N+1) (by omega), if_pos (by omega)]
      · rw [if_neg cc, if_neg (by omega)]
    generalize hS4 : paste S3 k 0 (N-k) k (TriMul.upperRec bk.mb bk.mb2 (LU.Ord.tr o) false crm cst k (N+1) (N-k) true 1
          (fun i j => cj h (S3 (k+j) (k+i))) (sub S3 k 0)) = S4
    have h4 : ∀ a b, S4 a b = if k ≤ a ∧ a < N ∧ b < k then
        ∑ q ∈ Finset.range (N-k), cj h (lowerMat true S (k+q) a) * S3 (k+q) b else S3 a b := by
      intro a b
      rw [← hS4]
      unfold Tri.paste
      by_cases cc : k ≤ a ∧ a < N ∧ b < k
      · rw [if_pos cc, if_pos (by omega), Nat.sub_zero, TriMul.upperRec_spec bk.mb bk.mb2 hmb hmb2 _ crm cst k (N+1) (N-k) false true 1
          _ _ (by omega), if_pos (by omega), one_mul]
        refine Finset.sum_congr rfl fun q hq => ?_
        have hq' : q < N - k := by simpa using hq
        have e1 : sub S3 k 0 q b = S3 (k+q) b := by unfold Tri.sub; rw [Nat.zero_add]
        rw [e1]
        congr 1
        unfold upperMat lowerMat
        by_cases d1 : a - k < q
        · rw [if_pos d1, if_pos (by omega)]
          dsimp only
          rw [h3, if_neg (by omega), h2' _ _ (by omega)]
          congr 2; omega
        · rw [if_neg d1, if_neg (by omega : ¬ a < k + q)]
          by_cases d2 : a - k = q
          · rw [if_pos d2, if_pos (show k + q = a by omega)]; simp
          · rw [if_neg d2, if_neg (by omega), cj_zero]
      · rw [if_neg cc, if_neg (by omega)]
    have hX4 : sub S4 k k = sub S k k := by
      funext a b
      show S4 (k+a) (k+b) = S (k+a) (k+b)
      rw [h4, if_neg (by omega), h3, if_neg (by omega), h2' _ _ (by omega)]
    rw [hX4]
    have h5 := ih (N-k) (fun i => xD (k+i)) (sub S k k) (by omega) (hb.sub k (N-k) (by omega))
      (fun q hq hx => hz (k+q) (by omega) hx) (fun hh q hq => hS hh (k+q) (by omega))
    have key : ∀ a b, xdx h N (lowerMat true S) (fun i => S i i) xD a b = _ :=
      fun a b => xdx_split h N k hkN.le hk0 (lowerMat true S) (fun i => S i i) xD (fun _ => hkx) a b
    have zero : ∀ a b, k ≤ a → xdx h k (lowerMat true S) (fun i => S i i) xD a b = 0 := by
      intro a b ha
      unfold xdx
      refine Finset.sum_eq_zero fun p hp => ?_
      have hp' : p < k := by simpa using hp
      unfold lowerMat
      rw [if_neg (by omega), if_neg (by omega), cj_zero, zero_mul]
    have low : ∀ p b, b < k → lowerMat true S (k+p) b = S (k+p) b := fun p b hb => by
      unfold lowerMat; rw [if_pos (by omega)]
    unfold Tri.paste
    by_cases cc : j ≤ i ∧ i < N
    swap
    · rw [if_neg cc]
      by_cases d1 : k ≤ i ∧ i < k + (N - k) ∧ k ≤ j ∧ j < k + (N - k)
      · rw [if_pos d1, h5, if_neg (by omega)]
        unfold Tri.sub
        congr 1 <;> omega
      · rw [if_neg d1, h4, if_neg (by omega), h3, if_neg (by omega), h2 i j, if_neg (by omega), h1 i j, if_neg (by omega)]
    rw [if_pos cc, key]
    by_cases d1 : k ≤ j
    · rw [if_pos (by omega), h5, if_pos (by omega), zero i j (by omega), zero_add]
      have ei : ∀ p, lowerMat true S (k+p) i = lowerMat true (sub S k k) p (i-k) := fun p => by
        rw [lowerMat_sub]; congr 1; omega
      have ej : ∀ p, lowerMat true S (k+p) j = lowerMat true (sub S k k) p (j-k) := fun p => by
        rw [lowerMat_sub]; congr 1; omega
      unfold xdx
      simp only [ei, ej]
      rfl
    · rw [if_neg (by omega)]
      by_cases d2 : k ≤ i
      · rw [h4, if_pos (by omega), zero i j d2, zero_add]
        unfold xdx
        refine Finset.sum_congr rfl fun p hp => ?_
        have hp' : p < N - k := by simpa using hp
        congr 1
        rw [h3, if_pos (by omega), Nat.add_sub_cancel_left]
        exact Finset.sum_congr rfl fun q _ => by dsimp only; rw [low q j (by omega)]
      · rw [h4, if_neg (by omega), h3, if_neg (by omega), h2 i j, if_pos (by omega), if_pos rfl, h1 i j, if_pos (by omega)]
        congr 1
        exact xdx_congr (fun p _ => (low p i (by omega)).symm) (fun p _ => (low p j (by omega)).symm) (fun _ _ => rfl) (fun _ _ => rfl)

end
end TMV.LDL
