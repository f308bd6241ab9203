import Verif.Model.QRPDiv
import Verif.Props.QRPMain
import Verif.Props.QRSolve

/-! C87: division by a QR decomposition with column pivoting. -/
namespace TMV.QR
noncomputable section
open Classical TMV.Tri

variable {K : Type} [RCLike K]

/-- The triangle has rank `r`: no zero on the diagonal of the first `r` rows, and nothing but zeros below them. -/
def Graded (r N : Nat) (V : Nat → Nat → K) : Prop :=
  r ≤ N ∧ (∀ i, i < r → V i i ≠ 0) ∧ ∀ i c, r ≤ i → i ≤ c → c < N → V i c = 0

section
variable {M N r : Nat} {V : Nat → Nat → K} {β : Nat → K} {B : Nat → Nat → K}

theorem Graded.up0 (hg : Graded r N V) {k c : Nat} (hk : r ≤ k) (hc : c < N) : upperMat false V k c = 0 := by
  unfold upperMat
  by_cases h1 : k < c
  · rw [if_pos h1]; exact hg.2.2 k c hk h1.le hc
  · rw [if_neg h1]
    by_cases h2 : k = c
    · rw [if_pos h2, if_neg (by simp)]; exact hg.2.2 k k hk le_rfl (by omega)
    · rw [if_neg h2]

theorem Graded.sum (hg : Graded r N V) {c : Nat} (hc : c < N) (w : Nat → K) :
    ∑ k ∈ Finset.range N, w k * upperMat false V k c = ∑ k ∈ Finset.range r, w k * upperMat false V k c := by
  have := hg.1
  rw [Finset.range_eq_Ico, ← Finset.sum_Ico_consecutive _ (Nat.zero_le r) hg.1, ← Finset.range_eq_Ico, Finset.sum_eq_zero (s := Finset.Ico r N), add_zero]
  intro k hk
  rw [Finset.mem_Ico] at hk
  rw [hg.up0 hk.1 hc, mul_zero]

theorem Fact.lDivR (h : Fact M N V β B) (hg : Graded r N V) {nb tb tb2 : Nat} (hnb : 0 < nb) (htb : 0 < tb) (htb2 : 0 < tb2) (o : Ord) (brm : Bool) (nc : Nat)
    (Z0 m x : Nat → Nat → K) :
    ∃ X, qrLDiv nb tb tb2 o brm M N nc r V β Z0 m x = some X ∧
      (∀ c, c < nc → ∀ z : Nat → K, ∑ p ∈ Finset.range M, ‖∑ l ∈ Finset.range N, B p l * X l c - m p c‖ ^ 2 ≤
        ∑ p ∈ Finset.range M, ‖∑ l ∈ Finset.range N, B p l * z l - m p c‖ ^ 2) ∧
      (∀ a c, r ≤ a → a < N → c < nc → X a c = 0) ∧
      (r = N → M = N → ∀ c, c < nc → ∀ p, p < M → ∑ l ∈ Finset.range N, B p l * X l c = m p c) ∧
      ∀ a c, ¬ (a < N ∧ c < nc) → X a c = x a c := by
  have hex : ∀ X, qrLDiv nb tb tb2 o brm M N nc r V β Z0 m x = some X →
      r = N → M = N → ∀ c, c < nc → ∀ p, p < M → ∑ l ∈ Finset.range N, B p l * X l c = m p c := by
    intro X hX h1
    subst h1
    exact ((h.lDiv hnb htb htb2 o brm nc Z0 m x).2 X hX).2.1
  have hrN := hg.1
  obtain ⟨Y, hY⟩ : ∃ Y : Nat → Nat → K, Y = fun a b => if r ≤ a ∧ a < N ∧ b < nc then 0 else
    pqLDiv nb M N nc V β Z0 m x a b := ⟨_, rfl⟩
  have hq : qrLDiv nb tb tb2 o brm M N nc r V β Z0 m x = upperM tb tb2 o brm false r nc V Y := by rw [hY]; rfl
  rw [hq] at hex ⊢
  have hYv : ∀ a c, a < r → c < nc → Y a c = hs M V β 0 N (fun p => m p c) a := by
    intro a c ha hc
    rw [hY]; dsimp only
    rw [if_neg (by omega)]
    unfold pqLDiv
    by_cases hMN : M = N
    · rw [if_pos hMN, qLDivEq_spec nb M N nc hnb h.le, if_pos hc]
      refine hs_ext N (fun p hp => ?_) a (by have := h.le; omega)
      simp [paste, hp, hc]
    · rw [if_neg hMN]
      simp only [paste]
      rw [if_pos (by omega), Nat.sub_zero, Nat.sub_zero, qLDivEq_spec nb M N nc hnb h.le, if_pos hc]
  have hYo : ∀ a c, ¬ (a < N ∧ c < nc) → Y a c = x a c := by
    intro a c hac
    rw [hY]; dsimp only
    rw [if_neg (by omega)]
    unfold pqLDiv
    by_cases hMN : M = N
    · rw [if_pos hMN, qLDivEq_spec nb M N nc hnb h.le]
      by_cases hc : c < nc
      · rw [if_pos hc, hs_out _ (by omega)]
        simp only [paste]; rw [if_neg (by omega)]
      · rw [if_neg hc]
        simp only [paste]; rw [if_neg (by omega)]
    · rw [if_neg hMN]
      simp only [paste]
      rw [if_neg (by omega)]
  obtain ⟨X, hX⟩ := Option.isSome_iff_exists.mp (upperM_isSome tb tb2 htb htb2 o brm false r nc V Y fun i hi => hg.2.1 i hi)
  obtain ⟨s1, s2⟩ := upperM_sound tb tb2 htb htb2 o brm false r nc V Y X hX
  have hX0 : ∀ a c, r ≤ a → a < N → c < nc → X a c = 0 := by
    intro a c h1 h2 h3
    rw [s2 a c (by omega), hY]
    exact if_pos ⟨h1, h2, h3⟩
  refine ⟨X, hX, ?_, hX0, hex X hX, fun a c hac => by rw [s2 a c (by omega), hYo a c hac]⟩
  intro c hc z
  rw [← nsq_norm M fun p => ∑ l ∈ Finset.range N, B p l * X l c - m p c,
    ← nsq_norm M fun p => ∑ l ∈ Finset.range N, B p l * z l - m p c, h.resid (fun l => X l c) fun p => m p c, h.resid z fun p => m p c]
  refine add_le_add (Finset.sum_le_sum fun i hi => ?_) le_rfl
  rw [Finset.mem_range] at hi
  by_cases hir : i < r
  · have e : ∑ l ∈ Finset.range N, upperMat false V i l * X l c = hs M V β 0 N (fun p => m p c) i := by
      rw [← hYv i c hir hc, ← s1 i c hir hc, Finset.range_eq_Ico, ← Finset.sum_Ico_consecutive _ (Nat.zero_le r) hrN, ← Finset.range_eq_Ico,
        Finset.sum_eq_zero (s := Finset.Ico r N), add_zero]
      intro l hl
      rw [Finset.mem_Ico] at hl
      rw [hX0 l c hl.1 hl.2 hc, mul_zero]
    rw [e, sub_self, map_zero]
    exact RCLike.normSq_nonneg _
  · have e : ∀ w : Nat → K, ∑ l ∈ Finset.range N, upperMat false V i l * w l = 0 := fun w =>
      Finset.sum_eq_zero fun l hl => by rw [hg.up0 (by omega) (Finset.mem_range.mp hl), zero_mul]
    rw [e, e]

theorem tri_row_unique' (hg : Graded r N V) (u v : Nat → K)
    (huv : ∀ c, c < r → ∑ k ∈ Finset.range r, u k * upperMat false V k c = ∑ k ∈ Finset.range r, v k * upperMat false V k c) (k : Nat) (hk : k < r) : u k = v k :=
  tri_row_unique (N := r) hg.2.1 u v huv r k hk hk

theorem Fact.rDivR (h : Fact M N V β B) (hg : Graded r N V) {nb tb tb2 : Nat} (hnb : 0 < nb) (htb : 0 < tb) (htb2 : 0 < tb2) (o : Ord) (brm : Bool) (nr : Nat)
    (Z0 m x : Nat → Nat → K) :
    ∃ X, qrRDiv nb tb tb2 o brm M N nr r V β Z0 m x = some X ∧
      (∀ a, a < nr → ∀ c, c < r → ∑ p ∈ Finset.range M, X a p * B p c = m a c) ∧
      (∀ a, a < nr → ∀ z : Nat → K, (∀ c, c < r → ∑ p ∈ Finset.range M, z p * B p c = m a c) →
        ∑ p ∈ Finset.range M, ‖X a p‖ ^ 2 ≤ ∑ p ∈ Finset.range M, ‖z p‖ ^ 2) ∧
      (∀ a, a < nr → (∃ z : Nat → K, ∀ c, c < N → ∑ p ∈ Finset.range M, z p * B p c = m a c) →
        ∀ c, c < N → ∑ p ∈ Finset.range M, X a p * B p c = m a c) ∧
      ∀ a p, ¬ (a < nr ∧ p < M) → X a p = x a p := by
  have hle := h.le
  have hrN := hg.1
  obtain ⟨Y, hY⟩ : ∃ Y : Nat → Nat → K, Y = fun a b => if a < nr ∧ r ≤ b ∧ b < M then 0 else paste x 0 0 nr N m a b := ⟨_, rfl⟩
  have hq : qrRDiv nb tb tb2 o brm M N nr r V β Z0 m x =
      (lowerM tb tb2 (LU.Ord.tr o) brm false r nr (trM V) (trM Y)).map fun xt => qRDivEq nb M N nr V β Z0 (trM xt) := by
    rw [hY]; rfl
  rw [hq]
  obtain ⟨W, hW⟩ := Option.isSome_iff_exists.mp (lowerM_isSome tb tb2 htb htb2 (LU.Ord.tr o) brm false r nr (trM V) (trM Y) fun i hi => hg.2.1 i hi)
  rw [hW]
  obtain ⟨s1, s2⟩ := lowerM_sound tb tb2 htb htb2 _ brm false r nr _ _ W hW
  obtain ⟨X, hXW⟩ : ∃ X, X = qRDivEq nb M N nr V β Z0 (trM W) := ⟨_, rfl⟩
  refine ⟨X, by rw [hXW]; rfl, ?_⟩
  have hYm : ∀ a b, a < nr → b < r → Y a b = m a b := by
    intro a b ha hb
    rw [hY]; dsimp only
    rw [if_neg (by omega)]
    simp [paste, ha, show b < N by omega]
  have hYz : ∀ a b, a < nr → r ≤ b → b < M → Y a b = 0 := by
    intro a b ha hb hb2
    rw [hY]; dsimp only
    rw [if_pos ⟨ha, hb, hb2⟩]
  have hYo : ∀ a p, ¬ (a < nr ∧ p < M) → Y a p = x a p := by
    intro a p hap
    rw [hY]; dsimp only
    rw [if_neg (by omega)]
    simp only [paste]; rw [if_neg (by omega)]
  have hWR : ∀ a, a < nr → ∀ c, c < r → ∑ k ∈ Finset.range r, W k a * upperMat false V k c = m a c := by
    intro a ha c hc
    rw [← hYm a c ha hc, show Y a c = trM Y c a from rfl, ← s1 c a hc ha]
    refine Finset.sum_congr rfl fun k _ => ?_
    rw [show trM V = TriProd.tr V from rfl, TriProd.tr_lower, mul_comm]
  have hWz : ∀ a b, a < nr → r ≤ b → b < M → W b a = 0 := by
    intro a b ha hb hb2
    rw [s2 b a (by omega)]
    exact hYz a b ha hb hb2
  have hXa : ∀ a p, a < nr → X a p = star (hsA M V β 0 N (fun q => star (W q a)) p) := by
    intro a p ha
    rw [hXW, qRDivEq_spec nb M N nr hnb h.le, if_pos ha]; rfl
  have hhs : ∀ a, a < nr → hs M V β 0 N (fun p => star (X a p)) = fun q => star (W q a) := by
    intro a ha
    rw [← hs_hsA N h.valid fun q => star (W q a)]
    congr 1
    funext p
    rw [hXa a p ha, star_star]
  have hXB : ∀ a, a < nr → ∀ c, c < N → ∑ p ∈ Finset.range M, X a p * B p c = ∑ k ∈ Finset.range r, W k a * upperMat false V k c := by
    intro a ha c hc
    rw [h.row_mul _ c hc, hhs a ha, hg.sum hc]
    simp only [star_star]
  have hzB : ∀ z : Nat → K, ∀ c, c < N → ∑ p ∈ Finset.range M, z p * B p c =
      ∑ k ∈ Finset.range r, star (hs M V β 0 N (fun p => star (z p)) k) * upperMat false V k c := by
    intro z c hc
    rw [h.row_mul _ c hc, hg.sum hc]
  have hu : ∀ a, a < nr → ∀ z : Nat → K, (∀ c, c < r → ∑ p ∈ Finset.range M, z p * B p c = m a c) → ∀ k, k < r →
      star (hs M V β 0 N (fun p => star (z p)) k) = W k a := by
    intro a ha z hz k hk
    exact tri_row_unique' hg (fun k => star (hs M V β 0 N (fun p => star (z p)) k)) (fun k => W k a) (fun c hc => by
        rw [hWR a ha c hc, ← hz c hc, hzB z c (by omega)]) k hk
  refine ⟨?_, ?_, ?_, ?_⟩
  · intro a ha c hc
    rw [hXB a ha c (by omega), hWR a ha c hc]
  · intro a ha z hz
    have e1 : ∀ y : Nat → K, ∑ p ∈ Finset.range M, ‖y p‖ ^ 2 = nsq M (hs M V β 0 N fun p => star (y p)) := by
      intro y
      rw [nsq_eq_of_ip (hs_unitary N h.valid _ _), nsq_norm]
      exact Finset.sum_congr rfl fun p _ => by rw [norm_star]
    rw [e1, e1, hhs a ha]
    unfold nsq
    refine Finset.sum_le_sum fun q hq => ?_
    rw [Finset.mem_range] at hq
    by_cases hqN : q < r
    · show RCLike.normSq (star (W q a)) ≤ _
      rw [← hu a ha z hz q hqN, star_star]
    · show RCLike.normSq (star (W q a)) ≤ _
      rw [hWz a q ha (by omega) hq, star_zero, map_zero]
      exact RCLike.normSq_nonneg _
  · rintro a ha ⟨z, hz⟩ c hc
    rw [hXB a ha c hc, ← hz c hc, hzB z c hc]
    refine Finset.sum_congr rfl fun k hk => ?_
    rw [hu a ha z (fun c hc => hz c (by omega)) k (Finset.mem_range.mp hk)]
  · intro a p hap
    rw [hXW]
    have hWY : W p a = Y a p := s2 p a (by omega)
    rw [qRDivEq_spec nb M N nr hnb h.le]
    by_cases ha : a < nr
    · rw [if_pos ha, hsA_out _ (by omega), star_star]
      rw [← hYo a p hap]; exact hWY
    · rw [if_neg ha, ← hYo a p hap]; exact hWY

/-- A matrix with `r` rows fewer: the upper left block of the triangle. -/
theorem Fact.inverseR (h : Fact M N V β B) (hg : Graded r N V) {nb ib mb mb2 : Nat} (hnb : 0 < nb) (hib : 0 < ib) (hmb : 0 < mb) (hmb2 : 0 < mb2) (o : Ord) (crm st : Bool)
    (Z0 minv : Nat → Nat → K) :
    ∃ X, qrInverse nb ib mb mb2 o crm st M N r V β Z0 minv = some X ∧
      (∀ p q, p < M → q < M → ∑ c ∈ Finset.range N, B p c * X c q = star (∑ c ∈ Finset.range N, B q c * X c p)) ∧
      (∀ p c, p < M → c < N → ∑ q ∈ Finset.range M, (∑ l ∈ Finset.range N, B p l * X l q) * B q c = B p c) ∧
      (∀ a p, a < N → p < M → ∑ q ∈ Finset.range M, X a q * (∑ l ∈ Finset.range N, B q l * X l p) = X a p) ∧
      ∀ a p, ¬ (a < N ∧ p < M) → X a p = minv a p := by
  have hle := h.le
  have hrN := hg.1
  obtain ⟨Y, hY⟩ : ∃ Y : Nat → Nat → K, Y = fun a b => if a ≤ b ∧ b < r then V a b else if a < N ∧ b < M then 0 else minv a b :=
    ⟨_, rfl⟩
  have hq : qrInverse nb ib mb mb2 o crm st M N r V β Z0 minv =
      (TriProd.triInverse ib mb mb2 o crm st false r Y).map fun minv => qRDivEq nb M N N V β Z0 minv := by rw [hY]; rfl
  rw [hq]
  obtain ⟨t1, t2⟩ := TriProd.triInverse_spec ib mb mb2 hib hmb hmb2 o crm st false r Y
  have hne : TriProd.triInverse ib mb mb2 o crm st false r Y ≠ none := by
    rw [Ne, t1]
    rintro ⟨-, i, hi, h0⟩
    rw [hY] at h0
    dsimp only at h0
    rw [if_pos ⟨le_rfl, hi⟩] at h0
    exact hg.2.1 i hi h0
  obtain ⟨W, hW⟩ := Option.ne_none_iff_exists'.mp hne
  rw [hW]
  obtain ⟨X, hXW⟩ : ∃ X, X = qRDivEq nb M N N V β Z0 W := ⟨_, rfl⟩
  refine ⟨X, by rw [hXW]; rfl, ?_⟩
  obtain ⟨i1, i2⟩ := t2 W hW
  have hUY : ∀ a c, a < r → c < r → upperMat false Y a c = upperMat false V a c := by
    intro a c ha hc
    rw [hY]
    unfold upperMat
    dsimp only
    by_cases h1 : a < c
    · rw [if_pos h1, if_pos h1, if_pos (by omega)]
    · rw [if_neg h1, if_neg h1]
      by_cases h2 : a = c
      · rw [if_pos h2, if_pos h2]
        simp [ha]
      · rw [if_neg h2, if_neg h2]
  have hinv : ∀ i j, i < r → j < r → ∑ k ∈ Finset.range r, upperMat false V i k * upperMat false W k j = if i = j then 1 else 0 := by
    intro i j hi hj
    rw [← i1 i j hi hj]
    exact Finset.sum_congr rfl fun k hk => by rw [hUY i k hi (Finset.mem_range.mp hk)]
  have hWu : ∀ a b, a < r → b < r → W a b = upperMat false W a b := by
    intro a b ha hb
    unfold upperMat
    by_cases h1 : a < b
    · rw [if_pos h1]
    · rw [if_neg h1]
      by_cases h2 : a = b
      · rw [if_pos h2, h2]; rfl
      · rw [if_neg h2, i2 a b (by simp; omega), hY]
        dsimp only
        rw [if_neg (by omega), if_pos (by omega)]
  have hWz : ∀ a b, a < N → b < M → r ≤ a ∨ r ≤ b → W a b = 0 := by
    intro a b ha hb hb2
    rw [i2 a b (by omega), hY]
    dsimp only
    rw [if_neg (by omega), if_pos ⟨ha, hb⟩]
  have hXa : ∀ a p, a < N → X a p = star (hsA M V β 0 N (fun q => star (W a q)) p) := by
    intro a p ha
    rw [hXW, qRDivEq_spec nb M N N hnb h.le, if_pos ha]
  have hXc : ∀ c q, c < N → q < M → X c q = ∑ l ∈ Finset.range r, W c l * star (hsA M V β 0 N (ev l) q) := by
    intro c q hc hq
    rw [hXa c q hc, hsA_apply V β _ (fun r' h1 h2 => by rw [hWz c r' hc h2 (by omega), star_zero]) q hq, star_sum,
      Finset.range_eq_Ico, ← Finset.sum_Ico_consecutive _ (Nat.zero_le r) hrN, ← Finset.range_eq_Ico, Finset.sum_eq_zero (s := Finset.Ico r N), add_zero]
    · refine Finset.sum_congr rfl fun l hl => ?_
      rw [star_mul', star_star, mul_comm]
    · intro l hl
      rw [Finset.mem_Ico] at hl
      rw [hWz c l hc (by omega) (Or.inr hl.1), star_zero, mul_zero, star_zero]
  have hB : ∀ p c, p < M → c < N → B p c = ∑ k ∈ Finset.range r, hsA M V β 0 N (ev k) p * upperMat false V k c := by
    intro p c hp hc
    have h1 : hsA M V β 0 N (hs M V β 0 N fun q => B q c) p = B p c := by rw [hsA_hs N h.valid]
    rw [← h1, hsA_apply V β _ (fun q h1 h2 => ?_) p hp, ← hg.sum hc]
    · refine Finset.sum_congr rfl fun k hk => ?_
      rw [h.col c hc k (by have := Finset.mem_range.mp hk; omega)]
    · rw [h.col c hc q h2]
      exact hg.up0 (by omega) hc
  -- B X = Σ_{k<r} q_k q_kᴴ
  have hBX : ∀ p q, p < M → q < M → ∑ c ∈ Finset.range N, B p c * X c q =
      ∑ k ∈ Finset.range r, hsA M V β 0 N (ev k) p * star (hsA M V β 0 N (ev k) q) := by
    intro p q hp hq
    have hcut : ∑ c ∈ Finset.range N, B p c * X c q = ∑ c ∈ Finset.range r, B p c * X c q := by
      rw [Finset.range_eq_Ico, ← Finset.sum_Ico_consecutive _ (Nat.zero_le r) hrN, ← Finset.range_eq_Ico, Finset.sum_eq_zero (s := Finset.Ico r N), add_zero]
      intro c hc
      rw [Finset.mem_Ico] at hc
      rw [hXc c q hc.2 hq, Finset.sum_eq_zero, mul_zero]
      intro l hl
      rw [hWz c l hc.2 (by have := Finset.mem_range.mp hl; omega) (Or.inl hc.1), zero_mul]
    rw [hcut]
    calc ∑ c ∈ Finset.range r, B p c * X c q
        = ∑ c ∈ Finset.range r, ∑ k ∈ Finset.range r, ∑ l ∈ Finset.range r,
            (hsA M V β 0 N (ev k) p * star (hsA M V β 0 N (ev l) q)) * (upperMat false V k c * upperMat false W c l) := by
          refine Finset.sum_congr rfl fun c hc => ?_
          have hcr := Finset.mem_range.mp hc
          rw [hB p c hp (by omega), hXc c q (by omega) hq, Finset.sum_mul_sum]
          exact Finset.sum_congr rfl fun k _ => Finset.sum_congr rfl fun l hl => by rw [hWu c l hcr (Finset.mem_range.mp hl)]; ring
      _ = ∑ k ∈ Finset.range r, ∑ l ∈ Finset.range r, (hsA M V β 0 N (ev k) p * star (hsA M V β 0 N (ev l) q)) *
            ∑ c ∈ Finset.range r, upperMat false V k c * upperMat false W c l := by
          rw [Finset.sum_comm]
          refine Finset.sum_congr rfl fun k _ => ?_
          rw [Finset.sum_comm]
          exact Finset.sum_congr rfl fun l _ => by rw [Finset.mul_sum]
      _ = _ := by
          refine Finset.sum_congr rfl fun k hk => ?_
          rw [Finset.sum_eq_single k]
          · rw [hinv k k (Finset.mem_range.mp hk) (Finset.mem_range.mp hk), if_pos rfl, mul_one]
          · intro l hl hlk
            rw [hinv k l (Finset.mem_range.mp hk) (Finset.mem_range.mp hl), if_neg (Ne.symm hlk), mul_zero]
          · intro hn; exact absurd hk hn
  have hon : ∀ k l, k < N → l < N → ∑ p ∈ Finset.range M, star (hsA M V β 0 N (ev k) p) * hsA M V β 0 N (ev l) p = if k = l then 1 else 0 := by
    intro k l hk hl
    have h2 := hsA_unitary N h.valid (ev k) (ev l)
    rw [ip_ev _ (show k < M by omega)] at h2
    rw [show (if k = l then (1:K) else 0) = ev l k from rfl, ← h2]
    rfl
  refine ⟨?_, ?_, ?_, ?_⟩
  · intro p q hp hq
    rw [hBX p q hp hq, hBX q p hq hp, star_sum]
    refine Finset.sum_congr rfl fun k _ => ?_
    rw [star_mul', star_star, mul_comm]
  · intro p c hp hc
    rw [hB p c hp hc]
    calc ∑ q ∈ Finset.range M, (∑ l ∈ Finset.range N, B p l * X l q) * B q c
        = ∑ q ∈ Finset.range M, ∑ k ∈ Finset.range r, ∑ l ∈ Finset.range r,
            (hsA M V β 0 N (ev k) p * upperMat false V l c) * (star (hsA M V β 0 N (ev k) q) * hsA M V β 0 N (ev l) q) := by
          refine Finset.sum_congr rfl fun q hq => ?_
          rw [hBX p q hp (Finset.mem_range.mp hq), hB q c (Finset.mem_range.mp hq) hc, Finset.sum_mul_sum]
          exact Finset.sum_congr rfl fun k _ => Finset.sum_congr rfl fun l _ => by ring
      _ = ∑ k ∈ Finset.range r, ∑ l ∈ Finset.range r, (hsA M V β 0 N (ev k) p * upperMat false V l c) *
            ∑ q ∈ Finset.range M, star (hsA M V β 0 N (ev k) q) * hsA M V β 0 N (ev l) q := by
          rw [Finset.sum_comm]
          refine Finset.sum_congr rfl fun k _ => ?_
          rw [Finset.sum_comm]
          exact Finset.sum_congr rfl fun l _ => by rw [Finset.mul_sum]
      _ = _ := by
          refine Finset.sum_congr rfl fun k hk => ?_
          have hkr := Finset.mem_range.mp hk
          rw [Finset.sum_eq_single k]
          · rw [hon k k (by omega) (by omega), if_pos rfl, mul_one]
          · intro l hl hlk
            rw [hon k l (by omega) (by have := Finset.mem_range.mp hl; omega), if_neg (Ne.symm hlk), mul_zero]
          · intro hn; exact absurd hk hn
  · intro a p ha hp
    rw [hXc a p ha hp]
    calc ∑ q ∈ Finset.range M, X a q * (∑ l ∈ Finset.range N, B q l * X l p)
        = ∑ q ∈ Finset.range M, ∑ k ∈ Finset.range r, ∑ l ∈ Finset.range r,
            (W a k * star (hsA M V β 0 N (ev l) p)) * (star (hsA M V β 0 N (ev k) q) * hsA M V β 0 N (ev l) q) := by
          refine Finset.sum_congr rfl fun q hq => ?_
          rw [hBX q p (Finset.mem_range.mp hq) hp, hXc a q ha (Finset.mem_range.mp hq), Finset.sum_mul_sum]
          exact Finset.sum_congr rfl fun k _ => Finset.sum_congr rfl fun l _ => by ring
      _ = ∑ k ∈ Finset.range r, ∑ l ∈ Finset.range r, (W a k * star (hsA M V β 0 N (ev l) p)) *
            ∑ q ∈ Finset.range M, star (hsA M V β 0 N (ev k) q) * hsA M V β 0 N (ev l) q := by
          rw [Finset.sum_comm]
          refine Finset.sum_congr rfl fun k _ => ?_
          rw [Finset.sum_comm]
          exact Finset.sum_congr rfl fun l _ => by rw [Finset.mul_sum]
      _ = _ := by
          refine Finset.sum_congr rfl fun k hk => ?_
          have hkr := Finset.mem_range.mp hk
          rw [Finset.sum_eq_single k]
          · rw [hon k k (by omega) (by omega), if_pos rfl, mul_one]
          · intro l hl hlk
            rw [hon k l (by omega) (by have := Finset.mem_range.mp hl; omega), if_neg (Ne.symm hlk), mul_zero]
          · intro hn; exact absurd hk hn
  · intro a p hap
    have hWm : W a p = minv a p := by
      rw [i2 a p (by simp; omega), hY]
      dsimp only
      rw [if_neg (by omega), if_neg hap]
    rw [hXW, qRDivEq_spec nb M N N hnb h.le]
    by_cases ha : a < N
    · rw [if_pos ha, hsA_out _ (by omega), star_star, hWm]
    · rw [if_neg ha, hWm]

end

end
end TMV.QR
