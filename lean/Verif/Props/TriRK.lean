import Verif.Model.TriRK
import Verif.Props.CHDiv
import Verif.Props.TriMM

/-! **C80**: rank-k updates by triangles. -/
namespace TMV.CH
open Tri (Ord splitAt sub paste)
noncomputable section
open Classical

variable {K : Type} [RCLike K]

theorem rkBase_eq (h uu lc : Bool) (α d a : K) (hc : lc = true → h = true ∨ uu = true) :
    rkBase h uu lc α d a = a + α * ((if uu then 1 else d) * cj h (if uu then 1 else d)) := by
  unfold rkBase
  cases uu
  · cases h
    · cases lc
      · simp [cj]
      · simp at hc
    · cases lc <;> simp [cj, ← RCLike.mul_conj, RCLike.normSq_eq_def', RCLike.mul_conj]
  · cases h <;> simp [cj]

theorem lowerMat_shift' (uu : Bool) (L : Nat → Nat → K) (k a b : Nat) :
    lowerMat uu (sub L k k) a b = lowerMat uu L (k+a) (k+b) := Tri.lowerMat_shift uu L k a b

theorem cj_lowerMat (h uu : Bool) (L : Nat → Nat → K) (a b : Nat) :
    lowerMat uu (fun i j => cj h (L i j)) a b = cj h (lowerMat uu L a b) := by
  unfold lowerMat
  by_cases d : b < a
  · rw [if_pos d, if_pos d]
  · rw [if_neg d, if_neg d]
    by_cases e : a = b
    · rw [if_pos e, if_pos e]; cases uu <;> cases h <;> simp [cj]
    · rw [if_neg e, if_neg e, LDL.cj_zero]

theorem cj_upperMat (h uu : Bool) (L : Nat → Nat → K) (a b : Nat) :
    upperMat uu (fun i j => cj h (L i j)) a b = cj h (upperMat uu L a b) := by
  unfold upperMat
  by_cases d : a < b
  · rw [if_pos d, if_pos d]
  · rw [if_neg d, if_neg d]
    by_cases e : a = b
    · rw [if_pos e, if_pos e]; cases uu <;> cases h <;> simp [cj]
    · rw [if_neg e, if_neg e, LDL.cj_zero]

/-- `A += alpha*L*L†` (`L*L^T`), stored in the lower triangle. -/
theorem rkLower_spec (bk : UBlk) (hbk : bk.OK) (o ol : Ord) (xrm brm crm h uu lc : Bool) (α : K) (hc : lc = true → h = true ∨ uu = true) :
    ∀ (fuel N : Nat) (L S : Nat → Nat → K), 0 < N → N ≤ fuel → (h = true → RCLike.im α = 0 ∧ ∀ i, i < N → RCLike.im (S i i) = 0) →
    ∀ i j, rkLower bk o ol xrm brm crm h uu lc α fuel N L S i j = if j ≤ i ∧ i < N then
      S i j + α * ∑ l ∈ Finset.range N, lowerMat uu L i l * cj h (lowerMat uu L j l) else S i j := by
  intro fuel
  induction fuel with
  | zero => intro N L S h0 hf; omega
  | succ fuel ih =>
    intro N L S h0 hf hh i j
    unfold rkLower
    by_cases h1 : N = 1
    · subst h1
      rw [if_pos rfl]
      by_cases c : j ≤ i ∧ i < 1
      · obtain rfl : i = 0 := by omega
        obtain rfl : j = 0 := by omega
        rw [if_pos c]
        simp only [setE, and_self, if_true]
        rw [rkBase_eq h uu lc α _ _ hc]
        simp [lowerMat]
      · rw [if_neg c]; simp only [setE]; rw [if_neg (by omega)]
    rw [if_neg h1]
    obtain ⟨k0, kN⟩ := Tri.splitAt_spec bk.rk N hbk.rk (by omega)
    generalize splitAt bk.rk N = k at k0 kN
    have m1 := ih (N-k) (sub L k k) (sub S k k) (by omega) (by omega) (fun e => ⟨(hh e).1, fun a ha => (hh e).2 (k+a) (by omega)⟩)
    have p1 : ∀ a b, paste S k k (N-k) (N-k) (rkLower bk o ol xrm brm crm h uu lc α fuel (N-k) (sub L k k) (sub S k k)) a b =
        if k ≤ b ∧ b ≤ a ∧ a < N then S a b + α * ∑ l ∈ Finset.range (N-k), lowerMat uu L a (k+l) * cj h (lowerMat uu L b (k+l)) else S a b := by
      intro a b
      show (if k ≤ a ∧ a < k + (N-k) ∧ k ≤ b ∧ b < k + (N-k) then
        rkLower bk o ol xrm brm crm h uu lc α fuel (N-k) (sub L k k) (sub S k k) (a-k) (b-k) else S a b) = _
      by_cases c : k ≤ a ∧ a < k + (N-k) ∧ k ≤ b ∧ b < k + (N-k)
      · have es : sub S k k (a-k) (b-k) = S a b := by
          show S (k+(a-k)) (k+(b-k)) = _
          rw [show k + (a-k) = a by omega, show k + (b-k) = b by omega]
        rw [if_pos c, m1, es]
        by_cases d : b ≤ a
        · rw [if_pos (by omega), if_pos (by omega)]
          congr 2
          refine Finset.sum_congr rfl fun l _ => ?_
          rw [lowerMat_shift', lowerMat_shift', show k + (a-k) = a by omega, show k + (b-k) = b by omega]
        · rw [if_neg (by omega), if_neg (by omega)]
      · rw [if_neg c, if_neg (by omega)]
    generalize paste S k k (N-k) (N-k) (rkLower bk o ol xrm brm crm h uu lc α fuel (N-k) (sub L k k) (sub S k k)) = S1 at p1
    have hreal : ∀ (n r a : Nat), h = true → RCLike.im (α * ∑ l ∈ Finset.range n, lowerMat uu L a (r+l) * cj h (lowerMat uu L a (r+l))) = 0 := by
      intro n r a e
      have e1 := cj_self_real h (fun l => lowerMat uu L a (r+l)) n e
      rw [RCLike.mul_im, (hh e).1, e1]; simp
    have hrk := SymRK.rankK_add_spec bk.rk bk.rk2 hbk.rk hbk.rk2 o xrm lc h (N-k) k α (fun i l => L (k+i) l) (sub S1 k k)
      (fun e => ⟨(hh e).1, fun a ha => by
        show RCLike.im (S1 (k+a) (k+a)) = 0
        rw [p1, if_pos (by omega), map_add, (hh e).2 (k+a) (by omega), hreal (N-k) k (k+a) e, add_zero]⟩)
    generalize SymRK.rankK bk.rk bk.rk2 o xrm lc h true (N-k) k α (fun i l => L (k+i) l) (sub S1 k k) = T at hrk
    have p2 : ∀ a b, paste S1 k k (N-k) (N-k) T a b =
        if k ≤ b ∧ b ≤ a ∧ a < N then S a b + α * ∑ l ∈ Finset.range N, lowerMat uu L a l * cj h (lowerMat uu L b l) else S a b := by
      intro a b
      show (if k ≤ a ∧ a < k + (N-k) ∧ k ≤ b ∧ b < k + (N-k) then T (a-k) (b-k) else S1 a b) = _
      by_cases c : k ≤ a ∧ a < k + (N-k) ∧ k ≤ b ∧ b < k + (N-k)
      · have ea : k + (a-k) = a := by omega
        have eb : k + (b-k) = b := by omega
        rw [if_pos c, hrk]
        by_cases d : b ≤ a
        · rw [if_pos (show b - k ≤ a - k ∧ a - k < N - k by omega), if_pos rfl, if_pos (show k ≤ b ∧ b ≤ a ∧ a < N by omega)]
          show S1 (k+(a-k)) (k+(b-k)) + α * ∑ l ∈ Finset.range k, L (k+(a-k)) l * cj h (L (k+(b-k)) l) = _
          rw [ea, eb, p1, if_pos (by omega), sum_split kN.le]
          have : ∑ l ∈ Finset.range k, L a l * cj h (L b l) = ∑ l ∈ Finset.range k, lowerMat uu L a l * cj h (lowerMat uu L b l) := by
            refine Finset.sum_congr rfl fun l hl => ?_
            have hl := Finset.mem_range.mp hl
            unfold lowerMat
            rw [if_pos (by omega), if_pos (by omega)]
          rw [this]; ring
        · rw [if_neg (by omega), if_neg (by omega)]
          show S1 (k+(a-k)) (k+(b-k)) = _
          rw [ea, eb, p1, if_neg (by omega)]
      · rw [if_neg c, p1, if_neg (by omega), if_neg (by omega)]
    generalize paste S1 k k (N-k) (N-k) T = S2 at p2
    have hx := TriMul.addLower_spec bk.mb bk.mb2 hbk.mb hbk.mb2 brm crm (N-k) (N+1) ol k uu α
      (fun i j => cj h (L i j)) (fun a b => L (k+b) a) (fun a b => S2 (k+b) a) (by omega)
    generalize TriMul.addLower bk.mb bk.mb2 brm crm (N-k) (N+1) ol k uu α (fun i j => cj h (L i j)) (fun a b => L (k+b) a)
      (fun a b => S2 (k+b) a) = X at hx
    generalize hS3 : (fun a b => if k ≤ a ∧ a < N ∧ b < k then X b (a-k) else S2 a b : Nat → Nat → K) = S3
    have p3 : ∀ a b, S3 a b = if k ≤ a ∧ b ≤ a ∧ a < N then
        S a b + α * ∑ l ∈ Finset.range N, lowerMat uu L a l * cj h (lowerMat uu L b l) else S a b := by
      intro a b
      rw [← hS3]
      dsimp only
      by_cases c : k ≤ a ∧ a < N ∧ b < k
      · rw [if_pos c, if_pos (by omega), hx, if_pos (by omega), if_pos rfl, sum_split kN.le]
        have z : ∑ l ∈ Finset.range (N-k), lowerMat uu L a (k+l) * cj h (lowerMat uu L b (k+l)) = 0 := by
          refine Finset.sum_eq_zero fun l _ => ?_
          have : lowerMat uu L b (k+l) = 0 := by unfold lowerMat; rw [if_neg (by omega), if_neg (by omega)]
          rw [this, LDL.cj_zero, mul_zero]
        rw [z, add_zero]
        dsimp only
        rw [show k + (a-k) = a by omega, p2, if_neg (by omega)]
        congr 2
        refine Finset.sum_congr rfl fun l hl => ?_
        have hl := Finset.mem_range.mp hl
        rw [cj_lowerMat, mul_comm]
        congr 1
        unfold lowerMat; rw [if_pos (by omega)]
      · rw [if_neg c, p2]
        by_cases d : k ≤ b ∧ b ≤ a ∧ a < N
        · rw [if_pos d, if_pos (by omega)]
        · rw [if_neg d, if_neg (by omega)]
    rw [ih k L S3 k0 (by omega) (fun e => ⟨(hh e).1, fun a ha => by rw [p3, if_neg (by omega)]; exact (hh e).2 a (by omega)⟩)]
    by_cases c : j ≤ i ∧ i < k
    · rw [if_pos c, if_pos (by omega), sum_split kN.le, p3, if_neg (by omega)]
      have z : ∑ l ∈ Finset.range (N-k), lowerMat uu L i (k+l) * cj h (lowerMat uu L j (k+l)) = 0 := by
        refine Finset.sum_eq_zero fun l _ => ?_
        have : lowerMat uu L j (k+l) = 0 := by unfold lowerMat; rw [if_neg (by omega), if_neg (by omega)]
        rw [this, LDL.cj_zero, mul_zero]
      rw [z, add_zero]
    · rw [if_neg c, p3]
      by_cases d : k ≤ i ∧ j ≤ i ∧ i < N
      · rw [if_pos d, if_pos (by omega)]
      · rw [if_neg d, if_neg (by omega)]

/-- `A += alpha*U*U†` (`U*U^T`), stored in the upper triangle. -/
theorem rkUpper_spec (bk : UBlk) (hbk : bk.OK) (o ol : Ord) (xrm brm crm h uu lc : Bool) (α : K) (hc : lc = true → h = true ∨ uu = true) :
    ∀ (fuel N : Nat) (U M : Nat → Nat → K), 0 < N → N ≤ fuel → (h = true → RCLike.im α = 0 ∧ ∀ i, i < N → RCLike.im (M i i) = 0) →
    ∀ i j, rkUpper bk o ol xrm brm crm h uu lc α fuel N U M i j = if i ≤ j ∧ j < N then
      M i j + α * ∑ l ∈ Finset.range N, upperMat uu U i l * cj h (upperMat uu U j l) else M i j := by
  intro fuel
  induction fuel with
  | zero => intro N U M h0 hf; omega
  | succ fuel ih =>
    intro N U M h0 hf hh i j
    have hα : cj h α = α := by
      cases h
      · rfl
      · exact RCLike.conj_eq_iff_im.mpr (hh rfl).1
    unfold rkUpper
    rw [hα]
    by_cases h1 : N = 1
    · subst h1
      rw [if_pos rfl]
      by_cases c : i ≤ j ∧ j < 1
      · obtain rfl : j = 0 := by omega
        obtain rfl : i = 0 := by omega
        rw [if_pos c]
        simp only [setE, and_self, if_true]
        rw [rkBase_eq h uu lc α _ _ hc]
        simp [upperMat]
      · rw [if_neg c]; simp only [setE]; rw [if_neg (by omega)]
    rw [if_neg h1]
    obtain ⟨k0, kN⟩ := Tri.splitAt_spec bk.rk N hbk.rk (by omega)
    generalize splitAt bk.rk N = k at k0 kN
    have m1 := ih k U M k0 (by omega) (fun e => ⟨(hh e).1, fun a ha => (hh e).2 a (by omega)⟩)
    generalize rkUpper bk o ol xrm brm crm h uu lc α fuel k U M = M1 at m1
    have hreal : ∀ (n a : Nat), h = true → RCLike.im (α * ∑ l ∈ Finset.range n, upperMat uu U a l * cj h (upperMat uu U a l)) = 0 := by
      intro n a e
      have e1 := cj_self_real h (fun l => upperMat uu U a l) n e
      rw [RCLike.mul_im, (hh e).1, e1]; simp
    have hrk := SymRK.rankK_add_spec bk.rk bk.rk2 hbk.rk hbk.rk2 o xrm (xor h lc) h k (N-k) α (fun i l => cj h (U i (k+l))) (TriProd.tr M1)
      (fun e => ⟨(hh e).1, fun a ha => by
        show RCLike.im (M1 a a) = 0
        rw [m1, if_pos (by omega), map_add, (hh e).2 a (by omega), hreal k a e, add_zero]⟩)
    generalize SymRK.rankK bk.rk bk.rk2 o xrm (xor h lc) h true k (N-k) α (fun i l => cj h (U i (k+l))) (TriProd.tr M1) = T at hrk
    have p2 : ∀ a b, TriProd.tr T a b =
        if a ≤ b ∧ b < k then M a b + α * ∑ l ∈ Finset.range N, upperMat uu U a l * cj h (upperMat uu U b l) else M a b := by
      intro a b
      show T b a = _
      rw [hrk]
      by_cases c : a ≤ b ∧ b < k
      · rw [if_pos c, if_pos c, if_pos rfl, sum_split kN.le]
        show M1 a b + _ = _
        rw [m1, if_pos c]
        have : ∑ l ∈ Finset.range (N-k), cj h (U b (k+l)) * cj h (cj h (U a (k+l))) =
            ∑ l ∈ Finset.range (N-k), upperMat uu U a (k+l) * cj h (upperMat uu U b (k+l)) := by
          refine Finset.sum_congr rfl fun l hl => ?_
          have hl := Finset.mem_range.mp hl
          have e : cj h (cj h (U a (k+l))) = U a (k+l) := by cases h <;> simp [cj]
          rw [e]
          unfold upperMat
          rw [if_pos (by omega), if_pos (by omega), mul_comm]
        dsimp only
        rw [this]; ring
      · rw [if_neg c, if_neg c]
        show M1 a b = _
        rw [m1, if_neg c]
    generalize TriProd.tr T = M2 at p2
    have hx := TriMul.addUpper_spec bk.mb bk.mb2 hbk.mb hbk.mb2 brm crm k (N+1) ol (N-k) uu α
      (fun i j => cj h (U (k+i) (k+j))) (fun a b => U b (k+a)) (fun a b => M2 b (k+a)) (by omega)
    generalize TriMul.addUpper bk.mb bk.mb2 brm crm k (N+1) ol (N-k) uu α (fun i j => cj h (U (k+i) (k+j))) (fun a b => U b (k+a))
      (fun a b => M2 b (k+a)) = X at hx
    generalize hM3 : (fun a b => if a < k ∧ k ≤ b ∧ b < N then X (b-k) a else M2 a b : Nat → Nat → K) = M3
    have p3 : ∀ a b, M3 a b = if a < k ∧ a ≤ b ∧ b < N then
        M a b + α * ∑ l ∈ Finset.range N, upperMat uu U a l * cj h (upperMat uu U b l) else M a b := by
      intro a b
      rw [← hM3]
      dsimp only
      by_cases c : a < k ∧ k ≤ b ∧ b < N
      · rw [if_pos c, if_pos (by omega), hx, if_pos (by omega), if_pos rfl, sum_split kN.le]
        have z : ∑ l ∈ Finset.range k, upperMat uu U a l * cj h (upperMat uu U b l) = 0 := by
          refine Finset.sum_eq_zero fun l hl => ?_
          have hl := Finset.mem_range.mp hl
          have : upperMat uu U b l = 0 := by unfold upperMat; rw [if_neg (by omega), if_neg (by omega)]
          rw [this, LDL.cj_zero, mul_zero]
        rw [z, zero_add]
        dsimp only
        rw [show k + (b-k) = b by omega, p2, if_neg (by omega)]
        congr 2
        refine Finset.sum_congr rfl fun l hl => ?_
        have hl := Finset.mem_range.mp hl
        rw [cj_upperMat h uu (fun i j => U (k+i) (k+j)), mul_comm]
        have e2 : upperMat uu (fun i j => U (k+i) (k+j)) (b-k) l = upperMat uu U b (k+l) := by
          have := Tri.upperMat_shift uu U k (b-k) l
          rw [show k + (b-k) = b by omega] at this
          exact this
        rw [e2]
        congr 1
        unfold upperMat; rw [if_pos (by omega)]
      · rw [if_neg c, p2]
        by_cases d : a ≤ b ∧ b < k
        · rw [if_pos d, if_pos (by omega)]
        · rw [if_neg d, if_neg (by omega)]
    have m4 := ih (N-k) (sub U k k) (sub M3 k k) (by omega) (by omega) (fun e => ⟨(hh e).1, fun a ha => by
      show RCLike.im (M3 (k+a) (k+a)) = 0
      rw [p3, if_neg (by omega)]; exact (hh e).2 _ (by omega)⟩)
    show (if k ≤ i ∧ i < k + (N-k) ∧ k ≤ j ∧ j < k + (N-k) then
        rkUpper bk o ol xrm brm crm h uu lc α fuel (N-k) (sub U k k) (sub M3 k k) (i-k) (j-k) else M3 i j) = _
    by_cases c : k ≤ i ∧ i < k + (N-k) ∧ k ≤ j ∧ j < k + (N-k)
    · have es : sub M3 k k (i-k) (j-k) = M i j := by
        show M3 (k+(i-k)) (k+(j-k)) = _
        rw [show k + (i-k) = i by omega, show k + (j-k) = j by omega, p3, if_neg (by omega)]
      rw [if_pos c, m4, es]
      by_cases d : i ≤ j
      · rw [if_pos (by omega), if_pos (by omega), sum_split kN.le (fun l => upperMat uu U i l * cj h (upperMat uu U j l))]
        have z : ∑ l ∈ Finset.range k, upperMat uu U i l * cj h (upperMat uu U j l) = 0 := by
          refine Finset.sum_eq_zero fun l hl => ?_
          have hl := Finset.mem_range.mp hl
          have : upperMat uu U j l = 0 := by unfold upperMat; rw [if_neg (by omega), if_neg (by omega)]
          rw [this, LDL.cj_zero, mul_zero]
        rw [z, zero_add]
        congr 2
        refine Finset.sum_congr rfl fun l _ => ?_
        rw [Tri.upperMat_shift, Tri.upperMat_shift, show k + (i-k) = i by omega, show k + (j-k) = j by omega]
      · rw [if_neg (by omega), if_neg (by omega)]
    · rw [if_neg c, p3]
      by_cases d : i ≤ j ∧ j < N
      · rw [if_pos d, if_pos (by omega)]
      · rw [if_neg d, if_neg (by omega)]

/-- **C80**: `A += alpha*L*L†`, `A = alpha*L*L†` (transposes if `A` is symmetric), in the lower triangle.
Missing, because it is false: `A = 0*L*L†` (`rankKLower_zero_violated`), and adding with a conjugated `L` to a symmetric `A`
(`rankKLower_conj_violated`). -/
theorem rankKLower_partial (bk : UBlk) (hbk : bk.OK) (o ol : Ord) (xrm brm crm bst h uu lc add : Bool) (α : K) (N : Nat) (L S : Nat → Nat → K)
    (hh : h = true → RCLike.im α = 0 ∧ ∀ i, i < N → RCLike.im (S i i) = 0) (ha : add = false → α ≠ 0)
    (hc : add = true → lc = true → h = true ∨ uu = true) (i j : Nat) :
    rankKLower bk o ol xrm brm crm bst h uu lc add α N L S i j = if j ≤ i ∧ i < N then
      (if add then S i j else 0) + α * ∑ l ∈ Finset.range N, lowerMat uu L i l * cj h (lowerMat uu L j l) else S i j := by
  unfold rankKLower
  by_cases h0 : α ≠ 0 ∧ N > 0
  · rw [if_pos h0]
    cases add
    · simp only [Bool.not_false, if_true]
      rw [setLLt_spec bk hbk o xrm brm bst h (N+1) N _ h0.2 (by omega)]
      by_cases c : j ≤ i ∧ i < N
      · rw [if_pos c, if_pos c, if_pos c]
        simp only [Bool.false_eq_true, if_false, zero_add]
        rw [mul_comm]
        congr 1
        refine Finset.sum_congr rfl fun l hl => ?_
        have key : ∀ a, a < N → lowerMat false (fun i j => if j ≤ i ∧ i < N then (if i = j ∧ uu then (1:K) else L i j) else S i j) a l =
            lowerMat uu L a l := by
          intro a ha
          unfold lowerMat
          by_cases d : l < a
          · rw [if_pos d, if_pos d]; dsimp only; rw [if_pos (by omega), if_neg (by omega)]
          · rw [if_neg d, if_neg d]
            by_cases e : a = l
            · rw [if_pos e, if_pos e]; simp [ha]
            · rw [if_neg e, if_neg e]
        rw [key i (by omega), key j (by omega)]
      · rw [if_neg c, if_neg c, if_neg c, if_neg c]
    · simp only [Bool.not_true, Bool.false_eq_true, if_false, if_true]
      exact rkLower_spec bk hbk o ol xrm brm crm h uu lc α (hc rfl) (N+1) N L S h0.2 (by omega) hh i j
  · rw [if_neg h0]
    by_cases c : j ≤ i ∧ i < N
    · have hα : α = 0 := by
        by_contra hne
        exact h0 ⟨hne, by omega⟩
      have : add = true := by
        cases add
        · exact absurd hα (ha rfl)
        · rfl
      rw [if_pos c, this, hα]; simp
    · rw [if_neg c]

/-- **C80**: `A += alpha*U*U†`, `A = alpha*U*U†` (transposes if `A` is symmetric), in the upper triangle. -/
theorem rankKUpper_partial (bk : UBlk) (hbk : bk.OK) (o ol : Ord) (xrm brm crm bst h uu lc add : Bool) (α : K) (N : Nat) (U M : Nat → Nat → K)
    (hh : h = true → RCLike.im α = 0 ∧ ∀ i, i < N → RCLike.im (M i i) = 0) (ha : add = false → α ≠ 0)
    (hc : add = true → lc = true → h = true ∨ uu = true) (i j : Nat) :
    rankKUpper bk o ol xrm brm crm bst h uu lc add α N U M i j = if i ≤ j ∧ j < N then
      (if add then M i j else 0) + α * ∑ l ∈ Finset.range N, upperMat uu U i l * cj h (upperMat uu U j l) else M i j := by
  unfold rankKUpper
  by_cases h0 : α ≠ 0 ∧ N > 0
  · rw [if_pos h0]
    cases add
    · simp only [Bool.not_false, if_true]
      have key0 : setUUt bk o xrm brm bst h (N+1) N (fun i j => if i ≤ j ∧ j < N then (if i = j ∧ uu then (1:K) else U i j) else M i j) i j =
          if i ≤ j ∧ j < N then ∑ l ∈ Finset.range N, upperMat uu U i l * cj h (upperMat uu U j l) else M i j := by
        rw [setUUt_spec bk hbk o xrm brm bst h (N+1) N _ h0.2 (by omega)]
        by_cases c : i ≤ j ∧ j < N
        · rw [if_pos c, if_pos c]
          refine Finset.sum_congr rfl fun l hl => ?_
          have hl := Finset.mem_range.mp hl
          have key : ∀ a, a < N → upperMat false (fun i j => if i ≤ j ∧ j < N then (if i = j ∧ uu then (1:K) else U i j) else M i j) a l =
              upperMat uu U a l := by
            intro a ha
            unfold upperMat
            by_cases d : a < l
            · rw [if_pos d, if_pos d]; dsimp only; rw [if_pos (by omega), if_neg (by omega)]
            · rw [if_neg d, if_neg d]
              by_cases e : a = l
              · rw [if_pos e, if_pos e]; simp [ha]
              · rw [if_neg e, if_neg e]
          rw [key i (by omega), key j (by omega)]
        · rw [if_neg c, if_neg c, if_neg c]
      have key1 : (if α ≠ 1 then (fun i j => if i ≤ j ∧ j < N then setUUt bk o xrm brm bst h (N+1) N (fun i j => if i ≤ j ∧ j < N then (if i = j ∧ uu then (1:K) else U i j) else M i j) i j * α else setUUt bk o xrm brm bst h (N+1) N (fun i j => if i ≤ j ∧ j < N then (if i = j ∧ uu then (1:K) else U i j) else M i j) i j)
          else setUUt bk o xrm brm bst h (N+1) N (fun i j => if i ≤ j ∧ j < N then (if i = j ∧ uu then (1:K) else U i j) else M i j)) i j =
          if i ≤ j ∧ j < N then α * ∑ l ∈ Finset.range N, upperMat uu U i l * cj h (upperMat uu U j l) else M i j := by
        by_cases c1 : α ≠ 1
        · rw [if_pos c1]
          rw [key0]
          by_cases c : i ≤ j ∧ j < N
          · rw [if_pos c, if_pos c, if_pos c, mul_comm]
          · rw [if_neg c, if_neg c, if_neg c]
        · rw [if_neg c1, key0, not_not.mp c1, one_mul]
      refine key1.trans ?_
      simp
    · simp only [Bool.not_true, Bool.false_eq_true, if_false, if_true]
      exact rkUpper_spec bk hbk o ol xrm brm crm h uu lc α (hc rfl) (N+1) N U M h0.2 (by omega) hh i j
  · rw [if_neg h0]
    by_cases c : i ≤ j ∧ j < N
    · have hα : α = 0 := by
        by_contra hne
        exact h0 ⟨hne, by omega⟩
      have : add = true := by
        cases add
        · exact absurd hα (ha rfl)
        · rfl
      rw [if_pos c, this, hα]; simp
    · rw [if_neg c]

/-- **C80 violated**: `A = 0*L*L†` leaves `A` as it was instead of making it zero. -/
theorem rankKLower_zero_violated (bk : UBlk) (o ol : Ord) (xrm brm crm bst h uu lc : Bool) (N : Nat) (L S : Nat → Nat → K) :
    rankKLower bk o ol xrm brm crm bst h uu lc false 0 N L S = S ∧ rankKUpper bk o ol xrm brm crm bst h uu lc false 0 N L S = S := by
  constructor
  · unfold rankKLower; rw [if_neg (by simp)]
  · unfold rankKUpper; rw [if_neg (by simp)]

/-- **C80 violated**: adding `L*L^T` with a conjugated view `L` to a symmetric matrix adds the square of the conjugate of the diagonal
element: for `L = (1+i)` and `A = (0)` the result is `-2i`, not `2i`. -/
theorem rankKLower_conj_violated (bk : UBlk) (o ol : Ord) (xrm brm crm bst : Bool) :
    ¬ ∀ L S : Nat → Nat → ℂ, rankKLower bk o ol xrm brm crm bst false false true true 1 1 L S 0 0 = S 0 0 + L 0 0 * L 0 0 := by
  intro hc
  have := hc (fun _ _ => 1 + Complex.I) (fun _ _ => 0)
  simp [rankKLower, rkLower, rkBase, setE, cj] at this
  have := congrArg Complex.im this
  norm_num at this

/-- A Hermitian 2×2 matrix and `alpha = 1` meet the hypotheses. -/
example : (true = true → RCLike.im (1:ℂ) = 0 ∧ ∀ i, i < 2 → RCLike.im ((fun i j => if i = j then 1 else Complex.I : Nat → Nat → ℂ) i i) = 0) := by
  intro _
  simp

end
end TMV.CH
