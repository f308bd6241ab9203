import Verif.Model.CHDiv
import Verif.Props.CH
import Verif.Props.LUDiv
import Verif.Props.TriProd
import Verif.Props.LDLDet

/-! C77, C78: division, determinant and inverse with the Cholesky decomposition; `U U†` and `L L†` in place. -/
namespace TMV.CH
open Tri (Ord splitAt sub paste)
noncomputable section
open Classical
open SymRK (RealDiag normSq_eq re_of_real Updated)
open TriProd (IsInv)
variable {K : Type} [RCLike K]

structure UBlk.OK (bk : UBlk) : Prop where
  rk : 0 < bk.rk
  rk2 : 0 < bk.rk2
  mb : 0 < bk.mb
  mb2 : 0 < bk.mb2
  ti : 0 < bk.ti

theorem sum_split {N k : Nat} (hk : k ≤ N) (f : Nat → K) :
    ∑ l ∈ Finset.range N, f l = ∑ l ∈ Finset.range k, f l + ∑ l ∈ Finset.range (N-k), f (k+l) := by
  conv_lhs => rw [show N = k + (N-k) by omega]
  exact Finset.sum_range_add f k (N-k)

theorem cj_self_real (h : Bool) (f : Nat → K) (n : Nat) (hh : h = true) :
    RCLike.im (∑ l ∈ Finset.range n, f l * cj h (f l)) = 0 := by
  subst hh
  rw [map_sum]
  refine Finset.sum_eq_zero fun l _ => ?_
  simp only [cj, if_true, RCLike.star_def, RCLike.mul_conj]
  norm_cast

/-- `RecursiveSetUUt` replaces the upper triangle `U` by that of `U U†` (`U U^T`) and writes nothing else. -/
theorem setUUt_spec (bk : UBlk) (hbk : bk.OK) (o : Ord) (xrm brm bst h : Bool) : ∀ (fuel N : Nat) (M : Nat → Nat → K), 0 < N → N ≤ fuel →
    ∀ i j, setUUt bk o xrm brm bst h fuel N M i j = if i ≤ j ∧ j < N then
      ∑ l ∈ Finset.range N, upperMat false M i l * cj h (upperMat false M j l) else M i j := by
  intro fuel
  induction fuel with
  | zero => intro N M h0 hf; omega
  | succ fuel ih =>
    intro N M h0 hf i j
    unfold setUUt
    by_cases h1 : N = 1
    · subst h1
      rw [if_pos rfl]
      by_cases c : i ≤ j ∧ j < 1
      · obtain rfl : j = 0 := by omega
        obtain rfl : i = 0 := by omega
        rw [if_pos c]
        cases h <;> simp [setE, upperMat, cj, normSq_eq]
      · rw [if_neg c]; simp only [setE]; rw [if_neg (by omega)]
    rw [if_neg h1]
    obtain ⟨k0, kN⟩ := Tri.splitAt_spec bk.rk N hbk.rk (by omega)
    generalize splitAt bk.rk N = k at k0 kN
    have m1 := ih k M k0 (by omega)
    generalize setUUt bk o xrm brm bst h fuel k M = M1 at m1
    have m1' : ∀ a b, ¬ (a ≤ b ∧ b < k) → M1 a b = M a b := fun a b hab => by rw [m1, if_neg hab]
    have hrk := SymRK.rankK_add_spec bk.rk bk.rk2 hbk.rk hbk.rk2 o xrm h h k (N-k) (1:K) (fun i l => cj h (M1 i (k+l))) (TriProd.tr M1)
      (fun hh => ⟨by simp, fun a ha => by
        show RCLike.im (M1 a a) = 0
        rw [m1, if_pos ⟨le_rfl, ha⟩]
        exact cj_self_real h _ k hh⟩)
    generalize hM2 : SymRK.rankK bk.rk bk.rk2 o xrm h h true k (N-k) (1:K) (fun i l => cj h (M1 i (k+l))) (TriProd.tr M1) = T at hrk
    have m2 : ∀ a b, TriProd.tr T a b = if a ≤ b ∧ b < k then
        ∑ l ∈ Finset.range N, upperMat false M a l * cj h (upperMat false M b l) else M a b := by
      intro a b
      show T b a = _
      rw [hrk b a]
      by_cases c : a ≤ b ∧ b < k
      · rw [if_pos c, if_pos c, if_pos rfl]
        show M1 a b + 1 * ∑ l ∈ Finset.range (N-k), cj h (M1 b (k+l)) * cj h (cj h (M1 a (k+l))) = _
        rw [one_mul]
        rw [m1, if_pos c, sum_split kN.le]
        congr 1
        refine Finset.sum_congr rfl fun l _ => ?_
        rw [LDL.cj_inv, m1' b (k+l) (by omega), m1' a (k+l) (by omega), mul_comm]
        unfold upperMat
        rw [if_pos (by omega), if_pos (by omega)]
      · rw [if_neg c, if_neg c]
        show M1 a b = M a b
        exact m1' a b c
    have m2' : ∀ a b, ¬ (a ≤ b ∧ b < k) → TriProd.tr T a b = M a b := fun a b hab => by rw [m2, if_neg hab]
    generalize TriProd.tr T = M2 at m2 m2'
    have hx := TriMul.upperRec_spec bk.mb bk.mb2 hbk.mb hbk.mb2 (LU.Ord.tr o) brm bst k (N+1) (N-k) false false (1:K)
      (fun i j => cj h (M2 (k+i) (k+j))) (fun a b => M2 b (k+a)) (by omega)
    generalize TriMul.upperRec bk.mb bk.mb2 (LU.Ord.tr o) false brm bst k (N+1) (N-k) false (1:K) (fun i j => cj h (M2 (k+i) (k+j)))
      (fun a b => M2 b (k+a)) = X at hx
    have m3 : ∀ a b, (if a < k ∧ k ≤ b ∧ b < N then X (b-k) a else M2 a b) = if a < k ∧ a ≤ b ∧ b < N then
        ∑ l ∈ Finset.range N, upperMat false M a l * cj h (upperMat false M b l) else M a b := by
      intro a b
      by_cases c : a < k ∧ k ≤ b ∧ b < N
      · rw [if_pos c, if_pos (by omega), hx, if_pos (by omega), one_mul, sum_split kN.le]
        rw [Finset.sum_eq_zero (s := Finset.range k), zero_add]
        · refine Finset.sum_congr rfl fun l hl => ?_
          have hl := Finset.mem_range.mp hl
          dsimp only
          rw [m2' a (k+l) (by omega), mul_comm]
          congr 1
          · unfold upperMat; rw [if_pos (by omega)]
          · unfold upperMat
            by_cases d1 : b - k < l
            · rw [if_pos d1, if_pos (by omega)]
              dsimp only
              rw [m2' _ _ (by omega), show k + (b-k) = b by omega]
            · rw [if_neg d1, if_neg (show ¬ b < k + l by omega)]
              by_cases d2 : b - k = l
              · rw [if_pos d2, if_pos (show b = k + l by omega)]
                simp only [Bool.false_eq_true, if_false]
                rw [m2' _ _ (by omega), show k + (b-k) = b by omega]
              · rw [if_neg d2, if_neg (show ¬ b = k + l by omega), LDL.cj_zero]
        · intro l hl
          have hl := Finset.mem_range.mp hl
          have : upperMat false M b l = 0 := by unfold upperMat; rw [if_neg (by omega), if_neg (by omega)]
          rw [this, LDL.cj_zero, mul_zero]
      · rw [if_neg c, m2]
        by_cases d : a ≤ b ∧ b < k
        · rw [if_pos d, if_pos (by omega)]
        · rw [if_neg d, if_neg (by omega)]
    generalize hM3 : (fun a b => if a < k ∧ k ≤ b ∧ b < N then X (b-k) a else M2 a b : Nat → Nat → K) = M3
    have m3' : ∀ a b, M3 a b = if a < k ∧ a ≤ b ∧ b < N then
        ∑ l ∈ Finset.range N, upperMat false M a l * cj h (upperMat false M b l) else M a b := fun a b => by rw [← hM3]; exact m3 a b
    have m4 := ih (N-k) (sub M3 k k) (by omega) (by omega)
    show (if k ≤ i ∧ i < k + (N-k) ∧ k ≤ j ∧ j < k + (N-k) then setUUt bk o xrm brm bst h fuel (N-k) (sub M3 k k) (i-k) (j-k) else M3 i j) = _
    have hsub : ∀ a b, upperMat false (sub M3 k k) a b = upperMat false M (k+a) (k+b) := by
      intro a b
      unfold upperMat
      have e : sub M3 k k a b = M (k+a) (k+b) := by
        show M3 (k+a) (k+b) = _
        rw [m3', if_neg (by omega)]
      have e' : sub M3 k k a a = M (k+a) (k+a) := by
        show M3 (k+a) (k+a) = _
        rw [m3', if_neg (by omega)]
      by_cases d1 : a < b
      · rw [if_pos d1, if_pos (by omega), e]
      · rw [if_neg d1, if_neg (show ¬ k + a < k + b by omega)]
        by_cases d2 : a = b
        · rw [if_pos d2, if_pos (show k + a = k + b by omega), e']
        · rw [if_neg d2, if_neg (by omega)]
    by_cases c : k ≤ i ∧ i < k + (N-k) ∧ k ≤ j ∧ j < k + (N-k)
    · rw [if_pos c, m4]
      by_cases d : i ≤ j
      · rw [if_pos (by omega), if_pos (by omega), sum_split kN.le]
        rw [Finset.sum_eq_zero (s := Finset.range k), zero_add]
        · refine Finset.sum_congr rfl fun l hl => ?_
          rw [hsub, hsub, show k + (i-k) = i by omega, show k + (j-k) = j by omega]
        · intro l hl
          have hl := Finset.mem_range.mp hl
          have : upperMat false M i l = 0 := by unfold upperMat; rw [if_neg (by omega), if_neg (by omega)]
          rw [this, zero_mul]
      · rw [if_neg (by omega), if_neg (by omega)]
        show M3 (k+(i-k)) (k+(j-k)) = _
        rw [m3', if_neg (by omega), show k + (i-k) = i by omega, show k + (j-k) = j by omega]
    · rw [if_neg c, m3']
      by_cases d : i ≤ j ∧ j < N
      · rw [if_pos d, if_pos (by omega)]
      · rw [if_neg d, if_neg (by omega)]

/-- `RecursiveSetLLt` replaces the lower triangle `L` by that of `L L†` (`L L^T`) and writes nothing else. -/
theorem setLLt_spec (bk : UBlk) (hbk : bk.OK) (o : Ord) (xrm brm bst h : Bool) : ∀ (fuel N : Nat) (S : Nat → Nat → K), 0 < N → N ≤ fuel →
    ∀ i j, setLLt bk o xrm brm bst h fuel N S i j = if j ≤ i ∧ i < N then
      ∑ l ∈ Finset.range N, lowerMat false S i l * cj h (lowerMat false S j l) else S i j := by
  intro fuel
  induction fuel with
  | zero => intro N S h0 hf; omega
  | succ fuel ih =>
    intro N S h0 hf i j
    unfold setLLt
    by_cases h1 : N = 1
    · subst h1
      rw [if_pos rfl]
      by_cases c : j ≤ i ∧ i < 1
      · obtain rfl : i = 0 := by omega
        obtain rfl : j = 0 := by omega
        rw [if_pos c]
        cases h <;> simp [setE, lowerMat, cj, normSq_eq]
      · rw [if_neg c]; simp only [setE]; rw [if_neg (by omega)]
    rw [if_neg h1]
    obtain ⟨k0, kN⟩ := Tri.splitAt_spec bk.rk N hbk.rk (by omega)
    generalize splitAt bk.rk N = k at k0 kN
    have hsub : ∀ a b, lowerMat false (sub S k k) a b = lowerMat false S (k+a) (k+b) := by
      intro a b
      unfold lowerMat Tri.sub
      have e1 : (b < a) ↔ (k + b < k + a) := by omega
      have e2 : (a = b) ↔ (k + a = k + b) := by omega
      simp only [e1, e2]
    have m1 := ih (N-k) (sub S k k) (by omega) (by omega)
    have p1 : ∀ a b, paste S k k (N-k) (N-k) (setLLt bk o xrm brm bst h fuel (N-k) (sub S k k)) a b =
        if k ≤ b ∧ b ≤ a ∧ a < N then ∑ l ∈ Finset.range (N-k), lowerMat false S a (k+l) * cj h (lowerMat false S b (k+l)) else S a b := by
      intro a b
      show (if k ≤ a ∧ a < k + (N-k) ∧ k ≤ b ∧ b < k + (N-k) then setLLt bk o xrm brm bst h fuel (N-k) (sub S k k) (a-k) (b-k) else S a b) = _
      by_cases c : k ≤ a ∧ a < k + (N-k) ∧ k ≤ b ∧ b < k + (N-k)
      · rw [if_pos c, m1]
        by_cases d : b ≤ a
        · rw [if_pos (by omega), if_pos (by omega)]
          refine Finset.sum_congr rfl fun l _ => ?_
          rw [hsub, hsub, show k + (a-k) = a by omega, show k + (b-k) = b by omega]
        · rw [if_neg (by omega), if_neg (by omega)]
          show S (k+(a-k)) (k+(b-k)) = _
          rw [show k + (a-k) = a by omega, show k + (b-k) = b by omega]
      · rw [if_neg c, if_neg (by omega)]
    generalize paste S k k (N-k) (N-k) (setLLt bk o xrm brm bst h fuel (N-k) (sub S k k)) = S1 at p1
    have hrk := SymRK.rankK_add_spec bk.rk bk.rk2 hbk.rk hbk.rk2 o xrm false h (N-k) k (1:K) (fun i l => S1 (k+i) l) (sub S1 k k)
      (fun hh => ⟨by simp, fun a ha => by
        show RCLike.im (S1 (k+a) (k+a)) = 0
        rw [p1, if_pos (by omega)]
        exact cj_self_real h (fun l => lowerMat false S (k+a) (k+l)) (N-k) hh⟩)
    generalize SymRK.rankK bk.rk bk.rk2 o xrm false h true (N-k) k (1:K) (fun i l => S1 (k+i) l) (sub S1 k k) = T at hrk
    have p2 : ∀ a b, paste S1 k k (N-k) (N-k) T a b =
        if k ≤ b ∧ b ≤ a ∧ a < N then ∑ l ∈ Finset.range N, lowerMat false S a l * cj h (lowerMat false S b l) else S a b := by
      intro a b
      show (if k ≤ a ∧ a < k + (N-k) ∧ k ≤ b ∧ b < k + (N-k) then T (a-k) (b-k) else S1 a b) = _
      by_cases c : k ≤ a ∧ a < k + (N-k) ∧ k ≤ b ∧ b < k + (N-k)
      · have ea : k + (a-k) = a := by omega
        have eb : k + (b-k) = b := by omega
        rw [if_pos c, hrk]
        by_cases d : b ≤ a
        · rw [if_pos (show b - k ≤ a - k ∧ a - k < N - k by omega), if_pos rfl, if_pos (show k ≤ b ∧ b ≤ a ∧ a < N by omega)]
          show S1 (k+(a-k)) (k+(b-k)) + 1 * ∑ l ∈ Finset.range k, S1 (k+(a-k)) l * cj h (S1 (k+(b-k)) l) = _
          rw [one_mul, ea, eb, p1, if_pos (by omega), sum_split kN.le, add_comm]
          congr 1
          refine Finset.sum_congr rfl fun l hl => ?_
          have hl := Finset.mem_range.mp hl
          rw [p1, if_neg (by omega), p1, if_neg (by omega)]
          unfold lowerMat
          rw [if_pos (by omega), if_pos (by omega)]
        · rw [if_neg (by omega), if_neg (by omega)]
          show S1 (k+(a-k)) (k+(b-k)) = _
          rw [ea, eb, p1, if_neg (by omega)]
      · rw [if_neg c, p1, if_neg (by omega), if_neg (by omega)]
    generalize paste S1 k k (N-k) (N-k) T = S2 at p2
    have hx := TriMul.lowerRec_spec bk.mb bk.mb2 hbk.mb hbk.mb2 o brm bst (N-k) (N+1) k false false (1:K)
      (fun i j => cj h (S2 i j)) (fun a b => S2 (k+b) a) (by omega)
    generalize TriMul.lowerRec bk.mb bk.mb2 o false brm bst (N-k) (N+1) k false (1:K) (fun i j => cj h (S2 i j)) (fun a b => S2 (k+b) a) = X at hx
    generalize hS3 : (fun a b => if k ≤ a ∧ a < N ∧ b < k then X b (a-k) else S2 a b : Nat → Nat → K) = S3
    have p3 : ∀ a b, S3 a b = if k ≤ a ∧ b ≤ a ∧ a < N then
        ∑ l ∈ Finset.range N, lowerMat false S a l * cj h (lowerMat false S b l) else S a b := by
      intro a b
      rw [← hS3]
      dsimp only
      by_cases c : k ≤ a ∧ a < N ∧ b < k
      · rw [if_pos c, if_pos (by omega), hx, if_pos (by omega), one_mul, sum_split kN.le]
        have z : ∑ l ∈ Finset.range (N-k), lowerMat false S a (k+l) * cj h (lowerMat false S b (k+l)) = 0 := by
          refine Finset.sum_eq_zero fun l _ => ?_
          have : lowerMat false S b (k+l) = 0 := by unfold lowerMat; rw [if_neg (by omega), if_neg (by omega)]
          rw [this, LDL.cj_zero, mul_zero]
        rw [z, add_zero]
        refine Finset.sum_congr rfl fun l hl => ?_
        have hl := Finset.mem_range.mp hl
        dsimp only
        rw [show k + (a-k) = a by omega, p2, if_neg (by omega), mul_comm]
        congr 1
        · unfold lowerMat; rw [if_pos (by omega)]
        · unfold lowerMat
          by_cases d1 : l < b
          · rw [if_pos d1, if_pos d1]; dsimp only; rw [p2, if_neg (by omega)]
          · rw [if_neg d1, if_neg d1]
            by_cases d2 : b = l
            · rw [if_pos d2, if_pos d2]
              simp only [Bool.false_eq_true, if_false]
              rw [p2, if_neg (by omega)]
            · rw [if_neg d2, if_neg d2, LDL.cj_zero]
      · rw [if_neg c, p2]
        by_cases d : k ≤ b ∧ b ≤ a ∧ a < N
        · rw [if_pos d, if_pos (by omega)]
        · rw [if_neg d, if_neg (by omega)]
    rw [ih k S3 k0 (by omega)]
    have hlow : ∀ a b, a < k → lowerMat false S3 a b = lowerMat false S a b := by
      intro a b ha
      unfold lowerMat
      by_cases d1 : b < a
      · rw [if_pos d1, if_pos d1, p3, if_neg (by omega)]
      · rw [if_neg d1, if_neg d1, p3 a a, if_neg (show ¬ (k ≤ a ∧ a ≤ a ∧ a < N) by omega)]
    by_cases c : j ≤ i ∧ i < k
    · rw [if_pos c, if_pos (by omega), sum_split kN.le]
      have z : ∑ l ∈ Finset.range (N-k), lowerMat false S i (k+l) * cj h (lowerMat false S j (k+l)) = 0 := by
        refine Finset.sum_eq_zero fun l _ => ?_
        have : lowerMat false S j (k+l) = 0 := by unfold lowerMat; rw [if_neg (by omega), if_neg (by omega)]
        rw [this, LDL.cj_zero, mul_zero]
      rw [z, add_zero]
      refine Finset.sum_congr rfl fun l _ => ?_
      rw [hlow _ _ c.2, hlow _ _ (by omega)]
    · rw [if_neg c, p3]
      by_cases d : k ≤ i ∧ j ≤ i ∧ i < N
      · rw [if_pos d, if_pos (by omega)]
      · rw [if_neg d, if_neg (by omega)]

/-! The divider. -/

section
variable {N : Nat} {H L : Nat → Nat → K} (hL : CholeskyOf N H L)
include hL

theorem _root_.TMV.CholeskyOf.prod {i j : Nat} (hi : i < N) (hj : j < N) :
    H i j = ∑ k ∈ Finset.range N, lowerMat false L i k * star (lowerMat false L j k) := by
  rw [← hL.1 i j hi hj]
  have e : ∀ i k, lowerMat false L i k = if k ≤ i then L i k else 0 := by
    intro i k
    unfold lowerMat
    by_cases c : k < i
    · rw [if_pos c, if_pos (by omega)]
    · rw [if_neg c]
      by_cases c2 : i = k
      · subst c2; simp
      · rw [if_neg c2, if_neg (by omega)]
  simp only [e]

theorem _root_.TMV.CholeskyOf.diag_ne {i : Nat} (hi : i < N) : L i i ≠ 0 := by
  intro h0
  have := (hL.2 i hi).2
  rw [h0, map_zero] at this
  exact lt_irrefl _ this

omit hL in
theorem upper_star (L : Nat → Nat → K) (i j : Nat) : upperMat false (fun i j => star (L j i)) i j = star (lowerMat false L j i) := by
  unfold upperMat lowerMat
  by_cases c : i < j
  · rw [if_pos c, if_pos c]
  · rw [if_neg c, if_neg c]
    by_cases c2 : i = j
    · subst c2; simp
    · rw [if_neg c2, if_neg (fun e => c2 e.symm), star_zero]

/-- `CH_LDivEq` solves `H X = B`. -/
theorem lDivEq_spec (tb tb2 : Nat) (htb : 0 < tb) (htb2 : 0 < tb2) (o : Ord) (brm : Bool) (nc : Nat) (B : Nat → Nat → K) :
    ∃ X, lDivEq tb tb2 o brm N nc L B = some X ∧ SolM N nc H X B := by
  obtain ⟨Y, eY⟩ := Option.isSome_iff_exists.mp (Tri.lowerM_isSome tb tb2 htb htb2 o brm false N nc L B
    (fun i hi => by simpa [dg] using hL.diag_ne hi))
  obtain ⟨Z, eZ⟩ := Option.isSome_iff_exists.mp (Tri.upperM_isSome tb tb2 htb htb2 (LU.Ord.tr o) brm false N nc
    (fun i j => star (L j i)) Y (fun i hi => by simpa [dg] using hL.diag_ne hi))
  refine ⟨Z, by unfold lDivEq; rw [eY]; exact eZ, ?_, ?_⟩
  all_goals
    obtain ⟨l1, l2⟩ := Tri.lowerM_sound _ _ htb htb2 _ _ _ _ _ _ _ _ eY
    obtain ⟨u1, u2⟩ := Tri.upperM_sound _ _ htb htb2 _ _ _ _ _ _ _ _ eZ
  · intro i c hi hc
    rw [← l1 i c hi hc, Finset.sum_congr rfl fun j hj => by
      rw [hL.prod hi (Finset.mem_range.mp hj), Finset.sum_mul], Finset.sum_comm]
    refine Finset.sum_congr rfl fun k hk => ?_
    rw [← u1 k c (Finset.mem_range.mp hk) hc, Finset.mul_sum]
    refine Finset.sum_congr rfl fun j _ => ?_
    rw [upper_star]; ring
  · intro i c hic
    rw [u2 i c hic, l2 i c hic]

/-- `CH_RDivEq` solves `X H = B`. -/
theorem rDivEq_spec (tb tb2 : Nat) (htb : 0 < tb) (htb2 : 0 < tb2) (o : Ord) (bcm : Bool) (nr : Nat) (B : Nat → Nat → K) :
    ∃ X, rDivEq tb tb2 o bcm N nr L B = some X ∧
      (∀ r j, r < nr → j < N → ∑ k ∈ Finset.range N, X r k * H k j = B r j) ∧ ∀ r j, ¬ (r < nr ∧ j < N) → X r j = B r j := by
  obtain ⟨Y, eY⟩ := Option.isSome_iff_exists.mp (Tri.lowerM_isSome tb tb2 htb htb2 o bcm false N nr (fun i j => star (L i j)) (TriProd.tr B)
    (fun i hi => by simpa [dg] using hL.diag_ne hi))
  obtain ⟨Z, eZ⟩ := Option.isSome_iff_exists.mp (Tri.upperM_isSome tb tb2 htb htb2 (LU.Ord.tr o) bcm false N nr
    (fun i j => L j i) Y (fun i hi => by simpa [dg] using hL.diag_ne hi))
  refine ⟨TriProd.tr Z, by unfold rDivEq; rw [eY, Option.bind_some, eZ]; rfl, ?_, ?_⟩
  all_goals
    obtain ⟨l1, l2⟩ := Tri.lowerM_sound _ _ htb htb2 _ _ _ _ _ _ _ _ eY
    obtain ⟨u1, u2⟩ := Tri.upperM_sound _ _ htb htb2 _ _ _ _ _ _ _ _ eZ
  · intro r j hr hj
    have hB : B r j = TriProd.tr B j r := rfl
    rw [hB, ← l1 j r hj hr]
    have e : ∀ k, lowerMat false (fun i j => star (L i j)) j k = star (lowerMat false L j k) := by
      intro k
      unfold lowerMat
      by_cases c : k < j
      · rw [if_pos c, if_pos c]
      · rw [if_neg c, if_neg c]
        by_cases c2 : j = k
        · rw [if_pos c2, if_pos c2]; simp
        · rw [if_neg c2, if_neg c2, star_zero]
    have e2 : ∀ i k, upperMat false (fun i j => L j i) i k = lowerMat false L k i := fun i k => TriProd.tr_upper false L i k
    rw [Finset.sum_congr rfl fun k hk => by
      rw [hL.prod (Finset.mem_range.mp hk) hj, Finset.mul_sum], Finset.sum_comm]
    refine Finset.sum_congr rfl fun k hk => ?_
    rw [← u1 k r (Finset.mem_range.mp hk) hr, e, Finset.mul_sum]
    refine Finset.sum_congr rfl fun l _ => ?_
    rw [e2]
    show Z l r * (lowerMat false L l k * star (lowerMat false L j k)) = _
    ring
  · intro r j hrj
    show Z j r = B r j
    rw [u2 j r (by tauto), l2 j r (by tauto)]
    rfl

/-- The determinant is the square of the product of the diagonal. -/
theorem _root_.TMV.CholeskyOf.det : (Matrix.of fun i j : Fin N => H i j).det = (∏ i ∈ Finset.range N, L i i) * star (∏ i ∈ Finset.range N, L i i) := by
  have e : (Matrix.of fun i j : Fin N => H i j) = LDL.lead N (lowerMat false L) * (LDL.lead N (lowerMat false L)).conjTranspose := by
    ext i j
    simp only [LDL.lead, Matrix.mul_apply, Matrix.of_apply, Matrix.conjTranspose_apply]
    rw [hL.prod i.isLt j.isLt, Finset.sum_range]
  have d : (LDL.lead N (lowerMat false L)).det = ∏ i ∈ Finset.range N, L i i := by
    rw [Matrix.det_of_lowerTriangular, Finset.prod_range]
    · refine Finset.prod_congr rfl fun i _ => ?_
      simp [LDL.lead, lowerMat]
    · intro i j hij
      have hij' : (i : Nat) < j := hij
      simp only [LDL.lead, Matrix.of_apply, lowerMat]
      rw [if_neg (by omega), if_neg (by omega)]
  rw [e, Matrix.det_mul, Matrix.det_conjTranspose, d]

theorem det_isCholesky : det N L = (Matrix.of fun i j : Fin N => H i j).det ∧
    (logDet N L).1 = Real.log ‖(Matrix.of fun i j : Fin N => H i j).det‖ ∧ (logDet N L).2 = 1 ∧
    0 < RCLike.re (Matrix.of fun i j : Fin N => H i j).det := by
  rw [hL.det]
  obtain ⟨l1, l2⟩ := LU.logDetLoop_spec (fun i => L i i) N 0 ((0:ℝ), (1:K))
  have hz : ∀ k < N, L (0+k) (0+k) ≠ 0 := fun k hk => by rw [Nat.zero_add]; exact hL.diag_ne hk
  have l2 := l2 hz
  simp only [Nat.zero_add, Real.exp_zero, RCLike.ofReal_one, mul_one, one_mul] at l2
  have hs : (LU.logDetLoop (fun i => L i i) N 0 ((0:ℝ), (1:K))).2 ≠ 0 := by
    rw [Ne, l1]
    rintro (h | ⟨k, hk, h⟩)
    · simp at h
    · exact hz k hk h
  have hpos : ∀ n, n ≤ N → ∃ r : ℝ, 0 < r ∧ ∏ i ∈ Finset.range n, L i i = (r : K) := by
    intro n
    induction n with
    | zero => intro _; exact ⟨1, one_pos, by simp⟩
    | succ n ih =>
      intro hn
      obtain ⟨r, hr, e⟩ := ih (by omega)
      obtain ⟨a, b⟩ := hL.2 n (by omega)
      refine ⟨r * RCLike.re (L n n), mul_pos hr b, ?_⟩
      rw [Finset.prod_range_succ, e, RCLike.ofReal_mul, re_of_real a]
  obtain ⟨r, hr, er⟩ := hpos N le_rfl
  rw [er] at l2 ⊢
  generalize hg : LU.logDetLoop (fun i => L i i) N 0 ((0:ℝ), (1:K)) = g at l2 hs
  have hnorm : ‖g.2‖ = 1 := by
    have := LU.logDetLoop_norm (fun i => L i i) N 0 ((0:ℝ), (1:K)) hz
    rw [hg] at this
    simpa using this
  have hexp : Real.exp g.1 = r := by
    have := congrArg norm l2
    rw [norm_mul, hnorm, one_mul, RCLike.norm_ofReal, RCLike.norm_ofReal, abs_of_pos (Real.exp_pos _), abs_of_pos hr] at this
    exact this
  have hstar : (r : K) * star (r : K) = ((r * r : ℝ) : K) := by
    rw [RCLike.star_def, RCLike.conj_ofReal, RCLike.ofReal_mul]
  rw [hstar]
  refine ⟨?_, ?_, ?_, ?_⟩
  · unfold det
    dsimp only
    rw [hg, if_neg hs, two_mul, Real.exp_add, hexp]
  · unfold logDet
    dsimp only
    rw [hg, RCLike.norm_ofReal, abs_of_pos (mul_pos hr hr), Real.log_mul hr.ne' hr.ne', ← hexp, Real.log_exp]
    ring
  · unfold logDet
    dsimp only
    rw [hg, if_neg hs]
  · rw [RCLike.ofReal_re]; exact mul_pos hr hr

/-- `CH_Inverse` computes the lower triangle of `H⁻¹` and writes nothing else. -/
theorem inverse_isCholesky (bk : UBlk) (hbk : bk.OK) (o : Ord) (xrm brm bst crm cst : Bool) (sinv : Nat → Nat → K) :
    ∃ V, inverse bk o xrm brm bst crm cst N L sinv = some V ∧
      (∀ i j, i < N → j < N → ∑ k ∈ Finset.range N, H i k * hermMat V k j = if i = j then 1 else 0) ∧
      RealDiag N V ∧ ∀ i j, ¬ (j ≤ i ∧ i < N) → V i j = sinv i j := by
  unfold inverse
  by_cases hN : N > 0
  swap
  · rw [if_neg hN]
    exact ⟨sinv, rfl, fun i j hi => by omega, fun i hi => by omega, fun _ _ _ => rfl⟩
  rw [if_pos hN]
  dsimp only
  generalize hS0 : (fun i j => if j ≤ i ∧ i < N then L i j else sinv i j : Nat → Nat → K) = S0
  have e0 : ∀ i j, j ≤ i → i < N → S0 i j = L i j := fun i j h1 h2 => by rw [← hS0]; exact if_pos ⟨h1, h2⟩
  have e0' : ∀ i j, ¬ (j ≤ i ∧ i < N) → S0 i j = sinv i j := fun i j h1 => by rw [← hS0]; exact if_neg h1
  obtain ⟨t1, t2⟩ := TriProd.triInverse_spec bk.ti bk.mb bk.mb2 hbk.ti hbk.mb hbk.mb2 (LU.Ord.tr o) crm cst false N (TriProd.tr S0)
  obtain ⟨M, eM⟩ : ∃ M, TriProd.triInverse bk.ti bk.mb bk.mb2 (LU.Ord.tr o) crm cst false N (TriProd.tr S0) = some M := by
    apply Option.ne_none_iff_exists'.mp
    intro hc
    obtain ⟨-, i, hi, hz⟩ := t1.mp hc
    rw [show TriProd.tr S0 i i = L i i from e0 i i le_rfl hi] at hz
    exact hL.diag_ne hi hz
  obtain ⟨v1, v2⟩ := t2 M eM
  rw [eM, Option.bind_some]
  have hu := setUUt_spec bk hbk o xrm brm bst true (N+1) N M hN (by omega)
  generalize setUUt bk o xrm brm bst true (N+1) N M = W at hu
  have hlow : ∀ i j, i < N → j < N → lowerMat false S0 i j = lowerMat false L i j := fun i j hi hj => by
    unfold lowerMat
    by_cases c : j < i
    · rw [if_pos c, if_pos c, e0 i j (by omega) hi]
    · rw [if_neg c, if_neg c, e0 i i le_rfl hi]
  refine ⟨TriProd.tr W, rfl, ?_, ?_, ?_⟩
  · -- with `X i j = upperMat M j i`: `X L = 1`, the result is `X† X`
    let Lm := LDL.lead N (lowerMat false L)
    let X : Matrix (Fin N) (Fin N) K := Matrix.of fun i j => upperMat false M j i
    have hXL : X * Lm = 1 := by
      ext i j
      simp only [X, Lm, LDL.lead, Matrix.mul_apply, Matrix.of_apply]
      have := v1 j i j.isLt i.isLt
      rw [Finset.sum_range] at this
      simp only [TriProd.tr_upper] at this
      rw [Matrix.one_apply]
      have e : (i = j) ↔ ((j : Nat) = i) := by rw [Fin.ext_iff]; exact eq_comm
      simp only [e]
      rw [← this]
      refine Finset.sum_congr rfl fun k _ => ?_
      rw [hlow k j k.isLt j.isLt, mul_comm]
    have hLX : Lm * X = 1 := mul_eq_one_comm.mp hXL
    have hprod : (Lm * Lm.conjTranspose) * (X.conjTranspose * X) = 1 := by
      calc (Lm * Lm.conjTranspose) * (X.conjTranspose * X) = Lm * (Lm.conjTranspose * X.conjTranspose) * X := by
            simp only [Matrix.mul_assoc]
        _ = Lm * (X * Lm).conjTranspose * X := by rw [Matrix.conjTranspose_mul]
        _ = 1 := by rw [hXL, Matrix.conjTranspose_one, Matrix.mul_one, hLX]
    intro i j hi hj
    have e := congrFun (congrFun hprod ⟨i, hi⟩) ⟨j, hj⟩
    rw [Matrix.one_apply] at e
    simp only [Fin.ext_iff] at e
    rw [← e, Matrix.mul_apply, Finset.sum_range]
    refine Finset.sum_congr rfl fun k _ => ?_
    congr 1
    · rw [hL.prod hi k.isLt, Matrix.mul_apply, Finset.sum_range]
      rfl
    · rw [Matrix.mul_apply]
      simp only [X, Matrix.conjTranspose_apply, Matrix.of_apply]
      unfold hermMat
      have key : ∀ a b, b ≤ a → a < N → TriProd.tr W a b = ∑ l : Fin N, star (upperMat false M a l) * upperMat false M b l := by
        intro a b hba ha
        show W b a = _
        rw [hu, if_pos ⟨hba, ha⟩, Finset.sum_range]
        refine Finset.sum_congr rfl fun l _ => ?_
        simp only [cj, if_true]
        rw [mul_comm]
      by_cases c : j ≤ (k : Nat)
      · rw [if_pos c, key _ _ c k.isLt]
      · rw [if_neg c, key _ _ (by omega) hj, star_sum]
        refine Finset.sum_congr rfl fun l _ => ?_
        rw [star_mul', star_star, mul_comm]
  · intro i hi
    show RCLike.im (W i i) = 0
    rw [hu, if_pos ⟨le_rfl, hi⟩]
    exact cj_self_real true (fun l => upperMat false M i l) N rfl
  · intro i j hij
    show W j i = _
    rw [hu, if_neg hij, v2 j i (by simp; omega)]
    exact e0' i j hij

theorem makeInverse_isCholesky (bk : UBlk) (hbk : bk.OK) (o : Ord) (xrm brm bst crm cst : Bool) (minv : Nat → Nat → K) :
    ∃ V, makeInverse bk o xrm brm bst crm cst N L minv = some V ∧
      (∀ i j, i < N → j < N → ∑ k ∈ Finset.range N, H i k * V k j = if i = j then 1 else 0) ∧
      ∀ i j, ¬ (i < N ∧ j < N) → V i j = minv i j := by
  unfold makeInverse
  dsimp only
  generalize hm : (fun i j => if i = j ∧ i < N then ((RCLike.re (minv i i) : ℝ) : K) else minv i j : Nat → Nat → K) = m0
  have hm0 : ∀ i j, ¬ (i < N ∧ j < N) → m0 i j = minv i j := by
    intro i j hij
    rw [← hm]
    exact if_neg (by omega)
  obtain ⟨V, e, v1, v2, v3⟩ := inverse_isCholesky hL bk hbk o xrm brm bst crm cst m0
  rw [e, Option.bind_some]
  refine ⟨_, rfl, ?_, ?_⟩
  · intro i j hi hj
    rw [← v1 i j hi hj]
    refine Finset.sum_congr rfl fun k hk => ?_
    have hk := Finset.mem_range.mp hk
    congr 1
    unfold hermMat
    by_cases hN : N > 1
    · rw [if_pos hN]
      by_cases c : j ≤ k
      · rw [if_pos c, if_neg (by omega)]
      · rw [if_neg c, if_pos ⟨by omega, hj⟩]
    · rw [if_neg hN, if_pos (by omega)]
  · intro i j hij
    by_cases hN : N > 1
    · rw [if_pos hN]
      rw [if_neg (by omega), v3 i j (by omega), hm0 i j hij]
    · rw [if_neg hN, v3 i j (by omega), hm0 i j hij]

end

/-- Making the divider throws `NonPosDefHermMatrix` exactly when the Hermitian matrix is not positive definite, otherwise it holds the
Cholesky factor. -/
theorem make_spec (bk : Blks) (hbk : bk.OK) (o : Ord) (N : Nat) (A g : Nat → Nat → K) (hA : ∀ i j, i < N → j < N → A i j = star (A j i)) :
    (make bk o N A g = none ↔ ¬ PosDef N A) ∧ ∀ L, make bk o N A g = some L → CholeskyOf N A L := by
  have hr : RealDiag N (fun i j => if j ≤ i ∧ i < N then A i j else g i j) := by
    intro i hi
    dsimp only
    rw [if_pos ⟨le_rfl, hi⟩]
    have := congrArg RCLike.im (hA i i hi hi)
    rw [RCLike.star_def, RCLike.conj_im] at this
    linarith
  have e : ∀ i j, i < N → j < N → hermMat (fun i j => if j ≤ i ∧ i < N then A i j else g i j) i j = A i j := by
    intro i j hi hj
    unfold hermMat
    by_cases c : j ≤ i
    · rw [if_pos c]; dsimp only; rw [if_pos ⟨c, hi⟩]
    · rw [if_neg c]; dsimp only; rw [if_pos ⟨by omega, hj⟩, ← hA i j hi hj]
  have hq : ∀ x, quad N (hermMat (fun i j => if j ≤ i ∧ i < N then A i j else g i j)) x = quad N A x := by
    intro x
    unfold quad
    refine Finset.sum_congr rfl fun i hi => Finset.sum_congr rfl fun j hj => ?_
    rw [e i j (Finset.mem_range.mp hi) (Finset.mem_range.mp hj)]
  refine ⟨?_, ?_⟩
  · unfold make
    rw [ch_raises_iff bk hbk o N _ hr]
    unfold PosDef
    simp only [hq]
  · intro L hL
    obtain ⟨⟨c1, c2⟩, -⟩ := ch_correct bk hbk o N _ L hr hL
    exact ⟨fun i j hi hj => (c1 i j hi hj).trans (e i j hi hj), c2⟩

theorem make_isSome (bk : Blks) (hbk : bk.OK) (o : Ord) (N : Nat) (A g : Nat → Nat → K) (hA : ∀ i j, i < N → j < N → A i j = star (A j i))
    (hp : PosDef N A) : ∃ L, make bk o N A g = some L ∧ CholeskyOf N A L := by
  obtain ⟨m1, m2⟩ := make_spec bk hbk o N A g hA
  obtain ⟨L, e⟩ := Option.ne_none_iff_exists'.mp fun hc => (m1.mp hc) hp
  exact ⟨L, e, m2 L e⟩

/-- **C77**: `B /= A` for a positive definite Hermitian `A` that uses the Cholesky decomposition. -/
theorem lDiv_spec (bk : Blks) (hbk : bk.OK) (tb tb2 : Nat) (htb : 0 < tb) (htb2 : 0 < tb2) (o : Ord) (brm : Bool) (N nc : Nat)
    (A g B : Nat → Nat → K) (hA : ∀ i j, i < N → j < N → A i j = star (A j i)) (hp : PosDef N A) :
    ∃ L X, make bk o N A g = some L ∧ lDivEq tb tb2 o brm N nc L B = some X ∧ SolM N nc A X B := by
  obtain ⟨L, e, hL⟩ := make_isSome bk hbk o N A g hA hp
  obtain ⟨X, eX, hX⟩ := lDivEq_spec hL tb tb2 htb htb2 o brm nc B
  exact ⟨L, X, e, eX, hX⟩

/-- **C77**: `B %= A` for a positive definite Hermitian `A` that uses the Cholesky decomposition. -/
theorem rDiv_spec (bk : Blks) (hbk : bk.OK) (tb tb2 : Nat) (htb : 0 < tb) (htb2 : 0 < tb2) (o : Ord) (bcm : Bool) (N nr : Nat)
    (A g B : Nat → Nat → K) (hA : ∀ i j, i < N → j < N → A i j = star (A j i)) (hp : PosDef N A) :
    ∃ L X, make bk o N A g = some L ∧ rDivEq tb tb2 o bcm N nr L B = some X ∧
      (∀ r j, r < nr → j < N → ∑ k ∈ Finset.range N, X r k * A k j = B r j) ∧ ∀ r j, ¬ (r < nr ∧ j < N) → X r j = B r j := by
  obtain ⟨L, e, hL⟩ := make_isSome bk hbk o N A g hA hp
  obtain ⟨X, eX, hX⟩ := rDivEq_spec hL tb tb2 htb htb2 o bcm nr B
  exact ⟨L, X, e, eX, hX⟩

/-- **C77**: `det()` and `logDet(&sign)`. -/
theorem det_spec (bk : Blks) (hbk : bk.OK) (o : Ord) (N : Nat)
    (A g : Nat → Nat → K) (hA : ∀ i j, i < N → j < N → A i j = star (A j i)) (hp : PosDef N A) :
    ∃ L, make bk o N A g = some L ∧ det N L = (Matrix.of fun i j : Fin N => A i j).det ∧
      (logDet N L).1 = Real.log ‖(Matrix.of fun i j : Fin N => A i j).det‖ ∧ (logDet N L).2 = 1 := by
  obtain ⟨L, e, hL⟩ := make_isSome bk hbk o N A g hA hp
  obtain ⟨d1, d2, d3, -⟩ := det_isCholesky hL
  exact ⟨L, e, d1, d2, d3⟩

/-- **C77**: the inverse, in a Hermitian matrix (whose lower triangle only is written). -/
theorem inverse_spec (bk : Blks) (hbk : bk.OK) (ub : UBlk) (hub : ub.OK) (o o' : Ord) (xrm brm bst crm cst : Bool) (N : Nat)
    (A g sinv : Nat → Nat → K) (hA : ∀ i j, i < N → j < N → A i j = star (A j i)) (hp : PosDef N A) :
    ∃ L V, make bk o N A g = some L ∧ inverse ub o' xrm brm bst crm cst N L sinv = some V ∧
      (∀ i j, i < N → j < N → ∑ k ∈ Finset.range N, A i k * hermMat V k j = if i = j then 1 else 0) ∧
      (∀ i, i < N → RCLike.im (V i i) = 0) ∧ ∀ i j, ¬ (j ≤ i ∧ i < N) → V i j = sinv i j := by
  obtain ⟨L, e, hL⟩ := make_isSome bk hbk o N A g hA hp
  obtain ⟨V, eV, hV⟩ := inverse_isCholesky hL ub hub o' xrm brm bst crm cst sinv
  exact ⟨L, V, e, eV, hV⟩

/-- **C77**: the inverse, in a full matrix. -/
theorem makeInverse_spec (bk : Blks) (hbk : bk.OK) (ub : UBlk) (hub : ub.OK) (o o' : Ord) (xrm brm bst crm cst : Bool) (N : Nat)
    (A g minv : Nat → Nat → K) (hA : ∀ i j, i < N → j < N → A i j = star (A j i)) (hp : PosDef N A) :
    ∃ L V, make bk o N A g = some L ∧ makeInverse ub o' xrm brm bst crm cst N L minv = some V ∧
      (∀ i j, i < N → j < N → ∑ k ∈ Finset.range N, A i k * V k j = if i = j then 1 else 0) ∧
      ∀ i j, ¬ (i < N ∧ j < N) → V i j = minv i j := by
  obtain ⟨L, e, hL⟩ := make_isSome bk hbk o N A g hA hp
  obtain ⟨V, eV, hV⟩ := makeInverse_isCholesky hL ub hub o' xrm brm bst crm cst minv
  exact ⟨L, V, e, eV, hV⟩

/-- The matrix `[[2,i],[-i,2]]` meets the hypotheses. -/
example : let A : Nat → Nat → ℂ := fun i j => if i = j then 2 else if i < j then Complex.I else -Complex.I
    (∀ i j, i < 2 → j < 2 → A i j = star (A j i)) ∧ PosDef 2 A := by
  intro A
  refine ⟨fun i j _ _ => ?_, fun x hx => ?_⟩
  · simp only [A]
    by_cases c1 : i = j
    · rw [if_pos c1, if_pos c1.symm]; simp
    · have c1' : ¬ j = i := fun e => c1 e.symm
      by_cases c2 : i < j
      · have c3 : ¬ j < i := by omega
        simp [c1, c1', c2, c3]
      · have c3 : j < i := by omega
        simp [c1, c1', c2, c3]
  · have e : RCLike.re (quad 2 A x) = (x 0).re^2 + (x 0).im^2 + (x 1).re^2 + (x 1).im^2 +
        ((x 0).re - (x 1).im)^2 + ((x 0).im + (x 1).re)^2 := by
      simp [quad, A, Finset.sum_range_succ]
      ring
    rw [e]
    obtain ⟨i, hi, hxi⟩ := hx
    have hne : (x i).re ≠ 0 ∨ (x i).im ≠ 0 := by
      by_contra hc
      push Not at hc
      exact hxi (Complex.ext hc.1 hc.2)
    have h01 : i = 0 ∨ i = 1 := by omega
    rcases h01 with rfl | rfl <;> rcases hne with h | h <;> positivity

end
end TMV.CH
