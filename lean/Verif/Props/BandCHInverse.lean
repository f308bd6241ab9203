import Verif.Props.BandLDL
import Verif.Props.CHDiv
import Verif.Props.LDLInverse
import Verif.Props.Diag

/-! C98: the inverse from the decompositions of a Hermitian band matrix. -/
namespace TMV.BandCH
open Tri (Ord splitAt sub paste)
open TriProd (tr triInv)
open CH (setRe setRe_real UBlk)
open BandLU (splitAt_lt)
open SymRK (RealDiag normSq_eq re_of_real Updated)
open LDL (xdx xdx_split xdx_real xdx_congr lowerMat_sub cj_zero cj_add cj_mul cj_one cj_inv lead Blocks)
noncomputable section
open Classical

variable {K : Type} [RCLike K]

/-- On a triangle with bandwidth `nhi` the banded inversion does what the general one does. -/
theorem bandInvU_eq (nb mb mb2 : Nat) (hnb : 0 < nb) (hmb : 0 < mb) (hmb2 : 0 < mb2) (o : Ord) (brm st : Bool) (nhi : Nat) :
    ∀ (fuel N : Nat) (U : Nat → Nat → K), 0 < N → (∀ i j, i < N → j < N → i + nhi < j → U i j = 0) →
      bandInvU nb mb mb2 o brm st nhi fuel N U = triInv nb mb mb2 o brm st true fuel N U := by
  intro fuel
  induction fuel with
  | zero => intro N U _ _; rfl
  | succ fuel ih =>
    intro N U hN hz
    unfold bandInvU triInv
    by_cases h1 : N = 1
    · rw [if_pos h1, if_pos h1]; simp
    · rw [if_neg h1, if_neg h1]
      obtain ⟨k1, k2⟩ := splitAt_lt nb N hnb (by omega)
      simp only
      generalize splitAt nb N = k at *
      rw [ih k U k1 (fun i j hi hj => hz i j (by omega) (by omega)),
        ih (N-k) (sub U k k) (by omega) (fun i j hi hj hij => hz _ _ (by omega) (by omega) (by omega))]
      refine congrArg (Option.bind _) (funext fun U00 => congrArg (fun f => Option.map f _) (funext fun U11 => ?_))
      have key : ∀ V : Nat → Nat → K, (∀ i j, i < k → nhi ≤ j → j < N-k → V i (k+j) = 0) →
          (if nhi < N-k then
            paste V 0 k k nhi (TriMul.upperRec mb mb2 o false brm st nhi (k+1) k true (-1) V (sub V 0 k))
          else paste V 0 k k (N-k) (TriMul.upperRec mb mb2 o false brm st (N-k) (k+1) k true (-1) V (sub V 0 k))) =
          paste V 0 k k (N-k) (TriMul.upperRec mb mb2 o false brm st (N-k) (k+1) k true (-1) V (sub V 0 k)) := by
        intro V hV
        by_cases hn : nhi < N-k
        · rw [if_pos hn]
          have a1 := TriMul.upperRec_spec mb mb2 hmb hmb2 o brm st nhi (k+1) k false true (-1) V (sub V 0 k) (by omega)
          have b1 := TriMul.upperRec_spec mb mb2 hmb hmb2 o brm st (N-k) (k+1) k false true (-1) V (sub V 0 k) (by omega)
          funext i j
          unfold paste
          by_cases hi : i < k ∧ k ≤ j ∧ j < N
          · rw [if_pos (show 0 ≤ i ∧ i < 0+k ∧ k ≤ j ∧ j < k+(N-k) by omega), b1 (i-0) (j-k), if_pos (show i-0 < k ∧ j-k < N-k by omega)]
            by_cases hj : j < k + nhi
            · rw [if_pos (by omega), a1 (i-0) (j-k), if_pos (show i-0 < k ∧ j-k < nhi by omega)]
            · rw [if_neg (by omega)]
              have z : ∀ r, r < k → sub V 0 k r (j-k) = 0 := by
                intro r hr
                unfold sub
                rw [zero_add]
                exact hV r (j-k) hr (by omega) (by omega)
              rw [Finset.sum_eq_zero (fun r hr => by rw [z r (Finset.mem_range.mp hr), mul_zero]), mul_zero]
              have := hV i (j-k) (by omega) (by omega) (by omega)
              rwa [show k + (j-k) = j by omega] at this
          · rw [if_neg (by omega), if_neg (by omega)]
        · rw [if_neg hn]
      rw [key]
      intro i j hi h1 h2
      unfold paste
      rw [if_neg (by omega), if_neg (by omega)]
      exact hz _ _ (by omega) (by omega) (by omega)


/-- The inverse from the band Cholesky factor is that from the dense one. -/
theorem chInverse_eq (bk : UBlk) (hbk : bk.OK) (o : Ord) (xrm brm bst crm cst : Bool) (N : Nat) {lo : Nat} (hlo : 0 < lo)
    (LL sinv : Nat → Nat → K) :
    chInverse bk o xrm brm bst crm cst N lo LL sinv = CH.inverse bk o xrm brm bst crm cst N (bandMat lo 0 LL) sinv := by
  unfold chInverse CH.inverse
  by_cases hN : N > 0
  · rw [if_pos hN, if_pos hN]
    simp only
    congr 1
    unfold BandLU.triInverse TriProd.triInverse
    rw [if_pos hN, if_neg (by omega), if_pos hN]
    refine BandLU.bandInv_eq _ _ _ hbk.ti hbk.mb hbk.mb2 _ _ _ _ _ _ _ hN ?_
    intro i j hi hj hij
    unfold TriProd.tr
    beta_reduce
    rw [if_pos (by omega), bm_out (by omega)]
  · rw [if_neg hN, if_neg hN]

theorem addXtDX_eq (o : Ord) (n : Nat) : ∀ (fuel N : Nat) (X : Nat → Nat → K) (D : Nat → K) (S : Nat → Nat → K), 0 < N →
    addXtDX o n fuel N X D S = LDL.addXtDX 1 1 0 o true n fuel N X D (fun _ => 0) S := by
  intro fuel
  induction fuel with
  | zero => intros; rfl
  | succ fuel ih =>
    intro N X D S hN
    unfold addXtDX LDL.addXtDX
    by_cases h1 : N = 1
    · rw [if_pos h1, if_pos h1]
    · rw [if_neg h1, if_neg h1, if_neg (by simp; omega)]
      simp only [ne_eq, not_true_eq_false, if_false]
      rw [ih (N/2) X D S (by omega), ih (N - N/2) _ _ _ (by omega)]

theorem diag_pseudo (n : Nat) (D : Nat → K) : Diag.diagMat (Diag.DV.el ⟨D, false, false⟩) = pseudoDiag true D (fun _ => 0) := by
  funext i j
  unfold Diag.diagMat pseudoDiag Diag.DV.el
  by_cases h : i = j
  · rw [if_pos h, if_pos h]; rfl
  · rw [if_neg h, if_neg h]; simp

/-- `SimpleLDLt_CombineInverse` computes the lower triangle of `Xᴴ D X`. -/
theorem combine_spec (mb mb2 : Nat) (hmb : 0 < mb) (hmb2 : 0 < mb2) (o : Ord) (crm cst ac : Bool) (l : Diag.Lay) :
    ∀ (fuel N : Nat) (S : Nat → Nat → K), N ≤ fuel → RealDiag N S → ∀ i j,
    combine mb mb2 o crm cst ac l fuel N S i j =
      if j ≤ i ∧ i < N then xdx true N (lowerMat true S) (fun i => S i i) (fun _ => 0) i j else S i j := by
  intro fuel
  induction fuel with
  | zero => intro N S hf _ i j; rw [if_neg (by omega)]; rfl
  | succ fuel ih =>
    intro N S hf hS i j
    unfold combine
    by_cases c1 : N > 1
    swap
    · rw [if_neg c1]
      by_cases cc : j ≤ i ∧ i < N
      · rw [if_pos cc]
        obtain rfl : i = 0 := by omega
        obtain rfl : j = 0 := by omega
        obtain rfl : N = 1 := by omega
        simp [xdx, pseudoDiag, lowerMat]
      · rw [if_neg cc]
    rw [if_pos c1]
    have hk0 : 0 < N/2 := by omega
    have hkN : N/2 < N := by omega
    generalize N/2 = k at hk0 hkN
    have hb : Blocks (K := K) N (fun _ => 0) := fun _ _ h => absurd rfl h
    have h1 := ih k S (by omega) (fun q hq => hS q (by omega))
    generalize combine mb mb2 o crm cst ac l fuel k S = S1 at h1
    have hD1 : (fun i => S1 (k+i) (k+i)) = fun i => S (k+i) (k+i) := by
      funext a; rw [h1, if_neg (by omega)]
    have hX1 : sub S1 k 0 = fun p j => S (k+p) j := by
      funext a b; show S1 (k+a) (0+b) = _; rw [h1, if_neg (by omega), Nat.zero_add]
    rw [hD1, hX1, addXtDX_eq o k (N+1) (N-k) _ _ _ (by omega)]
    have h2 := LDL.addXtDX_spec 1 1 0 (by omega) (by omega) o true k (N+1) (N-k) (fun p j => S (k+p) j) (fun i => S (k+i) (k+i))
      (fun _ => 0) S1 (by omega) (by omega) (hb.sub k (N-k) (by omega)) (fun hh q hq => hS (k+q) (by omega))
      (fun hh q hq => by
        rw [h1 q q, if_pos ⟨le_rfl, hq⟩]
        exact xdx_real true k _ _ (fun _ => 0) (fun hh q hq => hS q (by omega)) q hh)
    generalize LDL.addXtDX 1 1 0 o true k (N+1) (N-k) (fun p j => S (k+p) j) (fun i => S (k+i) (k+i))
      (fun _ => 0) S1 = S2 at h2
    have h2' : ∀ a b, k ≤ a → S2 a b = S a b := fun a b ha => by
      rw [h2 a b, if_neg (by omega), h1 a b, if_neg (by omega)]
    have hX2 : sub S2 k 0 = fun p j => S (k+p) j := by
      funext a b; show S2 (k+a) (0+b) = _; rw [h2' _ _ (by omega), Nat.zero_add]
    rw [hX2]
    generalize hS3 : paste S2 k 0 (N-k) k (Diag.mulM false ac true l l 1 (N-k) k ⟨fun i => S (k+i) (k+i), false, false⟩
      (fun p j => S (k+p) j) (fun p j => S (k+p) j)) = S3
    have h3 : ∀ a b, S3 a b = if k ≤ a ∧ a < N ∧ b < k then
        ∑ l ∈ Finset.range (N-k), pseudoDiag true (fun i => S (k+i) (k+i)) (fun _ => 0) (a-k) l * S (k+l) b else S2 a b := by
      intro a b
      rw [← hS3]
      unfold Tri.paste
      by_cases cc : k ≤ a ∧ a < N ∧ b < k
      · rw [if_pos cc, if_pos (by omega), Nat.sub_zero, Diag.mulM_partial false ac true l l 1 (N-k) k _ _ _ (Or.inl rfl), if_pos (by omega), diag_pseudo N]
        simp
      · rw [if_neg cc, if_neg (by omega)]
    generalize hS4 : paste S3 k 0 (N-k) k (TriMul.upperRec mb mb2 (LU.Ord.tr o) false crm cst k (N+1) (N-k) true 1
          (fun i j => star (S3 (k+j) (k+i))) (sub S3 k 0)) = S4
    have h4 : ∀ a b, S4 a b = if k ≤ a ∧ a < N ∧ b < k then
        ∑ q ∈ Finset.range (N-k), cj true (lowerMat true S (k+q) a) * S3 (k+q) b else S3 a b := by
      intro a b
      rw [← hS4]
      unfold Tri.paste
      by_cases cc : k ≤ a ∧ a < N ∧ b < k
      · rw [if_pos cc, if_pos (by omega), Nat.sub_zero, TriMul.upperRec_spec mb mb2 hmb hmb2 _ crm cst k (N+1) (N-k) false true 1
          _ _ (by omega), if_pos (by omega), one_mul]
        refine Finset.sum_congr rfl fun q hq => ?_
        have hq' : q < N - k := by simpa using hq
        have e1 : sub S3 k 0 q b = S3 (k+q) b := by unfold Tri.sub; rw [Nat.zero_add]
        rw [e1]
        congr 1
        unfold upperMat lowerMat
        by_cases d1 : a - k < q
        · rw [if_pos d1, if_pos (by omega)]
          dsimp only
          rw [h3, if_neg (by omega), h2' _ _ (by omega)]
          congr 2; omega
        · rw [if_neg d1, if_neg (by omega : ¬ a < k + q)]
          by_cases d2 : a - k = q
          · rw [if_pos d2, if_pos (show k + q = a by omega)]; simp
          · rw [if_neg d2, if_neg (by omega), cj_zero]
      · rw [if_neg cc, if_neg (by omega)]
    have hX4 : sub S4 k k = sub S k k := by
      funext a b
      show S4 (k+a) (k+b) = S (k+a) (k+b)
      rw [h4, if_neg (by omega), h3, if_neg (by omega), h2' _ _ (by omega)]
    rw [hX4]
    have h5 := ih (N-k) (sub S k k) (by omega) (fun q hq => hS (k+q) (by omega))
    have key : ∀ a b, xdx true N (lowerMat true S) (fun i => S i i) (fun _ => 0) a b = _ :=
      fun a b => xdx_split true N k hkN.le hk0 (lowerMat true S) (fun i => S i i) (fun _ => 0) (fun _ => rfl) a b
    have zero : ∀ a b, k ≤ a → xdx true k (lowerMat true S) (fun i => S i i) (fun _ => 0) a b = 0 := by
      intro a b ha
      unfold xdx
      refine Finset.sum_eq_zero fun p hp => ?_
      have hp' : p < k := by simpa using hp
      unfold lowerMat
      rw [if_neg (by omega), if_neg (by omega), cj_zero, zero_mul]
    have low : ∀ p b, b < k → lowerMat true S (k+p) b = S (k+p) b := fun p b hb => by
      unfold lowerMat; rw [if_pos (by omega)]
    unfold Tri.paste
    by_cases cc : j ≤ i ∧ i < N
    swap
    · rw [if_neg cc]
      by_cases d1 : k ≤ i ∧ i < k + (N - k) ∧ k ≤ j ∧ j < k + (N - k)
      · rw [if_pos d1, h5, if_neg (by omega)]
        unfold Tri.sub
        congr 1 <;> omega
      · rw [if_neg d1, h4, if_neg (by omega), h3, if_neg (by omega), h2 i j, if_neg (by omega), h1 i j, if_neg (by omega)]
    rw [if_pos cc, key]
    by_cases d1 : k ≤ j
    · rw [if_pos (by omega), h5, if_pos (by omega), zero i j (by omega), zero_add]
      have ei : ∀ p, lowerMat true S (k+p) i = lowerMat true (sub S k k) p (i-k) := fun p => by
        rw [lowerMat_sub]; congr 1; omega
      have ej : ∀ p, lowerMat true S (k+p) j = lowerMat true (sub S k k) p (j-k) := fun p => by
        rw [lowerMat_sub]; congr 1; omega
      unfold xdx
      simp only [ei, ej]
      rfl
    · rw [if_neg (by omega)]
      by_cases d2 : k ≤ i
      · rw [h4, if_pos (by omega), zero i j d2, zero_add]
        unfold xdx
        refine Finset.sum_congr rfl fun p hp => ?_
        have hp' : p < N - k := by simpa using hp
        congr 1
        rw [h3, if_pos (by omega), Nat.add_sub_cancel_left]
        exact Finset.sum_congr rfl fun q _ => by dsimp only; rw [low q j (by omega)]
      · rw [h4, if_neg (by omega), h3, if_neg (by omega), h2 i j, if_pos (by omega), if_pos rfl, h1 i j, if_pos (by omega)]
        congr 1
        exact xdx_congr (fun p _ => (low p i (by omega)).symm) (fun p _ => (low p j (by omega)).symm) (fun _ _ => rfl) (fun _ _ => rfl)

theorem invLoop : ∀ (n lo : Nat) (S : Nat → Nat → K), (∀ a, lo ≤ a → a < lo + n → RCLike.im (S a a) = 0 ∧ S a a ≠ 0) →
    ∃ V, forRange (fun i S => if RCLike.re (S i i) = 0 then none else some (setE S i i (setRe (S i i) (RCLike.re (S i i))⁻¹))) n lo S = some V ∧
      ∀ a b, V a b = if a = b ∧ lo ≤ a ∧ a < lo + n then (S a a)⁻¹ else S a b := by
  intro n
  induction n with
  | zero => exact fun lo S _ => ⟨S, rfl, fun a b => by rw [if_neg (by omega)]⟩
  | succ n ih =>
    intro lo S hS
    obtain ⟨h1, h2⟩ := hS lo le_rfl (by omega)
    have hr : RCLike.re (S lo lo) ≠ 0 := fun h0 => h2 (by rw [← re_of_real h1, h0, RCLike.ofReal_zero])
    obtain ⟨V, e, hV⟩ := ih (lo+1) (setE S lo lo (setRe (S lo lo) (RCLike.re (S lo lo))⁻¹)) (by
      intro a h3 h4
      rw [setE_ne _ _ _ _ (by omega)]
      exact hS a (by omega) (by omega))
    refine ⟨V, by rw [forRange, if_neg hr, Option.bind_some]; exact e, ?_⟩
    intro a b
    rw [hV a b]
    by_cases hab : a = lo ∧ b = lo
    · obtain ⟨rfl, rfl⟩ := hab
      rw [if_neg (by omega), setE_self, if_pos (by omega), setRe_real h1, RCLike.ofReal_inv, re_of_real h1]
    · rw [setE_ne _ _ _ _ hab]
      by_cases hc : a = b ∧ lo + 1 ≤ a ∧ a < lo + 1 + n
      · rw [if_pos hc, if_pos (by omega), setE_ne _ _ _ _ (by omega)]
      · rw [if_neg hc, if_neg (by omega)]

theorem xdx_diag (N : Nat) (X : Nat → Nat → K) (D : Nat → K) (i j : Nat) :
    xdx true N X D (fun _ => 0) i j = ∑ p ∈ Finset.range N, star (X p i) * (D p * X p j) := by
  unfold xdx
  refine Finset.sum_congr rfl fun p hp => ?_
  show star _ * _ = _
  congr 1
  rw [Finset.sum_eq_single p]
  · simp [pseudoDiag]
  · intro q _ hq
    unfold pseudoDiag
    rw [if_neg (fun e => hq e.symm), cj_zero]
    simp
  · intro h; exact absurd hp h

/-- `LDL_Inverse` computes the lower triangle of `H⁻¹` and writes nothing else. -/
theorem ldlInverse_spec (bk : UBlk) (hbk : bk.OK) (o : Ord) (crm cst ac : Bool) (l : Diag.Lay) {N : Nat} (hN : 0 < N)
    {H LL : Nat → Nat → K} (hL : IsBiLDL true N H LL) (hd : ∀ k, k < N → LL k k ≠ 0 ∧ RCLike.im (LL k k) = 0) (sinv : Nat → Nat → K) :
    ∃ V, ldlInverse bk o crm cst ac l N LL sinv = some V ∧
      (∀ i j, i < N → j < N → ∑ k ∈ Finset.range N, H i k * hermMat V k j = if i = j then 1 else 0) ∧
      RealDiag N V ∧ ∀ i j, ¬ (j ≤ i ∧ i < N) → V i j = sinv i j := by
  unfold ldlInverse
  rw [if_pos hN]
  dsimp only
  generalize hS0 : (fun i j => if j ≤ i ∧ i < N then bandMat 1 0 LL i j else sinv i j : Nat → Nat → K) = S0
  have e0 : ∀ i j, j ≤ i → i < N → S0 i j = bandMat 1 0 LL i j := fun i j h1 h2 => by rw [← hS0]; exact if_pos ⟨h1, h2⟩
  have e0' : ∀ i j, ¬ (j ≤ i ∧ i < N) → S0 i j = sinv i j := fun i j h1 => by rw [← hS0]; exact if_neg h1
  have ei : bandInvU bk.ti bk.mb bk.mb2 (LU.Ord.tr o) crm cst 1 (N+1) N (tr S0) =
      TriProd.triInverse bk.ti bk.mb bk.mb2 (LU.Ord.tr o) crm cst true N (tr S0) := by
    unfold TriProd.triInverse
    rw [if_pos hN]
    refine bandInvU_eq _ _ _ hbk.ti hbk.mb hbk.mb2 _ _ _ _ _ _ _ hN ?_
    intro i j hi hj hij
    show S0 j i = 0
    rw [e0 j i (by omega) hj, bm_out (by omega)]
  obtain ⟨t1, t2⟩ := TriProd.triInverse_spec bk.ti bk.mb bk.mb2 hbk.ti hbk.mb hbk.mb2 (LU.Ord.tr o) crm cst true N (tr S0)
  obtain ⟨M, eM⟩ : ∃ M, TriProd.triInverse bk.ti bk.mb bk.mb2 (LU.Ord.tr o) crm cst true N (tr S0) = some M := by
    apply Option.ne_none_iff_exists'.mp
    intro hc
    have := (t1.mp hc).1
    cases this
  obtain ⟨v1, v2⟩ := t2 M eM
  rw [ei, eM, Option.map_some, Option.bind_some]
  have hMd : ∀ i, i < N → M i i = LL i i := fun i hi => by
    rw [v2 i i (by simp)]
    show S0 i i = _
    rw [e0 i i le_rfl hi, bm_diag]
  obtain ⟨S2, e2, h2⟩ := invLoop N 0 (tr M) (by
    intro a _ ha
    show RCLike.im (M a a) = 0 ∧ M a a ≠ 0
    rw [hMd a (by omega)]
    exact ⟨(hd a (by omega)).2, (hd a (by omega)).1⟩)
  rw [e2, Option.map_some]
  have hS2d : ∀ a, a < N → S2 a a = (LL a a)⁻¹ := fun a ha => by
    rw [h2 a a, if_pos (by omega)]
    show (M a a)⁻¹ = _
    rw [hMd a ha]
  have hreal : RealDiag N S2 := fun a ha => by
    rw [hS2d a ha, ← re_of_real (hd a ha).2, ← RCLike.ofReal_inv, RCLike.ofReal_im]
  have hc := combine_spec bk.mb bk.mb2 hbk.mb hbk.mb2 o crm cst ac l (N+1) N S2 (by omega) hreal
  generalize combine bk.mb bk.mb2 o crm cst ac l (N+1) N S2 = V at hc
  refine ⟨V, rfl, ?_, ?_, ?_⟩
  · let Lm := lead N (unitBi LL)
    let D : Matrix (Fin N) (Fin N) K := Matrix.diagonal fun k => LL k k
    let D' : Matrix (Fin N) (Fin N) K := Matrix.diagonal fun k => (LL k k)⁻¹
    let X : Matrix (Fin N) (Fin N) K := lead N (lowerMat true S2)
    have hX : ∀ i j, i < N → j < N → lowerMat true S2 i j = upperMat true M j i := by
      intro i j hi hj
      unfold lowerMat upperMat
      by_cases c : j < i
      · rw [if_pos c, if_pos c, h2, if_neg (by omega)]; rfl
      · rw [if_neg c, if_neg c]
        by_cases c2 : i = j
        · rw [if_pos c2, if_pos c2.symm]; simp
        · rw [if_neg c2, if_neg (fun e => c2 e.symm)]
    have hXL : X * Lm = 1 := by
      ext i j
      simp only [X, Lm, lead, Matrix.mul_apply, Matrix.of_apply]
      have := v1 j i j.isLt i.isLt
      rw [Finset.sum_range] at this
      simp only [TriProd.tr_upper] at this
      rw [Matrix.one_apply]
      have e : (i = j) ↔ ((j : Nat) = i) := by rw [Fin.ext_iff]; exact eq_comm
      simp only [e]
      rw [← this]
      refine Finset.sum_congr rfl fun k _ => ?_
      rw [hX i k i.isLt k.isLt, mul_comm]
      congr 1
      unfold lowerMat unitBi
      by_cases c : (j : Nat) < k
      · rw [if_neg (by omega), if_pos c, e0 _ _ (by omega) k.isLt]
        unfold bandMat
        by_cases c2 : (k : Nat) = j + 1
        · rw [if_pos c2, if_pos (by omega)]
        · rw [if_neg c2, if_neg (by omega)]
      · rw [if_neg c]
        by_cases c2 : (k : Nat) = j
        · rw [if_pos c2, if_pos c2]; simp
        · rw [if_neg c2, if_neg c2, if_neg (by omega)]
    have hLX : Lm * X = 1 := mul_eq_one_comm.mp hXL
    have hDD : D * D' = 1 := by
      simp only [D, D', Matrix.diagonal_mul_diagonal]
      rw [← Matrix.diagonal_one]
      congr 1
      funext k
      exact mul_inv_cancel₀ (hd k k.isLt).1
    have hprod : (Lm * D * Lm.conjTranspose) * (X.conjTranspose * (D' * X)) = 1 := by
      calc (Lm * D * Lm.conjTranspose) * (X.conjTranspose * (D' * X)) = Lm * D * (Lm.conjTranspose * X.conjTranspose) * (D' * X) := by
            simp only [Matrix.mul_assoc]
        _ = Lm * D * (X * Lm).conjTranspose * (D' * X) := by rw [Matrix.conjTranspose_mul]
        _ = Lm * (D * D') * X := by rw [hXL, Matrix.conjTranspose_one, Matrix.mul_one]; simp only [Matrix.mul_assoc]
        _ = 1 := by rw [hDD, Matrix.mul_one, hLX]
    intro i j hi hj
    have e := congrFun (congrFun hprod ⟨i, hi⟩) ⟨j, hj⟩
    rw [Matrix.one_apply] at e
    simp only [Fin.ext_iff] at e
    rw [← e, Matrix.mul_apply, Finset.sum_range]
    refine Finset.sum_congr rfl fun k _ => ?_
    congr 1
    · rw [← hL i k hi k.isLt, Matrix.mul_apply, Finset.sum_range]
      refine Finset.sum_congr rfl fun q _ => ?_
      simp only [D, Matrix.mul_diagonal, Matrix.conjTranspose_apply, Lm, lead, Matrix.of_apply]
      rfl
    · have key : ∀ a b, a < N → b < N → hermMat V a b = xdx true N (lowerMat true S2) (fun i => S2 i i) (fun _ => 0) a b := by
        intro a b ha hb
        unfold hermMat
        by_cases c : b ≤ a
        · rw [if_pos c, hc, if_pos ⟨c, ha⟩]
        · rw [if_neg c, hc, if_pos (by omega)]
          exact LDL.xdx_cj true N _ _ _ (fun _ q hq => hreal q hq) b a
      rw [key k j k.isLt hj, xdx_diag, Matrix.mul_apply, Finset.sum_range]
      refine Finset.sum_congr rfl fun q _ => ?_
      simp only [D', Matrix.diagonal_mul, Matrix.conjTranspose_apply, X, lead, Matrix.of_apply]
      rw [hS2d q q.isLt]
  · intro a ha
    rw [hc a a, if_pos ⟨le_rfl, ha⟩]
    exact xdx_real true N _ _ _ (fun _ q hq => hreal q hq) a rfl
  · intro a b hab
    rw [hc a b, if_neg hab, h2 a b, if_neg (by omega)]
    show M b a = _
    rw [v2 b a (by omega)]
    exact e0' a b hab

end
end TMV.BandCH
