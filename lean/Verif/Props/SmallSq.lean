import Verif.Props.SmallDet
import Mathlib.LinearAlgebra.Matrix.NonsingularInverse

/-! The square (LU) branches of inverse and division of a `SmallMatrix` (lemmas for C113, C114). -/
namespace TMV.SmallDiv
set_option linter.unusedSectionVars false
noncomputable section
open Classical

variable {K : Type} [RCLike K]

/-- The loop interchanging rows `i` and `p` of an array. -/
def swapArr (a : Acc (Nat → K) K) (n i p : Nat) (m : Nat → K) : Nat → K :=
  if p ≠ i then up (fun j m => let x := a.get m i j; let y := a.get m p j; a.set (a.set m i j y) p j x) n 0 m else m

theorem swapArr_rel {rm : Bool} {N nc i p : Nat} {m0 m : Nat → K} {A : Nat → Nat → K} (hi : i < N) (hp : p < N) (h : Rel rm N nc m0 m A) :
    Rel rm N nc m0 (swapArr (flat rm N nc) nc i p m) fun a b => A (Equiv.swap i p a) b := by
  unfold swapArr
  by_cases hne : p ≠ i
  · rw [if_pos hne]
    have := up_inv (fun j m => let x := (flat rm N nc).get m i j; let y := (flat rm N nc).get m p j; (flat rm N nc).set ((flat rm N nc).set m i j y) p j x)
      (fun j s => Rel rm N nc m0 s fun a b => if b < j then A (Equiv.swap i p a) b else A a b) nc 0 m (h.congr fun a b _ _ => by rw [if_neg (by omega)]) (by
        intro j s _ hj hs
        dsimp only
        refine ((hs.set (i := i) (j := j) hi (by omega) (hs.get hp (by omega))).set (i := p) (j := j) hp (by omega) (hs.get hi (by omega))).congr ?_
        intro a b ha hb
        simp only [elem, setE, Equiv.swap_apply_def]
        grind)
    exact this.congr fun a b _ hb => by rw [if_pos (by omega)]
  · rw [if_neg hne]
    have : p = i := by simpa using hne
    subst this
    simpa using h

theorem permLoop_rel {rm : Bool} {N nc : Nat} {P : Nat → Nat} {m0 : Nat → K} : ∀ (n i : Nat) (m : Nat → K) (A : Nat → Nat → K), i + n ≤ N →
    (∀ k, i ≤ k → k < i + n → P k < N) → Rel rm N nc m0 m A →
    Rel rm N nc m0 (up (fun i m => swapArr (flat rm N nc) nc i (P i) m) n i m) fun a b => A (swapProd P n i a) b := by
  intro n
  induction n with
  | zero => intro i m A _ _ h; exact h
  | succ n ih =>
    intro i m A hin hP h
    rw [up]
    exact ih (i+1) _ _ (by omega) (fun k h1 h2 => hP k (by omega) (by omega)) (swapArr_rel (by omega) (hP i le_rfl (by omega)) h)

theorem revLoop_rel {rm : Bool} {N nc : Nat} {P : Nat → Nat} {m0 : Nat → K} : ∀ (n : Nat) (m : Nat → K) (A : Nat → Nat → K), n ≤ N →
    (∀ k, k < n → P k < N) → Rel rm N nc m0 m A →
    Rel rm N nc m0 (down (fun i m => swapArr (flat rm N nc) nc i (P i) m) n m) fun a b => A ((swapProd P n 0)⁻¹ a) b := by
  intro n
  induction n with
  | zero => intro m A _ _ h; exact h
  | succ n ih =>
    intro m A hn hP h
    rw [down]
    refine (ih _ _ (by omega) (fun k h1 => hP k (by omega)) (swapArr_rel (by omega) (hP n (by omega)) h)).congr ?_
    intro a b _ _
    rw [Perm.swapProd_add P n 1 0]
    simp only [swapProd, mul_one, zero_add, mul_inv_rev, Equiv.Perm.mul_apply, Equiv.swap_inv]

theorem matOf_mul {M N nc : Nat} {A X B : Nat → Nat → K} (h : ∀ i c, i < M → c < nc → ∑ k ∈ Finset.range N, A i k * X k c = B i c) :
    matOf M N A * matOf N nc X = matOf M nc B := by
  ext i c
  rw [Matrix.mul_apply]
  have := h i c i.2 c.2
  rw [Finset.sum_range] at this
  exact this

theorem matOf_one {N : Nat} {A X : Nat → Nat → K} (h : ∀ i c, i < N → c < N → ∑ k ∈ Finset.range N, A i k * X k c = if i = c then 1 else 0) :
    matOf N N A * matOf N N X = 1 := by
  ext i c
  rw [Matrix.mul_apply, Matrix.one_apply]
  have := h i c i.2 c.2
  rw [Finset.sum_range] at this
  refine Eq.trans this ?_
  by_cases hic : i = c
  · rw [if_pos hic, if_pos (by rw [hic])]
  · rw [if_neg hic, if_neg (fun hc => hic (Fin.ext hc))]

theorem luLDivEq_rel (cplx s2 : Bool) (N nc : Nat) (A : Nat → Nat → K) {m0 m2 : Nat → K} {B : Nat → Nat → K} (hB : Rel s2 N nc m0 m2 B) :
    ((matOf N N A).det = 0 → luLDivEq cplx s2 N nc A m2 = none) ∧
    ((matOf N N A).det ≠ 0 → ∃ m' X, luLDivEq cplx s2 N nc A m2 = some m' ∧ Rel s2 N nc m0 m' X ∧
      matOf N N A * matOf N nc X = matOf N nc B) := by
  have hs := doLUD_spec cplx N A
  have hdet := hs.diag_ne
  unfold luLDivEq
  generalize doLUD cplx N A = r at hs hdet
  dsimp only
  change ((matOf N N A).det ≠ 0 ↔ _) at hdet
  constructor
  · intro h0
    obtain ⟨i, hi, h1⟩ : ∃ i, i < N ∧ r.1 i i = 0 := by
      by_contra hc
      push Not at hc
      exact hdet.mpr hc h0
    exact lDivEqU_none _ _ _ _ _ hi h1
  · intro h0
    have hd := hdet.mp h0
    have h1 := permLoop_rel N 0 m2 B (P := r.2) (by omega) (fun k _ hk => (hs.range k (by omega)).2) hB
    have h2 := lDivEqL_rel r.1 h1
    have h3 := lDivEqU_rel r.1 h2
    obtain ⟨X, eX, sX⟩ := lDivEqU_spec N nc r.1 (lDivEqL elem N nc r.1 fun a b => B (swapProd r.2 N 0 a) b) hd
    rw [eX] at h3
    obtain ⟨m', e', h'⟩ := h3.some_right
    refine ⟨m', X, e', h', ?_⟩
    have hU := matOf_mul sX.1
    have hL := matOf_mul (lDivEqL_spec N nc r.1 fun a b => B (swapProd r.2 N 0 a) b).1
    rw [← hU, ← Matrix.mul_assoc] at hL
    have hA : (matOf N N A).submatrix hs.perm id = matOf N N (lowerMat true r.1) * matOf N N (upperMat false r.1) := hs.toM_mul
    rw [← hA] at hL
    have hL2 : (matOf N N A * matOf N nc X).submatrix hs.perm id = (matOf N nc B).submatrix hs.perm id := by
      rw [Matrix.submatrix_mul _ _ hs.perm id id Function.bijective_id]
      exact hL
    ext i j
    have := congrFun (congrFun hL2 (hs.perm.symm i)) j
    simpa using this

/-- Storing `U⁻¹ L⁻¹`. -/
theorem prodUL_rel {s2 : Bool} {N : Nat} (F : Nat → Nat → K) {m0 m : Nat → K} (h : Rel s2 N N m0 m fun _ _ => 0) :
    Rel s2 N N m0 (up (fun j m =>
      let m := up (fun i m => (flat s2 N N).set m i j (F i j)) (j+1) 0 m
      up (fun k m => up (fun i m => (flat s2 N N).set m i j ((flat s2 N N).get m i j + F i k * F k j)) (k+1) 0 m) (N-(j+1)) (j+1) m) N 0 m)
      fun i j => ∑ k ∈ Finset.range N, upperMat false F i k * lowerMat true F k j := by
  have hin1 : ∀ j (s : Nat → K) (A : Nat → Nat → K), j < N → Rel s2 N N m0 s A →
      Rel s2 N N m0 (up (fun i m => (flat s2 N N).set m i j (F i j)) (j+1) 0 s) fun a b => if b = j ∧ a ≤ j then F a j else A a b := by
    intro j s A hj hs
    have := up_inv (fun i m => (flat s2 N N).set m i j (F i j))
      (fun i s => Rel s2 N N m0 s fun a b => if b = j ∧ a < i then F a j else A a b) (j+1) 0 s (hs.congr fun a b _ _ => by rw [if_neg (by omega)]) (by
        intro i s _ hi hs
        refine (hs.set (i := i) (j := j) (by omega) hj rfl).congr ?_
        intro a b _ _
        simp only [elem, setE]
        grind)
    exact this.congr fun a b _ _ => by grind
  have hin2 : ∀ j k (s : Nat → K) (A : Nat → Nat → K), j < N → k < N → Rel s2 N N m0 s A →
      Rel s2 N N m0 (up (fun i m => (flat s2 N N).set m i j ((flat s2 N N).get m i j + F i k * F k j)) (k+1) 0 s)
        fun a b => if b = j ∧ a ≤ k then A a j + F a k * F k j else A a b := by
    intro j k s A hj hk hs
    have := up_inv (fun i m => (flat s2 N N).set m i j ((flat s2 N N).get m i j + F i k * F k j))
      (fun i s => Rel s2 N N m0 s fun a b => if b = j ∧ a < i then A a j + F a k * F k j else A a b) (k+1) 0 s
      (hs.congr fun a b _ _ => by rw [if_neg (by omega)]) (by
        intro i s _ hi hs
        refine (hs.set (i := i) (j := j) (by omega) hj (congrArg (· + F i k * F k j) (hs.get (by omega) hj))).congr ?_
        intro a b _ _
        simp only [elem, setE]
        by_cases h1 : a = i ∧ b = j
        · obtain ⟨rfl, rfl⟩ := h1
          rw [if_pos ⟨rfl, rfl⟩, if_neg (fun h => lt_irrefl _ h.2), if_pos ⟨rfl, by omega⟩]
        · rw [if_neg h1]
          by_cases h2 : b = j ∧ a < i
          · rw [if_pos h2, if_pos ⟨h2.1, by omega⟩]
          · rw [if_neg h2, if_neg (by omega)])
    exact this.congr fun a b _ _ => by grind
  have hsum : ∀ a j n, j < n → ∑ k ∈ Finset.range n, upperMat false F a k * lowerMat true F k j =
      (if a ≤ j then F a j else 0) + ∑ k ∈ Finset.Ico (j+1) n, if a ≤ k then F a k * F k j else 0 := by
    intro a j n hj
    rw [← Finset.sum_range_add_sum_Ico _ (show j+1 ≤ n by omega), Finset.sum_range_succ, Finset.sum_eq_zero, zero_add]
    · congr 1
      · simp only [upperMat, lowerMat]; grind
      · refine Finset.sum_congr rfl fun k hk => ?_
        have := Finset.mem_Ico.mp hk
        simp only [upperMat, lowerMat]; grind
    · intro k hk
      have := Finset.mem_range.mp hk
      simp only [lowerMat]; rw [if_neg (by omega), if_neg (by omega), mul_zero]
  have hcol : ∀ j (s : Nat → K) (A : Nat → Nat → K), j < N → (∀ a, A a j = 0) → Rel s2 N N m0 s A →
      Rel s2 N N m0 (let m := up (fun i m => (flat s2 N N).set m i j (F i j)) (j+1) 0 s
        up (fun k m => up (fun i m => (flat s2 N N).set m i j ((flat s2 N N).get m i j + F i k * F k j)) (k+1) 0 m) (N-(j+1)) (j+1) m)
        fun a b => if b = j then ∑ k ∈ Finset.range N, upperMat false F a k * lowerMat true F k j else A a b := by
    intro j s A hj hz hs
    have := up_inv (fun k m => up (fun i m => (flat s2 N N).set m i j ((flat s2 N N).get m i j + F i k * F k j)) (k+1) 0 m)
      (fun k s => Rel s2 N N m0 s fun a b => if b = j then ∑ l ∈ Finset.range k, upperMat false F a l * lowerMat true F l j else A a b) (N-(j+1)) (j+1)
      (up (fun i m => (flat s2 N N).set m i j (F i j)) (j+1) 0 s) ((hin1 j s A hj hs).congr fun a b _ _ => by
        rw [hsum a j (j+1) (by omega), Finset.Ico_self, Finset.sum_empty, add_zero]
        by_cases hb : b = j
        · rw [if_pos hb]
          by_cases ha : a ≤ j
          · rw [if_pos ⟨hb, ha⟩, if_pos ha]
          · rw [if_neg (by omega), if_neg ha, hb, hz a]
        · rw [if_neg (by omega), if_neg hb]) (by
        intro k s h1 h2 hs
        refine (hin2 j k s _ hj (by omega) hs).congr ?_
        intro a b _ _
        rw [Finset.sum_range_succ]
        have e : upperMat false F a k * lowerMat true F k j = if a ≤ k then F a k * F k j else 0 := by
          unfold lowerMat upperMat
          rw [if_pos (show j < k by omega)]
          by_cases ha : a < k
          · rw [if_pos ha, if_pos (by omega)]
          · by_cases ha2 : a = k
            · subst ha2; simp
            · rw [if_neg ha, if_neg ha2, if_neg (by omega), zero_mul]
        rw [e]
        by_cases hb : b = j
        · subst hb
          by_cases ha : a ≤ k
          · rw [if_pos ⟨rfl, ha⟩, if_pos rfl, if_pos rfl, if_pos ha]
          · rw [if_neg (by omega), if_pos rfl, if_pos rfl, if_neg ha, add_zero]
        · rw [if_neg (by omega), if_neg hb, if_neg hb])
    rw [show j+1+(N-(j+1)) = N by omega] at this
    exact this
  have := up_inv (fun j m =>
      let m := up (fun i m => (flat s2 N N).set m i j (F i j)) (j+1) 0 m
      up (fun k m => up (fun i m => (flat s2 N N).set m i j ((flat s2 N N).get m i j + F i k * F k j)) (k+1) 0 m) (N-(j+1)) (j+1) m)
    (fun j s => Rel s2 N N m0 s fun a b => if b < j then ∑ k ∈ Finset.range N, upperMat false F a k * lowerMat true F k b else 0) N 0 m
    (h.congr fun a b _ _ => by rw [if_neg (by omega)]) (by
      intro j s _ hj hs
      refine (hcol j s _ (by omega) (fun a => by rw [if_neg (by omega)]) hs).congr ?_
      intro a b _ _
      by_cases hb : b = j
      · rw [if_pos hb, if_pos (by omega), hb]
      · rw [if_neg hb]
        by_cases hb2 : b < j
        · rw [if_pos hb2, if_pos (by omega)]
        · rw [if_neg hb2, if_neg (by omega)])
  exact this.congr fun a b _ hb => by rw [if_pos (by omega)]

/-- `luInv`: the inverse, or `none` exactly if there is none. -/
theorem luInv_rel (cplx s s2 : Bool) (N : Nat) (m minv : Nat → K) :
    ((smat s N N m).det = 0 → luInv cplx s s2 N m minv = none) ∧
    ((smat s N N m).det ≠ 0 → ∃ m', luInv cplx s s2 N m minv = some m' ∧ smat s2 N N m' * smat s N N m = 1 ∧ SameOutside (N*N) m' minv) := by
  rw [← smat_loc s N N m fun _ => 0]
  unfold luInv
  generalize loc N (copy N N s false m fun _ => 0) = A
  have hs := doLUD_spec cplx N A
  have hdet := hs.diag_ne
  generalize doLUD cplx N A = r at hs hdet
  dsimp only
  change ((matOf N N A).det ≠ 0 ↔ _) at hdet
  constructor
  · intro h0
    obtain ⟨i, hi, h1⟩ : ∃ i, i < N ∧ r.1 i i = 0 := by
      by_contra hc
      push Not at hc
      exact hdet.mpr hc h0
    rw [invertU_none N r.1 hi h1]; rfl
  · intro h0
    obtain ⟨W, eW, hW, fW⟩ := invertU_spec N r.1 (hdet.mp h0)
    rw [eW, Option.map_some]
    refine ⟨_, rfl, ?_⟩
    obtain ⟨hL, fL⟩ := invertL_spec N W
    generalize invertL N W = F at hL fL
    have hP : ∀ k, k < N → r.2 k < N := fun k hk => (hs.range k (by omega)).2
    have h1 := (prodUL_rel F (zeroAll_rel s2 N N minv)).tr
    have h2 := revLoop_rel (P := r.2) N _ _ le_rfl hP h1
    have h3 := h2.tr
    rw [Bool.not_not] at h3
    have e : (fun i m => swapArr (flat (!s2) N N) N i (r.2 i) m) = fun (j : Nat) (m : Nat → K) => if r.2 j ≠ j then
      up (fun i m => let x := (flat s2 N N).get m i j; let y := (flat s2 N N).get m i (r.2 j); (flat s2 N N).set ((flat s2 N N).set m i j y) i (r.2 j) x) N 0 m else m := by
      funext j m
      simp only [swapArr, flat, idx_not]
    rw [e] at h3
    refine ⟨?_, h3.2⟩
    rw [h3.smat]
    have hU1 : matOf N N (upperMat false F) * matOf N N (upperMat false r.1) = 1 := by
      have : matOf N N (upperMat false F) = matOf N N (upperMat false W) := matOf_congr fun i j hi hj => by
        unfold upperMat
        by_cases h1 : i < j
        · rw [if_pos h1, if_pos h1, fL i j (by omega)]
        · rw [if_neg h1, if_neg h1, fL i i (by omega)]
      rw [this]; exact matOf_one hW
    have hL1 : matOf N N (lowerMat true F) * matOf N N (lowerMat true r.1) = 1 := by
      have : matOf N N (lowerMat true r.1) = matOf N N (lowerMat true W) := matOf_congr fun i j hi hj => by
        unfold lowerMat
        by_cases h1 : j < i
        · rw [if_pos h1, if_pos h1, fW i j (by omega)]
        · rw [if_neg h1, if_neg h1]; rfl
      rw [this]; exact matOf_one hL
    have hA : (matOf N N A).submatrix hs.perm id = matOf N N (lowerMat true r.1) * matOf N N (upperMat false r.1) := hs.toM_mul
    have hX : matOf N N (upperMat false F) * matOf N N (lowerMat true F) = matOf N N fun i j => ∑ k ∈ Finset.range N, upperMat false F i k * lowerMat true F k j :=
      matOf_mul fun _ _ _ _ => rfl
    have hXA : matOf N N (fun i j => ∑ k ∈ Finset.range N, upperMat false F i k * lowerMat true F k j) * (matOf N N A).submatrix hs.perm id = 1 := by
      rw [hA, ← hX, Matrix.mul_assoc, ← Matrix.mul_assoc _ (matOf N N (lowerMat true r.1)), hL1, Matrix.one_mul, hU1]
    have hsub : matOf N N (fun i b => ∑ k ∈ Finset.range N, upperMat false F i k * lowerMat true F k ((swapProd r.2 N 0)⁻¹ b)) =
        (matOf N N (fun i j => ∑ k ∈ Finset.range N, upperMat false F i k * lowerMat true F k j)).submatrix id hs.perm.symm := rfl
    refine Eq.trans ?_ hXA
    refine Eq.trans (congrArg (· * matOf N N A) hsub) ?_
    ext i j
    simp only [Matrix.mul_apply, Matrix.submatrix_apply, id]
    exact Fintype.sum_equiv hs.perm.symm _ _ fun b => by simp

/-! ### Closed formulas -/

theorem inv1_rel (s s2 : Bool) (m minv : Nat → K) :
    ((smat s 1 1 m).det = 0 → inv1 m minv = none) ∧
    ((smat s 1 1 m).det ≠ 0 → ∃ m', inv1 m minv = some m' ∧ smat s2 1 1 m' * smat s 1 1 m = 1 ∧ SameOutside (1*1) m' minv) := by
  rw [← det1_eq]
  unfold inv1 det1
  refine ⟨fun h => by rw [if_pos h], fun h => ⟨_, by rw [if_neg h], ?_, fun k hk => Function.update_of_ne (f := minv) (show k ≠ 0 by omega) (1 / m 0) ⟩⟩
  ext i j
  fin_cases i; fin_cases j
  cases s <;> cases s2 <;> simp [smat, Matrix.mul_apply, h]

theorem inv2_rel (s s2 : Bool) (m minv : Nat → K) :
    ((smat s 2 2 m).det = 0 → inv2 s s2 m minv = none) ∧
    ((smat s 2 2 m).det ≠ 0 → ∃ m', inv2 s s2 m minv = some m' ∧ smat s2 2 2 m' * smat s 2 2 m = 1 ∧ SameOutside (2*2) m' minv) := by
  rw [← det2_eq]
  unfold inv2
  dsimp only
  refine ⟨fun h => by rw [if_pos h], fun h => ⟨_, by rw [if_neg h], ?_, ?_⟩⟩
  · have h' := h
    unfold det2 at h'
    ext i j
    fin_cases i <;> fin_cases j <;> cases s <;> cases s2 <;>
      simp [smat, Matrix.mul_apply, Fin.sum_univ_two, Function.update_apply] <;> field_simp <;> unfold det2 <;> ring
  · intro k hk
    split_ifs <;> rw [Function.update_of_ne (by omega), Function.update_of_ne (by omega), Function.update_of_ne (by omega), Function.update_of_ne (by omega)]

theorem inv3_rel (s s2 : Bool) (m minv : Nat → K) :
    ((smat s 3 3 m).det = 0 → inv3 s s2 m minv = none) ∧
    ((smat s 3 3 m).det ≠ 0 → ∃ m', inv3 s s2 m minv = some m' ∧ smat s2 3 3 m' * smat s 3 3 m = 1 ∧ SameOutside (3*3) m' minv) := by
  rw [← det3_eq]
  unfold inv3
  dsimp only
  refine ⟨fun h => by rw [if_pos h], fun h => ⟨_, by rw [if_neg h], ?_, ?_⟩⟩
  · have h' := h
    unfold det3 at h'
    ext i j
    fin_cases i <;> fin_cases j <;> cases s <;> cases s2 <;>
      simp [smat, Matrix.mul_apply, Fin.sum_univ_three, Function.update_apply] <;> field_simp <;> unfold det3 <;> ring
  · intro k hk
    split_ifs <;> simp (disch := omega) only [Function.update_of_ne]

end
end TMV.SmallDiv
