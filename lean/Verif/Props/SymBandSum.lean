import Verif.Model.SymBandSum
import Mathlib.Data.Complex.BigOperators
import Mathlib.Tactic.Ring
import Mathlib.Tactic.NormNum
import Mathlib.Tactic.SplitIfs

/-! Multiples and sums of symmetric and Hermitian band matrices put into a band matrix or a full matrix (C131). -/
namespace TMV.SymBandSum
variable {K : Type _} [Field K] [StarRing K]

/-- The case the code gets wrong: the operand is kept in the upper triangle of `C`'s array and conjugated with respect to it. -/
def Src.bad : Src K → Bool
  | .inC false _ true => true
  | _ => false

omit [StarRing K] in
theorem bnd_le {N lo hi k i j : Nat} (h1 : k ≤ lo) (h2 : k ≤ hi) (h : bnd N k k i j) : bnd N lo hi i j := by
  unfold bnd at *; omega

theorem el_zero {A : Src K} {k N i j : Nat} {X : Nat → Nat → K} (hi : i < N) (hj : j < N) (h : ¬ bnd N k k i j) : el A k X i j = 0 := by
  unfold el; rw [if_neg]; unfold bnd at h; omega

theorem el_pos {A : Src K} {k N i j : Nat} {X : Nat → Nat → K} (h : bnd N k k i j) : el A k X i j = A.rd X i j := by
  unfold el; rw [if_pos]; unfold bnd at h; omega

/-- **C131** `C = alpha*A`: every element of `C`, and nothing else. -/
theorem assignX_spec (α : K) (A : Src K) (k N lo hi : Nat) (X : Nat → Nat → K) (hlo : k ≤ lo) (hhi : k ≤ hi) (hA : A.bad = false ∨ k = 0) :
    assignX α A k N lo hi X = some fun i j => if bnd N lo hi i j then α * el A k X i j else X i j := by
  unfold assignX
  rw [if_neg (by omega)]
  refine congrArg some ?_
  funext i j
  dsimp only
  by_cases hb : bnd N lo hi i j
  swap
  · rw [if_neg hb, if_neg hb, if_neg (fun h => hb h.1), if_neg]
    unfold bnd at *; omega
  rw [if_pos hb, if_pos hb]
  congr 1
  by_cases hji : j < i
  swap
  · rw [if_neg (fun h => hji h.2), if_pos]
    unfold bnd at *; omega
  rw [if_pos ⟨hb, hji⟩]
  by_cases hk : k > 0
  swap
  · rw [if_neg hk]; unfold el; rw [if_neg (by omega)]
  rw [if_pos hk]
  have hA : A.bad = false := hA.resolve_right (by omega)
  unfold el
  by_cases hin : i ≤ j + k ∧ j ≤ i + k
  swap
  · rw [if_neg hin, if_neg hin]
  rw [if_pos hin, if_pos hin]
  have n1 : ¬ bnd N 0 hi i j := by unfold bnd; omega
  have p1 : bnd N 0 hi j i := by unfold bnd at *; omega
  cases A with
  | apart A => rfl
  | inC lower h c =>
    cases lower with
    | true => simp only [Src.rd, if_true]; rw [if_pos hji.le, if_neg n1, if_pos hji.le]
    | false =>
      have hc : c = false := by cases c <;> simp_all [Src.bad]
      subst hc
      simp only [Src.rd, Bool.false_eq_true, if_false]
      have hij : ¬ i ≤ j := by omega
      rw [if_neg hij, if_pos p1, if_pos ⟨by omega, by omega⟩, if_pos hji.le, if_neg hij]
      simp [cj]

/-- **C131** `C += alpha*A`. -/
theorem addTo_spec (α : K) (A : Src K) (k N lo hi : Nat) (X : Nat → Nat → K) (hlo : k ≤ lo) (hhi : k ≤ hi) :
    addTo α A k N lo hi X = some fun i j => if bnd N lo hi i j then X i j + α * el A k X i j else X i j := by
  unfold addTo
  rw [if_neg (by omega)]
  cases A with
  | inC lower h c =>
    simp only [Src.ss, if_true]
    refine congrArg some ?_
    funext i j
    by_cases hb : bnd N k k i j
    · rw [if_pos hb, if_pos (bnd_le hlo hhi hb)]
    · rw [if_neg hb]
      by_cases hb' : bnd N lo hi i j
      · rw [if_pos hb', el_zero hb'.1 hb'.2.1 hb]; ring
      · rw [if_neg hb']
  | apart A =>
    simp only [Src.ss, Bool.false_eq_true, if_false, Src.rd]
    refine congrArg some ?_
    funext i j
    have e : (if k > 0 then fun i j => if bnd N k k i j ∧ j < i then (if bnd N 0 k i j then X i j + α * A i j else X i j) + α * A i j
        else (if bnd N 0 k i j then X i j + α * A i j else X i j) else fun i j => if bnd N 0 k i j then X i j + α * A i j else X i j) i j =
        if bnd N k k i j then X i j + α * A i j else X i j := by
      by_cases hk : k > 0
      · rw [if_pos hk]
        by_cases hb : bnd N k k i j
        · rw [if_pos hb]
          by_cases hji : j < i
          · rw [if_pos ⟨hb, hji⟩, if_neg]; unfold bnd; omega
          · rw [if_neg (fun h => hji h.2), if_pos]; unfold bnd at *; omega
        · rw [if_neg hb, if_neg (fun h => hb h.1), if_neg]; unfold bnd at *; omega
      · rw [if_neg hk]
        have : k = 0 := by omega
        subst this; rfl
    rw [e]
    by_cases hb : bnd N k k i j
    · rw [if_pos hb, if_pos (bnd_le hlo hhi hb), el_pos hb]; rfl
    · rw [if_neg hb]
      by_cases hb' : bnd N lo hi i j
      · rw [if_pos hb', el_zero hb'.1 hb'.2.1 hb]; ring
      · rw [if_neg hb']

theorem el_apart (A : Nat → Nat → K) (k : Nat) (X Y : Nat → Nat → K) : el (.apart A) k X = el (.apart A) k Y := rfl

theorem el_copy (A : Src K) (k : Nat) (X Y : Nat → Nat → K) : el (.apart (A.rd X)) k Y = el A k X := rfl

/-- The widths and the sharing for which `C = alpha*A + beta*B` is right. -/
def Good (A : Src K) (ka : Nat) (B : Src K) (kb : Nat) : Prop :=
  (A.ss = true ∧ B.ss = true → ka ≤ kb) ∧ (B.ss = false → A.bad = false ∨ ka = 0) ∧ (A.ss = false → B.bad = false ∨ kb = 0)

/-- **C131** `C = alpha*A + beta*B` for a band matrix `C`. -/
theorem add2_spec (α : K) (A : Src K) (ka : Nat) (β : K) (B : Src K) (kb N lo hi : Nat) (X : Nat → Nat → K)
    (h1 : ka ≤ lo) (h2 : ka ≤ hi) (h3 : kb ≤ lo) (h4 : kb ≤ hi) (hg : Good A ka B kb) :
    add2 α A ka β B kb N lo hi X = some fun i j => if bnd N lo hi i j then α * el A ka X i j + β * el B kb X i j else X i j := by
  unfold add2
  by_cases hN : N = 0
  · rw [if_pos hN]
    refine congrArg some ?_
    funext i j
    rw [if_neg]; unfold bnd; omega
  rw [if_neg hN]
  cases hA : A.ss with
  | false =>
    rw [if_neg (by simp), assignX_spec β B kb N lo hi X h3 h4 (hg.2.2 hA), Option.bind_some, addTo_spec α A ka N lo hi _ h1 h2]
    refine congrArg some ?_
    funext i j
    cases A with
    | inC => cases hA
    | apart A =>
      by_cases hb : bnd N lo hi i j
      · rw [if_pos hb, if_pos hb, if_pos hb, el_apart A ka _ X]; ring
      · rw [if_neg hb, if_neg hb, if_neg hb]
  | true =>
    rw [if_pos rfl]
    cases hB : B.ss with
    | false =>
      rw [if_neg (by simp), assignX_spec α A ka N lo hi X h1 h2 (hg.2.1 hB), Option.bind_some, addTo_spec β B kb N lo hi _ h3 h4]
      refine congrArg some ?_
      funext i j
      cases B with
      | inC => cases hB
      | apart B =>
        by_cases hb : bnd N lo hi i j
        · rw [if_pos hb, if_pos hb, if_pos hb, el_apart B kb _ X]
        · rw [if_neg hb, if_neg hb, if_neg hb]
    | true =>
      have hk := hg.1 ⟨hA, hB⟩
      rw [if_pos rfl, assignX_spec β _ kb N kb kb _ (le_refl _) (le_refl _) (Or.inl rfl), Option.bind_some,
        addTo_spec α _ ka N kb kb _ hk hk, Option.bind_some, if_neg (by omega)]
      refine congrArg some ?_
      funext i j
      dsimp only
      by_cases hb : bnd N lo hi i j
      · rw [if_pos hb, if_pos hb]
        by_cases hb' : bnd N kb kb i j
        · rw [if_pos hb', if_pos hb', if_pos hb', el_copy, el_copy]; ring
        · rw [if_neg hb', el_zero hb.1 hb.2.1 hb', el_zero hb.1 hb.2.1 (fun h => hb' (bnd_le hk hk h))]; ring
      · rw [if_neg hb, if_neg hb]

/-- **C131** `C = alpha*A + beta*B` for a full matrix `C`; the widths are less than the size, as the library asserts. -/
theorem add2M_spec (α : K) (A : Src K) (ka : Nat) (β : K) (B : Src K) (kb N : Nat) (X : Nat → Nat → K)
    (hka : ka < N) (hkb : kb < N) (hg : Good A ka B kb) :
    add2M α A ka β B kb N X = some fun i j => if i < N ∧ j < N then α * el A ka X i j + β * el B kb X i j else X i j := by
  unfold add2M
  have hk : ∃ k, k = max ka kb := ⟨_, rfl⟩
  obtain ⟨k, hk⟩ := hk
  rw [← hk]
  dsimp only
  have h1 : ka ≤ k := by omega
  have h2 : kb ≤ k := by omega
  have h3 : k < N := by omega
  rw [if_neg (by omega)]
  have z : ∀ i j, i < N → j < N → ¬ bnd N k k i j → el A ka X i j = 0 ∧ el B kb X i j = 0 := fun i j hi hj h =>
    ⟨el_zero hi hj fun h' => h (bnd_le h1 h1 h'), el_zero hi hj fun h' => h (bnd_le h2 h2 h')⟩
  by_cases hs : (A.ss || B.ss) = true
  · rw [if_pos hs, add2_spec α A ka β B kb N k k X h1 h1 h2 h2 hg, Option.map_some]
    refine congrArg some ?_
    funext i j
    dsimp only
    by_cases hin : i < N ∧ j < N
    · rw [if_pos hin]
      by_cases hb : bnd N k k i j
      · rw [if_neg (by unfold bnd at hb; omega), if_neg (by unfold bnd at hb; omega), if_pos hb]
      · obtain ⟨z1, z2⟩ := z i j hin.1 hin.2 hb
        rw [z1, z2]
        by_cases hl : k + 1 ≤ i ∧ i < N ∧ j < N - k - 1 ∧ j ≤ i - (k + 1)
        · rw [if_pos hl]; ring
        · rw [if_neg hl, if_pos (by unfold bnd at hb; omega)]; ring
    · rw [if_neg hin, if_neg (by omega), if_neg (by omega), if_neg (by unfold bnd; omega)]
  · rw [if_neg hs, add2_spec α A ka β B kb N k k _ h1 h1 h2 h2 hg]
    refine congrArg some ?_
    funext i j
    cases A with
    | inC => simp [Src.ss] at hs
    | apart A =>
      cases B with
      | inC => simp [Src.ss] at hs
      | apart B =>
        by_cases hin : i < N ∧ j < N
        · rw [if_pos hin, if_pos hin]
          by_cases hb : bnd N k k i j
          · rw [if_pos hb]; rfl
          · obtain ⟨z1, z2⟩ := z i j hin.1 hin.2 hb
            rw [if_neg hb, z1, z2]; ring
        · rw [if_neg hin, if_neg hin, if_neg (by unfold bnd; omega)]

theorem gel_zero {B : Gen K} {lb hb N i j : Nat} {X : Nat → Nat → K} (hi : i < N) (hj : j < N) (h : ¬ bnd N lb hb i j) : gel B lb hb X i j = 0 := by
  unfold gel; rw [if_neg]; unfold bnd at h; omega

/-- **C131** `C = alpha*A + beta*B` for a symmetric band `A`, and a band `B` and `C`. -/
theorem addB_spec (α : K) (A : Src K) (k : Nat) (β : K) (B : Gen K) (lb hb N lo hi : Nat) (X : Nat → Nat → K)
    (h1 : k ≤ lo) (h2 : k ≤ hi) (h3 : lb ≤ lo) (h4 : hb ≤ hi) (hg : B.ss = false → A.bad = false ∨ k = 0) :
    addB α A k β B lb hb N lo hi X = some fun i j => if bnd N lo hi i j then α * el A k X i j + β * gel B lb hb X i j else X i j := by
  unfold addB
  rw [if_neg (by omega)]
  by_cases hN : N = 0
  · rw [if_pos hN]
    refine congrArg some ?_
    funext i j
    rw [if_neg]; unfold bnd; omega
  rw [if_neg hN]
  cases hA : A.ss with
  | false =>
    rw [if_neg (by simp), addTo_spec α A k N lo hi _ h1 h2]
    refine congrArg some ?_
    funext i j
    cases A with
    | inC => cases hA
    | apart A =>
      by_cases hb : bnd N lo hi i j
      · rw [if_pos hb, if_pos hb, if_pos hb, el_apart A k _ X]; ring
      · rw [if_neg hb, if_neg hb, if_neg hb]
  | true =>
    rw [if_pos rfl]
    cases hB : B.ss with
    | false =>
      rw [if_neg (by simp), assignX_spec α A k N lo hi X h1 h2 (hg hB), Option.map_some]
      refine congrArg some ?_
      funext i j
      cases B with
      | inC => cases hB
      | apart B =>
        dsimp only
        by_cases hbb : bnd N lb hb i j
        · have hb' : bnd N lo hi i j := by unfold bnd at *; omega
          rw [if_pos hbb, if_pos hb', if_pos hb']; rfl
        · rw [if_neg hbb]
          by_cases hb' : bnd N lo hi i j
          · rw [if_pos hb', if_pos hb', gel_zero hb'.1 hb'.2.1 hbb]; ring
          · rw [if_neg hb', if_neg hb']
    | true =>
      rw [if_pos rfl, addTo_spec α _ k N lo hi _ h1 h2, Option.map_some]
      refine congrArg some ?_
      funext i j
      dsimp only
      by_cases hb' : bnd N lo hi i j
      · rw [if_pos hb', if_pos hb', if_pos hb', el_copy]; ring
      · rw [if_neg hb', if_neg hb']

/-- **C131** `C = alpha*A + beta*B` for a symmetric band `A`, and a full `B` and `C`; `B` is not the transpose of `C` unless the band is full. -/
theorem addM_spec (α : K) (A : Src K) (k : Nat) (β : K) (B : Gen K) (N : Nat) (X : Nat → Nat → K) (hk : k < N)
    (hg : B.ss = false → A.bad = false ∨ k = 0) (hB : ∀ c, B = .inC true c → k + 1 = N) :
    addM α A k β B N X = some fun i j => if i < N ∧ j < N then α * el A k X i j + β * B.rd X i j else X i j := by
  unfold addM
  rw [if_neg (by omega), addB_spec α A k β B k k N k k X (le_refl _) (le_refl _) (le_refl _) (le_refl _) hg, Option.map_some]
  refine congrArg some ?_
  funext i j
  dsimp only
  by_cases hin : i < N ∧ j < N
  swap
  · rw [if_neg hin, if_neg (by omega), if_neg (by omega), if_neg (by unfold bnd; omega)]
  rw [if_pos hin]
  by_cases hb : bnd N k k i j
  · rw [if_neg (by unfold bnd at hb; omega), if_neg (by unfold bnd at hb; omega), if_pos hb]
    unfold gel; rw [if_pos (by unfold bnd at hb; omega)]
  · have e0 : α * el A k X i j + β * B.rd X i j = β * B.rd X i j := by rw [el_zero hin.1 hin.2 hb]; ring
    rw [e0]
    have hkN : k + 1 ≠ N := fun h => hb (by unfold bnd; omega)
    by_cases hl : k + 1 ≤ i ∧ i < N ∧ j < N - k - 1 ∧ j ≤ i - (k + 1)
    · rw [if_pos hl]
      cases B with
      | apart B => rfl
      | inC t c =>
        cases t with
        | true => exact absurd (hB c rfl) hkN
        | false =>
          simp only [Gen.rd, Bool.false_eq_true, if_false]
          rw [if_neg (by omega), if_neg hb]
    · rw [if_neg hl, if_pos (by unfold bnd at hb; omega)]
      cases B with
      | apart B => rfl
      | inC t c =>
        cases t with
        | true => exact absurd (hB c rfl) hkN
        | false =>
          simp only [Gen.rd, Bool.false_eq_true, if_false]
          rw [if_neg hb]

/-- **C131** Not so for a conjugated operand in the upper triangle of `C`: the 2×2 full band matrix with `i` above the diagonal, set to the conjugate of
the symmetric matrix in its upper triangle, has `i` below the diagonal, not `-i`. -/
theorem assign_conj_violated : ∃ Y : Nat → Nat → ℂ, assignX 1 (.inC false false true) 1 2 1 1 (fun _ _ => Complex.I) = some Y ∧
    Y 0 1 = -Complex.I ∧ Y 1 0 = Complex.I ∧ el (.inC false false true) 1 (fun _ _ => Complex.I) 1 0 = -Complex.I := by
  refine ⟨_, rfl, ?_, ?_, ?_⟩ <;> simp [el, Src.rd, bnd, cj]

/-- **C131** The sum of two matrices kept in `C`'s array fails if the first has more diagonals than the second, whatever the values. -/
theorem add2_width_violated (α β : K) (l h c l' h' c' : Bool) (ka kb N lo hi : Nat) (X : Nat → Nat → K) (hN : 0 < N) (hk : kb < ka) :
    add2 α (.inC l h c) ka β (.inC l' h' c') kb N lo hi X = none := by
  unfold add2
  rw [if_neg (by omega), if_pos (show (Src.inC l h c : Src K).ss = true from rfl), if_pos (show (Src.inC l' h' c' : Src K).ss = true from rfl),
    assignX_spec β _ kb N kb kb _ (le_refl _) (le_refl _) (Or.inl rfl), Option.bind_some]
  unfold addTo
  rw [if_pos (by omega)]; rfl

/-- **C131** Nor for `C = A + C^T` with a full `C`: below the band the old elements remain. -/
theorem addM_transpose_violated : ∃ Y : Nat → Nat → ℂ, addM 1 (.apart fun _ _ => 0) 0 1 (.inC true false) 2 (fun i j => if i < j then 5 else 7) = some Y ∧
    Y 0 1 = 7 ∧ Y 1 0 = 7 ∧ (Gen.inC true false).rd (fun i j => if i < j then (5 : ℂ) else 7) 1 0 = 5 := by
  refine ⟨_, rfl, ?_, ?_, ?_⟩ <;> simp [Gen.rd, bnd, cj, gel, Src.rd]

/-- A case that meets the hypotheses: a Hermitian matrix kept in the lower triangle of `C`, conjugated, plus a wider one apart. -/
example : Good (K := ℂ) (.inC true true true) 1 (.apart fun _ _ => Complex.I) 2 := by
  refine ⟨?_, ?_, ?_⟩ <;> simp [Src.ss, Src.bad]

end TMV.SymBandSum
