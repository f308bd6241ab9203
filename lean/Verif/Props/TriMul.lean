import Verif.Model.TriMul
import Verif.Props.Tri

set_option linter.unusedSectionVars false

/-! Multiplication by a triangle matrix in place (part of C40, used by C29). -/
namespace TMV.TriMul
open TMV.Tri
variable {K : Type _} [Field K] [DecidableEq K]

theorem upperMat_row (ua : Bool) (A : Nat → Nat → K) (x : Nat → K) {N i : Nat} (hi : i < N) :
    ∑ k ∈ Finset.range N, upperMat ua A i k * x k =
      dg ua A i * x i + ∑ k ∈ Finset.range (N-1-i), A i (i+1+k) * x (i+1+k) := by
  have := sum_split (fun k => upperMat ua A i k * x k) (show i+1 ≤ N by omega)
  rw [this, Finset.sum_range_succ, show N - (i+1) = N-1-i by omega]
  have z : ∑ k ∈ Finset.range i, upperMat ua A i k * x k = 0 := by
    refine Finset.sum_eq_zero fun k hk => ?_
    have : k < i := by simpa using hk
    simp only [upperMat]; rw [if_neg (by omega), if_neg (by omega), zero_mul]
  rw [z, zero_add]
  congr 1
  · simp [upperMat, dg]
  · refine Finset.sum_congr rfl fun k _ => ?_
    simp only [upperMat]; rw [if_pos (by omega)]

theorem lowerMat_row (ua : Bool) (A : Nat → Nat → K) (x : Nat → K) {N i : Nat} (hi : i < N) :
    ∑ k ∈ Finset.range N, lowerMat ua A i k * x k =
      dg ua A i * x i + ∑ k ∈ Finset.range i, A i k * x k := by
  have := sum_split (fun k => lowerMat ua A i k * x k) (show i+1 ≤ N by omega)
  rw [this, Finset.sum_range_succ]
  have z : ∑ k ∈ Finset.range (N-(i+1)), lowerMat ua A i (i+1+k) * x (i+1+k) = 0 := by
    refine Finset.sum_eq_zero fun k hk => ?_
    simp only [lowerMat]; rw [if_neg (by omega), if_neg (by omega), zero_mul]
  rw [z, add_zero, add_comm]
  congr 1
  · simp [lowerMat, dg]
  · refine Finset.sum_congr rfl fun k hk => ?_
    have : k < i := by simpa using hk
    simp only [lowerMat]; rw [if_pos (by omega)]

theorem diagMul_eq (ua : Bool) (A : Nat → Nat → K) (i : Nat) (x : Nat → K) :
    diagMul ua A i x = Function.update x i (dg ua A i * x i) := by
  unfold diagMul dg
  cases ua
  · simp [mul_comm]
  · simp

theorem addRow_eq (A : Nat → Nat → K) (i lo n : Nat) (x : Nat → K) (hi : i < lo ∨ lo + n ≤ i) :
    addRow A i lo n x = Function.update x i (x i + ∑ k ∈ Finset.range n, A i (lo+k) * x (lo+k)) := by
  have := up_inv (fun j x => Function.update x i (x i + x j * A i j))
    (fun j y => y = Function.update x i (x i + ∑ k ∈ Finset.range (j-lo), A i (lo+k) * x (lo+k))) n lo x
    (by simp) (by
      intro j y h1 h2 hy
      subst hy
      rw [Function.update_self, Function.update_of_ne (by omega), Function.update_idem,
        show j + 1 - lo = (j - lo) + 1 by omega, Finset.sum_range_succ, show lo + (j-lo) = j by omega]
      congr 1; ring)
  simpa [addRow] using this

theorem addCol_eq (A : Nat → Nat → K) (j lo n : Nat) (x : Nat → K) (hj : j < lo ∨ lo + n ≤ j) (i : Nat) :
    addCol A j lo n x i = if lo ≤ i ∧ i < lo + n then x i + A i j * x j else x i := by
  have := up_inv (fun i x => Function.update x i (x i + x j * A i j))
    (fun e y => ∀ i, y i = if lo ≤ i ∧ i < e then x i + A i j * x j else x i) n lo x
    (by intro i; rw [if_neg (by omega)]) (by
      intro e y h1 h2 hy i
      by_cases hie : i = e
      · subst hie
        rw [Function.update_self, hy, hy, if_neg (by omega), if_neg (by omega), if_pos (by omega)]; ring
      · rw [Function.update_of_ne hie, hy]
        by_cases h : lo ≤ i ∧ i < e
        · rw [if_pos h, if_pos (by omega)]
        · rw [if_neg h, if_neg (by omega)])
  exact this i

/-- What an in-place product leaves behind. -/
def IsMulV (N : Nat) (T : Nat → Nat → K) (x y : Nat → K) : Prop :=
  ∀ i, y i = if i < N then ∑ k ∈ Finset.range N, T i k * x k else x i

theorem rowU_spec (ua : Bool) (N : Nat) (hN : 0 < N) (A : Nat → Nat → K) (x : Nat → K) :
    IsMulV N (upperMat ua A) x (rowU ua N A x) := by
  have := up_inv (fun i x => addRow A i (i+1) (N-1-i) (diagMul ua A i x))
    (fun r y => ∀ i, y i = if i < r then ∑ k ∈ Finset.range N, upperMat ua A i k * x k else x i) (N-1) 0 x
    (by intro i; rw [if_neg (by omega)]) (by
      intro r y h1 h2 hy i
      rw [addRow_eq _ _ _ _ _ (by omega), diagMul_eq]
      by_cases hir : i = r
      · subst hir
        rw [Function.update_self, Function.update_self, if_pos (by omega), upperMat_row ua A x (by omega)]
        rw [hy i, if_neg (by omega)]
        congr 1
        refine Finset.sum_congr rfl fun k _ => ?_
        rw [Function.update_of_ne (by omega), hy, if_neg (by omega)]
      · rw [Function.update_of_ne hir, Function.update_of_ne hir, hy]
        by_cases h : i < r
        · rw [if_pos h, if_pos (by omega)]
        · rw [if_neg h, if_neg (by omega)])
  rw [Nat.zero_add] at this
  intro i
  unfold rowU
  rw [diagMul_eq]
  by_cases hi : i = N-1
  · subst hi
    rw [Function.update_self, this, if_neg (by omega), if_pos (by omega), upperMat_row ua A x (by omega),
      show N-1-(N-1) = 0 by omega]; simp
  · rw [Function.update_of_ne hi, this]
    by_cases h : i < N-1
    · rw [if_pos h, if_pos (by omega)]
    · rw [if_neg h, if_neg (by omega)]

theorem colU_spec (ua : Bool) (N : Nat) (hN : 0 < N) (A : Nat → Nat → K) (x : Nat → K) :
    IsMulV N (upperMat ua A) x (colU ua N A x) := by
  have := up_inv (fun j x => if x j ≠ 0 then diagMul ua A j (addCol A j 0 j x) else x)
    (fun r y => ∀ i, y i = if i < r then ∑ k ∈ Finset.range r, upperMat ua A i k * x k else x i) (N-1) 1
    (diagMul ua A 0 x)
    (by
      intro i
      rw [diagMul_eq]
      by_cases hi : i = 0
      · subst hi; simp [upperMat, dg]
      · rw [Function.update_of_ne hi, if_neg (by omega)]) (by
      intro r y h1 h2 hy i
      have yr : y r = x r := by rw [hy, if_neg (by omega)]
      by_cases hz : y r ≠ 0
      · rw [if_pos hz, diagMul_eq]
        by_cases hir : i = r
        · subst hir
          rw [Function.update_self, addCol_eq _ _ _ _ _ (by omega), if_neg (by omega), if_pos (by omega), upperMat_row ua A x (by omega), yr,
            show i+1-1-i = 0 by omega]; simp
        · rw [Function.update_of_ne hir, addCol_eq _ _ _ _ _ (by omega)]
          by_cases h : i < r
          · rw [if_pos (by omega), if_pos (by omega), Finset.sum_range_succ, hy, if_pos h, yr]
            congr 2; simp only [upperMat]; rw [if_pos h]
          · rw [if_neg (by omega), if_neg (by omega), hy, if_neg h]
      · rw [if_neg hz]
        have hz' : x r = 0 := by rw [← yr]; simpa using hz
        by_cases hir : i = r
        · subst hir
          rw [if_pos (by omega), upperMat_row ua A x (by omega), yr, show i+1-1-i = 0 by omega, hz']; simp
        · rw [hy]
          by_cases h : i < r
          · rw [if_pos h, if_pos (by omega), Finset.sum_range_succ, hz', mul_zero, add_zero]
          · rw [if_neg h, if_neg (by omega)])
  rw [show 1 + (N-1) = N by omega] at this
  exact this

theorem rowL_spec (ua : Bool) (N : Nat) (hN : 0 < N) (A : Nat → Nat → K) (x : Nat → K) :
    IsMulV N (lowerMat ua A) x (rowL ua N A x) := by
  have := down_inv (fun r x =>
    let xx := if ua then x (r+1) else x (r+1) * A (r+1) (r+1)
    Function.update x (r+1) (up (fun j xx => xx + x j * A (r+1) j) (r+1) 0 xx))
    (fun r y => ∀ i, y i = if r < i ∧ i < N then ∑ k ∈ Finset.range N, lowerMat ua A i k * x k else x i) (N-1) x
    (by intro i; rw [if_neg (by omega)]) (by
      intro r y h1 hy i
      dsimp only
      have hs := up_inv (fun j xx => xx + y j * A (r+1) j)
        (fun e z => z = dg ua A (r+1) * y (r+1) + ∑ k ∈ Finset.range e, A (r+1) k * y k) (r+1) 0
        (if ua then y (r+1) else y (r+1) * A (r+1) (r+1))
        (by unfold dg; cases ua <;> simp [mul_comm]) (by
          intro e z _ _ hz
          rw [hz, Finset.sum_range_succ]; ring)
      rw [hs, Nat.zero_add]
      by_cases hir : i = r+1
      · subst hir
        rw [Function.update_self, if_pos (by omega), lowerMat_row ua A x (by omega)]
        rw [hy, if_neg (by omega)]
        congr 1
        refine Finset.sum_congr rfl fun k hk => ?_
        have : k < r+1 := by simpa using hk
        rw [hy, if_neg (by omega)]
      · rw [Function.update_of_ne hir, hy]
        by_cases h : r + 1 < i ∧ i < N
        · rw [if_pos h, if_pos (by omega)]
        · rw [if_neg h, if_neg (by omega)])
  intro i
  unfold rowL
  rw [diagMul_eq]
  by_cases hi : i = 0
  · subst hi
    rw [Function.update_self, this, if_neg (by omega), if_pos hN, lowerMat_row ua A x hN]; simp
  · rw [Function.update_of_ne hi, this]
    by_cases h : i < N
    · rw [if_pos (by omega), if_pos h]
    · rw [if_neg (by omega), if_neg h]

theorem colL_spec (ua : Bool) (N : Nat) (hN : 0 < N) (A : Nat → Nat → K) (x : Nat → K) :
    IsMulV N (lowerMat ua A) x (colL ua N A x) := by
  have := down_inv (fun j x => if x j ≠ 0 then diagMul ua A j (addCol A j (j+1) (N-1-j) x) else x)
    (fun r y => ∀ i, y i = if r ≤ i ∧ i < N then ∑ k ∈ Finset.range (N-r), lowerMat ua A i (r+k) * x (r+k)
      else x i) (N-1) (diagMul ua A (N-1) x)
    (by
      intro i
      rw [diagMul_eq, show N-(N-1) = 1 by omega]
      by_cases hi : i = N-1
      · subst hi; rw [Function.update_self, if_pos (by omega)]; simp [lowerMat, dg]
      · rw [Function.update_of_ne hi, if_neg (by omega)]) (by
      intro r y h1 hy i
      have yr : y r = x r := by rw [hy, if_neg (by omega)]
      have split : ∑ k ∈ Finset.range (N-r), lowerMat ua A i (r+k) * x (r+k) =
          lowerMat ua A i r * x r + ∑ k ∈ Finset.range (N-(r+1)), lowerMat ua A i (r+1+k) * x (r+1+k) := by
        rw [show N - r = (N-(r+1)) + 1 by omega, Finset.sum_range_succ', add_comm]
        congr 1
        refine Finset.sum_congr rfl fun k _ => ?_
        rw [show r + (k+1) = r+1+k by omega]
      have zero : i = r → ∑ k ∈ Finset.range (N-(r+1)), lowerMat ua A i (r+1+k) * x (r+1+k) = 0 := by
        intro h
        refine Finset.sum_eq_zero fun k _ => ?_
        simp only [lowerMat]; rw [if_neg (by omega), if_neg (by omega), zero_mul]
      by_cases hz : y r ≠ 0
      · rw [if_pos hz, diagMul_eq]
        by_cases hir : i = r
        · subst hir
          rw [Function.update_self, addCol_eq _ _ _ _ _ (by omega), if_neg (by omega), if_pos (by omega), split,
            zero rfl, yr]
          simp [lowerMat, dg]
        · rw [Function.update_of_ne hir, addCol_eq _ _ _ _ _ (by omega)]
          by_cases h : r + 1 ≤ i ∧ i < N
          · rw [if_pos (by omega), if_pos (by omega), split, hy, if_pos h, yr, add_comm]
            congr 2; simp only [lowerMat]; rw [if_pos (by omega)]
          · rw [if_neg (by omega), if_neg (by omega), hy, if_neg h]
      · rw [if_neg hz]
        have hz' : x r = 0 := by rw [← yr]; simpa using hz
        by_cases hir : i = r
        · rw [if_pos (by omega), split, zero hir, hir, yr, hz']; simp
        · rw [hy, split, hz', mul_zero, zero_add]
          by_cases h : r + 1 ≤ i ∧ i < N
          · rw [if_pos h, if_pos (by omega)]
          · rw [if_neg h, if_neg (by omega)])
  intro i
  have := this i
  simp only [Nat.zero_le, true_and, Nat.sub_zero, Nat.zero_add] at this
  exact this

theorem doU_spec (o : Ord) (ua : Bool) (N : Nat) (hN : 0 < N) (A : Nat → Nat → K) (x : Nat → K) :
    IsMulV N (upperMat ua A) x (doU o ua N A x) := by
  unfold doU; split
  · exact colU_spec ua N hN A x
  · exact rowU_spec ua N hN A x

theorem doL_spec (o : Ord) (ss ua : Bool) (N : Nat) (hN : 0 < N) (A : Nat → Nat → K) (x : Nat → K) :
    IsMulV N (lowerMat ua A) x (doL o ss ua N A x) := by
  unfold doL; split
  · exact colL_spec ua N hN A x
  · exact rowL_spec ua N hN A x

theorem trimLo_ne {x : Nat → K} : ∀ n i, trimLo x n i < i + n → x (trimLo x n i) ≠ 0 := by
  intro n
  induction n with
  | zero => intro i h; simp [trimLo] at h
  | succ n ih =>
    intro i h
    simp only [trimLo] at h ⊢
    split
    · rename_i h0; rw [if_pos h0] at h; exact ih (i+1) (by omega)
    · rename_i h0; exact h0

theorem trimHi_ne {x : Nat → K} : ∀ n, 0 < trimHi x n → x (trimHi x n - 1) ≠ 0 := by
  intro n
  induction n with
  | zero => intro h; simp [trimHi] at h
  | succ n ih =>
    intro h
    simp only [trimHi] at h ⊢
    split
    · rename_i h0; rw [if_pos h0] at h; exact ih h
    · rename_i h0; simpa using h0

theorem trim_lt {x : Nat → K} {N : Nat} (h : trimHi x N ≠ 0) : trimLo x N 0 < trimHi x N := by
  obtain ⟨a, b⟩ := trimHi_spec x N
  obtain ⟨c, d, e⟩ := trimLo_spec x N 0
  by_contra hc
  have := trimHi_ne N (Nat.pos_of_ne_zero h)
  exact this (e (trimHi x N - 1) (by omega) (by omega))

/-- A sum over the whole range only sees the part where `x` is nonzero. -/
theorem sum_trim {x : Nat → K} {N j1 j2 : Nat} (h1 : j1 ≤ j2) (h2 : j2 ≤ N)
    (z1 : ∀ k, k < j1 → x k = 0) (z2 : ∀ k, j2 ≤ k → k < N → x k = 0) (f : Nat → K) :
    ∑ k ∈ Finset.range N, f k * x k = ∑ k ∈ Finset.range (j2-j1), f (j1+k) * x (j1+k) := by
  rw [sum_split _ h2, sum_split _ h1]
  have a : ∑ k ∈ Finset.range j1, f k * x k = 0 :=
    Finset.sum_eq_zero fun k hk => by rw [z1 k (by simpa using hk), mul_zero]
  have b : ∑ k ∈ Finset.range (N-j2), f (j2+k) * x (j2+k) = 0 :=
    Finset.sum_eq_zero fun k hk => by
      have : k < N - j2 := by simpa using hk
      rw [z2 _ (by omega) (by omega), mul_zero]
  rw [a, b, zero_add, add_zero]

/-- `x = U*x` in place for every storage order, unit or not. -/
theorem upperV_spec (o : Ord) (ua : Bool) (N : Nat) (A : Nat → Nat → K) (x : Nat → K) :
    IsMulV N (upperMat ua A) x (upperV o ua N A x) := by
  obtain ⟨a1, a2⟩ := trimHi_spec x N
  obtain ⟨b1, b2, b3⟩ := trimLo_spec x N 0
  unfold upperV
  dsimp only
  by_cases h0 : trimHi x N = 0
  · rw [if_pos h0]
    intro i
    split
    · rename_i hi
      rw [a2 i (by omega) hi, Finset.sum_eq_zero]
      intro k hk
      rw [a2 k (by omega) (by simpa using hk), mul_zero]
    · rfl
  · rw [if_neg h0]
    have hlt := trim_lt h0
    generalize trimHi x N = j2 at *
    generalize trimLo x N 0 = j1 at *
    have z1 : ∀ k, k < j1 → x k = 0 := fun k hk => b3 k (by omega) hk
    split
    · rename_i h
      exact doU_spec o ua N (by omega) A x
    · clear * - a1 a2 hlt z1
      intro i
      generalize hx : (if j1 ≠ 0 then addMV A 0 j1 j1 (j2-j1) x else x) = x'
      have key := doU_spec o ua (j2-j1) (by omega) (sub A j1 j1) (fun i => x' (j1+i))
      have same : ∀ i, x' (j1+i) = x (j1+i) := by
        intro i; rw [← hx]; split
        · rw [addMV, if_neg (by omega)]
        · rfl
      simp only [same] at key
      unfold onSub
      rw [sum_trim (le_of_lt hlt) a1 z1 a2]
      by_cases hi : j1 ≤ i ∧ i < j2
      · rw [if_pos hi, if_pos (by omega)]
        simp only [same]
        rw [key, if_pos (by omega)]
        refine Finset.sum_congr rfl fun k _ => ?_
        simp only [upperMat, sub]
        rw [show j1 + (i - j1) = i by omega]
        congr 1
        by_cases h1 : i < j1 + k
        · rw [if_pos h1, if_pos (by omega)]
        · rw [if_neg h1, if_neg (by omega)]
          by_cases h2 : i = j1 + k
          · rw [if_pos h2, if_pos (by omega)]
          · rw [if_neg h2, if_neg (by omega)]
      · rw [if_neg hi]
        by_cases hlow : i < j1
        · rw [← hx, if_pos (by omega), addMV, if_pos (by omega), if_pos (by omega), z1 i hlow, zero_add]
          refine Finset.sum_congr rfl fun k _ => ?_
          simp only [upperMat]; rw [if_pos (by omega)]
        · have : x' i = x i := by
            obtain ⟨t, rfl⟩ : ∃ t, i = j1 + t := ⟨i - j1, by omega⟩
            exact same t
          rw [this]
          split
          · rename_i hiN
            rw [a2 i (by omega) hiN, Finset.sum_eq_zero]
            intro k hk
            have : k < j2 - j1 := by simpa using hk
            simp only [upperMat]; rw [if_neg (by omega), if_neg (by omega), zero_mul]
          · rfl

/-- `x = L*x` in place. -/
theorem lowerV_spec (o : Ord) (ss ua : Bool) (N : Nat) (A : Nat → Nat → K) (x : Nat → K) :
    IsMulV N (lowerMat ua A) x (lowerV o ss ua N A x) := by
  obtain ⟨a1, a2⟩ := trimHi_spec x N
  obtain ⟨b1, b2, b3⟩ := trimLo_spec x N 0
  unfold lowerV
  dsimp only
  by_cases h0 : trimHi x N = 0
  · rw [if_pos h0]
    intro i
    split
    · rename_i hi
      rw [a2 i (by omega) hi, Finset.sum_eq_zero]
      intro k hk
      rw [a2 k (by omega) (by simpa using hk), mul_zero]
    · rfl
  · rw [if_neg h0]
    have hlt := trim_lt h0
    generalize trimHi x N = j2 at *
    generalize trimLo x N 0 = j1 at *
    have z1 : ∀ k, k < j1 → x k = 0 := fun k hk => b3 k (by omega) hk
    split
    · rename_i h
      exact doL_spec o ss ua N (by omega) A x
    · clear * - a1 a2 hlt z1
      intro i
      generalize hx : (if j2 ≠ N then addMV A j2 (N-j2) j1 (j2-j1) x else x) = x'
      have key := doL_spec o (ss && j1 == 0) ua (j2-j1) (by omega) (sub A j1 j1) (fun i => x' (j1+i))
      have same : ∀ i, i < j2 → x' i = x i := by
        intro i hi; rw [← hx]; split
        · rw [addMV, if_neg (by omega)]
        · rfl
      unfold onSub
      rw [sum_trim (le_of_lt hlt) a1 z1 a2]
      by_cases hi : j1 ≤ i ∧ i < j2
      · rw [if_pos hi, if_pos (by omega)]
        rw [key, if_pos (by omega)]
        refine Finset.sum_congr rfl fun k hk => ?_
        have hk' : k < j2 - j1 := by simpa using hk
        show _ * x' (j1+k) = _
        rw [same _ (by omega)]
        simp only [lowerMat, sub]
        rw [show j1 + (i - j1) = i by omega]
        congr 1
        by_cases h1 : j1 + k < i
        · rw [if_pos h1, if_pos (by omega)]
        · rw [if_neg h1, if_neg (by omega)]
          by_cases h2 : i = j1 + k
          · rw [if_pos h2, if_pos (by omega)]
          · rw [if_neg h2, if_neg (by omega)]
      · rw [if_neg hi]
        by_cases hlow : i < j1
        · rw [if_pos (by omega), same i (by omega), z1 i hlow, Finset.sum_eq_zero]
          intro k hk
          have : k < j2 - j1 := by simpa using hk
          simp only [lowerMat]; rw [if_neg (by omega), if_neg (by omega), zero_mul]
        · by_cases hiN : i < N
          · rw [if_pos hiN, ← hx, if_pos (by omega), addMV, if_pos (by omega), a2 i (by omega) hiN, zero_add]
            refine Finset.sum_congr rfl fun k hk => ?_
            have : k < j2 - j1 := by simpa using hk
            simp only [lowerMat]; rw [if_pos (by omega)]
          · rw [if_neg hiN, ← hx]
            split
            · rw [addMV, if_neg (by omega)]
            · rfl

/-- What an in-place `B = alpha*T*B` leaves behind. -/
def IsMulM (α : K) (N nc : Nat) (T B C : Nat → Nat → K) : Prop :=
  ∀ i c, C i c = if i < N ∧ c < nc then α * ∑ k ∈ Finset.range N, T i k * B k c else B i c

theorem diagMulM_eq (ua : Bool) (A : Nat → Nat → K) (i nc : Nat) (B : Nat → Nat → K) :
    diagMulM ua A i nc B = fun a c => if a = i ∧ c < nc then dg ua A i * B a c else B a c := by
  unfold diagMulM dg
  cases ua
  · funext a c; simp [mul_comm]
  · simp

theorem scaleM_spec (α : K) (N nc : Nat) (T B C : Nat → Nat → K) (h : IsMulM 1 N nc T B C) :
    IsMulM α N nc T B (scaleM α N nc C) := by
  intro i c
  unfold scaleM
  split
  · rename_i hh; rw [h, if_pos hh, one_mul, mul_comm]
  · rename_i hh; rw [h, if_neg hh]

theorem rrU_spec (ua : Bool) (N nc : Nat) (A B : Nat → Nat → K) :
    IsMulM 1 N nc (upperMat ua A) B (rrU ua N nc A B) := by
  have := up_inv (fun i B => addRowM A i (i+1) (N-(i+1)) nc (diagMulM ua A i nc B))
    (fun r C => ∀ i c, C i c = if i < r ∧ c < nc then ∑ k ∈ Finset.range N, upperMat ua A i k * B k c else B i c)
    N 0 B (by intro i c; rw [if_neg (by omega)]) (by
      intro r C _ h2 hC i c
      rw [diagMulM_eq]
      unfold addRowM
      dsimp only
      by_cases hc : c < nc
      · by_cases hir : i = r
        · subst hir
          rw [if_pos ⟨rfl, hc⟩, if_pos ⟨rfl, hc⟩, if_pos (by omega), upperMat_row ua A (fun k => B k c) (by omega),
            hC, if_neg (by omega), show N - (i+1) = N-1-i by omega]
          congr 1
          refine Finset.sum_congr rfl fun k _ => ?_
          rw [if_neg (by omega), hC, if_neg (by omega)]
        · rw [if_neg (by omega), if_neg (by omega), hC]
          by_cases h : i < r
          · rw [if_pos (by omega), if_pos (by omega)]
          · rw [if_neg (by omega), if_neg (by omega)]
      · rw [if_neg (by omega), if_neg (by omega), hC, if_neg (by omega), if_neg (by omega)])
  intro i c
  rw [Nat.zero_add] at this
  rw [one_mul]; exact this i c

theorem crU_spec (ua : Bool) (N nc : Nat) (A B : Nat → Nat → K) :
    IsMulM 1 N nc (upperMat ua A) B (crU ua N nc A B) := by
  have := up_inv (fun j B => diagMulM ua A j nc (addOuterM A j 0 j nc B))
    (fun r C => ∀ i c, C i c = if i < r ∧ c < nc then ∑ k ∈ Finset.range r, upperMat ua A i k * B k c else B i c)
    N 0 B (by intro i c; rw [if_neg (by omega)]) (by
      intro r C _ h2 hC i c
      rw [diagMulM_eq]
      unfold addOuterM
      dsimp only
      by_cases hc : c < nc
      · have cr : C r c = B r c := by rw [hC, if_neg (by omega)]
        by_cases hir : i = r
        · subst hir
          rw [if_pos ⟨rfl, hc⟩, if_neg (by omega), if_pos (by omega), upperMat_row ua A (fun k => B k c) (by omega),
            cr, show i+1-1-i = 0 by omega]; simp
        · rw [if_neg (by omega)]
          by_cases h : i < r
          · rw [if_pos (by omega), if_pos (by omega), Finset.sum_range_succ, hC, if_pos (by omega), cr]
            congr 2; simp only [upperMat]; rw [if_pos h]
          · rw [if_neg (by omega), if_neg (by omega), hC, if_neg (by omega)]
      · rw [if_neg (by omega), if_neg (by omega), hC, if_neg (by omega), if_neg (by omega)])
  intro i c
  rw [Nat.zero_add] at this
  rw [one_mul]; exact this i c

theorem rrL_spec (ua : Bool) (N nc : Nat) (A B : Nat → Nat → K) :
    IsMulM 1 N nc (lowerMat ua A) B (rrL ua N nc A B) := by
  have := down_inv (fun i B => addRowM A i 0 i nc (diagMulM ua A i nc B))
    (fun r C => ∀ i c, C i c = if r ≤ i ∧ i < N ∧ c < nc then
      ∑ k ∈ Finset.range N, lowerMat ua A i k * B k c else B i c)
    N B (by intro i c; rw [if_neg (by omega)]) (by
      intro r C h2 hC i c
      rw [diagMulM_eq]
      unfold addRowM
      dsimp only
      by_cases hc : c < nc
      · by_cases hir : i = r
        · subst hir
          rw [if_pos ⟨rfl, hc⟩, if_pos ⟨rfl, hc⟩, if_pos (by omega), lowerMat_row ua A (fun k => B k c) (by omega),
            hC, if_neg (by omega)]
          congr 1
          refine Finset.sum_congr rfl fun k hk => ?_
          have : k < i := by simpa using hk
          rw [if_neg (by omega), hC, if_neg (by omega), Nat.zero_add]
        · rw [if_neg (by omega), if_neg (by omega), hC]
          by_cases h : r + 1 ≤ i ∧ i < N
          · rw [if_pos (by omega), if_pos (by omega)]
          · rw [if_neg (by omega), if_neg (by omega)]
      · rw [if_neg (by omega), if_neg (by omega), hC, if_neg (by omega), if_neg (by omega)])
  intro i c
  have := this i c
  simp only [Nat.zero_le, true_and] at this
  rw [one_mul]; exact this

theorem crL_spec (ua : Bool) (N nc : Nat) (A B : Nat → Nat → K) :
    IsMulM 1 N nc (lowerMat ua A) B (crL ua N nc A B) := by
  have := down_inv (fun j B => diagMulM ua A j nc (addOuterM A j (j+1) (N-(j+1)) nc B))
    (fun r C => ∀ i c, C i c = if r ≤ i ∧ i < N ∧ c < nc then
      ∑ k ∈ Finset.range (N-r), lowerMat ua A i (r+k) * B (r+k) c else B i c)
    N B (by intro i c; rw [if_neg (by omega)]) (by
      intro r C h2 hC i c
      rw [diagMulM_eq]
      unfold addOuterM
      dsimp only
      by_cases hc : c < nc
      · have cr : C r c = B r c := by rw [hC, if_neg (by omega)]
        have split : ∑ k ∈ Finset.range (N-r), lowerMat ua A i (r+k) * B (r+k) c =
            lowerMat ua A i r * B r c + ∑ k ∈ Finset.range (N-(r+1)), lowerMat ua A i (r+1+k) * B (r+1+k) c := by
          rw [show N - r = (N-(r+1)) + 1 by omega, Finset.sum_range_succ', add_comm]
          congr 1
          refine Finset.sum_congr rfl fun k _ => ?_
          rw [show r + (k+1) = r+1+k by omega]
        by_cases hir : i = r
        · rw [if_pos ⟨hir, hc⟩, if_neg (by omega), if_pos (by omega), split, hir, cr]
          have : ∑ k ∈ Finset.range (N-(r+1)), lowerMat ua A r (r+1+k) * B (r+1+k) c = 0 := by
            refine Finset.sum_eq_zero fun k _ => ?_
            simp only [lowerMat]; rw [if_neg (by omega), if_neg (by omega), zero_mul]
          rw [this]; simp [lowerMat, dg]
        · rw [if_neg (by omega)]
          by_cases h : r + 1 ≤ i ∧ i < N
          · rw [if_pos (by omega), if_pos (by omega), split, hC, if_pos (by omega), cr, add_comm]
            congr 2; simp only [lowerMat]; rw [if_pos (by omega)]
          · rw [if_neg (by omega), if_neg (by omega), hC, if_neg (by omega)]
      · rw [if_neg (by omega), if_neg (by omega), hC, if_neg (by omega), if_neg (by omega)])
  intro i c
  have := this i c
  simp only [Nat.zero_le, true_and, Nat.sub_zero, Nat.zero_add] at this
  rw [one_mul]; exact this

theorem cM_spec (f : (Nat → K) → Nat → K) (T : Nat → Nat → K) (α : K) (st : Bool) (N nc : Nat)
    (hf : ∀ x, IsMulV N T x (f x)) (B : Nat → Nat → K) : IsMulM α N nc T B (cM f α st N nc B) := by
  have := up_inv (fun j B =>
      let y := if st then (fun i => f (fun i => B i j) i * α) else f (fun i => α * B i j)
      fun a c => if c = j ∧ a < N then y a else B a c)
    (fun r C => ∀ i c, C i c = if i < N ∧ c < r then α * ∑ k ∈ Finset.range N, T i k * B k c else B i c)
    nc 0 B (by intro i c; rw [if_neg (by omega)]) (by
      intro r C _ h2 hC i c
      dsimp only
      by_cases h : c = r ∧ i < N
      · obtain ⟨rfl, hi⟩ := h
        rw [if_pos ⟨rfl, hi⟩, if_pos (show i < N ∧ c < c+1 from ⟨hi, by omega⟩)]
        have cc : ∀ k, C k c = B k c := fun k => by rw [hC, if_neg (by omega)]
        cases st
        · simp only [Bool.false_eq_true, if_false]
          rw [hf, if_pos hi, Finset.mul_sum]
          refine Finset.sum_congr rfl fun k _ => ?_
          rw [cc]; ring
        · simp only [if_true]
          rw [hf, if_pos hi, mul_comm]
          simp only [cc]
      · rw [if_neg h, hC]
        by_cases h' : i < N ∧ c < r
        · rw [if_pos h', if_pos (by omega)]
        · rw [if_neg h', if_neg (by omega)])
  rw [Nat.zero_add] at this
  exact this

theorem scaledCopy_upper (ua : Bool) (α : K) (A : Nat → Nat → K) (i k : Nat) :
    upperMat false (scaledCopy ua α A) i k = α * upperMat ua A i k := by
  unfold upperMat scaledCopy
  by_cases h : i < k
  · rw [if_pos h, if_pos h, if_neg (by omega)]
  · rw [if_neg h, if_neg h]
    by_cases h2 : i = k
    · subst h2; cases ua <;> simp
    · rw [if_neg h2, if_neg h2, mul_zero]

theorem scaledCopy_lower (ua : Bool) (α : K) (A : Nat → Nat → K) (i k : Nat) :
    lowerMat false (scaledCopy ua α A) i k = α * lowerMat ua A i k := by
  unfold lowerMat scaledCopy
  by_cases h : k < i
  · rw [if_pos h, if_pos h, if_neg (by omega)]
  · rw [if_neg h, if_neg h]
    by_cases h2 : i = k
    · subst h2; cases ua <;> simp
    · rw [if_neg h2, if_neg h2, mul_zero]

theorem IsMulM.scaled {α : K} {N nc : Nat} {T T' B C : Nat → Nat → K} (hT : ∀ i k, T' i k = α * T i k)
    (h : IsMulM 1 N nc T' B C) : IsMulM α N nc T B C := by
  intro i c
  rw [h i c]
  split
  · rw [one_mul, Finset.mul_sum]
    refine Finset.sum_congr rfl fun k _ => ?_
    rw [hT, mul_assoc]
  · rfl

/-- `B = alpha*U*B` in place, every storage order, block size and shape. -/
theorem upperRec_spec (nb nb2 : Nat) (hnb : 0 < nb) (hnb2 : 0 < nb2) (o : Ord) (brm bst : Bool) (nc : Nat) :
    ∀ (fuel N : Nat) (ss ua : Bool) (α : K) (A B : Nat → Nat → K), N < fuel →
      IsMulM α N nc (upperMat ua A) B (upperRec nb nb2 o ss brm bst nc fuel N ua α A B) := by
  intro fuel
  induction fuel with
  | zero => intro N _ _ _ _ _ h; omega
  | succ fuel ih =>
    intro N ss ua α A B hf
    unfold upperRec
    split_ifs with h1 h2 h3 h4 h5
    · exact scaleM_spec _ _ _ _ _ _ (rrU_spec ua N nc A B)
    · exact scaleM_spec _ _ _ _ _ _ (crU_spec ua N nc A B)
    · exact IsMulM.scaled (scaledCopy_upper ua α A) (crU_spec false N nc _ B)
    · exact IsMulM.scaled (scaledCopy_upper ua α A) (cM_spec _ _ _ _ _ _ (upperV_spec .cm false N _) B)
    · exact cM_spec _ _ _ _ _ _ (upperV_spec o ua N A) B
    · obtain ⟨k1, k2⟩ := splitAt_spec nb N hnb (by omega)
      dsimp only
      generalize splitAt nb N = k at *
      have i1 := ih k ss ua α A B (by omega)
      generalize upperRec nb nb2 o ss brm bst nc fuel k ua α A B = B0 at *
      generalize hB1 : addMul α k nc (N-k) (sub A 0 k) (sub (paste B 0 0 k nc B0) k 0) (paste B 0 0 k nc B0) = B1
      have e1 : ∀ i c, sub B1 k 0 i c = B (k+i) c := by
        intro i c
        rw [← hB1]
        simp only [sub, addMul, zero_add]
        rw [if_neg (by omega), paste, if_neg (by omega)]
      have i2 := ih (N-k) false ua α (sub A k k) (sub B1 k 0) (by omega)
      intro i c
      by_cases hic : i < N ∧ c < nc
      · rw [if_pos hic]
        by_cases hik : k ≤ i
        · rw [paste, if_pos (by omega), i2, if_pos (by omega)]
          congr 1
          rw [sum_split _ (le_of_lt k2)]
          have z : ∑ l ∈ Finset.range k, upperMat ua A i l * B l c = 0 := by
            refine Finset.sum_eq_zero fun l hl => ?_
            have : l < k := by simpa using hl
            simp only [upperMat]; rw [if_neg (by omega), if_neg (by omega), zero_mul]
          rw [z, zero_add]
          refine Finset.sum_congr rfl fun l _ => ?_
          rw [e1, Nat.sub_zero, upperMat_shift, show k + (i-k) = i by omega]
        · rw [paste, if_neg (by omega), ← hB1, addMul, if_pos (by omega), paste, if_pos (by omega),
            Nat.sub_zero, Nat.sub_zero, i1, if_pos (by omega), ← mul_add]
          congr 1
          rw [sum_split (fun l => upperMat ua A i l * B l c) (le_of_lt k2)]
          congr 1
          refine Finset.sum_congr rfl fun l _ => ?_
          simp only [sub, zero_add, upperMat]
          rw [if_pos (by omega), paste, if_neg (by omega)]
      · rw [if_neg hic, paste, if_neg (by omega), ← hB1, addMul, if_neg (by omega), paste]
        split
        · omega
        · rfl

/-- `B = alpha*L*B` in place. -/
theorem lowerRec_spec (nb nb2 : Nat) (hnb : 0 < nb) (hnb2 : 0 < nb2) (o : Ord) (brm bst : Bool) (nc : Nat) :
    ∀ (fuel N : Nat) (ss ua : Bool) (α : K) (A B : Nat → Nat → K), N < fuel →
      IsMulM α N nc (lowerMat ua A) B (lowerRec nb nb2 o ss brm bst nc fuel N ua α A B) := by
  intro fuel
  induction fuel with
  | zero => intro N _ _ _ _ _ h; omega
  | succ fuel ih =>
    intro N ss ua α A B hf
    unfold lowerRec
    split_ifs with h1 h2 h3 h4 h5
    · exact scaleM_spec _ _ _ _ _ _ (rrL_spec ua N nc A B)
    · exact scaleM_spec _ _ _ _ _ _ (crL_spec ua N nc A B)
    · exact IsMulM.scaled (scaledCopy_lower ua α A) (crL_spec false N nc _ B)
    · exact IsMulM.scaled (scaledCopy_lower ua α A) (cM_spec _ _ _ _ _ _ (lowerV_spec .cm false false N _) B)
    · exact cM_spec _ _ _ _ _ _ (lowerV_spec o false ua N A) B
    · obtain ⟨k1, k2⟩ := splitAt_spec nb N hnb (by omega)
      dsimp only
      generalize splitAt nb N = k at *
      have i1 := ih (N-k) false ua α (sub A k k) (sub B k 0) (by omega)
      generalize lowerRec nb nb2 o false brm bst nc fuel (N-k) ua α (sub A k k) (sub B k 0) = B1 at *
      generalize hB2 : paste (paste B k 0 (N-k) nc B1) k 0 (N-k) nc
        (addMul α (N-k) nc k (sub A k 0) (paste B k 0 (N-k) nc B1) (sub (paste B k 0 (N-k) nc B1) k 0)) = B2
      have e1 : ∀ i c, i < k → B2 i c = B i c := by
        intro i c hi
        rw [← hB2, paste, if_neg (by omega), paste, if_neg (by omega)]
      have i2 := ih k ss ua α A B2 (by omega)
      intro i c
      by_cases hic : i < N ∧ c < nc
      · rw [if_pos hic]
        by_cases hik : k ≤ i
        · rw [paste, if_neg (by omega), ← hB2, paste, if_pos (by omega), addMul, if_pos (by omega)]
          rw [sum_split (fun l => lowerMat ua A i l * B l c) (le_of_lt k2), mul_add, add_comm]
          congr 1
          · congr 1
            refine Finset.sum_congr rfl fun l hl => ?_
            have : l < k := by simpa using hl
            simp only [sub, lowerMat, Nat.sub_zero, Nat.zero_add]
            rw [if_pos (by omega), paste, if_neg (by omega), show k + (i-k) = i by omega]
          · simp only [sub, Nat.sub_zero, Nat.zero_add]
            rw [paste, if_pos (by omega), show k + (i-k) - k = i - k by omega, i1, Nat.sub_zero, if_pos (by omega)]
            congr 1
            refine Finset.sum_congr rfl fun l _ => ?_
            rw [lowerMat_shift, show k + (i-k) = i by omega]
            simp only [sub, Nat.zero_add]
        · rw [paste, if_pos (by omega), Nat.sub_zero, Nat.sub_zero, i2, if_pos (by omega)]
          congr 1
          rw [sum_split (fun l => lowerMat ua A i l * B l c) (le_of_lt k2)]
          have z : ∑ l ∈ Finset.range (N-k), lowerMat ua A i (k+l) * B (k+l) c = 0 := by
            refine Finset.sum_eq_zero fun l hl => ?_
            simp only [lowerMat]; rw [if_neg (by omega), if_neg (by omega), zero_mul]
          rw [z, add_zero]
          refine Finset.sum_congr rfl fun l hl => ?_
          rw [e1 l c (by simpa using hl)]
      · rw [if_neg hic, paste, if_neg (by omega), ← hB2, paste, if_neg (by omega), paste, if_neg (by omega)]

end TMV.TriMul
