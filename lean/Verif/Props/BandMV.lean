import Verif.Model.BandMV
import Verif.Spec.BandMul
import Verif.Props.BandTri
import Verif.Props.TriMul
import Mathlib.Algebra.Star.BigOperators

set_option linter.unusedSectionVars false

/-! Products of a band matrix and a vector (C92). -/
namespace TMV.BandMV
open Tri (trimHi trimLo sub)
open TriMul (onSub)
open BandTri (sum_range_mono)
variable {K : Type _} [Field K]

theorem up_acc (i : Nat) (f : Nat → K) (n lo : Nat) (y : Nat → K) :
    up (fun t y => Function.update y i (y i + f t)) n lo y = Function.update y i (y i + ∑ t ∈ Finset.range n, f (lo+t)) := by
  have := up_inv (fun t y => Function.update y i (y i + f t))
    (fun t z => z = Function.update y i (y i + ∑ s ∈ Finset.range (t-lo), f (lo+s))) n lo y (by simp) (by
      intro t s h1 h2 h3
      rw [h3, show t + 1 - lo = (t-lo)+1 by omega, Finset.sum_range_succ, show lo + (t-lo) = t by omega]
      simp [add_assoc])
  rw [this, Nat.add_sub_cancel_left]

theorem up_col (i1 : Nat) (f : Nat → K) (n : Nat) (y : Nat → K) (r : Nat) :
    up (fun t y => Function.update y (i1+t) (y (i1+t) + f t)) n 0 y r =
      if i1 ≤ r ∧ r < i1 + n then y r + f (r-i1) else y r := by
  have := up_inv (fun t y => Function.update y (i1+t) (y (i1+t) + f t))
    (fun t z => ∀ r, z r = if i1 ≤ r ∧ r < i1 + t then y r + f (r-i1) else y r) n 0 y
    (by intro r; rw [if_neg (by omega)]) (by
      intro t s h1 h2 h3 r
      by_cases hr : r = i1 + t
      · subst hr
        rw [Function.update_self, h3, if_neg (by omega), if_pos (by omega), Nat.add_sub_cancel_left]
      · rw [Function.update_of_ne hr, h3]
        by_cases h : i1 ≤ r ∧ r < i1 + t
        · rw [if_pos h, if_pos (by omega)]
        · rw [if_neg h, if_neg (by omega)])
  simpa using this r

variable [DecidableEq K]

/-- The part of row `i` inside the band. -/
theorem band_row (N lo hi i : Nat) (a f : Nat → K) (A : Nat → Nat → K) (hA : ∀ j, A i j = a j) (h : i - lo ≤ N) :
    ∑ j ∈ Finset.range N, bandMat lo hi A i j * f j =
      ∑ t ∈ Finset.range (min N (i+hi+1) - (i-lo)), f (i-lo+t) * a (i-lo+t) := by
  refine sum_range_mono _ _ (i-lo) (by omega) ?_ ?_
  · intro k hk
    simp only [bandMat]
    rw [if_pos (by omega), hA, mul_comm]
  · intro k hk hk'
    simp only [bandMat]
    rw [if_neg (by omega), zero_mul]

theorem band_row_zero (N lo hi i : Nat) (f : Nat → K) (A : Nat → Nat → K) (h : N ≤ i - lo) :
    ∑ j ∈ Finset.range N, bandMat lo hi A i j * f j = 0 := by
  refine Finset.sum_eq_zero fun j hj => ?_
  have := Finset.mem_range.mp hj
  simp only [bandMat]
  rw [if_neg (by omega), zero_mul]

variable [StarRing K]

theorem rowLoop_spec (add cx ca : Bool) (N lo hi : Nat) (A : Nat → Nat → K) (x : Nat → K) : ∀ (n i : Nat) (y : Nat → K),
    i - lo < N → ∀ r,
    rowLoop add cx ca N A x n i (lo-i) (i-lo) (min N (i+hi+1)) (min N (i+hi+1) - (i-lo)) y r =
      if i ≤ r ∧ r < i+n then (if add then y r else 0) +
        ∑ j ∈ Finset.range N, bandMat lo hi (fun i j => cj ca (A i j)) r j * cj cx (x j) else y r := by
  intro n
  induction n with
  | zero => intro i y _ r; rw [if_neg (by omega)]; rfl
  | succ n ih =>
    intro i y hi' r
    simp only [rowLoop]
    rw [up_acc]
    simp only [Nat.zero_add]
    rw [show ∑ t ∈ Finset.range (min N (i+hi+1) - (i-lo)), cj cx (x (i-lo+t)) * cj ca (A i (i-lo+t)) =
      ∑ j ∈ Finset.range N, bandMat lo hi (fun i j => cj ca (A i j)) i j * cj cx (x j) from
        (band_row N lo hi i (fun j => cj ca (A i j)) (fun j => cj cx (x j)) _ (fun _ => rfl) (by omega)).symm]
    have hy : ∀ r, Function.update (if add = true then y else Function.update y i 0) i
        ((if add = true then y else Function.update y i 0) i +
          ∑ j ∈ Finset.range N, bandMat lo hi (fun i j => cj ca (A i j)) i j * cj cx (x j)) r =
        if r = i then (if add then y r else 0) +
          ∑ j ∈ Finset.range N, bandMat lo hi (fun i j => cj ca (A i j)) r j * cj cx (x j) else y r := by
      intro r
      by_cases hr : r = i
      · subst hr; rw [Function.update_self, if_pos rfl]; cases add <;> simp
      · rw [Function.update_of_ne hr, if_neg hr]; cases add <;> simp [Function.update_of_ne hr]
    generalize Function.update (if add = true then y else Function.update y i 0) i _ = z at hy
    have ek : (if lo - i > 0 then lo - i - 1 else lo - i) = lo - (i+1) := by split <;> omega
    have ej : (if lo - i > 0 then i - lo else i - lo + 1) = i + 1 - lo := by split <;> omega
    rw [ek, ej]
    have fin : ∀ (R : K), R = (if i + 1 ≤ r ∧ r < i + 1 + n then (if add then z r else 0) +
        ∑ j ∈ Finset.range N, bandMat lo hi (fun i j => cj ca (A i j)) r j * cj cx (x j) else z r) →
        R = if i ≤ r ∧ r < i + (n+1) then (if add then y r else 0) +
        ∑ j ∈ Finset.range N, bandMat lo hi (fun i j => cj ca (A i j)) r j * cj cx (x j) else y r := by
      intro R hR
      rw [hR]
      by_cases h1 : r = i
      · rw [if_neg (show ¬ (i + 1 ≤ r ∧ r < i + 1 + n) by omega), if_pos (show i ≤ r ∧ r < i + (n+1) by omega), hy, if_pos h1]
      · by_cases h2 : i + 1 ≤ r ∧ r < i + 1 + n
        · rw [if_pos h2, if_pos (show i ≤ r ∧ r < i + (n+1) by omega), hy, if_neg h1]
        · rw [if_neg h2, if_neg (show ¬ (i ≤ r ∧ r < i + (n+1)) by omega), hy, if_neg h1]
    apply fin
    by_cases hb : min N (i+hi+1) < N
    · rw [if_pos hb]
      rw [show min N (i+hi+1) + 1 = min N (i+1+hi+1) by omega,
        show (if lo - i > 0 then min N (i+hi+1) - (i-lo) + 1 else min N (i+hi+1) - (i-lo)) =
          min N (i+1+hi+1) - (i+1-lo) by split <;> omega]
      exact ih (i+1) z (by omega) r
    · rw [if_neg hb]
      by_cases hc : i + 1 - lo = N
      · rw [if_pos hc]
        cases add with
        | true =>
          simp only [if_true]
          split
          · rw [band_row_zero _ _ _ _ _ _ (by omega), add_zero]
          · rfl
        | false =>
          simp only [Bool.false_eq_true, if_false]
          split
          · rw [band_row_zero _ _ _ _ _ _ (by omega), add_zero]
          · rfl
      · rw [if_neg hc]
        rw [show min N (i+hi+1) = min N (i+1+hi+1) by omega,
          show (if lo - i > 0 then min N (i+1+hi+1) - (i-lo) + 1 else min N (i+1+hi+1) - (i-lo)) - 1 =
            min N (i+1+hi+1) - (i+1-lo) by split <;> omega]
        exact ih (i+1) z (by omega) r

/-- What the kernels must do. -/
def IsMV (add cx ca : Bool) (M N lo hi : Nat) (A : Nat → Nat → K) (x y y' : Nat → K) : Prop :=
  ∀ r, y' r = if r < M then (if add then y r else 0) +
    ∑ j ∈ Finset.range N, bandMat lo hi (fun i j => cj ca (A i j)) r j * cj cx (x j) else y r

theorem rowMV_spec (add cx ca : Bool) (M N lo hi : Nat) (hN : hi < N) (A : Nat → Nat → K) (x y : Nat → K) :
    IsMV add cx ca M N lo hi A x y (rowMV add cx ca M N lo hi A x y) := by
  intro r
  have := rowLoop_spec add cx ca N lo hi A x M 0 y (by omega) r
  rw [show min N (0+hi+1) = hi+1 by omega] at this
  simp only [Nat.zero_sub, Nat.sub_zero, Nat.zero_add, Nat.zero_le, true_and] at this
  exact this

theorem colLoop_spec (cx ca : Bool) (M lo hi : Nat) (A : Nat → Nat → K) (x : Nat → K) : ∀ (n j : Nat) (y : Nat → K),
    j - hi < M → ∀ r,
    colLoop cx ca M A x n j (hi-j) (j-hi) (min M (j+lo+1)) (min M (j+lo+1) - (j-hi)) y r =
      if r < M then y r +
        ∑ t ∈ Finset.range n, bandMat lo hi (fun i j => cj ca (A i j)) r (j+t) * cj cx (x (j+t)) else y r := by
  intro n
  induction n with
  | zero => intro j y _ r; simp [colLoop]
  | succ n ih =>
    intro j y hj' r
    simp only [colLoop]
    set z := (if x j ≠ 0 then up (fun t y => Function.update y (j-hi+t) (y (j-hi+t) + cj cx (x j) * cj ca (A (j-hi+t) j)))
        (min M (j+lo+1) - (j-hi)) 0 y else y) with hz
    have hy : ∀ r, z r = if r < M then y r + bandMat lo hi (fun i j => cj ca (A i j)) r j * cj cx (x j) else y r := by
      intro r
      rw [hz]
      by_cases hx : x j = 0
      · rw [if_neg (by simpa using hx), hx]
        simp [cj]
      · rw [if_pos hx, up_col (j-hi) (fun t => cj cx (x j) * cj ca (A (j-hi+t) j))]
        by_cases h1 : j - hi ≤ r ∧ r < j - hi + (min M (j+lo+1) - (j-hi))
        · rw [if_pos h1, if_pos (by omega), show j - hi + (r - (j-hi)) = r by omega]
          simp only [bandMat]
          rw [if_pos (by omega), mul_comm]
        · rw [if_neg h1]
          split
          · simp only [bandMat]
            rw [if_neg (by omega), zero_mul, add_zero]
          · rfl
    clear_value z
    have ek : (if hi - j > 0 then hi - j - 1 else hi - j) = hi - (j+1) := by split <;> omega
    have ej : (if hi - j > 0 then j - hi else j - hi + 1) = j + 1 - hi := by split <;> omega
    rw [ek, ej]
    have fin : ∀ (R : K), R = (if r < M then z r +
        ∑ t ∈ Finset.range n, bandMat lo hi (fun i j => cj ca (A i j)) r (j+1+t) * cj cx (x (j+1+t)) else z r) →
        R = if r < M then y r +
        ∑ t ∈ Finset.range (n+1), bandMat lo hi (fun i j => cj ca (A i j)) r (j+t) * cj cx (x (j+t)) else y r := by
      intro R hR
      rw [hR]
      split
      · rw [hy, if_pos ‹_›, Finset.sum_range_succ', Nat.add_zero, add_assoc]
        congr 1
        rw [add_comm]
        congr 1
        exact Finset.sum_congr rfl fun t _ => by rw [show j + 1 + t = j + (t+1) by omega]
      · rw [hy, if_neg ‹_›]
    apply fin
    by_cases hb : min M (j+lo+1) < M
    · rw [if_pos hb]
      rw [show min M (j+lo+1) + 1 = min M (j+1+lo+1) by omega,
        show (if hi - j > 0 then min M (j+lo+1) - (j-hi) + 1 else min M (j+lo+1) - (j-hi)) =
          min M (j+1+lo+1) - (j+1-hi) by split <;> omega]
      exact ih (j+1) z (by omega) r
    · rw [if_neg hb]
      by_cases hc : j + 1 - hi = M
      · rw [if_pos hc]
        split
        · rw [Finset.sum_eq_zero, add_zero]
          intro t _
          simp only [bandMat]
          rw [if_neg (by omega), zero_mul]
        · rfl
      · rw [if_neg hc]
        rw [show min M (j+lo+1) = min M (j+1+lo+1) by omega,
          show (if hi - j > 0 then min M (j+1+lo+1) - (j-hi) + 1 else min M (j+1+lo+1) - (j-hi)) - 1 =
            min M (j+1+lo+1) - (j+1-hi) by split <;> omega]
        exact ih (j+1) z (by omega) r

theorem addIf (add : Bool) (M r : Nat) (y : Nat → K) :
    (if add = true then y else zeroV M y) r = if r < M then (if add then y r else 0) else y r := by
  cases add <;> simp [zeroV]

theorem colMV_spec (add cx ca : Bool) (M N lo hi : Nat) (hM : lo < M) (A : Nat → Nat → K) (x y : Nat → K) :
    IsMV add cx ca M N lo hi A x y (colMV add cx ca M N lo hi A x y) := by
  intro r
  have := colLoop_spec cx ca M lo hi A x N 0 (if add = true then y else zeroV M y) (by omega) r
  rw [show min M (0+lo+1) = lo+1 by omega] at this
  simp only [Nat.zero_sub, Nat.sub_zero, Nat.zero_add] at this
  refine this.trans ?_
  rw [addIf]
  split <;> rfl

/-- Element `(r,j)` of the diagonals `-lo … d-1-lo`. -/
def upto (lo d : Nat) (a : Nat → Nat → K) (r j : Nat) : K := if r ≤ j + lo ∧ j + lo < r + d then a r j else 0

theorem diagLoop_spec (cx ca : Bool) (M N lo : Nat) (hlo : lo < M) (A : Nat → Nat → K) (x : Nat → K) :
    ∀ (n d : Nat) (y : Nat → K), d + n ≤ N + lo → ∀ r,
    diagLoop cx ca lo N A x n d (lo-d) (d-lo) (min (M+d-lo) N) (min (M+d-lo) N - (d-lo)) y r =
      if r < M then y r + ∑ j ∈ Finset.range N,
        (if r + d ≤ j + lo ∧ j + lo < r + d + n then cj ca (A r j) else 0) * cj cx (x j) else y r := by
  intro n
  induction n with
  | zero =>
    intro d y _ r
    simp only [diagLoop]
    split
    · rw [Finset.sum_eq_zero, add_zero]
      intro j _
      rw [if_neg (by omega), zero_mul]
    · rfl
  | succ n ih =>
    intro d y hd r
    simp only [diagLoop]
    have hy : ∀ r, up (fun t y => Function.update y (lo-d+t) (y (lo-d+t) + cj cx (x (d-lo+t)) * cj ca (A (lo-d+t) (d-lo+t))))
        (min (M+d-lo) N - (d-lo)) 0 y r = if r < M then y r + ∑ j ∈ Finset.range N,
        (if j + lo = r + d then cj ca (A r j) else 0) * cj cx (x j) else y r := by
      intro r
      rw [up_col (lo-d) (fun t => cj cx (x (d-lo+t)) * cj ca (A (lo-d+t) (d-lo+t)))]
      by_cases h1 : lo - d ≤ r ∧ r < lo - d + (min (M+d-lo) N - (d-lo))
      · rw [if_pos h1, if_pos (by omega), Finset.sum_eq_single (r+d-lo)]
        · rw [if_pos (by omega), show lo - d + (r - (lo-d)) = r by omega, show d - lo + (r - (lo-d)) = r + d - lo by omega,
            mul_comm]
        · intro j _ hj
          rw [if_neg (by omega), zero_mul]
        · intro h
          exact absurd (Finset.mem_range.mpr (by omega)) h
      · rw [if_neg h1]
        split
        · rw [Finset.sum_eq_zero, add_zero]
          intro j hj
          have := Finset.mem_range.mp hj
          rw [if_neg (by omega), zero_mul]
        · rfl
    generalize up _ (min (M+d-lo) N - (d-lo)) 0 y = z at hy
    have ei : (if d < lo then lo - d - 1 else lo - d) = lo - (d+1) := by split <;> omega
    have ej : (if d < lo then d - lo else d - lo + 1) = d + 1 - lo := by split <;> omega
    rw [ei, ej]
    have fin : ∀ (R : K), R = (if r < M then z r + ∑ j ∈ Finset.range N,
        (if r + (d+1) ≤ j + lo ∧ j + lo < r + (d+1) + n then cj ca (A r j) else 0) * cj cx (x j) else z r) →
        R = if r < M then y r + ∑ j ∈ Finset.range N,
        (if r + d ≤ j + lo ∧ j + lo < r + d + (n+1) then cj ca (A r j) else 0) * cj cx (x j) else y r := by
      intro R hR
      rw [hR]
      split
      · rw [hy, if_pos ‹_›, add_assoc, ← Finset.sum_add_distrib]
        congr 1
        refine Finset.sum_congr rfl fun j _ => ?_
        rw [← add_mul]
        congr 1
        by_cases h1 : j + lo = r + d
        · rw [if_pos h1, if_neg (by omega), if_pos (by omega), add_zero]
        · by_cases h2 : r + (d+1) ≤ j + lo ∧ j + lo < r + (d+1) + n
          · rw [if_neg h1, if_pos h2, if_pos (by omega), zero_add]
          · rw [if_neg h1, if_neg h2, if_neg (by omega), zero_add]
      · rw [hy, if_neg ‹_›]
    apply fin
    by_cases hb : min (M+d-lo) N < N
    · rw [if_pos hb]
      rw [show min (M+d-lo) N + 1 = min (M+(d+1)-lo) N by omega,
        show (if d < lo then min (M+d-lo) N - (d-lo) + 1 else min (M+d-lo) N - (d-lo)) =
          min (M+(d+1)-lo) N - (d+1-lo) by split <;> omega]
      exact ih (d+1) z (by omega) r
    · rw [if_neg hb]
      rw [show min (M+d-lo) N = min (M+(d+1)-lo) N by omega,
        show (if d < lo then min (M+(d+1)-lo) N - (d-lo) + 1 else min (M+(d+1)-lo) N - (d-lo)) - 1 =
          min (M+(d+1)-lo) N - (d+1-lo) by split <;> omega]
      exact ih (d+1) z (by omega) r

theorem diagMV_spec (add cx ca : Bool) (M N lo hi : Nat) (hM : lo < M) (hN : hi < N) (A : Nat → Nat → K) (x y : Nat → K) :
    IsMV add cx ca M N lo hi A x y (diagMV add cx ca M N lo hi A x y) := by
  intro r
  have := diagLoop_spec cx ca M N lo hM A x (lo+hi+1) 0 (if add = true then y else zeroV M y) (by omega) r
  simp only [Nat.zero_sub, Nat.sub_zero, Nat.add_zero] at this
  refine this.trans ?_
  rw [addIf]
  split
  · congr 1
    refine Finset.sum_congr rfl fun j _ => ?_
    simp only [bandMat]
    congr 1
    by_cases h : r ≤ j + lo ∧ j ≤ r + hi
    · rw [if_pos h, if_pos (by omega)]
    · rw [if_neg h, if_neg (by omega)]
  · rfl

theorem unitA1_spec (add cx : Bool) (M N lo hi : Nat) (hM : lo < M) (hN : hi < N) (A : BArg K) (x y : Nat → K) :
    IsMV add cx A.conj M N lo hi A.mem x y (unitA1 add cx M N lo hi A x y) := by
  unfold unitA1
  split
  · exact rowMV_spec add cx A.conj M N lo hi hN A.mem x y
  · split
    · exact colMV_spec add cx A.conj M N lo hi hM A.mem x y
    · exact diagMV_spec add cx A.conj M N lo hi hM hN A.mem x y

theorem cj_f (a : K) : cj false a = a := rfl

theorem cj_z (c : Bool) : cj c (0 : K) = 0 := by cases c <;> simp [cj]

theorem unitA_spec (add cx : Bool) (M N lo hi : Nat) (hM : lo < M) (hN : hi < N) (hMN : N ≤ M + hi) (A : BArg K)
    (x y : Nat → K) : IsMV add cx A.conj M N lo hi A.mem x y (unitA add cx M N lo hi A x y) := by
  unfold unitA
  obtain ⟨a2, b2⟩ := Tri.trimHi_spec x N
  obtain ⟨a1, a1', b1⟩ := Tri.trimLo_spec x N 0
  have hlt := @TriMul.trim_lt K _ _ x N
  dsimp only
  generalize trimHi x N = j2 at *
  generalize trimLo x N 0 = j1 at *
  by_cases h0 : j2 = 0
  · rw [if_pos h0]
    intro r
    rw [addIf]
    split
    · rw [Finset.sum_eq_zero, add_zero]
      intro j hj
      rw [b2 j (by omega) (Finset.mem_range.mp hj), cj_z, mul_zero]
    · rfl
  · rw [if_neg h0]
    have h12 := hlt h0
    by_cases hw : j1 = 0 ∧ j2 = N
    · rw [if_pos hw]
      exact unitA1_spec add cx M N lo hi hM hN A x y
    · rw [if_neg hw]
      set i1 := if j1 > hi then j1 - hi else 0 with hi1
      set i2 := min (j2+lo) M with hi2
      set nh0 := if j1 < hi then hi - j1 else 0 with hnh0
      set nh := if nh0 ≥ j2 - j1 then j2 - j1 - 1 else nh0 with hnh
      set nl := if lo + hi - nh0 ≥ i2 - i1 then i2 - i1 - 1 else lo + hi - nh0 with hnl
      have e1 : i1 = j1 - hi := by rw [hi1]; split <;> omega
      have e2 : nh0 = hi - j1 := by rw [hnh0]; split <;> omega
      have e3 : nh = min (hi - j1) (j2-j1-1) := by rw [hnh, e2]; split <;> omega
      have e4 : nl = min (lo + hi - (hi - j1)) (i2-i1-1) := by rw [hnl, e2]; split <;> omega
      clear_value i1 nh0 nh nl
      have hk := unitA1_spec add cx (i2-i1) (j2-j1) nl nh (by omega) (by omega) (A.at i1 j1) (fun j => x (j1+j))
        (fun i => y (i1+i))
      have key : ∀ r, i1 ≤ r → r < i2 →
          ∑ j ∈ Finset.range (j2-j1), bandMat nl nh (fun i j => cj A.conj (sub A.mem i1 j1 i j)) (r-i1) j * cj cx (x (j1+j)) =
          ∑ j ∈ Finset.range N, bandMat lo hi (fun i j => cj A.conj (A.mem i j)) r j * cj cx (x j) := by
        intro r h1 h2
        symm
        refine (TriMul.sum_trim (x := fun j => cj cx (x j)) (j1 := j1) (j2 := j2) (by omega) a2
          (fun k hk => by show cj cx (x k) = 0; rw [b1 k (by omega) hk, cj_z])
          (fun k hk hk' => by show cj cx (x k) = 0; rw [b2 k hk hk', cj_z]) _).trans ?_
        refine Finset.sum_congr rfl fun k hk => ?_
        have hk' := Finset.mem_range.mp hk
        congr 1
        simp only [bandMat, sub]
        rw [show i1 + (r - i1) = r by omega]
        by_cases hb : r ≤ j1 + k + lo ∧ j1 + k ≤ r + hi
        · rw [if_pos hb, if_pos (by omega)]
        · rw [if_neg hb, if_neg (by omega)]
      have out : ∀ r, r < M → ¬ (i1 ≤ r ∧ r < i2) →
          ∑ j ∈ Finset.range N, bandMat lo hi (fun i j => cj A.conj (A.mem i j)) r j * cj cx (x j) = 0 := by
        intro r h1 h2
        refine Finset.sum_eq_zero fun j hj => ?_
        have hj' := Finset.mem_range.mp hj
        by_cases hb : j1 ≤ j ∧ j < j2
        · simp only [bandMat]
          rw [if_neg (by omega), zero_mul]
        · rw [show x j = 0 by
            by_cases h3 : j < j1
            · exact b1 j (by omega) h3
            · exact b2 j (by omega) hj', cj_z, mul_zero]
      intro r
      have hos : onSub i1 i2 (unitA1 add cx (i2-i1) (j2-j1) nl nh (A.at i1 j1) (fun j => x (j1+j))) y r =
          if i1 ≤ r ∧ r < i2 then (if add then y r else 0) +
            ∑ j ∈ Finset.range N, bandMat lo hi (fun i j => cj A.conj (A.mem i j)) r j * cj cx (x j) else y r := by
        simp only [onSub]
        by_cases hr : i1 ≤ r ∧ r < i2
        · rw [if_pos hr, if_pos hr, hk (r-i1), if_pos (by omega), ← key r hr.1 hr.2]
          beta_reduce
          rw [show i1 + (r-i1) = r by omega]
          rfl
        · rw [if_neg hr, if_neg hr]
      cases add with
      | true =>
        simp only [if_true] at hos ⊢
        rw [hos]
        by_cases hr : i1 ≤ r ∧ r < i2
        · rw [if_pos hr, if_pos (by omega)]
        · rw [if_neg hr]
          split
          · rw [out r ‹_› hr, add_zero]
          · rfl
      | false =>
        simp only [Bool.false_eq_true, if_false] at hos ⊢
        rw [hos]
        by_cases hr : i1 ≤ r ∧ r < i2
        · rw [if_pos hr, if_neg (by omega), if_neg (by omega), if_pos (by omega)]
        · rw [if_neg hr]
          by_cases hr1 : r < i1
          · rw [if_pos hr1, if_pos (by omega), out r (by omega) hr, add_zero]
          · rw [if_neg hr1]
            by_cases hr2 : i2 ≤ r ∧ r < M
            · rw [if_pos hr2, if_pos hr2.2, out r (by omega) hr, add_zero]
            · rw [if_neg hr2, if_neg (by omega)]

theorem IsMV.val {add cx : Bool} {M N lo hi : Nat} {A : BArg K} {x y y' : Nat → K}
    (h : IsMV add cx A.conj M N lo hi A.mem x y y') :
    MulAddVR add 1 M N (bandMat lo hi A.val) (fun j => cj cx (x j)) y y' := by
  intro i
  rw [h i, one_mul]
  rfl

theorem mulAddVR_put {add : Bool} {α : K} {M N : Nat} {T : Nat → Nat → K} {x g z : Nat → K} (y : Nat → K)
    (h : MulAddVR false 1 M N T x g z) : MulAddVR add α M N T x y (putV add M (fun i => α * z i) y) := by
  intro i
  simp only [putV]
  split
  · rename_i hi
    rw [h i, if_pos hi]
    cases add <;> simp
  · rfl

theorem mulAddVR_scale {add : Bool} {α : K} {M N : Nat} {T : Nat → Nat → K} {x y z : Nat → K}
    (h : MulAddVR add 1 M N T (fun j => α * x j) y z) : MulAddVR add α M N T x y z := by
  intro i
  rw [h i]
  split
  · rw [one_mul, Finset.mul_sum]
    congr 1
    exact Finset.sum_congr rfl fun k _ => by ring
  · rfl

theorem nonBlas_spec (add : Bool) (α : K) (M N lo hi : Nat) (hM : lo < M) (hN : hi < N) (hMN : N ≤ M + hi) (A : BArg K)
    (x : XArg K) (ss ystep1 : Bool) (g y : Nat → K) :
    MulAddVR add α M N (bandMat lo hi A.val) x.val y (nonBlas add α M N lo hi A x ss ystep1 g y) := by
  have hu : ∀ (add cx : Bool) (x y : Nat → K), MulAddVR add 1 M N (bandMat lo hi A.val) (fun j => cj cx (x j)) y
      (unitA add cx M N lo hi A x y) := fun add cx x y => (unitA_spec add cx M N lo hi hM hN hMN A x y).val
  unfold nonBlas
  split
  · split
    · have := mulAddVR_put (add := add) (α := 1) y (hu false false (fun j => α * x.val j) g)
      simp only [one_mul] at this
      exact mulAddVR_scale this
    · exact mulAddVR_scale (hu add false (fun j => α * x.val j) y)
  · split
    · refine mulAddVR_put (g := g) y ?_
      obtain ⟨m, st, c⟩ := x
      cases c with
      | true => exact hu false true m g
      | false => exact hu false false m g
    · rename_i h
      have ha : α = 1 := by
        by_contra hc; exact h (Or.inr hc)
      subst ha
      obtain ⟨m, st, c⟩ := x
      cases c with
      | true => exact hu add true m y
      | false => exact hu add false m y

theorem star_bandMat (lo hi : Nat) (A : Nat → Nat → K) (i j : Nat) :
    star (bandMat lo hi A i j) = bandMat lo hi (fun i j => star (A i j)) i j := by
  simp only [bandMat]; split <;> simp

theorem cj_not (c : Bool) (a : K) : cj (!c) a = star (cj c a) := by cases c <;> simp [cj]

/-- The values of a view `y`. -/
def yval (cy : Bool) (y : Nat → K) : Nat → K := fun i => cj cy (y i)

theorem mulAddVR_star {add : Bool} {α : K} {M N lo hi : Nat} {A : BArg K} {x : XArg K} {y z : Nat → K}
    (h : MulAddVR add (star α) M N (bandMat lo hi A.cjg.val) x.cjg.val y z) :
    MulAddVR add α M N (bandMat lo hi A.val) x.val (yval true y) (yval true z) := by
  intro i
  simp only [yval, cj, if_true]
  rw [h i]
  split
  · rw [star_add, star_mul', star_star, star_sum]
    congr 1
    · cases add <;> simp
    · congr 1
      refine Finset.sum_congr rfl fun k _ => ?_
      rw [star_mul', star_bandMat]
      simp only [BArg.val, XArg.val, BArg.cjg, XArg.cjg, cj_not, star_star]
      rfl
  · rfl

theorem doMV_spec (add : Bool) (α : K) (M N lo hi : Nat) (hM : lo < M) (hN : hi < N) (hMN : N ≤ M + hi) (A : BArg K)
    (x : XArg K) (ss ystep1 cy : Bool) (g y : Nat → K) :
    MulAddVR add α M N (bandMat lo hi A.val) x.val (yval cy y) (yval cy (doMV add α M N lo hi A x ss ystep1 cy g y)) := by
  unfold doMV
  cases cy with
  | true => exact mulAddVR_star (nonBlas_spec add (star α) M N lo hi hM hN hMN A.cjg x.cjg ss ystep1 g y)
  | false => exact nonBlas_spec add α M N lo hi hM hN hMN A x ss ystep1 g y

/-! ### In place -/

open TriMul (IsMulV)

theorem addRow_const (ca : Bool) (A : Nat → Nat → K) (i lo n : Nat) (x : Nat → K) (hi : i < lo ∨ lo + n ≤ i) :
    addRow ca (fun _ => A) i lo n x =
      Function.update x i (x i + ∑ k ∈ Finset.range n, cj ca (A i (lo+k)) * x (lo+k)) :=
  TriMul.addRow_eq (fun i j => cj ca (A i j)) i lo n x hi

theorem addCol_const (ca : Bool) (A : Nat → Nat → K) (j lo n : Nat) (x : Nat → K) (hj : j < lo ∨ lo + n ≤ j) (i : Nat) :
    addCol ca (fun _ => A) j lo n x i = if lo ≤ i ∧ i < lo + n then x i + cj ca (A i j) * x j else x i :=
  TriMul.addCol_eq (fun i j => cj ca (A i j)) j lo n x hj i

theorem band_up_row (N hi i : Nat) (A : Nat → Nat → K) (x : Nat → K) (h : i < N) :
    ∑ k ∈ Finset.range N, bandMat 0 hi A i k * x k =
      A i i * x i + ∑ k ∈ Finset.range (min N (i+hi+1) - 1 - i), A i (i+1+k) * x (i+1+k) := by
  rw [band_row N 0 hi i (A i) x A (fun _ => rfl) (by omega), show min N (i+hi+1) - (i-0) = (min N (i+hi+1) - 1 - i) + 1 by omega,
    Finset.sum_range_succ', add_comm]
  congr 1
  · simp [mul_comm]
  · exact Finset.sum_congr rfl fun k _ => by rw [show i - 0 + (k+1) = i + 1 + k by omega, mul_comm]

theorem band_lo_row (N lo i : Nat) (A : Nat → Nat → K) (x : Nat → K) (h : i < N) :
    ∑ k ∈ Finset.range N, bandMat lo 0 A i k * x k =
      A i i * x i + ∑ k ∈ Finset.range (min i lo), A i (i-lo+k) * x (i-lo+k) := by
  rw [band_row N lo 0 i (A i) x A (fun _ => rfl) (by omega), show min N (i+0+1) - (i-lo) = min i lo + 1 by omega,
    Finset.sum_range_succ, add_comm, show i - lo + min i lo = i by omega, mul_comm]
  congr 1
  exact Finset.sum_congr rfl fun k _ => mul_comm _ _

theorem rowUpLoop_spec (ca : Bool) (N hi : Nat) (hh : 0 < hi ∨ N = 1) (A : Nat → Nat → K) : ∀ (f i : Nat) (x : Nat → K), i < N → N ≤ i + f → ∀ r,
    rowUpLoop ca N (fun _ => A) f i (min N (i+hi+1)) (min N (i+hi+1) - 1 - i) x r =
      if i ≤ r ∧ r < N then ∑ k ∈ Finset.range N, bandMat 0 hi (fun i j => cj ca (A i j)) r k * x k else x r := by
  intro f
  induction f with
  | zero => intro i x h1 h2; omega
  | succ f ih =>
    intro i x h1 h2 r
    simp only [rowUpLoop]
    by_cases hl : min N (i+hi+1) - 1 - i > 0
    · rw [if_pos hl, addRow_const _ _ _ _ _ _ (by omega)]
      set z := Function.update (mulBy ca (fun _ => A) i i x) i _ with hz
      have hzr : ∀ r, z r = if r = i then ∑ k ∈ Finset.range N, bandMat 0 hi (fun i j => cj ca (A i j)) r k * x k else x r := by
        intro r
        rw [hz]
        by_cases hr : r = i
        · subst hr
          rw [Function.update_self, if_pos rfl, band_up_row N hi r _ x h1]
          simp only [mulBy, Function.update_self]
          rw [mul_comm]
          congr 1
          refine Finset.sum_congr rfl fun k _ => ?_
          rw [Function.update_of_ne (by omega)]
        · rw [Function.update_of_ne hr, if_neg hr]
          simp only [mulBy]
          rw [Function.update_of_ne hr]
      clear_value z
      have hs : ∀ r, i + 1 ≤ r → ∑ k ∈ Finset.range N, bandMat 0 hi (fun i j => cj ca (A i j)) r k * z k =
          ∑ k ∈ Finset.range N, bandMat 0 hi (fun i j => cj ca (A i j)) r k * x k := by
        intro r hr
        refine Finset.sum_congr rfl fun k _ => ?_
        by_cases hk : k = i
        · simp only [bandMat]
          rw [if_neg (by omega), zero_mul, zero_mul]
        · rw [hzr, if_neg hk]
      have fin : ∀ R : K, R = (if i + 1 ≤ r ∧ r < N then
          ∑ k ∈ Finset.range N, bandMat 0 hi (fun i j => cj ca (A i j)) r k * z k else z r) →
          R = if i ≤ r ∧ r < N then ∑ k ∈ Finset.range N, bandMat 0 hi (fun i j => cj ca (A i j)) r k * x k else x r := by
        intro R hR
        rw [hR]
        by_cases h3 : i + 1 ≤ r ∧ r < N
        · rw [if_pos h3, if_pos (show i ≤ r ∧ r < N by omega), hs r h3.1]
        · rw [if_neg h3, hzr]
          by_cases h4 : r = i
          · rw [if_pos h4, if_pos (show i ≤ r ∧ r < N by omega)]
          · rw [if_neg h4, if_neg (show ¬ (i ≤ r ∧ r < N) by omega)]
      apply fin
      by_cases hb : min N (i+hi+1) < N
      · rw [if_pos hb]
        have := ih (i+1) z (by omega) (by omega) r
        rw [show min N (i+1+hi+1) = min N (i+hi+1) + 1 by omega,
          show min N (i+hi+1) + 1 - 1 - (i+1) = min N (i+hi+1) - 1 - i by omega] at this
        exact this
      · rw [if_neg hb]
        have := ih (i+1) z (by omega) (by omega) r
        rw [show min N (i+1+hi+1) = min N (i+hi+1) by omega,
          show min N (i+hi+1) - 1 - (i+1) = min N (i+hi+1) - 1 - i - 1 by omega] at this
        exact this
    · rw [if_neg hl]
      simp only [mulBy]
      by_cases hr : r = i
      · subst hr
        rw [Function.update_self, if_pos (by omega), band_up_row N hi r _ x h1,
          show min N (r+hi+1) - 1 - r = 0 by omega]
        simp [mul_comm]
      · rw [Function.update_of_ne hr]
        by_cases h3 : i ≤ r ∧ r < N
        · rw [if_pos h3, Finset.sum_eq_single r]
          · exfalso; omega
          · intro k _ hk
            simp only [bandMat]
            rw [if_neg (by omega), zero_mul]
          · intro h; exact absurd (Finset.mem_range.mpr h3.2) h
        · rw [if_neg h3]

theorem rowUp_spec (ca : Bool) (N hi : Nat) (hh : 0 < hi ∨ N = 1) (hN : hi < N) (A : Nat → Nat → K) (x : Nat → K) :
    IsMulV N (bandMat 0 hi (fun i j => cj ca (A i j))) x (rowUp ca N hi (fun _ => A) x) := by
  intro r
  have := rowUpLoop_spec ca N hi hh A N 0 x (by omega) (by omega) r
  rw [show min N (0+hi+1) = hi+1 by omega] at this
  simp only [Nat.add_sub_cancel, Nat.sub_zero, Nat.zero_le, true_and] at this
  exact this

theorem colUp_spec (ca : Bool) (N hi : Nat) (hh : 0 < hi ∨ N = 1) (hN : hi < N) (A : Nat → Nat → K) (x : Nat → K) :
    IsMulV N (bandMat 0 hi (fun i j => cj ca (A i j))) x (colUp ca N hi (fun _ => A) x) := by
  unfold colUp
  have := up_inv (fun j (s : (Nat → K) × Nat × Nat × Nat) =>
      let x := if s.1 j ≠ 0 then mulBy ca (fun _ => A) (s.2.1 + s.2.2.2) j (addCol ca (fun _ => A) j s.2.1 s.2.2.2 s.1) else s.1
      (x, if s.2.2.1 > 0 then (s.2.1, s.2.2.1 - 1, s.2.2.2 + 1) else (s.2.1 + 1, s.2.2.1, s.2.2.2)))
    (fun j s => (N = 1 ∨ s.2 = (j-hi, hi-j, min j hi)) ∧ ∀ r, s.1 r = if r < j then
      ∑ k ∈ Finset.range j, bandMat 0 hi (fun i j => cj ca (A i j)) r k * x k else x r)
    (N-1) 1 (mulBy ca (fun _ => A) 0 0 x, 0, hi-1, 1) ?_ ?_
  · intro r
    have := this.2 r
    rw [show 1 + (N-1) = N by omega] at this
    exact this
  · refine ⟨?_, ?_⟩
    · by_cases h : N = 1
      · exact Or.inl h
      · right
        show (0, hi-1, 1) = _
        rw [show 1 - hi = 0 by omega, show min 1 hi = 1 by omega]
    · intro r
      simp only [mulBy]
      by_cases hr : r = 0
      · subst hr
        simp [bandMat, mul_comm]
      · rw [Function.update_of_ne hr, if_neg (by omega)]
  · rintro j ⟨z, i1, k, len⟩ h1 h2 ⟨hs, hz⟩
    have hs : (i1, k, len) = (j-hi, hi-j, min j hi) := by
      rcases hs with h | h
      · omega
      · exact h
    obtain ⟨rfl, h⟩ := Prod.mk.inj hs
    obtain ⟨rfl, rfl⟩ := Prod.mk.inj h
    dsimp only at hz ⊢
    refine ⟨Or.inr ?_, ?_⟩
    · by_cases hk : hi - j > 0
      · rw [if_pos hk, show j - hi = j + 1 - hi by omega, show hi - j - 1 = hi - (j+1) by omega,
          show min j hi + 1 = min (j+1) hi by omega]
      · rw [if_neg hk, show j - hi + 1 = j + 1 - hi by omega, show hi - j = hi - (j+1) by omega,
          show min j hi = min (j+1) hi by omega]
    · have hzj : z j = x j := by rw [hz, if_neg (by omega)]
      intro r
      rw [show j - hi + min j hi = j by omega]
      have hcol : ∀ r, addCol ca (fun _ => A) j (j-hi) (min j hi) z r =
          if r < j then (∑ k ∈ Finset.range (j+1), bandMat 0 hi (fun i j => cj ca (A i j)) r k * x k) else x r := by
        intro r
        rw [addCol_const _ _ _ _ _ _ (by omega), hzj, hz]
        by_cases h3 : r < j
        · rw [if_pos h3, if_pos h3, Finset.sum_range_succ]
          by_cases h4 : j - hi ≤ r ∧ r < j - hi + min j hi
          · rw [if_pos h4]
            simp only [bandMat]
            rw [if_pos (show r ≤ j + 0 ∧ j ≤ r + hi by omega)]
          · rw [if_neg h4]
            simp only [bandMat]
            rw [if_neg (show ¬ (r ≤ j + 0 ∧ j ≤ r + hi) by omega), zero_mul, add_zero]
        · rw [if_neg h3, if_neg h3, if_neg (by omega)]
      have hdiag : ∑ k ∈ Finset.range (j+1), bandMat 0 hi (fun i j => cj ca (A i j)) j k * x k = cj ca (A j j) * x j := by
        rw [Finset.sum_range_succ, Finset.sum_eq_zero, zero_add]
        · simp [bandMat]
        · intro k hk
          have := Finset.mem_range.mp hk
          simp only [bandMat]
          rw [if_neg (by omega), zero_mul]
      by_cases hx : z j = 0
      · rw [if_neg (by simpa using hx)]
        have hxj : x j = 0 := by rw [← hzj]; exact hx
        rw [hz]
        by_cases h3 : r < j
        · rw [if_pos h3, if_pos (by omega), Finset.sum_range_succ, hxj, mul_zero, add_zero]
        · rw [if_neg h3]
          by_cases h4 : r = j
          · subst h4
            rw [if_pos (by omega), hdiag, hxj, mul_zero]
          · rw [if_neg (by omega)]
      · rw [if_pos hx]
        simp only [mulBy]
        by_cases h4 : r = j
        · subst h4
          rw [Function.update_self, if_pos (by omega), hdiag, hcol, if_neg (by omega), mul_comm]
        · rw [Function.update_of_ne h4, hcol]
          by_cases h3 : r < j
          · rw [if_pos h3, if_pos (by omega)]
          · rw [if_neg h3, if_neg (by omega)]

theorem rowLoLoop_spec (ca : Bool) (N lo : Nat) (hh : 0 < lo ∨ N = 1) (A : Nat → Nat → K) : ∀ (f i : Nat) (x : Nat → K), i < N →
    i < f → ∀ r, rowLoLoop ca (fun _ => A) f i (i-lo) (min i lo) x r =
      if r ≤ i then ∑ k ∈ Finset.range N, bandMat lo 0 (fun i j => cj ca (A i j)) r k * x k else x r := by
  intro f
  induction f with
  | zero => intro i x h1 h2; omega
  | succ f ih =>
    intro i x h1 h2 r
    simp only [rowLoLoop]
    by_cases hl : min i lo > 0
    · rw [if_pos hl, addRow_const _ _ _ _ _ _ (by omega)]
      set z := Function.update (mulBy ca (fun _ => A) i i x) i _ with hz
      have hzr : ∀ r, z r = if r = i then ∑ k ∈ Finset.range N, bandMat lo 0 (fun i j => cj ca (A i j)) r k * x k else x r := by
        intro r
        rw [hz]
        by_cases hr : r = i
        · subst hr
          rw [Function.update_self, if_pos rfl, band_lo_row N lo r _ x h1]
          simp only [mulBy, Function.update_self]
          rw [mul_comm]
          congr 1
          refine Finset.sum_congr rfl fun k hk => ?_
          have := Finset.mem_range.mp hk
          rw [Function.update_of_ne (by omega)]
        · rw [Function.update_of_ne hr, if_neg hr]
          simp only [mulBy]
          rw [Function.update_of_ne hr]
      clear_value z
      have hs : ∀ r, r ≤ i - 1 → ∑ k ∈ Finset.range N, bandMat lo 0 (fun i j => cj ca (A i j)) r k * z k =
          ∑ k ∈ Finset.range N, bandMat lo 0 (fun i j => cj ca (A i j)) r k * x k := by
        intro r hr
        refine Finset.sum_congr rfl fun k _ => ?_
        by_cases hk : k = i
        · simp only [bandMat]
          rw [if_neg (by omega), zero_mul, zero_mul]
        · rw [hzr, if_neg hk]
      have fin : ∀ R : K, R = (if r ≤ i - 1 then
          ∑ k ∈ Finset.range N, bandMat lo 0 (fun i j => cj ca (A i j)) r k * z k else z r) →
          R = if r ≤ i then ∑ k ∈ Finset.range N, bandMat lo 0 (fun i j => cj ca (A i j)) r k * x k else x r := by
        intro R hR
        rw [hR]
        by_cases h3 : r ≤ i - 1
        · rw [if_pos h3, if_pos (show r ≤ i by omega), hs r h3]
        · rw [if_neg h3, hzr]
          by_cases h4 : r = i
          · rw [if_pos h4, if_pos (show r ≤ i by omega)]
          · rw [if_neg h4, if_neg (show ¬ (r ≤ i) by omega)]
      apply fin
      by_cases hb : i - lo > 0
      · rw [if_pos hb]
        have := ih (i-1) z (by omega) (by omega) r
        rw [show i - 1 - lo = i - lo - 1 by omega, show min (i-1) lo = min i lo by omega] at this
        exact this
      · rw [if_neg hb]
        have := ih (i-1) z (by omega) (by omega) r
        rw [show i - 1 - lo = i - lo by omega, show min (i-1) lo = min i lo - 1 by omega] at this
        exact this
    · rw [if_neg hl]
      simp only [mulBy]
      by_cases hr : r = i
      · subst hr
        rw [Function.update_self, if_pos (by omega), band_lo_row N lo r _ x h1, show min r lo = 0 by omega]
        simp [mul_comm]
      · rw [Function.update_of_ne hr, if_neg (by omega)]

theorem rowLo_spec (ca : Bool) (N lo : Nat) (hh : 0 < lo ∨ N = 1) (hN : lo < N) (A : Nat → Nat → K) (x : Nat → K) :
    IsMulV N (bandMat lo 0 (fun i j => cj ca (A i j))) x (rowLo ca N lo (fun _ => A) x) := by
  intro r
  have := rowLoLoop_spec ca N lo hh A N (N-1) x (by omega) (by omega) r
  rw [show min (N-1) lo = lo by omega] at this
  refine this.trans ?_
  by_cases h : r < N
  · rw [if_pos h, if_pos (by omega)]
  · rw [if_neg h, if_neg (by omega)]

theorem colLo_spec (ca : Bool) (N lo : Nat) (hh : 0 < lo ∨ N = 1) (hN : lo < N) (A : Nat → Nat → K) (x : Nat → K) :
    IsMulV N (bandMat lo 0 (fun i j => cj ca (A i j))) x (colLo ca N lo (fun _ => A) x) := by
  unfold colLo
  have := down_inv (fun j (s : (Nat → K) × Nat × Nat) =>
      let x := if s.1 j ≠ 0 then mulBy ca (fun _ => A) j j (addCol ca (fun _ => A) j (j+1) s.2.2 s.1) else s.1
      (x, if s.2.1 > 0 then (s.2.1 - 1, s.2.2 + 1) else s.2))
    (fun j s => (N = 1 ∨ s.2 = (lo - min (N-j) lo, min (N-j) lo)) ∧ ∀ r, s.1 r = if j ≤ r ∧ r < N then
      ∑ k ∈ Finset.range (N-j), bandMat lo 0 (fun i j => cj ca (A i j)) r (j+k) * x (j+k) else x r)
    (N-1) (mulBy ca (fun _ => A) (N-1) (N-1) x, lo-1, 1) ?_ ?_
  · intro r
    have := this.2 r
    simp only [Nat.sub_zero, Nat.zero_add, Nat.zero_le, true_and] at this
    exact this
  · refine ⟨?_, ?_⟩
    · by_cases h : N = 1
      · exact Or.inl h
      · right
        show (lo-1, 1) = _
        rw [show min (N-(N-1)) lo = 1 by omega]
    · intro r
      simp only [mulBy]
      by_cases hr : r = N-1
      · subst hr
        rw [Function.update_self, if_pos (by omega), show N - (N-1) = 1 by omega]
        simp [bandMat, mul_comm]
        intro h; omega
      · rw [Function.update_of_ne hr, if_neg (by omega)]
  · rintro j ⟨z, k, len⟩ h2 ⟨hs, hz⟩
    have hs : (k, len) = (lo - min (N-(j+1)) lo, min (N-(j+1)) lo) := by
      rcases hs with h | h
      · omega
      · exact h
    obtain ⟨rfl, rfl⟩ := Prod.mk.inj hs
    dsimp only at hz ⊢
    refine ⟨Or.inr ?_, ?_⟩
    · by_cases hk : lo - min (N-(j+1)) lo > 0
      · rw [if_pos hk, show lo - min (N-(j+1)) lo - 1 = lo - min (N-j) lo by omega,
          show min (N-(j+1)) lo + 1 = min (N-j) lo by omega]
      · rw [if_neg hk, show min (N-(j+1)) lo = min (N-j) lo by omega]
    · have hzj : z j = x j := by rw [hz, if_neg (by omega)]
      intro r
      have hsp : ∀ r, ∑ k ∈ Finset.range (N-j), bandMat lo 0 (fun i j => cj ca (A i j)) r (j+k) * x (j+k) =
          bandMat lo 0 (fun i j => cj ca (A i j)) r j * x j +
          ∑ k ∈ Finset.range (N-(j+1)), bandMat lo 0 (fun i j => cj ca (A i j)) r (j+1+k) * x (j+1+k) := by
        intro r
        rw [show N - j = (N-(j+1)) + 1 by omega, Finset.sum_range_succ', Nat.add_zero, add_comm]
        congr 1
        exact Finset.sum_congr rfl fun k _ => by rw [show j + (k+1) = j + 1 + k by omega]
      have hcol : ∀ r, addCol ca (fun _ => A) j (j+1) (min (N-(j+1)) lo) z r =
          if j + 1 ≤ r ∧ r < N then
            (∑ k ∈ Finset.range (N-j), bandMat lo 0 (fun i j => cj ca (A i j)) r (j+k) * x (j+k)) else x r := by
        intro r
        rw [addCol_const _ _ _ _ _ _ (by omega), hzj, hz]
        by_cases h3 : j + 1 ≤ r ∧ r < N
        · rw [if_pos h3, if_pos h3, hsp]
          by_cases h4 : j + 1 ≤ r ∧ r < j + 1 + min (N-(j+1)) lo
          · rw [if_pos h4, add_comm]
            simp only [bandMat]
            rw [if_pos (show r ≤ j + lo ∧ j ≤ r + 0 by omega)]
          · rw [if_neg h4]
            simp only [bandMat]
            rw [if_neg (show ¬ (r ≤ j + lo ∧ j ≤ r + 0) by omega), zero_mul, zero_add]
        · rw [if_neg h3, if_neg h3, if_neg (by omega)]
      have hdiag : ∑ k ∈ Finset.range (N-j), bandMat lo 0 (fun i j => cj ca (A i j)) j (j+k) * x (j+k) = cj ca (A j j) * x j := by
        rw [hsp, Finset.sum_eq_zero, add_zero]
        · simp [bandMat]
        · intro k hk
          have := Finset.mem_range.mp hk
          simp only [bandMat]
          rw [if_neg (by omega), zero_mul]
      by_cases hx : z j = 0
      · rw [if_neg (by simpa using hx)]
        have hxj : x j = 0 := by rw [← hzj]; exact hx
        rw [hz]
        by_cases h3 : j + 1 ≤ r ∧ r < N
        · rw [if_pos h3, if_pos (by omega), hsp, hxj, mul_zero, zero_add]
        · rw [if_neg h3]
          by_cases h4 : r = j
          · subst h4
            rw [if_pos (by omega), hdiag, hxj, mul_zero]
          · rw [if_neg (by omega)]
      · rw [if_pos hx]
        simp only [mulBy]
        by_cases h4 : r = j
        · subst h4
          rw [Function.update_self, if_pos (by omega), hdiag, hcol, if_neg (by omega), mul_comm]
        · rw [Function.update_of_ne h4, hcol]
          by_cases h3 : j + 1 ≤ r ∧ r < N
          · rw [if_pos h3, if_pos (by omega)]
          · rw [if_neg h3, if_neg (by omega)]

theorem doUp_spec (rm cm ca : Bool) (N hi : Nat) (hh : 0 < hi ∨ N = 1) (hN : hi < N) (A : Nat → Nat → K) (x : Nat → K) :
    IsMulV N (bandMat 0 hi (fun i j => cj ca (A i j))) x (doUp rm cm ca N hi (fun _ => A) x) := by
  unfold doUp
  split
  · exact rowUp_spec ca N hi hh hN A x
  · split
    · exact colUp_spec ca N hi hh hN A x
    · exact rowUp_spec ca N hi hh hN A x

theorem doLo_spec (rm cm ca ss : Bool) (N lo : Nat) (hh : 0 < lo ∨ N = 1) (hN : lo < N) (A : Nat → Nat → K) (x : Nat → K) :
    IsMulV N (bandMat lo 0 (fun i j => cj ca (A i j))) x (doLo rm cm ca ss N lo (fun _ => A) x) := by
  unfold doLo
  split
  · exact rowLo_spec ca N lo hh hN A x
  · split
    · exact colLo_spec ca N lo hh hN A x
    · exact rowLo_spec ca N lo hh hN A x

/-- Finishing step: rows outside `[j1,j2)` are already right, those inside are multiplied in place. -/
theorem finish {N j1 j2 : Nat} {T : Nat → Nat → K} {x x1 : Nat → K} (S : Nat → Nat → K)
    (h12 : j1 < j2) (h2 : j2 ≤ N) (z1 : ∀ k, k < j1 → x k = 0) (z2 : ∀ k, j2 ≤ k → k < N → x k = 0)
    (hout : ∀ r, ¬ (j1 ≤ r ∧ r < j2) → x1 r = if r < N then ∑ k ∈ Finset.range N, T r k * x k else x r)
    (hin : ∀ r, j1 ≤ r → r < j2 → x1 r = x r)
    (hS : ∀ r k, r < j2 - j1 → k < j2 - j1 → S r k = T (j1+r) (j1+k)) (w : Nat → K)
    (hw : IsMulV (j2-j1) S (fun i => x1 (j1+i)) w) : IsMulV N T x (splice j1 j2 x1 w) := by
  intro r
  simp only [splice]
  by_cases hr : j1 ≤ r ∧ r < j2
  · rw [if_pos hr, hw, if_pos (by omega), if_pos (by omega), TriMul.sum_trim (by omega) h2 z1 z2]
    refine Finset.sum_congr rfl fun k hk => ?_
    have := Finset.mem_range.mp hk
    beta_reduce
    rw [hS _ _ (by omega) this, show j1 + (r - j1) = r by omega, hin (j1+k) (by omega) (by omega)]
  · rw [if_neg hr, hout r hr]

theorem upperEq_spec (rm cm ca : Bool) (N hi : Nat) (h0 : 0 < hi) (hN : hi < N) (A : Nat → Nat → K) (x : Nat → K) :
    IsMulV N (bandMat 0 hi (fun i j => cj ca (A i j))) x (upperEq rm cm ca N hi (fun _ => A) x) := by
  unfold upperEq
  obtain ⟨a2, b2⟩ := Tri.trimHi_spec x N
  obtain ⟨a1, a1', b1⟩ := Tri.trimLo_spec x N 0
  have hlt := @TriMul.trim_lt K _ _ x N
  dsimp only
  generalize trimHi x N = j2 at *
  generalize trimLo x N 0 = j1 at *
  by_cases hz : j2 = 0
  · rw [if_pos hz]
    intro r
    split
    · rw [Finset.sum_eq_zero, b2 r (by omega) ‹_›]
      intro j hj
      rw [b2 j (by omega) (Finset.mem_range.mp hj), mul_zero]
    · rfl
  · rw [if_neg hz]
    have h12 := hlt hz
    by_cases hw : j1 = 0 ∧ j2 = N
    · rw [if_pos hw]
      exact doUp_spec rm cm ca N hi (Or.inl h0) hN A x
    · rw [if_neg hw]
      have z1 : ∀ k, k < j1 → x k = 0 := fun k hk => b1 k (by omega) hk
      have zero : ∀ r, r < j1 → r + hi < j1 ∨ j1 = 0 →
          ∑ k ∈ Finset.range N, bandMat 0 hi (fun i j => cj ca (A i j)) r k * x k = 0 := by
        intro r hr hr'
        refine Finset.sum_eq_zero fun k hk => ?_
        by_cases hk' : k < j1
        · rw [z1 k hk', mul_zero]
        · simp only [bandMat]
          rw [if_neg (by omega), zero_mul]
      have below : ∀ r, j2 ≤ r → r < N →
          ∑ k ∈ Finset.range N, bandMat 0 hi (fun i j => cj ca (A i j)) r k * x k = 0 := by
        intro r hr hr'
        refine Finset.sum_eq_zero fun k hk => ?_
        by_cases hk' : j2 ≤ k
        · rw [b2 k hk' (Finset.mem_range.mp hk), mul_zero]
        · simp only [bandMat]
          rw [if_neg (by omega), zero_mul]
      have go : ∀ (x1 : Nat → K) (hi' : Nat), hi' = min hi (j2-j1-1) → (0 < hi' ∨ j2 - j1 = 1) →
          (∀ r, r < j1 → x1 r = ∑ k ∈ Finset.range N, bandMat 0 hi (fun i j => cj ca (A i j)) r k * x k) →
          (∀ r, j1 ≤ r → x1 r = x r) →
          IsMulV N (bandMat 0 hi (fun i j => cj ca (A i j))) x
            (onSubA j1 j2 j1 j1 (doUp rm cm ca (j2-j1) hi') (fun _ => A) x1) := by
        intro x1 hi' hh hh' ho hi1
        refine finish (bandMat 0 hi' (fun i j => cj ca (sub A j1 j1 i j))) h12 a2 z1 b2 ?_ (fun r h _ => hi1 r h) ?_ _
          (doUp_spec rm cm ca (j2-j1) hi' hh' (by omega) (sub A j1 j1) _)
        · intro r hr
          by_cases h3 : r < j1
          · rw [if_pos (by omega), ho r h3]
          · rw [hi1 r (by omega)]
            split
            · rw [below r (by omega) ‹_›, b2 r (by omega) ‹_›]
            · rfl
        · intro r k hr hk
          simp only [bandMat, sub]
          by_cases hb : r ≤ k + 0 ∧ k ≤ r + hi'
          · rw [if_pos hb, if_pos (by omega)]
          · rw [if_neg hb, if_neg (by omega)]
      by_cases hN22 : j2 - j1 > hi
      · rw [if_pos hN22]
        refine go _ hi (by omega) (Or.inl h0) ?_ ?_
        · intro r hr
          rw [if_pos (by omega)]
          by_cases h3 : j1 < hi
          · rw [if_pos h3]
            simp only [onSub]
            rw [if_pos (by omega), Nat.add_sub_cancel_left, Nat.sub_zero,
              unitA1_spec false false j1 hi (j1-1) (hi-j1) (by omega) (by omega) ⟨sub A 0 j1, rm, cm, ca⟩ _ _ r, if_pos hr,
              if_neg (by simp), zero_add, TriMul.sum_trim (by omega) a2 z1 b2]
            symm
            refine sum_range_mono _ _ 0 (by omega) ?_ ?_
            · intro k hk
              simp only [bandMat, sub, Nat.zero_add, cj_f]
              congr 1
              by_cases hb : j1 + k ≤ r + hi
              · rw [if_pos (by omega), if_pos (by omega)]
              · rw [if_neg (by omega), if_neg (by omega)]
            · intro k hk hk'
              simp only [bandMat]
              rw [if_neg (by omega), zero_mul]
          · rw [if_neg h3]
            simp only [onSubA]
            simp only [splice]
            by_cases h4 : j1 - hi ≤ r
            · rw [if_pos (by omega), doLo_spec rm cm ca false hi (hi-1) (by omega) (by omega), if_pos (by omega),
                TriMul.sum_trim (by omega) a2 z1 b2]
              symm
              refine sum_range_mono _ _ 0 (by omega) ?_ ?_
              · intro k hk
                simp only [bandMat, sub, Nat.zero_add]
                rw [show j1 - hi + (r - (j1-hi)) = r by omega, if_pos (show j1 - hi ≤ j1 - hi + k ∧ j1 - hi + k < j1 by omega),
                  Nat.add_sub_cancel_left]
                congr 1
                by_cases hb : j1 + k ≤ r + hi
                · rw [if_pos (by omega), if_pos (by omega)]
                · rw [if_neg (by omega), if_neg (by omega)]
              · intro k hk hk'
                simp only [bandMat]
                rw [if_neg (by omega), zero_mul]
            · rw [if_neg (by omega), if_neg (by omega), zero r hr (by omega), z1 r hr]
        · intro r hr
          by_cases h3 : j1 > 0
          · rw [if_pos h3]
            by_cases h4 : j1 < hi
            · rw [if_pos h4]
              simp only [onSub]
              rw [if_neg (by omega)]
            · rw [if_neg h4]
              simp only [onSubA, splice]
              rw [if_neg (by omega), if_neg (by omega)]
          · rw [if_neg h3]
      · rw [if_neg hN22]
        refine go _ (j2-j1-1) (by omega) (by omega) ?_ ?_
        · intro r hr
          rw [if_pos (by omega)]
          set M12 := if j1 < hi then j1 else hi with hM
          have eM : M12 = min j1 hi := by rw [hM]; split <;> omega
          set nh := if hi - M12 ≥ j2 - j1 then j2 - j1 - 1 else hi - M12 with hnh
          have en : nh = min (hi-M12) (j2-j1-1) := by rw [hnh]; split <;> omega
          clear_value M12 nh
          simp only [onSub]
          by_cases h4 : j1 - M12 ≤ r
          · rw [if_pos (by omega),
              unitA1_spec false false M12 (j2-j1) (M12-1) nh (by omega) (by omega) ⟨sub A (j1-M12) j1, rm, cm, ca⟩ _ _ _,
              if_pos (by omega), if_neg (by simp), zero_add, TriMul.sum_trim (by omega) a2 z1 b2]
            refine Finset.sum_congr rfl fun k hk => ?_
            have hk' := Finset.mem_range.mp hk
            simp only [bandMat, sub, cj_f]
            rw [show j1 - M12 + (r - (j1-M12)) = r by omega]
            congr 1
            by_cases hb : j1 + k ≤ r + hi
            · rw [if_pos (by omega), if_pos (by omega)]
            · rw [if_neg (by omega), if_neg (by omega)]
          · rw [if_neg (by omega), zero r hr (by omega), z1 r hr]
        · intro r hr
          by_cases h3 : j1 > 0
          · rw [if_pos h3]
            simp only [onSub]
            rw [if_neg (by omega)]
          · rw [if_neg h3]

theorem lowerEq_spec (rm cm ca ss : Bool) (N lo : Nat) (h0 : 0 < lo) (hN : lo < N) (A : Nat → Nat → K) (x : Nat → K) :
    IsMulV N (bandMat lo 0 (fun i j => cj ca (A i j))) x (lowerEq rm cm ca ss N lo (fun _ => A) x) := by
  unfold lowerEq
  obtain ⟨a2, b2⟩ := Tri.trimHi_spec x N
  obtain ⟨a1, a1', b1⟩ := Tri.trimLo_spec x N 0
  have hlt := @TriMul.trim_lt K _ _ x N
  dsimp only
  generalize trimHi x N = j2 at *
  generalize trimLo x N 0 = j1 at *
  by_cases hz : j2 = 0
  · rw [if_pos hz]
    intro r
    split
    · rw [Finset.sum_eq_zero, b2 r (by omega) ‹_›]
      intro j hj
      rw [b2 j (by omega) (Finset.mem_range.mp hj), mul_zero]
    · rfl
  · rw [if_neg hz]
    have h12 := hlt hz
    by_cases hw : j1 = 0 ∧ j2 = N
    · rw [if_pos hw]
      exact doLo_spec rm cm ca ss N lo (Or.inl h0) hN A x
    · rw [if_neg hw]
      have z1 : ∀ k, k < j1 → x k = 0 := fun k hk => b1 k (by omega) hk
      have zero : ∀ r, j2 + lo ≤ r → r < N →
          ∑ k ∈ Finset.range N, bandMat lo 0 (fun i j => cj ca (A i j)) r k * x k = 0 := by
        intro r hr hr'
        refine Finset.sum_eq_zero fun k hk => ?_
        by_cases hk' : j2 ≤ k
        · rw [b2 k hk' (Finset.mem_range.mp hk), mul_zero]
        · simp only [bandMat]
          rw [if_neg (by omega), zero_mul]
      have above : ∀ r, r < j1 →
          ∑ k ∈ Finset.range N, bandMat lo 0 (fun i j => cj ca (A i j)) r k * x k = 0 := by
        intro r hr
        refine Finset.sum_eq_zero fun k hk => ?_
        by_cases hk' : k < j1
        · rw [z1 k hk', mul_zero]
        · simp only [bandMat]
          rw [if_neg (by omega), zero_mul]
      have go : ∀ (x1 : Nat → K) (lo' : Nat), lo' = min lo (j2-j1-1) → (0 < lo' ∨ j2 - j1 = 1) →
          (∀ r, j2 ≤ r → r < N → x1 r = ∑ k ∈ Finset.range N, bandMat lo 0 (fun i j => cj ca (A i j)) r k * x k) →
          (∀ r, r < j2 ∨ N ≤ r → x1 r = x r) →
          IsMulV N (bandMat lo 0 (fun i j => cj ca (A i j))) x
            (onSubA j1 j2 j1 j1 (doLo rm cm ca ss (j2-j1) lo') (fun _ => A) x1) := by
        intro x1 lo' hh hh' ho hi1
        refine finish (bandMat lo' 0 (fun i j => cj ca (sub A j1 j1 i j))) h12 a2 z1 b2 ?_ (fun r _ h => hi1 r (Or.inl h)) ?_ _
          (doLo_spec rm cm ca ss (j2-j1) lo' hh' (by omega) (sub A j1 j1) _)
        · intro r hr
          by_cases h3 : r < N
          · rw [if_pos h3]
            by_cases h4 : j2 ≤ r
            · exact ho r h4 h3
            · rw [hi1 r (by omega), above r (by omega), z1 r (by omega)]
          · rw [if_neg h3, hi1 r (by omega)]
        · intro r k hr hk
          simp only [bandMat, sub]
          by_cases hb : r ≤ k + lo' ∧ k ≤ r + 0
          · rw [if_pos hb, if_pos (by omega)]
          · rw [if_neg hb, if_neg (by omega)]
      by_cases hN22 : j2 - j1 > lo
      · rw [if_pos hN22]
        refine go _ lo (by omega) (Or.inl h0) ?_ ?_
        · intro r hr hr'
          rw [if_pos (by omega)]
          by_cases h3 : j2 + lo > N
          · rw [if_pos h3]
            simp only [onSub]
            rw [if_pos (by omega),
              unitA1_spec false false (N-j2) lo 0 (lo-1) (by omega) (by omega) ⟨sub A j2 (j2-lo), rm, cm, ca⟩ _ _ _,
              if_pos (by omega), if_neg (by simp), zero_add, TriMul.sum_trim (by omega) a2 z1 b2]
            symm
            refine sum_range_mono _ _ (j2-lo-j1) (by omega) ?_ ?_
            · intro k hk
              simp only [bandMat, sub, cj_f]
              rw [show j1 + (j2 - lo - j1 + k) = j2 - lo + k by omega, show j2 + (r - j2) = r by omega]
              congr 1
              by_cases hb : r ≤ j2 + k
              · rw [if_pos (by omega), if_pos (by omega)]
              · rw [if_neg (by omega), if_neg (by omega)]
            · intro k hk hk'
              simp only [bandMat]
              rw [if_neg (by omega), zero_mul]
          · rw [if_neg h3]
            simp only [onSubA]
            simp only [splice]
            by_cases h4 : r < j2 + lo
            · rw [if_pos (by omega), doUp_spec rm cm ca lo (lo-1) (by omega) (by omega), if_pos (by omega),
                TriMul.sum_trim (by omega) a2 z1 b2]
              symm
              refine sum_range_mono _ _ (j2-lo-j1) (by omega) ?_ ?_
              · intro k hk
                simp only [bandMat, sub]
                rw [show j2 + (r - j2) = r by omega, if_pos (show j2 ≤ j2 + k ∧ j2 + k < j2 + lo by omega),
                  Nat.add_sub_cancel_left, show j1 + (j2 - lo - j1 + k) = j2 - lo + k by omega]
                congr 1
                by_cases hb : r ≤ j2 + k
                · rw [if_pos (by omega), if_pos (by omega)]
                · rw [if_neg (by omega), if_neg (by omega)]
              · intro k hk hk'
                simp only [bandMat]
                rw [if_neg (by omega), zero_mul]
            · rw [if_neg (by omega), if_neg (by omega), zero r (by omega) hr', b2 r hr hr']
        · intro r hr
          by_cases h3 : j2 < N
          · rw [if_pos h3]
            by_cases h4 : j2 + lo > N
            · rw [if_pos h4]
              simp only [onSub]
              rw [if_neg (by omega)]
            · rw [if_neg h4]
              simp only [onSubA, splice]
              rw [if_neg (by omega), if_neg (by omega)]
          · rw [if_neg h3]
      · rw [if_neg hN22]
        refine go _ (j2-j1-1) (by omega) (by omega) ?_ ?_
        · intro r hr hr'
          rw [if_pos (by omega)]
          set M32 := if j2 + lo > N then N - j2 else lo with hM
          have eM : M32 = min (N-j2) lo := by rw [hM]; split <;> omega
          set nl := if lo - (j2-j1) ≥ M32 then M32 - 1 else lo - (j2-j1) with hnl
          have en : nl = min (lo-(j2-j1)) (M32-1) := by rw [hnl]; split <;> omega
          clear_value M32 nl
          simp only [onSub]
          by_cases h4 : r < j2 + M32
          · rw [if_pos (by omega),
              unitA1_spec false false M32 (j2-j1) nl (j2-j1-1) (by omega) (by omega) ⟨sub A (j1+(j2-j1)) j1, rm, cm, ca⟩ _ _ _,
              if_pos (by omega), if_neg (by simp), zero_add, TriMul.sum_trim (by omega) a2 z1 b2]
            refine Finset.sum_congr rfl fun k hk => ?_
            have hk' := Finset.mem_range.mp hk
            simp only [bandMat, sub, cj_f]
            rw [show j1 + (j2-j1) + (r - j2) = r by omega]
            congr 1
            by_cases hb : r ≤ j1 + k + lo
            · rw [if_pos (by omega), if_pos (by omega)]
            · rw [if_neg (by omega), if_neg (by omega)]
          · rw [if_neg (by omega), zero r (by omega) hr', b2 r hr hr']
        · intro r hr
          by_cases h3 : j2 < N
          · rw [if_pos h3]
            simp only [onSub]
            rw [if_neg ?_]
            split <;> omega
          · rw [if_neg h3]

theorem multEq_spec (rm cm ca ss cx : Bool) (N lo hi : Nat) (hb : lo = 0 ∧ 0 < hi ∨ 0 < lo ∧ hi = 0) (hlo : lo < N) (hhi : hi < N)
    (A : Nat → Nat → K) (x : Nat → K) :
    IsMulV N (bandMat lo hi (fun i j => cj ca (A i j))) (yval cx x)
      (yval cx (multEq rm cm ca ss cx N lo hi (fun _ => A) x)) := by
  have main : ∀ ca : Bool, IsMulV N (bandMat lo hi (fun i j => cj ca (A i j))) x
      (if lo = 0 then upperEq rm cm ca N hi (fun _ => A) x else lowerEq rm cm ca ss N lo (fun _ => A) x) := by
    intro ca
    rcases hb with ⟨rfl, h⟩ | ⟨h, rfl⟩
    · rw [if_pos rfl]; exact upperEq_spec rm cm ca N hi h hhi A x
    · rw [if_neg (by omega)]; exact lowerEq_spec rm cm ca ss N lo h hlo A x
  unfold multEq
  cases cx with
  | false => exact main ca
  | true =>
    intro i
    have := main (!ca) i
    simp only [yval, cj, if_true]
    simp only [if_true] at this ⊢
    rw [this]
    split
    · rw [star_sum]
      refine Finset.sum_congr rfl fun k _ => ?_
      rw [star_mul', star_bandMat]
      simp only [cj_not, star_star]
      rfl
    · rfl

theorem yval_put (cy add : Bool) (M : Nat) (z y : Nat → K) :
    yval cy (putV add M (fun i => cj cy (z i)) y) = putV add M z (yval cy y) := by
  funext i
  simp only [yval, putV]
  cases cy with
  | false => simp [cj]
  | true =>
    by_cases h : i < M
    · cases add <;> simp [cj, h]
    · simp [cj, h]

theorem multMV3_spec (add : Bool) (α : K) (M N lo hi : Nat) (hM : lo < M) (hN : hi < N) (hMN : N ≤ M + hi) (rm cm ca : Bool)
    (acc : (Nat → K) → Nat → Nat → K) (x : XArg K) (ss ssA ystep1 cy : Bool) (g y : Nat → K)
    (hal : (∀ y', acc y' = acc y) ∨
      ¬ (M = N ∧ (lo = 0 ∨ hi = 0) ∧ (add = false ∧ ystep1 = true))) :
    MulAddVR add α M N (bandMat lo hi fun i j => cj ca (acc y i j)) x.val (yval cy y)
      (yval cy (multMV3 add α M N lo hi rm cm ca acc x ss ssA ystep1 cy g y)) := by
  unfold multMV3
  dsimp only
  by_cases h1 : M = N ∧ (lo = 0 ∨ hi = 0)
  · rw [if_pos h1]
    by_cases h2 : lo = 0 ∧ hi = 0
    · rw [if_pos h2]
      obtain ⟨rfl, rfl⟩ := h2
      intro i
      simp only [yval]
      by_cases hi' : i < M
      · rw [if_pos hi', if_pos hi', Finset.sum_eq_single i]
        · simp only [bandMat, Nat.add_zero, le_refl, and_self, if_true, BArg.val]
          cases cy <;> cases add <;> simp [cj, mul_assoc]
        · intro k _ hk
          simp only [bandMat]
          rw [if_neg (by omega), zero_mul]
        · intro h; exact absurd (Finset.mem_range.mpr (by omega)) h
      · rw [if_neg hi', if_neg hi']
    · rw [if_neg h2]
      have hb : lo = 0 ∧ 0 < hi ∨ 0 < lo ∧ hi = 0 := by omega
      obtain ⟨rfl, -⟩ := h1
      by_cases h3 : add = false ∧ ystep1 = true
      · rw [if_pos h3]
        have hc : acc = fun _ => acc y := by
          funext y'
          rcases hal with h | h
          · exact h y'
          · exact absurd ⟨rfl, by omega, h3⟩ h
        obtain ⟨rfl, rfl⟩ := h3
        intro i
        have := multEq_spec rm cm ca ssA cy M lo hi hb hM hN (acc y) (fun i => if i < M then cj cy (α * x.val i) else y i) i
        rw [← hc] at this
        rw [this]
        by_cases hi' : i < M
        · rw [if_pos hi', if_pos hi', if_neg (by simp), zero_add, Finset.mul_sum]
          refine Finset.sum_congr rfl fun k hk => ?_
          have := Finset.mem_range.mp hk
          simp only [yval]
          rw [if_pos this]
          rw [show cj cy (cj cy (α * x.val k)) = α * x.val k by cases cy <;> simp [cj]]
          ring
        · rw [if_neg hi', if_neg hi']
          simp only [yval]
          rw [if_neg hi']
      · rw [if_neg h3, yval_put]
        have he := multEq_spec rm cm ca false false M lo hi hb hM hN (acc y) (fun i => if i < M then α * x.val i else g i)
        intro i
        simp only [putV]
        by_cases hi' : i < M
        · rw [if_pos hi', if_pos hi']
          have e := he i
          rw [if_pos hi'] at e
          have e' : multEq rm cm ca false false M lo hi (fun _ => acc y) (fun i => if i < M then α * x.val i else g i) i =
              α * ∑ k ∈ Finset.range M, bandMat lo hi (fun i j => cj ca (acc y i j)) i k * x.val k := by
            refine e.trans ?_
            rw [Finset.mul_sum]
            refine Finset.sum_congr rfl fun k hk => ?_
            have := Finset.mem_range.mp hk
            simp only [yval, cj_f]
            rw [if_pos this]
            ring
          rw [e']
          cases add <;> simp
        · rw [if_neg hi', if_neg hi']
  · rw [if_neg h1]
    cases ssA with
    | true =>
      simp only [if_true]
      rw [yval_put]
      exact mulAddVR_put (g := g) _ (doMV_spec false 1 M N lo hi hM hN hMN ⟨acc y, rm, cm, ca⟩ x false true false g g)
    | false =>
      simp only [Bool.false_eq_true, if_false]
      exact doMV_spec add α M N lo hi hM hN hMN ⟨acc y, rm, cm, ca⟩ x ss ystep1 cy g y

/-- **C92.** `y (+)= alpha*A*x` for a band matrix `A` of `M`×`N` elements with `lo` sub- and `hi` superdiagonals, of any
storage, conjugation and step: every element of `y` gets exactly the matrix product of the band part of `A`; elements outside
the band are never used.  `x` may be `y` (`ss`).  `A` may share memory with `y` (then `acc y'` changes with `y'`), except
where `A` is square (after cutting empty rows and columns) and triangular and the product is assigned to a `y` of step 1. -/
theorem multMV_partial (add : Bool) (α : K) (M N lo hi : Nat) (hM : 0 < M → lo < M) (hN : 0 < N → hi < N) (rm cm ca : Bool)
    (acc : (Nat → K) → Nat → Nat → K) (x : XArg K) (ss ssA ystep1 cy : Bool) (g y : Nat → K)
    (hal : (∀ y', acc y' = acc y) ∨
      ¬ (min M (N+lo) = min N (M+hi) ∧ (lo = 0 ∨ hi = 0) ∧ (add = false ∧ ystep1 = true))) :
    MulAddVR add α M N (bandMat lo hi fun i j => cj ca (acc y i j)) x.val (yval cy y)
      (yval cy (multMV add α M N lo hi rm cm ca acc x ss ssA ystep1 cy g y)) := by
  have hz : ∀ (y : Nat → K) i, yval cy (if add = true then y else zeroV M y) i =
      if i < M then (if add then yval cy y i else 0) else yval cy y i := by
    intro y i
    simp only [yval]
    rw [addIf]
    cases add <;> simp [apply_ite (cj cy), cj_z]
  unfold multMV
  by_cases h0 : M > 0
  · rw [if_pos h0]
    by_cases h1 : N = 0 ∨ α = 0
    · rw [if_pos h1]
      intro i
      rw [hz]
      split
      · rcases h1 with rfl | rfl <;> simp
      · rfl
    · rw [if_neg h1]
      push Not at h1
      have hM' := hM h0
      have hN' := hN (by omega)
      by_cases h2 : N > M + hi
      · rw [if_pos h2]
        intro i
        rw [multMV3_spec add α M (M+hi) lo hi hM' (by omega) (by omega) rm cm ca acc x ss ssA ystep1 cy g y
          (by rw [show min M (N+lo) = M by omega, show min N (M+hi) = M + hi by omega] at hal; exact hal) i]
        split
        · congr 2
          symm
          refine sum_range_mono _ _ 0 (by omega) (fun k _ => by rw [Nat.zero_add]) ?_
          intro k hk hk'
          simp only [bandMat]
          rw [if_neg (by omega), zero_mul]
        · rfl
      · rw [if_neg h2]
        by_cases h3 : M > N + lo
        · rw [if_pos h3]
          have hs := multMV3_spec add α (N+lo) N lo hi (by omega) hN' (by omega) rm cm ca acc x ss ssA ystep1 cy g y
            (by rw [show min M (N+lo) = N + lo by omega, show min N (M+hi) = N by omega] at hal; exact hal)
          have hzr : ∀ i, N + lo ≤ i → ∑ k ∈ Finset.range N, bandMat lo hi (fun i j => cj ca (acc y i j)) i k * x.val k = 0 :=
            fun i hi' => band_row_zero _ _ _ _ _ _ (by omega)
          intro i
          cases add with
          | true =>
            simp only [if_true]
            rw [hs i]
            by_cases hi' : i < N + lo
            · rw [if_pos hi', if_pos (show i < M by omega)]; simp
            · rw [if_neg hi']
              split
              · rw [hzr i (by omega), mul_zero, add_zero]
              · rfl
          | false =>
            simp only [Bool.false_eq_true, if_false]
            have hs := hs i
            simp only [yval, Bool.false_eq_true, if_false] at hs ⊢
            by_cases hi' : i < N + lo
            · rw [if_pos hi'] at hs
              rw [if_neg (by omega), if_pos (by omega), hs]
            · by_cases h4 : i < M
              · rw [if_pos (by omega), if_pos h4, hzr i (by omega), mul_zero, add_zero, cj_z]
              · rw [if_neg hi'] at hs
                rw [if_neg (by omega), if_neg h4, hs]
        · rw [if_neg h3]
          exact multMV3_spec add α M N lo hi hM' hN' (by omega) rm cm ca acc x ss ssA ystep1 cy g y
            (by rw [show min M (N+lo) = M by omega, show min N (M+hi) = N by omega] at hal; exact hal)
  · rw [if_neg h0]
    intro i
    rw [if_neg (by omega)]

/-- The hypotheses are met: a 3×4 tridiagonal band matrix, `y` not in its memory. -/
theorem multMV_example : ∃ r : Nat → ℚ, r = multMV true 2 3 4 1 1 true false false (fun _ i j => (i : ℚ) + 2*j + 1)
      ⟨fun j => j + 1, true, false⟩ false false true false (fun _ => 0) (fun _ => 1) ∧
    r 0 = 15 ∧ r 1 = 57 ∧ r 2 = 135 := by
  refine ⟨_, rfl, ?_, ?_, ?_⟩ <;> decide +kernel

/-- **C92 is violated** for a triangular band matrix when the result is assigned to a vector in the matrix' own memory:
`A.diag() = A*x` with `A = [2 0; 1 3]` (diagonal-major, so the diagonal has step 1) and `x = (1,1)` gives `(1,2)` instead of
`(2,4)`: `x` is copied to the diagonal before the matrix is read. -/
theorem multMV_alias_violated :
    let acc : (Nat → ℚ) → Nat → Nat → ℚ := fun y i j => if i = j then y i else 1
    let y : Nat → ℚ := fun i => if i = 0 then 2 else 3
    let r := multMV false 1 2 2 1 0 false false false acc ⟨fun _ => 1, true, false⟩ false true true false (fun _ => 0) y
    r 0 = 1 ∧ r 1 = 2 ∧ ¬ MulAddVR false 1 2 2 (bandMat 1 0 (acc y)) (fun _ => 1) y r := by
  refine ⟨by decide +kernel, by decide +kernel, fun h => ?_⟩
  have h0 := h 0
  revert h0
  simp only [Finset.sum_range_succ, Finset.sum_range_zero]
  decide +kernel

end TMV.BandMV
