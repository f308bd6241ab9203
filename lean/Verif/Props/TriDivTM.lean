import Verif.Props.TriDivTL
import Mathlib.Algebra.Star.BigOperators
import Mathlib.Data.Complex.BigOperators
import Mathlib.Tactic.NormNum

/-! Division of a triangular matrix by a triangular matrix (C130). -/
namespace TMV.TriDivT
open TMV.Tri
variable {K : Type _} [Field K] [StarRing K] [DecidableEq K]

omit [DecidableEq K] in
theorem cj_zero (c : Bool) : cj c (0 : K) = 0 := by cases c <;> simp [cj]
omit [DecidableEq K] in
theorem cj_one (c : Bool) : cj c (1 : K) = 1 := by cases c <;> simp [cj]
omit [DecidableEq K] in
theorem cj_mul (c : Bool) (x y : K) : cj c (x * y) = cj c x * cj c y := by cases c <;> simp [cj]
omit [DecidableEq K] in
theorem cj_cj (c : Bool) (x : K) : cj c (cj c x) = x := by cases c <;> simp [cj]
omit [DecidableEq K] in
theorem cj_sum (c : Bool) (n : Nat) (f : Nat → K) : cj c (∑ k ∈ Finset.range n, f k) = ∑ k ∈ Finset.range n, cj c (f k) := by
  cases c <;> simp [cj]

omit [DecidableEq K] in
theorem upperMat_cj (c u : Bool) (X : Nat → Nat → K) (i j : Nat) : upperMat u (fun i j => cj c (X i j)) i j = cj c (upperMat u X i j) := by
  unfold upperMat
  split
  · rfl
  · split
    · split
      · rw [cj_one]
      · rfl
    · rw [cj_zero]

omit [DecidableEq K] in
theorem lowerMat_cj (c u : Bool) (X : Nat → Nat → K) (i j : Nat) : lowerMat u (fun i j => cj c (X i j)) i j = cj c (lowerMat u X i j) := by
  unfold lowerMat
  split
  · rfl
  · split
    · split
      · rw [cj_one]
      · rfl
    · rw [cj_zero]

/-- **C130** `B %= A`, `A` and `B` triangular of the same shape, whatever the layouts, sizes, blocks, implicit diagonals and conj flags: if no
exception is raised then `A` times the new `B` is the old `B`, and nothing outside the stored triangle of `B` has changed. -/
theorem ldivEq_spec (nb nb2 : Nat) (hnb : 0 < nb) (hnb2 : 0 < nb2) (up : Bool) (oa : Ord) (brm ua ub cb : Bool) (N : Nat)
    (A S S' : Nat → Nat → K) (hub : ub = true → ua = true) (h : ldivEq nb nb2 up oa brm ua ub cb N A S = some S') :
    DivTri up ua ub N A (fun i j => cj cb (S i j)) (fun i j => cj cb (S' i j)) := by
  unfold ldivEq at h
  cases up with
  | true =>
    simp only [if_true] at h
    have s := doU_sound nb nb2 hnb hnb2 oa brm ua ub hub _ _ _ _ _ h
    refine ⟨fun i j hi hj => ?_, fun i j hij => ?_⟩
    · simp only [triOf, if_true]
      have := s.1 i j hi hj
      rw [upperMat_cj, ← this, cj_sum]
      refine Finset.sum_congr rfl fun k _ => ?_
      rw [upperMat_cj, upperMat_cj, cj_mul, cj_cj]
    · simp only [if_true] at hij
      dsimp only; rw [s.2 i j hij]
  | false =>
    simp only [Bool.false_eq_true, if_false] at h
    by_cases hN : 0 < N
    · rw [if_pos hN] at h
      have s := doL_sound nb nb2 hnb hnb2 oa brm ua ub hub _ _ _ _ _ h
      refine ⟨fun i j hi hj => ?_, fun i j hij => ?_⟩
      · simp only [triOf, Bool.false_eq_true, if_false]
        have := s.1 i j hi hj
        rw [lowerMat_cj, ← this, cj_sum]
        refine Finset.sum_congr rfl fun k _ => ?_
        rw [lowerMat_cj, lowerMat_cj, cj_mul, cj_cj]
      · simp only [Bool.false_eq_true, if_false] at hij
        dsimp only; rw [s.2 i j hij]
    · rw [if_neg hN] at h
      cases h
      exact ⟨fun i j hi => by omega, fun _ _ _ => rfl⟩

/-- **C130** No exception is raised if the diagonal of `A` is implicit or has no zero. -/
theorem ldivEq_isSome (nb nb2 : Nat) (hnb : 0 < nb) (hnb2 : 0 < nb2) (up : Bool) (oa : Ord) (brm ua ub cb : Bool) (N : Nat)
    (A S : Nat → Nat → K) (hd : ua = true ∨ ∀ i, i < N → A i i ≠ 0) : (ldivEq nb nb2 up oa brm ua ub cb N A S).isSome := by
  have hd' : ∀ i, i < N → dg ua (fun i j => cj cb (A i j)) i ≠ 0 := by
    intro i hi
    cases ua with
    | true => simp [dg]
    | false =>
      have := (hd.resolve_left (by simp)) i hi
      simp only [dg, Bool.false_eq_true, if_false]
      intro h0
      exact this (by rw [← cj_cj cb (A i i), h0, cj_zero])
  unfold ldivEq
  cases up with
  | true => simp only [if_true]; exact doU_isSome nb nb2 hnb hnb2 oa brm ua ub _ _ _ _ (by omega) hd'
  | false =>
    simp only [Bool.false_eq_true, if_false]
    split
    · exact doL_isSome nb nb2 hnb hnb2 oa brm ua ub _ _ _ _ (by omega) hd'
    · rfl

/-- **C130** An exception is raised if no matrix times which `A` gives `B` exists, `B` the matrix before. -/
theorem ldivEq_raises (nb nb2 : Nat) (hnb : 0 < nb) (hnb2 : 0 < nb2) (up : Bool) (oa : Ord) (brm ua ub cb : Bool) (N : Nat)
    (A S : Nat → Nat → K) (hub : ub = true → ua = true)
    (hno : ¬ ∃ X : Nat → Nat → K, ∀ i j, i < N → j < N →
      ∑ k ∈ Finset.range N, triOf up ua A i k * X k j = triOf up ub (fun i j => cj cb (S i j)) i j) :
    ldivEq nb nb2 up oa brm ua ub cb N A S = none := by
  cases e : ldivEq nb nb2 up oa brm ua ub cb N A S with
  | none => rfl
  | some S' => exact absurd ⟨_, (ldivEq_spec nb nb2 hnb hnb2 up oa brm ua ub cb N A S S' hub e).1⟩ hno

/-- **C130** In particular if `A(i,i)` is zero where `B(i,i)` is not. -/
theorem ldivEq_singular (nb nb2 : Nat) (hnb : 0 < nb) (hnb2 : 0 < nb2) (up : Bool) (oa : Ord) (brm cb : Bool) (N i : Nat)
    (A S : Nat → Nat → K) (hi : i < N) (h0 : A i i = 0) (h1 : S i i ≠ 0) :
    ldivEq nb nb2 up oa brm false false cb N A S = none := by
  cases e : ldivEq nb nb2 up oa brm false false cb N A S with
  | none => rfl
  | some S' =>
    exfalso
    have s := (ldivEq_spec nb nb2 hnb hnb2 up oa brm false false cb N A S S' (by simp) e).1 i i hi hi
    have z : ∑ k ∈ Finset.range N, triOf up false A i k * triOf up false (fun i j => cj cb (S' i j)) k i = 0 := by
      refine Finset.sum_eq_zero fun k _ => ?_
      cases up with
      | true =>
        simp only [triOf, if_true]
        rcases lt_trichotomy k i with h | h | h
        · rw [up_gt false A h, zero_mul]
        · subst h; rw [up_eq]; simp [h0]
        · rw [up_gt false (fun i j => cj cb (S' i j)) h, mul_zero]
      | false =>
        simp only [triOf, Bool.false_eq_true, if_false]
        rcases lt_trichotomy k i with h | h | h
        · rw [lo_gt false (fun i j => cj cb (S' i j)) h, mul_zero]
        · subst h; rw [lo_eq]; simp [h0]
        · rw [lo_gt false A h, zero_mul]
    rw [z] at s
    have t : triOf up false (fun i j => cj cb (S i j)) i i = cj cb (S i i) := by
      cases up <;> simp [triOf, up_eq, lo_eq]
    rw [t] at s
    exact h1 (by rw [← cj_cj cb (S i i), ← s, cj_zero])

/-- **C130** A zero on the diagonal of `A` need not raise: for the 1×1 matrices `A = 0`, `B = 0` it depends on the layout of `B`. -/
theorem zero_diag_depends_on_layout_violated :
    ldivEq 64 32 true .cm true false false false 1 (fun _ _ => (0 : ℚ)) (fun _ _ => 0) = none ∧
    ∃ X, ldivEq 64 32 true .cm false false false false 1 (fun _ _ => (0 : ℚ)) (fun _ _ => 0) = some X := by
  constructor
  · simp [ldivEq, doU, colU, forDown, divRow, cj]
  · exact ⟨_, by simp [ldivEq, doU, colsU, forRange, upperV, trimHi]; rfl⟩

/-- A 2×2 complex upper triangular matrix kept in a conjugated view, with blocks of one: the hypotheses hold and the result is not trivial. -/
example : ∃ S' : Nat → Nat → ℂ,
    ldivEq 1 1 true .cm true false false true 2 (fun i j => if i = j then 2 else Complex.I) (fun _ _ => 1) = some S' ∧
    DivTri true false false 2 (fun i j => if i = j then 2 else Complex.I) (fun _ _ => cj true 1) (fun i j => cj true (S' i j)) := by
  have hs := ldivEq_isSome (K := ℂ) 1 1 (by omega) (by omega) true .cm true false false true 2 (fun i j => if i = j then 2 else Complex.I)
    (fun _ _ => 1) (Or.inr fun i _ => by simp)
  obtain ⟨S', h⟩ := Option.isSome_iff_exists.mp hs
  exact ⟨S', h, ldivEq_spec 1 1 (by omega) (by omega) true .cm true false false true 2 _ _ S' (by simp) h⟩

end TMV.TriDivT
