import Verif.Props.SmallLU
import Verif.Props.SmallFlat
import Verif.Props.LUDiv

/-! C112: the determinant of a square `SmallMatrix`. -/
namespace TMV.SmallDiv
set_option linter.unusedSectionVars false
noncomputable section
open Classical

variable {K : Type} [RCLike K]

theorem detLoop_cast (P : Nat → Nat) (d : Nat → K) : ∀ (n i : Nat) (x : K) (e : Int),
    up (fun i z => let z := z * d i; if P i ≠ i then -z else z) n i (x * (e : K)) =
    x * (∏ k ∈ Finset.range n, d (i+k)) * ((Perm.detLoop ((List.range n).map fun k => P (i+k)) i e : ℤ) : K) := by
  intro n
  induction n with
  | zero => intro i x e; simp [up, Perm.detLoop]
  | succ n ih =>
    intro i x e
    rw [up, List.range_succ_eq_map, List.map_cons, List.map_map, Perm.detLoop, Finset.prod_range_succ']
    have h : (let z := x * (e : K) * d i; if P i ≠ i then -z else z) = x * d i * ((if P i ≠ i then -e else e : ℤ) : K) := by
      by_cases hp : P i ≠ i
      · simp only [if_pos hp]; push_cast; ring
      · simp only [if_neg hp]; ring
    rw [h, ih]
    have h2 : ((fun k => P (i+k)) ∘ Nat.succ) = fun k => P (i+1+k) := by
      funext k; simp only [Function.comp, Nat.succ_eq_add_one]; congr 1; omega
    have h3 : ∀ k, d (i + 1 + k) = d (i + (k+1)) := fun k => by congr 1; omega
    rw [h2, add_zero]
    simp only [h3]
    ring

theorem detLU_eq {N : Nat} {A F : Nat → Nat → K} {P : Nat → Nat} (hs : LU.IsLU (fun x : K => ‖x‖) N N A F P) :
    up (fun i d => let d := d * F i i; if P i ≠ i then -d else d) N 0 1 = (matOf N N A).det := by
  have hsg : Perm.detLoop ((List.range N).map P) 0 1 = (Equiv.Perm.sign hs.perm : ℤ) := by
    have := TMV.detLoop_spec (N := N) ((List.range N).map P) 0 1 (by
      intro k hk
      simp only [List.length_map, List.length_range] at hk
      have := (hs.range k (by omega)).2
      simp [hk, this]) hs.perm (by
        intro x
        simp only [List.length_map, List.length_range, Nat.sub_zero]
        show swapProd P N 0 x = _
        rw [swapProd_congr P _ N 0]
        intro k _ hk
        simp [show k < N by omega])
    rwa [one_mul] at this
  have h := detLoop_cast P (fun i => F i i) N 0 1 1
  simp only [Int.cast_one, mul_one, one_mul, zero_add] at h
  refine h.trans ?_
  rw [hsg, Finset.prod_range, ← hs.det]
  have hs2 : ((Equiv.Perm.sign hs.perm : ℤ) : K) * ((Equiv.Perm.sign hs.perm : ℤ) : K) = 1 := by
    rcases Int.units_eq_one_or (Equiv.Perm.sign hs.perm) with e | e <;> simp [e]
  rw [mul_right_comm, hs2, one_mul]
  rfl

theorem matOf_congr {M N : Nat} {A B : Nat → Nat → K} (h : ∀ i j, i < M → j < N → A i j = B i j) : matOf M N A = matOf M N B := by
  ext i j; exact h i j i.2 j.2

theorem smat_loc (s : Bool) (M N : Nat) (m q0 : Nat → K) : matOf M N (loc M (copy M N s false m q0)) = smat s M N m := by
  ext i j
  exact loc_copy s M N m q0 i.2 j.2

theorem smat_loc_tr (s : Bool) (M N : Nat) (m q0 : Nat → K) : matOf N M (loc N (copy M N s true m q0)) = (smat s M N m).transpose := by
  ext i j
  exact loc_copy_tr s M N m q0 i.2 j.2

theorem smat_not (s : Bool) (M N : Nat) (m : Nat → K) : smat (!s) N M m = (smat s M N m).transpose := by
  ext i j
  exact congrArg m (idx_not s M N j i)

theorem smat_idx (s : Bool) (M N : Nat) (m : Nat → K) : smat s M N m = matOf M N fun i j => m (idx s M N i j) := rfl

theorem det1_eq (s : Bool) (m : Nat → K) : det1 m = (smat s 1 1 m).det := by
  rw [Matrix.det_fin_one]; cases s <;> rfl

theorem det2_eq (s : Bool) (m : Nat → K) : det2 m = (smat s 2 2 m).det := by
  rw [Matrix.det_fin_two]
  cases s <;> simp [smat, det2] <;> ring

theorem det3_eq (s : Bool) (m : Nat → K) : det3 m = (smat s 3 3 m).det := by
  rw [Matrix.det_fin_three]
  cases s <;> simp [smat, det3] <;> ring

/-- **C112**: `m.det()` is the determinant, for every size `N ≥ 1`, both storage orders, real or complex elements. -/
theorem det_spec (cplx s : Bool) (N : Nat) (m : Nat → K) : det cplx s N m = (smat s N N m).det := by
  unfold det
  by_cases h1 : N = 1
  · subst h1; rw [if_pos rfl]; exact det1_eq s m
  rw [if_neg h1]
  by_cases h2 : N = 2
  · subst h2; rw [if_pos rfl]; exact det2_eq s m
  rw [if_neg h2]
  by_cases h3 : N = 3
  · subst h3; rw [if_pos rfl]; exact det3_eq s m
  rw [if_neg h3]
  unfold detLU
  exact (detLU_eq (doLUD_spec cplx N _)).trans (by rw [smat_loc s N N m fun _ => 0])

/-- A row-major 4×4 matrix with determinant 1 (two interchanges, product of the pivots 1). -/
example : det false true 4 (fun k => if k = 1 ∨ k = 4 ∨ k = 11 ∨ k = 14 then (1 : ℝ) else if k = 8 then 2 else 0) = 1 := by
  rw [det_spec]
  simp [Matrix.det_succ_row_zero, Fin.sum_univ_succ, smat, Fin.succAbove]

end
end TMV.SmallDiv
