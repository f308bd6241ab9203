import Verif.Model.SymMM
import Verif.Props.SymRK

/-! **C73** `SymMultMM`. -/
namespace TMV.SymRK
open Tri (Ord splitAt)
noncomputable section
open Classical

variable {K : Type} [RCLike K]

/-- The product. -/
def PK (kx : Nat) (α : K) (x y : Nat → Nat → K) : Nat → Nat → K := fun i j => α * ∑ l ∈ Finset.range kx, x i l * y l j

theorem symMulRec_spec (nb nb2 : Nat) (hnb : 0 < nb) (hnb2 : 0 < nb2) (rm ha add : Bool) (kx : Nat) (α : K) :
    ∀ (fuel N : Nat) (x y A : Nat → Nat → K), N < fuel →
      (ha = true → RealDiag N (PK kx α x y) ∧ (add = true → RealDiag N A)) →
      Updated add N (PK kx α x y) A (symMulRec nb nb2 rm ha add kx α fuel N x y A) := by
  intro fuel
  induction fuel with
  | zero => intro N x y A h; omega
  | succ fuel ih =>
    intro N x y A hf hh
    rw [symMulRec]
    by_cases hb : N ≤ nb2
    · rw [if_pos hb]
      by_cases hN1 : N = 1
      · rw [if_pos hN1]
        subst hN1
        dsimp only
        rw [updated_put]
        intro i j
        by_cases hij : i = 0 ∧ j = 0
        · obtain ⟨rfl, rfl⟩ := hij
          rw [setE_self, if_pos (show 0 ≤ 0 ∧ 0 < 1 by omega)]
          cases ha with
          | false => rfl
          | true => exact congrArg _ (re_of_real ((hh rfl).1 0 (by omega)))
        · rw [setE_ne _ _ _ _ hij, if_neg (by omega)]
      · rw [if_neg hN1]
        dsimp only
        have hu : Updated add N (PK kx α x y) A (if rm = true then
            up (fun i A => fun a b => if a = i ∧ b ≤ i then
              put add (A i b) (α * ∑ l ∈ Finset.range kx, x i l * y l b) else A a b) N 0 A
          else
            up (fun j A => fun a b => if b = j ∧ j ≤ a ∧ a < N then
              put add (A a j) (α * ∑ l ∈ Finset.range kx, x a l * y l j) else A a b) N 0 A) := by
          rw [updated_put]
          intro i j
          cases rm with
          | true =>
            rw [if_pos rfl]
            refine (rows_loop add (PK kx α x y) A N 0 _ (fun _ _ _ _ => rfl) i j).trans ?_
            by_cases hc : j ≤ i ∧ i < N
            · rw [if_pos hc, if_pos (by omega)]
            · rw [if_neg hc, if_neg (by omega)]
          | false =>
            rw [if_neg (by decide)]
            exact cols_loop add (PK kx α x y) A N _ (fun _ _ _ _ => rfl) i j
        revert hu
        generalize (if rm = true then _ else _ : Nat → Nat → K) = B
        intro hu
        cases ha with
        | false => exact hu
        | true =>
          rw [if_pos rfl, realDiag_id (updated_real (α := α) hu (hh rfl).2 (hh rfl).1)]
          exact hu
    · rw [if_neg hb]
      obtain ⟨hk1, hk2⟩ := Tri.splitAt_spec nb N hnb (by omega)
      generalize hk : splitAt nb N = k at hk1 hk2
      simp only [hk]
      have e1 := ih k x y A (by omega) (fun e => ⟨fun i hi => (hh e).1 i (by omega), fun ea i hi => (hh e).2 ea i (by omega)⟩)
      generalize symMulRec nb nb2 rm ha add kx α fuel k x y A = A1 at e1
      rw [updated_put] at e1 ⊢
      generalize hA2 : multBlock add α k (N-k) k kx (fun i l => x (k+i) l) y A1 = A2
      have e2 : ∀ i j, A2 i j = if k ≤ i ∧ i < N ∧ j < k then
          put add (A i j) (PK kx α x y i j) else A1 i j := by
        intro i j
        rw [← hA2]
        unfold multBlock
        by_cases hc : k ≤ i ∧ i < N ∧ j < k
        · rw [if_pos hc, if_pos (by omega), e1 i j, if_neg (by omega)]
          simp only [PK]
          rw [show k + (i - k) = i by omega]
        · rw [if_neg hc, if_neg (by omega)]
      have e3 := ih (N-k) (fun i l => x (k+i) l) (fun l j => y l (k+j)) (Tri.sub A2 k k) (by omega)
        (fun e => ⟨fun i hi => (hh e).1 (k+i) (by omega), fun ea i hi => by
          simp only [Tri.sub]
          rw [e2, if_neg (by omega), e1, if_neg (by omega)]
          exact (hh e).2 ea _ (by omega)⟩)
      rw [updated_put] at e3
      intro i j
      simp only [Tri.paste]
      by_cases hc : k ≤ i ∧ i < k + (N-k) ∧ k ≤ j ∧ j < k + (N-k)
      · have ho : A2 i j = A i j := by rw [e2 i j, if_neg (by omega), e1 i j, if_neg (by omega)]
        rw [if_pos hc, e3 (i-k) (j-k)]
        simp only [Tri.sub]
        rw [show k + (i - k) = i by omega, show k + (j - k) = j by omega, ho]
        have hs : PK kx α (fun i l => x (k+i) l) (fun l j => y l (k+j)) (i-k) (j-k) = PK kx α x y i j := by
          simp only [PK]
          rw [show k + (i - k) = i by omega, show k + (j - k) = j by omega]
        rw [hs]
        by_cases hd : j ≤ i ∧ i < N
        · rw [if_pos (by omega), if_pos hd]
        · rw [if_neg (by omega), if_neg hd]
      · rw [if_neg hc, e2 i j]
        by_cases hd : k ≤ i ∧ i < N ∧ j < k
        · rw [if_pos hd, if_pos (by omega)]
        · rw [if_neg hd, e1 i j]
          by_cases he : j ≤ i ∧ i < k
          · rw [if_pos he, if_pos (by omega)]
          · rw [if_neg he, if_neg (by omega)]

/-- **C73** `SymMultMM<add>(alpha,x,y,A)` with `x`, `y` that do not share storage with `A`: the stored triangle becomes
`(A +) alpha*x*y`, nothing else changes.  For a Hermitian `A` the product must have a real diagonal (as it has if it is Hermitian).
Partial: assigning needs `alpha ≠ 0` (`symMul_zero_violated`). -/
theorem symMul_spec_partial (nb nb2 : Nat) (hnb : 0 < nb) (hnb2 : 0 < nb2) (rm ha add : Bool) (N kx : Nat) (α : K)
    (x y A : Nat → Nat → K) (h0 : add = false → α ≠ 0)
    (hh : ha = true → (∀ i, i < N → RCLike.im (α * ∑ l ∈ Finset.range kx, x i l * y l i) = 0) ∧ (add = true → RealDiag N A)) :
    Updated add N (fun i j => α * ∑ l ∈ Finset.range kx, x i l * y l j) A (symMul nb nb2 rm ha add N kx α x y A) := by
  unfold symMul
  by_cases h : α ≠ 0 ∧ N > 0
  · rw [if_pos h]
    exact symMulRec_spec nb nb2 hnb hnb2 rm ha add kx α (N+1) N x y A (by omega) hh
  · rw [if_neg h]
    intro i j
    by_cases hN : N > 0
    · have hα : α = 0 := by
        by_contra hne; exact h ⟨hne, hN⟩
      cases add with
      | false => exact absurd hα (h0 rfl)
      | true => simp [hα]
    · rw [if_neg (by omega)]

/-- VIOLATED: `SymMultMM<false>(0,x,y,A)` leaves `A` as it was. -/
theorem symMul_zero_violated (nb nb2 : Nat) (rm ha : Bool) (N kx : Nat) (x y A : Nat → Nat → K) :
    symMul nb nb2 rm ha false N kx 0 x y A = A := by
  unfold symMul
  rw [if_neg (by simp)]

/-- The hypotheses can be met: `x * x.adjoint()`. -/
example (N kx : Nat) (x A : Nat → Nat → ℂ) :
    Updated false N (fun i j => 2 * ∑ l ∈ Finset.range kx, x i l * star (x j l)) A
      (symMul 64 32 true true false N kx 2 x (fun l j => star (x j l)) A) :=
  symMul_spec_partial 64 32 (by decide) (by decide) true true false N kx 2 x _ A (fun _ => by norm_num) fun _ =>
    ⟨fun i _ => by
      have := SK_real (N := N) (kx := kx) (α := (2 : ℂ)) (by simp) x i (by assumption)
      simpa [SK, cj] using this, fun h => by cases h⟩

end
end TMV.SymRK
