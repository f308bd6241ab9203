import Verif.Model.SymRK
import Verif.Props.Tri
import Mathlib.Analysis.Complex.Basic
import Mathlib.Tactic.Ring
import Mathlib.Tactic.Linarith

/-! C58: symmetric rank-1 and rank-k updates. -/
namespace TMV.SymRK
open Tri (Ord splitAt)
open Classical

variable {K : Type} [RCLike K]

/-- The lower triangle (size `N`) of `A` becomes `A + S` (or `S`), nothing else changes. -/
def Updated (add : Bool) (N : Nat) (S A B : Nat → Nat → K) : Prop :=
  ∀ i j, B i j = if j ≤ i ∧ i < N then (if add then A i j + S i j else S i j) else A i j

/-- The diagonal is real (a Hermitian matrix). -/
def RealDiag (N : Nat) (A : Nat → Nat → K) : Prop := ∀ i, i < N → RCLike.im (A i i) = 0

theorem star_cj (c : Bool) (z : K) : star (cj c z) = cj (!c) z := by
  cases c <;> simp [cj]

theorem cj_cj (c d : Bool) (z : K) : cj c (cj d z) = cj (c != d) z := by
  cases c <;> cases d <;> simp [cj]

theorem re_of_real {z : K} (h : RCLike.im z = 0) : ((RCLike.re z : ℝ) : K) = z := by
  conv_rhs => rw [← RCLike.re_add_im z, h]
  simp

theorem im_diag {α v : K} (hα : RCLike.im α = 0) : RCLike.im (α * (v * star v)) = 0 := by
  have h : v * star v = ((RCLike.normSq v : ℝ) : K) := by
    have := RCLike.mul_conj v
    rw [RCLike.normSq_eq_def', RCLike.ofReal_pow]
    simpa using this
  rw [h, RCLike.mul_im, hα, RCLike.ofReal_im]
  simp

theorem normSq_eq (v : K) : ((RCLike.normSq v : ℝ) : K) = v * star v := by
  have := RCLike.mul_conj v
  rw [RCLike.normSq_eq_def', RCLike.ofReal_pow]
  simpa using this.symm

theorem realDiag_id {N : Nat} {A : Nat → Nat → K} (h : RealDiag N A) : realDiag N A = A := by
  funext i j
  unfold realDiag
  split
  · rename_i hc
    obtain ⟨rfl, hi⟩ := hc
    exact re_of_real (h i hi)
  · rfl

/-- The update of a rank-1 term. -/
def S1 (ha : Bool) (α : K) (v : Nat → K) : Nat → Nat → K := fun i j => α * (v i * cj ha (v j))

theorem updated_real {add : Bool} {N : Nat} {α : K} {S A B : Nat → Nat → K}
    (h : Updated add N S A B) (hA : add = true → RealDiag N A) (hS : RealDiag N S) : RealDiag N B := by
  intro i hi
  rw [h i i, if_pos ⟨le_refl _, hi⟩]
  cases add
  · simpa using hS i hi
  · simp only [if_true, map_add, hA rfl i hi, hS i hi, add_zero]

theorem S1_real {N : Nat} {α : K} (hα : RCLike.im α = 0) (v : Nat → K) : RealDiag N (S1 true α v) := by
  intro i _
  exact im_diag hα

theorem updated_put {add : Bool} {N : Nat} {S A B : Nat → Nat → K} :
    Updated add N S A B ↔ ∀ i j, B i j = if j ≤ i ∧ i < N then put add (A i j) (S i j) else A i j := Iff.rfl

theorem rank1_elem (cx ha add : Bool) (α : K) (x : Nat → K) (old : K) (a b : Nat) :
    (if x a ≠ 0 then put add old (α * cj cx (x a) * (if ha = cx then x b else star (x b)))
      else if add then old else 0) = put add old (S1 ha α (fun i => cj cx (x i)) a b) := by
  by_cases hx : x a = 0
  · rw [if_neg (by simpa using hx)]
    have : cj cx (0 : K) = 0 := by cases cx <;> simp [cj]
    simp [S1, hx, this, put]
  · rw [if_pos hx]
    have : (if ha = cx then x b else star (x b)) = cj ha (cj cx (x b)) := by
      cases ha <;> cases cx <;> simp [cj]
    rw [this, mul_assoc]
    rfl

theorem rank1_elem' (cx ha add : Bool) (α : K) (x : Nat → K) (old : K) (a b : Nat) :
    (if x b ≠ 0 then put add old (α * (if ha ≠ cx then star (x b) else x b) * cj cx (x a))
      else if add then old else 0) = put add old (S1 ha α (fun i => cj cx (x i)) a b) := by
  by_cases hx : x b = 0
  · rw [if_neg (by simpa using hx)]
    have : cj cx (0 : K) = 0 := by cases cx <;> simp [cj]
    have h' : cj ha (0 : K) = 0 := by cases ha <;> simp [cj]
    simp [S1, hx, this, h', put]
  · rw [if_pos hx]
    have : (if ha ≠ cx then star (x b) else x b) = cj ha (cj cx (x b)) := by
      cases ha <;> cases cx <;> simp [cj]
    rw [this, mul_assoc, mul_comm (cj ha (cj cx (x b)))]
    rfl

/-- Assigning the elements row by row. -/
theorem rows_loop (add : Bool) (S A : Nat → Nat → K) (n s : Nat) (body : Nat → (Nat → Nat → K) → Nat → Nat → K)
    (hb : ∀ i B a b, body i B a b = if a = i ∧ b ≤ i then put add (B i b) (S i b) else B a b) (a b : Nat) :
    up body n s A a b = if b ≤ a ∧ s ≤ a ∧ a < s + n then put add (A a b) (S a b) else A a b := by
  refine up_inv body (fun i A' => ∀ a b, A' a b = if b ≤ a ∧ s ≤ a ∧ a < i then put add (A a b) (S a b) else A a b)
    n s A (by intro a b; rw [if_neg (by omega)]) ?_ a b
  intro i B h1 h2 hI a b
  rw [hb]
  by_cases hab : a = i ∧ b ≤ i
  · obtain ⟨rfl, hb⟩ := hab
    rw [if_pos ⟨rfl, hb⟩, hI a b, if_neg (by omega), if_pos (by omega)]
  · rw [if_neg hab, hI a b]
    by_cases hc : b ≤ a ∧ s ≤ a ∧ a < i
    · rw [if_pos hc, if_pos (by omega)]
    · rw [if_neg hc, if_neg (by omega)]

/-- Assigning the elements column by column, upwards. -/
theorem cols_loop (add : Bool) (S A : Nat → Nat → K) (N : Nat) (body : Nat → (Nat → Nat → K) → Nat → Nat → K)
    (hb : ∀ j B a b, body j B a b = if b = j ∧ j ≤ a ∧ a < N then put add (B a j) (S a j) else B a b) (a b : Nat) :
    up body N 0 A a b = if b ≤ a ∧ a < N then put add (A a b) (S a b) else A a b := by
  have h := up_inv body (fun j A' => ∀ a b, A' a b = if b ≤ a ∧ a < N ∧ b < j then put add (A a b) (S a b) else A a b)
    N 0 A (by intro a b; rw [if_neg (by omega)])
    (by
      intro j B h1 h2 hI a b
      rw [hb]
      by_cases hab : b = j ∧ j ≤ a ∧ a < N
      · obtain ⟨rfl, hb, hb2⟩ := hab
        rw [if_pos ⟨rfl, hb, hb2⟩, hI a b, if_neg (by omega), if_pos (by omega)]
      · rw [if_neg hab, hI a b]
        by_cases hc : b ≤ a ∧ a < N ∧ b < j
        · rw [if_pos hc, if_pos (by omega)]
        · rw [if_neg hc, if_neg (by omega)])
  rw [h a b]
  by_cases hc : b ≤ a ∧ a < N
  · rw [if_pos hc, if_pos (by omega)]
  · rw [if_neg hc, if_neg (by omega)]

/-- ... and downwards. -/
theorem cols_loop_down (add : Bool) (S A : Nat → Nat → K) (N : Nat) (body : Nat → (Nat → Nat → K) → Nat → Nat → K)
    (hb : ∀ j B a b, body j B a b = if b = j ∧ j ≤ a ∧ a < N then put add (B a j) (S a j) else B a b) (a b : Nat) :
    down body N A a b = if b ≤ a ∧ a < N then put add (A a b) (S a b) else A a b := by
  have h := down_inv body (fun j A' => ∀ a b, A' a b = if b ≤ a ∧ a < N ∧ j ≤ b then put add (A a b) (S a b) else A a b)
    N A (by intro a b; rw [if_neg (by omega)])
    (by
      intro j B h2 hI a b
      rw [hb]
      by_cases hab : b = j ∧ j ≤ a ∧ a < N
      · obtain ⟨rfl, hb, hb2⟩ := hab
        rw [if_pos ⟨rfl, hb, hb2⟩, hI a b, if_neg (by omega), if_pos (by omega)]
      · rw [if_neg hab, hI a b]
        by_cases hc : b ≤ a ∧ a < N ∧ j + 1 ≤ b
        · rw [if_pos hc, if_pos (by omega)]
        · rw [if_neg hc, if_neg (by omega)])
  rw [h a b]
  by_cases hc : b ≤ a ∧ a < N
  · rw [if_pos hc, if_pos (by omega)]
  · rw [if_neg hc, if_neg (by omega)]

theorem herm_fix {ha add : Bool} {N : Nat} {α : K} {v : Nat → K} {A B : Nat → Nat → K}
    (hh : ha = true → RCLike.im α = 0 ∧ (add = true → RealDiag N A)) (hu : Updated add N (S1 ha α v) A B) :
    Updated add N (S1 ha α v) A (if ha then realDiag N B else B) := by
  cases ha with
  | false => simpa using hu
  | true =>
    obtain ⟨hα, hd⟩ := hh rfl
    rw [if_pos rfl, realDiag_id (updated_real (α := α) hu hd (S1_real hα _))]
    exact hu

theorem rowRank1_spec (cx ha add : Bool) (N : Nat) (hN : 0 < N) (α : K) (x : Nat → K) (A : Nat → Nat → K)
    (hh : ha = true → RCLike.im α = 0 ∧ (add = true → RealDiag N A)) :
    Updated add N (S1 ha α (fun i => cj cx (x i))) A (rowRank1 cx ha add N α x A) := by
  unfold rowRank1
  dsimp only
  refine herm_fix hh ?_
  rw [updated_put]
  intro i j
  have h0 := rows_loop add (S1 ha α (fun i => cj cx (x i))) A (N-1) 1
    (fun i A => fun a b =>
      if a = i ∧ b ≤ i then
        (if x i ≠ 0 then put add (A i b) (α * cj cx (x i) * (if ha = cx then x b else star (x b)))
         else if add then A i b else 0)
      else A a b) (by
    intro i B a b
    by_cases hab : a = i ∧ b ≤ i
    · rw [if_pos hab, ← rank1_elem cx ha add α x (B i b) i b, if_pos hab]
    · rw [if_neg hab, if_neg hab])
  generalize up (fun i A => fun a b =>
      if a = i ∧ b ≤ i then
        (if x i ≠ 0 then put add (A i b) (α * cj cx (x i) * (if ha = cx then x b else star (x b)))
         else if add then A i b else 0)
      else A a b) (N-1) 1 A = B at h0 ⊢
  rw [show 1 + (N - 1) = N by omega] at h0
  by_cases hij : i = 0 ∧ j = 0
  · obtain ⟨rfl, rfl⟩ := hij
    have e : (if x 0 = 0 then 0 else if ha then α * (RCLike.normSq (x 0) : ℝ)
        else if cx then α * star (x 0 * x 0) else α * (x 0 * x 0)) = S1 ha α (fun i => cj cx (x i)) 0 0 := by
      simp only [S1]
      by_cases hx : x 0 = 0
      · cases cx <;> simp [hx, cj]
      · rw [if_neg hx, normSq_eq]
        cases ha <;> cases cx <;> simp [cj, mul_comm]
    rw [setE_self, e, if_pos ⟨le_refl _, hN⟩, h0 0 0, if_neg (by omega)]
  · rw [setE_ne _ _ _ _ hij, h0 i j]
    by_cases hc : j ≤ i ∧ 1 ≤ i ∧ i < N
    · rw [if_pos hc, if_pos (by omega)]
    · rw [if_neg hc, if_neg (by omega)]

theorem colRank1_spec (cx ha add : Bool) (N : Nat) (α : K) (x : Nat → K) (A : Nat → Nat → K)
    (hh : ha = true → RCLike.im α = 0 ∧ (add = true → RealDiag N A)) :
    Updated add N (S1 ha α (fun i => cj cx (x i))) A (colRank1 cx ha add N α x A) := by
  unfold colRank1
  dsimp only
  refine herm_fix hh ?_
  rw [updated_put]
  intro i j
  refine cols_loop_down add (S1 ha α (fun i => cj cx (x i))) A N _ ?_ i j
  intro j B a b
  by_cases hab : b = j ∧ j ≤ a ∧ a < N
  · rw [if_pos hab, if_pos hab, ← rank1_elem' cx ha add α x (B a j) a j]
  · rw [if_neg hab, if_neg hab]

/-- **C58** (rank 1): `A += alpha * x^x` (`x^x.conjugate()` if Hermitian) changes exactly the stored triangle, by
exactly that; `A = alpha * x^x` assigns it, provided `alpha ≠ 0`. -/
theorem rank1_spec (o : Ord) (cx ha add : Bool) (N : Nat) (α : K) (x : Nat → K) (A : Nat → Nat → K)
    (h0 : add = false → α ≠ 0) (hh : ha = true → RCLike.im α = 0 ∧ (add = true → RealDiag N A)) :
    Updated add N (fun i j => α * (cj cx (x i) * cj ha (cj cx (x j)))) A (rank1 o cx ha add N α x A) := by
  unfold rank1
  by_cases h : α ≠ 0 ∧ N > 0
  · rw [if_pos h]
    cases o
    · exact rowRank1_spec cx ha add N h.2 α x A hh
    · exact colRank1_spec cx ha add N α x A hh
    · exact rowRank1_spec cx ha add N h.2 α x A hh
  · rw [if_neg h]
    intro i j
    by_cases hN : N > 0
    · have hα : α = 0 := by
        by_contra hne; exact h ⟨hne, hN⟩
      cases add
      · exact absurd hα (h0 rfl)
      · simp [hα]
    · rw [if_neg (by omega)]

/-- VIOLATED: `A = 0 * (x^x)` leaves `A` as it was, for every `A` and `x`. -/
theorem rank1_zero_violated (o : Ord) (cx ha : Bool) (N : Nat) (x : Nat → K) (A : Nat → Nat → K) :
    rank1 o cx ha false N 0 x A = A := by
  unfold rank1
  rw [if_neg (by simp)]

/-- The update of a rank-k term. -/
def SK (ha : Bool) (kx : Nat) (α : K) (x : Nat → Nat → K) : Nat → Nat → K :=
  fun i j => α * ∑ l ∈ Finset.range kx, x i l * cj ha (x j l)

theorem SK_real {N kx : Nat} {α : K} (hα : RCLike.im α = 0) (x : Nat → Nat → K) : RealDiag N (SK true kx α x) := by
  intro i _
  have : (SK true kx α x) i i = ∑ l ∈ Finset.range kx, α * (x i l * star (x i l)) := by
    simp only [SK, Finset.mul_sum, cj, if_true]
  rw [this, map_sum]
  exact Finset.sum_eq_zero fun l _ => im_diag hα

theorem Updated.trans {N : Nat} {S S' A B C : Nat → Nat → K} {add : Bool} (h1 : Updated add N S A B)
    (h2 : Updated true N S' B C) : Updated add N (fun i j => S i j + S' i j) A C := by
  intro i j
  rw [h2 i j, h1 i j]
  by_cases h : j ≤ i ∧ i < N
  · simp only [h, and_self, if_true]
    cases add <;> simp [add_assoc]
  · simp only [h, if_false]

theorem Updated.congr {add : Bool} {N : Nat} {S S' A B : Nat → Nat → K} (h : Updated add N S A B)
    (hs : ∀ i j, j ≤ i → i < N → S i j = S' i j) : Updated add N S' A B := by
  intro i j
  rw [h i j]
  by_cases hc : j ≤ i ∧ i < N
  · simp only [hc, and_self, if_true, hs i j hc.1 hc.2]
  · simp only [hc, if_false]

/-- `RecursiveRankKUpdate`; when assigning (`add = false`), the base case must not be the loop over the columns of a
matrix that is not row major. -/
theorem rankKRec_spec (nb nb2 : Nat) (hnb : 0 < nb) (hnb2 : 0 < nb2) (o : Ord) (xrm cx ha add : Bool) (kx : Nat) (α : K)
    (hα : add = false → (nb2 = 1 ∨ xrm = true)) :
    ∀ (fuel N : Nat) (x A : Nat → Nat → K), N < fuel →
      (ha = true → RCLike.im α = 0 ∧ (add = true → RealDiag N A)) →
      Updated add N (SK ha kx α x) A (rankKRec nb nb2 o xrm cx ha add kx α fuel N x A) := by
  intro fuel
  induction fuel with
  | zero => intro N x A h; omega
  | succ fuel ih =>
    intro N x A hf hh
    rw [rankKRec]
    by_cases hb : N ≤ nb2
    · rw [if_pos hb]
      by_cases hN1 : N = 1
      · rw [if_pos hN1]
        subst hN1
        rw [updated_put]
        intro i j
        by_cases hij : i = 0 ∧ j = 0
        · obtain ⟨rfl, rfl⟩ := hij
          have : (if ha = true then (((∑ l ∈ Finset.range kx, RCLike.normSq (x 0 l)) : ℝ) : K)
              else ∑ l ∈ Finset.range kx, x 0 l * x 0 l) = ∑ l ∈ Finset.range kx, x 0 l * cj ha (x 0 l) := by
            cases ha
            · simp [cj]
            · simp only [if_true, cj]
              push_cast
              exact Finset.sum_congr rfl fun l _ => normSq_eq _
          rw [setE_self, this, if_pos (by omega)]
          rfl
        · rw [setE_ne _ _ _ _ hij, if_neg (by omega)]
      · rw [if_neg hN1]
        by_cases hx : xrm = true
        · rw [if_pos hx]
          by_cases ho : o = .rm
          · rw [if_pos ho]
            rw [updated_put]
            intro i j
            refine (rows_loop add (SK ha kx α x) A N 0 _ (fun _ _ _ _ => rfl) i j).trans ?_
            by_cases hc : j ≤ i ∧ i < N
            · rw [if_pos hc, if_pos (by omega)]
            · rw [if_neg hc, if_neg (by omega)]
          · rw [if_neg ho]
            rw [updated_put]
            intro i j
            exact cols_loop add (SK ha kx α x) A N _ (fun _ _ _ _ => rfl) i j
        · rw [if_neg hx]
          have hadd : add = true ∨ N = 0 := by
            cases add
            · rcases hα rfl with h | h
              · right; omega
              · exact absurd h hx
            · exact Or.inl rfl
          rcases hadd with rfl | rfl
          · have h1 := up_inv (fun l (A : Nat → Nat → K) => rank1 o cx ha true N α (fun i => cj cx (x i l)) A)
              (fun l A' => Updated true N (SK ha l α x) A A') kx 0 A
              (by intro i j; simp [SK])
              (by
                intro l s h1 h2 hI
                have hr := rank1_spec o cx ha true N α (fun i => cj cx (x i l)) s (by simp)
                  (fun e => ⟨(hh e).1, fun _ => by
                    subst e
                    exact updated_real (α := α) hI (hh rfl).2 (SK_real (hh rfl).1 x)⟩)
                refine (hI.trans hr).congr ?_
                intro i j _ _
                simp only [SK, Finset.sum_range_succ, mul_add]
                have hcc : ∀ z : K, cj cx (cj cx z) = z := by intro z; cases cx <;> simp [cj]
                rw [hcc, hcc])
            rw [Nat.zero_add] at h1
            exact h1
          · have h1 : up (fun l (A : Nat → Nat → K) => rank1 o cx ha add 0 α (fun i => cj cx (x i l)) A) kx 0 A = A := by
              apply up_inv (fun l (A : Nat → Nat → K) => rank1 o cx ha add 0 α (fun i => cj cx (x i l)) A)
                (fun _ A' => A' = A) kx 0 A rfl
              intro i s _ _ hs
              rw [hs]
              unfold rank1
              rw [if_neg (by simp)]
            rw [h1]
            intro i j
            rw [if_neg (by omega)]
    · rw [if_neg hb]
      obtain ⟨hk1, hk2⟩ := Tri.splitAt_spec nb N hnb (by omega)
      generalize hk : splitAt nb N = k at hk1 hk2
      simp only [hk]
      have e1 := ih k x A (by omega) (fun e => ⟨(hh e).1, fun ea i hi => (hh e).2 ea i (by omega)⟩)
      generalize rankKRec nb nb2 o xrm cx ha add kx α fuel k x A = A1 at e1
      rw [updated_put] at e1 ⊢
      generalize hA2 : multBlock add α k (N-k) k kx (fun i l => x (k+i) l) (fun l j => cj ha (x j l)) A1 = A2
      have e2 : ∀ i j, A2 i j = if k ≤ i ∧ i < N ∧ j < k then
          put add (A i j) (SK ha kx α x i j) else A1 i j := by
        intro i j
        rw [← hA2]
        unfold multBlock
        by_cases hc : k ≤ i ∧ i < N ∧ j < k
        · rw [if_pos hc, if_pos (by omega), e1 i j, if_neg (by omega)]
          simp only [SK]
          rw [show k + (i - k) = i by omega]
        · rw [if_neg hc, if_neg (by omega)]
      have e3 := ih (N-k) (fun i l => x (k+i) l) (Tri.sub A2 k k) (by omega)
        (fun e => ⟨(hh e).1, fun ea i hi => by
          simp only [Tri.sub]
          rw [e2, if_neg (by omega), e1, if_neg (by omega)]
          exact (hh e).2 ea _ (by omega)⟩)
      rw [updated_put] at e3
      intro i j
      simp only [Tri.paste]
      by_cases hc : k ≤ i ∧ i < k + (N-k) ∧ k ≤ j ∧ j < k + (N-k)
      · have ho : A2 i j = A i j := by rw [e2 i j, if_neg (by omega), e1 i j, if_neg (by omega)]
        rw [if_pos hc, e3 (i-k) (j-k)]
        simp only [Tri.sub]
        rw [show k + (i - k) = i by omega, show k + (j - k) = j by omega, ho]
        have hs : SK ha kx α (fun i l => x (k+i) l) (i-k) (j-k) = SK ha kx α x i j := by
          simp only [SK]
          rw [show k + (i - k) = i by omega, show k + (j - k) = j by omega]
        rw [hs]
        by_cases hd : j ≤ i ∧ i < N
        · rw [if_pos (by omega), if_pos hd]
        · rw [if_neg (by omega), if_neg hd]
      · rw [if_neg hc, e2 i j]
        by_cases hd : k ≤ i ∧ i < N ∧ j < k
        · rw [if_pos hd, if_pos (by omega)]
        · rw [if_neg hd, e1 i j]
          by_cases he : j ≤ i ∧ i < k
          · rw [if_pos he, if_pos (by omega)]
          · rw [if_neg he, if_neg (by omega)]

/-- **C58** (rank k): `A += alpha * x * x.transpose()` (`adjoint()` if Hermitian) changes exactly the stored triangle, by
exactly that, for every storage order, block size and shape. -/
theorem rankK_add_spec (nb nb2 : Nat) (hnb : 0 < nb) (hnb2 : 0 < nb2) (o : Ord) (xrm cx ha : Bool) (N kx : Nat) (α : K)
    (x A : Nat → Nat → K) (hh : ha = true → RCLike.im α = 0 ∧ RealDiag N A) :
    Updated true N (fun i j => α * ∑ l ∈ Finset.range kx, x i l * cj ha (x j l)) A
      (rankK nb nb2 o xrm cx ha true N kx α x A) := by
  unfold rankK
  by_cases h : α ≠ 0 ∧ N > 0 ∧ kx > 0
  · rw [if_pos h]
    by_cases h1 : kx = 1
    · rw [if_pos h1]
      subst h1
      have := rank1_spec o cx ha true N α (fun i => cj cx (x i 0)) A (by simp) (fun e => ⟨(hh e).1, fun _ => (hh e).2⟩)
      refine this.congr ?_
      intro i j _ _
      have hcc : ∀ z : K, cj cx (cj cx z) = z := by intro z; cases cx <;> simp [cj]
      simp only [Finset.sum_range_one, hcc]
    · rw [if_neg h1]
      exact rankKRec_spec nb nb2 hnb hnb2 o xrm cx ha true kx α (by simp) (N+1) N x A (by omega)
        (fun e => ⟨(hh e).1, fun _ => (hh e).2⟩)
  · rw [if_neg h]
    intro i j
    by_cases hc : j ≤ i ∧ i < N
    · rw [if_pos hc, if_pos rfl]
      have : α = 0 ∨ kx = 0 := by
        by_contra hne
        push Not at hne
        exact h ⟨hne.1, by omega, by omega⟩
      rcases this with h' | h'
      · simp [h']
      · simp [h']
    · rw [if_neg hc]

/-- **C58** (rank k, assignment).  Missing, because it is false: `alpha = 0`, `x` without columns (`rankK_zero_violated`),
and a build with `-DTMV_BLOCKSIZE` and `x` not row major (`rankK_assign_violated`). -/
theorem rankK_assign_partial (nb nb2 : Nat) (hnb : 0 < nb) (hnb2 : 0 < nb2) (o : Ord) (xrm cx ha : Bool) (N kx : Nat)
    (α : K) (x A : Nat → Nat → K) (hα : α ≠ 0) (hk : 0 < kx) (hb : nb2 = 1 ∨ xrm = true) (hh : ha = true → RCLike.im α = 0) :
    Updated false N (fun i j => α * ∑ l ∈ Finset.range kx, x i l * cj ha (x j l)) A
      (rankK nb nb2 o xrm cx ha false N kx α x A) := by
  unfold rankK
  by_cases h : α ≠ 0 ∧ N > 0 ∧ kx > 0
  · rw [if_pos h]
    by_cases h1 : kx = 1
    · rw [if_pos h1]
      subst h1
      have := rank1_spec o cx ha false N α (fun i => cj cx (x i 0)) A (fun _ => hα) (fun e => ⟨hh e, by simp⟩)
      refine this.congr ?_
      intro i j _ _
      have hcc : ∀ z : K, cj cx (cj cx z) = z := by intro z; cases cx <;> simp [cj]
      simp only [Finset.sum_range_one, hcc]
    · rw [if_neg h1]
      exact rankKRec_spec nb nb2 hnb hnb2 o xrm cx ha false kx α (fun _ => hb) (N+1) N x A (by omega)
        (fun e => ⟨hh e, by simp⟩)
  · rw [if_neg h]
    intro i j
    rw [if_neg]
    intro hc
    exact h ⟨hα, by omega, hk⟩

/-- VIOLATED: `S = x * x.transpose()` leaves `S` unchanged (instead of setting it to zero) when `x` has no columns. -/
theorem rankK_zero_violated (nb nb2 : Nat) (o : Ord) (xrm cx ha : Bool) (N kx : Nat) (α : K) (x A : Nat → Nat → K)
    (h : α = 0 ∨ kx = 0) : rankK nb nb2 o xrm cx ha false N kx α x A = A := by
  unfold rankK
  rw [if_neg]
  rintro ⟨h1, h2, h3⟩
  rcases h with h | h
  · exact h1 h
  · omega

/-- VIOLATED: compiled with `-DTMV_BLOCKSIZE=64` (or any value ≥ 4), `S = x * x.transpose()` for the 2 × 2 identity `x`
(column major) gives `(0,0;0,1)`: every column overwrites the result of the previous one. -/
theorem rankK_assign_violated (nb nb2 : Nat) (h2 : 2 ≤ nb2) (A : Nat → Nat → ℝ) :
    let x : Nat → Nat → ℝ := fun i j => if i = j then 1 else 0
    rankK nb nb2 .cm false false false false 2 2 1 x A 0 0 = 0 ∧
      (∑ l ∈ Finset.range 2, x 0 l * x 0 l) = 1 := by
  intro x
  refine ⟨?_, ?_⟩
  · unfold rankK
    rw [if_pos (by norm_num), if_neg (by norm_num), rankKRec, if_pos h2, if_neg (by norm_num), if_neg (by simp)]
    simp only [up]
    have hr := rank1_spec (K := ℝ) .cm false false false 2 1 (fun i => cj false (x i 1))
      (rank1 .cm false false false 2 1 (fun i => cj false (x i 0)) A) (by simp) (by simp) 0 0
    rw [hr, if_pos (by omega)]
    simp [cj, x]
  · simp [Finset.sum_range_succ, x]

/-- The two ways a matrix `x` can have the memory of `A`: same layout or transposed, possibly conjugated. -/
def InMem (val : (Nat → Nat → K) → Nat → Nat → K) : Prop :=
  ∃ c tr, val = fun A i j => cj c (if tr = true then A j i else A i j)

theorem InMem.congr {val : (Nat → Nat → K) → Nat → Nat → K} (hv : InMem val) {A B : Nat → Nat → K} {i j : Nat}
    (h1 : A i j = B i j) (h2 : A j i = B j i) : val A i j = val B i j := by
  obtain ⟨c, tr, rfl⟩ := hv
  cases tr <;> simp [h1, h2]

theorem inPlace_rec (nb nb2 : Nat) (hnb : 0 < nb) (hnb2 : 0 < nb2) (o : Ord) (xrm ha add : Bool) (α : K)
    (val : (Nat → Nat → K) → Nat → Nat → K) (hv : InMem val) :
    ∀ (fuel N r : Nat) (A : Nat → Nat → K), N < fuel → 0 < N →
      (ha = true → RCLike.im α = 0 ∧ (add = true → ∀ i, r ≤ i → i < r + N → RCLike.im (A i i) = 0)) →
      ∀ i j, inPlace nb nb2 o xrm ha add α val fuel N r A i j =
        if r ≤ j ∧ j ≤ i ∧ i < r + N then
          put add (A i j) (α * ∑ l ∈ Finset.range N, val A i (r+l) * cj ha (val A j (r+l))) else A i j := by
  intro fuel
  induction fuel with
  | zero => intro N r A h; omega
  | succ fuel ih =>
    intro N r A hf hN hh
    rw [inPlace]
    dsimp only
    by_cases h1 : N = 1
    · subst h1
      rw [if_pos rfl]
      intro i j
      by_cases hij : i = r ∧ j = r
      · obtain ⟨rfl, rfl⟩ := hij
        have hc : j ≤ j ∧ j ≤ j ∧ j < j + 1 := by omega
        rw [setE_self]
        cases ha
        · simp [cj]
        · simp only [if_true, Finset.sum_range_one, Nat.add_zero, normSq_eq, hc]
          rfl
      · rw [setE_ne _ _ _ _ hij, if_neg (by omega)]
    · rw [if_neg h1]
      obtain ⟨k, hk⟩ : ∃ k, k = N / 2 := ⟨_, rfl⟩
      rw [← hk]
      have hk1 : 0 < k := by omega
      have hk2 : k < N := by omega
      -- the lower right block
      have e1 := ih (N-k) (r+k) A (by omega) (by omega)
        (fun e => ⟨(hh e).1, fun ea i h2 h3 => (hh e).2 ea i (by omega) (by omega)⟩)
      generalize inPlace nb nb2 o xrm ha add α val fuel (N-k) (r+k) A = A1 at e1
      have hS1 : ∀ i j, r+k ≤ j → j ≤ i → i < r+N → A1 i j = put add (A i j)
          (α * ∑ l ∈ Finset.range (N-k), val A i (r+k+l) * cj ha (val A j (r+k+l))) := by
        intro i j h2 h3 h4
        rw [e1, if_pos (by omega)]
      have hF1 : ∀ i j, ¬ (r+k ≤ j ∧ j ≤ i ∧ i < r+N) → A1 i j = A i j := by
        intro i j h2
        rw [e1, if_neg (by omega)]
      have hr1 : ha = true → ∀ i, r+k ≤ i → i < r+N → RCLike.im (A1 i i) = 0 := by
        intro e i h2 h3
        rw [hS1 i i h2 (le_refl _) h3]
        subst e
        have hz : RCLike.im (α * ∑ l ∈ Finset.range (N-k), val A i (r+k+l) * cj true (val A i (r+k+l))) = 0 := by
          rw [Finset.mul_sum, map_sum]
          exact Finset.sum_eq_zero fun l _ => im_diag (hh rfl).1
        cases add
        · simpa [put] using hz
        · simp only [put, if_true, map_add, hz, (hh rfl).2 rfl i (by omega) (by omega), add_zero]
      have e2 := rankKRec_spec nb nb2 hnb hnb2 o xrm false ha true k α (by simp) (N+1) (N-k)
        (fun i l => val A1 (r+k+i) (r+l)) (Tri.sub A1 (r+k) (r+k)) (by omega)
        (fun e => ⟨(hh e).1, fun _ i hi => hr1 e _ (by omega) (by omega)⟩)
      generalize rankKRec nb nb2 o xrm false ha true k α (N+1) (N-k)
        (fun i l => val A1 (r+k+i) (r+l)) (Tri.sub A1 (r+k) (r+k)) = R2 at e2
      obtain ⟨A2, hA2⟩ : ∃ A2, A2 = Tri.paste A1 (r+k) (r+k) (N-k) (N-k) R2 := ⟨_, rfl⟩
      rw [← hA2]
      have hS2 : ∀ i j, r+k ≤ j → j ≤ i → i < r+N → A2 i j = A1 i j +
          α * ∑ l ∈ Finset.range k, val A i (r+l) * cj ha (val A j (r+l)) := by
        intro i j h2 h3 h4
        rw [hA2]
        simp only [Tri.paste]
        rw [if_pos (by omega), e2, if_pos (by omega), if_pos rfl]
        simp only [Tri.sub, SK]
        rw [show r + k + (i - (r+k)) = i by omega, show r + k + (j - (r+k)) = j by omega]
        congr 2
        refine Finset.sum_congr rfl fun l hl => ?_
        rw [Finset.mem_range] at hl
        rw [hv.congr (B := A) (hF1 i (r+l) (by omega)) (hF1 (r+l) i (by omega)),
          hv.congr (B := A) (hF1 j (r+l) (by omega)) (hF1 (r+l) j (by omega))]
      have hF2 : ∀ i j, ¬ (r+k ≤ j ∧ j ≤ i ∧ i < r+N) → A2 i j = A i j := by
        intro i j h2
        rw [hA2]
        simp only [Tri.paste]
        by_cases hc : r + k ≤ i ∧ i < r + k + (N - k) ∧ r + k ≤ j ∧ j < r + k + (N - k)
        · rw [if_pos hc, e2, if_neg (by omega)]
          simp only [Tri.sub]
          rw [show r + k + (i - (r+k)) = i by omega, show r + k + (j - (r+k)) = j by omega]
          exact hF1 i j h2
        · rw [if_neg hc]
          exact hF1 i j h2
      -- the upper left block
      have e3 := ih k r A2 (by omega) hk1
        (fun e => ⟨(hh e).1, fun ea i h2 h3 => by
          rw [hF2 i i (by omega)]
          exact (hh e).2 ea i (by omega) (by omega)⟩)
      generalize inPlace nb nb2 o xrm ha add α val fuel k r A2 = A3 at e3
      have hS3 : ∀ i j, r ≤ j → j ≤ i → i < r+k → A3 i j = put add (A i j)
          (α * ∑ l ∈ Finset.range k, val A i (r+l) * cj ha (val A j (r+l))) := by
        intro i j h2 h3 h4
        rw [e3, if_pos (by omega), hF2 i j (by omega)]
        congr 2
        refine Finset.sum_congr rfl fun l hl => ?_
        rw [Finset.mem_range] at hl
        rw [hv.congr (B := A) (hF2 i (r+l) (by omega)) (hF2 (r+l) i (by omega)),
          hv.congr (B := A) (hF2 j (r+l) (by omega)) (hF2 (r+l) j (by omega))]
      have hF3 : ∀ i j, ¬ (r ≤ j ∧ j ≤ i ∧ i < r+k) → A3 i j = A2 i j := by
        intro i j h2
        rw [e3, if_neg h2]
      have hr3 : ha = true → ∀ i, r ≤ i → i < r+k → RCLike.im (A3 i i) = 0 := by
        intro e i h2 h3
        rw [hS3 i i h2 (le_refl _) h3]
        subst e
        have hz : RCLike.im (α * ∑ l ∈ Finset.range k, val A i (r+l) * cj true (val A i (r+l))) = 0 := by
          rw [Finset.mul_sum, map_sum]
          exact Finset.sum_eq_zero fun l _ => im_diag (hh rfl).1
        cases add
        · simpa [put] using hz
        · simp only [put, if_true, map_add, hz, (hh rfl).2 rfl i (by omega) (by omega), add_zero]
      have e4 := rankKRec_spec nb nb2 hnb hnb2 o xrm false ha true (N-k) α (by simp) (N+1) k
        (fun i l => val A3 (r+i) (r+k+l)) (Tri.sub A3 r r) (by omega)
        (fun e => ⟨(hh e).1, fun _ i hi => hr3 e _ (by omega) (by omega)⟩)
      generalize rankKRec nb nb2 o xrm false ha true (N-k) α (N+1) k
        (fun i l => val A3 (r+i) (r+k+l)) (Tri.sub A3 r r) = R4 at e4
      obtain ⟨A4, hA4⟩ : ∃ A4, A4 = Tri.paste A3 r r k k R4 := ⟨_, rfl⟩
      rw [← hA4]
      have hFu : ∀ i j, r ≤ i → i < r+k → r+k ≤ j → j < r+N → A3 i j = A i j ∧ A3 j i = A j i := by
        intro i j h2 h3 h4 h5
        rw [hF3 i j (by omega), hF3 j i (by omega), hF2 i j (by omega), hF2 j i (by omega)]
        exact ⟨rfl, rfl⟩
      have hS4 : ∀ i j, r ≤ j → j ≤ i → i < r+k → A4 i j = A3 i j +
          α * ∑ l ∈ Finset.range (N-k), val A i (r+k+l) * cj ha (val A j (r+k+l)) := by
        intro i j h2 h3 h4
        rw [hA4]
        simp only [Tri.paste]
        rw [if_pos (by omega), e4, if_pos (by omega), if_pos rfl]
        simp only [Tri.sub, SK]
        rw [show r + (i - r) = i by omega, show r + (j - r) = j by omega]
        congr 2
        refine Finset.sum_congr rfl fun l hl => ?_
        rw [Finset.mem_range] at hl
        have ha1 := hFu i (r+k+l) (by omega) (by omega) (by omega) (by omega)
        have ha2 := hFu j (r+k+l) (by omega) (by omega) (by omega) (by omega)
        rw [hv.congr (B := A) ha1.1 ha1.2, hv.congr (B := A) ha2.1 ha2.2]
      have hF4 : ∀ i j, ¬ (r ≤ j ∧ j ≤ i ∧ i < r+k) → A4 i j = A2 i j := by
        intro i j h2
        rw [hA4]
        simp only [Tri.paste]
        by_cases hc : r ≤ i ∧ i < r + k ∧ r ≤ j ∧ j < r + k
        · rw [if_pos hc, e4, if_neg (by omega)]
          simp only [Tri.sub]
          rw [show r + (i - r) = i by omega, show r + (j - r) = j by omega]
          exact hF3 i j h2
        · rw [if_neg hc]
          exact hF3 i j h2
      have hsum : ∀ f : Nat → K, ∑ l ∈ Finset.range N, f (r+l) =
          ∑ l ∈ Finset.range k, f (r+l) + ∑ l ∈ Finset.range (N-k), f (r+k+l) := by
        intro f
        conv_lhs => rw [show N = k + (N-k) by omega]
        rw [Finset.sum_range_add]
        congr 1
        exact Finset.sum_congr rfl fun l _ => by rw [Nat.add_assoc]
      intro i j
      have hs := hsum (fun l => val A i l * cj ha (val A j l))
      by_cases hlow : r + k ≤ i ∧ i < r + N ∧ r ≤ j ∧ j < r + k
      · rw [if_pos hlow, if_pos (by omega), hF4 i j (by omega), hF2 i j (by omega), hs,
          show r + k + (i - (r+k)) = i by omega, show r + (j - r) = j by omega]
      · rw [if_neg hlow]
        by_cases hc : r ≤ j ∧ j ≤ i ∧ i < r + N
        · rw [if_pos hc, hs, mul_add]
          by_cases hd : r + k ≤ j
          · rw [hF4 i j (by omega), hS2 i j hd hc.2.1 hc.2.2, hS1 i j hd hc.2.1 hc.2.2]
            cases add <;> simp only [put, if_true, Bool.false_eq_true, if_false] <;> ring
          · have hi : i < r + k := by omega
            rw [hS4 i j hc.1 hc.2.1 hi, hS3 i j hc.1 hc.2.1 hi]
            cases add <;> simp only [put, if_true, Bool.false_eq_true, if_false] <;> ring
        · rw [if_neg hc, hF4 i j (by omega), hF2 i j (by omega)]

/-- **C58** (aliased): `S += alpha * m * m.transpose()` and `S = alpha * m * m.transpose()` where `S` is a symmetric (or,
with `adjoint()`, Hermitian) view of the square matrix `m` itself gives the product of the *old* `m`, whatever the
layouts. -/
theorem inPlace_spec (nb nb2 : Nat) (hnb : 0 < nb) (hnb2 : 0 < nb2) (o : Ord) (xrm ha add : Bool) (α : K)
    (val : (Nat → Nat → K) → Nat → Nat → K) (hv : InMem val) (N : Nat) (hN : 0 < N) (A : Nat → Nat → K)
    (hh : ha = true → RCLike.im α = 0 ∧ (add = true → RealDiag N A)) :
    Updated add N (fun i j => α * ∑ l ∈ Finset.range N, val A i l * cj ha (val A j l)) A
      (inPlace nb nb2 o xrm ha add α val (N+1) N 0 A) := by
  rw [updated_put]
  intro i j
  rw [inPlace_rec nb nb2 hnb hnb2 o xrm ha add α val hv (N+1) N 0 A (by omega) hN
    (fun e => ⟨(hh e).1, fun ea i _ hi => (hh e).2 ea i (by omega)⟩) i j]
  simp only [Nat.zero_add, Nat.zero_le, true_and]

/-- **C58** (aliased, wide): `S += alpha * m * m.transpose()` where `S` is a symmetric view of the first columns of `m`. -/
theorem aliasWide_add_spec (nb nb2 : Nat) (hnb : 0 < nb) (hnb2 : 0 < nb2) (o : Ord) (xrm ha : Bool) (α : K)
    (val : (Nat → Nat → K) → Nat → Nat → K) (hv : InMem val) (N kx : Nat) (hN : 0 < N) (hk : N < kx) (A : Nat → Nat → K)
    (hh : ha = true → RCLike.im α = 0 ∧ RealDiag N A) :
    Updated true N (fun i j => α * ∑ l ∈ Finset.range kx, val A i l * cj ha (val A j l)) A
      (aliasWide nb nb2 o xrm ha true α val N kx A) := by
  unfold aliasWide
  dsimp only
  have h1 := inPlace_spec nb nb2 hnb hnb2 o xrm ha true α val hv N hN A (fun e => ⟨(hh e).1, fun _ => (hh e).2⟩)
  generalize inPlace nb nb2 o xrm ha true α val (N+1) N 0 A = A1 at h1
  have h2 := rankKRec_spec nb nb2 hnb hnb2 o xrm false ha true (kx-N) α (by simp) (N+1) N (fun i l => val A1 i (N+l)) A1
    (by omega) (fun e => ⟨(hh e).1, fun _ => by
      subst e
      refine updated_real (α := α) h1 (fun _ => (hh rfl).2) ?_
      have := SK_real (N := N) (kx := N) (hh rfl).1 (val A)
      exact this⟩)
  refine (h1.trans h2).congr ?_
  intro i j hij hi
  simp only [SK]
  have hF : ∀ a b, N ≤ a ∨ N ≤ b ∨ a < b → A1 a b = A a b := by
    intro a b h
    rw [h1 a b, if_neg (by omega)]
  rw [← mul_add]
  congr 1
  conv_rhs => rw [show kx = N + (kx-N) by omega]
  rw [Finset.sum_range_add]
  congr 1
  refine Finset.sum_congr rfl fun l _ => ?_
  rw [hv.congr (B := A) (hF i (N+l) (by omega)) (hF (N+l) i (by omega)),
    hv.congr (B := A) (hF j (N+l) (by omega)) (hF (N+l) j (by omega))]

/-- VIOLATED: for the 1 × 2 matrix `m = (1 1)` and `S` the symmetric view of its first element, `S = m * m.transpose()`
gives 1 instead of 2: the second part overwrites the first. -/
theorem aliasWide_assign_violated (nb nb2 : Nat) (hnb2 : 0 < nb2) (o : Ord) (xrm : Bool) :
    aliasWide (K := ℝ) nb nb2 o xrm false false 1 (fun A => A) 1 2 (fun _ _ => 1) 0 0 = 1 ∧
      (∑ l ∈ Finset.range 2, (1 : ℝ) * 1) = 2 := by
  refine ⟨?_, by norm_num⟩
  unfold aliasWide
  rw [rankKRec, if_pos (by omega), if_pos rfl]
  dsimp only
  rw [setE_self, inPlace]
  dsimp only
  rw [if_pos rfl]
  simp [put, setE]

/-- The hypotheses hold for a complex Hermitian view of a 2 × 2 matrix with a real diagonal. -/
example : InMem (fun (A : Nat → Nat → ℂ) i j => A i j) ∧
    RealDiag 2 (fun i j => if i = j then (1 : ℂ) else if i < j then 5 else Complex.I) :=
  ⟨⟨false, false, by simp [cj]⟩, by intro i _; simp⟩

end TMV.SymRK
