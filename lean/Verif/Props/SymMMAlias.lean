import Verif.Model.SymMMAlias
import Verif.Props.SymMM

/-! **C73** `SymMultMM` with operands stored in the memory of the result. -/
namespace TMV.SymRK
open Tri (splitAt)
noncomputable section
open Classical

variable {K : Type} [RCLike K]

/-- The matrix with the real part of its diagonal if `ha`. -/
def RP (ha : Bool) (P : Nat → Nat → K) : Nat → Nat → K := fun i j => if ha = true ∧ i = j then ((RCLike.re (P i j) : ℝ) : K) else P i j

theorem RP_add (ha : Bool) (P Q : Nat → Nat → K) (i j : Nat) : RP ha P i j + RP ha Q i j = RP ha (fun i j => P i j + Q i j) i j := by
  unfold RP
  split_ifs
  · rw [map_add]; push_cast; rfl
  · rfl

theorem RP_congr {ha : Bool} {P Q : Nat → Nat → K} {i j i' j' : Nat} (h : P i j = Q i' j') (he : i = j ↔ i' = j') : RP ha P i j = RP ha Q i' j' := by
  unfold RP
  by_cases hc : ha = true ∧ i = j
  · rw [if_pos hc, if_pos ⟨hc.1, he.mp hc.2⟩, h]
  · rw [if_neg hc, if_neg (fun h => hc ⟨h.1, he.mpr h.2⟩), h]

theorem RP_off {ha : Bool} {P : Nat → Nat → K} {i j : Nat} (h : i ≠ j) : RP ha P i j = P i j := if_neg fun h' => h h'.2

theorem RP_im {P : Nat → Nat → K} (i : Nat) : RCLike.im (RP true P i i) = 0 := by unfold RP; rw [if_pos ⟨rfl, rfl⟩]; simp

theorem RP_real {ha : Bool} {P : Nat → Nat → K} {N : Nat} (h : ha = true → RealDiag N P) {i j : Nat} (hi : i < N) : RP ha P i j = P i j := by
  unfold RP
  split_ifs with hc
  · obtain ⟨h1, rfl⟩ := hc
    exact re_of_real (h h1 i hi)
  · rfl

theorem put_real {add : Bool} {a b : K} (h1 : add = true → RCLike.im a = 0) (h2 : RCLike.im b = 0) : RCLike.im (put add a b) = 0 := by
  cases add
  · exact h2
  · show RCLike.im (a + b) = 0
    rw [map_add, h1 rfl, h2, add_zero]

theorem put_re {add : Bool} {a b : K} (h1 : add = true → RCLike.im a = 0) :
    ((RCLike.re (put add a b) : ℝ) : K) = put add a ((RCLike.re b : ℝ) : K) := by
  cases add
  · rfl
  · show ((RCLike.re (a + b) : ℝ) : K) = a + ((RCLike.re b : ℝ) : K)
    rw [map_add, RCLike.ofReal_add]
    exact congrArg (· + _) (re_of_real (h1 rfl))

/-- `RecursiveSymMultMM` for any product: a Hermitian matrix receives the real part of the diagonal. -/
theorem symMulRec_gen (nb nb2 : Nat) (hnb : 0 < nb) (hnb2 : 0 < nb2) (rm ha add : Bool) (kx : Nat) (α : K) :
    ∀ (fuel N : Nat) (x y A : Nat → Nat → K), N < fuel → (ha = true → add = true → RealDiag N A) →
      Updated add N (RP ha (PK kx α x y)) A (symMulRec nb nb2 rm ha add kx α fuel N x y A) := by
  intro fuel
  induction fuel with
  | zero => intro N x y A h; omega
  | succ fuel ih =>
    intro N x y A hf hh
    rw [symMulRec]
    by_cases hb : N ≤ nb2
    · rw [if_pos hb]
      by_cases hN1 : N = 1
      · rw [if_pos hN1]
        subst hN1
        dsimp only
        rw [updated_put]
        intro i j
        by_cases hij : i = 0 ∧ j = 0
        · obtain ⟨rfl, rfl⟩ := hij
          rw [setE_self, if_pos (show 0 ≤ 0 ∧ 0 < 1 by omega)]
          unfold RP
          simp only [and_true]
          rfl
        · rw [setE_ne _ _ _ _ hij, if_neg (by omega)]
      · rw [if_neg hN1]
        dsimp only
        have hu : Updated add N (PK kx α x y) A (if rm = true then
            up (fun i A => fun a b => if a = i ∧ b ≤ i then
              put add (A i b) (α * ∑ l ∈ Finset.range kx, x i l * y l b) else A a b) N 0 A
          else
            up (fun j A => fun a b => if b = j ∧ j ≤ a ∧ a < N then
              put add (A a j) (α * ∑ l ∈ Finset.range kx, x a l * y l j) else A a b) N 0 A) := by
          rw [updated_put]
          intro i j
          cases rm with
          | true =>
            rw [if_pos rfl]
            refine (rows_loop add (PK kx α x y) A N 0 _ (fun _ _ _ _ => rfl) i j).trans ?_
            by_cases hc : j ≤ i ∧ i < N
            · rw [if_pos hc, if_pos (by omega)]
            · rw [if_neg hc, if_neg (by omega)]
          | false =>
            rw [if_neg (by decide)]
            exact cols_loop add (PK kx α x y) A N _ (fun _ _ _ _ => rfl) i j
        revert hu
        generalize (if rm = true then _ else _ : Nat → Nat → K) = B
        intro hu
        rw [updated_put] at hu ⊢
        intro i j
        cases ha with
        | false => rw [if_neg (by decide), hu i j]; simp only [RP, Bool.false_eq_true, false_and, if_false]
        | true =>
          rw [if_pos rfl]
          unfold realDiag
          by_cases hd : i = j ∧ i < N
          · obtain ⟨rfl, hi⟩ := hd
            rw [if_pos ⟨rfl, hi⟩, hu i i, if_pos ⟨le_rfl, hi⟩, if_pos ⟨le_rfl, hi⟩, put_re (fun ea => hh rfl ea i hi)]
            unfold RP
            rw [if_pos ⟨rfl, rfl⟩]
          · rw [if_neg hd, hu i j]
            by_cases hc : j ≤ i ∧ i < N
            · rw [if_pos hc, if_pos hc, RP_off (fun h => hd ⟨h, hc.2⟩)]
            · rw [if_neg hc, if_neg hc]
    · rw [if_neg hb]
      obtain ⟨hk1, hk2⟩ := Tri.splitAt_spec nb N hnb (by omega)
      generalize hk : splitAt nb N = k at hk1 hk2
      simp only [hk]
      have e1 := ih k x y A (by omega) (fun e ea i hi => hh e ea i (by omega))
      generalize symMulRec nb nb2 rm ha add kx α fuel k x y A = A1 at e1
      rw [updated_put] at e1 ⊢
      generalize hA2 : multBlock add α k (N-k) k kx (fun i l => x (k+i) l) y A1 = A2
      have e2 : ∀ i j, A2 i j = if k ≤ i ∧ i < N ∧ j < k then
          put add (A i j) (RP ha (PK kx α x y) i j) else A1 i j := by
        intro i j
        rw [← hA2]
        unfold multBlock
        by_cases hc : k ≤ i ∧ i < N ∧ j < k
        · rw [if_pos hc, if_pos (by omega), e1 i j, if_neg (by omega), RP_off (by omega)]
          simp only [PK]
          rw [show k + (i - k) = i by omega]
        · rw [if_neg hc, if_neg (by omega)]
      have e3 := ih (N-k) (fun i l => x (k+i) l) (fun l j => y l (k+j)) (Tri.sub A2 k k) (by omega)
        (fun e ea i hi => by
          simp only [Tri.sub]
          rw [e2, if_neg (by omega), e1, if_neg (by omega)]
          exact hh e ea _ (by omega))
      rw [updated_put] at e3
      intro i j
      simp only [Tri.paste]
      by_cases hc : k ≤ i ∧ i < k + (N-k) ∧ k ≤ j ∧ j < k + (N-k)
      · have ho : A2 i j = A i j := by rw [e2 i j, if_neg (by omega), e1 i j, if_neg (by omega)]
        rw [if_pos hc, e3 (i-k) (j-k)]
        simp only [Tri.sub]
        rw [show k + (i - k) = i by omega, show k + (j - k) = j by omega, ho]
        have hs : RP ha (PK kx α (fun i l => x (k+i) l) (fun l j => y l (k+j))) (i-k) (j-k) = RP ha (PK kx α x y) i j := by
          refine RP_congr ?_ (by omega)
          simp only [PK]
          rw [show k + (i - k) = i by omega, show k + (j - k) = j by omega]
        rw [hs]
        by_cases hd : j ≤ i ∧ i < N
        · rw [if_pos (by omega), if_pos hd]
        · rw [if_neg (by omega), if_neg hd]
      · rw [if_neg hc, e2 i j]
        by_cases hd : k ≤ i ∧ i < N ∧ j < k
        · rw [if_pos hd, if_pos (by omega)]
        · rw [if_neg hd, e1 i j]
          by_cases he : j ≤ i ∧ i < k
          · rw [if_pos he, if_pos (by omega)]
          · rw [if_neg he, if_neg (by omega)]

/-! ### Operands -/

theorem rd_congr (s : Src K) {A A' : Nat → Nat → K} {i j : Nat} (h1 : A' i j = A i j) (h2 : A' j i = A j i) : s.rd A' i j = s.rd A i j := by
  cases s with
  | ext f => rfl
  | own tr c => cases tr <;> simp only [Src.rd, h1, h2, if_true, Bool.false_eq_true, if_false]

theorem rd_sub (s : Src K) (A : Nat → Nat → K) (k i j : Nat) : (s.sub k).rd (Tri.sub A k k) i j = s.rd A (k+i) (k+j) := by
  cases s with
  | ext f => rfl
  | own tr c => rfl

theorem PK_congr {kx : Nat} {α : K} {x x' y y' : Nat → Nat → K} {i j i' j' : Nat} (h1 : ∀ l, l < kx → x i l = x' i' l) (h2 : ∀ l, l < kx → y l j = y' l j') :
    PK kx α x y i j = PK kx α x' y' i' j' := by
  unfold PK
  congr 1
  exact Finset.sum_congr rfl fun l hl => by rw [h1 l (Finset.mem_range.mp hl), h2 l (Finset.mem_range.mp hl)]

theorem PK_split {k N : Nat} (hk : k ≤ N) (α : K) (x y : Nat → Nat → K) (i j : Nat) :
    PK N α x y i j = PK k α x y i j + PK (N-k) α (fun i l => x i (k+l)) (fun l j => y (k+l) j) i j := by
  unfold PK
  rw [← mul_add]
  conv_lhs => rw [show N = k + (N-k) by omega, Finset.sum_range_add]

theorem inPlaceSym_spec (nb nb2 : Nat) (hnb : 0 < nb) (hnb2 : 0 < nb2) (rm ha add : Bool) (α : K) :
    ∀ (fuel N : Nat) (sx sy : Src K) (A : Nat → Nat → K), N < fuel → 0 < N → (ha = true → add = true → RealDiag N A) →
      Updated add N (RP ha (PK N α (sx.rd A) (sy.rd A))) A (inPlaceSym nb nb2 rm ha add α fuel N sx sy A) := by
  intro fuel
  induction fuel with
  | zero => intro N sx sy A h; omega
  | succ fuel ih =>
    intro N sx sy A hf hN hh
    rw [inPlaceSym]
    by_cases hN1 : N = 1
    · rw [if_pos hN1]
      subst hN1
      dsimp only
      rw [updated_put]
      intro i j
      by_cases hij : i = 0 ∧ j = 0
      · obtain ⟨rfl, rfl⟩ := hij
        rw [setE_self, if_pos (show 0 ≤ 0 ∧ 0 < 1 by omega)]
        unfold RP PK
        simp only [and_true, Finset.sum_range_one]
      · rw [setE_ne _ _ _ _ hij, if_neg (by omega)]
    rw [if_neg hN1]
    dsimp only
    generalize hk : N/2 = k
    have hk1 : 0 < k := by omega
    have hk2 : k < N := by omega
    have e1 := ih (N-k) (sx.sub k) (sy.sub k) (Tri.sub A k k) (by omega) (by omega) (fun e ea i hi => hh e ea (k+i) (by omega))
    generalize inPlaceSym nb nb2 rm ha add α fuel (N-k) (sx.sub k) (sy.sub k) (Tri.sub A k k) = B1 at e1
    rw [updated_put] at e1
    -- the product `x11*y11`, in the coordinates of `A`
    let P11 : Nat → Nat → K := PK (N-k) α (fun i l => sx.rd A i (k+l)) (fun l j => sy.rd A (k+l) j)
    have g1 : ∀ i j, Tri.paste A k k (N-k) (N-k) B1 i j = if k ≤ j ∧ j ≤ i ∧ i < N then put add (A i j) (RP ha P11 i j) else A i j := by
      intro i j
      unfold Tri.paste
      by_cases hc : k ≤ i ∧ i < k + (N-k) ∧ k ≤ j ∧ j < k + (N-k)
      · rw [if_pos hc, e1]
        simp only [Tri.sub]
        rw [show k + (i - k) = i by omega, show k + (j - k) = j by omega]
        by_cases hd : k ≤ j ∧ j ≤ i ∧ i < N
        · rw [if_pos (by omega), if_pos hd]
          congr 1
          refine RP_congr (PK_congr (fun l _ => ?_) (fun l _ => ?_)) (by omega)
          · have := rd_sub sx A k (i-k) l
            rw [show k + (i - k) = i by omega] at this
            exact this
          · have := rd_sub sy A k l (j-k)
            rw [show k + (j - k) = j by omega] at this
            exact this
        · rw [if_neg (by omega), if_neg hd]
      · rw [if_neg hc, if_neg (by omega)]
    generalize Tri.paste A k k (N-k) (N-k) B1 = A1 at g1
    have e2 := symMulRec_gen nb nb2 hnb hnb2 rm ha true k α (N-k+1) (N-k) (fun i l => sx.rd A1 (k+i) l)
        (fun l j => sy.rd A1 l (k+j)) (Tri.sub A1 k k) (by omega) (fun e _ i hi => by
          simp only [Tri.sub]
          rw [g1, if_pos (by omega)]
          subst e
          exact put_real (fun ea => hh rfl ea _ (by omega)) (RP_im _))
    generalize symMulRec nb nb2 rm ha true k α (N-k+1) (N-k) (fun i l => sx.rd A1 (k+i) l) (fun l j => sy.rd A1 l (k+j)) (Tri.sub A1 k k) = B2 at e2
    rw [updated_put] at e2
    let P : Nat → Nat → K := PK N α (sx.rd A) (sy.rd A)
    have hP : ∀ i j, P i j = PK k α (sx.rd A) (sy.rd A) i j + P11 i j := fun i j => PK_split (by omega) α _ _ i j
    have put2 : ∀ (a b c : K), put true (put add a b) c = put add a (b + c) := by
      intro a b c
      cases add
      · rfl
      · exact add_assoc a b c
    have g2 : ∀ i j, Tri.paste A1 k k (N-k) (N-k) B2 i j = if k ≤ j ∧ j ≤ i ∧ i < N then put add (A i j) (RP ha P i j) else A i j := by
      intro i j
      unfold Tri.paste
      by_cases hc : k ≤ i ∧ i < k + (N-k) ∧ k ≤ j ∧ j < k + (N-k)
      · rw [if_pos hc, e2]
        simp only [Tri.sub]
        rw [show k + (i - k) = i by omega, show k + (j - k) = j by omega, g1]
        by_cases hd : k ≤ j ∧ j ≤ i ∧ i < N
        · rw [if_pos (by omega), if_pos hd, if_pos hd, put2]
          have : RP ha (PK k α (fun i l => sx.rd A1 (k+i) l) fun l j => sy.rd A1 l (k+j)) (i-k) (j-k) = RP ha (PK k α (sx.rd A) (sy.rd A)) i j := by
            refine RP_congr (PK_congr (fun l hl => ?_) (fun l hl => ?_)) (by omega)
            · rw [show k + (i - k) = i by omega]
              exact rd_congr _ (by rw [g1, if_neg (by omega)]) (by rw [g1, if_neg (by omega)])
            · rw [show k + (j - k) = j by omega]
              exact rd_congr _ (by rw [g1, if_neg (by omega)]) (by rw [g1, if_neg (by omega)])
          rw [this, RP_add]
          congr 1
          exact RP_congr (by rw [hP, add_comm]) Iff.rfl
        · rw [if_neg (by omega), if_neg hd, if_neg hd]
      · rw [if_neg hc, g1, if_neg (by omega), if_neg (by omega)]
    generalize Tri.paste A1 k k (N-k) (N-k) B2 = A2 at g2
    have e3 := ih k sx sy A2 (by omega) hk1 (fun e ea i hi => by rw [g2, if_neg (by omega)]; exact hh e ea i (by omega))
    generalize inPlaceSym nb nb2 rm ha add α fuel k sx sy A2 = A3 at e3
    rw [updated_put] at e3
    have g3 : ∀ i j, i < k → j < k → RP ha (PK k α (sx.rd A2) (sy.rd A2)) i j = RP ha (PK k α (sx.rd A) (sy.rd A)) i j := by
      intro i j hi hj
      refine RP_congr (PK_congr (fun l hl => ?_) (fun l hl => ?_)) Iff.rfl
      · exact rd_congr _ (by rw [g2, if_neg (by omega)]) (by rw [g2, if_neg (by omega)])
      · exact rd_congr _ (by rw [g2, if_neg (by omega)]) (by rw [g2, if_neg (by omega)])
    have e4 := symMulRec_gen nb nb2 hnb hnb2 rm ha true (N-k) α (k+1) k (fun i l => sx.rd A3 i (k+l)) (fun l j => sy.rd A3 (k+l) j) A3 (by omega)
      (fun e _ i hi => by
        rw [e3, if_pos ⟨le_rfl, hi⟩, g2, if_neg (by omega)]
        subst e
        exact put_real (fun ea => hh rfl ea _ (by omega)) (RP_im _))
    generalize symMulRec nb nb2 rm ha true (N-k) α (k+1) k (fun i l => sx.rd A3 i (k+l)) (fun l j => sy.rd A3 (k+l) j) A3 = A4 at e4
    rw [updated_put] at e4 ⊢
    intro i j
    by_cases hc : k ≤ i ∧ i < N ∧ j < k
    · rw [if_pos hc, if_pos (by omega), e4, if_neg (by omega), e3, if_neg (by omega), g2, if_neg (by omega), RP_off (by omega)]
      congr 1
      change _ = P i j
      rw [hP, show k + (i - k) = i by omega, mul_add]
      rfl
    · rw [if_neg hc, e4]
      by_cases hd : j ≤ i ∧ i < k
      · rw [if_pos hd, if_pos (by omega), e3, if_pos hd, put2, g2, if_neg (by omega), g3 i j (by omega) (by omega)]
        have : RP ha (PK (N-k) α (fun i l => sx.rd A3 i (k+l)) fun l j => sy.rd A3 (k+l) j) i j = RP ha P11 i j := by
          have f : ∀ a b, (a < k ∧ k ≤ b) ∨ (b < k ∧ k ≤ a) → A3 a b = A a b := fun a b h => by
            rw [e3, if_neg (by omega), g2, if_neg (by omega)]
          refine RP_congr (PK_congr (fun l hl => ?_) (fun l hl => ?_)) Iff.rfl
          · exact rd_congr _ (f _ _ (by omega)) (f _ _ (by omega))
          · exact rd_congr _ (f _ _ (by omega)) (f _ _ (by omega))
        rw [this, RP_add]
        congr 1
        exact RP_congr (hP i j).symm Iff.rfl
      · rw [if_neg hd, e3, if_neg hd, g2]
        by_cases he : j ≤ i ∧ i < N
        · rw [if_pos (by omega), if_pos he]
        · rw [if_neg (by omega), if_neg he]

/-! ### `SymMultMM` -/

/-- `x` has more columns than rows: what the code does.  Without `add` the second step overwrites the result of the first. -/
theorem doSymAlias_wide (nb nb2 : Nat) (hnb : 0 < nb) (hnb2 : 0 < nb2) (rm ha add c1 c2 : Bool) (N kx : Nat) (hN : 0 < N) (hk : N < kx) (α : K)
    (sx sy : Src K) (A : Nat → Nat → K) (hh : ha = true → add = true → RealDiag N A) :
    Updated add N (RP ha fun i j => (if add then PK N α (sx.rd A) (sy.rd A) i j else 0) +
      PK (kx-N) α (fun i l => sx.rd A i (N+l)) (fun l j => sy.rd A (N+l) j) i j) A (doSymAlias nb nb2 rm ha add c1 c2 N kx α sx sy A) := by
  unfold doSymAlias
  rw [if_pos (by omega)]
  dsimp only
  rw [if_pos hk]
  have e1 := inPlaceSym_spec nb nb2 hnb hnb2 rm ha add α (N+1) N sx sy A (by omega) hN hh
  generalize inPlaceSym nb nb2 rm ha add α (N+1) N sx sy A = A1 at e1
  rw [updated_put] at e1
  have e2 := symMulRec_gen nb nb2 hnb hnb2 rm ha add (kx-N) α (N+1) N (fun i l => sx.rd A1 i (N+l)) (fun l j => sy.rd A1 (N+l) j) A1 (by omega)
    (fun e ea i hi => by
      rw [e1, if_pos ⟨le_rfl, hi⟩]
      subst e
      exact put_real (fun ea => hh rfl ea _ hi) (RP_im _))
  rw [updated_put] at e2 ⊢
  intro i j
  rw [e2]
  by_cases hc : j ≤ i ∧ i < N
  · rw [if_pos hc, if_pos hc]
    have : RP ha (PK (kx-N) α (fun i l => sx.rd A1 i (N+l)) fun l j => sy.rd A1 (N+l) j) i j =
        RP ha (PK (kx-N) α (fun i l => sx.rd A i (N+l)) fun l j => sy.rd A (N+l) j) i j := by
      refine RP_congr (PK_congr (fun l hl => ?_) (fun l hl => ?_)) Iff.rfl
      · exact rd_congr _ (by rw [e1, if_neg (by omega)]) (by rw [e1, if_neg (by omega)])
      · exact rd_congr _ (by rw [e1, if_neg (by omega)]) (by rw [e1, if_neg (by omega)])
    rw [this, e1, if_pos hc]
    cases add with
    | false =>
      rw [put, if_neg (by decide), put, if_neg (by decide)]
      exact RP_congr (by simp only [Bool.false_eq_true, if_false, zero_add]) Iff.rfl
    | true =>
      show A i j + RP ha _ i j + RP ha _ i j = A i j + RP ha _ i j
      rw [add_assoc, RP_add]
      rfl
  · rw [if_neg hc, if_neg hc, e1, if_neg hc]

/-- **C73** `SymMultMM<add>(alpha,x,y,A)` when `x` or `y` is stored in the memory of `A`: the stored triangle becomes `(A +) alpha*x*y`,
computed from the old elements; nothing else changes.  Excluded, where the code is wrong: assigning with more columns of `x` than rows
(`symMulAlias_wide_violated`), and fewer columns than rows with both `x` and `y` stored in the other order than `A`
(`symMulAlias_tall_violated`); assigning with `alpha == 0`, and no columns (the recursion does not end). -/
theorem symMulAlias_partial (nb nb2 : Nat) (hnb : 0 < nb) (hnb2 : 0 < nb2) (rm ha add c1 c2 : Bool) (N kx : Nat) (α : K)
    (sx sy : Src K) (A : Nat → Nat → K) (h0 : add = false → α ≠ 0) (hkx : 0 < kx) (hwide : N < kx → add = true)
    (htall : kx < N → ¬ (c1 = true ∧ c2 = false))
    (hh : ha = true → (∀ i, i < N → RCLike.im (α * ∑ l ∈ Finset.range kx, sx.rd A i l * sy.rd A l i) = 0) ∧ (add = true → RealDiag N A)) :
    Updated add N (fun i j => α * ∑ l ∈ Finset.range kx, sx.rd A i l * sy.rd A l j) A (symMulAlias nb nb2 rm ha add c1 c2 N kx α sx sy A) := by
  have hfin : Updated add N (RP ha (PK kx α (sx.rd A) (sy.rd A))) A (symMulAlias nb nb2 rm ha add c1 c2 N kx α sx sy A) →
      Updated add N (fun i j => α * ∑ l ∈ Finset.range kx, sx.rd A i l * sy.rd A l j) A (symMulAlias nb nb2 rm ha add c1 c2 N kx α sx sy A) := by
    intro h i j
    rw [h i j]
    by_cases hc : j ≤ i ∧ i < N
    · rw [if_pos hc, if_pos hc, RP_real (N := N) (P := PK kx α (sx.rd A) (sy.rd A)) (fun e => (hh e).1) hc.2]
      rfl
    · rw [if_neg hc, if_neg hc]
  unfold symMulAlias at hfin ⊢
  by_cases h : α ≠ 0 ∧ N > 0
  swap
  · rw [if_neg h]
    intro i j
    by_cases hN : N > 0
    · have hα : α = 0 := by by_contra hne; exact h ⟨hne, hN⟩
      cases add with
      | false => exact absurd hα (h0 rfl)
      | true => simp [hα]
    · rw [if_neg (by omega)]
  rw [if_pos h] at hfin ⊢
  apply hfin
  have hre : ha = true → add = true → RealDiag N A := fun e ea => (hh e).2 ea
  rcases lt_trichotomy kx N with hlt | heq | hgt
  · unfold doSymAlias
    rw [if_neg (by omega)]
    dsimp only
    have e1 := symMulRec_gen nb nb2 hnb hnb2 rm ha add kx α (N-kx+1) (N-kx) (fun i l => sx.rd A (kx+i) l) (fun l j => sy.rd A l (kx+j)) (Tri.sub A kx kx)
      (by omega) (fun e ea i hi => hre e ea _ (by omega))
    generalize symMulRec nb nb2 rm ha add kx α (N-kx+1) (N-kx) (fun i l => sx.rd A (kx+i) l) (fun l j => sy.rd A l (kx+j)) (Tri.sub A kx kx) = B1 at e1
    rw [updated_put] at e1
    have g1 : ∀ i j, Tri.paste A kx kx (N-kx) (N-kx) B1 i j = if kx ≤ j ∧ j ≤ i ∧ i < N then put add (A i j) (RP ha (PK kx α (sx.rd A) (sy.rd A)) i j) else A i j := by
      intro i j
      unfold Tri.paste
      by_cases hc : kx ≤ i ∧ i < kx + (N-kx) ∧ kx ≤ j ∧ j < kx + (N-kx)
      · rw [if_pos hc, e1]
        simp only [Tri.sub]
        rw [show kx + (i - kx) = i by omega, show kx + (j - kx) = j by omega]
        by_cases hd : kx ≤ j ∧ j ≤ i ∧ i < N
        · rw [if_pos (by omega), if_pos hd]
          congr 1
          refine RP_congr (PK_congr (fun l _ => ?_) (fun l _ => ?_)) (by omega)
          · rw [show kx + (i - kx) = i by omega]
          · rw [show kx + (j - kx) = j by omega]
        · rw [if_neg (by omega), if_neg hd]
      · rw [if_neg hc, if_neg (by omega)]
    generalize Tri.paste A kx kx (N-kx) (N-kx) B1 = A1 at g1
    have r1 : ∀ (s : Src K) i j, (i < kx ∨ j < kx) → s.rd A1 i j = s.rd A i j := fun s i j h =>
      rd_congr s (by rw [g1, if_neg (by omega)]) (by rw [g1, if_neg (by omega)])
    have hmb : ∀ i j, multBlock add α kx (N-kx) kx kx (fun i l => sx.rd A1 (kx+i) l) (fun l j => sy.rd A1 l j) A1 i j =
        if kx ≤ i ∧ i < N ∧ j < kx then put add (A i j) (PK kx α (sx.rd A) (sy.rd A) i j) else A1 i j := by
      intro i j
      unfold multBlock
      by_cases hc : kx ≤ i ∧ i < N ∧ j < kx
      · rw [if_pos (by omega), if_pos hc, g1, if_neg (by omega)]
        congr 1
        refine PK_congr (fun l hl => ?_) (fun l hl => ?_)
        · rw [show kx + (i - kx) = i by omega]; exact r1 _ _ _ (by omega)
        · exact r1 _ _ _ (by omega)
      · rw [if_neg (by omega), if_neg hc]
    have key : ∀ A2 : Nat → Nat → K, (∀ i j, A2 i j = if kx ≤ i ∧ i < N ∧ j < kx then put add (A i j) (PK kx α (sx.rd A) (sy.rd A) i j) else A1 i j) →
        Updated add N (RP ha (PK kx α (sx.rd A) (sy.rd A))) A (inPlaceSym nb nb2 rm ha add α (kx+1) kx sx sy A2) := by
      intro A2 g2
      have e3 := inPlaceSym_spec nb nb2 hnb hnb2 rm ha add α (kx+1) kx sx sy A2 (by omega) hkx (fun e ea i hi => by
        rw [g2, if_neg (by omega), g1, if_neg (by omega)]; exact hre e ea _ (by omega))
      rw [updated_put] at e3 ⊢
      intro i j
      rw [e3]
      by_cases hc : j ≤ i ∧ i < kx
      · rw [if_pos hc, if_pos (by omega), g2, if_neg (by omega), g1, if_neg (by omega)]
        congr 1
        have f : ∀ a b, a < kx → b < kx → A2 a b = A a b := fun a b ha hb => by rw [g2, if_neg (by omega), g1, if_neg (by omega)]
        refine RP_congr (PK_congr (fun l hl => ?_) (fun l hl => ?_)) Iff.rfl
        · exact rd_congr _ (f _ _ (by omega) (by omega)) (f _ _ (by omega) (by omega))
        · exact rd_congr _ (f _ _ (by omega) (by omega)) (f _ _ (by omega) (by omega))
      · rw [if_neg hc, g2]
        by_cases hd : kx ≤ i ∧ i < N ∧ j < kx
        · rw [if_pos hd, if_pos (by omega), RP_off (by omega)]
        · rw [if_neg hd, g1]
          by_cases he : j ≤ i ∧ i < N
          · rw [if_pos (by omega), if_pos he]
          · rw [if_neg (by omega), if_neg he]
    have ht := htall hlt
    cases c1 with
    | false => simp only [Bool.false_eq_true, if_false]; exact key _ hmb
    | true =>
      cases c2 with
      | false => exact absurd ⟨rfl, rfl⟩ ht
      | true =>
        simp only [if_true]
        refine key _ fun i j => ?_
        by_cases hc : kx ≤ i ∧ i < N ∧ j < kx
        · rw [if_pos hc, if_pos hc, g1, if_neg (by omega)]
          congr 1
          refine PK_congr (x := fun a l => sx.rd A1 (kx+a) l) (y := fun l b => sy.rd A1 l b) (fun l hl => ?_) (fun l hl => ?_)
          · rw [show kx + (i - kx) = i by omega]; exact r1 _ _ _ (by omega)
          · exact r1 _ _ _ (by omega)
        · rw [if_neg hc, if_neg hc]
  · subst heq
    unfold doSymAlias
    rw [if_pos le_rfl]
    dsimp only
    rw [if_neg (by omega)]
    exact inPlaceSym_spec nb nb2 hnb hnb2 rm ha add α (kx+1) kx sx sy A (by omega) hkx hre
  · have h1 := doSymAlias_wide nb nb2 hnb hnb2 rm ha add c1 c2 N kx h.2 hgt α sx sy A hre
    intro i j
    rw [h1 i j, hwide hgt]
    by_cases hc : j ≤ i ∧ i < N
    · rw [if_pos hc, if_pos hc]
      simp only [if_true]
      congr 1
      exact RP_congr (PK_split (by omega) α _ _ i j).symm Iff.rfl
    · rw [if_neg hc, if_neg hc]

/-- The code is wrong when `x` has more columns than rows and the product is assigned: only the last `kx-N` columns count. -/
theorem symMulAlias_wide_violated (nb nb2 : Nat) (hnb : 0 < nb) (hnb2 : 0 < nb2) (rm c1 c2 : Bool) (N kx : Nat) (hN : 0 < N) (hk : N < kx) (α : K)
    (hα : α ≠ 0) (sx sy : Src K) (A : Nat → Nat → K) :
    Updated false N (fun i j => α * ∑ l ∈ Finset.range (kx-N), sx.rd A i (N+l) * sy.rd A (N+l) j) A
      (symMulAlias nb nb2 rm false false c1 c2 N kx α sx sy A) := by
  have h1 := doSymAlias_wide nb nb2 hnb hnb2 rm false false c1 c2 N kx hN hk α sx sy A (fun h => absurd h (by decide))
  unfold symMulAlias
  rw [if_pos ⟨hα, hN⟩]
  intro i j
  rw [h1 i j]
  simp only [RP, PK, Bool.false_eq_true, false_and, if_false, zero_add]

/-- The code is wrong when `x` has fewer columns than rows and both operands are stored in the other order than `A`: with
`m = [[1,1],[1,5]]`, `x` the first row of `m` transposed and `y` its first column transposed, all elements of `x*y` are 1, but
`A(1,0)` becomes 2. -/
theorem symMulAlias_tall_violated (rm : Bool) : ∃ A : Nat → Nat → ℝ,
    (∀ i j, i < 2 → j < 2 → ∑ l ∈ Finset.range 1, (Src.own true false).rd A i l * (Src.own true false).rd A l j = 1) ∧
    symMulAlias 64 32 rm false false true false 2 1 1 (.own true false) (.own true false) A 1 0 = 2 := by
  refine ⟨fun i j => if i = 1 ∧ j = 1 then 5 else 1, ?_, ?_⟩
  · intro i j hi hj
    simp [Src.rd, cj]
  · unfold symMulAlias doSymAlias
    rw [if_pos (by norm_num), if_neg (by norm_num)]
    simp only [if_true, Bool.false_eq_true, if_false]
    have := inPlaceSym_spec 64 32 (by norm_num) (by norm_num) rm false false (1:ℝ) 2 1 (.own true false) (.own true false)
    rw [this _ (by norm_num) (by norm_num) (by simp) 1 0, if_neg (by omega)]
    simp only [multBlock, put, Tri.paste, symMulRec, Src.rd, cj, Tri.sub]
    norm_num

/-- The hypotheses can be met: a Hermitian matrix stored in the lower triangle of `m` receives `m * m.adjoint()`. -/
example (N : Nat) (hN : 0 < N) (m : Nat → Nat → ℂ) :
    Updated false N (fun i j => 1 * ∑ l ∈ Finset.range N, m i l * star (m j l)) m
      (symMulAlias 64 32 true true false true true N N 1 (.own false false) (.own true true) m) :=
  symMulAlias_partial 64 32 (by decide) (by decide) true true false true true N N 1 (.own false false) (.own true true) m (fun _ => one_ne_zero) hN
    (fun h => absurd h (lt_irrefl N)) (fun h => absurd h (lt_irrefl N)) fun _ => ⟨fun i _ => by
      simp only [Src.rd, cj, Bool.false_eq_true, if_false, if_true, one_mul, map_sum]
      refine Finset.sum_eq_zero fun l _ => ?_
      rw [← starRingEnd_apply, RCLike.mul_conj]
      norm_cast, fun h => by cases h⟩

end
end TMV.SymRK
