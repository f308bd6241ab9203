import Verif.Props.BandCHInverse

/-! C98: the `HermBandCHDiv` divider. -/
namespace TMV.BandCH
open Tri (Ord splitAt sub paste)
open CH (setRe setRe_real UBlk)
open SymRK (RealDiag normSq_eq re_of_real)
open LDL (lead)
noncomputable section
open Classical

variable {K : Type} [RCLike K]

/-- `A` (its leading `N × N` part) is a Hermitian band matrix with `lo` sub- and superdiagonals. -/
def HermBand (N lo : Nat) (A : Nat → Nat → K) : Prop :=
  (∀ i j, i < N → j < N → A i j = star (A j i)) ∧ ∀ i j, i < N → j < N → j + lo < i → A i j = 0

/-- What the divider holds: the Cholesky factor, the LDL decomposition of a tridiagonal matrix, or a diagonal matrix. -/
def Holds (N lo : Nat) (A LL : Nat → Nat → K) : Prop :=
  (lo > 1 ∧ CholeskyOf N A (bandMat lo 0 LL)) ∨
  (lo = 1 ∧ IsBiLDL true N A LL ∧ ∀ k, k < N → LL k k ≠ 0 ∧ RCLike.im (LL k k) = 0) ∨
  (lo = 0 ∧ (∀ i j, i < N → j < N → A i j = if i = j then LL i i else 0) ∧
    ∀ k, k < N → 0 < RCLike.re (LL k k) ∧ RCLike.im (LL k k) = 0)

theorem HermBand.real {N lo : Nat} {A : Nat → Nat → K} (h : HermBand N lo A) {i : Nat} (hi : i < N) : RCLike.im (A i i) = 0 :=
  RCLike.conj_eq_iff_im.mp (h.1 i i hi hi).symm

theorem HermBand.zero {N lo : Nat} {A : Nat → Nat → K} (h : HermBand N lo A) {i j : Nat} (hi : i < N) (hj : j < N)
    (hij : ¬ (i ≤ j + lo ∧ j ≤ i + lo)) : A i j = 0 := by
  by_cases hc : j + lo < i
  · exact h.2 i j hi hj hc
  · rw [h.1 i j hi hj, h.2 j i hj hi (by omega), star_zero]

/-- The stored lower band gives the matrix back. -/
theorem HermBand.stored {N lo : Nat} {A : Nat → Nat → K} (h : HermBand N lo A) {L : Nat → Nat → K}
    (hL : ∀ i j, i < N → j ≤ i → i ≤ j + lo → L i j = A i j) {i j : Nat} (hi : i < N) (hj : j < N) :
    hermMat (bandMat lo 0 L) i j = A i j := by
  unfold hermMat
  by_cases hji : j ≤ i
  · rw [if_pos hji]
    by_cases hb : i ≤ j + lo
    · rw [bm_in hji hb, hL i j hi hji hb]
    · rw [bm_out (by omega), h.2 i j hi hj (by omega)]
  · rw [if_neg hji]
    by_cases hb : j ≤ i + lo
    · rw [bm_in (by omega) hb, hL j i hj (by omega) hb, ← h.1 i j hi hj]
    · rw [bm_out (by omega), star_zero, h.zero hi hj (by omega)]

theorem posDef_congr {N : Nat} {A B : Nat → Nat → K} (h : ∀ i j, i < N → j < N → A i j = B i j) : PosDef N A ↔ PosDef N B := by
  have : ∀ x, quad N A x = quad N B x := fun x => by
    unfold quad
    refine Finset.sum_congr rfl fun i hi => Finset.sum_congr rfl fun j hj => ?_
    rw [h i j (Finset.mem_range.mp hi) (Finset.mem_range.mp hj)]
  unfold PosDef
  simp only [this]

theorem chol_congr {N : Nat} {A B L : Nat → Nat → K} (h : ∀ i j, i < N → j < N → A i j = B i j) (hA : CholeskyOf N A L) : CholeskyOf N B L :=
  ⟨fun i j hi hj => by rw [hA.1 i j hi hj, h i j hi hj], hA.2⟩

/-- A positive definite matrix has no zero leading minor. -/
theorem minor_ne {N k : Nat} (hk : k ≤ N) {A : Nat → Nat → K} (hp : PosDef N A) : (Matrix.of fun i j : Fin k => A i j).det ≠ 0 := by
  intro h0
  obtain ⟨v, hv, e⟩ := Matrix.exists_mulVec_eq_zero_iff.mpr h0
  obtain ⟨i, hi⟩ := Function.ne_iff.mp hv
  let x : Nat → K := fun n => if h : n < k then v ⟨n, h⟩ else 0
  have hx : ∀ j : Fin k, x j = v j := fun j => by simp [x]
  have h1 := hp x ⟨i, by omega, by rw [hx]; exact hi⟩
  have h2 : quad N A x = 0 := by
    unfold quad
    refine Finset.sum_eq_zero fun a _ => ?_
    by_cases ha : a < k
    · have e' := congrFun e ⟨a, ha⟩
      simp only [Matrix.mulVec, dotProduct, Matrix.of_apply, Pi.zero_apply] at e'
      have : ∑ j ∈ Finset.range N, star (x a) * A a j * x j = star (x a) * ∑ j ∈ Finset.range k, A a j * x j := by
        rw [Finset.mul_sum, ← Finset.sum_subset (s₁ := Finset.range k)]
        · exact Finset.sum_congr rfl fun _ _ => by ring
        · intro b hb
          rw [Finset.mem_range] at *
          omega
        · intro b _ hb
          rw [Finset.mem_range] at hb
          simp [x, hb]
      rw [this, Finset.sum_range]
      simp only [hx]
      rw [e', mul_zero]
    · refine Finset.sum_eq_zero fun b _ => ?_
      simp [x, ha]
  rw [h2, map_zero] at h1
  exact lt_irrefl _ h1

theorem diag_posDef {N : Nat} {A : Nat → Nat → K} (h : ∀ i j, i < N → j < N → i ≠ j → A i j = 0) :
    PosDef N A ↔ ∀ i, i < N → 0 < RCLike.re (A i i) := by
  have hq : ∀ x : Nat → K, quad N A x = ∑ i ∈ Finset.range N, star (x i) * A i i * x i := by
    intro x
    unfold quad
    refine Finset.sum_congr rfl fun i hi => ?_
    rw [Finset.sum_eq_single i]
    · intro b hb hbi
      rw [h i b (Finset.mem_range.mp hi) (Finset.mem_range.mp hb) (fun e => hbi e.symm), mul_zero, zero_mul]
    · intro hh; exact absurd hi hh
  have hr : ∀ (x z : K), RCLike.re (star x * z * x) = RCLike.normSq x * RCLike.re z := by
    intro x z
    rw [show star x * z * x = ((RCLike.normSq x : ℝ) : K) * z by rw [normSq_eq]; ring, RCLike.re_ofReal_mul]
  constructor
  · intro hp i hi
    have := hp (fun k => if k = i then 1 else 0) ⟨i, hi, by simp⟩
    rw [hq, Finset.sum_eq_single i] at this
    · simpa using this
    · intro b _ hb; simp [hb]
    · intro hh; exact absurd (Finset.mem_range.mpr hi) hh
  · rintro hd x ⟨i, hi, hx⟩
    rw [hq, map_sum]
    simp only [hr]
    refine Finset.sum_pos' (fun k hk => mul_nonneg (RCLike.normSq_nonneg _) (hd k (Finset.mem_range.mp hk)).le)
      ⟨i, Finset.mem_range.mpr hi, mul_pos ?_ (hd i hi)⟩
    exact lt_of_le_of_ne (RCLike.normSq_nonneg _) (fun e => hx (RCLike.normSq_eq_zero.mp e.symm))

/-- Common part of the constructors: what is done with the stored band. -/
theorem decomp_spec (o : Ord) (bcm : Bool) {N lo : Nat} (hlo : lo < N) {A L : Nat → Nat → K} (hA : HermBand N lo A)
    (hL : ∀ i j, i < N → j ≤ i → i ≤ j + lo → L i j = A i j) :
    let r := if lo > 1 then decompose o bcm N lo L
      else if lo = 1 then (if N > 0 then hLDL N L else some L)
      else if N = 0 ∨ ∃ i, i < N ∧ RCLike.re (A i i) ≤ 0 then none else some L
    (lo ≠ 1 → (r = none ↔ ¬ PosDef N A)) ∧
    (lo = 1 → (r = none ↔ ∃ k, 1 ≤ k ∧ k ≤ N ∧ (Matrix.of fun i j : Fin k => A i j).det = 0)) ∧
    ∀ LL, r = some LL → Holds N lo A LL := by
  intro r
  have hN : 0 < N := by omega
  have hst := fun (i j : Nat) (hi : i < N) (hj : j < N) => hA.stored hL hi hj
  have hre : ∀ i, i < N → RCLike.im (L i i) = 0 := fun i hi => by rw [hL i i hi le_rfl (by omega)]; exact hA.real hi
  by_cases h1 : lo > 1
  · have hr : r = decompose o bcm N lo L := if_pos h1
    refine ⟨fun _ => ?_, fun h => by omega, fun LL e => ?_⟩
    · rw [hr, band_ch_raises_iff o bcm N lo (Or.inr hlo) L hre, posDef_congr hst]
    · rw [hr] at e
      exact Or.inl ⟨h1, chol_congr hst (band_ch_correct o bcm N lo (Or.inr hlo) L LL hre e).1⟩
  · by_cases h2 : lo = 1
    · have hr : r = hLDL N L := by
        show (if lo > 1 then _ else _) = _
        rw [if_neg h1, if_pos h2, if_pos hN]
      subst h2
      refine ⟨fun h => absurd rfl h, fun _ => ?_, fun LL e => ?_⟩
      · rw [hr, band_ldl_raises_iff N hN L hre]
        have : ∀ k, k ≤ N → (Matrix.of fun i j : Fin k => hermMat (bandMat 1 0 L) i j) = Matrix.of fun i j : Fin k => A i j := by
          intro k hk
          ext i j
          exact hst i j (by omega) (by omega)
        constructor
        · rintro ⟨k, a, b, c⟩; exact ⟨k, a, b, by rwa [this k b] at c⟩
        · rintro ⟨k, a, b, c⟩; exact ⟨k, a, b, by rwa [this k b]⟩
      · rw [hr] at e
        obtain ⟨c1, c2, -⟩ := band_ldl_correct N hN L LL hre e
        exact Or.inr (Or.inl ⟨rfl, fun i j hi hj => by rw [c1 i j hi hj, hst i j hi hj], c2⟩)
    · have h0 : lo = 0 := by omega
      subst h0
      have hr : r = if N = 0 ∨ ∃ i, i < N ∧ RCLike.re (A i i) ≤ 0 then none else some L := by
        show (if 0 > 1 then _ else _) = _
        rw [if_neg h1, if_neg h2]
      have hz : ∀ i j, i < N → j < N → i ≠ j → A i j = 0 := fun i j hi hj hij => hA.zero hi hj (by omega)
      refine ⟨fun _ => ?_, fun h => by omega, fun LL e => ?_⟩
      · rw [hr, diag_posDef hz]
        push Not
        by_cases hc : N = 0 ∨ ∃ i, i < N ∧ RCLike.re (A i i) ≤ 0
        · rw [if_pos hc]
          exact ⟨fun _ => hc.resolve_left (by omega), fun _ => rfl⟩
        · rw [if_neg hc]
          exact ⟨fun h => (by cases h), fun h => absurd (Or.inr h) hc⟩
      · rw [hr] at e
        by_cases hc : N = 0 ∨ ∃ i, i < N ∧ RCLike.re (A i i) ≤ 0
        · rw [if_pos hc] at e; cases e
        · rw [if_neg hc] at e
          cases e
          push Not at hc
          refine Or.inr (Or.inr ⟨rfl, fun i j hi hj => ?_, fun k hk => ?_⟩)
          · by_cases hij : i = j
            · subst hij; rw [if_pos rfl, hL i i hi le_rfl (by omega)]
            · rw [if_neg hij, hz i j hi hj hij]
          · rw [hL k k hk le_rfl (by omega)]
            exact ⟨hc.2 k hk, hA.real hk⟩

/-! ### Making the divider -/

section made
variable (bcm : Bool) {N lo : Nat} (hlo : lo < N) (A g : Nat → Nat → K) (hA : HermBand N lo A)

include hlo hA

theorem make_holds : ∀ LL, make bcm N lo A g = some LL → Holds N lo A LL :=
  (decomp_spec .cm bcm hlo hA (L := fun i j => if i < N ∧ j ≤ i ∧ i ≤ j + lo then A i j else g i j)
    (fun i j hi hj hb => if_pos ⟨hi, hj, hb⟩)).2.2

/-- **C98** (detection): except for a tridiagonal matrix, `NonPosDefHermBandMatrix` is thrown exactly when the matrix is not
positive definite. -/
theorem make_raises_iff (h1 : lo ≠ 1) : make bcm N lo A g = none ↔ ¬ PosDef N A :=
  (decomp_spec .cm bcm hlo hA (L := fun i j => if i < N ∧ j ≤ i ∧ i ≤ j + lo then A i j else g i j)
    (fun i j hi hj hb => if_pos ⟨hi, hj, hb⟩)).1 h1

/-- **C98** (detection): for a tridiagonal matrix it is thrown exactly when a leading minor is zero. -/
theorem make_raises_iff_tri (h1 : lo = 1) :
    make bcm N lo A g = none ↔ ∃ k, 1 ≤ k ∧ k ≤ N ∧ (Matrix.of fun i j : Fin k => A i j).det = 0 :=
  (decomp_spec .cm bcm hlo hA (L := fun i j => if i < N ∧ j ≤ i ∧ i ≤ j + lo then A i j else g i j)
    (fun i j hi hj hb => if_pos ⟨hi, hj, hb⟩)).2.1 h1

/-- **C98**: a positive definite matrix is always decomposed. -/
theorem make_posDef (hp : PosDef N A) : ∃ LL, make bcm N lo A g = some LL := by
  apply Option.ne_none_iff_exists'.mp
  intro hc
  by_cases h1 : lo = 1
  · obtain ⟨k, -, hk, h0⟩ := (make_raises_iff_tri bcm hlo A g hA h1).mp hc
    exact minor_ne hk hp h0
  · exact (make_raises_iff bcm hlo A g hA h1).mp hc hp

end made

/-! ### Using it -/

section use
variable {N lo : Nat} (hlo : lo < N) {A LL : Nat → Nat → K} (hA : HermBand N lo A) (hH : Holds N lo A LL)

theorem adj_band (lo : Nat) (L : Nat → Nat → K) (i j : Nat) : bandMat 0 lo (fun i j => star (L j i)) i j = star (bandMat lo 0 L j i) := by
  unfold bandMat
  by_cases h : i ≤ j + 0 ∧ j ≤ i + lo
  · rw [if_pos h, if_pos (by omega)]
  · rw [if_neg h, if_neg (by omega), star_zero]

/-- Two triangular solutions in a row. -/
theorem solve2 {N nc : Nat} {P Q H X Y B : Nat → Nat → K} (hP : SolM N nc P Y B) (hQ : SolM N nc Q X Y)
    (hH : ∀ i j, i < N → j < N → H i j = ∑ k ∈ Finset.range N, P i k * Q k j) : SolM N nc H X B := by
  refine ⟨fun i c hi hc => ?_, fun i c hic => by rw [hQ.2 i c hic, hP.2 i c hic]⟩
  rw [← hP.1 i c hi hc, Finset.sum_congr rfl fun j hj => by
    rw [hH i j hi (Finset.mem_range.mp hj), Finset.sum_mul], Finset.sum_comm]
  refine Finset.sum_congr rfl fun k hk => ?_
  rw [← hQ.1 k c (Finset.mem_range.mp hk) hc, Finset.mul_sum]
  exact Finset.sum_congr rfl fun j _ => by ring

theorem unit_tri (L : Nat → Nat → K) : (fun i k => if i = k ∧ true = true then (1:K) else bandMat 1 0 L i k) = unitBi L := by
  funext i k
  unfold unitBi
  by_cases h : i = k
  · rw [if_pos ⟨h, rfl⟩, if_pos h]
  · rw [if_neg (by tauto), if_neg h]
    unfold bandMat
    by_cases h2 : i = k + 1
    · rw [if_pos h2, if_pos (by omega)]
    · rw [if_neg h2, if_neg (by omega)]

theorem unit_tri_adj (L : Nat → Nat → K) :
    (fun i k => if i = k ∧ true = true then (1:K) else bandMat 0 1 (fun i j => star (L j i)) i k) = fun i k => star (unitBi L k i) := by
  funext i k
  rw [adj_band]
  have := congrFun (congrFun (unit_tri L) k) i
  by_cases h : i = k
  · subst h; rw [if_pos ⟨rfl, rfl⟩, unitBi_self, star_one]
  · rw [if_neg (by tauto), ← this, if_neg (by tauto)]

/-- The two unit triangular solves and the diagonal one in between. -/
theorem ldl_solve (hN : 1 < N) (o : Ord) (brm : Bool) (l : Diag.Lay) (g1 : Nat → K) (nc : Nat) (hL : IsBiLDL true N A LL)
    (hd : ∀ k, k < N → LL k k ≠ 0 ∧ RCLike.im (LL k k) = 0) (B : Nat → Nat → K) :
    ∃ Y Z X, BandTri.triM o brm true N 1 0 nc LL B = some Y ∧
      Diag.divM l g1 N nc ⟨fun i => ((RCLike.re (LL i i) : ℝ) : K), false, false⟩ Y = some Z ∧
      BandTri.triM (LU.Ord.tr o) brm true N 0 1 nc (fun i j => star (LL j i)) Z = some X ∧ SolM N nc A X B := by
  obtain ⟨a1, a2, -⟩ := BandTri.triM_spec o brm true N 1 0 nc (Or.inr rfl) hN (by omega) LL B
  obtain ⟨Y, eY⟩ := a2 (fun i hi => by simp)
  have hY := a1 Y eY
  obtain ⟨b1, b2⟩ := Diag.divM_spec l g1 N nc ⟨fun i => ((RCLike.re (LL i i) : ℝ) : K), false, false⟩ Y
  obtain ⟨Z, eZ⟩ : ∃ Z, Diag.divM l g1 N nc ⟨fun i => ((RCLike.re (LL i i) : ℝ) : K), false, false⟩ Y = some Z := by
    apply Option.ne_none_iff_exists'.mp
    intro hc
    obtain ⟨-, k, hk, h0⟩ := b1.mp hc
    have : ((RCLike.re (LL k k) : ℝ) : K) = 0 := h0
    rw [re_of_real (hd k hk).2] at this
    exact (hd k hk).1 this
  obtain ⟨z1, z2⟩ := b2 Z eZ
  obtain ⟨c1, c2, -⟩ := BandTri.triM_spec (LU.Ord.tr o) brm true N 0 1 nc (Or.inl rfl) (by omega) hN (fun i j => star (LL j i)) Z
  obtain ⟨X, eX⟩ := c2 (fun i hi => by simp)
  have hX := c1 X eX
  rw [unit_tri] at hY
  rw [unit_tri_adj] at hX
  refine ⟨Y, Z, X, eY, eZ, eX, solve2 (solve2 hY ⟨z1, z2⟩ (H := fun i k => unitBi LL i k * LL k k) ?_) hX ?_⟩
  · intro i j hi hj
    rw [Finset.sum_eq_single j]
    · simp only [Diag.diagMat, if_true, Diag.DV.el, cj]
      rw [if_neg (by simp), re_of_real (hd j hj).2]
    · intro b _ hb
      simp [Diag.diagMat, hb]
    · intro hh; exact absurd (Finset.mem_range.mpr hj) hh
  · intro i j hi hj
    rw [← hL i j hi hj]
    rfl

theorem chol_solve (o : Ord) (brm : Bool) (hlo : lo < N) (nc : Nat) (hL : CholeskyOf N A (bandMat lo 0 LL)) (B : Nat → Nat → K) :
    ∃ Y X, (quot o N lo 0 LL).lDiv brm N nc B = some Y ∧
      (quot (LU.Ord.tr o) N 0 lo (fun i j => star (LL j i))).lDiv brm N nc Y = some X ∧ SolM N nc A X B := by
  have hne : ∀ i, i < N → LL i i ≠ 0 := fun i hi => by rw [← bm_diag lo LL i]; exact hL.diag_ne hi
  obtain ⟨Y, eY, hY⟩ := quot_lDivL o hlo brm nc LL B hne
  obtain ⟨X, eX, hX⟩ := quot_lDivU (LU.Ord.tr o) hlo brm nc (fun i j => star (LL j i)) Y (fun i hi h0 => hne i hi (star_eq_zero.mp h0))
  refine ⟨Y, X, eY, eX, solve2 hY hX ?_⟩
  intro i j hi hj
  rw [← hL.1 i j hi hj]
  refine Finset.sum_congr rfl fun k _ => ?_
  have e : ∀ i, (if k ≤ i then bandMat lo 0 LL i k else 0) = bandMat lo 0 LL i k := fun i => by
    by_cases h : k ≤ i
    · rw [if_pos h]
    · rw [if_neg h, bm_out (by omega)]
  rw [adj_band, e, e]

include hlo hH

/-- **C98**: `m /= A` solves `A X = m`. -/
theorem lDivEq_spec (o : Ord) (brm : Bool) (l : Diag.Lay) (g1 : Nat → K) (nc : Nat) (B : Nat → Nat → K) :
    ∃ X, lDivEq o brm l g1 N lo nc LL B = some X ∧ SolM N nc A X B := by
  unfold lDivEq
  rcases hH with ⟨h1, hL⟩ | ⟨rfl, hL, hd⟩ | ⟨rfl, hL, hd⟩
  · rw [if_pos h1]
    obtain ⟨Y, X, eY, eX, hX⟩ := chol_solve o brm hlo nc hL B
    exact ⟨X, by rw [eY, Option.bind_some, eX], hX⟩
  · rw [if_neg (by omega), if_pos rfl]
    obtain ⟨Y, Z, X, eY, eZ, eX, hX⟩ := ldl_solve (A := A) hlo o brm l g1 nc hL hd B
    exact ⟨X, by rw [eY, Option.bind_some, eZ, Option.bind_some, eX], hX⟩
  · rw [if_neg (by omega), if_neg (by omega)]
    obtain ⟨b1, b2⟩ := Diag.divM_spec l g1 N nc ⟨fun i => LL i i, false, false⟩ B
    obtain ⟨X, eX⟩ : ∃ Z, Diag.divM l g1 N nc ⟨fun i => LL i i, false, false⟩ B = some Z := by
      apply Option.ne_none_iff_exists'.mp
      intro hc
      obtain ⟨-, k, hk, h0⟩ := b1.mp hc
      have h0 : LL k k = 0 := h0
      have := (hd k hk).1
      rw [h0, map_zero] at this
      exact lt_irrefl _ this
    obtain ⟨x1, x2⟩ := b2 X eX
    refine ⟨X, eX, fun i c hi hc => ?_, x2⟩
    rw [← x1 i c hi hc]
    exact Finset.sum_congr rfl fun k hk => by rw [hL i k hi (Finset.mem_range.mp hk)]; rfl

include hA in
/-- The adjoint of the solution of `A X = mᴴ` solves `X A = m`. -/
theorem adj_solve {nr : Nat} {X m : Nat → Nat → K} (h : SolM N nr A X (adj m)) :
    (∀ r j, r < nr → j < N → ∑ k ∈ Finset.range N, adj X r k * A k j = m r j) ∧ ∀ r j, ¬ (r < nr ∧ j < N) → adj X r j = m r j := by
  refine ⟨fun r j hr hj => ?_, fun r j hrj => ?_⟩
  · have := congrArg star (h.1 j r hj hr)
    rw [star_sum] at this
    rw [show m r j = star (adj m j r) from (star_star _).symm, ← this]
    refine Finset.sum_congr rfl fun k hk => ?_
    rw [star_mul', ← hA.1 k j (Finset.mem_range.mp hk) hj]
    unfold adj
    ring
  · show star (X j r) = _
    rw [h.2 j r (by tauto)]
    exact star_star _

include hA in
/-- **C98**: `m %= A` solves `X A = m`. -/
theorem rDivEq_spec (o : Ord) (bcm : Bool) (l : Diag.Lay) (g1 : Nat → K) (nr : Nat) (B : Nat → Nat → K) :
    ∃ X, rDivEq o bcm l g1 N lo nr LL B = some X ∧
      (∀ r j, r < nr → j < N → ∑ k ∈ Finset.range N, X r k * A k j = B r j) ∧ ∀ r j, ¬ (r < nr ∧ j < N) → X r j = B r j := by
  have aa : ∀ m : Nat → Nat → K, adj (adj m) = m := fun m => by funext i j; exact star_star _
  unfold rDivEq
  have hH' := hH
  rcases hH with ⟨h1, hL⟩ | ⟨rfl, hL, hd⟩ | ⟨rfl, hL, hd⟩
  · rw [if_pos h1]
    obtain ⟨Y, X, eY, eX, hX⟩ := chol_solve o bcm hlo nr hL (adj B)
    exact ⟨adj X, by rw [eY, Option.bind_some, eX, Option.map_some], adj_solve hlo hA hH' hX⟩
  · rw [if_neg (by omega), if_pos rfl]
    obtain ⟨Y, Z, X, eY, eZ, eX, hX⟩ := ldl_solve (A := A) hlo o bcm l g1 nr hL hd (adj B)
    -- the real diagonal may be divided out of the transpose as well
    have hz : ∃ Z', Diag.divM l g1 N nr ⟨fun i => ((RCLike.re (LL i i) : ℝ) : K), false, false⟩ (TriProd.tr (adj Y)) = some Z' ∧
        adj (TriProd.tr Z') = Z := by
      obtain ⟨b1, b2⟩ := Diag.divM_spec l g1 N nr ⟨fun i => ((RCLike.re (LL i i) : ℝ) : K), false, false⟩ (TriProd.tr (adj Y))
      obtain ⟨d1, d2⟩ := Diag.divM_spec l g1 N nr ⟨fun i => ((RCLike.re (LL i i) : ℝ) : K), false, false⟩ Y
      obtain ⟨Z', eZ'⟩ : ∃ Z, Diag.divM l g1 N nr ⟨fun i => ((RCLike.re (LL i i) : ℝ) : K), false, false⟩ (TriProd.tr (adj Y)) = some Z := by
        apply Option.ne_none_iff_exists'.mp
        intro hc
        rw [d1.mpr (b1.mp hc)] at eZ
        cases eZ
      refine ⟨Z', eZ', ?_⟩
      obtain ⟨p1, p2⟩ := b2 Z' eZ'
      obtain ⟨q1, q2⟩ := d2 Z eZ
      funext i j
      show star (Z' i j) = Z i j
      by_cases hij : i < N ∧ j < nr
      · have r1 := p1 i j hij.1 hij.2
        have r2 := q1 i j hij.1 hij.2
        rw [Diag.diag_sum _ _ _ _ _ hij.1] at r1 r2
        have hne : (Diag.DV.el (K := K) ⟨fun i => ((RCLike.re (LL i i) : ℝ) : K), false, false⟩ i) ≠ 0 := by
          show ((RCLike.re (LL i i) : ℝ) : K) ≠ 0
          rw [re_of_real (hd i hij.1).2]; exact (hd i hij.1).1
        apply mul_left_cancel₀ hne
        rw [r2]
        have := congrArg star r1
        rw [star_mul'] at this
        have e1 : star (Diag.DV.el (K := K) ⟨fun i => ((RCLike.re (LL i i) : ℝ) : K), false, false⟩ i) =
            Diag.DV.el (K := K) ⟨fun i => ((RCLike.re (LL i i) : ℝ) : K), false, false⟩ i := RCLike.conj_ofReal _
        have e2 : star (TriProd.tr (adj Y) i j) = Y i j := star_star _
        rw [e1, e2] at this
        exact this
      · rw [p2 i j hij, q2 i j hij]
        exact star_star _
    obtain ⟨Z', eZ', hZ'⟩ := hz
    refine ⟨adj X, ?_, adj_solve hlo hA hH' hX⟩
    rw [eY, Option.map_some, Option.bind_some, eZ', Option.map_some, Option.bind_some, hZ', eX, Option.map_some]
  · rw [if_neg (by omega), if_neg (by omega)]
    obtain ⟨b1, b2⟩ := Diag.divM_spec l g1 N nr ⟨fun i => LL i i, false, false⟩ (TriProd.tr B)
    obtain ⟨X, eX⟩ : ∃ Z, Diag.divM l g1 N nr ⟨fun i => LL i i, false, false⟩ (TriProd.tr B) = some Z := by
      apply Option.ne_none_iff_exists'.mp
      intro hc
      obtain ⟨-, k, hk, h0⟩ := b1.mp hc
      have h0 : LL k k = 0 := h0
      have := (hd k hk).1
      rw [h0, map_zero] at this
      exact lt_irrefl _ this
    obtain ⟨x1, x2⟩ := b2 X eX
    refine ⟨TriProd.tr X, by rw [eX, Option.map_some], fun r j hr hj => ?_, fun r j hrj => x2 j r (by tauto)⟩
    rw [show B r j = TriProd.tr B j r from rfl, ← x1 j r hj hr]
    refine Finset.sum_congr rfl fun k hk => ?_
    rw [hL k j (Finset.mem_range.mp hk) hj]
    show X k r * _ = (if j = k then LL j j else 0) * X k r
    by_cases hc : k = j
    · subst hc; rw [if_pos rfl, mul_comm]
    · rw [if_neg hc, if_neg (fun e => hc e.symm), mul_zero, zero_mul]

/-- The inverse in a Hermitian view: the lower triangle of `A⁻¹`, nothing else is written. -/
theorem inverse_spec (bk : UBlk) (hbk : bk.OK) (o : Ord) (xrm brm bst crm cst ac : Bool) (l : Diag.Lay) (sinv : Nat → Nat → K) :
    ∃ V, inverse bk o xrm brm bst crm cst ac l N lo LL sinv = some V ∧
      (∀ i j, i < N → j < N → ∑ k ∈ Finset.range N, A i k * hermMat V k j = if i = j then 1 else 0) ∧
      RealDiag N V ∧ ∀ i j, ¬ (j ≤ i ∧ i < N) → V i j = sinv i j := by
  unfold inverse
  rcases hH with ⟨h1, hL⟩ | ⟨rfl, hL, hd⟩ | ⟨rfl, hL, hd⟩
  · rw [if_pos h1, chInverse_eq bk hbk o xrm brm bst crm cst N (by omega)]
    exact CH.inverse_isCholesky hL bk hbk o xrm brm bst crm cst sinv
  · rw [if_neg (by omega), if_pos rfl]
    exact ldlInverse_spec bk hbk o crm cst ac l (by omega) hL hd sinv
  · rw [if_neg (by omega), if_neg (by omega)]
    have hs := Diag.invertSelf_spec N (fun i => ((RCLike.re (LL i i) : ℝ) : K))
    have hne : ∀ k, k < N → ((RCLike.re (LL k k) : ℝ) : K) ≠ 0 := fun k hk => by
      rw [Ne, RCLike.ofReal_eq_zero]; exact (hd k hk).1.ne'
    rw [hs, if_neg (by rintro ⟨k, hk, h0⟩; exact hne k hk h0), Option.map_some]
    refine ⟨_, rfl, ?_, ?_, fun i j hij => if_neg hij⟩
    · intro i j hi hj
      have e : ∀ k, k < N → hermMat (fun i j => if j ≤ i ∧ i < N then (if i = j then
          (fun a => if a < N then (((RCLike.re (LL a a) : ℝ) : K))⁻¹ else ((RCLike.re (LL a a) : ℝ) : K)) i else 0) else sinv i j) k j =
          if k = j then (LL j j)⁻¹ else 0 := by
        intro k hk
        unfold hermMat
        by_cases hkj : k = j
        · subst hkj
          rw [if_pos le_rfl, if_pos rfl]
          beta_reduce
          rw [if_pos ⟨le_rfl, hk⟩, if_pos rfl, if_pos hk, re_of_real (hd k hk).2]
        · rw [if_neg hkj]
          by_cases hc : j ≤ k
          · rw [if_pos hc]; beta_reduce; rw [if_pos ⟨hc, hk⟩, if_neg hkj]
          · rw [if_neg hc]; beta_reduce; rw [if_pos ⟨by omega, hj⟩, if_neg (fun e => hkj e.symm), star_zero]
      rw [Finset.sum_congr rfl fun k hk => by rw [e k (Finset.mem_range.mp hk)]]
      rw [Finset.sum_eq_single j]
      · rw [if_pos rfl, hL i j hi hj]
        by_cases hij : i = j
        · subst hij
          rw [if_pos rfl, if_pos rfl, mul_inv_cancel₀]
          have := hne i hi
          rwa [re_of_real (hd i hi).2] at this
        · rw [if_neg hij, if_neg hij, zero_mul]
      · intro b _ hb; rw [if_neg hb, mul_zero]
      · intro hh; exact absurd (Finset.mem_range.mpr hj) hh
    · intro i hi
      beta_reduce
      rw [if_pos ⟨le_rfl, hi⟩, if_pos rfl, if_pos hi, ← RCLike.ofReal_inv, RCLike.ofReal_im]

/-- The inverse in a full matrix. -/
theorem makeInverse_spec (bk : UBlk) (hbk : bk.OK) (o : Ord) (xrm brm bst crm cst ac : Bool) (l : Diag.Lay) (minv : Nat → Nat → K) :
    ∃ V, makeInverse bk o xrm brm bst crm cst ac l N lo LL minv = some V ∧
      (∀ i j, i < N → j < N → ∑ k ∈ Finset.range N, A i k * V k j = if i = j then 1 else 0) ∧
      ∀ i j, ¬ (i < N ∧ j < N) → V i j = minv i j := by
  unfold makeInverse
  obtain ⟨V, e, v1, v2, v3⟩ := inverse_spec hlo hH bk hbk o xrm brm bst crm cst ac l
    (fun i j => if i = j ∧ i < N then ((RCLike.re (minv i i) : ℝ) : K) else minv i j)
  dsimp only
  rw [e, Option.map_some]
  refine ⟨_, rfl, ?_, ?_⟩
  · intro i j hi hj
    rw [← v1 i j hi hj]
    refine Finset.sum_congr rfl fun k hk => ?_
    rw [Finset.mem_range] at hk
    congr 1
    unfold hermMat
    by_cases hN : N > 1
    · rw [if_pos hN]
      by_cases c : j ≤ k
      · rw [if_pos c, if_neg (by omega)]
      · rw [if_neg c, if_pos (by omega)]
    · rw [if_neg hN, if_pos (by omega)]
  · intro i j hij
    have : V i j = minv i j := by rw [v3 i j (by omega), if_neg (by omega)]
    by_cases hN : N > 1
    · rw [if_pos hN, if_neg (by omega), this]
    · rw [if_neg hN, this]

end use
end
end TMV.BandCH
