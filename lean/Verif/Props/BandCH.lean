import Verif.Model.BandCH
import Verif.Props.CH
import Verif.Props.BandLU
import Mathlib.LinearAlgebra.Matrix.Block

/-! C97: Cholesky decomposition of Hermitian band matrices. -/
namespace TMV.BandCH
open Tri (Ord splitAt sub paste)
open CH (setRe root divCol Step Result setRe_real pivot step_fail step_real root_last step_zero npd_mono npd_step)
open SymRK (RealDiag normSq_eq re_of_real)
noncomputable section
open Classical

variable {K : Type} [RCLike K]

/-- `B` agrees with `A` outside the lower band of the first `N` rows. -/
def Out (N lo : Nat) (A B : Nat → Nat → K) : Prop := ∀ i j, ¬ (i < N ∧ j ≤ i ∧ i ≤ j + lo) → B i j = A i j

theorem Out.refl (N lo : Nat) (A : Nat → Nat → K) : Out N lo A A := fun _ _ _ => rfl

theorem bm_in {lo : Nat} {A : Nat → Nat → K} {i j : Nat} (h1 : j ≤ i) (h2 : i ≤ j + lo) : bandMat lo 0 A i j = A i j := by
  unfold bandMat; rw [if_pos ⟨h2, by omega⟩]

theorem bm_out {lo : Nat} {A : Nat → Nat → K} {i j : Nat} (h : ¬ (j ≤ i ∧ i ≤ j + lo)) : bandMat lo 0 A i j = 0 := by
  unfold bandMat; rw [if_neg (by omega)]

theorem bm_diag (lo : Nat) (A : Nat → Nat → K) (i : Nat) : bandMat lo 0 A i i = A i i := bm_in le_rfl (by omega)

/-- What the functions must return: the band of the result is the Cholesky factor of the band matrix, the rest is untouched. -/
def BResult (N lo : Nat) (A : Nat → Nat → K) : Option (Nat → Nat → K) → Prop
  | some L => Step N N (bandMat lo 0 A) (bandMat lo 0 L) ∧ Out N lo A L
  | none => ¬ PosDef N (hermMat (bandMat lo 0 A))

theorem root_bm (lo : Nat) (j : Nat) (A : Nat → Nat → K) :
    root j (bandMat lo 0 A) = (root j A).map (bandMat lo 0) := by
  unfold root
  rw [bm_diag]
  by_cases h : RCLike.re (A j j) ≤ 0
  · rw [if_pos h, if_pos h]; rfl
  · rw [if_neg h, if_neg h, Option.map_some]
    congr 1
    funext a b
    by_cases hab : a = j ∧ b = j
    · obtain ⟨rfl, rfl⟩ := hab
      rw [setE_self, bm_diag, setE_self]
    · rw [setE_ne _ _ _ _ hab]
      unfold bandMat
      rw [setE_ne _ _ _ _ hab]

theorem root_out {N lo j : Nat} (hj : j < N) {A B : Nat → Nat → K} (h : root j A = some B) : Out N lo A B := by
  unfold root at h
  by_cases hr : RCLike.re (A j j) ≤ 0
  · rw [if_pos hr] at h; cases h
  · rw [if_neg hr] at h
    cases h
    intro a b hab
    rw [setE_ne _ _ _ _ (by omega)]

theorem Out.trans {N lo : Nat} {A B C : Nat → Nat → K} (h : Out N lo A B) (h' : Out N lo B C) : Out N lo A C :=
  fun i j hij => (h' i j hij).trans (h i j hij)

theorem Out.mono {N N' lo : Nat} {A B : Nat → Nat → K} (h : Out N lo A B) (hN : N ≤ N') : Out N' lo A B :=
  fun i j hij => h i j (by omega)

/-- The last pivot, for the band. -/
theorem root_last_band {N lo : Nat} (hN : 0 < N) {A B : Nat → Nat → K} (h : Step (N-1) N (bandMat lo 0 A) (bandMat lo 0 B))
    (ho : Out N lo A B) (him : RCLike.im (B (N-1) (N-1)) = 0) : BResult N lo A (root (N-1) B) := by
  have h1 := root_last hN h (by rw [bm_diag]; exact him)
  rw [root_bm] at h1
  cases hr : root (N-1) B with
  | none => rw [hr] at h1; exact h1
  | some C =>
    rw [hr] at h1
    exact ⟨h1, ho.trans (root_out (by omega) hr)⟩

theorem colStep_band {N lo j : Nat} (hj : j + 1 < N) {A B : Nat → Nat → K} (hA : RealDiag N A)
    (h : Step j N (bandMat lo 0 A) (bandMat lo 0 B)) (ho : Out N lo A B) {e : Nat} (he : e = min (j+lo+1) N) :
    match colStep N j (B, e) with
    | some s => Step (j+1) N (bandMat lo 0 A) (bandMat lo 0 s.1) ∧ Out N lo A s.1 ∧ s.2 = min (j+1+lo+1) N
    | none => ¬ PosDef N (hermMat (bandMat lo 0 A)) := by
  have hB : RealDiag N B := by
    intro i hi
    rw [← bm_diag lo B i]
    exact step_real h (fun i hi => by rw [bm_diag]; exact hA i hi) i hi
  unfold colStep root
  by_cases hr : RCLike.re (B j j) ≤ 0
  · rw [if_pos hr]
    exact step_fail h (by omega) (by rw [bm_diag]; exact hr)
  · rw [if_neg hr, Option.map_some]
    simp only
    rw [setRe_real (hB j (by omega))]
    obtain ⟨d, hd⟩ : ∃ d, d = Real.sqrt (RCLike.re (B j j)) := ⟨_, rfl⟩
    rw [← hd]
    obtain ⟨C, hC⟩ : ∃ C, C = divCol e j (setE B j j ((d : ℝ) : K)) := ⟨_, rfl⟩
    rw [← hC]
    have c1 : ∀ i, j < i → i < e → C i j = B i j / ((d : ℝ) : K) := by
      intro i h1 h2
      rw [hC]
      unfold divCol
      rw [if_pos ⟨rfl, h1, h2⟩, setE_ne _ _ _ _ (by omega), setE_self, RCLike.ofReal_re]
    have c2 : C j j = ((d : ℝ) : K) := by
      rw [hC]
      unfold divCol
      rw [if_neg (by omega), setE_self]
    have c3 : ∀ a b, b ≠ j ∨ ¬ (b ≤ a ∧ a < e) → C a b = B a b := by
      intro a b hab
      rw [hC]
      unfold divCol
      rw [if_neg (by omega), setE_ne _ _ _ _ (by omega)]
    have hrk := SymRK.rank1_spec .cm false true true (e-(j+1)) (-1) (fun i => C (j+1+i) j) (sub C (j+1) (j+1)) (by simp)
      (fun _ => ⟨by simp, fun _ i hi => by
        simp only [sub]
        rw [c3 _ _ (Or.inl (by omega))]
        exact hB _ (by omega)⟩)
    generalize SymRK.rank1 .cm false true true (e-(j+1)) (-1) (fun i => C (j+1+i) j) (sub C (j+1) (j+1)) = R at hrk
    have p1 : ∀ a b, ¬ (j+1 ≤ a ∧ a < e ∧ j+1 ≤ b ∧ b < e) → paste C (j+1) (j+1) (e-(j+1)) (e-(j+1)) R a b = C a b := by
      intro a b hab
      unfold paste
      rw [if_neg (by omega)]
    have p2 : ∀ a b, j+1 ≤ a → a < e → j+1 ≤ b → b < e → paste C (j+1) (j+1) (e-(j+1)) (e-(j+1)) R a b =
        if b ≤ a then C a b - C a j * star (C b j) else C a b := by
      intro a b h1 h2 h3 h4
      unfold paste
      rw [if_pos (by omega), hrk]
      simp only [sub]
      rw [show j + 1 + (a - (j+1)) = a by omega, show j + 1 + (b - (j+1)) = b by omega]
      by_cases hc : b ≤ a
      · rw [if_pos (by omega), if_pos hc]
        simp only [if_true, cj, Bool.false_eq_true, if_false]
        ring
      · rw [if_neg (by omega), if_neg hc]
    generalize hP : paste C (j+1) (j+1) (e-(j+1)) (e-(j+1)) R = P at p1 p2
    refine ⟨?_, ?_, ?_⟩
    · have hbd := bm_diag lo B j
      refine pivot h (by omega) (by rw [hbd]; exact not_le.mp hr) (by rw [hbd]; exact hB j (by omega)) ?_ ?_ ?_ ?_
      · intro a b hab
        unfold bandMat
        by_cases hb : a ≤ b + lo ∧ b ≤ a + 0
        · rw [if_pos hb, if_pos hb]
          by_cases hc : j+1 ≤ a ∧ a < e ∧ j+1 ≤ b ∧ b < e
          · omega
          · rw [p1 a b hc, c3 a b (by omega)]
        · rw [if_neg hb, if_neg hb]
      · rw [bm_diag, bm_diag, p1 j j (by omega), c2, hd]
      · intro i h1 h2
        rw [hbd, ← hd]
        by_cases hi : i < e
        · rw [bm_in (by omega) (by omega), bm_in (by omega) (by omega), p1 i j (by omega), c1 i h1 hi]
        · rw [bm_out (by omega), bm_out (by omega), zero_div]
      · intro i b h1 h2 h3
        by_cases hi : i < e
        · rw [bm_in h2 (by omega), bm_in h2 (by omega), bm_in (by omega : j ≤ i) (by omega), bm_in (by omega : j ≤ b) (by omega),
            p2 i b (by omega) hi (by omega) (by omega), if_pos h2, p1 i j (by omega), p1 b j (by omega), c3 i b (Or.inl (by omega))]
        · rw [bm_out (A := P) (i := i) (j := j) (by omega), zero_mul, sub_zero]
          unfold bandMat
          rw [p1 i b (by omega), c3 i b (by omega)]
    · refine ho.trans fun a b hab => ?_
      by_cases hc : j+1 ≤ a ∧ a < e ∧ j+1 ≤ b ∧ b < e
      · rw [p2 a b hc.1 hc.2.1 hc.2.2.1 hc.2.2.2, if_neg (by omega), c3 a b (by omega)]
      · rw [p1 a b hc, c3 a b (by omega)]
    · show (if e < N then e+1 else e) = _
      split <;> omega

theorem decCM_spec {N lo : Nat} (hN : 0 < N) (hlo : lo < N) {A : Nat → Nat → K} (hA : RealDiag N A) :
    BResult N lo A (decCM N lo A) := by
  have key : ∀ n j B e, j + n = N - 1 → e = min (j+lo+1) N → Step j N (bandMat lo 0 A) (bandMat lo 0 B) → Out N lo A B →
      match forRange (colStep N) n j (B, e) with
      | some s => Step (N-1) N (bandMat lo 0 A) (bandMat lo 0 s.1) ∧ Out N lo A s.1
      | none => ¬ PosDef N (hermMat (bandMat lo 0 A)) := by
    intro n
    induction n with
    | zero =>
      intro j B e hj he h ho
      simp only [forRange]
      have : j = N - 1 := by omega
      rw [← this]
      exact ⟨h, ho⟩
    | succ n ih =>
      intro j B e hj he h ho
      rw [forRange]
      have h1 := colStep_band (N := N) (j := j) (by omega) hA h ho he
      cases hc : colStep N j (B, e) with
      | none => rw [hc] at h1; exact h1
      | some s =>
        rw [hc] at h1
        rw [Option.bind_some]
        exact ih (j+1) s.1 s.2 (by omega) h1.2.2 h1.1 h1.2.1
  have h1 := key (N-1) 0 A (lo+1) (by omega) (by omega) (step_zero N _) (Out.refl _ _ _)
  unfold decCM
  cases hc : forRange (colStep N) (N-1) 0 (A, lo+1) with
  | none => rw [hc] at h1; exact h1
  | some s =>
    rw [hc] at h1
    rw [Option.bind_some]
    refine root_last_band hN h1.1 h1.2 ?_
    rw [← bm_diag lo s.1 (N-1)]
    exact step_real h1.1 (fun i hi => by rw [bm_diag]; exact hA i hi) (N-1) (by omega)

/-! ### Triangular quotients -/

theorem det_upper_ne {N hi : Nat} {U : Nat → Nat → K} (h : ∀ i, i < N → U i i ≠ 0) : (LU.toM N (bandMat 0 hi U)).det ≠ 0 := by
  rw [Matrix.det_of_isUpperTriangular]
  · rw [Finset.prod_ne_zero_iff]
    intro i _
    simp only [LU.toM, Matrix.of_apply, bandMat]
    rw [if_pos (by omega)]
    exact h i i.2
  · intro i j hij
    have hij : (j : Nat) < i := hij
    simp only [LU.toM, Matrix.of_apply, bandMat]
    rw [if_neg (by omega)]

theorem det_lower_ne {N lo : Nat} {U : Nat → Nat → K} (h : ∀ i, i < N → U i i ≠ 0) : (LU.toM N (bandMat lo 0 U)).det ≠ 0 := by
  rw [Matrix.det_of_isLowerTriangular]
  · rw [Finset.prod_ne_zero_iff]
    intro i _
    simp only [LU.toM, Matrix.of_apply, bandMat]
    rw [if_pos (by omega)]
    exact h i i.2
  · intro i j hij
    have hij : (i : Nat) < j := hij
    simp only [LU.toM, Matrix.of_apply, bandMat]
    rw [if_neg (by omega)]

/-- The norm as an absolute value. -/
def nabs (K : Type) [RCLike K] : AbsoluteValue K ℝ where
  toFun x := ‖x‖
  map_mul' := norm_mul
  nonneg' := norm_nonneg
  eq_zero' _ := norm_eq_zero
  add_le' := norm_add_le

theorem quot_rDiv (o : Ord) {N hi : Nat} (hN : hi < N) (bcm : Bool) (nr : Nat) (U B : Nat → Nat → K)
    (h : ∀ i, i < N → U i i ≠ 0) : ∃ X, (quot o N 0 hi U).rDiv bcm N nr B = some X ∧
      (∀ r j, r < nr → j < N → ∑ k ∈ Finset.range N, X r k * bandMat 0 hi U k j = B r j) ∧
      ∀ r j, ¬ (r < nr ∧ j < N) → X r j = B r j := by
  have := BandLU.rDiv_spec (nabs K) (fun x : ℝ => decide (x = 0)) (by simp)
    (fun x : K => decide (x = 0)) (by simp) o (lo := 0) (by omega) hN bcm nr U U B
  obtain ⟨X, hX⟩ := this.2 (det_upper_ne h)
  exact ⟨X, hX, this.1 X hX⟩

theorem quot_lDivL (o : Ord) {N lo : Nat} (hN : lo < N) (brm : Bool) (nc : Nat) (L B : Nat → Nat → K)
    (h : ∀ i, i < N → L i i ≠ 0) : ∃ X, (quot o N lo 0 L).lDiv brm N nc B = some X ∧
      (∀ i c, i < N → c < nc → ∑ k ∈ Finset.range N, bandMat lo 0 L i k * X k c = B i c) ∧
      ∀ i c, ¬ (i < N ∧ c < nc) → X i c = B i c := by
  have := BandLU.lDiv_spec (nabs K) (fun x : ℝ => decide (x = 0)) (by simp)
    (fun x : K => decide (x = 0)) (by simp) o (hi := 0) hN (by omega) brm nc L L B
  obtain ⟨X, hX⟩ := this.2 (det_lower_ne h)
  exact ⟨X, hX, this.1 X hX⟩

theorem quot_lDivU (o : Ord) {N hi : Nat} (hN : hi < N) (brm : Bool) (nc : Nat) (U B : Nat → Nat → K)
    (h : ∀ i, i < N → U i i ≠ 0) : ∃ X, (quot o N 0 hi U).lDiv brm N nc B = some X ∧
      (∀ i c, i < N → c < nc → ∑ k ∈ Finset.range N, bandMat 0 hi U i k * X k c = B i c) ∧
      ∀ i c, ¬ (i < N ∧ c < nc) → X i c = B i c := by
  have := BandLU.lDiv_spec (nabs K) (fun x : ℝ => decide (x = 0)) (by simp)
    (fun x : K => decide (x = 0)) (by simp) o (lo := 0) (by omega) hN brm nc U U B
  obtain ⟨X, hX⟩ := this.2 (det_upper_ne h)
  exact ⟨X, hX, this.1 X hX⟩

theorem rowStep_band (o : Ord) (bcm : Bool) {lo i r0 r : Nat} (hl : 0 < lo) (hi : 0 < i) {A B : Nat → Nat → K}
    (hA : RealDiag (i+1) A) (hr0 : r0 = i - 1 - lo) (hr : r = i - lo)
    (h : Step i i (bandMat lo 0 A) (bandMat lo 0 B)) (ho : Out i lo A B) :
    match rowStep o bcm lo i (B, r0) with
    | some s => (Step (i+1) (i+1) (bandMat lo 0 A) (bandMat lo 0 s.1) ∧ Out (i+1) lo A s.1) ∧ s.2 = r
    | none => ¬ PosDef (i+1) (hermMat (bandMat lo 0 A)) := by
  have hri : r < i := by omega
  have hBd : ∀ l, l < i → B l l ≠ 0 := by
    intro l hl h0
    have := (h.2.1 l hl).2
    rw [bm_diag, h0, map_zero] at this
    exact lt_irrefl _ this
  unfold rowStep
  simp only
  rw [show (if i > lo then r0 + 1 else r0) = r by split <;> omega]
  obtain ⟨X, hX, hs, -⟩ := quot_rDiv (LU.Ord.tr o) (N := i-r) (hi := min lo (i-r-1)) (by omega) bcm 1
    (fun a b => star (B (r+b) (r+a))) (fun _ b => B i (r+b)) (by
      intro l hl h0
      exact hBd (r+l) (by omega) (star_eq_zero.mp h0))
  rw [hX, Option.bind_some]
  obtain ⟨C, hC⟩ : ∃ C : Nat → Nat → K, C = fun a b => if a = i ∧ r ≤ b ∧ b < i then X 0 (b-r) else B a b := ⟨_, rfl⟩
  have hCe : ∀ a b, C a b = if a = i ∧ r ≤ b ∧ b < i then X 0 (b-r) else B a b := fun a b => by rw [hC]
  have hii : C i i = A i i := by rw [hCe, if_neg (by omega), ho i i (by omega)]
  have e : (fun a b => if a = i ∧ r ≤ b ∧ b < i then X 0 (b-r) else B a b) = C := hC.symm
  have e1 : (∑ j ∈ Finset.range (i-r), RCLike.normSq (if True ∧ r ≤ r + j ∧ r + j < i then X 0 (r+j-r) else B i (r+j))) =
      ∑ j ∈ Finset.range (i-r), RCLike.normSq (C i (r+j)) := by
    refine Finset.sum_congr rfl fun j hj => ?_
    rw [hCe]
    simp
  have e2 : (if True ∧ r ≤ i ∧ i < i then X 0 (i-r) else B i i) = C i i := by rw [hCe]; simp
  rw [e]
  simp only [e1, e2]
  have him : RCLike.im (A i i) = 0 := hA i (by omega)
  rw [hii, setRe_real him]
  obtain ⟨D, hD⟩ : ∃ D, D = setE C i i (((RCLike.re (A i i) - ∑ j ∈ Finset.range (i-r), RCLike.normSq (C i (r+j)) : ℝ)) : K) :=
    ⟨_, rfl⟩
  rw [← hD]
  have d1 : ∀ a b, ¬ (a = i ∧ b = i) → D a b = C a b := fun a b hab => by rw [hD, setE_ne _ _ _ _ hab]
  have d2 : D i i = (((RCLike.re (A i i) - ∑ j ∈ Finset.range (i-r), RCLike.normSq (C i (r+j)) : ℝ)) : K) := by
    rw [hD, setE_self]
  have drow : ∀ l, r ≤ l → l < i → D i l = X 0 (l-r) := fun l h1 hl => by rw [d1 i l (by omega), hCe, if_pos ⟨rfl, h1, hl⟩]
  have dup : ∀ a l, a < i → D a l = B a l := fun a l ha => by rw [d1 a l (by omega), hCe, if_neg (by omega)]
  have bup : ∀ a l, a < i → bandMat lo 0 D a l = bandMat lo 0 B a l := fun a l ha => by
    unfold bandMat; rw [dup a l ha]
  have hout : Out (i+1) lo A D := by
    intro a b hab
    rw [d1 a b (by omega), hCe, if_neg (by omega), ho a b (by omega)]
  -- a sum over the first columns of row `i` begins at column `r`
  have hcut : ∀ (f : Nat → K) m, r ≤ m → (∀ l, l < r → f l = 0) →
      ∑ l ∈ Finset.range m, f l = ∑ l ∈ Finset.range (m-r), f (r+l) := by
    intro f m hm hf
    obtain ⟨n, rfl⟩ := Nat.exists_eq_add_of_le hm
    rw [Finset.sum_range_add, Finset.sum_eq_zero (fun l hl => hf l (Finset.mem_range.mp hl)), zero_add, Nat.add_sub_cancel_left]
  have hst : Step i (i+1) (bandMat lo 0 A) (bandMat lo 0 D) := by
    refine ⟨?_, ?_, ?_, ?_⟩
    · intro a j hja ha hj
      by_cases hai : a < i
      · rw [← h.1 a j hja hai hj]
        refine Finset.sum_congr rfl fun l hl => ?_
        rw [bup a l hai, bup j l hj]
      · have : a = i := by omega
        subst this
        by_cases hjr : j < r
        · rw [bm_out (by omega), Finset.sum_eq_zero]
          intro l hl
          rw [Finset.mem_range] at hl
          rw [bm_out (A := D) (by omega), zero_mul]
        · have hs := hs 0 (j-r) (by omega) (by omega)
          rw [show r + (j - r) = j by omega] at hs
          rw [bm_in (by omega) (by omega), ← ho a j (by omega), ← hs, hcut (fun l => bandMat lo 0 D a l * star (bandMat lo 0 D j l)) _ (by omega)
            (fun l hl => by rw [bm_out (A := D) (by omega), zero_mul])]
          rw [show a - r = (j+1-r) + (a-(j+1)) by omega, Finset.sum_range_add, Finset.sum_eq_zero (s := Finset.range (a-(j+1))), add_zero]
          · refine Finset.sum_congr rfl fun l hl => ?_
            rw [Finset.mem_range] at hl
            rw [bm_in (A := D) (by omega) (by omega), bm_in (A := D) (by omega) (by omega), drow (r+l) (by omega) (by omega), dup j _ hj,
              Nat.add_sub_cancel_left]
            unfold bandMat
            rw [if_pos (by omega)]
            beta_reduce
            rw [show r + (j - r) = j by omega]
          · intro l hl
            unfold bandMat
            rw [if_neg (by omega), mul_zero]
    · intro a ha
      rw [bup a a ha]
      exact h.2.1 a ha
    · intro a j hj hja ha
      have h1 : a = i := by omega
      have h2 : j = i := by omega
      subst h1
      subst h2
      rw [bm_diag, bm_diag, d2, RCLike.ofReal_sub, re_of_real him]
      congr 1
      push_cast
      rw [hcut (fun l => bandMat lo 0 D j l * star (bandMat lo 0 D j l)) _ (by omega)
        (fun l hl => by rw [bm_out (A := D) (by omega), zero_mul])]
      refine Finset.sum_congr rfl fun l hl => ?_
      rw [Finset.mem_range] at hl
      rw [bm_in (A := D) (by omega) (by omega), d1 _ _ (by omega)]
      exact normSq_eq _
    · intro a b hab
      unfold bandMat
      by_cases hc : a ≤ b + lo ∧ b ≤ a + 0
      · rw [if_pos hc, if_pos hc, hout a b (by omega)]
      · rw [if_neg hc, if_neg hc]
  have := root_last_band (N := i+1) (by omega) (by rwa [Nat.add_sub_cancel]) hout (by
    rw [Nat.add_sub_cancel, d2, RCLike.ofReal_im])
  rw [Nat.add_sub_cancel] at this
  cases hrt : root i D with
  | none => rw [hrt] at this; exact this
  | some E => rw [hrt] at this; exact ⟨this, rfl⟩

theorem decRM_spec (o : Ord) (bcm : Bool) {N lo : Nat} (hN : 0 < N) (hl : 0 < lo) {A : Nat → Nat → K} (hA : RealDiag N A) :
    BResult N lo A (decRM o bcm N lo A) := by
  have key : ∀ n i B r, 0 < i → i + n = N → r = i - 1 - lo → Step i i (bandMat lo 0 A) (bandMat lo 0 B) → Out i lo A B →
      BResult N lo A ((forRange (rowStep o bcm lo) n i (B, r)).map fun s => s.1) := by
    intro n
    induction n with
    | zero =>
      intro i B r h0 hi hr h ho
      simp only [forRange]
      have : i = N := by omega
      subst this
      exact ⟨h, ho⟩
    | succ n ih =>
      intro i B r h0 hi hr h ho
      rw [forRange]
      have h1 := rowStep_band o bcm hl h0 (fun l hl => hA l (by omega)) hr rfl h ho
      cases hc : rowStep o bcm lo i (B, r) with
      | none =>
        rw [hc] at h1
        exact npd_mono (by omega) h1
      | some s =>
        rw [hc] at h1
        rw [Option.bind_some]
        exact ih (i+1) s.1 s.2 (by omega) (by omega) (by rw [h1.2]; omega) h1.1.1 h1.1.2
  have h1 := root_last_band (N := 1) (lo := lo) (A := A) (B := A) (by omega) (step_zero 1 _) (Out.refl _ _ _) (hA 0 hN)
  unfold decRM
  simp only [Nat.sub_self] at h1
  cases hc : root 0 A with
  | none => rw [hc] at h1; exact npd_mono hN h1
  | some C =>
    rw [hc] at h1
    rw [Option.bind_some]
    exact key (N-1) 1 C 0 (by omega) (by omega) (by omega) h1.1 h1.2

/-- The loop for `nlo = 0`. -/
theorem diag_spec {N : Nat} {A : Nat → Nat → K} (hA : RealDiag N A) : BResult N 0 A (forRange root N 0 A) := by
  have key : ∀ n i B, i + n = N → Step i i (bandMat 0 0 A) (bandMat 0 0 B) → Out i 0 A B →
      BResult N 0 A (forRange root n i B) := by
    intro n
    induction n with
    | zero =>
      intro i B hi h ho
      simp only [forRange]
      have : i = N := by omega
      subst this
      exact ⟨h, ho⟩
    | succ n ih =>
      intro i B hi h ho
      rw [forRange]
      have hst : Step i (i+1) (bandMat 0 0 A) (bandMat 0 0 B) := by
        refine ⟨?_, h.2.1, ?_, ?_⟩
        · intro a j hja ha hj
          by_cases hai : a < i
          · exact h.1 a j hja hai hj
          · have : a = i := by omega
            subst this
            rw [bm_out (by omega), Finset.sum_eq_zero]
            intro l hl
            rw [Finset.mem_range] at hl
            rw [bm_out (A := B) (by omega), zero_mul]
        · intro a j hj hja ha
          have h1 : a = i := by omega
          have h2 : j = i := by omega
          subst h1
          subst h2
          rw [bm_diag, bm_diag, ho _ _ (by omega), Finset.sum_eq_zero, sub_zero]
          intro l hl
          rw [Finset.mem_range] at hl
          rw [bm_out (A := B) (by omega), zero_mul]
        · intro a b hab
          unfold bandMat
          by_cases hc : a ≤ b + 0 ∧ b ≤ a + 0
          · rw [if_pos hc, if_pos hc, ho a b (by omega)]
          · rw [if_neg hc, if_neg hc]
      have h1 := root_last_band (N := i+1) (lo := 0) (A := A) (B := B) (by omega) (by rwa [Nat.add_sub_cancel]) (ho.mono (by omega)) (by
        rw [Nat.add_sub_cancel, ho i i (by omega)]
        exact hA i (by omega))
      rw [Nat.add_sub_cancel] at h1
      cases hc : root i B with
      | none => rw [hc] at h1; exact npd_mono (by omega) h1
      | some C =>
        rw [hc] at h1
        rw [Option.bind_some]
        exact ih (i+1) C (by omega) h1.1 h1.2
  exact key N 0 A (by omega) (step_zero 0 _) (Out.refl _ _ _)

theorem decompose_result (o : Ord) (bcm : Bool) {N lo : Nat} (hlo : N = 0 ∨ lo < N) {A : Nat → Nat → K} (hA : RealDiag N A) :
    BResult N lo A (decompose o bcm N lo A) := by
  unfold decompose
  by_cases hN : N > 0
  · rw [if_pos hN]
    by_cases h0 : lo = 0
    · rw [if_pos h0]; subst h0; exact diag_spec hA
    · rw [if_neg h0]
      by_cases hc : o = .cm
      · rw [if_pos hc]; exact decCM_spec hN (by omega) hA
      · rw [if_neg hc]; exact decRM_spec o bcm hN (by omega) hA
  · rw [if_neg hN]
    have : N = 0 := by omega
    subst this
    exact ⟨step_zero 0 _, Out.refl _ _ _⟩

/-- **C97** (Cholesky, correctness): whatever `CH_Decompose` of a Hermitian band matrix returns, its lower band is the
Cholesky factor of that matrix, `L Lᴴ = A`, with a real positive diagonal, and nothing outside the lower band is written
(or, as the statement holds for all contents of the rest of the memory, read). -/
theorem band_ch_correct (o : Ord) (bcm : Bool) (N lo : Nat) (hlo : N = 0 ∨ lo < N) (A L : Nat → Nat → K)
    (hA : ∀ i, i < N → RCLike.im (A i i) = 0) (h : decompose o bcm N lo A = some L) :
    CholeskyOf N (hermMat (bandMat lo 0 A)) (bandMat lo 0 L) ∧
    ∀ i j, ¬ (i < N ∧ j ≤ i ∧ i ≤ j + lo) → L i j = A i j := by
  have hr := decompose_result o bcm hlo hA
  rw [h] at hr
  obtain ⟨hs, ho⟩ : Step N N _ _ ∧ _ := hr
  refine ⟨⟨?_, hs.2.1⟩, ho⟩
  intro i j hi hj
  rw [CH.step_herm hs hi hj, if_neg (by omega), add_zero]
  rfl

/-- **C97** (Cholesky, detection): `NonPosDef` is thrown exactly when the matrix is not positive definite. -/
theorem band_ch_raises_iff (o : Ord) (bcm : Bool) (N lo : Nat) (hlo : N = 0 ∨ lo < N) (A : Nat → Nat → K)
    (hA : ∀ i, i < N → RCLike.im (A i i) = 0) :
    decompose o bcm N lo A = none ↔ ¬ PosDef N (hermMat (bandMat lo 0 A)) := by
  have hr := decompose_result o bcm hlo hA
  cases h : decompose o bcm N lo A with
  | none => rw [h] at hr; exact ⟨fun _ => hr, fun _ => rfl⟩
  | some L =>
    rw [h] at hr
    exact ⟨fun e => by simp at e, fun e => absurd (CH.step_posDef hr.1) e⟩

end
end TMV.BandCH
