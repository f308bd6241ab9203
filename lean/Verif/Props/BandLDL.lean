import Verif.Props.BandCH
import Verif.Props.LDLDet
import Verif.Spec.BiDiag

/-! C97: the LDL decomposition of tridiagonal Hermitian and symmetric matrices. -/
namespace TMV.BandCH
open Tri (Ord)
open CH (setRe setRe_real)
open SymRK (RealDiag normSq_eq re_of_real)
open LDL (cj_add cj_mul cj_one cj_zero cj_inv cj_div lead)
noncomputable section
open Classical

variable {K : Type} [RCLike K]

/-- Both steps at once: they only differ in the conjugation. -/
def gStep (h : Bool) (j : Nat) (A : Nat → Nat → K) : Option (Nat → Nat → K) :=
  if A j j = 0 then none
  else some (setE (setE A (j+1) j (A (j+1) j / A j j)) (j+1) (j+1)
    (A (j+1) (j+1) - cj h (A (j+1) j / A j j) * A (j+1) j))

def gLDL (h : Bool) (N : Nat) (A : Nat → Nat → K) : Option (Nat → Nat → K) :=
  (forRange (gStep h) (N-1) 0 A).bind fun A => if A (N-1) (N-1) = 0 then none else some A

theorem sStep_eq (j : Nat) (A : Nat → Nat → K) : sStep j A = gStep false j A := by
  unfold sStep gStep
  simp only
  rw [setE_self, setE_ne _ _ _ _ (by omega)]
  rfl

theorem sLDL_eq (N : Nat) (A : Nat → Nat → K) : sLDL false N A = gLDL false N A := by
  unfold sLDL gLDL
  rw [show (sStep : Nat → (Nat → Nat → K) → _) = gStep false from by funext j A; exact sStep_eq j A]
  rfl

theorem hStep_eq {j : Nat} {A : Nat → Nat → K} (h0 : RCLike.im (A j j) = 0) (h1 : RCLike.im (A (j+1) (j+1)) = 0) :
    hStep j A = gStep true j A := by
  unfold hStep gStep
  simp only
  have e : ((RCLike.re (A j j) : ℝ) : K) = A j j := re_of_real h0
  by_cases hz : RCLike.re (A j j) = 0
  · rw [if_pos hz, if_pos (by rw [← e, hz, RCLike.ofReal_zero])]
  · rw [if_neg hz, if_neg (fun hh => hz (by rw [hh, map_zero]))]
    rw [setE_self, setE_ne _ _ _ _ (by omega : ¬ (j+1 = j+1 ∧ j+1 = j)), setRe_real h1, e]
    congr 2
    have e2 : star (A (j+1) j / A j j) * A (j+1) j = ((RCLike.normSq (A (j+1) j) / RCLike.re (A j j) : ℝ) : K) := by
      rw [star_div₀, RCLike.ofReal_div, normSq_eq, e, show star (A j j) = A j j from RCLike.conj_eq_iff_im.mpr h0]
      ring
    show _ = A (j+1) (j+1) - star (A (j+1) j / A j j) * A (j+1) j
    rw [e2, RCLike.ofReal_re, RCLike.ofReal_sub, re_of_real h1]

/-- The state after `j` steps. -/
structure LInv (h : Bool) (j : Nat) (A B : Nat → Nat → K) : Prop where
  zero : B 0 0 = A 0 0
  ne : ∀ k, k < j → B k k ≠ 0
  sub : ∀ k, k < j → B (k+1) k * B k k = A (k+1) k
  dia : ∀ k, k < j → B (k+1) (k+1) = A (k+1) (k+1) - cj h (B (k+1) k) * A (k+1) k
  out : ∀ a b, ¬ (a = b ∧ a ≤ j) → ¬ (a = b + 1 ∧ b < j) → B a b = A a b

theorem gStep_inv {h : Bool} {j : Nat} {A B : Nat → Nat → K} (hi : LInv h j A B) :
    (gStep h j B = none ∧ B j j = 0) ∨ ∃ C, gStep h j B = some C ∧ LInv h (j+1) A C := by
  unfold gStep
  by_cases hz : B j j = 0
  · exact Or.inl ⟨if_pos hz, hz⟩
  · refine Or.inr ⟨_, if_neg hz, ?_⟩
    obtain ⟨C, hC⟩ : ∃ C, C = setE (setE B (j+1) j (B (j+1) j / B j j)) (j+1) (j+1)
      (B (j+1) (j+1) - cj h (B (j+1) j / B j j) * B (j+1) j) := ⟨_, rfl⟩
    rw [← hC]
    have c0 : ∀ a b, ¬ (a = j+1 ∧ b = j+1) → ¬ (a = j+1 ∧ b = j) → C a b = B a b := fun a b h1 h2 => by
      rw [hC, setE_ne _ _ _ _ h1, setE_ne _ _ _ _ h2]
    have c1 : C (j+1) j = B (j+1) j / B j j := by rw [hC, setE_ne _ _ _ _ (by omega), setE_self]
    have c2 : C (j+1) (j+1) = B (j+1) (j+1) - cj h (B (j+1) j / B j j) * B (j+1) j := by rw [hC, setE_self]
    refine ⟨?_, ?_, ?_, ?_, ?_⟩
    · rw [c0 0 0 (by omega) (by omega), hi.zero]
    · intro k hk
      rw [c0 k k (by omega) (by omega)]
      by_cases hkj : k = j
      · subst hkj; exact hz
      · exact hi.ne k (by omega)
    · intro k hk
      by_cases hkj : k = j
      · subst hkj
        rw [c1, c0 k k (by omega) (by omega), div_mul_cancel₀ _ hz, hi.out _ _ (by omega) (by omega)]
      · rw [c0 _ _ (by omega) (by omega), c0 _ _ (by omega) (by omega)]
        exact hi.sub k (by omega)
    · intro k hk
      by_cases hkj : k = j
      · subst hkj
        rw [c1, c2, hi.out (k+1) (k+1) (by omega) (by omega), hi.out (k+1) k (by omega) (by omega)]
      · rw [c0 _ _ (by omega) (by omega), c0 _ _ (by omega) (by omega)]
        exact hi.dia k (by omega)
    · intro a b h1 h2
      rw [c0 a b (by omega) (by omega), hi.out a b (by omega) (by omega)]

theorem gLoop_inv (h : Bool) (A : Nat → Nat → K) : ∀ n j B, LInv h j A B →
    (forRange (gStep h) n j B = none ∧ ∃ k C, j ≤ k ∧ k < j + n ∧ LInv h k A C ∧ C k k = 0) ∨
    ∃ C, forRange (gStep h) n j B = some C ∧ LInv h (j+n) A C := by
  intro n
  induction n with
  | zero => exact fun j B hi => Or.inr ⟨B, rfl, hi⟩
  | succ n ih =>
    intro j B hi
    rw [forRange]
    rcases gStep_inv hi with ⟨e, hz⟩ | ⟨C, e, hC⟩
    · rw [e]
      exact Or.inl ⟨rfl, j, B, le_rfl, by omega, hi, hz⟩
    · rw [e, Option.bind_some]
      rcases ih (j+1) C hC with ⟨e, k, D, h1, h2, h3⟩ | ⟨D, e, hD⟩
      · exact Or.inl ⟨e, k, D, by omega, by omega, h3⟩
      · exact Or.inr ⟨D, e, by rwa [show j + (n+1) = j+1+n by omega]⟩

theorem symFull_tri (h : Bool) (A : Nat → Nat → K) (i j : Nat) :
    symFull h (bandMat 1 0 A) i j =
      if i = j then A i i else if i = j + 1 then A i j else if j = i + 1 then cj h (A j i) else 0 := by
  unfold symFull bandMat
  by_cases h1 : i = j
  · subst h1
    rw [if_pos le_rfl, if_pos (by omega), if_pos rfl]
  · rw [if_neg h1]
    by_cases h2 : i = j + 1
    · rw [if_pos (by omega), if_pos (by omega), if_pos h2]
    · rw [if_neg h2]
      by_cases h3 : j = i + 1
      · rw [if_neg (by omega), if_pos (by omega), if_pos h3]
      · rw [if_neg h3]
        by_cases h4 : j ≤ i
        · rw [if_pos h4, if_neg (by omega)]
        · rw [if_neg h4, if_neg (by omega), cj_zero]

theorem unitBi_self (B : Nat → Nat → K) (i : Nat) : unitBi B i i = 1 := if_pos rfl
theorem unitBi_sub (B : Nat → Nat → K) (i : Nat) : unitBi B (i+1) i = B (i+1) i := by
  unfold unitBi; rw [if_neg (by omega), if_pos rfl]
theorem unitBi_zero (B : Nat → Nat → K) {i k : Nat} (h1 : i ≠ k) (h2 : i ≠ k + 1) : unitBi B i k = 0 := by
  unfold unitBi; rw [if_neg h1, if_neg h2]

/-- The sum over a row of a unit bidiagonal matrix. -/
theorem unitBi_sum {N i : Nat} (hi : i < N) (B : Nat → Nat → K) (f : Nat → K) :
    ∑ k ∈ Finset.range N, unitBi B i k * f k = f i + if i = 0 then 0 else B i (i-1) * f (i-1) := by
  by_cases h0 : i = 0
  · subst h0
    rw [if_pos rfl, add_zero, Finset.sum_eq_single 0]
    · rw [unitBi_self, one_mul]
    · intro b _ hb
      rw [unitBi_zero B (by omega) (by omega), zero_mul]
    · intro hh; exact absurd (Finset.mem_range.mpr hi) hh
  · obtain ⟨m, rfl⟩ : ∃ m, i = m + 1 := ⟨i-1, by omega⟩
    rw [if_neg h0, Nat.add_sub_cancel]
    have hm : m ∈ Finset.range N := Finset.mem_range.mpr (by omega)
    rw [← Finset.add_sum_erase _ _ hm]
    have h1 : m + 1 ∈ (Finset.range N).erase m := Finset.mem_erase.mpr ⟨by omega, Finset.mem_range.mpr hi⟩
    rw [← Finset.add_sum_erase _ _ h1, Finset.sum_eq_zero, unitBi_sub, unitBi_self]
    · ring
    · intro k hk
      rw [Finset.mem_erase, Finset.mem_erase] at hk
      rw [unitBi_zero B (by omega) (by omega), zero_mul]

/-- What the diagonal must be for the adjoint of `L D` to be `D L†`. -/
theorem LInv.prod {h : Bool} {j : Nat} {A B : Nat → Nat → K} (hi : LInv h j A B)
    (hr : ∀ k, k ≤ j → cj h (B k k) = B k k) :
    IsBiLDL h (j+1) (symFull h (bandMat 1 0 A)) B := by
  intro a b ha hb
  have e : ∀ k, unitBi B a k * B k k * cj h (unitBi B b k) = unitBi B a k * (B k k * cj h (unitBi B b k)) := fun k => by ring
  simp only [e]
  rw [unitBi_sum ha, symFull_tri]
  by_cases h1 : a = b
  · subst h1
    rw [if_pos rfl, unitBi_self, cj_one, mul_one]
    by_cases h0 : a = 0
    · subst h0
      rw [if_pos rfl, add_zero, hi.zero]
    · obtain ⟨m, rfl⟩ : ∃ m, a = m + 1 := ⟨a-1, by omega⟩
      rw [if_neg h0, Nat.add_sub_cancel, unitBi_sub, hi.dia m (by omega), ← hi.sub m (by omega)]
      ring
  · rw [if_neg h1]
    by_cases h2 : a = b + 1
    · subst h2
      rw [if_neg (by omega), if_pos rfl, Nat.add_sub_cancel, unitBi_self, unitBi_zero B (by omega) (by omega), cj_zero, mul_zero, zero_add,
        cj_one, mul_one, hi.sub b (by omega)]
    · rw [if_neg h2]
      by_cases h3 : b = a + 1
      · subst h3
        rw [if_pos rfl, unitBi_sub, ← hi.sub a (by omega), cj_mul, hr a (by omega)]
        by_cases h0 : a = 0
        · rw [if_pos h0]; ring
        · rw [if_neg h0, unitBi_zero B (by omega) (by omega), cj_zero]; ring
      · rw [if_neg h3, unitBi_zero B (by omega) (by omega), cj_zero, mul_zero, zero_add]
        by_cases h0 : a = 0
        · rw [if_pos h0]
        · rw [if_neg h0, unitBi_zero B (by omega) (by omega), cj_zero, mul_zero, mul_zero]

theorem LInv.real {h : Bool} {j : Nat} {A B : Nat → Nat → K} (hi : LInv h j A B)
    (hA : ∀ k, k ≤ j → cj h (A k k) = A k k) : ∀ k, k ≤ j → cj h (B k k) = B k k := by
  intro k
  induction k with
  | zero => intro _; rw [hi.zero, hA 0 (by omega)]
  | succ k ih =>
    intro hk
    rw [hi.dia k (by omega), ← hi.sub k (by omega), LDL.cj_sub, hA _ hk, cj_mul, cj_mul, cj_inv, ih (by omega)]
    ring

theorem _root_.TMV.IsBiLDL.det {h : Bool} {N : Nat} {H B : Nat → Nat → K} (hb : IsBiLDL h N H B) :
    (lead N H).det = ∏ k ∈ Finset.range N, B k k := by
  have e : lead N H = lead N (unitBi B) * Matrix.diagonal (fun k : Fin N => B k k) *
      (Matrix.of fun i k : Fin N => cj h (unitBi B k i)) := by
    ext i k
    rw [Matrix.mul_apply]
    simp only [lead, Matrix.of_apply, Matrix.mul_diagonal]
    rw [← hb i k i.2 k.2, Finset.sum_range]
  have d1 : (lead N (unitBi B)).det = 1 := by
    rw [Matrix.det_of_isLowerTriangular]
    · exact Finset.prod_eq_one fun i _ => unitBi_self B i
    · intro i j hij
      have hij : (i : Nat) < j := hij
      exact unitBi_zero B (by omega) (by omega)
  have d2 : (Matrix.of fun i k : Fin N => cj h (unitBi B k i)).det = 1 := by
    rw [Matrix.det_of_isUpperTriangular]
    · refine Finset.prod_eq_one fun i _ => ?_
      rw [Matrix.of_apply, unitBi_self, cj_one]
    · intro i j hij
      have hij : (j : Nat) < i := hij
      rw [Matrix.of_apply, unitBi_zero B (by omega) (by omega), cj_zero]
  rw [e, Matrix.det_mul, Matrix.det_mul, d1, d2, Matrix.det_diagonal, one_mul, mul_one, Finset.prod_range]

theorem LInv.mono {h : Bool} {j k : Nat} {A B : Nat → Nat → K} (hi : LInv h j A B) (hk : k ≤ j) :
    (∀ l, l ≤ j → cj h (A l l) = A l l) → IsBiLDL h (k+1) (symFull h (bandMat 1 0 A)) B := by
  intro hA
  have hr := hi.real hA
  intro a b ha hb
  have := hi.prod hr a b (by omega) (by omega)
  rw [← this]
  refine (Finset.sum_subset (fun x hx => Finset.mem_range.mpr (by have := Finset.mem_range.mp hx; omega)) fun x hx hx' => ?_)
  rw [Finset.mem_range] at hx hx'
  rw [unitBi_zero B (by omega) (by omega), zero_mul, zero_mul]

theorem gLDL_spec (h : Bool) {N : Nat} (hN : 0 < N) (A : Nat → Nat → K) (hA : ∀ k, k < N → cj h (A k k) = A k k) :
    (gLDL h N A = none ∧ ∃ k, 1 ≤ k ∧ k ≤ N ∧ (lead k (symFull h (bandMat 1 0 A))).det = 0) ∨
    ∃ B, gLDL h N A = some B ∧ LInv h (N-1) A B ∧ B (N-1) (N-1) ≠ 0 := by
  have h0 : LInv h 0 A A := ⟨rfl, fun k hk => absurd hk (by omega), fun k hk => absurd hk (by omega),
    fun k hk => absurd hk (by omega), fun _ _ _ _ => rfl⟩
  have hz : ∀ k C, k < N → LInv h k A C → C k k = 0 → (lead (k+1) (symFull h (bandMat 1 0 A))).det = 0 := by
    intro k C hk hC hz
    rw [(hC.mono le_rfl fun l hl => hA l (by omega)).det]
    exact Finset.prod_eq_zero (Finset.mem_range.mpr (by omega)) hz
  unfold gLDL
  rcases gLoop_inv h A (N-1) 0 A h0 with ⟨e, k, C, h1, h2, h3, h4⟩ | ⟨B, e, hB⟩
  · rw [e]
    exact Or.inl ⟨rfl, k+1, by omega, by omega, hz k C (by omega) h3 h4⟩
  · rw [e, Option.bind_some]
    rw [Nat.zero_add] at hB
    by_cases hl : B (N-1) (N-1) = 0
    · rw [if_pos hl]
      have := hz (N-1) B (by omega) hB hl
      exact Or.inl ⟨rfl, N-1+1, by omega, by omega, this⟩
    · rw [if_neg hl]
      exact Or.inr ⟨B, rfl, hB, hl⟩

theorem gLDL_correct {h : Bool} {N : Nat} (hN : 0 < N) {A B : Nat → Nat → K} (hA : ∀ k, k < N → cj h (A k k) = A k k)
    (e : gLDL h N A = some B) :
    IsBiLDL h N (symFull h (bandMat 1 0 A)) B ∧ (∀ k, k < N → B k k ≠ 0 ∧ cj h (B k k) = B k k) ∧
    ∀ i j, ¬ (i < N ∧ j ≤ i ∧ i ≤ j + 1) → B i j = A i j := by
  rcases gLDL_spec h hN A hA with ⟨e', -⟩ | ⟨C, e', hC, hl⟩
  · rw [e] at e'; cases e'
  · rw [e] at e'
    cases e'
    refine ⟨?_, ?_, ?_⟩
    · have := hC.mono le_rfl fun l hl => hA l (by omega)
      rwa [show N - 1 + 1 = N by omega] at this
    · intro k hk
      refine ⟨?_, hC.real (fun l hl => hA l (by omega)) k (by omega)⟩
      by_cases hk' : k = N-1
      · rw [hk']; exact hl
      · exact hC.ne k (by omega)
    · intro i j hij
      exact hC.out i j (by omega) (by omega)

theorem _root_.TMV.IsBiLDL.lead_mono {h : Bool} {N k : Nat} {H B : Nat → Nat → K} (hb : IsBiLDL h N H B) (hk : k ≤ N) : IsBiLDL h k H B := by
  intro a b ha hb'
  rw [← hb a b (by omega) (by omega)]
  refine (Finset.sum_subset (fun x hx => Finset.mem_range.mpr (by have := Finset.mem_range.mp hx; omega)) fun x hx hx' => ?_)
  rw [Finset.mem_range] at hx hx'
  rw [unitBi_zero B (by omega) (by omega), zero_mul, zero_mul]

theorem gLDL_raises_iff (h : Bool) {N : Nat} (hN : 0 < N) (A : Nat → Nat → K) (hA : ∀ k, k < N → cj h (A k k) = A k k) :
    gLDL h N A = none ↔ ∃ k, 1 ≤ k ∧ k ≤ N ∧ (Matrix.of fun i j : Fin k => symFull h (bandMat 1 0 A) i j).det = 0 := by
  rcases gLDL_spec h hN A hA with ⟨e', hh⟩ | ⟨C, e', hC, hl⟩
  · exact ⟨fun _ => hh, fun _ => e'⟩
  · refine ⟨fun e => (by rw [e] at e'; cases e'), ?_⟩
    rintro ⟨k, h1, h2, hd⟩
    exfalso
    obtain ⟨p1, p2, -⟩ := gLDL_correct hN hA e'
    have := (p1.lead_mono h2).det
    rw [show (lead k (symFull h (bandMat 1 0 A))).det = 0 from hd, eq_comm, Finset.prod_eq_zero_iff] at this
    obtain ⟨l, hl, h0⟩ := this
    exact (p2 l (by have := Finset.mem_range.mp hl; omega)).1 h0

theorem hLDL_eq (N : Nat) (A : Nat → Nat → K) (hA : ∀ k, k < N → RCLike.im (A k k) = 0) (hN : 0 < N) : hLDL N A = gLDL true N A := by
  have cjr : ∀ x : K, cj true x = x ↔ RCLike.im x = 0 := fun x => by
    show star x = x ↔ _
    exact RCLike.conj_eq_iff_im
  have key : ∀ n j B, j + n = N - 1 → LInv true j A B → forRange hStep n j B = forRange (gStep true) n j B := by
    intro n
    induction n with
    | zero => intros; rfl
    | succ n ih =>
      intro j B hj hB
      rw [forRange, forRange]
      have hr := hB.real fun k hk => (cjr _).mpr (hA k (by omega))
      rw [hStep_eq ((cjr _).mp (hr j le_rfl)) (by rw [hB.out _ _ (by omega) (by omega)]; exact hA _ (by omega))]
      rcases gStep_inv hB with ⟨e, hz⟩ | ⟨C, e, hC⟩
      · rw [e]; rfl
      · rw [e, Option.bind_some, Option.bind_some]
        exact ih (j+1) C (by omega) hC
  have h0 : LInv true 0 A A := ⟨rfl, fun k hk => absurd hk (by omega), fun k hk => absurd hk (by omega),
    fun k hk => absurd hk (by omega), fun _ _ _ _ => rfl⟩
  unfold hLDL gLDL
  rw [key (N-1) 0 A (by omega) h0]
  rcases gLoop_inv true A (N-1) 0 A h0 with ⟨e, -⟩ | ⟨B, e, hB⟩
  · rw [e]; rfl
  · rw [e, Option.bind_some, Option.bind_some]
    rw [Nat.zero_add] at hB
    have hr := hB.real fun k hk => (cjr _).mpr (hA k (by omega))
    have him := (cjr _).mp (hr (N-1) le_rfl)
    have e : ((RCLike.re (B (N-1) (N-1)) : ℝ) : K) = B (N-1) (N-1) := re_of_real him
    by_cases hz : RCLike.re (B (N-1) (N-1)) = 0
    · rw [if_pos hz, if_pos (by rw [← e, hz, RCLike.ofReal_zero])]
    · rw [if_neg hz, if_neg (fun hh => hz (by rw [hh, map_zero]))]

theorem symFull_true (A : Nat → Nat → K) : symFull true A = hermMat A := rfl

/-- **C97** (LDL, correctness): the `LDL_Decompose` of a tridiagonal Hermitian matrix gives `L D Lᴴ = A`, `L` unit lower
bidiagonal, `D` real without zeros, and writes nothing outside the lower band. -/
theorem band_ldl_correct (N : Nat) (hN : 0 < N) (A B : Nat → Nat → K) (hA : ∀ i, i < N → RCLike.im (A i i) = 0)
    (h : hLDL N A = some B) :
    IsBiLDL true N (hermMat (bandMat 1 0 A)) B ∧ (∀ k, k < N → B k k ≠ 0 ∧ RCLike.im (B k k) = 0) ∧
    ∀ i j, ¬ (i < N ∧ j ≤ i ∧ i ≤ j + 1) → B i j = A i j := by
  rw [hLDL_eq N A hA hN] at h
  obtain ⟨h1, h2, h3⟩ := gLDL_correct (h := true) hN (fun k hk => RCLike.conj_eq_iff_im.mpr (hA k hk)) h
  exact ⟨h1, fun k hk => ⟨(h2 k hk).1, RCLike.conj_eq_iff_im.mp (h2 k hk).2⟩, h3⟩

/-- **C97** (LDL, detection): `NonPosDef` is thrown exactly when a leading principal minor is zero. -/
theorem band_ldl_raises_iff (N : Nat) (hN : 0 < N) (A : Nat → Nat → K) (hA : ∀ i, i < N → RCLike.im (A i i) = 0) :
    hLDL N A = none ↔ ∃ k, 1 ≤ k ∧ k ≤ N ∧ (Matrix.of fun i j : Fin k => hermMat (bandMat 1 0 A) i j).det = 0 := by
  rw [hLDL_eq N A hA hN]
  exact gLDL_raises_iff true hN A (fun k hk => RCLike.conj_eq_iff_im.mpr (hA k hk))

/-- **C97** (symmetric LDL): the same for a (complex) symmetric tridiagonal matrix, except in diagonal-major storage. -/
theorem sym_band_ldl_correct_partial (N : Nat) (hN : 0 < N) (A B : Nat → Nat → K) (h : sLDL false N A = some B) :
    IsBiLDL false N (symFull false (bandMat 1 0 A)) B ∧ (∀ k, k < N → B k k ≠ 0) ∧
    ∀ i j, ¬ (i < N ∧ j ≤ i ∧ i ≤ j + 1) → B i j = A i j := by
  rw [sLDL_eq] at h
  obtain ⟨h1, h2, h3⟩ := gLDL_correct hN (fun _ _ => rfl) h
  exact ⟨h1, fun k hk => (h2 k hk).1, h3⟩

/-- **C97** (symmetric LDL, detection): an exception is thrown exactly when a leading principal minor is zero. -/
theorem sym_band_ldl_raises_iff_partial (N : Nat) (hN : 0 < N) (A : Nat → Nat → K) :
    sLDL false N A = none ↔
      ∃ k, 1 ≤ k ∧ k ≤ N ∧ (Matrix.of fun i j : Fin k => symFull false (bandMat 1 0 A) i j).det = 0 := by
  rw [sLDL_eq]
  exact gLDL_raises_iff false hN A fun _ _ => rfl

/-- In diagonal-major storage only the first step is made (there is no loop): `diag(2,2,2)` with ones beside the diagonal is
"decomposed" without an exception into factors whose product is another matrix. -/
theorem sym_band_ldl_dm_violated :
    ∃ A B : Nat → Nat → ℝ, sLDL true 3 A = some B ∧ ¬ IsBiLDL false 3 (symFull false (bandMat 1 0 A)) B := by
  let A : Nat → Nat → ℝ := fun i j => if i = j then 2 else if i = j + 1 then 1 else 0
  refine ⟨A, setE (setE A 1 0 (1/2)) 1 1 (3/2), ?_, ?_⟩
  · have e1 : sStep 0 A = some (setE (setE A 1 0 (1/2)) 1 1 (3/2)) := by
      unfold sStep
      rw [if_neg (by norm_num [A])]
      simp only [Nat.zero_add]
      rw [setE_self, setE_ne _ _ _ _ (by omega)]
      norm_num [A]
    unfold sLDL
    rw [if_pos rfl, e1, Option.bind_some, if_neg (by rw [setE_self]; norm_num)]
  · intro h
    have := h 2 2 (by omega) (by omega)
    rw [symFull_tri, if_pos rfl] at this
    norm_num [Finset.sum_range_succ, unitBi, setE, A, cj] at this

/-- Non-vacuity: an indefinite Hermitian tridiagonal matrix is decomposed. -/
example : ∃ B : Nat → Nat → ℝ, hLDL 2 (fun i j => if i = j then 1 else if i = j + 1 then 2 else 0) = some B := by
  have := band_ldl_raises_iff (K := ℝ) 2 (by omega) (fun i j => if i = j then 1 else if i = j + 1 then 2 else 0) (fun i _ => by simp)
  cases h : hLDL (K := ℝ) 2 (fun i j => if i = j then 1 else if i = j + 1 then 2 else 0) with
  | some B => exact ⟨B, rfl⟩
  | none =>
    obtain ⟨k, h1, h2, h3⟩ := this.mp h
    exfalso
    have : k = 1 ∨ k = 2 := by omega
    rcases this with rfl | rfl
    · rw [Matrix.det_fin_one] at h3
      simp [hermMat, bandMat] at h3
    · rw [Matrix.det_fin_two] at h3
      norm_num [hermMat, bandMat] at h3

end
end TMV.BandCH
