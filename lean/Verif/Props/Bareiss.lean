import Verif.Model.Bareiss
import Mathlib.LinearAlgebra.Matrix.SchurComplement
import Mathlib.LinearAlgebra.Matrix.NonsingularInverse
import Mathlib.RingTheory.Localization.FractionRing
import Mathlib.NumberTheory.Zsqrtd.GaussianInt
import Mathlib.Tactic.FieldSimp
import Mathlib.Tactic.LinearCombination

/-! C26: integer determinants. -/
namespace TMV.Bareiss
open Matrix
variable {R : Type _}

/-- The leading `N × N` matrix of an element function. -/
def toMat (N : Nat) (A : Nat → Nat → R) : Matrix (Fin N) (Fin N) R := Matrix.of fun i j => A i j

/-- Index map of a bordered minor: rows `0..k-1` and then row `i`. -/
def bord (k i : Nat) (a : Nat) : Nat := if a < k then a else i

/-- Bordered minor of order `k+1`. -/
def minor [CommRing R] (B : Nat → Nat → R) (k i j : Nat) : R :=
  (toMat (k+1) fun a b => B (bord k i a) (bord k j b)).det

/-- Leading principal minor of order `k`. -/
def lead [CommRing R] (B : Nat → Nat → R) (k : Nat) : R := (toMat k B).det

section field
variable {F : Type _} [Field F]

/-- Element of the Schur complement of the leading `k × k` block. -/
noncomputable def schur (B : Nat → Nat → F) (k i j : Nat) : F :=
  B i j - ∑ a : Fin k, ∑ b : Fin k, B i a * (toMat k B)⁻¹ a b * B b j

theorem det_border (B : Nat → Nat → F) (k m : Nat) (hk : lead B k ≠ 0) (f g : Fin m → Nat) :
    (Matrix.of fun a b : Fin k ⊕ Fin m =>
        B (Sum.elim (fun x : Fin k => (x : Nat)) f a) (Sum.elim (fun x : Fin k => (x : Nat)) g b)).det =
      lead B k * (Matrix.of fun a b => schur B k (f a) (g b)).det := by
  have hu : IsUnit (toMat k B).det := isUnit_iff_ne_zero.mpr hk
  letI := Matrix.invertibleOfIsUnitDet (toMat k B) hu
  have e : (Matrix.of fun a b : Fin k ⊕ Fin m =>
        B (Sum.elim (fun x : Fin k => (x : Nat)) f a) (Sum.elim (fun x : Fin k => (x : Nat)) g b)) =
      Matrix.fromBlocks (toMat k B) (Matrix.of fun (a : Fin k) b => B a (g b))
        (Matrix.of fun a (b : Fin k) => B (f a) b) (Matrix.of fun a b => B (f a) (g b)) := by
    ext a b
    rcases a with a | a <;> rcases b with b | b <;> rfl
  rw [e, Matrix.det_fromBlocks₁₁, lead]
  congr 2
  ext a b
  simp only [Matrix.sub_apply, Matrix.of_apply, schur, Matrix.mul_apply, Matrix.invOf_eq_nonsing_inv]
  congr 1
  rw [Finset.sum_comm]
  apply Finset.sum_congr rfl
  intro x _
  rw [Finset.sum_mul]

theorem det_split (B : Nat → Nat → F) (k m : Nat) (r c : Nat → Nat) (hr : ∀ a, a < k → r a = a)
    (hc : ∀ a, a < k → c a = a) (hk : lead B k ≠ 0) :
    (toMat (k+m) fun a b => B (r a) (c b)).det =
      lead B k * (Matrix.of fun a b : Fin m => schur B k (r (k+a)) (c (k+b))).det := by
  rw [← det_border B k m hk (fun a => r (k+a)) (fun b => c (k+b))]
  rw [← Matrix.det_submatrix_equiv_self (finSumFinEquiv (m := k) (n := m))]
  congr 1
  ext a b
  rcases a with a | a <;> rcases b with b | b <;>
    simp [toMat, hr, hc]

theorem minor_schur (B : Nat → Nat → F) (k i j : Nat) (hk : lead B k ≠ 0) :
    minor B k i j = lead B k * schur B k i j := by
  unfold minor
  rw [det_split B k 1 (bord k i) (bord k j) (by intro a h; simp [bord, h]) (by intro a h; simp [bord, h]) hk]
  simp [bord]

theorem minor_step (B : Nat → Nat → F) (k i j : Nat) (hk : lead B k ≠ 0) :
    lead B k * minor B (k+1) i j =
      minor B k k k * minor B k i j - minor B k i k * minor B k k j := by
  simp only [minor_schur B k _ _ hk]
  unfold minor
  rw [det_split B k 2 (bord (k+1) i) (bord (k+1) j) (by intro a h; simp only [bord]; rw [if_pos (by omega)])
    (by intro a h; simp only [bord]; rw [if_pos (by omega)]) hk, Matrix.det_fin_two]
  simp [bord]
  ring

end field

section domain
variable [CommRing R] [IsDomain R]

theorem minor_map {S : Type _} [CommRing S] (φ : R →+* S) (B : Nat → Nat → R) (k i j : Nat) :
    minor (fun a b => φ (B a b)) k i j = φ (minor B k i j) := by
  unfold minor
  rw [RingHom.map_det]
  rfl

theorem lead_map {S : Type _} [CommRing S] (φ : R →+* S) (B : Nat → Nat → R) (k : Nat) :
    lead (fun a b => φ (B a b)) k = φ (lead B k) := by
  unfold lead
  rw [RingHom.map_det]
  rfl

/-- Sylvester's identity in the form used by the algorithm, over any integral domain. -/
theorem minor_step_domain (B : Nat → Nat → R) (k i j : Nat) (hk : lead B k ≠ 0) :
    lead B k * minor B (k+1) i j =
      minor B k k k * minor B k i j - minor B k i k * minor B k k j := by
  let φ := algebraMap R (FractionRing R)
  have hinj : Function.Injective φ := IsFractionRing.injective R (FractionRing R)
  apply hinj
  have := minor_step (fun a b => φ (B a b)) k i j
    (by rw [lead_map]; exact (map_ne_zero_iff φ hinj).mpr hk)
  simpa only [map_sub, map_mul, minor_map, lead_map] using this

/-- If a whole column of bordered minors vanishes the determinant vanishes. -/
theorem det_zero_of_col (B : Nat → Nat → R) (k m : Nat) (hk : lead B k ≠ 0)
    (h : ∀ i, k ≤ i → i < k + (m+1) → minor B k i k = 0) : (toMat (k+(m+1)) B).det = 0 := by
  let φ := algebraMap R (FractionRing R)
  have hinj : Function.Injective φ := IsFractionRing.injective R (FractionRing R)
  have hk' : lead (fun a b => φ (B a b)) k ≠ 0 := by rw [lead_map]; exact (map_ne_zero_iff φ hinj).mpr hk
  apply hinj
  have e : φ (toMat (k+(m+1)) B).det = lead (fun a b => φ (B a b)) (k+(m+1)) := (lead_map φ B _).symm
  rw [e, lead]
  have := det_split (fun a b => φ (B a b)) k (m+1) id id (fun _ _ => rfl) (fun _ _ => rfl) hk'
  simp only [id] at this
  rw [this, map_zero]
  have hz : (Matrix.of fun a b : Fin (m+1) => schur (fun a b => φ (B a b)) k (k+a) (k+b)).det = 0 := by
    apply Matrix.det_eq_zero_of_column_eq_zero 0
    intro a
    have h1 := h (k+a) (by omega) (by omega)
    have h2 := minor_schur (fun a b => φ (B a b)) k (k+a) k hk'
    rw [minor_map, h1, map_zero] at h2
    have := (mul_eq_zero.mp h2.symm).resolve_left hk'
    simpa using this
  rw [hz, mul_zero]

theorem minor_self (B : Nat → Nat → R) (k : Nat) : minor B k k k = lead B (k+1) := by
  unfold minor lead
  congr 1
  ext a b
  simp only [toMat, Matrix.of_apply, bord]
  congr 1 <;> (split_ifs <;> omega)

theorem minor_congr (B C : Nat → Nat → R) (k i j i' j' : Nat)
    (h : ∀ a b, B (bord k i a) (bord k j b) = C (bord k i' a) (bord k j' b)) :
    minor B k i j = minor C k i' j' := by
  unfold minor; simp only [h]

theorem lead_congr (B C : Nat → Nat → R) (k : Nat) (h : ∀ a b, a < k → b < k → B a b = C a b) :
    lead B k = lead C k := by
  unfold lead
  congr 1
  ext a b
  exact h a b a.2 b.2

theorem det_swapRows (N : Nat) (A : Nat → Nat → R) (i j : Nat) (hi : i < N) (hj : j < N) :
    (toMat N (swapRows A i j)).det = (if i ≠ j then -1 else 1) * (toMat N A).det := by
  by_cases h : i = j
  · simp [swapRows, h]
  · have e : toMat N (swapRows A i j) = (toMat N A).submatrix (Equiv.swap ⟨i, hi⟩ ⟨j, hj⟩) id := by
      ext a b
      simp only [toMat, swapRows, h, ne_eq, not_false_eq_true, if_true, Matrix.of_apply, submatrix_apply,
        Equiv.swap_apply_def, Fin.ext_iff, id]
      split_ifs <;> rfl
    rw [e, Matrix.det_permute, Equiv.Perm.sign_swap (by simpa [Fin.ext_iff] using h)]
    simp [h]

theorem swapCols_eq (A : Nat → Nat → R) (i j : Nat) :
    swapCols A i j = fun a b => swapRows (fun x y => A y x) i j b a := by
  unfold swapCols swapRows
  split_ifs <;> rfl

theorem det_swapCols (N : Nat) (A : Nat → Nat → R) (i j : Nat) (hi : i < N) (hj : j < N) :
    (toMat N (swapCols A i j)).det = (if i ≠ j then -1 else 1) * (toMat N A).det := by
  have e1 : toMat N (swapCols A i j) = (toMat N (swapRows (fun x y => A y x) i j))ᵀ := by
    rw [swapCols_eq]; rfl
  have e2 : (toMat N (fun x y => A y x)) = (toMat N A)ᵀ := rfl
  rw [e1, Matrix.det_transpose, det_swapRows N _ i j hi hj, e2, Matrix.det_transpose]

theorem swapRows_apply (A : Nat → Nat → R) (i j a b : Nat) :
    swapRows A i j a b = A (Equiv.swap i j a) b := by
  unfold swapRows
  by_cases h : i = j
  · simp [h]
  · simp only [h, ne_eq, not_false_eq_true, if_true, Equiv.swap_apply_def]
    split_ifs <;> rfl

theorem swapCols_apply (A : Nat → Nat → R) (i j a b : Nat) :
    swapCols A i j a b = A a (Equiv.swap i j b) := by
  rw [swapCols_eq]; simp only [swapRows_apply]

theorem bord_swap (k i p q a : Nat) (hp : k ≤ p) (hq : k ≤ q) :
    Equiv.swap p q (bord k i a) = bord k (Equiv.swap p q i) a := by
  unfold bord
  by_cases h : a < k
  · simp only [h, if_true]
    exact Equiv.swap_apply_of_ne_of_ne (by omega) (by omega)
  · simp only [h, if_false]

/-- State invariant before step `k`: `B` is a row/column permutation of the input, and the working
array holds the bordered minors of `B`. -/
structure InvB (N k : Nat) (B A : Nat → Nat → R) : Prop where
  el : ∀ i j, k ≤ i → i < N → k ≤ j → j < N → A i j = minor B k i j
  prev : 0 < k → A (k-1) (k-1) = lead B k
  nz : lead B k ≠ 0

theorem InvB.swap {N k : Nat} {B A : Nat → Nat → R} (h : InvB N k B A) (p q : Nat) (hp : k ≤ p)
    (hpN : p < N) (hq : k ≤ q) (hqN : q < N) :
    InvB N k (swapCols (swapRows B p k) q k) (swapCols (swapRows A p k) q k) := by
  have low : ∀ (x y a : Nat), k ≤ x → k ≤ y → a < k → Equiv.swap x y a = a := fun x y a h1 h2 h3 =>
    Equiv.swap_apply_of_ne_of_ne (by omega) (by omega)
  have hswlt : ∀ x a, k ≤ x → x < N → k ≤ a → a < N → k ≤ Equiv.swap x k a ∧ Equiv.swap x k a < N := by
    intro x a h1 h2 h3 h4
    rw [Equiv.swap_apply_def]; split_ifs <;> omega
  have hlead : lead (swapCols (swapRows B p k) q k) k = lead B k := by
    apply lead_congr
    intro a b ha hb
    rw [swapCols_apply, swapRows_apply, low p k a hp le_rfl ha, low q k b hq le_rfl hb]
  refine ⟨?_, ?_, by rw [hlead]; exact h.nz⟩
  · intro i j h1 h2 h3 h4
    rw [swapCols_apply, swapRows_apply]
    have hi := hswlt p i hp hpN h1 h2
    have hj := hswlt q j hq hqN h3 h4
    rw [h.el _ _ hi.1 hi.2 hj.1 hj.2]
    apply minor_congr
    intro a b
    rw [swapCols_apply, swapRows_apply, bord_swap k i p k a hp le_rfl, bord_swap k j q k b hq le_rfl]
  · intro hk
    rw [hlead, ← h.prev hk, swapCols_apply, swapRows_apply, low p k _ hp le_rfl (by omega),
      low q k _ hq le_rfl (by omega)]

end domain

section search
variable (abs2 : R → Nat)

theorem findRow_spec [Zero R] (h0 : ∀ x, abs2 x = 0 ↔ x = 0) (A : Nat → Nat → R) (j : Nat) :
    ∀ n i, (findRow abs2 A j n i = i + n ∧ ∀ a, i ≤ a → a < i + n → A a j = 0) ∨
      (i ≤ findRow abs2 A j n i ∧ findRow abs2 A j n i < i + n ∧ A (findRow abs2 A j n i) j ≠ 0) := by
  intro n
  induction n with
  | zero => intro i; left; exact ⟨rfl, by intro a h1 h2; omega⟩
  | succ n ih =>
    intro i
    unfold findRow
    by_cases hz : A i j = 0
    · rw [if_pos (by simp [isZero, h0, hz])]
      rcases ih (i+1) with ⟨h1, h2⟩ | ⟨h1, h2, h3⟩
      · left
        refine ⟨by omega, ?_⟩
        intro a h3 h4
        rcases Nat.lt_or_eq_of_le h3 with h3 | h3
        · exact h2 a h3 (by omega)
        · exact h3 ▸ hz
      · right; exact ⟨by omega, by omega, h3⟩
    · rw [if_neg (by simp [isZero, h0, hz])]
      right; exact ⟨le_rfl, by omega, hz⟩

theorem searchCol_spec [Zero R] (h0 : ∀ x, abs2 x = 0 ↔ x = 0) (A : Nat → Nat → R) (k N j : Nat)
    (hj : k ≤ j ∧ j < N) : ∀ n i cur, k ≤ i → i + n ≤ N → k ≤ cur.1 → cur.1 < N → k ≤ cur.2 → cur.2 < N →
      A cur.1 cur.2 ≠ 0 →
      let r := searchCol abs2 A j n i cur
      k ≤ r.1 ∧ r.1 < N ∧ k ≤ r.2 ∧ r.2 < N ∧ A r.1 r.2 ≠ 0 := by
  intro n
  induction n with
  | zero => intro i cur _ _ h1 h2 h3 h4 h5; exact ⟨h1, h2, h3, h4, h5⟩
  | succ n ih =>
    intro i cur hi hin h1 h2 h3 h4 h5
    unfold searchCol
    by_cases hc : abs2 (A i j) < abs2 (A cur.1 cur.2) ∧ ¬ isZero abs2 (A i j)
    · have hne : A i j ≠ 0 := by simpa [isZero, h0] using hc.2
      rw [if_pos hc]
      by_cases hu : isUnity abs2 (A i j)
      · rw [if_pos hu]; exact ⟨hi, by simp; omega, hj.1, hj.2, hne⟩
      · rw [if_neg hu]
        exact ih (i+1) (i, j) (by omega) (by omega) hi (by simp; omega) hj.1 hj.2 hne
    · rw [if_neg hc]
      exact ih (i+1) cur (by omega) (by omega) h1 h2 h3 h4 h5

theorem search_spec [Zero R] (h0 : ∀ x, abs2 x = 0 ↔ x = 0) (A : Nat → Nat → R) (k N : Nat) (hk : k ≤ N) :
    ∀ n j cur, k ≤ j → j + n ≤ N → k ≤ cur.1 → cur.1 < N → k ≤ cur.2 → cur.2 < N → A cur.1 cur.2 ≠ 0 →
      let r := search abs2 A k (N-k) n j cur
      k ≤ r.1 ∧ r.1 < N ∧ k ≤ r.2 ∧ r.2 < N ∧ A r.1 r.2 ≠ 0 := by
  intro n
  induction n with
  | zero => intro j cur _ _ h1 h2 h3 h4 h5; exact ⟨h1, h2, h3, h4, h5⟩
  | succ n ih =>
    intro j cur hj hjn h1 h2 h3 h4 h5
    unfold search
    by_cases hu : isUnity abs2 (A cur.1 cur.2)
    · rw [if_pos hu]; exact ⟨h1, h2, h3, h4, h5⟩
    · rw [if_neg hu]
      obtain ⟨a, b, c, d, e⟩ := searchCol_spec abs2 h0 A k N j ⟨hj, by omega⟩ (N-k) k cur le_rfl (by omega) h1 h2 h3 h4 h5
      exact ih (j+1) _ (by omega) (by omega) a b c d e

end search

section main
variable [EuclideanDomain R] [DecidableEq R]

theorem elim_spec (N k : Nat) (B A : Nat → Nat → R) (h : InvB N k B A) (hk : k < N) (hp : A k k ≠ 0) :
    ∃ A', elim N k A = some A' ∧ InvB N (k+1) B A' := by
  have hlead1 : lead B (k+1) ≠ 0 := by
    rw [← minor_self, ← h.el k k le_rfl hk le_rfl hk]; exact hp
  let A1 : Nat → Nat → R := fun a b =>
    if k+1 ≤ a ∧ a < k+1 + (N-(k+1)) ∧ k+1 ≤ b ∧ b < k+1 + (N-(k+1)) then A k k * A a b - A a k * A k b
    else A a b
  have h1 : updBlock (fun A i j => some (A k k * A i j - A i k * A k j)) (k+1) (N-(k+1)) (k+1) (N-(k+1)) A =
      some A1 := by
    apply updBlock_spec
    intro C i j hi1 hi2 hj1 hj2 hC hout
    rw [hC, hout k k (by omega), hout i k (by omega), hout k j (by omega)]
  have hA1 : ∀ i j, k+1 ≤ i → i < N → k+1 ≤ j → j < N → A1 i j = lead B k * minor B (k+1) i j := by
    intro i j a b c d
    simp only [A1]
    rw [if_pos (by omega), minor_step_domain B k i j h.nz, h.el k k le_rfl hk le_rfl hk,
      h.el i j (by omega) b (by omega) d, h.el i k (by omega) b le_rfl hk, h.el k j le_rfl hk (by omega) d]
  by_cases hk0 : k > 0
  · let A2 : Nat → Nat → R := fun a b =>
      if k+1 ≤ a ∧ a < k+1 + (N-(k+1)) ∧ k+1 ≤ b ∧ b < k+1 + (N-(k+1)) then minor B (k+1) a b else A1 a b
    have h2 : updBlock (fun A i j => exactDiv (A i j) (A (k-1) (k-1))) (k+1) (N-(k+1)) (k+1) (N-(k+1)) A1 =
        some A2 := by
      apply updBlock_spec
      intro C i j hi1 hi2 hj1 hj2 hC hout
      have e : A1 (k-1) (k-1) = lead B k := by
        simp only [A1]; rw [if_neg (by omega)]; exact h.prev hk0
      rw [hC, hout (k-1) (k-1) (by omega), hA1 i j hi1 (by omega) hj1 (by omega), e, exactDiv,
        if_pos ⟨h.nz, by rw [EuclideanDomain.mod_eq_zero]; exact dvd_mul_right _ _⟩]
      congr 1
      exact mul_div_cancel_left₀ _ h.nz
    refine ⟨A2, by simp only [elim, h1, Option.bind_eq_bind, Option.bind_some, hk0, if_true, h2], ?_⟩
    refine ⟨?_, ?_, hlead1⟩
    · intro i j a b c d
      simp only [A2]; rw [if_pos (by omega)]
    · intro _
      simp only [A2, A1, Nat.add_sub_cancel]
      rw [if_neg (by omega), if_neg (by omega), ← minor_self]
      exact h.el k k le_rfl hk le_rfl hk
  · refine ⟨A1, by simp only [elim, h1, Option.bind_eq_bind, Option.bind_some, hk0, if_false], ?_⟩
    have hk' : k = 0 := by omega
    subst hk'
    refine ⟨?_, ?_, hlead1⟩
    · intro i j a b c d
      rw [hA1 i j a b c d]
      simp [lead]
    · intro _
      simp only [A1]
      rw [if_neg (by omega), ← minor_self]
      exact h.el 0 0 le_rfl hk le_rfl hk

theorem loop_spec (abs2 : R → Nat) (h0 : ∀ x, abs2 x = 0 ↔ x = 0) (N : Nat) :
    ∀ n k A det B, k + n + 1 = N → InvB N k B A →
      loop abs2 N n k A det = some (det * (toMat N B).det) := by
  intro n
  induction n with
  | zero =>
    intro k A det B hk h
    have e : N - 1 = k := by omega
    have e2 : A k k = (toMat N B).det := by
      rw [h.el k k le_rfl (by omega) le_rfl (by omega), minor_self]
      show (toMat (k+1) B).det = _
      have : k + 1 = N := by omega
      subst this; rfl
    simp only [loop, e, e2]
  | succ n ih =>
    intro k A det B hk h
    unfold loop
    simp only
    rcases findRow_spec abs2 h0 A k (N-k) k with ⟨h1, h2⟩ | ⟨h1, h2, h3⟩
    · rw [if_pos (by omega)]
      have : (toMat N B).det = 0 := by
        have := det_zero_of_col B k (N-k-1) h.nz (by
          intro i hi1 hi2
          rw [← h.el i k hi1 (by omega) le_rfl (by omega)]
          exact h2 i hi1 (by omega))
        have e : k + (N-k-1+1) = N := by omega
        rwa [e] at this
      rw [this, mul_zero]
    · rw [if_neg (by omega)]
      obtain ⟨a, b, c, d, e⟩ := search_spec abs2 h0 A k N (by omega) (N-k) k (findRow abs2 A k (N-k) k, k)
        le_rfl (by omega) h1 (by simp; omega) le_rfl (by simp; omega) h3
      set cur := search abs2 A k (N-k) (N-k) k (findRow abs2 A k (N-k) k, k) with hcur
      rw [if_neg (by simpa [isZero, h0] using e)]
      have hs := h.swap cur.1 cur.2 a b c d
      have hpiv : swapCols (swapRows A cur.1 k) cur.2 k k k ≠ 0 := by
        rw [swapCols_apply, swapRows_apply, Equiv.swap_apply_right, Equiv.swap_apply_right]
        exact e
      obtain ⟨A', e1, e2⟩ := elim_spec N k _ _ hs (by omega) hpiv
      rw [e1, Option.bind_some, ih (k+1) A' _ _ (by omega) e2]
      congr 1
      rw [det_swapCols N _ _ _ d (by omega), det_swapRows N _ _ _ b (by omega)]
      split_ifs <;> ring

/-- **C26** (Bareiss): every division is exact and the result is the determinant. -/
theorem bareiss_eq_det (abs2 : R → Nat) (h0 : ∀ x, abs2 x = 0 ↔ x = 0) (N : Nat) (hN : 0 < N)
    (A : Nat → Nat → R) : bareiss abs2 N A = some (toMat N A).det := by
  unfold bareiss
  rw [loop_spec abs2 h0 N (N-1) 0 A 1 A (by omega), one_mul]
  refine ⟨?_, by intro h; omega, by simp [lead]⟩
  intro i j _ _ _ _
  unfold minor
  show A i j = (toMat 1 _).det
  rw [Matrix.det_fin_one]
  simp [toMat, bord]

end main

/-- **C26**: for every size and every integer-like matrix, `det()` returns the determinant, and no inexact
division occurs (that would give `none`).  `abs2` is the magnitude used for choosing pivots. -/
theorem integerDet_spec [EuclideanDomain R] [DecidableEq R] (abs2 : R → Nat) (h0 : ∀ x, abs2 x = 0 ↔ x = 0) (N : Nat)
    (A : Nat → Nat → R) :
    integerDet abs2 N A = some (Matrix.of fun i j : Fin N => A i j).det := by
  unfold integerDet
  by_cases h0' : N = 0
  · subst h0'; simp
  by_cases h1 : N = 1
  · subst h1; simp
  by_cases h2 : N = 2
  · subst h2; simp [Matrix.det_fin_two]
  by_cases h3 : N = 3
  · subst h3; simp [Matrix.det_fin_three]; ring
  rw [if_neg h0', if_neg h1, if_neg h2, if_neg h3]
  exact bareiss_eq_det abs2 h0 N (by omega) A

/-- **C26** for `int`. -/
theorem integerDet_int (N : Nat) (A : Matrix (Fin N) (Fin N) ℤ) :
    integerDet Int.natAbs N (fun i j => if h : i < N ∧ j < N then A ⟨i, h.1⟩ ⟨j, h.2⟩ else 0) = some A.det := by
  rw [integerDet_spec Int.natAbs (fun x => Int.natAbs_eq_zero)]
  congr 2
  ext i j
  simp

/-- **C26** for `complex<int>`; `TMV_ABS2` is `|re|+|im|`. -/
theorem integerDet_gaussian (N : Nat) (A : Matrix (Fin N) (Fin N) GaussianInt) :
    integerDet (fun z : GaussianInt => z.re.natAbs + z.im.natAbs) N
      (fun i j => if h : i < N ∧ j < N then A ⟨i, h.1⟩ ⟨j, h.2⟩ else 0) = some A.det := by
  rw [integerDet_spec]
  · congr 2
    ext i j <;> simp
  · intro z
    rw [Zsqrtd.ext_iff]
    simp [Int.natAbs_eq_zero]

-- non-vacuity / sanity: a 4×4 matrix that needs a row swap
example : integerDet Int.natAbs 4 (fun i j => (![![0,2,3,1],![5,4,3,2],![7,1,0,2],![2,2,9,4]] : Matrix (Fin 4) (Fin 4) ℤ)
    (Fin.ofNat 4 i) (Fin.ofNat 4 j)) = some 27 := by decide +kernel

end TMV.Bareiss
