import Verif.Model.BandLU
import Verif.Props.BandTri
import Verif.Props.LUDiv

set_option linter.unusedSectionVars false

/-! C89: LU decomposition of band matrices, and division, inverse and determinant through it. -/
namespace TMV.BandLU
open TMV.Tri TMV.TriProd
variable {K : Type _} [Field K] [DecidableEq K] {S : Type _} [Field S] [LinearOrder S] [IsStrictOrderedRing S]

/-- The multiplier of row `a` in step `j`, as stored in the packed matrix. -/
def ml (N lo : Nat) (A : Nat → Nat → K) (j a : Nat) : K := if j < a ∧ a < min (j+lo+1) N then A a j else 0

/-- One factor of `P*L`: `x ↦ S_j (x + l_j x_j)`. -/
def plStep (N lo : Nat) (A : Nat → Nat → K) (P : Nat → Nat) (j : Nat) (x : Nat → K) : Nat → K :=
  fun a => x (Equiv.swap j (P j) a) + ml N lo A j (Equiv.swap j (P j) a) * x j

/-- `M_i M_{i+1} ... M_{i+n-1} x`: multiplication by the packed `P*L`. -/
def pl (N lo : Nat) (A : Nat → Nat → K) (P : Nat → Nat) : Nat → Nat → (Nat → K) → Nat → K
  | 0, _, x => x
  | n+1, i, x => plStep N lo A P i (pl N lo A P n (i+1) x)

theorem pl_snoc (N lo : Nat) (A : Nat → Nat → K) (P : Nat → Nat) (n i : Nat) (x : Nat → K) :
    pl N lo A P (n+1) i x = pl N lo A P n i (plStep N lo A P (i+n) x) := by
  induction n generalizing i with
  | zero => rfl
  | succ n ih =>
    rw [pl, ih (i+1), pl, show i + 1 + n = i + (n+1) by omega]

theorem pl_congr (N lo : Nat) {A A' : Nat → Nat → K} {P P' : Nat → Nat} (n i : Nat) (x : Nat → K)
    (hA : ∀ a b, b < i + n → A a b = A' a b) (hP : ∀ k, k < i + n → P k = P' k) :
    pl N lo A P n i x = pl N lo A' P' n i x := by
  induction n generalizing i with
  | zero => rfl
  | succ n ih =>
    rw [pl, pl, ih (i+1) (fun a b h => hA a b (by omega)) (fun k h => hP k (by omega))]
    funext a
    simp only [plStep, ml, hP i (by omega)]
    rw [hA _ i (by omega)]

theorem swap_lt {N j p a : Nat} (hj : j < N) (hp : p < N) : Equiv.swap j p a < N ↔ a < N := by
  rw [Equiv.swap_apply_def]; split_ifs <;> omega

theorem swap_ge {j p a : Nat} (hp : j ≤ p) (ha : j ≤ a) : j ≤ Equiv.swap j p a := by
  rw [Equiv.swap_apply_def]; split_ifs <;> omega

theorem swap_small {j p a : Nat} (hp : j ≤ p) (ha : a < j) : Equiv.swap j p a = a := by
  rw [Equiv.swap_apply_of_ne_of_ne] <;> omega

theorem swap_big {j p a : Nat} (hp : j ≤ p) (ha : p < a) : Equiv.swap j p a = a := by
  rw [Equiv.swap_apply_of_ne_of_ne] <;> omega

theorem pl_ext (N lo : Nat) (A : Nat → Nat → K) (P : Nat → Nat) (n i : Nat) {x y : Nat → K} (hn : i + n ≤ N)
    (hP : ∀ k, k < i + n → P k < N) (h : ∀ a, a < N → x a = y a) : ∀ a, a < N → pl N lo A P n i x a = pl N lo A P n i y a := by
  induction n generalizing i with
  | zero => exact h
  | succ n ih =>
    intro a ha
    have := ih (i+1) (by omega) (fun k hk => hP k (by omega))
    rw [pl, pl]
    simp only [plStep]
    rw [this _ ((swap_lt (by omega) (hP i (by omega))).mpr ha), this i (by omega)]

theorem pl_sum (N lo : Nat) (A : Nat → Nat → K) (P : Nat → Nat) (n i : Nat) {ι : Type _} (s : Finset ι) (f : ι → Nat → K)
    (x : ι → K) (a : Nat) :
    pl N lo A P n i (fun c => ∑ b ∈ s, f b c * x b) a = ∑ b ∈ s, pl N lo A P n i (f b) a * x b := by
  induction n generalizing i a with
  | zero => rfl
  | succ n ih =>
    simp only [pl, plStep]
    rw [ih, ih, Finset.mul_sum, ← Finset.sum_add_distrib]
    exact Finset.sum_congr rfl fun b _ => by ring

theorem pl_out (N lo : Nat) (A : Nat → Nat → K) (P : Nat → Nat) (n i : Nat) (x : Nat → K) (hn : i + n ≤ N)
    (hP : ∀ k, k < i + n → P k < N) (a : Nat) (ha : N ≤ a) : pl N lo A P n i x a = x a := by
  induction n generalizing i with
  | zero => rfl
  | succ n ih =>
    simp only [pl, plStep]
    have h0 := hP i (by omega)
    rw [Equiv.swap_apply_of_ne_of_ne (by omega) (by omega), ih (i+1) (by omega) (fun k hk => hP k (by omega)), ml,
      if_neg (by omega)]
    ring

/-- The matrix still to be decomposed after `j` steps (rows above `j` are rows of `U`). -/
def work (lo hi j : Nat) (A : Nat → Nat → K) : Nat → Nat → K :=
  fun a b => if min a j ≤ b ∧ a ≤ b + lo ∧ b ≤ a + hi then A a b else 0

/-- What one elimination step does to the elements. -/
structure Step (ab : K → S) (N lo hi j p : Nat) (A A3 : Nat → Nat → K) : Prop where
  hp : j ≤ p ∧ p < min (j+lo+1) N
  frame : ∀ a b, ¬ (j ≤ a ∧ a < min (j+lo+1) N ∧ j ≤ b ∧ b < min (j+hi+1) N) → A3 a b = A a b
  row : ∀ b, j ≤ b → b < min (j+hi+1) N → A3 j b = A p b
  col : ∀ c, j < c → c < min (j+lo+1) N → A (Equiv.swap j p c) j = A3 c j * A p j ∧ ab (A3 c j) ≤ 1
  upd : ∀ c b, j < c → c < min (j+lo+1) N → j < b → b < min (j+hi+1) N →
    A3 c b = A (Equiv.swap j p c) b - A3 c j * A p b

/-- Loop invariant of both decompositions; `A0` is the matrix, `M0` the memory at the start. -/
structure Inv (ab : K → S) (N lo hi h0 j : Nat) (A0 M0 A : Nat → Nat → K) (P : Nat → Nat) : Prop where
  zero : ∀ a b, j ≤ a → a < N → b < N → b ≤ a + hi → max (a+1) (j+lo) + h0 ≤ b → A a b = 0
  prod : ∀ a b, a < N → b < N → A0 a b = pl N lo A P j 0 (fun c => work lo hi j A c b) a
  range : ∀ k, k < j → k ≤ P k ∧ P k < min (k+lo+1) N
  bound : ∀ a k, k < j → k < a → a < min (k+lo+1) N → ab (A a k) ≤ 1
  frame : ∀ a b, ¬ (a < N ∧ b < N ∧ a ≤ b + lo ∧ b ≤ a + hi) → A a b = M0 a b

theorem Inv.step {ab : K → S} {N lo hi h0 j p : Nat} {A0 M0 A A3 : Nat → Nat → K} {P : Nat → Nat} (hj : j + 1 < N)
    (hlh : lo + h0 ≤ hi ∨ N ≤ hi + 1) (I : Inv ab N lo hi h0 j A0 M0 A P) (s : Step ab N lo hi j p A A3) :
    Inv ab N lo hi h0 (j+1) A0 M0 A3 (Function.update P j p) := by
  obtain ⟨hp1, hp2⟩ := s.hp
  -- rows taking part vanish right of column j+lo+h0
  have z : ∀ a b, j ≤ a → a < min (j+lo+1) N → b < N → b ≤ a + hi → j+lo+1+h0 ≤ b → A a b = 0 := by
    intro a b h1 h2 h3 h4 h5
    exact I.zero a b h1 (by omega) h3 h4 (by omega)
  have hsr : ∀ c, j ≤ c → c < min (j+lo+1) N → j ≤ Equiv.swap j p c ∧ Equiv.swap j p c < min (j+lo+1) N := by
    intro c h1 h2
    rw [Equiv.swap_apply_def]; split_ifs <;> omega
  have hsj : Equiv.swap j p j = p := Equiv.swap_apply_left _ _
  refine ⟨?_, ?_, ?_, ?_, ?_⟩
  · intro a b ha haN hb hba hz
    by_cases hin : a < min (j+lo+1) N ∧ b < min (j+hi+1) N
    · rw [s.upd a b (by omega) hin.1 (by omega) hin.2]
      obtain ⟨q1, q2⟩ := hsr a (by omega) hin.1
      rw [z _ b q1 q2 hb (by omega) (by omega), z p b hp1 hp2 hb (by omega) (by omega)]; ring
    · rw [s.frame a b (by omega)]
      exact I.zero a b (by omega) haN hb hba (by omega)
  · intro a b ha hb
    rw [I.prod a b ha hb, pl_snoc, zero_add]
    have e : ∀ x, pl N lo A3 (Function.update P j p) j 0 x = pl N lo A P j 0 x := by
      intro x
      refine pl_congr N lo j 0 x (fun a b h => s.frame a b (by omega)) (fun k h => ?_)
      rw [Function.update_of_ne (by omega)]
    rw [e]
    refine pl_ext N lo A P j 0 (by omega) (fun k hk => by have := (I.range k (by omega)).2; omega) (fun c' hc' => ?_) a ha
    -- c' = swap c
    simp only [plStep, Function.update_self]
    obtain ⟨c, rfl⟩ : ∃ c, c' = Equiv.swap j p c := ⟨Equiv.swap j p c', by simp⟩
    rw [Equiv.swap_apply_self]
    have hc : c < N := (swap_lt (by omega) (by omega)).mp hc'
    have hrowj : work lo hi (j+1) A3 j b = work lo hi j A p b := by
      unfold work
      by_cases h1 : j ≤ b
      · by_cases h2 : b < min (j+hi+1) N
        · rw [if_pos (by omega), if_pos (by omega), s.row b h1 h2]
        · rw [if_neg (by omega)]
          split_ifs with h3
          · exact (z p b hp1 hp2 hb (by omega) (by omega)).symm
          · rfl
      · rw [if_neg (by omega), if_neg (by omega)]
    rcases Nat.lt_trichotomy c j with h | h | h
    · -- rows of U
      rw [swap_small hp1 h, ml, if_neg (by omega), zero_mul, add_zero]
      unfold work
      rw [s.frame c b (by omega), show min c j = c by omega, show min c (j+1) = c by omega]
    · subst h
      rw [hsj, ml, if_neg (by omega), zero_mul, add_zero, hrowj]
    · by_cases hce : c < min (j+lo+1) N
      · obtain ⟨q1, q2⟩ := hsr c (by omega) hce
        rw [ml, if_pos ⟨h, hce⟩, hrowj]
        rcases Nat.lt_trichotomy b j with hbj | hbj | hbj
        · unfold work
          rw [if_neg (by omega), if_neg (by omega), if_neg (by omega)]; ring
        · subst hbj
          unfold work
          rw [if_pos (by omega), if_neg (by omega), if_pos (by omega), (s.col c h hce).1]; ring
        · by_cases hbe : b < min (j+hi+1) N
          · unfold work
            rw [if_pos (by omega), if_pos (by omega), if_pos (by omega), s.upd c b h hce hbj hbe]; ring
          · have w0 : ∀ r, j ≤ r → r < min (j+lo+1) N → work lo hi j A r b = 0 := by
              intro r h1 h2
              unfold work
              split_ifs with h3
              · exact z r b h1 h2 hb (by omega) (by omega)
              · rfl
            rw [w0 _ q1 q2, w0 p hp1 hp2]
            have : work lo hi (j+1) A3 c b = 0 := by
              unfold work
              split_ifs with h3
              · rw [s.frame c b (by omega)]
                exact z c b (by omega) hce hb (by omega) (by omega)
              · rfl
            rw [this]; ring
      · rw [swap_big hp1 (by omega), ml, if_neg (by omega), zero_mul, add_zero]
        unfold work
        rw [s.frame c b (by omega)]
        by_cases hbj : b = j
        · subst hbj; rw [if_neg (by omega), if_neg (by omega)]
        · by_cases hc2 : j ≤ b
          · have : (min c (j+1) ≤ b) ↔ (min c j ≤ b) := by omega
            simp only [this]
          · rw [if_neg (by omega), if_neg (by omega)]
  · intro k hk
    by_cases hkj : k = j
    · subst hkj; rw [Function.update_self]; exact s.hp
    · rw [Function.update_of_ne hkj]; exact I.range k (by omega)
  · intro a k hk hka ha
    by_cases hkj : k = j
    · subst hkj; exact (s.col a hka ha).2
    · rw [s.frame a k (by omega)]; exact I.bound a k (by omega) hka ha
  · intro a b hab
    rw [s.frame a b (by omega)]; exact I.frame a b hab

/-- **Specification**: `A'`, `P` is a packed band LU decomposition of `A0`: `A0` is the product of the row interchanges
and elementary lower triangular matrices with the upper triangle (bandwidth `hi`) of `A'`. -/
structure IsPLU (ab : K → S) (N lo hi : Nat) (A0 A' : Nat → Nat → K) (P : Nat → Nat) : Prop where
  range : ∀ k, k < N → k ≤ P k ∧ P k < min (k+lo+1) N
  bound : ∀ a k, k < a → a < min (k+lo+1) N → ab (A' a k) ≤ 1
  prod : ∀ a b, a < N → b < N → A0 a b = pl N lo A' P (N-1) 0 (fun c => bandMat 0 hi A' c b) a

theorem Inv.final {ab : K → S} {N lo hi h0 : Nat} {A0 M0 A : Nat → Nat → K} {P : Nat → Nat} (hN : 0 < N)
    (I : Inv ab N lo hi h0 (N-1) A0 M0 A P) : IsPLU ab N lo hi A0 A (Function.update P (N-1) (N-1)) := by
  have hP : ∀ k, k < N-1 → Function.update P (N-1) (N-1) k = P k := fun k hk => Function.update_of_ne (by omega) _ _
  refine ⟨fun k hk => ?_, fun a k hka ha => I.bound a k (by omega) hka ha, fun a b ha hb => ?_⟩
  · by_cases h : k = N-1
    · subst h; rw [Function.update_self]; omega
    · rw [hP k (by omega)]; exact I.range k (by omega)
  · rw [I.prod a b ha hb, pl_congr N lo (A' := A) (P' := P) (N-1) 0 _ (fun _ _ _ => rfl) (fun k hk => hP k (by omega))]
    refine pl_ext N lo A P (N-1) 0 (by omega) (fun k hk => by have := (I.range k (by omega)).2; omega) (fun c hc => ?_) a ha
    unfold work bandMat
    have : min c (N-1) = c := by omega
    rw [this]
    by_cases h : c ≤ b ∧ b ≤ c + hi
    · rw [if_pos (by omega), if_pos (by omega)]
    · rw [if_neg (by omega), if_neg (by omega)]

theorem Inv.init (ab : K → S) {N lo hi h0 : Nat} {A : Nat → Nat → K} (P : Nat → Nat) (hh : h0 ≤ hi)
    (hz : ∀ a b, a < N → b < N → a + h0 < b → b ≤ a + hi → A a b = 0) :
    Inv ab N lo hi h0 0 (bandMat lo h0 A) A A P := by
  refine ⟨fun a b _ ha hb h1 h2 => hz a b ha hb (by omega) h1, fun a b ha hb => ?_, by omega, by omega, fun _ _ _ => rfl⟩
  show _ = work lo hi 0 A a b
  unfold work bandMat
  by_cases h : a ≤ b + lo ∧ b ≤ a + h0
  · rw [if_pos h, if_pos (by omega)]
  · rw [if_neg h]
    split_ifs with h2
    · exact (hz a b ha hb (by omega) (by omega)).symm
    · rfl

theorem bPivot_spec (ab : AbsoluteValue K S) (uf : S → Bool) (huf : ∀ x, uf x = true ↔ x = 0) {j E R : Nat} (hjE : j < E)
    (hjR : j < R) (A : Nat → Nat → K) :
    j ≤ (bPivot ab uf j E R A).2 ∧ (bPivot ab uf j E R A).2 < E ∧
    (∀ a b, (bPivot ab uf j E R A).1 a b =
      if j ≤ b ∧ b < R then A (Equiv.swap j (bPivot ab uf j E R A).2 a) b else A a b) ∧
    ∀ c, j ≤ c → c < E → ab (A c j) ≤ ab (A (bPivot ab uf j E R A).2 j) := by
  obtain ⟨m1, m2, m3⟩ := LU.maxAbs_spec ab (fun i => A (j+i) j) (E-j) (by omega)
  have m3' : ∀ c, j ≤ c → c < E → ab (A c j) ≤ (LU.maxAbs ab (fun i => A (j+i) j) (E-j)).1 := by
    intro c h1 h2
    have := m3 (c-j) (by omega)
    rwa [show j + (c-j) = c by omega] at this
  unfold bPivot
  generalize hm : LU.maxAbs ab (fun i => A (j+i) j) (E-j) = m at *
  by_cases hu : uf m.1 = true
  · have h0 := (huf _).mp hu
    rw [h0] at m3'
    have z : ∀ c, j ≤ c → c < E → A c j = 0 := fun c h1 h2 => by
      have := m3' c h1 h2
      exact (map_eq_zero ab).mp (le_antisymm this (ab.nonneg _))
    simp only [hu, if_true, ne_eq, not_true_eq_false, if_false]
    refine ⟨le_refl _, hjE, ?_, ?_⟩
    · intro a b
      rw [Equiv.swap_self, Equiv.refl_apply, ite_self]
      split_ifs with h
      · obtain ⟨rfl, h1, h2⟩ := h
        exact (z a h1 h2).symm
      · rfl
    · intro c h1 h2; rw [z c h1 h2, z j (le_refl _) hjE]
  · simp only [hu, if_false, Bool.false_eq_true]
    by_cases h0 : m.2 = 0
    · rw [if_neg (by simpa using h0)]
      refine ⟨le_refl _, hjE, ?_, ?_⟩
      · intro a b; rw [Equiv.swap_self, Equiv.refl_apply, ite_self]
      · intro c h1 h2
        have := m3' c h1 h2
        rwa [m2, h0] at this
    · rw [if_pos h0]
      refine ⟨by simp, by show m.2 + j < E; omega, ?_, ?_⟩
      · intro a b
        simp only [Equiv.swap_apply_def]
        by_cases hb : j ≤ b ∧ b < R
        · rw [if_pos hb, if_pos hb]
          split_ifs <;> first | rfl | omega
        · rw [if_neg hb, if_neg hb]
      · intro c h1 h2
        have := m3' c h1 h2
        rw [m2] at this
        simpa [add_comm] using this

theorem bStep_spec (ab : AbsoluteValue K S) (uf : S → Bool) (huf : ∀ x, uf x = true ↔ x = 0) {N lo hi j : Nat} (hj : j < N)
    (s : St K) (he : s.endcol = min (j+lo+1) N) (hr : s.endrow = min (j+hi+1) N) :
    ∃ p, Step ab N lo hi j p s.A (bStep ab uf N j s).A ∧ (bStep ab uf N j s).P = Function.update s.P j p ∧
      (bStep ab uf N j s).endcol = min (j+1+lo+1) N ∧ (bStep ab uf N j s).endrow = min (j+1+hi+1) N := by
  obtain ⟨b1, b2, b3, b4⟩ := bPivot_spec ab uf huf (show j < s.endcol by omega) (show j < s.endrow by omega) s.A
  refine ⟨(bPivot ab uf j s.endcol s.endrow s.A).2, ?_, rfl, ?_, ?_⟩
  rotate_left
  · show (if s.endcol < N then s.endcol + 1 else s.endcol) = _
    split_ifs <;> omega
  · show (if s.endrow < N then s.endrow + 1 else s.endrow) = _
    split_ifs <;> omega
  unfold bStep
  generalize hq : bPivot ab uf j s.endcol s.endrow s.A = q at *
  obtain ⟨B, p⟩ := q
  simp only at b1 b2 b3 b4 ⊢
  have hjj : B j j = s.A p j := by rw [b3, if_pos (by omega), Equiv.swap_apply_left]
  -- elements of A1
  have h1 : ∀ a b, (if B j j ≠ 0 then fun a b => if b = j ∧ j < a ∧ a < s.endcol then B a j / B j j else B a b else B) a b =
      if b = j ∧ j < a ∧ a < s.endcol then (if B j j ≠ 0 then B a j / B j j else B a j) else B a b := by
    intro a b
    by_cases h0 : B j j ≠ 0
    · rw [if_pos h0, if_pos h0]
    · rw [if_neg h0, if_neg h0]
      split_ifs with h
      · rw [h.1]
      · rfl
  simp only [h1]
  have hcol : ∀ c, j < c → c < min (j+lo+1) N → B c j = s.A (Equiv.swap j p c) j := fun c hc1 hc2 => by
    rw [b3, if_pos (by omega)]
  refine ⟨⟨b1, by omega⟩, ?_, ?_, ?_, ?_⟩
  · intro a b hab
    rw [if_neg (by omega), if_neg (by omega), b3]
    split_ifs with h
    · rw [Equiv.swap_apply_of_ne_of_ne (by omega) (by omega)]
    · rfl
  · intro b hb1 hb2
    rw [if_neg (by omega), if_neg (by omega), b3, if_pos (by omega), Equiv.swap_apply_left]
  · intro c hc1 hc2
    rw [if_neg (by omega), if_pos (by omega), hjj]
    have hb := b4 (Equiv.swap j p c) (swap_ge b1 (by omega)) (by rw [Equiv.swap_apply_def]; split_ifs <;> omega)
    by_cases h0 : s.A p j ≠ 0
    · rw [if_pos h0, hcol c hc1 hc2]
      exact ⟨(div_mul_cancel₀ _ h0).symm, LU.bound_div ab _ _ h0 hb⟩
    · rw [if_neg h0, hcol c hc1 hc2]
      have h0' : s.A p j = 0 := by simpa using h0
      rw [h0', map_zero] at hb
      have hz : s.A (Equiv.swap j p c) j = 0 := (map_eq_zero ab).mp (le_antisymm hb (ab.nonneg _))
      rw [hz]
      exact ⟨by ring, by simp⟩
  · intro c b hc1 hc2 hb1 hb2
    have e1 : B c b = s.A (Equiv.swap j p c) b := by rw [b3, if_pos (by omega)]
    have e2 : B j b = s.A p b := by rw [b3, if_pos (by omega), Equiv.swap_apply_left]
    simp (disch := omega) only [if_pos, if_neg]
    rw [e1, e2]

theorem bandDec_spec (ab : AbsoluteValue K S) (uf : S → Bool) (huf : ∀ x, uf x = true ↔ x = 0) {N lo hi h0 : Nat}
    (hlo : lo < N) (hhi : hi < N) (hh : h0 ≤ hi) (hlh : lo + h0 ≤ hi ∨ N ≤ hi + 1) (A : Nat → Nat → K) (P : Nat → Nat)
    (hz : ∀ a b, a < N → b < N → a + h0 < b → b ≤ a + hi → A a b = 0) :
    IsPLU ab N lo hi (bandMat lo h0 A) (bandDec ab uf N lo hi A P).1 (bandDec ab uf N lo hi A P).2 ∧
    ∀ a b, ¬ (a < N ∧ b < N ∧ a ≤ b + lo ∧ b ≤ a + hi) → (bandDec ab uf N lo hi A P).1 a b = A a b := by
  have := up_inv (bStep ab uf N) (fun j s => Inv ab N lo hi h0 j (bandMat lo h0 A) A s.A s.P ∧
    s.endcol = min (j+lo+1) N ∧ s.endrow = min (j+hi+1) N) (N-1) 0 ⟨A, P, lo+1, hi+1⟩
    ⟨Inv.init ab P hh hz, by show lo+1 = _; omega, by show hi+1 = _; omega⟩ (by
      rintro j s _ hj ⟨I, he, hr⟩
      obtain ⟨p, s1, s2, s3, s4⟩ := bStep_spec ab uf huf (show j < N by omega) s he hr
      rw [s2]
      exact ⟨I.step (by omega) hlh s1, s3, s4⟩)
  rw [zero_add] at this
  exact ⟨this.1.final (by omega), this.1.frame⟩

theorem tPivot_spec (N j : Nat) (hj : j + 1 < N) (A : Nat → Nat → K) (a b : Nat) :
    tPivot N j A a b = if j ≤ b ∧ b < min (j+3) N then A (Equiv.swap j (j+1) a) b else A a b := by
  have e : tPivot N j A = fun a b => if j ≤ b ∧ b < min (j+3) N then
      (if a = j then A (j+1) b else if a = j+1 then A j b else A a b) else A a b := by
    funext a b
    unfold tPivot swapE
    rw [if_pos hj]
    by_cases h2 : j+2 < N
    · rw [if_pos h2]
      simp only [setE]
      by_cases hb0 : b = j
      · subst hb0
        by_cases ha : a = b
        · subst ha; simp; omega
        · by_cases ha1 : a = b+1
          · subst ha1; simp; omega
          · simp [ha, ha1]
      · by_cases hb1 : b = j+1
        · subst hb1
          by_cases ha : a = j
          · subst ha; simp; omega
          · by_cases ha1 : a = j+1
            · subst ha1; simp; omega
            · simp [ha, ha1]
        · by_cases hb2 : b = j+2
          · subst hb2
            by_cases ha : a = j
            · subst ha; simp; omega
            · by_cases ha1 : a = j+1
              · subst ha1; simp; omega
              · simp [ha, ha1]
          · simp [hb0, hb1, hb2]
            intro h1 h2 h3; omega
    · rw [if_neg h2]
      simp only [setE]
      by_cases hb0 : b = j
      · subst hb0
        by_cases ha : a = b
        · subst ha; simp; omega
        · by_cases ha1 : a = b+1
          · subst ha1; simp; omega
          · simp [ha, ha1]
      · by_cases hb1 : b = j+1
        · subst hb1
          by_cases ha : a = j
          · subst ha; simp; omega
          · by_cases ha1 : a = j+1
            · subst ha1; simp; omega
            · simp [ha, ha1]
        · simp [hb0, hb1]
          intro h1 h2 h3; omega
  rw [e]
  simp only [Equiv.swap_apply_def]
  split_ifs <;> rfl

theorem tStep_spec (ab : AbsoluteValue K S) (ufK : K → Bool) (huf : ∀ x, ufK x = true ↔ x = 0) {N j hi : Nat} (hj : j + 1 < N)
    (hhi : hi = min 2 (N-1)) (s : (Nat → Nat → K) × (Nat → Nat)) (hz : j + 2 < N → s.1 j (j+2) = 0) :
    ∃ p, Step ab N 1 hi j p s.1 (tStep ab ufK N j s).1 ∧ (tStep ab ufK N j s).2 = Function.update s.2 j p := by
  obtain ⟨A, P⟩ := s
  refine ⟨if ab (A (j+1) j) > ab (A j j) then j+1 else j, ?_, rfl⟩
  simp only at hz ⊢
  unfold tStep
  simp only
  generalize hp : (if ab (A (j+1) j) > ab (A j j) then j+1 else j) = p
  -- the matrix after pivoting
  generalize hB : (if ab (A (j+1) j) > ab (A j j) then tPivot N j A else A) = B
  have hE : min (j+1+1) N = j+2 := by omega
  have hR : min (j+hi+1) N = min (j+3) N := by omega
  have hpj : j ≤ p ∧ p < j+2 := by rw [← hp]; split_ifs <;> omega
  have b3 : ∀ a b, B a b = if j ≤ b ∧ b < min (j+3) N then A (Equiv.swap j p a) b else A a b := by
    intro a b
    rw [← hB, ← hp]
    by_cases h : ab (A (j+1) j) > ab (A j j)
    · rw [if_pos h, if_pos h, tPivot_spec N j hj]
    · rw [if_neg h, if_neg h, Equiv.swap_self, Equiv.refl_apply, ite_self]
  have hle : ab (A (Equiv.swap j p (j+1)) j) ≤ ab (A p j) := by
    rw [← hp]
    by_cases h : ab (A (j+1) j) > ab (A j j)
    · rw [if_pos h, Equiv.swap_apply_right]; exact h.le
    · rw [if_neg h, Equiv.swap_self]; simpa using h
  have hB0 : B j j = A p j := by rw [b3, if_pos (by omega), Equiv.swap_apply_left]
  have hB1 : B (j+1) j = A (Equiv.swap j p (j+1)) j := by rw [b3, if_pos (by omega)]
  -- after the division
  generalize hC : (if ufK (B j j) = true then setE (setE B (j+1) j 0) j j 0 else setE B (j+1) j (B (j+1) j / B j j)) = C
  have c0 : ∀ a b, ¬ (b = j ∧ a = j+1) → C a b = B a b := by
    intro a b h
    rw [← hC]
    split_ifs with hu
    · simp only [setE]
      split_ifs with h1 h2
      · rw [h1.1, h1.2]; exact ((huf _).mp hu).symm
      · omega
      · rfl
    · simp only [setE]; rw [if_neg (by omega)]
  have c1 : B (j+1) j = C (j+1) j * B j j ∧ ab (C (j+1) j) ≤ 1 := by
    rw [← hC]
    by_cases hu : ufK (B j j) = true
    · have h0 := (huf _).mp hu
      rw [if_pos hu]
      simp only [setE]
      rw [if_neg (by omega), if_pos (by simp), hB1]
      have hz' : A (Equiv.swap j p (j+1)) j = 0 := by
        rw [← hB0, h0, map_zero] at hle
        exact (map_eq_zero ab).mp (le_antisymm hle (ab.nonneg _))
      exact ⟨by rw [hz']; ring, by simp⟩
    · have h0 : B j j ≠ 0 := fun h => hu ((huf _).mpr h)
      rw [if_neg hu]
      simp only [setE]
      rw [if_pos (by simp)]
      exact ⟨(div_mul_cancel₀ _ h0).symm, LU.bound_div ab _ _ h0 (by rw [hB0, hB1]; exact hle)⟩
  -- after the update
  generalize hD : setE C (j+1) (j+1) (C (j+1) (j+1) - C (j+1) j * C j (j+1)) = D
  have d1 : ∀ a b, D a b = if a = j+1 ∧ b = j+1 then C (j+1) (j+1) - C (j+1) j * C j (j+1) else C a b := by
    intro a b; rw [← hD]; rfl
  have fin : ∀ a b, (if ab (A (j+1) j) > ab (A j j) ∧ j+2 < N then setE D (j+1) (j+2) (D (j+1) (j+2) - D (j+1) j * D j (j+2)) else D) a b =
      if a = j+1 ∧ (b = j+1 ∨ (b = j+2 ∧ j+2 < N)) then C a b - C a j * C j b else C a b := by
    intro a b
    by_cases hc : a = j+1 ∧ b = j+2
    · obtain ⟨rfl, rfl⟩ := hc
      by_cases h2 : j+2 < N
      · rw [if_pos (show j+1 = j+1 ∧ (j+2 = j+1 ∨ (j+2 = j+2 ∧ j+2 < N)) from ⟨rfl, .inr ⟨rfl, h2⟩⟩)]
        by_cases h : ab (A (j+1) j) > ab (A j j)
        · rw [if_pos ⟨h, h2⟩]
          simp only [setE]
          rw [if_pos (by simp), d1, d1, d1, if_neg (by omega), if_neg (by omega), if_neg (by omega)]
        · rw [if_neg (fun c => h c.1), d1, if_neg (by omega), c0 j (j+2) (by omega), b3 j, if_pos (by omega)]
          have : p = j := by rw [← hp, if_neg h]
          rw [this, Equiv.swap_self, Equiv.refl_apply, hz h2]; ring
      · rw [if_neg (fun c => h2 c.2), d1, if_neg (by omega), if_neg (by omega)]
    · have : (if ab (A (j+1) j) > ab (A j j) ∧ j+2 < N then setE D (j+1) (j+2) (D (j+1) (j+2) - D (j+1) j * D j (j+2)) else D) a b = D a b := by
        split_ifs
        · simp only [setE]; rw [if_neg hc]
        · rfl
      rw [this, d1]
      by_cases h : a = j+1 ∧ b = j+1
      · rw [if_pos h, if_pos (by omega), h.1, h.2]
      · rw [if_neg h, if_neg (by omega)]
  refine ⟨by omega, ?_, ?_, ?_, ?_⟩
  · intro a b hab
    rw [fin, if_neg (by omega), c0 a b (by omega), b3]
    split_ifs with h
    · rw [Equiv.swap_apply_of_ne_of_ne (by omega) (by omega)]
    · rfl
  · intro b hb1 hb2
    rw [fin, if_neg (by omega), c0 j b (by omega), b3, if_pos (by omega), Equiv.swap_apply_left]
  · intro c hc1 hc2
    obtain rfl : c = j+1 := by omega
    rw [fin, if_neg (by omega), ← hB1, ← hB0]
    exact c1
  · intro c b hc1 hc2 hb1 hb2
    obtain rfl : c = j+1 := by omega
    rw [fin, fin, if_pos (by omega), if_neg (by omega), c0 _ b (by omega), c0 j b (by omega), b3, b3, if_pos (by omega), if_pos (by omega),
      Equiv.swap_apply_left]

theorem triDec_spec (ab : AbsoluteValue K S) (ufK : K → Bool) (huf : ∀ x, ufK x = true ↔ x = 0) {N hi h0 : Nat}
    (hN : 1 < N) (hhi : hi = min 2 (N-1)) (hh : h0 ≤ 1) (A : Nat → Nat → K) (P : Nat → Nat)
    (hz : ∀ a b, a < N → b < N → a + h0 < b → b ≤ a + hi → A a b = 0) :
    IsPLU ab N 1 hi (bandMat 1 h0 A) (triDec ab ufK N A P).1 (triDec ab ufK N A P).2 ∧
    ∀ a b, ¬ (a < N ∧ b < N ∧ a ≤ b + 1 ∧ b ≤ a + hi) → (triDec ab ufK N A P).1 a b = A a b := by
  have := up_inv (tStep ab ufK N) (fun j s => Inv ab N 1 hi h0 j (bandMat 1 h0 A) A s.1 s.2) (N-1) 0 (A, P)
    (Inv.init ab P (by omega) hz) (by
      rintro j s _ hj I
      obtain ⟨p, s1, s2⟩ := tStep_spec ab ufK huf (show j + 1 < N by omega) hhi s (fun h => I.zero j (j+2) (le_refl _) (by omega) h (by omega) (by omega))
      rw [s2]
      exact I.step (by omega) (by omega) s1)
  rw [zero_add] at this
  exact ⟨this.final (by omega), this.frame⟩

theorem pl_id (N : Nat) (A : Nat → Nat → K) (P : Nat → Nat) (n i : Nat) (x : Nat → K) (hP : ∀ k, i ≤ k → k < i + n → P k = k) :
    pl N 0 A P n i x = x := by
  induction n generalizing i with
  | zero => rfl
  | succ n ih =>
    rw [pl, ih (i+1) (fun k h1 h2 => hP k (by omega) (by omega))]
    funext a
    simp only [plStep, hP i (le_refl _) (by omega), Equiv.swap_self, Equiv.refl_apply, ml]
    rw [if_neg (by omega)]; ring

/-- `LU_Decompose` of a band matrix (`h0` superdiagonals, stored in a band with `hi` superdiagonals, the extra ones 0). -/
theorem decompose_plu (ab : AbsoluteValue K S) (uf : S → Bool) (huf : ∀ x, uf x = true ↔ x = 0) (ufK : K → Bool)
    (hufK : ∀ x, ufK x = true ↔ x = 0) (cm : Bool) {N lo hi h0 : Nat}
    (hlo : lo < N) (hhi : hi < N) (hh : h0 ≤ hi) (hlh : lo + h0 ≤ hi ∨ N ≤ hi + 1)
    (hcm : cm = false → lo = 0 ∨ lo = 1 ∧ hi = min 2 (N-1) ∧ h0 ≤ 1) (A : Nat → Nat → K) (P : Nat → Nat)
    (hz : ∀ a b, a < N → b < N → a + h0 < b → b ≤ a + hi → A a b = 0) :
    IsPLU ab N lo hi (bandMat lo h0 A) (decompose ab uf ufK cm N lo hi A P).1 (decompose ab uf ufK cm N lo hi A P).2 ∧
    ∀ a b, ¬ (a < N ∧ b < N ∧ a ≤ b + lo ∧ b ≤ a + hi) → (decompose ab uf ufK cm N lo hi A P).1 a b = A a b := by
  unfold decompose
  by_cases h : lo > 0
  · rw [if_pos h, if_pos (by omega)]
    cases cm
    · rw [if_neg (by simp)]
      obtain ⟨rfl, h2, h3⟩ : lo = 1 ∧ hi = min 2 (N-1) ∧ h0 ≤ 1 := by rcases hcm rfl with h | h <;> omega
      exact triDec_spec ab ufK hufK (by omega) h2 h3 A P hz
    · rw [if_pos rfl]
      exact bandDec_spec ab uf huf hlo hhi hh hlh A P hz
  · obtain rfl : lo = 0 := by omega
    rw [if_neg (by omega)]
    refine ⟨⟨fun k hk => ?_, fun a k h1 h2 => by omega, fun a b ha hb => ?_⟩, fun _ _ _ => rfl⟩
    · simp only [if_pos hk]; omega
    · rw [pl_id _ _ _ _ _ _ (fun k _ hk => if_pos (by omega))]
      unfold bandMat
      by_cases h2 : a ≤ b + 0 ∧ b ≤ a + h0
      · rw [if_pos h2, if_pos (by omega)]
      · rw [if_neg h2]
        split_ifs with h3
        · exact (hz a b ha hb (by omega) (by omega)).symm
        · rfl

/-! ### Multiplying with the inverse of the packed `P*L` -/

theorem packedLDiv_spec {N lo nc : Nat} (hlo : lo < N) (A : Nat → Nat → K) (P : Nat → Nat)
    (hP : ∀ k, k < N → k ≤ P k ∧ P k < min (k+lo+1) N) (m : Nat → Nat → K) :
    (∀ c, c < nc → pl N lo A P (N-1) 0 (fun a => packedLDiv N lo nc A P m a c) = fun a => m a c) ∧
    ∀ a c, ¬ c < nc → packedLDiv N lo nc A P m a c = m a c := by
  unfold packedLDiv
  by_cases h0 : lo > 0
  · rw [if_pos h0]
    have := up_inv (fun j (s : (Nat → Nat → K) × Nat) =>
      let m := LU.swapRows nc s.1 j (P j)
      ((fun a c => if j < a ∧ a < s.2 ∧ c < nc then m a c - A a j * m j c else m a c),
        if s.2 < N then s.2 + 1 else s.2))
      (fun j s => s.2 = min (j+lo+1) N ∧ (∀ c, c < nc → pl N lo A P j 0 (fun a => s.1 a c) = fun a => m a c) ∧
        ∀ a c, ¬ c < nc → s.1 a c = m a c) (N-1) 0 (m, lo+1) ⟨by show lo+1 = _; omega, fun c _ => rfl, fun _ _ _ => rfl⟩ (by
        rintro j ⟨M, jn⟩ _ hj ⟨i1, i2, i3⟩
        simp only at i1 i2 i3 ⊢
        refine ⟨by split_ifs <;> omega, fun c hc => ?_, fun a c hc => ?_⟩
        · rw [pl_snoc, zero_add, ← i2 c hc]
          congr 1
          funext a
          simp only [plStep]
          obtain ⟨d, rfl⟩ : ∃ d, a = Equiv.swap j (P j) d := ⟨Equiv.swap j (P j) a, by simp⟩
          rw [Equiv.swap_apply_self, if_neg (show ¬ (j < j ∧ j < jn ∧ c < nc) by omega), LU.swapRows_eq _ _ _ _ _ _ hc, LU.swapRows_eq _ _ _ _ _ _ hc, ml]
          by_cases hd : j < d ∧ d < min (j+lo+1) N
          · rw [if_pos (by omega), if_pos hd]; ring
          · rw [if_neg (by omega), if_neg hd]; ring
        · rw [if_neg (by omega), LU.swapRows_out _ _ _ _ _ _ hc, i3 a c hc])
    rw [zero_add] at this
    exact this.2
  · obtain rfl : lo = 0 := by omega
    rw [if_neg (by omega)]
    exact ⟨fun c _ => pl_id _ _ _ _ _ _ (fun k _ hk => by have := hP k (by omega); omega), fun _ _ _ => rfl⟩

theorem sum_swap {N j p : Nat} (hj : j < N) (hp : p < N) (f : Nat → K) :
    ∑ b ∈ Finset.range N, f (Equiv.swap j p b) = ∑ b ∈ Finset.range N, f b := by
  refine Finset.sum_equiv (Equiv.swap j p) (fun k => ?_) (fun _ _ => rfl)
  simp only [Finset.mem_range]
  exact (swap_lt hj hp).symm

theorem swapCols_eq (nr : Nat) (m : Nat → Nat → K) (j1 j2 r c : Nat) (hr : r < nr) :
    swapCols nr m j1 j2 r c = m r (Equiv.swap j1 j2 c) := by
  rw [swapCols, if_pos hr, Equiv.swap_apply_def]
  split_ifs <;> rfl

theorem packedRDiv_spec {N lo nr : Nat} (hlo : lo < N) (A : Nat → Nat → K) (P : Nat → Nat)
    (hP : ∀ k, k < N → k ≤ P k ∧ P k < min (k+lo+1) N) (m : Nat → Nat → K) :
    (∀ r, r < nr → ∀ x : Nat → K, ∑ b ∈ Finset.range N, packedRDiv N lo nr A P m r b * pl N lo A P (N-1) 0 x b =
      ∑ b ∈ Finset.range N, m r b * x b) ∧
    ∀ r c, ¬ (r < nr ∧ c < N) → packedRDiv N lo nr A P m r c = m r c := by
  unfold packedRDiv
  by_cases h0 : lo > 0
  · rw [if_pos h0]
    have := down_inv (fun j (s : (Nat → Nat → K) × Nat × Nat) =>
      let m := fun r c => if r < nr ∧ c = j then
        s.1 r j - ∑ k ∈ Finset.range (s.2.2 - (j+1)), s.1 r (j+1+k) * A (j+1+k) j else s.1 r c
      (swapCols nr m j (P j), if s.2.1 > 0 then (s.2.1 - 1, s.2.2) else (s.2.1, s.2.2 - 1)))
      (fun n s => s.2.1 = lo + n - N ∧ s.2.2 = min (n+lo) N ∧
        (∀ r, r < nr → ∀ x : Nat → K, ∑ b ∈ Finset.range N, s.1 r b * pl N lo A P (N-1-n) n x b =
          ∑ b ∈ Finset.range N, m r b * x b) ∧ ∀ r c, ¬ (r < nr ∧ c < N) → s.1 r c = m r c) (N-1) (m, lo-1, N)
      ⟨by show lo-1 = _; omega, by show N = _; omega, fun r _ x => by rw [Nat.sub_self]; rfl, fun _ _ _ => rfl⟩ (by
        rintro j ⟨M, k, jn⟩ hj ⟨i1, i2, i3, i4⟩
        simp only at i1 i2 i3 i4 ⊢
        have hPj := hP j (by omega)
        refine ⟨by split_ifs <;> simp only <;> omega, by split_ifs <;> simp only <;> omega, fun r hr x => ?_, fun r c hrc => ?_⟩
        · rw [← i3 r hr x, show N - 1 - j = N - 1 - (j+1) + 1 by omega, pl]
          generalize pl N lo A P (N-1-(j+1)) (j+1) x = y
          simp only [plStep]
          rw [Finset.sum_congr rfl (fun b _ => by rw [swapCols_eq _ _ _ _ _ _ hr])]
          rw [sum_swap (f := fun c => (if r < nr ∧ c = j then
            M r j - ∑ k ∈ Finset.range (jn - (j+1)), M r (j+1+k) * A (j+1+k) j else M r c) * (y c + ml N lo A j c * y j))
            (by omega) (by omega)]
          -- the sum over the column of multipliers
          have hs : ∑ k ∈ Finset.range (jn - (j+1)), M r (j+1+k) * A (j+1+k) j = ∑ c ∈ Finset.range N, M r c * ml N lo A j c := by
            have e1 : ∑ c ∈ Finset.range N, M r c * ml N lo A j c = ∑ c ∈ Finset.Ico (j+1) jn, M r c * ml N lo A j c := by
              symm
              refine Finset.sum_subset (fun c hc => ?_) (fun c hc hc' => ?_)
              · simp only [Finset.mem_Ico, Finset.mem_range] at hc ⊢; omega
              · simp only [Finset.mem_Ico, Finset.mem_range, not_and, not_lt] at hc hc'
                rw [ml, if_neg (by omega), mul_zero]
            rw [e1, Finset.sum_Ico_eq_sum_range]
            refine Finset.sum_congr rfl fun k hk => ?_
            have := Finset.mem_range.mp hk
            rw [ml, if_pos (by omega)]
          rw [hs]
          generalize hT : ∑ c ∈ Finset.range N, M r c * ml N lo A j c = T
          have split : ∀ c, (if r < nr ∧ c = j then M r j - T else M r c) * (y c + ml N lo A j c * y j) =
              M r c * y c + (M r c * ml N lo A j c) * y j - (if c = j then T * y j else 0) := by
            intro c
            by_cases hc : c = j
            · subst hc
              rw [if_pos ⟨hr, rfl⟩, if_pos rfl, ml, if_neg (by omega)]; ring
            · rw [if_neg (fun h => hc h.2), if_neg hc]; ring
          rw [Finset.sum_congr rfl (fun c _ => split c), Finset.sum_sub_distrib, Finset.sum_add_distrib, ← Finset.sum_mul, hT,
            Finset.sum_ite_eq' , if_pos (Finset.mem_range.mpr (by omega))]
          ring
        · by_cases hr : r < nr
          · rw [swapCols_eq _ _ _ _ _ _ hr, Equiv.swap_apply_of_ne_of_ne (by omega) (by omega), if_neg (by omega), i4 r c hrc]
          · rw [swapCols, if_neg hr, if_neg (fun h => hr h.1), i4 r c hrc])
    obtain ⟨_, _, t3, t4⟩ := this
    exact ⟨t3, t4⟩
  · obtain rfl : lo = 0 := by omega
    rw [if_neg (by omega)]
    refine ⟨fun r _ x => ?_, fun _ _ _ => rfl⟩
    rw [pl_id _ _ _ _ _ _ (fun k _ hk => by have := hP k (by omega); omega)]

/-! ### The unpacked `L` -/

theorem unpack_spec {N lo : Nat} (A : Nat → Nat → K) (P : Nat → Nat)
    (hP : ∀ k, k < N → k ≤ P k ∧ P k < min (k+lo+1) N) (L0 : Nat → Nat → K) :
    (∀ (x : Nat → K) a, a < N → pl N lo A P N 0 x (swapProd P N 0 a) =
      x a + ∑ k ∈ Finset.range a, unpack N lo A P L0 a k * x k) ∧
    (∀ a b, ¬ (b < a ∧ a < N) → unpack N lo A P L0 a b = L0 a b) ∧
    ∀ a b, b < a → a < N → unpack N lo A P L0 a b = 0 ∨ ∃ c, b < c ∧ c < min (b+lo+1) N ∧ unpack N lo A P L0 a b = A c b := by
  unfold unpack
  by_cases h0 : lo = 0
  · subst h0
    simp only [if_true]
    have hid : ∀ k, k < N → P k = k := fun k hk => by have := hP k hk; omega
    refine ⟨fun x a ha => ?_, fun a b hab => by rw [if_neg hab], fun a b h1 h2 => .inl (by rw [if_pos ⟨h1, h2⟩])⟩
    rw [pl_id _ _ _ _ _ _ (fun k _ hk => hid k (by omega)), swapProd_congr P (fun k => k) N 0 (fun k _ hk => hid k (by omega))]
    have : ∀ n i, swapProd (fun k => k) n i = 1 := by
      intro n
      induction n with
      | zero => intro i; rfl
      | succ n ih => intro i; rw [swapProd, ih]; simp only [Equiv.swap_self]; rfl
    rw [this, Equiv.Perm.one_apply, Finset.sum_eq_zero, add_zero]
    intro k hk
    rw [if_pos ⟨Finset.mem_range.mp hk, ha⟩, zero_mul]
  · rw [if_neg h0]
    have := up_inv (fun i (L : Nat → Nat → K) =>
        let L := fun a b => if b < i then (if a = i then L (P i) b else if a = P i then L i b else L a b) else L a b
        fun a b => if b = i ∧ i < a ∧ a < min (i+lo+1) N then A a i else L a b)
      (fun i L => (∀ (x : Nat → K) a, a < N → pl N lo A P i 0 x (swapProd P i 0 a) =
          x a + ∑ k ∈ Finset.range (min i a), L a k * x k) ∧
        (∀ a b, ¬ (b < a ∧ a < N) → L a b = L0 a b) ∧
        (∀ a b, b < a → a < N → i ≤ b → L a b = 0) ∧
        ∀ a b, b < a → a < N → L a b = 0 ∨ ∃ c, b < c ∧ c < min (b+lo+1) N ∧ L a b = A c b) N 0
      (fun a b => if b < a ∧ a < N then 0 else L0 a b) ⟨fun x a ha => by simp [pl, swapProd], fun a b hab => if_neg hab,
        fun a b h1 h2 _ => if_pos ⟨h1, h2⟩, fun a b h1 h2 => .inl (if_pos ⟨h1, h2⟩)⟩ (by
        rintro i L _ hi ⟨i1, i2, i3, i4⟩
        have hPi := hP i (by omega)
        have sw : ∀ a b, b < i → (if a = i then L (P i) b else if a = P i then L i b else L a b) = L (Equiv.swap i (P i) a) b := by
          intro a b _; rw [Equiv.swap_apply_def]; split_ifs <;> rfl
        refine ⟨fun x a ha => ?_, fun a b hab => ?_, fun a b h1 h2 h3 => ?_, fun a b h1 h2 => ?_⟩
        · rw [pl_snoc, zero_add, Perm.swapProd_add P i 1 0]
          simp only [swapProd, Equiv.Perm.mul_apply, zero_add, Equiv.Perm.one_apply]
          have hs : Equiv.swap i (P i) a < N := (swap_lt (by omega) (by omega)).mpr ha
          rw [i1 _ _ hs]
          have stp : ∀ k, k < i → plStep N lo A P i x k = x k := by
            intro k hk
            simp only [plStep]
            rw [swap_small hPi.1 hk, ml, if_neg (by omega)]; ring
          rw [Finset.sum_congr rfl (fun k hk => by rw [stp k (by have := Finset.mem_range.mp hk; omega)])]
          have e0 : plStep N lo A P i x (Equiv.swap i (P i) a) = x a + ml N lo A i a * x i := by
            simp only [plStep]; rw [Equiv.swap_apply_self]
          rw [e0]
          by_cases hai : a < i
          · rw [swap_small hPi.1 hai, ml, if_neg (by omega), show min i a = a by omega, show min (i+1) a = a by omega, zero_mul, add_zero]
            congr 1
            refine Finset.sum_congr rfl fun k hk => ?_
            have := Finset.mem_range.mp hk
            rw [if_neg (by omega), if_pos (by omega), sw _ _ (by omega), swap_small hPi.1 hai]
          · have hge := swap_ge hPi.1 (show i ≤ a by omega)
            rw [show min i (Equiv.swap i (P i) a) = i by omega]
            by_cases hai2 : a = i
            · subst hai2
              rw [show min (a+1) a = a by omega, ml, if_neg (by omega), zero_mul, add_zero]
              congr 1
              refine Finset.sum_congr rfl fun k hk => ?_
              have := Finset.mem_range.mp hk
              rw [if_neg (by omega), if_pos (by omega), sw _ _ (by omega)]
            · rw [show min (i+1) a = i+1 by omega, Finset.sum_range_succ]
              have e1 : (if i = i ∧ i < a ∧ a < min (i+lo+1) N then A a i else
                  if i < i then (if a = i then L (P i) i else if a = P i then L i i else L a i) else L a i) = ml N lo A i a := by
                rw [ml]
                by_cases hh : i < a ∧ a < min (i+lo+1) N
                · rw [if_pos ⟨rfl, hh⟩, if_pos hh]
                · rw [if_neg (fun h => hh h.2), if_neg (lt_irrefl i), if_neg hh]
                  exact i3 a i (by omega) ha (le_refl _)
              rw [e1, add_assoc, add_comm (ml N lo A i a * x i)]
              congr 2
              refine Finset.sum_congr rfl fun k hk => ?_
              have := Finset.mem_range.mp hk
              rw [if_neg (by omega), if_pos (by omega), sw _ _ (by omega)]
        · simp only
          rw [if_neg (by omega)]
          by_cases hb : b < i
          · rw [if_pos hb, sw a b hb]
            by_cases hai : a < i
            · rw [swap_small hPi.1 hai, i2 a b hab]
            · have haN : N ≤ a := by omega
              rw [Equiv.swap_apply_of_ne_of_ne (by omega) (by omega), i2 a b hab]
          · rw [if_neg hb, i2 a b hab]
        · simp only
          rw [if_neg (by omega), if_neg (by omega), i3 a b h1 h2 (by omega)]
        · simp only
          by_cases hb : b = i ∧ i < a ∧ a < min (i+lo+1) N
          · rw [if_pos hb]
            obtain ⟨rfl, h3, h4⟩ := hb
            exact .inr ⟨a, h3, h4, rfl⟩
          · rw [if_neg hb]
            by_cases hbi : b < i
            · rw [if_pos hbi, sw a b hbi]
              refine i4 _ b ?_ ((swap_lt (by omega) (by omega)).mpr h2)
              by_cases hai : a < i
              · rw [swap_small hPi.1 hai]; exact h1
              · have := swap_ge hPi.1 (show i ≤ a by omega); omega
            · rw [if_neg hbi]; exact i4 a b h1 h2)
    rw [zero_add] at this
    obtain ⟨t1, t2, _, t4⟩ := this
    refine ⟨fun x a ha => ?_, t2, t4⟩
    rw [t1 x a ha, show min N a = a by omega]

theorem IsPLU.last {ab : K → S} {N lo hi : Nat} {A A' : Nat → Nat → K} {P : Nat → Nat} (hN : 0 < N) (h : IsPLU ab N lo hi A A' P)
    (x : Nat → K) : pl N lo A' P N 0 x = pl N lo A' P (N-1) 0 x := by
  obtain ⟨n, rfl⟩ : ∃ n, N = n+1 := ⟨N-1, by omega⟩
  rw [pl_snoc, zero_add, Nat.add_sub_cancel]
  congr 1
  funext a
  have := h.range n (by omega)
  simp only [plStep, show P n = n by omega, Equiv.swap_self, Equiv.refl_apply, ml]
  rw [if_neg (by omega)]; ring

/-- The unpacked form: `unpack` gives the `L` of `A = P L U`, so the general LU facts apply. -/
theorem IsPLU.isLU {ab : AbsoluteValue K S} {N lo hi : Nat} {A A' : Nat → Nat → K} {P : Nat → Nat} (h : IsPLU ab N lo hi A A' P)
    (L0 : Nat → Nat → K) :
    LU.IsLU ab N N A (fun a b => if b < a then unpack N lo A' P L0 a b else bandMat 0 hi A' a b) P := by
  obtain ⟨u1, u2, u3⟩ := unpack_spec A' P h.range L0
  refine ⟨fun k hk => ?_, fun i j hi' hj => ?_, fun i k hk hki hi' => ?_⟩
  · have := h.range k (by omega); omega
  · rw [min_self]
    have hs : swapProd P N 0 i < N := swapProd_lt P N 0 N (by omega) (fun k _ hk => by have := (h.range k (by omega)).2; omega) i hi'
    rw [h.prod _ j hs hj, ← h.last (by omega), u1 _ i hi']
    have e : ∀ k, k < N → upperMat false (fun a b => if b < a then unpack N lo A' P L0 a b else bandMat 0 hi A' a b) k j = bandMat 0 hi A' k j := by
      intro k _
      unfold upperMat
      by_cases h1 : k < j
      · rw [if_pos h1]; beta_reduce; rw [if_neg (by omega)]
      · rw [if_neg h1]
        by_cases h2 : k = j
        · subst h2; rw [if_pos rfl]; simp
        · rw [if_neg h2, bandMat, if_neg (by omega)]
    have hsub : ∑ k ∈ Finset.range N, lowerMat true (fun a b => if b < a then unpack N lo A' P L0 a b else bandMat 0 hi A' a b) i k * bandMat 0 hi A' k j
        = ∑ k ∈ Finset.range (i+1), lowerMat true (fun a b => if b < a then unpack N lo A' P L0 a b else bandMat 0 hi A' a b) i k * bandMat 0 hi A' k j := by
      symm
      refine Finset.sum_subset (fun k hk => by simp only [Finset.mem_range] at hk ⊢; omega) (fun k _ hk => ?_)
      simp only [Finset.mem_range, not_lt] at hk
      rw [lowerMat, if_neg (by omega), if_neg (by omega), zero_mul]
    have hsub2 : ∑ k ∈ Finset.range N, lowerMat true (fun a b => if b < a then unpack N lo A' P L0 a b else bandMat 0 hi A' a b) i k *
        upperMat false (fun a b => if b < a then unpack N lo A' P L0 a b else bandMat 0 hi A' a b) k j
        = ∑ k ∈ Finset.range N, lowerMat true (fun a b => if b < a then unpack N lo A' P L0 a b else bandMat 0 hi A' a b) i k * bandMat 0 hi A' k j :=
      Finset.sum_congr rfl (fun k hk => by rw [e k (Finset.mem_range.mp hk)])
    rw [hsub2, hsub, Finset.sum_range_succ, add_comm]
    congr 1
    · refine Finset.sum_congr rfl fun k hk => ?_
      have := Finset.mem_range.mp hk
      rw [lowerMat, if_pos this, if_pos this]
    · rw [lowerMat, if_neg (by omega), if_pos rfl, if_pos rfl, one_mul]
  · beta_reduce
    rw [if_pos hki]
    rcases u3 i k hki hi' with e | ⟨c, c1, c2, e⟩
    · rw [e, map_zero]; exact zero_le_one
    · rw [e]; exact h.bound c k c1 c2

section div
variable {ab : AbsoluteValue K S} {N lo hi : Nat} {A A' : Nat → Nat → K} {P : Nat → Nat} (h : IsPLU ab N lo hi A A' P)
include h

theorem IsPLU.diag_ne : (LU.toM N A).det ≠ 0 ↔ ∀ i, i < N → A' i i ≠ 0 := by
  rw [(h.isLU (fun _ _ => 0)).diag_ne]
  refine forall₂_congr fun i _ => ?_
  rw [if_neg (lt_irrefl i)]
  simp [bandMat]

/-- `m /= A` through the packed decomposition: a returned result solves `A X = B`. -/
theorem lDivEq_sound (hlo : lo < N) (o : Ord) (brm : Bool) (nc : Nat) {B X : Nat → Nat → K}
    (e : lDivEq o brm N lo hi nc A' P B = some X) : SolM N nc A X B := by
  unfold lDivEq at e
  by_cases hn : N > 0 ∧ nc > 0
  · rw [if_pos hn] at e
    obtain ⟨p1, p2⟩ := packedLDiv_spec (nc := nc) hlo A' P h.range B
    have hPN : ∀ k, k < 0 + (N-1) → P k < N := fun k hk => by have := (h.range k (by omega)).2; omega
    unfold BandTri.triM at e
    rw [if_pos rfl] at e
    obtain ⟨s1, s2⟩ := BandTri.upperM_sound o brm false N hi nc A' _ X e
    have hU : upperMat false (bandMat 0 hi A') = bandMat 0 hi A' := by
      funext i k
      unfold upperMat
      by_cases h1 : i < k
      · rw [if_pos h1]
      · rw [if_neg h1]
        by_cases h2 : i = k
        · subst h2; simp
        · rw [if_neg h2, bandMat, if_neg (by omega)]
    rw [hU] at s1
    refine ⟨fun i c hi' hc => ?_, fun i c hic => ?_⟩
    · have := congrFun (p1 c hc) i
      rw [← this, pl_ext N lo A' P (N-1) 0 (by omega) hPN (fun a ha => (s1 a c ha hc).symm) i hi',
        pl_sum N lo A' P (N-1) 0 (Finset.range N) (fun k a => bandMat 0 hi A' a k) (fun k => X k c) i]
      exact Finset.sum_congr rfl fun k hk => by rw [h.prod i k hi' (Finset.mem_range.mp hk)]
    · rw [s2 i c hic]
      by_cases hc : c < nc
      · have := congrFun (p1 c hc) i
        rw [pl_out N lo A' P (N-1) 0 _ (by omega) hPN i (by omega)] at this
        exact this
      · exact p2 i c hc
  · rw [if_neg hn] at e
    obtain rfl := Option.some.inj e
    exact ⟨fun i c h1 h2 => by omega, fun _ _ _ => rfl⟩

theorem lDivEq_isSome (o : Ord) (brm : Bool) (nc : Nat) (B : Nat → Nat → K)
    (hA : (LU.toM N A).det ≠ 0) : ∃ X, lDivEq o brm N lo hi nc A' P B = some X := by
  have hd := h.diag_ne.mp hA
  unfold lDivEq
  by_cases hn : N > 0 ∧ nc > 0
  · rw [if_pos hn]
    unfold BandTri.triM
    rw [if_pos rfl]
    exact Option.isSome_iff_exists.mp (BandTri.upperM_isSome o brm false N hi nc A' _ (fun i hi => by simpa [dg] using hd i hi))
  · rw [if_neg hn]; exact ⟨_, rfl⟩

/-- `m %= A`: a returned result solves `X A = B`. -/
theorem rDivEq_sound (hlo : lo < N) (hhi : hi < N) (o : Ord) (bcm : Bool) (nr : Nat) {B X : Nat → Nat → K}
    (e : rDivEq o bcm N lo hi nr A' P B = some X) : SolM N nr (tr A) (tr X) (tr B) := by
  unfold rDivEq at e
  by_cases hn : N > 0 ∧ nr > 0
  · rw [if_pos hn, Option.map_eq_some_iff] at e
    obtain ⟨Y, eY, rfl⟩ := e
    have hS := (BandTri.triM_spec (LU.Ord.tr o) bcm false N hi 0 nr (.inr rfl) hhi (by omega) (tr A') (tr B)).1 Y eY
    obtain ⟨s1, s2⟩ := hS
    obtain ⟨p1, p2⟩ := packedRDiv_spec (nr := nr) hlo A' P h.range (tr Y)
    refine ⟨fun j c hj hc => ?_, fun j c hjc => ?_⟩
    · rw [← s1 j c hj hc]
      have := p1 c hc (fun a => bandMat 0 hi A' a j)
      calc ∑ k ∈ Finset.range N, tr A j k * tr (packedRDiv N lo nr A' P (tr Y)) k c
          = ∑ b ∈ Finset.range N, packedRDiv N lo nr A' P (tr Y) c b * pl N lo A' P (N-1) 0 (fun a => bandMat 0 hi A' a j) b := by
            refine Finset.sum_congr rfl fun k hk => ?_
            rw [← h.prod k j (Finset.mem_range.mp hk) hj, mul_comm]; rfl
        _ = _ := by
            rw [this]
            refine Finset.sum_congr rfl fun k _ => ?_
            rw [mul_comm]
            have : (if j = k ∧ false = true then (1:K) else bandMat hi 0 (tr A') j k) = bandMat 0 hi A' k j := by
              rw [if_neg (by simp)]
              unfold bandMat tr
              by_cases hh : k ≤ j + 0 ∧ j ≤ k + hi
              · rw [if_pos hh, if_pos (by omega)]
              · rw [if_neg hh, if_neg (by omega)]
            rw [← this]; rfl
    · show packedRDiv N lo nr A' P (tr Y) c j = _
      rw [p2 c j (by omega)]
      exact s2 j c hjc
  · rw [if_neg hn] at e
    obtain rfl := Option.some.inj e
    exact ⟨fun i c h1 h2 => by omega, fun _ _ _ => rfl⟩

theorem rDivEq_isSome (hhi : hi < N) (o : Ord) (bcm : Bool) (nr : Nat) (B : Nat → Nat → K)
    (hA : (LU.toM N A).det ≠ 0) : ∃ X, rDivEq o bcm N lo hi nr A' P B = some X := by
  have hd := h.diag_ne.mp hA
  unfold rDivEq
  by_cases hn : N > 0 ∧ nr > 0
  · rw [if_pos hn]
    obtain ⟨Y, eY⟩ := (BandTri.triM_spec (LU.Ord.tr o) bcm false N hi 0 nr (.inr rfl) hhi (by omega) (tr A') (tr B)).2.1
      (fun i hi => by simpa [bandMat, tr] using hd i hi)
    exact ⟨_, by rw [eY]; rfl⟩
  · rw [if_neg hn]; exact ⟨_, rfl⟩

end div

/-! ### Inverse -/

theorem splitAt_lt (nb N : Nat) (hnb : 0 < nb) (hN : 1 < N) : 0 < splitAt nb N ∧ splitAt nb N < N := by
  unfold splitAt
  split_ifs with h
  · have h1 : 0 < N/2/nb := Nat.div_pos (by omega) hnb
    have h2 := Nat.div_mul_le_self (N/2) nb
    exact ⟨Nat.mul_pos h1 hnb, by omega⟩
  · omega

/-- On a triangle with bandwidth `nhi` the banded inversion does what the general one does. -/
theorem bandInv_eq (nb mb mb2 : Nat) (hnb : 0 < nb) (hmb : 0 < mb) (hmb2 : 0 < mb2) (o : Ord) (brm st : Bool) (nhi : Nat) :
    ∀ (fuel N : Nat) (U : Nat → Nat → K), 0 < N → (∀ i j, i < N → j < N → i + nhi < j → U i j = 0) →
      bandInv nb mb mb2 o brm st nhi fuel N U = triInv nb mb mb2 o brm st false fuel N U := by
  intro fuel
  induction fuel with
  | zero => intro N U _ _; rfl
  | succ fuel ih =>
    intro N U hN hz
    unfold bandInv triInv
    by_cases h1 : N = 1
    · rw [if_pos h1, if_pos h1]; simp
    · rw [if_neg h1, if_neg h1]
      obtain ⟨k1, k2⟩ := splitAt_lt nb N hnb (by omega)
      simp only
      generalize splitAt nb N = k at *
      rw [ih k U k1 (fun i j hi hj => hz i j (by omega) (by omega)),
        ih (N-k) (sub U k k) (by omega) (fun i j hi hj hij => hz _ _ (by omega) (by omega) (by omega))]
      refine congrArg (Option.bind _) (funext fun U00 => congrArg (fun f => Option.map f _) (funext fun U11 => ?_))
      have key : ∀ V : Nat → Nat → K, (∀ i j, i < k → nhi ≤ j → j < N-k → V i (k+j) = 0) →
          (if nhi < N-k then
            paste V 0 k k nhi (TriMul.upperRec mb mb2 o false brm st nhi (k+1) k false (-1) V (sub V 0 k))
          else paste V 0 k k (N-k) (TriMul.upperRec mb mb2 o false brm st (N-k) (k+1) k false (-1) V (sub V 0 k))) =
          paste V 0 k k (N-k) (TriMul.upperRec mb mb2 o false brm st (N-k) (k+1) k false (-1) V (sub V 0 k)) := by
        intro V hV
        by_cases hn : nhi < N-k
        · rw [if_pos hn]
          have a1 := TriMul.upperRec_spec mb mb2 hmb hmb2 o brm st nhi (k+1) k false false (-1) V (sub V 0 k) (by omega)
          have b1 := TriMul.upperRec_spec mb mb2 hmb hmb2 o brm st (N-k) (k+1) k false false (-1) V (sub V 0 k) (by omega)
          funext i j
          unfold paste
          by_cases hi : i < k ∧ k ≤ j ∧ j < N
          · rw [if_pos (show 0 ≤ i ∧ i < 0+k ∧ k ≤ j ∧ j < k+(N-k) by omega), b1 (i-0) (j-k), if_pos (show i-0 < k ∧ j-k < N-k by omega)]
            by_cases hj : j < k + nhi
            · rw [if_pos (by omega), a1 (i-0) (j-k), if_pos (show i-0 < k ∧ j-k < nhi by omega)]
            · rw [if_neg (by omega)]
              have z : ∀ r, r < k → sub V 0 k r (j-k) = 0 := by
                intro r hr
                unfold sub
                rw [zero_add]
                exact hV r (j-k) hr (by omega) (by omega)
              rw [Finset.sum_eq_zero (fun r hr => by rw [z r (Finset.mem_range.mp hr), mul_zero]), mul_zero]
              have := hV i (j-k) (by omega) (by omega) (by omega)
              rwa [show k + (j-k) = j by omega] at this
          · rw [if_neg (by omega), if_neg (by omega)]
        · rw [if_neg hn]
      rw [key]
      intro i j hi h1 h2
      unfold paste
      rw [if_neg (by omega), if_neg (by omega)]
      exact hz _ _ (by omega) (by omega) (by omega)

theorem diagInv_spec (N : Nat) (U : Nat → Nat → K) :
    (diagInv N U = none ↔ ∃ i < N, U i i = 0) ∧
    ∀ V, diagInv N U = some V → ∀ a b, V a b = if a = b ∧ a < N then (U a a)⁻¹ else U a b := by
  unfold diagInv
  have gen : ∀ n lo (W : Nat → Nat → K), (forRange (fun i U => if U i i = 0 then none else some (setE U i i (U i i)⁻¹)) n lo W = none ↔
      ∃ i, lo ≤ i ∧ i < lo + n ∧ W i i = 0) ∧
      ∀ V, forRange (fun i U => if U i i = 0 then none else some (setE U i i (U i i)⁻¹)) n lo W = some V →
        ∀ a b, V a b = if a = b ∧ lo ≤ a ∧ a < lo + n then (W a a)⁻¹ else W a b := by
    intro n
    induction n with
    | zero =>
      intro lo W
      refine ⟨⟨fun h => by simp [forRange] at h, fun ⟨i, h1, h2, _⟩ => by omega⟩, ?_⟩
      rintro V hV a b
      obtain rfl := Option.some.inj hV
      rw [if_neg (by omega)]
    | succ n ih =>
      intro lo W
      unfold forRange
      by_cases h0 : W lo lo = 0
      · rw [if_pos h0]
        exact ⟨⟨fun _ => ⟨lo, le_refl _, by omega, h0⟩, fun _ => rfl⟩, fun V hV => by simp at hV⟩
      · rw [if_neg h0, Option.bind_some]
        obtain ⟨i1, i2⟩ := ih (lo+1) (setE W lo lo (W lo lo)⁻¹)
        refine ⟨?_, ?_⟩
        · rw [i1]
          constructor
          · rintro ⟨i, h1, h2, h3⟩
            refine ⟨i, by omega, by omega, ?_⟩
            rwa [setE, if_neg (by omega)] at h3
          · rintro ⟨i, h1, h2, h3⟩
            have : i ≠ lo := fun h => h0 (h ▸ h3)
            refine ⟨i, by omega, by omega, ?_⟩
            rwa [setE, if_neg (by omega)]
        · intro V hV a b
          rw [i2 V hV a b]
          by_cases h1 : a = b ∧ lo + 1 ≤ a ∧ a < lo + 1 + n
          · rw [if_pos h1, if_pos (by omega), setE, if_neg (by omega)]
          · rw [if_neg h1, setE]
            by_cases h2 : a = lo ∧ b = lo
            · rw [if_pos h2, if_pos (by omega), h2.1]
            · rw [if_neg h2, if_neg (by omega)]
  obtain ⟨g1, g2⟩ := gen N 0 U
  refine ⟨by rw [g1]; simp, fun V hV a b => ?_⟩
  rw [g2 V hV a b]
  by_cases h : a = b ∧ a < N
  · rw [if_pos (by omega), if_pos h]
  · rw [if_neg (by omega), if_neg h]

theorem triInverse_spec (nb mb mb2 : Nat) (hnb : 0 < nb) (hmb : 0 < mb) (hmb2 : 0 < mb2) (o : Ord) (brm st : Bool) (N nhi : Nat)
    (U : Nat → Nat → K) (hz : ∀ i j, i < N → j < N → i + nhi < j → U i j = 0) :
    (triInverse nb mb mb2 o brm st N nhi U = none ↔ ∃ i < N, U i i = 0) ∧
    ∀ V, triInverse nb mb mb2 o brm st N nhi U = some V →
      IsInv N (upperMat false U) (upperMat false V) ∧ ∀ i j, ¬ (j < N ∧ i ≤ j) → V i j = U i j := by
  unfold triInverse
  by_cases hN : N > 0
  · rw [if_pos hN]
    by_cases h0 : nhi = 0
    · subst h0
      rw [if_pos rfl]
      obtain ⟨d1, d2⟩ := diagInv_spec N U
      refine ⟨d1, fun V hV => ⟨fun i j hi hj => ?_, fun i j hij => ?_⟩⟩
      · have hd : ∀ k, k < N → U k k ≠ 0 := fun k hk hc => by
          have := d1.mpr ⟨k, hk, hc⟩; rw [hV] at this; cases this
        have eU : ∀ k, k < N → upperMat false U i k = if i = k then U i i else 0 := by
          intro k hk
          unfold upperMat
          by_cases h1 : i < k
          · rw [if_pos h1, if_neg (by omega), hz i k hi hk (by omega)]
          · rw [if_neg h1]; rfl
        have eV : upperMat false V i j = if i = j then (U i i)⁻¹ else 0 := by
          unfold upperMat
          by_cases h1 : i < j
          · rw [if_pos h1, if_neg (by omega), d2 V hV, if_neg (by omega), hz i j hi hj (by omega)]
          · rw [if_neg h1]
            by_cases h2 : i = j
            · rw [if_pos h2, if_pos h2, if_neg (by simp), d2 V hV, if_pos ⟨rfl, hi⟩]
            · rw [if_neg h2, if_neg h2]
        rw [Finset.sum_congr rfl (fun k hk => by rw [eU k (Finset.mem_range.mp hk), ite_mul, zero_mul]), Finset.sum_ite_eq,
          if_pos (Finset.mem_range.mpr hi), eV]
        split_ifs
        · exact mul_inv_cancel₀ (hd i hi)
        · exact mul_zero _
      · rw [d2 V hV, if_neg (by omega)]
    · rw [if_neg h0, bandInv_eq nb mb mb2 hnb hmb hmb2 o brm st nhi (N+1) N U hN hz]
      obtain ⟨t1, t2⟩ := TriProd.triInv_spec nb mb mb2 hnb hmb hmb2 o brm st false (N+1) N U hN (by omega)
      refine ⟨by rw [t1]; simp, fun V hV => ⟨(t2 V hV).1, fun i j hij => (t2 V hV).2 i j (by simp; omega)⟩⟩
  · obtain rfl : N = 0 := by omega
    rw [if_neg hN]
    refine ⟨by simp, ?_⟩
    rintro V hV
    obtain rfl := Option.some.inj hV
    exact ⟨fun i j h => by omega, fun _ _ _ => rfl⟩

theorem toM_isInv {N : Nat} {T V : Nat → Nat → K} : IsInv N T V ↔ LU.toM N T * LU.toM N V = 1 := by
  constructor
  · intro hV
    ext i j
    rw [Matrix.mul_apply, Matrix.one_apply]
    have := hV i j i.2 j.2
    rw [Finset.sum_range] at this
    simp only [Fin.ext_iff]; exact this
  · intro e i j hi hj
    have := congrFun (congrFun e ⟨i, hi⟩) ⟨j, hj⟩
    rw [Matrix.mul_apply, Matrix.one_apply] at this
    simp only [Fin.ext_iff] at this
    rw [Finset.sum_range]; exact this

/-- `LU_Inverse`: throws exactly for a singular matrix; otherwise `minv` is the inverse, nothing else is written. -/
theorem inverse_plu {ab : AbsoluteValue K S} {N lo hi : Nat} {A A' : Nat → Nat → K} {P : Nat → Nat} (h : IsPLU ab N lo hi A A' P)
    (hlo : lo < N ∨ N = 0) (nb mb mb2 : Nat) (hnb : 0 < nb) (hmb : 0 < mb) (hmb2 : 0 < mb2) (o : Ord) (brm st : Bool) (minv : Nat → Nat → K) :
    (inverse nb mb mb2 o brm st N lo hi A' P minv = none ↔ (LU.toM N A).det = 0) ∧
    ∀ V, inverse nb mb mb2 o brm st N lo hi A' P minv = some V →
      LU.toM N A * LU.toM N V = 1 ∧ ∀ i j, ¬ (i < N ∧ j < N) → V i j = minv i j := by
  unfold inverse
  by_cases hN : N > 0
  · rw [if_pos hN]
    simp only
    generalize hm : (fun i j => if i ≤ j ∧ j < N then bandMat 0 hi A' i j else if i < N ∧ j < N then 0 else minv i j) = m
    have m1 : ∀ i j, i < N → j < N → m i j = bandMat 0 hi A' i j := by
      intro i j h1 h2
      rw [← hm]
      by_cases hij : i ≤ j
      · simp only; rw [if_pos ⟨hij, h2⟩]
      · simp only; rw [if_neg (by omega), if_pos ⟨h1, h2⟩, bandMat, if_neg (by omega)]
    have m2 : ∀ i j, ¬ (i < N ∧ j < N) → m i j = minv i j := by
      intro i j hij; rw [← hm]; simp only; rw [if_neg (by omega), if_neg hij]
    obtain ⟨t1, t2⟩ := triInverse_spec nb mb mb2 hnb hmb hmb2 o brm st N hi m (fun i j h1 h2 h3 => by
      rw [m1 i j h1 h2, bandMat, if_neg (by omega)])
    have hsing : (∃ i < N, m i i = 0) ↔ (LU.toM N A).det = 0 := by
      rw [← not_iff_not, ← ne_eq ((LU.toM N A).det), h.diag_ne]
      push Not
      exact forall₂_congr fun i hi' => by rw [m1 i i hi' hi']; simp [bandMat]
    refine ⟨by rw [Option.map_eq_none_iff, t1, hsing], ?_⟩
    intro R hR
    rw [Option.map_eq_some_iff] at hR
    obtain ⟨V, hV, rfl⟩ := hR
    obtain ⟨v1, v2⟩ := t2 V hV
    obtain ⟨p1, p2⟩ := packedRDiv_spec (nr := N) (hlo.resolve_right (by omega)) A' P h.range V
    refine ⟨?_, fun i j hij => ?_⟩
    · -- V is the inverse of U
      have eV : LU.toM N (upperMat false V) = LU.toM N V := by
        ext i j
        show upperMat false V i j = V i j
        unfold upperMat
        by_cases h1 : (i:Nat) < j
        · rw [if_pos h1]
        · rw [if_neg h1]
          by_cases h2 : (i:Nat) = j
          · rw [if_pos h2, h2]; simp
          · rw [if_neg h2, v2 i j (by omega), m1 i j i.2 j.2, bandMat, if_neg (by omega)]
      have eU : LU.toM N (upperMat false m) = LU.toM N (bandMat 0 hi A') := by
        ext i j
        show upperMat false m i j = bandMat 0 hi A' i j
        unfold upperMat
        rw [m1 i j i.2 j.2, m1 i i i.2 i.2]
        by_cases h1 : (i:Nat) < j
        · rw [if_pos h1]
        · rw [if_neg h1]
          by_cases h2 : (i:Nat) = j
          · rw [if_pos h2, h2]; simp
          · rw [if_neg h2, bandMat, if_neg (by omega)]
      have inv := toM_isInv.mp v1
      rw [eV, eU] at inv
      have inv' := mul_eq_one_comm.mp inv
      refine mul_eq_one_comm.mp ?_
      rw [← inv']
      ext i j
      rw [Matrix.mul_apply, Matrix.mul_apply]
      have := p1 i i.2 (fun a => bandMat 0 hi A' a j)
      rw [Finset.sum_range, Finset.sum_range] at this
      calc _ = ∑ b : Fin N, packedRDiv N lo N A' P V i b * pl N lo A' P (N-1) 0 (fun a => bandMat 0 hi A' a j) b :=
            Finset.sum_congr rfl fun k _ => by
              show packedRDiv N lo N A' P V i k * A k j = _
              rw [h.prod k j k.2 j.2]
        _ = _ := this
    · rw [p2 i j hij, v2 i j (by omega), m2 i j hij]
  · obtain rfl : N = 0 := by omega
    rw [if_neg (by omega)]
    refine ⟨by simp, ?_⟩
    rintro V hV
    obtain rfl := Option.some.inj hV
    exact ⟨by ext i; exact i.elim0, fun _ _ _ => rfl⟩

/-! ### The divider -/

theorem bandMat_tr (lo hi : Nat) (A : Nat → Nat → K) : tr (bandMat lo hi A) = bandMat hi lo (tr A) := by
  funext i j
  unfold tr bandMat
  by_cases h : j ≤ i + lo ∧ i ≤ j + hi
  · rw [if_pos h, if_pos (by omega)]
  · rw [if_neg h, if_neg (by omega)]

/-- `BandLUDiv(A)`: a decomposition of `A`, or of its transpose if `istrans`. -/
theorem make_spec (ab : AbsoluteValue K S) (uf : S → Bool) (huf : ∀ x, uf x = true ↔ x = 0) (ufK : K → Bool)
    (hufK : ∀ x, ufK x = true ↔ x = 0) (oA : Ord) {N lo hi : Nat} (hlo : lo < N) (hhi : hi < N) (A mem : Nat → Nat → K) :
    let F := Fac.make ab uf ufK oA N lo hi A mem
    F.lo < N ∧ F.hi < N ∧
    IsPLU ab N F.lo F.hi (if F.istrans then tr (bandMat lo hi A) else bandMat lo hi A) F.LUx F.P := by
  intro F
  simp only [F]
  unfold Fac.make
  simp only
  generalize hT : decide (hi < lo ∨ (hi = lo ∧ oA = .rm)) = T
  -- the matrix that is decomposed
  generalize hl : (if T = true then hi else lo) = lo'
  generalize ha : (if T = true then lo else hi) = ahi
  generalize hA : (if T = true then tr A else A) = A'
  have eA : (if T = true then tr (bandMat lo hi A) else bandMat lo hi A) = bandMat lo' ahi A' := by
    rw [← hl, ← ha, ← hA]
    cases T
    · rfl
    · simp only [if_true]; exact bandMat_tr lo hi A
  have hle : lo' ≤ ahi := by
    rw [← hl, ← ha]
    cases T
    · have := of_decide_eq_false hT; simp; omega
    · have := of_decide_eq_true hT; simp; omega
  have hs : lo' + ahi = lo + hi := by rw [← hl, ← ha]; cases T <;> simp [add_comm]
  have hl' : lo' < N := by rw [← hl]; cases T <;> simpa
  have ha' : ahi < N := by rw [← ha]; cases T <;> simpa
  by_cases h0 : min lo hi = 0
  · rw [if_pos h0]
    simp only
    have hl0 : lo' = 0 := by
      have : lo' = lo ∨ lo' = hi := by rw [← hl]; cases T <;> simp
      omega
    have hah : min (lo+hi) (N-1) = ahi := by omega
    rw [eA, hl0, hah]
    have := (decompose_plu ab uf huf ufK hufK false (N := N) (lo := 0) (hi := ahi) (h0 := ahi) (by omega) ha' (le_refl _)
      (.inl (by omega)) (fun _ => .inl rfl) A' (fun k => k) (fun a b _ _ h1 h2 => by omega)).1
    unfold decompose at this
    rw [if_neg (by omega)] at this
    have e : (fun k => if k < N then k else k) = fun k : Nat => k := by funext k; simp
    rw [e] at this
    exact ⟨by omega, ha', this⟩
  · rw [if_neg h0]
    simp only
    rw [eA]
    refine ⟨hl', by omega, ?_⟩
    generalize hL : (if ahi < min (lo+hi) (N-1) then (fun i j => if i < N ∧ j < N ∧ i + ahi < j ∧ j ≤ i + min (lo+hi) (N-1) then 0 else
      if i < N ∧ j < N ∧ i ≤ j + lo' ∧ j ≤ i + ahi then A' i j else mem i j) else
      fun i j => if i < N ∧ j < N ∧ i ≤ j + lo' ∧ j ≤ i + ahi then A' i j else mem i j) = L
    have L1 : ∀ i j, i < N → j < N → i ≤ j + lo' → j ≤ i + ahi → L i j = A' i j := by
      intro i j h1 h2 h3 h4
      rw [← hL]
      split_ifs
      · beta_reduce; rw [if_neg (by omega), if_pos (by omega)]
      · beta_reduce; rw [if_pos (by omega)]
    have L2 : ∀ i j, i < N → j < N → i + ahi < j → j ≤ i + min (lo+hi) (N-1) → L i j = 0 := by
      intro i j h1 h2 h3 h4
      rw [← hL, if_pos (by omega)]
      beta_reduce; rw [if_pos (by omega)]
    have key := (decompose_plu ab uf huf ufK hufK (!decide (lo = 1 ∧ hi = 1)) (N := N) (lo := lo') (hi := min (lo+hi) (N-1))
      (h0 := ahi) hl' (by omega) (by omega) (by omega) (fun hc => by
        have : lo = 1 ∧ hi = 1 := by simpa using hc
        omega) L (fun k => k) L2).1
    refine ⟨key.range, key.bound, fun a b ha hb => ?_⟩
    rw [← key.prod a b ha hb]
    unfold bandMat
    by_cases h : a ≤ b + lo' ∧ b ≤ a + ahi
    · rw [if_pos h, if_pos h, L1 a b ha hb h.1 h.2]
    · rw [if_neg h, if_neg h]

/-- **C89** (solve): for every square band matrix, in every storage, whatever the memory outside the band and in the new
work array: `m /= A` stores the solution of `A X = m` in `m` and nothing else, or raises; it does not raise if `det A ≠ 0`. -/
theorem lDiv_spec (ab : AbsoluteValue K S) (uf : S → Bool) (huf : ∀ x, uf x = true ↔ x = 0) (ufK : K → Bool)
    (hufK : ∀ x, ufK x = true ↔ x = 0) (oA : Ord) {N lo hi : Nat} (hlo : lo < N) (hhi : hi < N) (brm : Bool) (nc : Nat)
    (A mem B : Nat → Nat → K) :
    let F := Fac.make ab uf ufK oA N lo hi A mem
    (∀ X, F.lDiv brm N nc B = some X → SolM N nc (bandMat lo hi A) X B) ∧
    ((LU.toM N (bandMat lo hi A)).det ≠ 0 → ∃ X, F.lDiv brm N nc B = some X) := by
  intro F
  obtain ⟨f1, f2, hs⟩ := make_spec ab uf huf ufK hufK oA hlo hhi A mem
  change F.lo < N at f1
  change F.hi < N at f2
  change IsPLU ab N F.lo F.hi (if F.istrans then _ else _) F.LUx F.P at hs
  generalize F = G at *
  unfold Fac.lDiv
  cases ht : G.istrans
  · rw [ht, if_neg (by simp)] at hs
    simp only [Bool.false_eq_true, if_false]
    exact ⟨fun X hX => lDivEq_sound hs f1 _ _ _ hX, fun hd => lDivEq_isSome hs _ _ _ _ hd⟩
  · rw [ht, if_pos rfl] at hs
    simp only [if_true]
    refine ⟨fun X hX => ?_, fun hd => ?_⟩
    · rw [Option.map_eq_some_iff] at hX
      obtain ⟨Y, hY, rfl⟩ := hX
      exact rDivEq_sound hs f1 f2 _ _ _ hY
    · obtain ⟨Y, hY⟩ := rDivEq_isSome hs f2 G.o brm nc (tr B) (by rw [LU.toM_tr, Matrix.det_transpose]; exact hd)
      exact ⟨tr Y, by rw [hY]; rfl⟩

/-- **C89** (right division): `m %= A` stores the solution of `X A = m`, or raises; it does not raise if `det A ≠ 0`. -/
theorem rDiv_spec (ab : AbsoluteValue K S) (uf : S → Bool) (huf : ∀ x, uf x = true ↔ x = 0) (ufK : K → Bool)
    (hufK : ∀ x, ufK x = true ↔ x = 0) (oA : Ord) {N lo hi : Nat} (hlo : lo < N) (hhi : hi < N) (bcm : Bool) (nr : Nat)
    (A mem B : Nat → Nat → K) :
    let F := Fac.make ab uf ufK oA N lo hi A mem
    (∀ X, F.rDiv bcm N nr B = some X →
      (∀ r j, r < nr → j < N → ∑ k ∈ Finset.range N, X r k * bandMat lo hi A k j = B r j) ∧
      ∀ r j, ¬ (r < nr ∧ j < N) → X r j = B r j) ∧
    ((LU.toM N (bandMat lo hi A)).det ≠ 0 → ∃ X, F.rDiv bcm N nr B = some X) := by
  intro F
  obtain ⟨f1, f2, hs⟩ := make_spec ab uf huf ufK hufK oA hlo hhi A mem
  change F.lo < N at f1
  change F.hi < N at f2
  change IsPLU ab N F.lo F.hi (if F.istrans then _ else _) F.LUx F.P at hs
  generalize F = G at *
  have conv : ∀ Y, SolM N nr (tr (bandMat lo hi A)) (tr Y) (tr B) →
      (∀ r j, r < nr → j < N → ∑ k ∈ Finset.range N, Y r k * bandMat lo hi A k j = B r j) ∧
        ∀ r j, ¬ (r < nr ∧ j < N) → Y r j = B r j := by
    rintro Y ⟨h1, h2⟩
    refine ⟨fun r j hr hj => ?_, fun r j hrj => h2 j r (by omega)⟩
    have := h1 j r hj hr
    show _ = tr B j r
    rw [← this]
    exact Finset.sum_congr rfl fun k _ => by rw [mul_comm]; rfl
  unfold Fac.rDiv
  cases ht : G.istrans
  · rw [ht, if_neg (by simp)] at hs
    simp only [Bool.false_eq_true, if_false]
    exact ⟨fun X hX => conv X (rDivEq_sound hs f1 f2 _ _ _ hX), fun hd => rDivEq_isSome hs f2 _ _ _ _ hd⟩
  · rw [ht, if_pos rfl] at hs
    simp only [if_true]
    refine ⟨fun X hX => ?_, fun hd => ?_⟩
    · rw [Option.map_eq_some_iff] at hX
      obtain ⟨Y, hY, rfl⟩ := hX
      exact conv (tr Y) (lDivEq_sound hs f1 _ _ _ hY)
    · obtain ⟨Y, hY⟩ := lDivEq_isSome hs G.o bcm nr (tr B) (by rw [LU.toM_tr, Matrix.det_transpose]; exact hd)
      exact ⟨tr Y, by rw [hY]; rfl⟩

/-- **C89** (inverse): `makeInverse` raises exactly when `det A = 0`; otherwise `minv` is the inverse. -/
theorem inverse_spec (ab : AbsoluteValue K S) (uf : S → Bool) (huf : ∀ x, uf x = true ↔ x = 0) (ufK : K → Bool)
    (hufK : ∀ x, ufK x = true ↔ x = 0) (oA : Ord) {N lo hi : Nat} (hlo : lo < N) (hhi : hi < N)
    (nb mb mb2 : Nat) (hnb : 0 < nb) (hmb : 0 < mb) (hmb2 : 0 < mb2) (o : Ord) (brm st : Bool) (A mem minv : Nat → Nat → K) :
    let F := Fac.make ab uf ufK oA N lo hi A mem
    (F.inverse nb mb mb2 o brm st N minv = none ↔ (LU.toM N (bandMat lo hi A)).det = 0) ∧
    ∀ V, F.inverse nb mb mb2 o brm st N minv = some V →
      LU.toM N (bandMat lo hi A) * LU.toM N V = 1 ∧ ∀ i j, ¬ (i < N ∧ j < N) → V i j = minv i j := by
  intro F
  obtain ⟨f1, f2, hs⟩ := make_spec ab uf huf ufK hufK oA hlo hhi A mem
  change F.lo < N at f1
  change IsPLU ab N F.lo F.hi (if F.istrans then _ else _) F.LUx F.P at hs
  clear f2
  generalize F = G at *
  unfold Fac.inverse
  cases ht : G.istrans
  · rw [ht, if_neg (by simp)] at hs
    simp only [Bool.false_eq_true, if_false]
    exact inverse_plu hs (.inl f1) nb mb mb2 hnb hmb hmb2 o brm st minv
  · rw [ht, if_pos rfl] at hs
    simp only [if_true]
    obtain ⟨h1, h2⟩ := inverse_plu hs (.inl f1) nb mb mb2 hnb hmb hmb2 o brm st (tr minv)
    rw [LU.toM_tr, Matrix.det_transpose] at h1
    refine ⟨by rw [Option.map_eq_none_iff]; exact h1, fun V hV => ?_⟩
    rw [Option.map_eq_some_iff] at hV
    obtain ⟨W, hW, rfl⟩ := hV
    obtain ⟨a, b⟩ := h2 W hW
    refine ⟨?_, fun i j hij => b j i (by omega)⟩
    rw [LU.toM_tr] at a
    have := congrArg Matrix.transpose (mul_eq_one_comm.mp a)
    rw [Matrix.transpose_mul, Matrix.transpose_transpose, Matrix.transpose_one] at this
    exact this

/-- **C89** (`getL`, `getU`, `getP`): `P*L*U == A` (or its transpose, if `isTrans()`), with `L` unit lower triangular,
multipliers bounded by 1, `U` of bandwidth `nlo+nhi`; `P` is the library's permutation. -/
theorem plu_spec (ab : AbsoluteValue K S) (uf : S → Bool) (huf : ∀ x, uf x = true ↔ x = 0) (ufK : K → Bool)
    (hufK : ∀ x, ufK x = true ↔ x = 0) (oA : Ord) {N lo hi : Nat} (hlo : lo < N) (hhi : hi < N) (A mem L0 : Nat → Nat → K) :
    let F := Fac.make ab uf ufK oA N lo hi A mem
    let L := lowerMat true (unpack N F.lo F.LUx F.P L0)
    let U := bandMat 0 F.hi F.LUx
    (LU.permOf N F.P).Normal ∧ F.hi ≤ lo + hi ∧ (∀ i k, k < i → i < N → ab (L i k) ≤ 1) ∧
    ∀ i j, i < N → j < N →
      (if F.istrans then bandMat lo hi A j i else bandMat lo hi A i j) =
        ∑ k ∈ Finset.range N, L ((LU.permOf N F.P).act i) k * U k j := by
  intro F L U
  obtain ⟨f1, f2, hs⟩ := make_spec ab uf huf ufK hufK oA hlo hhi A mem
  change IsPLU ab N F.lo F.hi (if F.istrans then _ else _) F.LUx F.P at hs
  have hlu := hs.isLU L0
  obtain ⟨p1, p2, p3⟩ := LU.plu_eq hlu
  have hact : ∀ i, i < N → (LU.permOf N F.P).act i < N := by
    intro i hi'
    have hf : ∀ k, k < N → (LU.permOf N F.P).fn k = F.P k := by
      intro k hk; simp [LU.permOf, Perm.fn, hk]
    have ha : (LU.permOf N F.P).act = (swapProd F.P N 0)⁻¹ := by
      unfold Perm.act
      rw [if_pos (show (LU.permOf N F.P).isinv = true from rfl), p2, swapProd_congr _ F.P N 0 (fun k _ hk => hf k (by omega))]
    rw [ha]; exact hlu.inv_lt hi'
  refine ⟨p1, ?_, fun i k hki hi' => ?_, fun i j hi' hj => ?_⟩
  · simp only [F]
    unfold Fac.make
    simp only
    split_ifs <;> simp
  · have := hlu.bound i k (by omega) hki hi'
    beta_reduce at this
    rw [if_pos hki] at this
    simp only [L, lowerMat]
    rw [if_pos hki]; exact this
  · have := p3 i j hi' hj
    have e : (if F.istrans = true then bandMat lo hi A j i else bandMat lo hi A i j) =
        (if F.istrans = true then tr (bandMat lo hi A) else bandMat lo hi A) i j := by
      split_ifs <;> rfl
    rw [e, this]
    refine Finset.sum_congr rfl fun k hk => ?_
    congr 1
    · simp only [L, lowerMat]
      by_cases h1 : k < (LU.permOf N F.P).act i
      · rw [if_pos h1, if_pos h1, if_pos h1]
      · rw [if_neg h1, if_neg h1]; rfl
    · simp only [U, upperMat]
      by_cases h1 : k < j
      · rw [if_pos h1, if_neg (by omega)]
      · rw [if_neg h1]
        by_cases h2 : k = j
        · subst h2; simp
        · rw [if_neg h2, bandMat, if_neg (by omega)]

section Det
variable {𝕜 : Type _} [RCLike 𝕜] [DecidableEq 𝕜]

/-- **C89** (determinant). -/
theorem det_spec {S : Type _} [Field S] [LinearOrder S] [IsStrictOrderedRing S] (ab : AbsoluteValue 𝕜 S) (uf : S → Bool)
    (huf : ∀ x, uf x = true ↔ x = 0) (ufK : 𝕜 → Bool) (hufK : ∀ x, ufK x = true ↔ x = 0) (oA : Ord) {N lo hi : Nat}
    (hlo : lo < N) (hhi : hi < N) (A mem : Nat → Nat → 𝕜) :
    let F := Fac.make ab uf ufK oA N lo hi A mem
    F.det N = (LU.toM N (bandMat lo hi A)).det ∧
    ((LU.toM N (bandMat lo hi A)).det ≠ 0 → (F.logDet N).1 = Real.log ‖(LU.toM N (bandMat lo hi A)).det‖ ∧
        (F.logDet N).2 = (LU.toM N (bandMat lo hi A)).det / (‖(LU.toM N (bandMat lo hi A)).det‖ : 𝕜)) := by
  intro F
  obtain ⟨f1, f2, hs'⟩ := make_spec ab uf huf ufK hufK oA hlo hhi A mem
  change IsPLU ab N F.lo F.hi (if F.istrans then _ else _) F.LUx F.P at hs'
  have hs := hs'.isLU (fun _ _ => 0)
  have hdA : (LU.toM N (if F.istrans then tr (bandMat lo hi A) else bandMat lo hi A)).det = (LU.toM N (bandMat lo hi A)).det := by
    cases F.istrans
    · rfl
    · rw [if_pos rfl, LU.toM_tr, Matrix.det_transpose]
  clear f1 f2
  generalize LU.toM N (bandMat lo hi A) = D at *
  have hlog : F.logDet N = (⟨F.istrans, fun a b => if b < a then unpack N F.lo F.LUx F.P (fun _ _ => 0) a b else
      bandMat 0 F.hi F.LUx a b, F.P⟩ : LU.Fac 𝕜).logDet N := by
    unfold Fac.logDet LU.Fac.logDet
    have : (fun i => F.LUx i i) = fun i => (if i < i then unpack N F.lo F.LUx F.P (fun _ _ => 0) i i else bandMat 0 F.hi F.LUx i i) := by
      funext i; rw [if_neg (lt_irrefl i)]; simp [bandMat]
    rw [this]
  have := LU.det_of_isLU hs
  rw [hdA] at this
  have hdet : F.det N = (⟨F.istrans, fun a b => if b < a then unpack N F.lo F.LUx F.P (fun _ _ => 0) a b else
      bandMat 0 F.hi F.LUx a b, F.P⟩ : LU.Fac 𝕜).det N := by
    unfold Fac.det LU.Fac.det
    rw [hlog]
  rw [hdet, hlog]
  exact this F.istrans

end Det
/-- Concrete cases: a 4×4 matrix with 1 sub- and 2 superdiagonals that needs interchanges (general algorithm, memory
outside the band is 99), a tridiagonal one, and one that is decomposed as its transpose. -/
theorem dec_example :
    let ab : ℚ → ℚ := fun x => |x|
    let uf : ℚ → Bool := fun x => decide (x = 0)
    let A : Nat → Nat → ℚ := fun i j => if i ≤ j + 1 ∧ j ≤ i + 2 then (if i = j then 0 else i + 2*j + 1) else 99
    let F := Fac.make ab uf uf .cm 4 1 2 A (fun _ _ => 77)
    let G := Fac.make ab uf uf .cm 4 1 1 A (fun _ _ => 77)
    let H := Fac.make ab uf uf .cm 4 2 1 (fun i j => A j i) (fun _ _ => 77)
    F.istrans = false ∧ F.P 0 = 1 ∧ G.P 0 = 1 ∧ H.istrans = true ∧
    ((F.lDiv true 4 1 (fun i _ => i)).map fun X => ∑ k ∈ Finset.range 4, bandMat 1 2 A 2 k * X k 0) = some 2 ∧
    ((G.lDiv true 4 1 (fun i _ => i)).map fun X => ∑ k ∈ Finset.range 4, bandMat 1 1 A 2 k * X k 0) = some 2 := by
  decide +kernel

end TMV.BandLU
