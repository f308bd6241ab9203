import Verif.Props.SmallElem

/-! `DoLUD` computes an LU decomposition with partial pivoting (lemmas for C112-C114). -/
namespace TMV.SmallDiv
noncomputable section
open Classical

variable {K : Type} [RCLike K]

theorem size_le (cplx : Bool) (x y : K) : size cplx x ≤ size cplx y ↔ ‖x‖ ≤ ‖y‖ := by
  unfold size
  cases cplx
  · simp
  · simp only [if_true, RCLike.normSq_eq_def']
    exact sq_le_sq₀ (norm_nonneg _) (norm_nonneg _)

/-- The first part of the column update is a division by the unit lower triangle. -/
theorem ludCol_one (j : Nat) (A : Nat → Nat → K) :
    let A' := up (fun k LU => if LU k j ≠ 0 then
      up (fun i LU => setE LU i j (LU i j - LU k j * LU i k)) (j-(k+1)) (k+1) LU else LU) j 0 A
    (∀ a b, ¬ (b = j ∧ a < j) → A' a b = A a b) ∧ ∀ i, i < j → A' i j = A i j - ∑ k ∈ Finset.range i, A i k * A' k j := by
  have hin : ∀ k (m : Nat → Nat → K), k < j → (if m k j ≠ 0 then
      up (fun i LU => setE LU i j (LU i j - LU k j * LU i k)) (j-(k+1)) (k+1) m else m) =
      fun a b => if b = j ∧ k < a ∧ a < j then m a b - m k b * m a k else m a b := by
    intro k m hk
    by_cases hz : m k j ≠ 0
    · rw [if_pos hz, up_key (fun a _ => a)]
      · funext a b
        simp only [setE]
        grind
      · intro i A h1 h2 hA a b
        simp only [setE]
        have e1 := hA i j (by omega)
        have e2 := hA k j (by omega)
        have e3 := hA a b
        have e4 := hA i k (by omega)
        grind
    · rw [if_neg hz]
      rw [not_not] at hz
      funext a b
      by_cases h : b = j ∧ k < a ∧ a < j
      · rw [if_pos h, h.1, hz]; ring
      · rw [if_neg h]
  intro A'
  have := up_inv (fun k LU => if LU k j ≠ 0 then
      up (fun i LU => setE LU i j (LU i j - LU k j * LU i k)) (j-(k+1)) (k+1) LU else LU) (fun k B =>
    (∀ a b, ¬ (b = j ∧ a < j) → B a b = A a b) ∧ ∀ i, i < j → B i j = A i j - ∑ l ∈ Finset.range (min i k), A i l * B l j) j 0 A
    ⟨fun _ _ _ => rfl, fun i _ => by simp⟩ (by
      intro k B _ hk ⟨h1, h2⟩
      rw [hin k B (by omega)]
      refine ⟨fun a b h => by dsimp only; rw [if_neg (by omega), h1 a b h], fun i hi => ?_⟩
      have hs : ∀ n, n ≤ k+1 → ∑ l ∈ Finset.range n, A i l * (if j = j ∧ k < l ∧ l < j then B l j - B k j * B l k else B l j) =
          ∑ l ∈ Finset.range n, A i l * B l j := fun n hn => Finset.sum_congr rfl fun l hl => by
        rw [Finset.mem_range] at hl
        rw [if_neg (by omega)]
      dsimp only
      rw [hs _ (by omega)]
      by_cases hki : k < i
      · rw [if_pos (by omega), h2 i hi, show min i (k+1) = k+1 by omega, show min i k = k by omega, Finset.sum_range_succ,
          h1 i k (by omega)]
        ring
      · rw [if_neg (by omega), h2 i hi, show min i (k+1) = min i k by omega])
  rw [Nat.zero_add] at this
  refine ⟨this.1, fun i hi => ?_⟩
  have h := this.2 i hi
  rw [show min i j = i by omega] at h
  exact h

theorem ludCol_two (N j : Nat) (A : Nat → Nat → K) :
    up (fun k LU => up (fun i LU => setE LU i j (LU i j - LU i k * LU k j)) (N-j) j LU) j 0 A =
    fun a b => if b = j ∧ j ≤ a ∧ a < N then A a j - ∑ k ∈ Finset.range j, A a k * A k j else A a b := by
  have hin : ∀ k (m : Nat → Nat → K), k < j → up (fun i LU => setE LU i j (LU i j - LU i k * LU k j)) (N-j) j m =
      fun a b => if b = j ∧ j ≤ a ∧ a < N then m a b - m a k * m k b else m a b := by
    intro k m hk
    rw [up_key (fun a _ => a)]
    · funext a b
      simp only [setE]
      grind
    · intro i A h1 h2 hA a b
      simp only [setE]
      have e1 := hA i j (by omega)
      have e2 := hA k j (by omega)
      have e3 := hA a b
      have e4 := hA i k (by omega)
      grind
  have := up_inv (fun k LU => up (fun i LU => setE LU i j (LU i j - LU i k * LU k j)) (N-j) j LU) (fun k B =>
    B = fun a b => if b = j ∧ j ≤ a ∧ a < N then A a j - ∑ l ∈ Finset.range k, A a l * A l j else A a b) j 0 A
    (by funext a b; simp; grind) (by
      intro k B _ hk hB
      rw [hin k B (by omega), hB]
      funext a b
      dsimp only
      by_cases h : b = j ∧ j ≤ a ∧ a < N
      · rw [if_pos h, if_pos h, if_pos h, if_neg (by omega), if_neg (by omega), Finset.sum_range_succ, h.1]
        ring
      · rw [if_neg h, if_neg h, if_neg h])
  rw [Nat.zero_add] at this
  exact this

/-- The pivot row. -/
theorem ludPiv_spec (cplx : Bool) (N j : Nat) (hj : j < N) (A : Nat → Nat → K) :
    j ≤ ludPiv cplx N j A ∧ ludPiv cplx N j A < N ∧ ∀ a, j ≤ a → a < N → ‖A a j‖ ≤ ‖A (ludPiv cplx N j A) j‖ := by
  unfold ludPiv
  by_cases h : j < N-1
  · rw [if_pos h]
    have := up_inv (fun k (s : ℝ × Nat) => if size cplx (A k j) > s.1 then (size cplx (A k j), k) else s)
      (fun k s => s.1 = size cplx (A s.2 j) ∧ j ≤ s.2 ∧ s.2 < k ∧ ∀ a, j ≤ a → a < k → size cplx (A a j) ≤ s.1) (N-(j+1)) (j+1)
      (size cplx (A j j), j) ⟨rfl, le_rfl, by simp, fun a h1 h2 => by rw [show a = j by omega]⟩ (by
        intro k s h1 h2 ⟨g1, g2, g3, g4⟩
        by_cases hg : size cplx (A k j) > s.1
        · rw [if_pos hg]
          refine ⟨rfl, by dsimp only; omega, by dsimp only; omega, fun a h3 h4 => ?_⟩
          by_cases hak : a = k
          · subst hak; exact le_rfl
          · exact (g4 a h3 (by omega)).trans hg.le
        · rw [if_neg hg]
          refine ⟨g1, g2, by omega, fun a h3 h4 => ?_⟩
          by_cases hak : a = k
          · subst hak; exact not_lt.mp hg
          · exact g4 a h3 (by omega))
    rw [show j+1+(N-(j+1)) = N by omega] at this
    obtain ⟨g1, g2, g3, g4⟩ := this
    refine ⟨g2, g3, fun a h1 h2 => ?_⟩
    rw [← size_le cplx, ← g1]
    exact g4 a h1 h2
  · rw [if_neg h]
    refine ⟨le_rfl, hj, fun a h1 h2 => ?_⟩
    obtain rfl : a = j := by omega
    exact le_rfl

theorem ludStep_spec (cplx : Bool) (N j : Nat) (hj : j < N) (A : Nat → Nat → K) (s : (Nat → Nat → K) × (Nat → Nat))
    (hI : LU.Part (fun x : K => ‖x‖) N N j A s.1 s.2) :
    LU.Part (fun x : K => ‖x‖) N N (j+1) A (ludStep cplx N j s).1 (ludStep cplx N j s).2 := by
  obtain ⟨A0, P⟩ := s
  dsimp only at hI
  -- the column update
  obtain ⟨u, v, hu, hv, ha1, ha2, ha3⟩ : ∃ (u v : Nat → K),
      (∀ i, i < j → ∑ k ∈ Finset.range j, lowerMat true A0 i k * u k = A0 i j) ∧
      (∀ i, j ≤ i → i < N → A0 i j = ∑ k ∈ Finset.range j, A0 i k * u k + v i) ∧
      (∀ a b, b ≠ j → ludCol N j A0 a b = A0 a b) ∧ (∀ a, a < j → ludCol N j A0 a j = u a) ∧
      (∀ a, j ≤ a → a < N → ludCol N j A0 a j = v a) := by
    obtain ⟨A1, hA1, g1, g2⟩ : ∃ A1 : Nat → Nat → K, (if j > 1 then up (fun k LU => if LU k j ≠ 0 then
        up (fun i LU => setE LU i j (LU i j - LU k j * LU i k)) (j-(k+1)) (k+1) LU else LU) j 0 A0 else A0) = A1 ∧
        (∀ a b, ¬ (b = j ∧ a < j) → A1 a b = A0 a b) ∧ ∀ i, i < j → A1 i j = A0 i j - ∑ k ∈ Finset.range i, A0 i k * A1 k j := by
      by_cases h1 : j > 1
      · rw [if_pos h1]; exact ⟨_, rfl, ludCol_one j A0⟩
      · rw [if_neg h1]
        refine ⟨_, rfl, fun _ _ _ => rfl, fun i hi => ?_⟩
        obtain rfl : i = 0 := by omega
        simp
    have hcol : ludCol N j A0 = fun a b => if b = j ∧ j ≤ a ∧ a < N then A1 a j - ∑ k ∈ Finset.range j, A1 a k * A1 k j else A1 a b := by
      unfold ludCol
      dsimp only
      rw [hA1]
      by_cases h0 : j > 0
      · rw [if_pos h0, ludCol_two]
      · rw [if_neg h0]
        obtain rfl : j = 0 := by omega
        funext a b
        by_cases h : b = 0 ∧ 0 ≤ a ∧ a < N
        · rw [if_pos h, h.1]; simp
        · rw [if_neg h]
    refine ⟨fun k => A1 k j, fun i => A1 i j - ∑ k ∈ Finset.range j, A1 i k * A1 k j, fun i hi => ?_, fun i h1 h2 => ?_,
      fun a b hb => ?_, fun a ha => ?_, fun a h1 h2 => ?_⟩
    · rw [← Finset.sum_subset (Finset.range_subset_range.mpr (show i+1 ≤ j by omega)), Finset.sum_range_succ]
      · dsimp only
        rw [g2 i hi, lowerMat, if_neg (by omega), if_pos rfl, if_pos rfl]
        rw [Finset.sum_congr rfl (g := fun k => A0 i k * A1 k j) fun k hk => by
          rw [Finset.mem_range] at hk
          rw [lowerMat, if_pos hk]]
        ring
      · intro k _ hk
        rw [Finset.mem_range] at hk
        rw [lowerMat, if_neg (by omega), if_neg (by omega), zero_mul]
    · dsimp only
      rw [g1 i j (by omega)]
      rw [Finset.sum_congr rfl (g := fun k => A0 i k * A1 k j) (f := fun k => A1 i k * A1 k j) fun k hk => by
          rw [Finset.mem_range] at hk
          rw [g1 i k (by omega)]]
      ring
    · rw [hcol]; dsimp only
      rw [if_neg (by omega), g1 a b (by omega)]
    · rw [hcol]; dsimp only
      rw [if_neg (by omega)]
    · rw [hcol]; dsimp only
      rw [if_pos (by omega)]
  unfold ludStep
  dsimp only
  obtain ⟨q1, q2, q3⟩ := ludPiv_spec cplx N j hj (ludCol N j A0)
  generalize ludCol N j A0 = A1 at *
  generalize ludPiv cplx N j A1 = q at *
  obtain ⟨A2, hA2, b1⟩ : ∃ (A2 : Nat → Nat → K), (if q ≠ j then LU.swapRows N A1 q j else A1) = A2 ∧
      ∀ a b, b < N → A2 a b = A1 (Equiv.swap j q a) b := by
    by_cases hq : q = j
    · refine ⟨A1, by simp [hq], fun a b _ => by simp [hq]⟩
    · refine ⟨_, if_pos hq, fun a b hb => by rw [LU.swapRows_eq _ _ _ _ _ _ hb, Equiv.swap_comm]⟩
  rw [hA2]
  have hjq : Equiv.swap j q j = q := Equiv.swap_apply_left _ _
  have hvq : A2 j j = v q := by rw [b1 j j hj, hjq, ha3 q q1 q2]
  have τge : ∀ a, j ≤ a → j ≤ Equiv.swap j q a := fun a ha => by rw [Equiv.swap_apply_def]; split_ifs <;> omega
  have τlt : ∀ a, a < N → Equiv.swap j q a < N := fun a ha => Equiv.swap_lt hj q2 ha
  have hbd : ∀ a, j ≤ a → a < N → ‖v a‖ ≤ ‖v q‖ := fun a h1 h2 => by
    have := q3 a h1 h2
    rwa [ha3 a h1 h2, ha3 q q1 q2] at this
  have hfin : (if A2 j j ≠ 0 then up (fun k LU => setE LU k j (LU k j * (1 / A2 j j))) (N-(j+1)) (j+1) A2 else A2) =
      fun a b => if b = j ∧ j < a ∧ a < N then A2 a j * (1 / A2 j j) else A2 a b := by
    by_cases hd : A2 j j ≠ 0
    · rw [if_pos hd, up_key (fun a _ => a)]
      · funext a b
        simp only [setE]
        grind
      · intro i A h1 h2 hA a b
        simp only [setE]
        have e1 := hA i j (by omega)
        have e3 := hA a b
        grind
    · rw [if_neg hd]
      rw [not_not] at hd
      funext a b
      by_cases h : b = j ∧ j < a ∧ a < N
      · rw [if_pos h, hd, h.1, b1 a j hj, ha3 _ (τge a (by omega)) (τlt a h.2.2)]
        have := hbd _ (τge a (by omega)) (τlt a h.2.2)
        rw [← hvq, hd, norm_zero] at this
        rw [norm_le_zero_iff.mp this]; simp
      · rw [if_neg h]
  rw [hfin]
  refine LU.Part.step hj hj hI u v q q1 q2 (fun k hk => Function.update_of_ne (by omega) _ _)
    (Function.update_self _ _ _) hu hv ?_ ?_ ?_ ?_ ?_
  · intro a b _ hbN hb
    rw [if_neg (by omega), b1 a b hbN, ha1 _ b hb]
  · intro a ha
    rw [if_neg (by omega), b1 a j hj, Equiv.swap_apply_of_ne_of_ne (by omega) (by omega), ha2 a ha]
  · rw [if_neg (by omega), hvq]
  · intro a h1 h2
    rw [if_pos (by omega), if_neg (by omega), b1 a j hj, ha3 _ (τge a h1.le) (τlt a h2)]
    by_cases hd : A2 j j = 0
    · have := hbd _ (τge a h1.le) (τlt a h2)
      rw [← hvq, hd, norm_zero] at this
      rw [norm_le_zero_iff.mp this]; simp
    · field_simp
  · intro a h1 h2
    rw [if_pos (by omega), b1 a j hj, ha3 _ (τge a h1.le) (τlt a h2), hvq, norm_mul, norm_div, norm_one, mul_one_div]
    exact div_le_one_of_le₀ (hbd _ (τge a h1.le) (τlt a h2)) (norm_nonneg _)

/-- `DoLUD` computes the LU decomposition with partial pivoting. -/
theorem doLUD_spec (cplx : Bool) (N : Nat) (A : Nat → Nat → K) :
    LU.IsLU (fun x : K => ‖x‖) N N A (doLUD cplx N A).1 (doLUD cplx N A).2 := by
  refine LU.Part.final le_rfl ?_
  have := up_inv (ludStep cplx N) (fun j s => LU.Part (fun x : K => ‖x‖) N N j A s.1 s.2) N 0 (A, fun _ => 0) (LU.Part.init _ _ _ _ _)
    (fun j s _ h2 hs => ludStep_spec cplx N j (by omega) A s hs)
  rw [Nat.zero_add] at this
  exact this

end
end TMV.SmallDiv
