import Verif.Props.QRP

/-! QR decomposition with column pivoting (C86): the interchanges made by `LooseBlockQRPDecompose`. -/
namespace TMV.QR
open Classical

/-- Product of the interchanges `k <-> P[k]`, `k = a, ..., a+n-1`. -/
def tailP (P : Nat → Nat) (a : Nat) : Nat → Equiv.Perm Nat
  | 0 => 1
  | n+1 => tailP P a n * Equiv.swap (a+n) (P (a+n))

/-- The entries `a..o-1` of `P` inside a block: nothing, or different columns behind the block. -/
structure Ent (o N a : Nat) (P : Nat → Nat) : Prop where
  rng : ∀ k, a ≤ k → k < o → P k = k ∨ (o ≤ P k ∧ P k < N)
  inj : ∀ k l, a ≤ k → k < o → a ≤ l → l < o → k ≠ l → o ≤ P k → P k ≠ P l

theorem Ent.weaken {o N a b : Nat} {P : Nat → Nat} (h : Ent o N a P) (hab : a ≤ b) : Ent o N b P :=
  ⟨fun k h1 h2 => h.rng k (by omega) h2, fun k l h1 h2 h3 h4 => h.inj k l (by omega) h2 (by omega) h4⟩

theorem Ent.congr {o N a : Nat} {P P' : Nat → Nat} (h : Ent o N a P) (he : ∀ k, a ≤ k → k < o → P k = P' k) : Ent o N a P' :=
  ⟨fun k h1 h2 => by rw [← he k h1 h2]; exact h.rng k h1 h2,
    fun k l h1 h2 h3 h4 h5 h6 => by rw [← he k h1 h2] at h6 ⊢; rw [← he l h3 h4]; exact h.inj k l h1 h2 h3 h4 h5 h6⟩

theorem swapsPerm_tail (P : Nat → Nat) (a : Nat) : ∀ n, swapsPerm P (a+n) = swapsPerm P a * tailP P a n
  | 0 => by rw [tailP, mul_one]; rfl
  | n+1 => by rw [tailP, ← mul_assoc, ← swapsPerm_tail P a n]; rfl

theorem tailP_congr {P P' : Nat → Nat} {a : Nat} : ∀ n, (∀ k, a ≤ k → k < a+n → P k = P' k) → tailP P a n = tailP P' a n
  | 0, _ => rfl
  | n+1, h => by rw [tailP, tailP, tailP_congr n fun k h1 h2 => h k h1 (by omega), h (a+n) (by omega) (by omega)]

theorem tailP_front (P : Nat → Nat) (a : Nat) : ∀ n, tailP P a (n+1) = Equiv.swap a (P a) * tailP P (a+1) n
  | 0 => by simp [tailP]
  | n+1 => by
    rw [tailP, tailP_front P a n, tailP, mul_assoc, show a + 1 + n = a + (n+1) by omega]

theorem swap_comm' {x y z t : Nat} (h1 : x ≠ z) (h2 : x ≠ t) (h3 : y ≠ z) (h4 : y ≠ t) :
    Equiv.swap x y * Equiv.swap z t = Equiv.swap z t * Equiv.swap x y := by
  ext c
  simp only [Equiv.Perm.mul_apply]
  rcases swap_cases x y c with ⟨e1, e2⟩ | ⟨-, e1, e2⟩ | ⟨e1, e1', e2⟩
  · rw [e2, e1, Equiv.swap_apply_of_ne_of_ne h1 h2, Equiv.swap_apply_left, Equiv.swap_apply_of_ne_of_ne h3 h4]
  · rw [e2, e1, Equiv.swap_apply_of_ne_of_ne h3 h4, Equiv.swap_apply_right, Equiv.swap_apply_of_ne_of_ne h1 h2]
  · rw [e2]
    rcases swap_cases z t c with ⟨e3, e4⟩ | ⟨-, e3, e4⟩ | ⟨e3, e3', e4⟩
    · rw [e4, Equiv.swap_apply_of_ne_of_ne (Ne.symm h2) (Ne.symm h4)]
    · rw [e4, Equiv.swap_apply_of_ne_of_ne (Ne.symm h1) (Ne.symm h3)]
    · rw [e4, e2]

theorem tail_commute {P : Nat → Nat} {a x y : Nat} : ∀ n,
    (∀ k, a ≤ k → k < a+n → P k = k ∨ (k ≠ x ∧ k ≠ y ∧ P k ≠ x ∧ P k ≠ y)) →
    Equiv.swap x y * tailP P a n = tailP P a n * Equiv.swap x y
  | 0, _ => by simp [tailP]
  | n+1, h => by
    rw [tailP, ← mul_assoc, tail_commute n fun k h1 h2 => h k h1 (by omega), mul_assoc, mul_assoc]
    congr 1
    rcases h (a+n) (by omega) (by omega) with h | ⟨h1, h2, h3, h4⟩
    · rw [h, Equiv.swap_self]
      change _ * 1 = 1 * _
      rw [mul_one, one_mul]
    · exact swap_comm' (Ne.symm h1) (Ne.symm h3) (Ne.symm h2) (Ne.symm h4)

theorem tail_extract {o N a : Nat} {P : Nat → Nat} (h : Ent o N a P) {i : Nat} (hi : a ≤ i) : ∀ n, i < a+n → a+n ≤ o →
    tailP P a n = Equiv.swap i (P i) * tailP (setP P i i) a n
  | 0, h1, _ => by omega
  | n+1, h1, h2 => by
    rw [tailP, tailP]
    by_cases hn : i = a+n
    · have e1 : tailP (setP P i i) a n = tailP P a n := tailP_congr n fun k _ h4 => if_neg (by omega)
      have e2 : setP P i i (a+n) = a+n := by rw [← hn]; exact if_pos rfl
      rw [e1, e2, Equiv.swap_self]
      change _ = _ * (_ * 1)
      rw [mul_one, ← hn]
      symm
      refine tail_commute n fun k h3 h4 => ?_
      rcases h.rng k h3 (by omega) with h5 | h5
      · exact Or.inl h5
      · refine Or.inr ⟨by omega, ?_, by omega, ?_⟩
        · rcases h.rng i hi (by omega) with h6 | h6 <;> omega
        · exact h.inj k i h3 (by omega) hi (by omega) (by omega) h5.1
    · rw [tail_extract h hi n (by omega) (by omega), mul_assoc]
      congr 2
      congr 1
      exact (if_neg (by omega)).symm

theorem tail_sq {o N a : Nat} {P : Nat → Nat} (h : Ent o N a P) : ∀ n, a+n ≤ o → tailP P a n * tailP P a n = 1
  | 0, _ => by simp [tailP]
  | n+1, h1 => by
    rw [tailP]
    have e : Equiv.swap (a+n) (P (a+n)) * tailP P a n = tailP P a n * Equiv.swap (a+n) (P (a+n)) := by
      refine tail_commute n fun k h3 h4 => ?_
      rcases h.rng k h3 (by omega) with h5 | h5
      · exact Or.inl h5
      · refine Or.inr ⟨by omega, ?_, by omega, ?_⟩
        · rcases h.rng (a+n) (by omega) (by omega) with h6 | h6 <;> omega
        · exact h.inj k (a+n) h3 (by omega) (by omega) (by omega) (by omega) h5.1
    rw [mul_assoc, ← mul_assoc (Equiv.swap _ _), e, mul_assoc, Equiv.swap_mul_self, mul_one]
    exact tail_sq h n (by omega)

theorem tail_range {P : Nat → Nat} {a N : Nat} : ∀ n, a+n ≤ N → (∀ k, a ≤ k → k < a+n → a ≤ P k ∧ P k < N) →
    (∀ c, c < a → tailP P a n c = c) ∧ (∀ c, a ≤ c → c < N → a ≤ tailP P a n c ∧ tailP P a n c < N) ∧ ∀ c, N ≤ c → tailP P a n c = c
  | 0, _, _ => ⟨fun _ _ => rfl, fun _ h1 h2 => ⟨h1, h2⟩, fun _ _ => rfl⟩
  | n+1, hN, h => by
    obtain ⟨i1, i2, i3⟩ := tail_range n (by omega) fun k h1 h2 => h k h1 (by omega)
    have hp := h (a+n) (by omega) (by omega)
    refine ⟨fun c hc => ?_, fun c h1 h2 => ?_, fun c hc => ?_⟩
    · rw [tailP, Equiv.Perm.mul_apply, swap_lt (by omega) (by omega), i1 c hc]
    · rw [tailP, Equiv.Perm.mul_apply]
      refine i2 _ ?_ ?_ <;> rcases swap_cases (a+n) (P (a+n)) c with h | h | h <;> omega
    · have e : Equiv.swap (a+n) (P (a+n)) c = c := by
        rcases swap_cases (a+n) (P (a+n)) c with h | h | h <;> omega
      rw [tailP, Equiv.Perm.mul_apply, e, i3 c hc]

/-! ### Swapping a column out of the block -/

/-- The new `P`. -/
def swapOutP (j j2 : Nat) (P : Nat → Nat) : Nat → Nat :=
  if P j2 > j2 then
    if P j > j2 then setP (setP P j (P j2)) j2 (P j) else setP P j (P j2)
  else setP (if P j > j2 then setP P j2 (P j) else P) j j2

/-- The rearrangement of the columns. -/
def swapOutπ (j j2 : Nat) (P : Nat → Nat) : Equiv.Perm Nat :=
  if P j2 > j2 ∧ P j > j2 then Equiv.swap j j2 * Equiv.swap (P j2) (P j) else Equiv.swap j j2

theorem swap4 {j k a b : Nat} (h1 : j ≠ k) (h2 : j ≠ a) (h3 : j ≠ b) (h4 : k ≠ a) (h5 : k ≠ b) (h6 : a ≠ b) :
    Equiv.swap j b * Equiv.swap k a = Equiv.swap j a * Equiv.swap k b * (Equiv.swap j k * Equiv.swap b a) := by
  ext c
  simp only [Equiv.Perm.mul_apply, Equiv.swap_apply_def]
  by_cases c1 : c = j
  · subst c1; simp [*, Ne.symm h1, Ne.symm h2, Ne.symm h3, Ne.symm h4, Ne.symm h5, Ne.symm h6]
  by_cases c2 : c = k
  · subst c2; simp [*, Ne.symm h1, Ne.symm h2, Ne.symm h3, Ne.symm h4, Ne.symm h5, Ne.symm h6]
  by_cases c3 : c = a
  · subst c3; simp [*, Ne.symm h1, Ne.symm h2, Ne.symm h3, Ne.symm h4, Ne.symm h5, Ne.symm h6]
  by_cases c4 : c = b
  · subst c4; simp [*, Ne.symm h1, Ne.symm h2, Ne.symm h3, Ne.symm h4, Ne.symm h5, Ne.symm h6]
  simp [*]

theorem swap3 {j k b : Nat} (h1 : j ≠ k) (h2 : j ≠ b) (h3 : k ≠ b) :
    Equiv.swap j b * Equiv.swap k b = Equiv.swap k b * Equiv.swap j k := by
  ext c
  simp only [Equiv.Perm.mul_apply, Equiv.swap_apply_def]
  by_cases c1 : c = j
  · subst c1; simp [*, Ne.symm h1, Ne.symm h2, Ne.symm h3]
  by_cases c2 : c = k
  · subst c2; simp [*, Ne.symm h1, Ne.symm h2, Ne.symm h3]
  by_cases c3 : c = b
  · subst c3; simp [*, Ne.symm h1, Ne.symm h2, Ne.symm h3]
  simp [*]

theorem swap3' {j k a : Nat} (h1 : j ≠ k) (h2 : j ≠ a) (h3 : k ≠ a) :
    Equiv.swap j k * Equiv.swap k a = Equiv.swap j a * Equiv.swap j k := by
  ext c
  simp only [Equiv.Perm.mul_apply, Equiv.swap_apply_def]
  by_cases c1 : c = j
  · subst c1; simp [*, Ne.symm h1, Ne.symm h2, Ne.symm h3]
  by_cases c2 : c = k
  · subst c2; simp [*, Ne.symm h1, Ne.symm h2, Ne.symm h3]
  by_cases c3 : c = a
  · subst c3; simp [*, Ne.symm h1, Ne.symm h2, Ne.symm h3]
  simp [*]

theorem swapOut_perm {o N j j2 : Nat} {P : Nat → Nat} (h : Ent o N j P) (hj : j < j2) (hj2 : j2 < o) :
    swapsPerm (swapOutP j j2 P) o = swapsPerm P o * swapOutπ j j2 P ∧ Ent o N (j+1) (swapOutP j j2 P) ∧
    (∀ i, i < j → swapOutP j j2 P i = P i) ∧ (o ≤ N → ∀ i, j ≤ i → i < o → i ≤ swapOutP j j2 P i ∧ swapOutP j j2 P i < N) := by
  have rj := h.rng j le_rfl (by omega)
  have rk := h.rng j2 (by omega) hj2
  have hinj := h.inj j j2 le_rfl (by omega) (by omega) hj2 (by omega)
  obtain ⟨P', hP'⟩ : ∃ P', P' = swapOutP j j2 P := ⟨_, rfl⟩
  have hother : ∀ i, i ≠ j → i ≠ j2 → P' i = P i := by
    intro i h1 h2
    rw [hP']
    unfold swapOutP setP
    split_ifs <;> simp [h1, h2]
  have hne : j ≠ j2 := by omega
  have hPj : P' j = if P j2 > j2 then P j2 else j2 := by
    rw [hP']
    unfold swapOutP setP
    split_ifs <;> simp [hne, Ne.symm hne] <;> omega
  have hPk : P' j2 = if P j > j2 then P j else P j2 := by
    rw [hP']
    unfold swapOutP setP
    split_ifs <;> simp [hne, Ne.symm hne] <;> omega
  have hent : Ent o N (j+1) P' := by
    refine ⟨fun k h1 h2 => ?_, fun k l h1 h2 h3 h4 h5 h6 => ?_⟩
    · by_cases hk : k = j2
      · rw [hk, hPk]; split_ifs <;> omega
      · rw [hother k (by omega) hk]; exact h.rng k (by omega) h2
    · by_cases hk : k = j2
      · rw [hk, hPk] at h6 ⊢
        rw [hother l (by omega) (by omega)]
        split_ifs at h6 ⊢
        · exact h.inj j l le_rfl (by omega) (by omega) h4 (by omega) h6
        · exact h.inj j2 l (by omega) hj2 (by omega) h4 (by omega) h6
      · rw [hother k (by omega) hk] at h6 ⊢
        by_cases hl : l = j2
        · rw [hl, hPk]
          split_ifs
          · exact h.inj k j (by omega) h2 le_rfl (by omega) (by omega) h6
          · exact h.inj k j2 (by omega) h2 (by omega) hj2 (by omega) h6
        · rw [hother l (by omega) hl]
          exact h.inj k l (by omega) h2 (by omega) h4 h5 h6
  rw [← hP']
  refine ⟨?_, hent, fun i hi => hother i (by omega) (by omega), fun hoN i h1 h2 => ?_⟩
  · -- split off the interchanges of j and j2
    obtain ⟨n, hn⟩ : ∃ n, o = j + (n+1) := ⟨o - j - 1, by omega⟩
    have e1 : swapsPerm P' o = swapsPerm P j * (Equiv.swap j (P' j) * (Equiv.swap j2 (P' j2) * tailP (setP P j2 j2) (j+1) n)) := by
      rw [hn, swapsPerm_tail, tailP_front, swapsPerm_congr (P' := P) j fun i hi => hother i (by omega) (by omega),
        tail_extract hent (i := j2) (by omega) n (by omega) (by omega)]
      rw [tailP_congr (P := setP P' j2 j2) (P' := setP P j2 j2) n fun k h3 h4 => by
        unfold setP
        by_cases hk : k = j2
        · rw [if_pos hk, if_pos hk]
        · rw [if_neg hk, if_neg hk, hother k (by omega) hk]]
    have e2 : swapsPerm P o = swapsPerm P j * (Equiv.swap j (P j) * (Equiv.swap j2 (P j2) * tailP (setP P j2 j2) (j+1) n)) := by
      rw [hn, swapsPerm_tail, tailP_front, tail_extract (h.weaken (b := j+1) (by omega)) (i := j2) (by omega) n (by omega) (by omega)]
    have hcm : ∀ x y, (x = j ∨ x = j2 ∨ (o ≤ x ∧ (x = P j ∨ x = P j2))) → (y = j ∨ y = j2 ∨ (o ≤ y ∧ (y = P j ∨ y = P j2))) →
        Equiv.swap x y * tailP (setP P j2 j2) (j+1) n = tailP (setP P j2 j2) (j+1) n * Equiv.swap x y := by
      intro x y hx hy
      refine tail_commute n fun k h3 h4 => ?_
      by_cases hk : k = j2
      · left; rw [hk]; exact if_pos rfl
      · have hk' : setP P j2 j2 k = P k := if_neg hk
        rw [hk']
        rcases h.rng k (by omega) (by omega) with h5 | h5
        · exact Or.inl h5
        · have i1 := h.inj k j (by omega) (by omega) le_rfl (by omega) (by omega) h5.1
          have i2 := h.inj k j2 (by omega) (by omega) (by omega) (by omega) (by omega) h5.1
          refine Or.inr ⟨?_, ?_, ?_, ?_⟩
          · rcases hx with h | h | ⟨h, -⟩ <;> omega
          · rcases hy with h | h | ⟨h, -⟩ <;> omega
          · rcases hx with h | h | ⟨-, h | h⟩ <;> omega
          · rcases hy with h | h | ⟨-, h | h⟩ <;> omega
    have hπ : tailP (setP P j2 j2) (j+1) n * swapOutπ j j2 P = swapOutπ j j2 P * tailP (setP P j2 j2) (j+1) n := by
      unfold swapOutπ
      split_ifs with hc
      · rw [← mul_assoc, ← hcm j j2 (Or.inl rfl) (Or.inr (Or.inl rfl)), mul_assoc,
          ← hcm (P j2) (P j) (Or.inr (Or.inr ⟨by omega, Or.inr rfl⟩)) (Or.inr (Or.inr ⟨by omega, Or.inl rfl⟩)), mul_assoc]
      · exact (hcm j j2 (Or.inl rfl) (Or.inr (Or.inl rfl))).symm
    rw [e1, e2, mul_assoc, mul_assoc, mul_assoc, hπ]
    congr 1
    rw [← mul_assoc, ← mul_assoc, ← mul_assoc]
    congr 1
    rw [hPj, hPk]
    unfold swapOutπ
    have h1s : ∀ x : Nat, Equiv.swap x x = (1 : Equiv.Perm Nat) := fun x => Equiv.swap_self x
    by_cases ca : P j2 > j2
    · by_cases cb : P j > j2
      · rw [if_pos ca, if_pos cb, if_pos ⟨ca, cb⟩]
        exact swap4 hne (by omega) (by omega) (by omega) (by omega) (hinj (by omega))
      · rw [if_pos ca, if_neg cb, if_neg (by omega), show P j = j by omega, h1s, one_mul]
        exact swap3 hne (by omega) (by omega)
    · by_cases cb : P j > j2
      · rw [if_neg ca, if_pos cb, if_neg (by omega), show P j2 = j2 by omega, h1s, mul_one]
        exact swap3' hne (by omega) (by omega)
      · rw [if_neg ca, if_neg cb, if_neg (by omega), show P j2 = j2 by omega, show P j = j by omega, h1s, h1s, mul_one, one_mul, one_mul]
  · by_cases hij : i = j
    · rw [hij, hPj]; split_ifs <;> omega
    · by_cases hik : i = j2
      · rw [hik, hPk]; split_ifs <;> omega
      · rw [hother i hij hik]; have := h.rng i h1 h2; omega

end TMV.QR
