import Verif.Model.DiagTri
import Verif.Props.Diag
import Verif.Spec.MulTri

/-! Products of a diagonal and a triangular matrix. -/
namespace TMV.Diag
noncomputable section
open Classical
variable {K : Type} [RCLike K]

theorem DV.sub_el (A : DV K) (o i : Nat) : (A.sub o).el i = A.el (o + i) := rfl

theorem mulM_eq (l : Lay) (α : K) (M N : Nat) (A : DV K) (X : Nat → Nat → K) (i j : Nat) :
    mulM false false true l l α M N A X X i j = if i < M ∧ j < N then α * A.el i * X i j else X i j := by
  have h := mulM_partial false false true l l α M N A X X (Or.inl rfl) i j
  rw [h]
  by_cases hij : i < M ∧ j < N
  · rw [if_pos hij, if_pos hij, diag_sum _ _ _ _ _ hij.1, if_neg (by simp), zero_add, mul_assoc]
  · rw [if_neg hij, if_neg hij]

omit [RCLike K] in
theorem onBlock_val {r c M N : Nat} {f : (Nat → Nat → K) → Nat → Nat → K} {X : Nat → Nat → K} {i j : Nat} {G : K}
    (h : r ≤ i → i < r + M → c ≤ j → j < c + N → f (fun a b => X (r + a) (c + b)) (i - r) (j - c) = G) :
    onBlock r c M N f X i j = if r ≤ i ∧ i < r + M ∧ c ≤ j ∧ j < c + N then G else X i j := by
  unfold onBlock
  by_cases hh : r ≤ i ∧ i < r + M ∧ c ≤ j ∧ j < c + N
  · rw [if_pos hh, if_pos hh]; exact h hh.1 hh.2.1 hh.2.2.1 hh.2.2.2
  · rw [if_neg hh, if_neg hh]

theorem eqOne_val (α : K) (A : DV K) (o : Nat) (B : Nat → Nat → K) (i j : Nat) :
    eqOne α A o B i j = if i = o ∧ j = o then α * A.el i * B i j else B i j := by
  unfold eqOne DV.el
  by_cases h : i = o ∧ j = o
  · rw [if_pos h, if_pos h]
    obtain ⟨rfl, rfl⟩ := h
    by_cases h1 : α = 1
    · rw [if_pos h1, h1]; ring
    · rw [if_neg h1]; ring
  · rw [if_neg h, if_neg h]

theorem eqU_val (l : Lay) (α : K) (A : DV K) : ∀ (n o : Nat) (B : Nat → Nat → K) (i j : Nat),
    eqU l α A n o B i j = if o ≤ i ∧ i ≤ j ∧ j < o + n then α * A.el i * B i j else B i j := by
  intro n
  induction n using Nat.strong_induction_on with
  | _ n ih =>
    intro o B i j
    rw [eqU]
    by_cases hn : n ≤ 1
    · rw [dif_pos hn]
      by_cases h0 : n = 0
      · rw [if_pos h0, if_neg (by omega)]
      · rw [if_neg h0, eqOne_val]
        by_cases h : i = o ∧ j = o
        · rw [if_pos h, if_pos (by omega)]
        · rw [if_neg h, if_neg (by omega)]
    · rw [dif_neg hn]
      have hk : n / 2 < n := Nat.div_lt_self (by omega) (by omega)
      have hk1 : 1 ≤ n / 2 := by omega
      set k := n / 2 with hkd
      rw [ih (n - k) (by omega)]
      rw [onBlock_val (G := α * A.el i * (eqU l α A k o B) i j) (by
        intro h1 h2 h3 h4
        rw [mulM_eq, if_pos (by omega), DV.sub_el, show o + (i - o) = i by omega, show o + k + (j - (o + k)) = j by omega])]
      rw [ih k hk]
      by_cases c1 : o + k ≤ i ∧ i ≤ j ∧ j < o + k + (n - k)
      · rw [if_pos c1, if_neg (by omega), if_neg (by omega), if_pos (by omega)]
      · rw [if_neg c1]
        by_cases c2 : o ≤ i ∧ i < o + k ∧ o + k ≤ j ∧ j < o + k + (n - k)
        · rw [if_pos c2, if_neg (by omega), if_pos (by omega)]
        · rw [if_neg c2]
          by_cases c3 : o ≤ i ∧ i ≤ j ∧ j < o + k
          · rw [if_pos c3, if_pos (by omega)]
          · rw [if_neg c3, if_neg (by omega)]

theorem eqL_val (l : Lay) (α : K) (A : DV K) : ∀ (n o : Nat) (B : Nat → Nat → K) (i j : Nat),
    eqL l α A n o B i j = if o ≤ j ∧ j ≤ i ∧ i < o + n then α * A.el i * B i j else B i j := by
  intro n
  induction n using Nat.strong_induction_on with
  | _ n ih =>
    intro o B i j
    rw [eqL]
    by_cases hn : n ≤ 1
    · rw [dif_pos hn]
      by_cases h0 : n = 0
      · rw [if_pos h0, if_neg (by omega)]
      · rw [if_neg h0, eqOne_val]
        by_cases h : i = o ∧ j = o
        · rw [if_pos h, if_pos (by omega)]
        · rw [if_neg h, if_neg (by omega)]
    · rw [dif_neg hn]
      have hk : n / 2 < n := Nat.div_lt_self (by omega) (by omega)
      have hk1 : 1 ≤ n / 2 := by omega
      set k := n / 2 with hkd
      rw [ih (n - k) (by omega)]
      rw [onBlock_val (G := α * A.el i * (eqL l α A k o B) i j) (by
        intro h1 h2 h3 h4
        rw [mulM_eq, if_pos (by omega), DV.sub_el, show o + (j - o) = j by omega, show o + k + (i - (o + k)) = i by omega])]
      rw [ih k hk]
      by_cases c1 : o + k ≤ j ∧ j ≤ i ∧ i < o + k + (n - k)
      · rw [if_pos c1, if_neg (by omega), if_neg (by omega), if_pos (by omega)]
      · rw [if_neg c1]
        by_cases c2 : o + k ≤ i ∧ i < o + k + (n - k) ∧ o ≤ j ∧ j < o + k
        · rw [if_pos c2, if_neg (by omega), if_pos (by omega)]
        · rw [if_neg c2]
          by_cases c3 : o ≤ j ∧ j ≤ i ∧ i < o + k
          · rw [if_pos c3, if_pos (by omega)]
          · rw [if_neg c3, if_neg (by omega)]

theorem inTri_up {N i j : Nat} : inTri true N i j ↔ 0 ≤ i ∧ i ≤ j ∧ j < 0 + N := by unfold inTri; simp
theorem inTri_lo {N i j : Nat} : inTri false N i j ↔ 0 ≤ j ∧ j ≤ i ∧ i < 0 + N := by unfold inTri; simp

theorem cj_cj (c : Bool) (z : K) : cj c (cj c z) = z := by cases c <;> simp [cj]
theorem cj_mul (c : Bool) (y z : K) : cj c (y * z) = cj c y * cj c z := by cases c <;> simp [cj]
theorem cj_add (c : Bool) (y z : K) : cj c (y + z) = cj c y + cj c z := by cases c <;> simp [cj]
theorem cj_zero (c : Bool) : cj c (0 : K) = 0 := by cases c <;> simp [cj]
theorem cj_one (c : Bool) : cj c (1 : K) = 1 := by cases c <;> simp [cj]
theorem cj_not (c : Bool) (z : K) : cj (!c) z = star (cj c z) := by cases c <;> simp [cj]

theorem DV.conjugate_el (A : DV K) (i : Nat) : A.conjugate.el i = star (A.el i) := cj_not _ _

theorem TV.conjugate_el (B : TV K) (i j : Nat) : B.conjugate.el i j = star (B.el i j) := by
  unfold TV.el TV.conjugate
  by_cases h : B.unit = true ∧ i = j
  · rw [if_pos h, if_pos h]; simp
  · rw [if_neg h, if_neg h]; exact cj_not _ _

/-- `B = alpha*A*B` multiplies every element of the triangle by that of `A` in its row. -/
theorem mulEqT_val (up cc : Bool) (l : Lay) (α : K) (N : Nat) (A : DV K) (B : Nat → Nat → K) (i j : Nat) :
    cj cc (mulEqT up cc l α N A B i j) = if inTri up N i j then α * A.el i * cj cc (B i j) else cj cc (B i j) := by
  have key : ∀ (α : K) (A : DV K), (if up then eqU l α A N 0 B else eqL l α A N 0 B) i j =
      if inTri up N i j then α * A.el i * B i j else B i j := by
    intro α A
    cases up
    · rw [if_neg (by simp), eqL_val]
      exact if_congr inTri_lo.symm rfl rfl
    · rw [if_pos rfl, eqU_val]
      exact if_congr inTri_up.symm rfl rfl
  unfold mulEqT
  dsimp only
  cases cc
  · rw [if_neg (by simp), key]; rfl
  · rw [if_pos rfl, key, DV.conjugate_el]
    by_cases h : inTri up N i j
    · rw [if_pos h, if_pos h]; simp [cj]
    · rw [if_neg h, if_neg h]

/-- The factor that `C += alpha*A*B` uses for the block off the diagonal: `A`, or the numbers stored without their conjugation. -/
theorem mulM_add {lb l : Lay} {α : K} {M N : Nat} {A : DV K} (B X : Nat → Nat → K) (i j : Nat) (hi : i < M) (hj : j < N)
    (hok : α ≠ 1 ∨ A.cj = false ∨ A.unit = true ∨ (lb.rm = true ∧ l.rm = true) ∨ (¬ (lb.cm = true ∧ l.cm = true) ∧ M ≤ N)) :
    mulM true false false lb l α M N A B X i j = X i j + α * A.el i * B i j := by
  have h := mulM_partial true false false lb l α M N A B X (Or.inr (Or.inr (Or.inr hok))) i j
  rw [h, if_pos ⟨hi, hj⟩, diag_sum _ _ _ _ _ hi, if_pos rfl, mul_assoc]

theorem addOne_val (α : K) (A : DV K) (B : TV K) (o : Nat) (C : Nat → Nat → K) (i j : Nat) :
    addOne α A B o C i j = if i = o ∧ j = o then C i j + α * A.el i * B.el i j else C i j := by
  unfold addOne DV.el TV.el
  by_cases h : i = o ∧ j = o
  · rw [if_pos h, if_pos h]
    obtain ⟨rfl, rfl⟩ := h
    by_cases h1 : α = 1 <;> by_cases h2 : B.unit = true <;> simp [h1, h2]
  · rw [if_neg h, if_neg h]

theorem TV.el_off (B : TV K) {i j : Nat} (h : i ≠ j) : B.el i j = TMV.cj B.cj (B.b i j) := by
  unfold TV.el; rw [if_neg (fun h' => h h'.2)]

/-- `C += alpha*A*B` for an upper triangular `C`; `g` is the factor of the rows off the diagonal. -/
theorem addU_val (l : Lay) (α : K) (A : DV K) (B : TV K) (g : Nat → K)
    (hg : ∀ (k n o i j : Nat) (X : Nat → Nat → K), k ≤ n → i < k → j < n →
      mulM true false false B.lay l α k n (A.sub o) (fun a c => cj B.cj (B.b (o + a) (o + k + c))) X i j =
        X i j + α * g (o + i) * cj B.cj (B.b (o + i) (o + k + j))) :
    ∀ (n o : Nat) (C : Nat → Nat → K) (i j : Nat),
    addU l α A B n o C i j = if o ≤ i ∧ i ≤ j ∧ j < o + n then C i j + α * (if i = j then A.el i else g i) * B.el i j else C i j := by
  intro n
  induction n using Nat.strong_induction_on with
  | _ n ih =>
    intro o C i j
    rw [addU]
    by_cases hn : n ≤ 1
    · rw [dif_pos hn]
      by_cases h0 : n = 0
      · rw [if_pos h0, if_neg (by omega)]
      · rw [if_neg h0, addOne_val]
        by_cases h : i = o ∧ j = o
        · rw [if_pos h, if_pos (by omega), if_pos (by omega)]
        · rw [if_neg h, if_neg (by omega)]
    · rw [dif_neg hn]
      have hk : n / 2 < n := Nat.div_lt_self (by omega) (by omega)
      have hk1 : 1 ≤ n / 2 := by omega
      have hk2 : n / 2 ≤ n - n / 2 := by omega
      set k := n / 2 with hkd
      rw [ih (n - k) (by omega)]
      rw [onBlock_val (G := (addU l α A B k o C) i j + α * g i * B.el i j) (by
        intro h1 h2 h3 h4
        rw [hg _ _ _ _ _ _ hk2 (by omega) (by omega), show o + (i - o) = i by omega, show o + k + (j - (o + k)) = j by omega,
          B.el_off (by omega)])]
      rw [ih k hk]
      have hw : i ≠ j → (if i = j then A.el i else g i) = g i := fun h => if_neg h
      generalize (if i = j then A.el i else g i) = w at hw ⊢
      by_cases c1 : o + k ≤ i ∧ i ≤ j ∧ j < o + k + (n - k)
      · rw [if_pos c1, if_neg (by omega), if_neg (by omega), if_pos (by omega)]
      · rw [if_neg c1]
        by_cases c2 : o ≤ i ∧ i < o + k ∧ o + k ≤ j ∧ j < o + k + (n - k)
        · rw [if_pos c2, if_neg (by omega), if_pos (by omega), hw (by omega)]
        · rw [if_neg c2]
          by_cases c3 : o ≤ i ∧ i ≤ j ∧ j < o + k
          · rw [if_pos c3, if_pos (by omega)]
          · rw [if_neg c3, if_neg (by omega)]

/-- `C += alpha*A*B` for a lower triangular `C`. -/
theorem addL_val (l : Lay) (α : K) (A : DV K) (B : TV K) (g : Nat → K)
    (hg : ∀ (k n o i j : Nat) (X : Nat → Nat → K), i < n → j < k →
      mulM true false false B.lay l α n k (A.sub (o + k)) (fun a c => cj B.cj (B.b (o + k + a) (o + c))) X i j =
        X i j + α * g (o + k + i) * cj B.cj (B.b (o + k + i) (o + j))) :
    ∀ (n o : Nat) (C : Nat → Nat → K) (i j : Nat),
    addL l α A B n o C i j = if o ≤ j ∧ j ≤ i ∧ i < o + n then C i j + α * (if i = j then A.el i else g i) * B.el i j else C i j := by
  intro n
  induction n using Nat.strong_induction_on with
  | _ n ih =>
    intro o C i j
    rw [addL]
    by_cases hn : n ≤ 1
    · rw [dif_pos hn]
      by_cases h0 : n = 0
      · rw [if_pos h0, if_neg (by omega)]
      · rw [if_neg h0, addOne_val]
        by_cases h : i = o ∧ j = o
        · rw [if_pos h, if_pos (by omega), if_pos (by omega)]
        · rw [if_neg h, if_neg (by omega)]
    · rw [dif_neg hn]
      have hk : n / 2 < n := Nat.div_lt_self (by omega) (by omega)
      have hk1 : 1 ≤ n / 2 := by omega
      set k := n / 2 with hkd
      rw [ih (n - k) (by omega)]
      rw [onBlock_val (G := (addL l α A B k o C) i j + α * g i * B.el i j) (by
        intro h1 h2 h3 h4
        rw [hg _ _ _ _ _ _ (by omega) (by omega), show o + (j - o) = j by omega, show o + k + (i - (o + k)) = i by omega,
          B.el_off (by omega)])]
      rw [ih k hk]
      have hw : i ≠ j → (if i = j then A.el i else g i) = g i := fun h => if_neg h
      generalize (if i = j then A.el i else g i) = w at hw ⊢
      by_cases c1 : o + k ≤ j ∧ j ≤ i ∧ i < o + k + (n - k)
      · rw [if_pos c1, if_neg (by omega), if_neg (by omega), if_pos (by omega)]
      · rw [if_neg c1]
        by_cases c2 : o + k ≤ i ∧ i < o + k + (n - k) ∧ o ≤ j ∧ j < o + k
        · rw [if_pos c2, if_neg (by omega), if_pos (by omega), hw (by omega)]
        · rw [if_neg c2]
          by_cases c3 : o ≤ j ∧ j ≤ i ∧ i < o + k
          · rw [if_pos c3, if_pos (by omega)]
          · rw [if_neg c3, if_neg (by omega)]

/-- When `AddMultMM` reads the diagonal matrix as it should. -/
def AddOK (up : Bool) (l lb : Lay) (α : K) (A : DV K) (ccj : Bool) : Prop :=
  α ≠ 1 ∨ A.cj = ccj ∨ A.unit = true ∨ (lb.rm = true ∧ l.rm = true) ∨ (up = true ∧ ¬ (lb.cm = true ∧ l.cm = true))

theorem addMulT_val (up cc : Bool) (l : Lay) (α : K) (N : Nat) (A : DV K) (B : TV K) (C : Nat → Nat → K) (i j : Nat)
    (hok : AddOK up l B.lay α A cc) :
    cj cc (addMulT up cc l α N A B C i j) = if inTri up N i j then cj cc (C i j) + α * A.el i * B.el i j else cj cc (C i j) := by
  have key : ∀ (α : K) (A : DV K) (B : TV K), AddOK up l B.lay α A false → (if up then addU l α A B N 0 C else addL l α A B N 0 C) i j =
      if inTri up N i j then C i j + α * A.el i * B.el i j else C i j := by
    intro α A B hok
    cases up
    · rw [if_neg (by simp), addL_val l α A B A.el (by
        intro k n o i j X hi hj
        rw [mulM_add _ _ _ _ hi hj (by
          rcases hok with h | h | h | h | h
          · exact Or.inl h
          · exact Or.inr (Or.inl h)
          · exact Or.inr (Or.inr (Or.inl h))
          · exact Or.inr (Or.inr (Or.inr (Or.inl h)))
          · exact absurd h.1 (by simp)), DV.sub_el])]
      rw [ite_self]
      exact if_congr inTri_lo.symm rfl rfl
    · rw [if_pos rfl, addU_val l α A B A.el (by
        intro k n o i j X hkn hi hj
        rw [mulM_add _ _ _ _ hi hj (by
          rcases hok with h | h | h | h | h
          · exact Or.inl h
          · exact Or.inr (Or.inl h)
          · exact Or.inr (Or.inr (Or.inl h))
          · exact Or.inr (Or.inr (Or.inr (Or.inl h)))
          · exact Or.inr (Or.inr (Or.inr (Or.inr ⟨h.2, hkn⟩)))), DV.sub_el])]
      rw [ite_self]
      exact if_congr inTri_up.symm rfl rfl
  unfold addMulT
  dsimp only
  cases cc
  · rw [if_neg (by simp), key _ _ _ hok]; rfl
  · rw [if_pos rfl, key _ _ _ (by
      rcases hok with h | h | h | h | h
      · exact Or.inl fun h' => h (by simpa using congrArg star h')
      · exact Or.inr (Or.inl (by show (!A.cj) = false; rw [h]; rfl))
      · exact Or.inr (Or.inr (Or.inl h))
      · exact Or.inr (Or.inr (Or.inr (Or.inl h)))
      · exact Or.inr (Or.inr (Or.inr (Or.inr h)))), DV.conjugate_el, TV.conjugate_el]
    by_cases h : inTri up N i j
    · rw [if_pos h, if_pos h]; simp [cj]
    · rw [if_neg h, if_neg h]

theorem tri_sum (up : Bool) (e : Nat → K) (B : Nat → Nat → K) {N i j : Nat} (h : inTri up N i j) :
    ∑ k ∈ Finset.range N, diagMat e i k * triMat up B k j = e i * B i j := by
  have hi : i < N := by cases up <;> simp [inTri] at h <;> omega
  rw [diag_sum _ _ _ _ _ hi]
  congr 1
  unfold triMat
  rw [if_pos]
  cases up <;> simp [inTri] at h ⊢ <;> omega

theorem tri_sum' (up : Bool) (e : Nat → K) (B : Nat → Nat → K) {N i j : Nat} (h : inTri up N i j) :
    ∑ k ∈ Finset.range N, triMat up B i k * diagMat e k j = B i j * e j := by
  have hj : j < N := by cases up <;> simp [inTri] at h <;> omega
  rw [Finset.sum_eq_single j]
  · unfold diagMat triMat
    rw [if_pos rfl, if_pos]
    cases up <;> simp [inTri] at h ⊢ <;> omega
  · intro k _ hk; simp [diagMat, hk]
  · intro h; simp at h; omega

theorem mulDT_val (up add ac bc cc : Bool) (l : Lay) (α : K) (N : Nat) (A : DV K) (B : TV K) (C : Nat → Nat → K)
    (hok : add = false ∨ ac = true ∨ bc = true ∨ AddOK up l B.lay α A cc) (i j : Nat) :
    cj cc (mulDT up add ac bc cc l α N A B C i j) =
      if inTri up N i j then (if add then cj cc (C i j) else 0) + α * A.el i * B.el i j else cj cc (C i j) := by
  have body : ∀ A : DV K, (add = false ∨ bc = true ∨ AddOK up l B.lay α A cc) → cj cc
      ((if (!add) = true then mulEqT up cc l α N A (fun i j => if inTri up N i j then TMV.cj cc (B.el i j) else C i j)
        else if bc = true then (fun i j => if inTri up N i j then
          TMV.cj cc (TMV.cj cc (C i j) + mulEqT up false ⟨B.lay.rm, !B.lay.rm⟩ α N A B.el i j) else C i j)
        else addMulT up cc l α N A B C) i j) =
      if inTri up N i j then (if add then cj cc (C i j) else 0) + α * A.el i * B.el i j else cj cc (C i j) := by
    intro A hok
    by_cases h1 : (!add) = true
    · rw [if_pos h1, mulEqT_val]
      have : ¬ add = true := by simpa using h1
      rw [if_neg this]
      by_cases h : inTri up N i j
      · rw [if_pos h, if_pos h, if_pos h, cj_cj, zero_add]
      · rw [if_neg h, if_neg h, if_neg h]
    · rw [if_neg h1]
      have ha : add = true := by simpa using h1
      rw [if_pos ha]
      by_cases h2 : bc = true
      · rw [if_pos h2]
        have := mulEqT_val up false ⟨B.lay.rm, !B.lay.rm⟩ α N A B.el i j
        by_cases h : inTri up N i j
        · rw [if_pos h, if_pos h, cj_cj]
          rw [if_pos h] at this
          rw [show mulEqT up false ⟨B.lay.rm, !B.lay.rm⟩ α N A B.el i j = α * A.el i * B.el i j from this]
        · rw [if_neg h, if_neg h]
      · rw [if_neg h2]
        exact addMulT_val up cc l α N A B C i j (by
          rcases hok with h | h | h
          · rw [ha] at h; cases h
          · exact absurd h h2
          · exact h)
  unfold mulDT
  by_cases hN : N > 0
  · rw [if_pos hN]
    by_cases h0 : α = 0
    · rw [if_pos h0, h0]
      by_cases h : inTri up N i j <;> cases add <;> simp [h, cj_zero]
    · rw [if_neg h0]
      by_cases h1 : ac = true
      · rw [if_pos h1]
        refine (body (DV.new A.el) ?_)
        rcases hok with h | h | h | h
        · exact Or.inl h
        · exact Or.inr (Or.inr (Or.inr (Or.inr (Or.inl rfl))))
        · exact Or.inr (Or.inl h)
        · exact Or.inr (Or.inr (Or.inr (Or.inr (Or.inl rfl))))
      · rw [if_neg h1]
        refine (body A ?_)
        rcases hok with h | h | h | h
        · exact Or.inl h
        · exact absurd h h1
        · exact Or.inr (Or.inl h)
        · exact Or.inr (Or.inr h)
  · rw [if_neg hN, if_neg]
    cases up <;> simp [inTri] <;> omega

/-- **C127** `C = alpha*D*B` and `C += alpha*D*B` for a diagonal `D` and triangular `B`, `C` of the same shape: the elements of the triangle
become those of the product (or are increased by them), nothing else changes.  Missing: `C += D*B` for a `D` conjugated with respect to `C`,
whose diagonal has a step, and matrices that are not row major; see `mulDT_violated`. -/
theorem mulDT_partial (up add ac bc cc : Bool) (l : Lay) (α : K) (N : Nat) (A : DV K) (B : TV K) (C : Nat → Nat → K)
    (hok : add = false ∨ ac = true ∨ bc = true ∨ AddOK up l B.lay α A cc) :
    MulAddTri up add α N (diagMat A.el) (triMat up B.el) (fun i j => cj cc (C i j))
      (fun i j => cj cc (mulDT up add ac bc cc l α N A B C i j)) := by
  intro i j
  dsimp only
  rw [mulDT_val up add ac bc cc l α N A B C hok]
  by_cases h : inTri up N i j
  · have h2 : if up = true then i ≤ j ∧ j < N else j ≤ i ∧ i < N := h
    rw [if_pos h, if_pos h2, tri_sum up A.el B.el h, mul_assoc]
  · have h2 : ¬ if up = true then i ≤ j ∧ j < N else j ≤ i ∧ i < N := h
    rw [if_neg h, if_neg h2]

theorem TV.tr_el (B : TV K) (i j : Nat) : B.tr.el i j = B.el j i := by
  unfold TV.el TV.tr
  by_cases h : B.unit = true ∧ i = j
  · rw [if_pos h, if_pos ⟨h.1, h.2.symm⟩]
  · rw [if_neg h, if_neg fun h' => h ⟨h'.1, h'.2.symm⟩]

theorem inTri_tr (up : Bool) (N i j : Nat) : inTri (!up) N j i ↔ inTri up N i j := by cases up <;> simp [inTri]

/-- **C127** `C = alpha*A*D` and `C += alpha*A*D` for a triangular `A` and a diagonal `D`. -/
theorem mulTD_partial (up add bc ac cc : Bool) (l : Lay) (α : K) (N : Nat) (A : TV K) (B : DV K) (C : Nat → Nat → K)
    (hok : add = false ∨ bc = true ∨ ac = true ∨ AddOK (!up) ⟨l.cm, l.rm⟩ ⟨A.lay.cm, A.lay.rm⟩ α B cc) :
    MulAddTri up add α N (triMat up A.el) (diagMat B.el) (fun i j => cj cc (C i j))
      (fun i j => cj cc (mulTD up add bc ac cc l α N A B C i j)) := by
  intro i j
  show cj cc (mulDT (!up) add bc ac cc ⟨l.cm, l.rm⟩ α N B A.tr (fun i j => C j i) j i) = _
  rw [mulDT_val (!up) add bc ac cc ⟨l.cm, l.rm⟩ α N B A.tr _ hok]
  by_cases h : inTri up N i j
  · have h2 : if up = true then i ≤ j ∧ j < N else j ≤ i ∧ i < N := h
    rw [if_pos ((inTri_tr up N i j).mpr h), if_pos h2, tri_sum' up B.el A.el h, TV.tr_el]; ring
  · have h2 : ¬ if up = true then i ≤ j ∧ j < N else j ≤ i ∧ i < N := h
    rw [if_neg fun h' => h ((inTri_tr up N i j).mp h'), if_neg h2]

/-- **C127** fails for `C += D.conjugate()*B` when the diagonal has a step and the matrices are column major: the elements of `D` are
conjugated on the diagonal of `C` and not conjugated elsewhere. -/
theorem mulDT_violated (N : Nat) (d : Nat → K) (B : TV K) (hl : B.lay = ⟨false, true⟩) (C : Nat → Nat → K) (i j : Nat) (hij : i ≤ j) (hj : j < N) :
    mulDT true true false false false ⟨false, true⟩ 1 N ⟨d, true, false⟩ B C i j =
      C i j + (if i = j then star (d i) else d i) * B.el i j := by
  unfold mulDT
  rw [if_pos (by omega), if_neg one_ne_zero, if_neg (by simp)]
  dsimp only
  rw [if_neg (by simp), if_neg (by simp)]
  unfold addMulT
  dsimp only
  rw [if_neg (by simp), if_pos rfl, addU_val _ _ _ _ d (by
    intro k n o i j X hkn hi hj
    rw [hl]
    have := mulM_violated k n (fun i => d (o + i)) (fun a c => TMV.cj B.cj (B.b (o + a) (o + k + c))) X i j
    rw [if_pos ⟨hi, hj⟩, diag_sum _ _ (fun a c => TMV.cj B.cj (B.b (o + a) (o + k + c))) _ _ hi, if_pos rfl] at this
    refine (show _ = _ from this).trans ?_
    ring), if_pos (by omega), one_mul]
  rfl

/-- **C127** (violated, an instance): with `D = diag(i,i)` the sum `C += D.conjugate()*B` is not what the library computes. -/
theorem mulDT_violated_ex : ¬ MulAddTri true true (1:ℂ) 2 (diagMat (DV.el ⟨fun _ => Complex.I, true, false⟩))
    (triMat true (TV.el ⟨fun _ _ => 1, false, false, ⟨false, true⟩⟩)) (fun _ _ => 0)
    (mulDT true true false false false ⟨false, true⟩ 1 2 ⟨fun _ => Complex.I, true, false⟩
      ⟨fun _ _ => 1, false, false, ⟨false, true⟩⟩ (fun _ _ => 0)) := by
  intro h
  have h1 := h 0 1
  rw [mulDT_violated 2 _ _ rfl _ 0 1 (by omega) (by omega), if_pos (show if true = true then 0 ≤ 1 ∧ 1 < 2 else 1 ≤ 0 ∧ 0 < 2 by simp),
    tri_sum true _ _ (show inTri true 2 0 1 by simp [inTri])] at h1
  simp [DV.el, TV.el, cj] at h1
  have := congrArg Complex.im h1
  norm_num at this

/-- A case that meets the hypotheses: `C += D*B` with a complex `D`, `B` with an implicit diagonal and conjugated, `C` conjugated. -/
example : cj true (mulDT true true false false true ⟨true, false⟩ (1:ℂ) 3 ⟨fun _ => Complex.I, false, false⟩
    ⟨fun _ _ => 2, true, true, ⟨true, false⟩⟩ (fun _ _ => 5) 0 2) = 5 + 2 * Complex.I := by
  have h := mulDT_partial true true false false true ⟨true, false⟩ (1:ℂ) 3 ⟨fun _ => Complex.I, false, false⟩
    ⟨fun _ _ => 2, true, true, ⟨true, false⟩⟩ (fun _ _ => 5) (Or.inr (Or.inr (Or.inr (Or.inr (Or.inr (Or.inr (Or.inl ⟨rfl, rfl⟩))))))) 0 2
  refine h.trans ?_
  rw [if_pos (by simp), tri_sum true _ _ (show inTri true 3 0 2 by simp [inTri])]
  simp [DV.el, TV.el, cj]
  ring

end
end TMV.Diag
