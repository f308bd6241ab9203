import Verif.Props.TriUL

/-! Products of a lower and an upper triangular matrix, and the theorems on both products. -/
namespace TMV.TriUL
open TMV.Tri TMV.TriUU
variable {K : Type _} [Field K] [StarRing K] [DecidableEq K]

/-- An element of lower times upper. -/
def R (a b : Nat → Nat → K) (o p c : Nat) : K := ∑ k ∈ Finset.Ico o (min p c + 1), a p k * b k c

/-- What `C (+)= alpha*L*U` is to make of the array. -/
def LU (add : Bool) (A B : Src K) (ua ub : Bool) (α : K) (o n : Nat) (X X' : Nat → Nat → K) : Prop :=
  ∀ p c, X' p c = if (o ≤ p ∧ p < o + n) ∧ o ≤ c ∧ c < o + n then
    acc add (X p c) + α * R (el ua (A.rd X)) (el ub (B.rd X)) o p c else X p c

omit [DecidableEq K] in
/-- The diagonal element of lower times upper. -/
theorem new_lu (A B : Src K) (ua ub : Bool) (o j : Nat) (hj : o ≤ j) (X : Nat → Nat → K) :
    (if ¬ ua = true ∧ ¬ ub = true then ∑ k ∈ Finset.Ico o (j + 1), A.rd X j k * B.rd X k j
      else ∑ k ∈ Finset.Ico o j, A.rd X j k * B.rd X k j + dd A B ua ub j X) = R (el ua (A.rd X)) (el ub (B.rd X)) o j j := by
  have hs : R (el ua (A.rd X)) (el ub (B.rd X)) o j j =
      ∑ k ∈ Finset.Ico o j, A.rd X j k * B.rd X k j + el ua (A.rd X) j j * el ub (B.rd X) j j := by
    unfold R
    rw [min_self, Finset.sum_Ico_succ_top hj]
    congr 1
    refine Finset.sum_congr rfl fun k hk => ?_
    rw [Finset.mem_Ico] at hk
    rw [el_off ua _ (by omega), el_off ub _ (by omega)]
  rw [hs]
  unfold dd
  cases ua <;> cases ub <;> simp [el_false, el_diag]
  rw [Finset.sum_Ico_succ_top hj]

theorem luStep_val (add : Bool) (A B : Src K) (ua ub : Bool) (α : K) (o n j : Nat) (X : Nat → Nat → K) (hA : opp A = false)
    (h1 : o ≤ j) (h2 : j < o + n) (p c : Nat) :
    luStep add A B ua ub α o n j X p c = if c = j ∧ o ≤ p ∧ p < o + n then
      acc add (X p j) + α * R (el ua (A.rd X)) (el ub (B.rd X)) o p j else X p c := by
  unfold luStep
  rw [new_lu A B ua ub o j h1, fin_val, xB_val]
  obtain ⟨X1, hX1⟩ : ∃ X1 : Nat → Nat → K, X1 = fun p c => if c = j ∧ j < p ∧ p < o + n then
    acc add (X p c) + α * el ub (B.rd X) j j * A.rd X p j else X p c := ⟨_, rfl⟩
  obtain ⟨X2, hX2⟩ : ∃ X2 : Nat → Nat → K, X2 = fun p c => if c = j ∧ j < p ∧ p < o + n then
    X1 p c + α * ∑ k ∈ Finset.Ico o j, A.rd X1 p k * B.rd X1 k j else X1 p c := ⟨_, rfl⟩
  refine Eq.trans (b := if p = j ∧ c = j then acc add (X j j) + α * R (el ua (A.rd X)) (el ub (B.rd X)) o j j
    else if c = j ∧ o ≤ p ∧ p < j then
      acc add (X2 p c) + α * ∑ k ∈ Finset.Ico o (p + 1), el ua (A.rd X2) p k * B.rd X2 k j else X2 p c)
    (by subst hX2; subst hX1; rfl) ?_
  have e1 : ∀ p c, ¬ (c = j ∧ j < p) → X1 p c = X p c := fun p c h => by rw [hX1]; exact if_neg fun h' => h ⟨h'.1, h'.2.1⟩
  have e2 : ∀ p c, ¬ (c = j ∧ j < p) → X2 p c = X p c := fun p c h => by
    rw [hX2]; exact (if_neg fun h' => h ⟨h'.1, h'.2.1⟩).trans (e1 p c h)
  by_cases hc : c = j
  swap
  · rw [if_neg fun h => hc h.2, if_neg fun h => hc h.1, if_neg fun h => hc h.1, e2 p c fun h => hc h.1]
  · subst hc
    rcases lt_trichotomy p c with hp | hp | hp
    · rw [if_neg (by omega)]
      by_cases ho : o ≤ p
      swap
      · rw [if_neg (by omega), if_neg (by omega), e2 _ _ (by omega)]
      · rw [if_pos ⟨rfl, ho, hp⟩, if_pos ⟨rfl, ho, by omega⟩, e2 _ _ (by omega)]
        congr 2
        unfold R
        rw [show min p c = p by omega]
        refine Finset.sum_congr rfl fun k hk => ?_
        rw [Finset.mem_Ico] at hk
        rw [el_off ub _ (by omega), el_congr (rd_congr_same (not_opp hA) (e2 p k (by omega))),
          rd_congr B (e2 k c (by omega)) (e2 c k (by omega))]
    · subst hp
      rw [if_pos ⟨rfl, rfl⟩, if_pos ⟨rfl, h1, h2⟩]
    · rw [if_neg (by omega), if_neg (by omega)]
      by_cases he : p < o + n
      swap
      · rw [if_neg (by omega), hX2]
        dsimp only
        rw [if_neg (by omega), hX1]
        dsimp only
        rw [if_neg (by omega)]
      · rw [if_pos ⟨rfl, by omega, he⟩, hX2]
        dsimp only
        rw [if_pos ⟨rfl, hp, he⟩]
        have hq : R (el ua (A.rd X)) (el ub (B.rd X)) o p c =
            ∑ k ∈ Finset.Ico o c, A.rd X1 p k * B.rd X1 k c + A.rd X p c * el ub (B.rd X) c c := by
          unfold R
          rw [show min p c = c by omega, Finset.sum_Ico_succ_top h1, el_off ua _ (show p ≠ c by omega)]
          congr 1
          refine Finset.sum_congr rfl fun k hk => ?_
          rw [Finset.mem_Ico] at hk
          rw [el_off ua _ (by omega), el_off ub _ (by omega), rd_congr_same (not_opp hA) (e1 p k (by omega)),
            rd_congr B (e1 k c (by omega)) (e1 c k (by omega))]
        rw [hq]
        have : X1 p c = acc add (X p c) + α * el ub (B.rd X) c c * A.rd X p c := by
          rw [hX1]; exact if_pos ⟨rfl, hp, he⟩
        rw [this]; ring

theorem luLoop_val (add : Bool) (A B : Src K) (ua ub : Bool) (α : K) (o n : Nat) (X : Nat → Nat → K) (hA : opp A = false) :
    LU add A B ua ub α o n X (down (fun r X => luStep add A B ua ub α o n (o + r) X) n X) := by
  have := down_inv (fun r X => luStep add A B ua ub α o n (o + r) X)
    (fun r Y => ∀ p c, Y p c = if ((o ≤ p ∧ p < o + n) ∧ o ≤ c ∧ c < o + n) ∧ o + r ≤ c then
      acc add (X p c) + α * R (el ua (A.rd X)) (el ub (B.rd X)) o p c else X p c) n X
    (by intro p c; rw [if_neg (by omega)]) (by
      intro r Y h2 hY p c
      have hr : ∀ p c, c < o + r + 1 → Y p c = X p c := fun p c h => by rw [hY, if_neg (by omega)]
      rw [luStep_val add A B ua ub α o n (o + r) Y hA (by omega) (by omega)]
      by_cases h : c = o + r ∧ o ≤ p ∧ p < o + n
      · obtain ⟨rfl, h3, h4⟩ := h
        rw [if_pos ⟨rfl, h3, h4⟩, if_pos (by omega), hr p (o + r) (by omega)]
        congr 2
        unfold R
        refine Finset.sum_congr rfl fun k hk => ?_
        rw [Finset.mem_Ico] at hk
        have e1 : el ua (A.rd Y) p k = el ua (A.rd X) p k := el_congr (rd_congr_same (not_opp hA) (hr p k (by omega)))
        have e2 : el ub (B.rd Y) k (o + r) = el ub (B.rd X) k (o + r) :=
          el_congr (rd_congr B (hr k (o + r) (by omega)) (hr (o + r) k (by omega)))
        rw [e1, e2]
      · rw [if_neg h, hY]
        by_cases h' : ((o ≤ p ∧ p < o + n) ∧ o ≤ c ∧ c < o + n) ∧ o + (r + 1) ≤ c
        · rw [if_pos h', if_pos (by omega)]
        · rw [if_neg h', if_neg (by omega)])
  intro p c
  refine (this p c).trans ?_
  by_cases h : (o ≤ p ∧ p < o + n) ∧ o ≤ c ∧ c < o + n
  · rw [if_pos h, if_pos ⟨h, by omega⟩]
  · rw [if_neg h, if_neg fun h' => h h'.1]

theorem luCol_val (add : Bool) (A B : Src K) (ua ub : Bool) (α : K) (o n : Nat) (X : Nat → Nat → K) :
    LU add A B ua ub α o n X (luCol add A B ua ub α o n X) := by
  unfold luCol
  by_cases h : opp A = true
  · rw [if_pos h]
    intro p c
    rw [luLoop_val add (.apart (el ua (A.rd X))) B false ub α o n X rfl]
    by_cases h : (o ≤ p ∧ p < o + n) ∧ o ≤ c ∧ c < o + n
    · rw [if_pos h, if_pos h, el_false']; rfl
    · rw [if_neg h, if_neg h]
  · rw [if_neg h]
    exact luLoop_val add A B ua ub α o n X (by simpa using h)

theorem luLeaf_val (crm add : Bool) (A B : Src K) (ua ub : Bool) (α : K) (o n : Nat) (X : Nat → Nat → K) :
    LU add A B ua ub α o n X (if crm then fun p c => luCol add (tr B) (tr A) ub ua α o n (fun i j => X j i) c p
      else luCol add A B ua ub α o n X) := by
  cases crm
  · exact luCol_val add A B ua ub α o n X
  · rw [if_pos rfl]
    intro p c
    dsimp only
    rw [luCol_val add (tr B) (tr A) ub ua α o n (fun i j => X j i)]
    by_cases h : (o ≤ p ∧ p < o + n) ∧ o ≤ c ∧ c < o + n
    · rw [if_pos h, if_pos h.symm]
      congr 2
      unfold R
      rw [min_comm]
      refine Finset.sum_congr rfl fun k _ => ?_
      rw [el_tr ub _ (B.rd X) c k (tr_rd B X c k), el_tr ua _ (A.rd X) k p (tr_rd A X k p), mul_comm]
    · rw [if_neg h, if_neg fun h' => h h'.symm]

omit [DecidableEq K] in
theorem luOff_val (add : Bool) (A B : Src K) (ua ub : Bool) (α : K) (o n k : Nat) (X : Nat → Nat → K) (p c : Nat) :
    luOff add A B ua ub α o n k X p c =
      if (o + k ≤ p ∧ p < o + n ∧ o ≤ c ∧ c < o + k) ∨ (o ≤ p ∧ p < o + k ∧ o + k ≤ c ∧ c < o + n) then
        acc add (X p c) + α * R (el ua (A.rd X)) (el ub (B.rd X)) o p c else X p c := by
  have q01 : ∀ p c, p < o + k → o + k ≤ c → R (el ua (A.rd X)) (el ub (B.rd X)) o p c =
      ∑ l ∈ Finset.Ico o (p + 1), el ua (A.rd X) p l * B.rd X l c := by
    intro p c h1 h2
    unfold R
    rw [show min p c = p by omega]
    refine Finset.sum_congr rfl fun l hl => ?_
    rw [Finset.mem_Ico] at hl
    rw [el_off ub _ (by omega)]
  have q10 : ∀ p c, o + k ≤ p → c < o + k → R (el ua (A.rd X)) (el ub (B.rd X)) o p c =
      ∑ l ∈ Finset.Ico o (c + 1), A.rd X p l * el ub (B.rd X) l c := by
    intro p c h1 h2
    unfold R
    rw [show min p c = c by omega]
    refine Finset.sum_congr rfl fun l hl => ?_
    rw [Finset.mem_Ico] at hl
    rw [el_off ua _ (by omega)]
  have n10 : ∀ (A B : Src K) (Y : Nat → Nat → K) p c, ¬ (o + k ≤ p ∧ p < o + n ∧ o ≤ c ∧ c < o + k) → lu10 add A B ub α o n k Y p c = Y p c :=
    fun A B Y p c h => if_neg h
  have n01 : ∀ (A B : Src K) (Y : Nat → Nat → K) p c, ¬ (o ≤ p ∧ p < o + k ∧ o + k ≤ c ∧ c < o + n) → lu01 add A B ua α o n k Y p c = Y p c :=
    fun A B Y p c h => if_neg h
  have v01 : ∀ (Y : Nat → Nat → K) p c, o ≤ p → p < o + k → o + k ≤ c → c < o + n → Y p c = X p c →
      (∀ l, o ≤ l → l ≤ p → el ua (A.rd Y) p l = el ua (A.rd X) p l ∧ B.rd Y l c = B.rd X l c) →
      lu01 add A B ua α o n k Y p c = acc add (X p c) + α * R (el ua (A.rd X)) (el ub (B.rd X)) o p c := by
    intro Y p c h1 h2 h3 h4 h5 h6
    rw [q01 p c h2 h3]
    unfold lu01
    rw [if_pos ⟨h1, h2, h3, h4⟩, h5]
    congr 2
    refine Finset.sum_congr rfl fun l hl => ?_
    rw [Finset.mem_Ico] at hl
    rw [(h6 l hl.1 (by omega)).1, (h6 l hl.1 (by omega)).2]
  have v10 : ∀ (A' : Src K) (Y : Nat → Nat → K) p c, o + k ≤ p → p < o + n → o ≤ c → c < o + k → Y p c = X p c →
      (∀ l, o ≤ l → l ≤ c → A'.rd Y p l = A.rd X p l ∧ el ub (B.rd Y) l c = el ub (B.rd X) l c) →
      lu10 add A' B ub α o n k Y p c = acc add (X p c) + α * R (el ua (A.rd X)) (el ub (B.rd X)) o p c := by
    intro A' Y p c h1 h2 h3 h4 h5 h6
    rw [q10 p c h1 h4]
    unfold lu10
    rw [if_pos ⟨h1, h2, h3, h4⟩, h5]
    congr 2
    refine Finset.sum_congr rfl fun l hl => ?_
    rw [Finset.mem_Ico] at hl
    rw [(h6 l hl.1 (by omega)).1, (h6 l hl.1 (by omega)).2]
  unfold luOff
  by_cases hA : opp A = true
  · rw [if_pos hA]
    by_cases hB : opp B = true
    · rw [if_pos hB]
      by_cases h01 : o ≤ p ∧ p < o + k ∧ o + k ≤ c ∧ c < o + n
      · rw [if_pos (Or.inr h01), n10 _ _ _ _ _ (by omega)]
        exact v01 X p c h01.1 h01.2.1 h01.2.2.1 h01.2.2.2 rfl fun l _ _ => ⟨rfl, rfl⟩
      · by_cases h10 : o + k ≤ p ∧ p < o + n ∧ o ≤ c ∧ c < o + k
        · rw [if_pos (Or.inl h10)]
          refine v10 _ _ p c h10.1 h10.2.1 h10.2.2.1 h10.2.2.2 (n01 _ _ _ _ _ h01) fun l _ _ => ⟨rfl, ?_⟩
          exact el_congr (rd_congr B (n01 _ _ _ _ _ (by omega)) (n01 _ _ _ _ _ (by omega)))
        · rw [if_neg (by omega), n10 _ _ _ _ _ h10, n01 _ _ _ _ _ h01]
    · rw [if_neg hB]
      have hB' : ∀ c, B ≠ .other c := by rintro c rfl; simp [opp] at hB
      by_cases h01 : o ≤ p ∧ p < o + k ∧ o + k ≤ c ∧ c < o + n
      · rw [if_pos (Or.inr h01)]
        refine v01 _ p c h01.1 h01.2.1 h01.2.2.1 h01.2.2.2 (n10 _ _ _ _ _ (by omega)) fun l _ _ => ⟨el_congr ?_, ?_⟩
        · exact rd_congr A (n10 _ _ _ _ _ (by omega)) (n10 _ _ _ _ _ (by omega))
        · exact rd_congr_same hB' (n10 _ _ _ _ _ (by omega))
      · by_cases h10 : o + k ≤ p ∧ p < o + n ∧ o ≤ c ∧ c < o + k
        · rw [if_pos (Or.inl h10), n01 _ _ _ _ _ h01]
          exact v10 A X p c h10.1 h10.2.1 h10.2.2.1 h10.2.2.2 rfl fun l _ _ => ⟨rfl, rfl⟩
        · rw [if_neg (by omega), n01 _ _ _ _ _ h01, n10 _ _ _ _ _ h10]
  · rw [if_neg hA]
    have hA' : ∀ c, A ≠ .other c := not_opp (by simpa using hA)
    by_cases h01 : o ≤ p ∧ p < o + k ∧ o + k ≤ c ∧ c < o + n
    · rw [if_pos (Or.inr h01), n10 _ _ _ _ _ (by omega)]
      exact v01 X p c h01.1 h01.2.1 h01.2.2.1 h01.2.2.2 rfl fun l _ _ => ⟨rfl, rfl⟩
    · by_cases h10 : o + k ≤ p ∧ p < o + n ∧ o ≤ c ∧ c < o + k
      · rw [if_pos (Or.inl h10)]
        refine v10 _ _ p c h10.1 h10.2.1 h10.2.2.1 h10.2.2.2 (n01 _ _ _ _ _ h01) fun l _ _ => ⟨?_, ?_⟩
        · exact rd_congr_same hA' (n01 _ _ _ _ _ (by omega))
        · exact el_congr (rd_congr B (n01 _ _ _ _ _ (by omega)) (n01 _ _ _ _ _ (by omega)))
      · rw [if_neg (by omega), n10 _ _ _ _ _ h10, n01 _ _ _ _ _ h01]

theorem luRec_val (nb nb2 : Nat) (hnb : 0 < nb) (hnb2 : 0 < nb2) (crm add : Bool) (A B : Src K) (ua ub : Bool) (α : K) :
    ∀ (fuel o n : Nat) (X : Nat → Nat → K), n < fuel → LU add A B ua ub α o n X (luRec nb nb2 crm add A B ua ub α fuel o n X) := by
  intro fuel
  induction fuel with
  | zero => intro o n X h; omega
  | succ fuel ih =>
    intro o n X hf
    rw [luRec]
    by_cases hn : n ≤ nb2
    · rw [if_pos hn]; exact luLeaf_val crm add A B ua ub α o n X
    · rw [if_neg hn]
      dsimp only
      have hk0 := splitU_bd hnb false (show 1 < n by omega)
      generalize splitU nb false n = k at hk0 ⊢
      have e1 := ih (o + k) (n - k) X (by omega)
      generalize luRec nb nb2 crm add A B ua ub α fuel (o + k) (n - k) X = X1 at e1 ⊢
      have u1 : ∀ p c, ¬ ((o + k ≤ p ∧ p < o + n) ∧ o + k ≤ c ∧ c < o + n) → X1 p c = X p c := fun p c h => by rw [e1, if_neg (by omega)]
      obtain ⟨X2, hX2⟩ : ∃ X2 : Nat → Nat → K, X2 = fun p c => if o + k ≤ p ∧ p < o + n ∧ o + k ≤ c ∧ c < o + n then
        X1 p c + α * ∑ l ∈ Finset.Ico o (o + k), A.rd X1 p l * B.rd X1 l c else X1 p c := ⟨_, rfl⟩
      rw [← hX2]
      have u2 : ∀ p c, ¬ ((o + k ≤ p ∧ p < o + n) ∧ o + k ≤ c ∧ c < o + n) → X2 p c = X p c := fun p c h => by
        rw [hX2]; exact (if_neg fun h' => h ⟨⟨h'.1, h'.2.1⟩, h'.2.2⟩).trans (u1 p c h)
      have v2 : ∀ p c, (o + k ≤ p ∧ p < o + n) ∧ o + k ≤ c ∧ c < o + n → X2 p c =
          acc add (X p c) + α * R (el ua (A.rd X)) (el ub (B.rd X)) o p c := by
        intro p c h
        rw [hX2]
        dsimp only
        rw [if_pos ⟨h.1.1, h.1.2, h.2⟩, e1, if_pos (by omega), add_assoc, ← mul_add, add_comm (R _ _ _ _ _)]
        congr 2
        unfold R
        rw [← Finset.sum_Ico_consecutive _ (show o ≤ o + k by omega) (show o + k ≤ min p c + 1 by omega)]
        congr 1
        refine Finset.sum_congr rfl fun l hl => ?_
        rw [Finset.mem_Ico] at hl
        rw [el_off ua _ (by omega), el_off ub _ (by omega), rd_congr A (u1 p l (by omega)) (u1 l p (by omega)),
          rd_congr B (u1 l c (by omega)) (u1 c l (by omega))]
      have e3 := luOff_val add A B ua ub α o n k X2
      generalize luOff add A B ua ub α o n k X2 = X3 at e3 ⊢
      have u3 : ∀ p c, ¬ ((o ≤ p ∧ p < o + n) ∧ o ≤ c ∧ c < o + n) ∨ (p < o + k ∧ c < o + k) → X3 p c = X p c := by
        intro p c h
        rw [e3, if_neg (by omega), u2 p c (by omega)]
      have e4 := ih o k X3 (by omega)
      intro p c
      rw [e4]
      by_cases hin : (o ≤ p ∧ p < o + n) ∧ o ≤ c ∧ c < o + n
      swap
      · rw [if_neg hin, if_neg (by omega), u3 p c (Or.inl hin)]
      · rw [if_pos hin]
        by_cases h11 : p < o + k ∧ c < o + k
        · rw [if_pos (by omega), u3 p c (Or.inr h11)]
          congr 2
          unfold R
          refine Finset.sum_congr rfl fun l hl => ?_
          rw [Finset.mem_Ico] at hl
          have f1 : el ua (A.rd X3) p l = el ua (A.rd X) p l :=
            el_congr (rd_congr A (u3 p l (Or.inr (by omega))) (u3 l p (Or.inr (by omega))))
          have f2 : el ub (B.rd X3) l c = el ub (B.rd X) l c :=
            el_congr (rd_congr B (u3 l c (Or.inr (by omega))) (u3 c l (Or.inr (by omega))))
          rw [f1, f2]
        · rw [if_neg (by omega), e3]
          by_cases hoff : (o + k ≤ p ∧ p < o + n ∧ o ≤ c ∧ c < o + k) ∨ (o ≤ p ∧ p < o + k ∧ o + k ≤ c ∧ c < o + n)
          · rw [if_pos hoff, u2 p c (by omega)]
            congr 2
            unfold R
            refine Finset.sum_congr rfl fun l hl => ?_
            rw [Finset.mem_Ico] at hl
            have f1 : el ua (A.rd X2) p l = el ua (A.rd X) p l :=
              el_congr (rd_congr A (u2 p l (by omega)) (u2 l p (by omega)))
            have f2 : el ub (B.rd X2) l c = el ub (B.rd X) l c :=
              el_congr (rd_congr B (u2 l c (by omega)) (u2 c l (by omega)))
            rw [f1, f2]
          · rw [if_neg hoff, v2 p c (by omega)]

/-! ### the products -/

omit [StarRing K] [DecidableEq K] in
theorem Q_eq (a b : Nat → Nat → K) (N p c : Nat) :
    Q a b N p c = ∑ k ∈ Finset.range N, triMat true a p k * triMat false b k c := by
  unfold Q
  refine Eq.trans ?_ (Finset.sum_subset (s₁ := Finset.Ico (max p c) N) ?_ ?_)
  · refine Finset.sum_congr rfl fun k hk => ?_
    rw [Finset.mem_Ico] at hk
    unfold triMat
    simp only [if_true, Bool.false_eq_true, if_false]
    rw [if_pos (show p ≤ k by omega), if_pos (show c ≤ k by omega)]
  · intro k hk; rw [Finset.mem_Ico] at hk; rw [Finset.mem_range]; omega
  · intro k hN hk
    rw [Finset.mem_Ico] at hk
    rw [Finset.mem_range] at hN
    unfold triMat
    simp only [if_true, Bool.false_eq_true, if_false]
    by_cases h : p ≤ k
    · rw [if_neg (show ¬ c ≤ k by omega), mul_zero]
    · rw [if_neg h, zero_mul]

omit [StarRing K] [DecidableEq K] in
theorem R_eq (a b : Nat → Nat → K) {N p c : Nat} (hp : p < N) :
    R a b 0 p c = ∑ k ∈ Finset.range N, triMat false a p k * triMat true b k c := by
  unfold R
  refine Eq.trans ?_ (Finset.sum_subset (s₁ := Finset.Ico 0 (min p c + 1)) ?_ ?_)
  · refine Finset.sum_congr rfl fun k hk => ?_
    rw [Finset.mem_Ico] at hk
    unfold triMat
    simp only [if_true, Bool.false_eq_true, if_false]
    rw [if_pos (show k ≤ p by omega), if_pos (show k ≤ c by omega)]
  · intro k hk; rw [Finset.mem_Ico] at hk; rw [Finset.mem_range]; omega
  · intro k hN hk
    rw [Finset.mem_Ico] at hk
    rw [Finset.mem_range] at hN
    unfold triMat
    simp only [if_true, Bool.false_eq_true, if_false]
    by_cases h : k ≤ p
    · rw [if_neg (show ¬ k ≤ c by omega), mul_zero]
    · rw [if_neg h, zero_mul]

omit [DecidableEq K] in
theorem triMat_conj (u : Bool) (A : Opd K) (X : Nat → Nat → K) (i j : Nat) :
    triMat u (el A.unit (A.src.conj.rd X)) i j = star (triMat u (A.el X) i j) := by
  have : el A.unit (A.src.conj.rd X) i j = star (A.el X i j) := conj_el A X i j
  unfold triMat
  rw [this]
  split_ifs <;> simp

/-- **C129** `C = alpha*A*B` and `C += alpha*A*B` into a full matrix for an upper triangular `A` and a lower triangular `B` (`up`), or the
reverse: for every layout, block size, implicit diagonal and conjugation, and for `A` and `B` apart from `C` or kept in its array, in either
triangle, the elements of `C` become those of the product (or sum); the elements of `A` and `B` are those before the call. -/
theorem mulT_spec (nb nb2 : Nat) (hnb : 0 < nb) (hnb2 : 0 < nb2) (crm up add cc : Bool) (α : K) (N : Nat) (A B : Opd K) (X : Nat → Nat → K) :
    MulAddM add α N N (triMat up (A.el X)) (triMat (!up) (B.el X)) (fun i j => cj cc (X i j))
      (fun i j => cj cc (mulT nb nb2 crm up add cc α N A B X i j)) := by
  intro i j
  dsimp only
  unfold mulT
  by_cases hN : N = 0
  · rw [if_pos hN, if_neg (by omega)]
  · rw [if_neg hN]
    by_cases h0 : α = 0
    · subst h0
      rw [if_pos rfl, zero_mul, add_zero]
      cases add
      · simp only [Bool.false_eq_true, if_false]
        by_cases h : i < N ∧ j < N
        · rw [if_pos h, if_pos h]; cases cc <;> simp [cj]
        · rw [if_neg h, if_neg h]
      · simp
    · rw [if_neg h0]
      have key : ∀ (α' : K) (a b : Src K), (if up = true then ulRec nb nb2 crm add a b A.unit B.unit α' (N + 1) 0 N X
          else luRec nb nb2 crm add a b A.unit B.unit α' (N + 1) 0 N X) i j = if i < N ∧ j < N then
            acc add (X i j) + α' * ∑ k ∈ Finset.range N, triMat up (el A.unit (a.rd X)) i k * triMat (!up) (el B.unit (b.rd X)) k j
          else X i j := by
        intro α' a b
        cases up
        · rw [if_neg (by simp), luRec_val nb nb2 hnb hnb2 crm add a b A.unit B.unit α' (N + 1) 0 N X (by omega)]
          by_cases h : i < N ∧ j < N
          · rw [if_pos h, if_pos (by omega), R_eq _ _ h.1]; rfl
          · rw [if_neg h, if_neg (by omega)]
        · rw [if_pos rfl, ulRec_val nb nb2 hnb hnb2 crm add a b A.unit B.unit α' (N + 1) 0 N X (by omega)]
          by_cases h : i < N ∧ j < N
          · rw [if_pos h, if_pos (by omega), Nat.zero_add, Q_eq]; rfl
          · rw [if_neg h, if_neg (by omega)]
      rw [key]
      by_cases h : i < N ∧ j < N
      swap
      · rw [if_neg h, if_neg h]
      · rw [if_pos h, if_pos h]
        cases cc
        · rfl
        · simp only [if_true, triMat_conj]
          have : ∑ k ∈ Finset.range N, star (triMat up (A.el X) i k) * star (triMat (!up) (B.el X) k j) =
              star (∑ k ∈ Finset.range N, triMat up (A.el X) i k * triMat (!up) (B.el X) k j) := by
            rw [star_sum]
            exact Finset.sum_congr rfl fun k _ => (star_mul' _ _).symm
          rw [this]
          cases add <;> simp [cj, acc, star_add, star_mul']

/-- A case that meets the hypotheses: `C = U*L`, 2×2, `U` (conjugated) kept in the lower triangle of `C` and `L` in the upper one. -/
example : mulT 1 1 false true false false (1:ℂ) 2 ⟨.other true, false, .cm⟩ ⟨.other false, false, .cm⟩
    (fun i j => if i = 0 ∧ j = 1 then Complex.I else if i = 1 ∧ j = 0 then 3 * Complex.I else 1) 0 0 = 4 := by
  have := mulT_spec 1 1 (by omega) (by omega) false true false false (1:ℂ) 2 ⟨.other true, false, .cm⟩ ⟨.other false, false, .cm⟩
    (fun i j => if i = 0 ∧ j = 1 then Complex.I else if i = 1 ∧ j = 0 then 3 * Complex.I else 1) 0 0
  refine this.trans ?_
  rw [if_pos (by omega)]
  simp [Finset.sum_range_succ, triMat, Opd.el, el, Src.rd, cj, map_ofNat]
  rw [mul_assoc, Complex.I_mul_I]; norm_num

end TMV.TriUL
