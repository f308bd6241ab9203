import Verif.Props.TriUUT
import Verif.Model.TriUL
import Verif.Spec.MulAdd

/-! Products of an upper and a lower triangular matrix. -/
namespace TMV.TriUL
open TMV.Tri TMV.TriUU
variable {K : Type _} [Field K] [StarRing K] [DecidableEq K]

/-- An element of upper times lower. -/
def Q (a b : Nat → Nat → K) (e p c : Nat) : K := ∑ k ∈ Finset.Ico (max p c) e, a p k * b k c

/-- What `C (+)= alpha*U*L` is to make of the array. -/
def UL (add : Bool) (A B : Src K) (ua ub : Bool) (α : K) (o n : Nat) (X X' : Nat → Nat → K) : Prop :=
  ∀ p c, X' p c = if (o ≤ p ∧ p < o + n) ∧ o ≤ c ∧ c < o + n then
    acc add (X p c) + α * Q (el ua (A.rd X)) (el ub (B.rd X)) (o + n) p c else X p c

omit [Field K] [StarRing K] [DecidableEq K] in
theorem not_opp {A : Src K} (h : opp A = false) : ∀ c, A ≠ .other c := by rintro c rfl; simp [opp] at h

omit [StarRing K] in
theorem fin_val (add : Bool) (α s c : K) : fin add α s c = acc add (c) + α * s := by
  unfold fin
  by_cases h : α = 1
  · subst h; cases add <;> simp [acc, add_comm]
  · cases add <;> simp [acc, h, add_comm, mul_comm]

theorem xB_val (B : Src K) (ub : Bool) (α : K) (j : Nat) (X : Nat → Nat → K) : xB B ub α j X = α * el ub (B.rd X) j j := by
  unfold xB
  cases ub
  · rw [el_false]
    by_cases h : α = 1
    · simp [h]
    · simp [h, mul_comm]
  · rw [el_diag]; simp

/-- The diagonal element of upper times lower. -/
theorem new_ul (A B : Src K) (ua ub : Bool) (e j : Nat) (hj : j < e) (X : Nat → Nat → K) :
    (if ¬ ua = true ∧ ¬ ub = true then ∑ k ∈ Finset.Ico j e, A.rd X j k * B.rd X k j
      else ∑ k ∈ Finset.Ico (j + 1) e, A.rd X j k * B.rd X k j + dd A B ua ub j X) = Q (el ua (A.rd X)) (el ub (B.rd X)) e j j := by
  have hs : Q (el ua (A.rd X)) (el ub (B.rd X)) e j j =
      el ua (A.rd X) j j * el ub (B.rd X) j j + ∑ k ∈ Finset.Ico (j + 1) e, A.rd X j k * B.rd X k j := by
    unfold Q
    rw [max_self, Finset.sum_eq_sum_Ico_succ_bot hj]
    congr 1
    refine Finset.sum_congr rfl fun k hk => ?_
    rw [Finset.mem_Ico] at hk
    rw [el_off ua _ (by omega), el_off ub _ (by omega)]
  rw [hs]
  unfold dd
  cases ua <;> cases ub <;> simp [el_false, el_diag, add_comm]
  rw [Finset.sum_eq_sum_Ico_succ_bot hj, add_comm]

theorem ulStep_val (add : Bool) (A B : Src K) (ua ub : Bool) (α : K) (o n j : Nat) (X : Nat → Nat → K) (hA : opp A = false)
    (h1 : o ≤ j) (h2 : j < o + n) (p c : Nat) :
    ulStep add A B ua ub α o n j X p c = if c = j ∧ o ≤ p ∧ p < o + n then
      acc add (X p j) + α * Q (el ua (A.rd X)) (el ub (B.rd X)) (o + n) p j else X p c := by
  unfold ulStep
  rw [new_ul A B ua ub (o + n) j h2, fin_val, xB_val]
  obtain ⟨X1, hX1⟩ : ∃ X1 : Nat → Nat → K, X1 = fun p c => if c = j ∧ o ≤ p ∧ p < j then
    acc add (X p c) + α * el ub (B.rd X) j j * A.rd X p j else X p c := ⟨_, rfl⟩
  obtain ⟨X2, hX2⟩ : ∃ X2 : Nat → Nat → K, X2 = fun p c => if c = j ∧ o ≤ p ∧ p < j then
    X1 p c + α * ∑ k ∈ Finset.Ico (j + 1) (o + n), A.rd X1 p k * B.rd X1 k j else X1 p c := ⟨_, rfl⟩
  refine Eq.trans (b := if p = j ∧ c = j then acc add (X j j) + α * Q (el ua (A.rd X)) (el ub (B.rd X)) (o + n) j j
    else if c = j ∧ j < p ∧ p < o + n then
      acc add (X2 p c) + α * ∑ k ∈ Finset.Ico p (o + n), el ua (A.rd X2) p k * B.rd X2 k j else X2 p c)
    (by subst hX2; subst hX1; rfl) ?_
  have e1 : ∀ p c, ¬ (c = j ∧ p < j) → X1 p c = X p c := fun p c h => by rw [hX1]; exact if_neg fun h' => h ⟨h'.1, h'.2.2⟩
  have e2 : ∀ p c, ¬ (c = j ∧ p < j) → X2 p c = X p c := fun p c h => by
    rw [hX2]; exact (if_neg fun h' => h ⟨h'.1, h'.2.2⟩).trans (e1 p c h)
  by_cases hc : c = j
  swap
  · rw [if_neg fun h => hc h.2, if_neg fun h => hc h.1, if_neg fun h => hc h.1, e2 p c fun h => hc h.1]
  · subst hc
    rcases lt_trichotomy p c with hp | hp | hp
    · rw [if_neg (by omega), if_neg (by omega)]
      by_cases ho : o ≤ p
      swap
      · rw [if_neg (by omega), hX2]
        dsimp only
        rw [if_neg (by omega), hX1]
        dsimp only
        rw [if_neg (by omega)]
      · rw [if_pos ⟨rfl, ho, by omega⟩, hX2]
        dsimp only
        rw [if_pos ⟨rfl, ho, hp⟩]
        have hq : Q (el ua (A.rd X)) (el ub (B.rd X)) (o + n) p c = A.rd X p c * el ub (B.rd X) c c +
            ∑ k ∈ Finset.Ico (c + 1) (o + n), A.rd X1 p k * B.rd X1 k c := by
          unfold Q
          rw [show max p c = c by omega, Finset.sum_eq_sum_Ico_succ_bot h2, el_off ua _ (by omega)]
          congr 1
          refine Finset.sum_congr rfl fun k hk => ?_
          rw [Finset.mem_Ico] at hk
          rw [el_off ua _ (by omega), el_off ub _ (by omega), rd_congr_same (not_opp hA) (e1 p k (by omega)),
            rd_congr B (e1 k c (by omega)) (e1 c k (by omega))]
        rw [hq]
        have : X1 p c = acc add (X p c) + α * el ub (B.rd X) c c * A.rd X p c := by
          rw [hX1]; exact if_pos ⟨rfl, ho, hp⟩
        rw [this]; ring
    · subst hp
      rw [if_pos ⟨rfl, rfl⟩, if_pos ⟨rfl, h1, h2⟩]
    · rw [if_neg (by omega)]
      by_cases he : p < o + n
      swap
      · rw [if_neg (by omega), if_neg (by omega), e2 _ _ (by omega)]
      · rw [if_pos ⟨rfl, hp, he⟩, if_pos ⟨rfl, by omega, he⟩, e2 _ _ (by omega)]
        congr 2
        unfold Q
        rw [show max p c = p by omega]
        refine Finset.sum_congr rfl fun k hk => ?_
        rw [Finset.mem_Ico] at hk
        rw [el_off ub _ (by omega), el_congr (rd_congr_same (not_opp hA) (e2 p k (by omega))),
          rd_congr B (e2 k c (by omega)) (e2 c k (by omega))]

theorem ulLoop_val (add : Bool) (A B : Src K) (ua ub : Bool) (α : K) (o n : Nat) (X : Nat → Nat → K) (hA : opp A = false) :
    UL add A B ua ub α o n X (up (fun j X => ulStep add A B ua ub α o n j X) n o X) := by
  have := up_inv (fun j X => ulStep add A B ua ub α o n j X)
    (fun r Y => ∀ p c, Y p c = if ((o ≤ p ∧ p < o + n) ∧ o ≤ c ∧ c < o + n) ∧ c < r then
      acc add (X p c) + α * Q (el ua (A.rd X)) (el ub (B.rd X)) (o + n) p c else X p c) n o X
    (by intro p c; rw [if_neg (by omega)]) (by
      intro r Y h1 h2 hY p c
      have hr : ∀ p c, r ≤ c → Y p c = X p c := fun p c h => by rw [hY, if_neg (by omega)]
      rw [ulStep_val add A B ua ub α o n r Y hA h1 h2]
      by_cases h : c = r ∧ o ≤ p ∧ p < o + n
      · obtain ⟨rfl, h3, h4⟩ := h
        rw [if_pos ⟨rfl, h3, h4⟩, if_pos (by omega), hr p c (le_refl _)]
        congr 2
        unfold Q
        refine Finset.sum_congr rfl fun k hk => ?_
        rw [Finset.mem_Ico] at hk
        have e1 : el ua (A.rd Y) p k = el ua (A.rd X) p k := el_congr (rd_congr_same (not_opp hA) (hr p k (by omega)))
        have e2 : el ub (B.rd Y) k c = el ub (B.rd X) k c := el_congr (rd_congr B (hr k c (le_refl _)) (hr c k (by omega)))
        rw [e1, e2]
      · rw [if_neg h, hY]
        by_cases h' : ((o ≤ p ∧ p < o + n) ∧ o ≤ c ∧ c < o + n) ∧ c < r
        · rw [if_pos h', if_pos (by omega)]
        · rw [if_neg h', if_neg (by omega)])
  intro p c
  refine (this p c).trans ?_
  by_cases h : (o ≤ p ∧ p < o + n) ∧ o ≤ c ∧ c < o + n
  · rw [if_pos h, if_pos ⟨h, h.2.2⟩]
  · rw [if_neg h, if_neg fun h' => h h'.1]

theorem ulCol_val (add : Bool) (A B : Src K) (ua ub : Bool) (α : K) (o n : Nat) (X : Nat → Nat → K) :
    UL add A B ua ub α o n X (ulCol add A B ua ub α o n X) := by
  unfold ulCol
  by_cases h : opp A = true
  · rw [if_pos h]
    intro p c
    rw [ulLoop_val add (.apart (el ua (A.rd X))) B false ub α o n X rfl]
    by_cases h : (o ≤ p ∧ p < o + n) ∧ o ≤ c ∧ c < o + n
    · rw [if_pos h, if_pos h, el_false']; rfl
    · rw [if_neg h, if_neg h]
  · rw [if_neg h]
    exact ulLoop_val add A B ua ub α o n X (by simpa using h)

omit [DecidableEq K] in
theorem tr_rd (A : Src K) (X : Nat → Nat → K) (i j : Nat) : (tr A).rd (fun i j => X j i) i j = A.rd X j i := by
  cases A <;> rfl

omit [StarRing K] [DecidableEq K] in
theorem el_tr (u : Bool) (x : Nat → Nat → K) (y : Nat → Nat → K) (i j : Nat) (h : x i j = y j i) : el u x i j = el u y j i := by
  unfold el
  by_cases hd : u = true ∧ i = j
  · rw [if_pos hd, if_pos ⟨hd.1, hd.2.symm⟩]
  · rw [if_neg hd, if_neg fun h' => hd ⟨h'.1, h'.2.symm⟩, h]

theorem ulLeaf_val (crm add : Bool) (A B : Src K) (ua ub : Bool) (α : K) (o n : Nat) (X : Nat → Nat → K) :
    UL add A B ua ub α o n X (if crm then fun p c => ulCol add (tr B) (tr A) ub ua α o n (fun i j => X j i) c p
      else ulCol add A B ua ub α o n X) := by
  cases crm
  · exact ulCol_val add A B ua ub α o n X
  · rw [if_pos rfl]
    intro p c
    dsimp only
    rw [ulCol_val add (tr B) (tr A) ub ua α o n (fun i j => X j i)]
    by_cases h : (o ≤ p ∧ p < o + n) ∧ o ≤ c ∧ c < o + n
    · rw [if_pos h, if_pos h.symm]
      congr 2
      unfold Q
      rw [max_comm]
      refine Finset.sum_congr rfl fun k _ => ?_
      rw [el_tr ub _ (B.rd X) c k (tr_rd B X c k), el_tr ua _ (A.rd X) k p (tr_rd A X k p), mul_comm]
    · rw [if_neg h, if_neg fun h' => h h'.symm]

/-! ### the blocks -/

/-- What the blocks off the diagonal are to become. -/
theorem ulOff_val (add : Bool) (A B : Src K) (ua ub : Bool) (α : K) (o n k : Nat) (X : Nat → Nat → K) (p c : Nat) :
    ulOff add A B ua ub α o n k X p c =
      if (o + k ≤ p ∧ p < o + n ∧ o ≤ c ∧ c < o + k) ∨ (o ≤ p ∧ p < o + k ∧ o + k ≤ c ∧ c < o + n) then
        acc add (X p c) + α * Q (el ua (A.rd X)) (el ub (B.rd X)) (o + n) p c else X p c := by
  have q10 : ∀ p c, o + k ≤ p → c < o + k → Q (el ua (A.rd X)) (el ub (B.rd X)) (o + n) p c =
      ∑ l ∈ Finset.Ico p (o + n), el ua (A.rd X) p l * B.rd X l c := by
    intro p c h1 h2
    unfold Q
    rw [show max p c = p by omega]
    refine Finset.sum_congr rfl fun l hl => ?_
    rw [Finset.mem_Ico] at hl
    rw [el_off ub _ (by omega)]
  have q01 : ∀ p c, p < o + k → o + k ≤ c → Q (el ua (A.rd X)) (el ub (B.rd X)) (o + n) p c =
      ∑ l ∈ Finset.Ico c (o + n), A.rd X p l * el ub (B.rd X) l c := by
    intro p c h1 h2
    unfold Q
    rw [show max p c = c by omega]
    refine Finset.sum_congr rfl fun l hl => ?_
    rw [Finset.mem_Ico] at hl
    rw [el_off ua _ (by omega)]
  have n10 : ∀ (A B : Src K) (Y : Nat → Nat → K) p c, ¬ (o + k ≤ p ∧ p < o + n ∧ o ≤ c ∧ c < o + k) → ul10 add A B ua α o n k Y p c = Y p c :=
    fun A B Y p c h => if_neg h
  have n01 : ∀ (A B : Src K) (Y : Nat → Nat → K) p c, ¬ (o ≤ p ∧ p < o + k ∧ o + k ≤ c ∧ c < o + n) → ul01 add A B ub α o n k Y p c = Y p c :=
    fun A B Y p c h => if_neg h
  have v10 : ∀ (Y : Nat → Nat → K) p c, o + k ≤ p → p < o + n → o ≤ c → c < o + k → Y p c = X p c →
      (∀ l, p ≤ l → l < o + n → el ua (A.rd Y) p l = el ua (A.rd X) p l ∧ B.rd Y l c = B.rd X l c) →
      ul10 add A B ua α o n k Y p c = acc add (X p c) + α * Q (el ua (A.rd X)) (el ub (B.rd X)) (o + n) p c := by
    intro Y p c h1 h2 h3 h4 h5 h6
    rw [q10 p c h1 h4]
    unfold ul10
    rw [if_pos ⟨h1, h2, h3, h4⟩, h5]
    congr 2
    refine Finset.sum_congr rfl fun l hl => ?_
    rw [Finset.mem_Ico] at hl
    rw [(h6 l hl.1 hl.2).1, (h6 l hl.1 hl.2).2]
  have v01 : ∀ (A' : Src K) (Y : Nat → Nat → K) p c, o ≤ p → p < o + k → o + k ≤ c → c < o + n → Y p c = X p c →
      (∀ l, c ≤ l → l < o + n → A'.rd Y p l = A.rd X p l ∧ el ub (B.rd Y) l c = el ub (B.rd X) l c) →
      ul01 add A' B ub α o n k Y p c = acc add (X p c) + α * Q (el ua (A.rd X)) (el ub (B.rd X)) (o + n) p c := by
    intro A' Y p c h1 h2 h3 h4 h5 h6
    rw [q01 p c h2 h3]
    unfold ul01
    rw [if_pos ⟨h1, h2, h3, h4⟩, h5]
    congr 2
    refine Finset.sum_congr rfl fun l hl => ?_
    rw [Finset.mem_Ico] at hl
    rw [(h6 l hl.1 hl.2).1, (h6 l hl.1 hl.2).2]
  unfold ulOff
  by_cases hA : opp A = true
  · rw [if_pos hA]
    have hA' : ∀ c, A ≠ .same c := by rintro c rfl; simp [opp] at hA
    by_cases hB : opp B = true
    · rw [if_pos hB]
      by_cases h10 : o + k ≤ p ∧ p < o + n ∧ o ≤ c ∧ c < o + k
      · rw [if_pos (Or.inl h10), n01 _ _ _ _ _ (by omega)]
        exact v10 X p c h10.1 h10.2.1 h10.2.2.1 h10.2.2.2 rfl fun l _ _ => ⟨rfl, rfl⟩
      · by_cases h01 : o ≤ p ∧ p < o + k ∧ o + k ≤ c ∧ c < o + n
        · rw [if_pos (Or.inr h01)]
          refine v01 _ _ p c h01.1 h01.2.1 h01.2.2.1 h01.2.2.2 (n10 _ _ _ _ _ h10) fun l _ _ => ⟨rfl, ?_⟩
          exact el_congr (rd_congr B (n10 _ _ _ _ _ (by omega)) (n10 _ _ _ _ _ (by omega)))
        · rw [if_neg (by omega), n01 _ _ _ _ _ h01, n10 _ _ _ _ _ h10]
    · rw [if_neg hB]
      have hB' : ∀ c, B ≠ .other c := by rintro c rfl; simp [opp] at hB
      by_cases h10 : o + k ≤ p ∧ p < o + n ∧ o ≤ c ∧ c < o + k
      · rw [if_pos (Or.inl h10)]
        refine v10 _ p c h10.1 h10.2.1 h10.2.2.1 h10.2.2.2 (n01 _ _ _ _ _ (by omega)) fun l _ _ => ⟨el_congr ?_, ?_⟩
        · exact rd_congr A (n01 _ _ _ _ _ (by omega)) (n01 _ _ _ _ _ (by omega))
        · exact rd_congr_same hB' (n01 _ _ _ _ _ (by omega))
      · by_cases h01 : o ≤ p ∧ p < o + k ∧ o + k ≤ c ∧ c < o + n
        · rw [if_pos (Or.inr h01), n10 _ _ _ _ _ h10]
          exact v01 A X p c h01.1 h01.2.1 h01.2.2.1 h01.2.2.2 rfl fun l _ _ => ⟨rfl, rfl⟩
        · rw [if_neg (by omega), n10 _ _ _ _ _ h10, n01 _ _ _ _ _ h01]
  · rw [if_neg hA]
    have hA' : ∀ c, A ≠ .other c := not_opp (by simpa using hA)
    by_cases h10 : o + k ≤ p ∧ p < o + n ∧ o ≤ c ∧ c < o + k
    · rw [if_pos (Or.inl h10), n01 _ _ _ _ _ (by omega)]
      exact v10 X p c h10.1 h10.2.1 h10.2.2.1 h10.2.2.2 rfl fun l _ _ => ⟨rfl, rfl⟩
    · by_cases h01 : o ≤ p ∧ p < o + k ∧ o + k ≤ c ∧ c < o + n
      · rw [if_pos (Or.inr h01)]
        refine v01 _ _ p c h01.1 h01.2.1 h01.2.2.1 h01.2.2.2 (n10 _ _ _ _ _ h10) fun l _ _ => ⟨?_, ?_⟩
        · exact rd_congr_same hA' (n10 _ _ _ _ _ (by omega))
        · exact el_congr (rd_congr B (n10 _ _ _ _ _ (by omega)) (n10 _ _ _ _ _ (by omega)))
      · rw [if_neg (by omega), n01 _ _ _ _ _ h01, n10 _ _ _ _ _ h10]

theorem ulRec_val (nb nb2 : Nat) (hnb : 0 < nb) (hnb2 : 0 < nb2) (crm add : Bool) (A B : Src K) (ua ub : Bool) (α : K) :
    ∀ (fuel o n : Nat) (X : Nat → Nat → K), n < fuel → UL add A B ua ub α o n X (ulRec nb nb2 crm add A B ua ub α fuel o n X) := by
  intro fuel
  induction fuel with
  | zero => intro o n X h; omega
  | succ fuel ih =>
    intro o n X hf
    rw [ulRec]
    by_cases hn : n ≤ nb2
    · rw [if_pos hn]; exact ulLeaf_val crm add A B ua ub α o n X
    · rw [if_neg hn]
      dsimp only
      have hk0 := splitU_bd hnb false (show 1 < n by omega)
      generalize splitU nb false n = k at hk0 ⊢
      have e1 := ih o k X (by omega)
      generalize ulRec nb nb2 crm add A B ua ub α fuel o k X = X1 at e1 ⊢
      have u1 : ∀ p c, ¬ ((o ≤ p ∧ p < o + k) ∧ o ≤ c ∧ c < o + k) → X1 p c = X p c := fun p c h => by rw [e1, if_neg h]
      obtain ⟨X2, hX2⟩ : ∃ X2 : Nat → Nat → K, X2 = fun p c => if o ≤ p ∧ p < o + k ∧ o ≤ c ∧ c < o + k then
        X1 p c + α * ∑ l ∈ Finset.Ico (o + k) (o + n), A.rd X1 p l * B.rd X1 l c else X1 p c := ⟨_, rfl⟩
      rw [← hX2]
      have u2 : ∀ p c, ¬ ((o ≤ p ∧ p < o + k) ∧ o ≤ c ∧ c < o + k) → X2 p c = X p c := fun p c h => by
        rw [hX2]; exact (if_neg fun h' => h ⟨⟨h'.1, h'.2.1⟩, h'.2.2⟩).trans (u1 p c h)
      have v2 : ∀ p c, (o ≤ p ∧ p < o + k) ∧ o ≤ c ∧ c < o + k → X2 p c =
          acc add (X p c) + α * Q (el ua (A.rd X)) (el ub (B.rd X)) (o + n) p c := by
        intro p c h
        rw [hX2]
        dsimp only
        rw [if_pos ⟨h.1.1, h.1.2, h.2⟩, e1, if_pos h, add_assoc, ← mul_add]
        congr 2
        unfold Q
        rw [← Finset.sum_Ico_consecutive _ (show max p c ≤ o + k by omega) (show o + k ≤ o + n by omega)]
        congr 1
        refine Finset.sum_congr rfl fun l hl => ?_
        rw [Finset.mem_Ico] at hl
        rw [el_off ua _ (by omega), el_off ub _ (by omega), rd_congr A (u1 p l (by omega)) (u1 l p (by omega)),
          rd_congr B (u1 l c (by omega)) (u1 c l (by omega))]
      have e3 := ulOff_val add A B ua ub α o n k X2
      generalize ulOff add A B ua ub α o n k X2 = X3 at e3 ⊢
      have u3 : ∀ p c, ¬ ((o ≤ p ∧ p < o + n) ∧ o ≤ c ∧ c < o + n) ∨ (o + k ≤ p ∧ o + k ≤ c) → X3 p c = X p c := by
        intro p c h
        rw [e3, if_neg (by omega), u2 p c (by omega)]
      have e4 := ih (o + k) (n - k) X3 (by omega)
      intro p c
      rw [e4]
      by_cases hin : (o ≤ p ∧ p < o + n) ∧ o ≤ c ∧ c < o + n
      swap
      · rw [if_neg hin, if_neg (by omega), u3 p c (Or.inl hin)]
      · rw [if_pos hin]
        by_cases h11 : o + k ≤ p ∧ o + k ≤ c
        · rw [if_pos (by omega), u3 p c (Or.inr h11)]
          congr 2
          unfold Q
          rw [show o + k + (n - k) = o + n by omega]
          refine Finset.sum_congr rfl fun l hl => ?_
          rw [Finset.mem_Ico] at hl
          have f1 : el ua (A.rd X3) p l = el ua (A.rd X) p l :=
            el_congr (rd_congr A (u3 p l (Or.inr (by omega))) (u3 l p (Or.inr (by omega))))
          have f2 : el ub (B.rd X3) l c = el ub (B.rd X) l c :=
            el_congr (rd_congr B (u3 l c (Or.inr (by omega))) (u3 c l (Or.inr (by omega))))
          rw [f1, f2]
        · rw [if_neg (by omega), e3]
          by_cases hoff : (o + k ≤ p ∧ p < o + n ∧ o ≤ c ∧ c < o + k) ∨ (o ≤ p ∧ p < o + k ∧ o + k ≤ c ∧ c < o + n)
          · rw [if_pos hoff, u2 p c (by omega)]
            congr 2
            unfold Q
            refine Finset.sum_congr rfl fun l hl => ?_
            rw [Finset.mem_Ico] at hl
            have f1 : el ua (A.rd X2) p l = el ua (A.rd X) p l :=
              el_congr (rd_congr A (u2 p l (by omega)) (u2 l p (by omega)))
            have f2 : el ub (B.rd X2) l c = el ub (B.rd X) l c :=
              el_congr (rd_congr B (u2 l c (by omega)) (u2 c l (by omega)))
            rw [f1, f2]
          · rw [if_neg hoff, v2 p c (by omega)]

end TMV.TriUL
