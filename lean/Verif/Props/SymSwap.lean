import Verif.Props.SymOps

/-! C67: interchanging rows and columns of a symmetric or Hermitian matrix. -/
namespace TMV
variable {K : Type _}

namespace Region
variable {R : Region}

/-- Swapping two disjoint vectors of stored elements permutes the values. -/
theorem swapTwo [InvolutiveStar K] (hI : R.Inj) (v w : VView) (f g : Nat → Int × Int)
    (hcv : v.conj = R.conj) (hcw : w.conj = R.conj) (hsz : v.size = w.size) (wv : v.WF) (ww : w.WF)
    (hv : ∀ k, k < v.size → R.In (f k).1 (f k).2 ∧ v.addr k = R.addr (f k).1 (f k).2)
    (hw : ∀ k, k < v.size → R.In (g k).1 (g k).2 ∧ w.addr k = R.addr (g k).1 (g k).2)
    (hne : ∀ k l, k < v.size → l < v.size → f k ≠ g l)
    (π : Int → Int → Int × Int)
    (h1 : ∀ k, k < v.size → π (f k).1 (f k).2 = g k ∧ π (g k).1 (g k).2 = f k)
    (h2 : ∀ i j, R.In i j → (∀ k, k < v.size → (i, j) ≠ f k ∧ (i, j) ≠ g k) → π i j = (i, j))
    (m : Mem K) (hl : R.Live m) :
    ∃ m', VView.swapV v w m = some m' ∧
      (∀ i j, R.In i j → R.val m' i j = R.val m (π i j).1 (π i j).2) ∧ R.Live m' ∧
      (∀ a, ¬ R.Covers a → m' a = m a) := by
  obtain ⟨m', e, c, fr⟩ := swapV_spec v w m hsz wv ww
    (fun k hk => by rw [(hv k hk).2]; exact hl _ _ (hv k hk).1)
    (fun k hk => by rw [(hw k (by omega)).2]; exact hl _ _ (hw k (by omega)).1)
    (by
      rintro a ⟨k, hk, e⟩ ⟨l, hl', e'⟩
      rw [(hv k hk).2] at e
      rw [(hw l (by omega)).2] at e'
      have := hI _ _ _ _ (hv k hk).1 (hw l (by omega)).1 (e.symm.trans e')
      exact hne k l hk (by omega) (Prod.ext this.1 this.2))
  have val : ∀ i j, R.In i j → R.val m' i j = R.val m (π i j).1 (π i j).2 := by
    intro i j hij
    by_cases hex : ∃ k, k < v.size ∧ ((i, j) = f k ∨ (i, j) = g k)
    · obtain ⟨k, hk, hk'⟩ := hex
      have ck := c k hk
      unfold VView.cref Mem.read at ck
      rw [(hv k hk).2, (hw k hk).2, hcv, hcw] at ck
      rcases hk' with h | h
      · have e1 : i = (f k).1 := congrArg Prod.fst h
        have e2 : j = (f k).2 := congrArg Prod.snd h
        rw [e1, e2, (h1 k hk).1]; exact ck.1
      · have e1 : i = (g k).1 := congrArg Prod.fst h
        have e2 : j = (g k).2 := congrArg Prod.snd h
        rw [e1, e2, (h1 k hk).2]; exact ck.2
    · have hno : ∀ k, k < v.size → (i, j) ≠ f k ∧ (i, j) ≠ g k := by
        intro k hk
        constructor
        · intro h; exact hex ⟨k, hk, Or.inl h⟩
        · intro h; exact hex ⟨k, hk, Or.inr h⟩
      rw [h2 i j hij hno]
      unfold val
      rw [fr]
      · rintro ⟨k, hk, e⟩
        rw [(hv k hk).2] at e
        have := hI _ _ _ _ hij (hv k hk).1 e
        exact (hno k hk).1 (Prod.ext this.1 this.2)
      · rintro ⟨k, hk, e⟩
        rw [(hw k (by omega)).2] at e
        have := hI _ _ _ _ hij (hw k (by omega)).1 e
        exact (hno k (by omega)).2 (Prod.ext this.1 this.2)
  have πin : ∀ i j, R.In i j → R.In (π i j).1 (π i j).2 := by
    intro i j hij
    by_cases hex : ∃ k, k < v.size ∧ ((i, j) = f k ∨ (i, j) = g k)
    · obtain ⟨k, hk, hk'⟩ := hex
      rcases hk' with h | h
      · have e1 : i = (f k).1 := congrArg Prod.fst h
        have e2 : j = (f k).2 := congrArg Prod.snd h
        rw [e1, e2, (h1 k hk).1]; exact (hw k hk).1
      · have e1 : i = (g k).1 := congrArg Prod.fst h
        have e2 : j = (g k).2 := congrArg Prod.snd h
        rw [e1, e2, (h1 k hk).2]; exact (hv k hk).1
    · rw [h2 i j hij]
      · exact hij
      · intro k hk
        constructor
        · intro h; exact hex ⟨k, hk, Or.inl h⟩
        · intro h; exact hex ⟨k, hk, Or.inr h⟩
  refine ⟨m', e, val, ?_, ?_⟩
  · intro i j hij
    have := val i j hij
    obtain ⟨y, hy⟩ := Option.isSome_iff_exists.mp (hl _ _ (πin i j hij))
    unfold Region.val at this
    rw [hy] at this
    revert this
    cases m' (R.addr i j) <;> simp
  · intro a ha
    apply fr
    · rintro ⟨k, hk, e⟩
      exact ha ⟨_, _, (hv k hk).1, by rw [e, (hv k hk).2]⟩
    · rintro ⟨k, hk, e⟩
      exact ha ⟨_, _, (hw k (by omega)).1, by rw [e, (hw k (by omega)).2]⟩

/-- Conjugating a vector of stored elements. -/
theorem conjOne [InvolutiveStar K] (hI : R.Inj) (v : VView) (f : Nat → Int × Int)
    (hcv : v.conj = R.conj) (wv : v.WF)
    (hv : ∀ k, k < v.size → R.In (f k).1 (f k).2 ∧ v.addr k = R.addr (f k).1 (f k).2)
    (P : Int → Int → Prop) [∀ i j, Decidable (P i j)]
    (h1 : ∀ k, k < v.size → P (f k).1 (f k).2)
    (h2 : ∀ i j, R.In i j → P i j → ∃ k, k < v.size ∧ (i, j) = f k)
    (m : Mem K) (hl : R.Live m) :
    ∃ m', v.conjugateSelf m = some m' ∧
      (∀ i j, R.In i j → R.val m' i j = if P i j then (R.val m i j).map star else R.val m i j) ∧
      R.Live m' ∧ (∀ a, ¬ R.Covers a → m' a = m a) := by
  obtain ⟨m', e, c, fr⟩ := conjugateSelf_spec v m wv
    (fun k hk => by rw [(hv k hk).2]; exact hl _ _ (hv k hk).1)
  have val : ∀ i j, R.In i j → R.val m' i j = if P i j then (R.val m i j).map star else R.val m i j := by
    intro i j hij
    by_cases hP : P i j
    · rw [if_pos hP]
      obtain ⟨k, hk, h⟩ := h2 i j hij hP
      have ck := c k hk
      unfold VView.cref Mem.read at ck
      rw [(hv k hk).2, hcv] at ck
      have e1 : i = (f k).1 := congrArg Prod.fst h
      have e2 : j = (f k).2 := congrArg Prod.snd h
      rw [e1, e2]; exact ck
    · rw [if_neg hP]
      unfold Region.val
      rw [fr]
      rintro ⟨k, hk, e⟩
      rw [(hv k hk).2] at e
      have := hI _ _ _ _ hij (hv k hk).1 e
      apply hP
      rw [this.1, this.2]
      exact h1 k hk
  refine ⟨m', e, val, ?_, ?_⟩
  · intro i j hij
    have := val i j hij
    obtain ⟨y, hy⟩ := Option.isSome_iff_exists.mp (hl _ _ hij)
    unfold Region.val at this
    rw [hy] at this
    revert this
    cases m' (R.addr i j) <;> simp
    split <;> simp
  · intro a ha
    apply fr
    rintro ⟨k, hk, e⟩
    exact ha ⟨_, _, (hv k hk).1, by rw [e, (hv k hk).2]⟩

end Region

/-- The stored elements. -/
def SView.reg (M : SView) : Region := ⟨M.In, M.addr, M.conj⟩

theorem sym_val [Star K] (M : SView) (m : Mem K) (i j : Int) (h : M.In i j) :
    M.reg.val m i j = M.cref m i j := (sym_cref_in M m i j h).symm

theorem lo_row3 {M : SView} (hu : M.upper = false) (i j1 j2 : Int) (h : j2 ≤ i + 1) :
    M.row3 i j1 j2 = ⟨M.addr i j1, (j2 - j1).toNat, M.sj, M.conj⟩ := by
  unfold SView.row3
  rw [if_pos (Or.inr ⟨by omega, hu⟩)]; rfl
theorem lo_col3 {M : SView} (hu : M.upper = false) (j i1 i2 : Int) (h : j ≤ i1) :
    M.col3 j i1 i2 = ⟨M.addr i1 j, (i2 - i1).toNat, M.si, M.conj⟩ := by
  unfold SView.col3
  rw [if_pos (Or.inr ⟨by omega, hu⟩)]; rfl

/-- The five steps of `swapRowsCols` on a lower-stored matrix. -/
theorem swapRowsColsLo_spec [InvolutiveStar K] (M : SView) (hW : M.WF) (hu : M.upper = false)
    (m : Mem K) (hl : M.Live m) (i1 i2 : Int) (h1 : 0 ≤ i1) (h12 : i1 < i2) (h2 : i2 < M.n) :
    ∃ m', M.swapRowsColsLo i1 i2 m = some m' ∧
      (∀ i j, M.In i j → M.cref m' i j =
        (if i = i1 ∧ j = i1 then M.cref m i2 i2 else if i = i2 ∧ j = i2 then M.cref m i1 i1
         else if i = i1 ∧ j < i1 then M.cref m i2 j else if i = i2 ∧ j < i1 then M.cref m i1 j
         else if i = i2 ∧ j = i1 then (M.cref m i2 i1).map (cj M.herm)
         else if i = i2 ∧ j < i2 then (M.cref m j i1).map (cj M.herm)
         else if j = i1 ∧ i < i2 then (M.cref m i2 i).map (cj M.herm)
         else if i2 < i ∧ j = i1 then M.cref m i i2 else if i2 < i ∧ j = i2 then M.cref m i i1
         else M.cref m i j)) ∧
      M.Live m' ∧ (∀ a, ¬ M.Covers a → m' a = m a) := by
  have hs := hW.2.1.resolve_left (by omega)
  have inl := in_lo' hu
  -- step 1
  obtain ⟨m1, e1, c1, l1, f1⟩ := M.reg.swapTwo hW.1 (M.row3 i1 0 i1) (M.row3 i2 0 i1)
    (fun k => (i1, (k : Int))) (fun k => (i2, (k : Int)))
    (by rw [lo_row3 hu _ _ _ (by omega)]; rfl) (by rw [lo_row3 hu _ _ _ (by omega)]; rfl)
    (by rw [lo_row3 hu _ _ _ (by omega), lo_row3 hu _ _ _ (by omega)])
    (by rw [lo_row3 hu _ _ _ (by omega)]; exact Or.inl hs.2)
    (by rw [lo_row3 hu _ _ _ (by omega)]; exact Or.inl hs.2)
    (by
      rw [lo_row3 hu _ _ _ (by omega)]
      intro k hk
      exact ⟨(inl _ _).mpr (by simp only at hk ⊢; omega), by simp only [VView.addr, SView.addr, SView.reg]; ring⟩)
    (by
      rw [lo_row3 hu i1 _ _ (by omega), lo_row3 hu i2 _ _ (by omega)]
      intro k hk
      exact ⟨(inl _ _).mpr (by simp only at hk ⊢; omega), by simp only [VView.addr, SView.addr, SView.reg]; ring⟩)
    (by intro k l _ _ h; have := congrArg Prod.fst h; simp at this; omega)
    (fun i j => if i = i1 ∧ j < i1 then (i2, j) else if i = i2 ∧ j < i1 then (i1, j) else (i, j))
    (by
      rw [lo_row3 hu _ _ _ (by omega)]
      intro k hk
      simp only at hk
      dsimp only
      exact ⟨by rw [if_pos (by omega)], by rw [if_neg (by omega), if_pos (by omega)]⟩)
    (by
      rw [lo_row3 hu _ _ _ (by omega)]
      intro i j hij hno
      have hij' := (inl i j).mp hij
      have key : j < i1 → i ≠ i1 ∧ i ≠ i2 := by
        intro hj
        have := hno j.toNat (by simp only; omega)
        rw [show ((j.toNat : Nat) : Int) = j by omega] at this
        simp only [ne_eq, Prod.mk.injEq, and_true] at this
        exact this
      rw [if_neg (by omega), if_neg (by omega)])
    m hl
  -- step 2
  obtain ⟨m2, e2, c2, l2, f2⟩ := M.reg.swapTwo hW.1 (M.row3 i2 (i1 + 1) i2) (M.col3 i1 (i1 + 1) i2)
    (fun k => (i2, i1 + 1 + k)) (fun k => (i1 + 1 + k, i1))
    (by rw [lo_row3 hu _ _ _ (by omega)]; rfl) (by rw [lo_col3 hu _ _ _ (by omega)]; rfl)
    (by rw [lo_row3 hu _ _ _ (by omega), lo_col3 hu _ _ _ (by omega)])
    (by rw [lo_row3 hu _ _ _ (by omega)]; exact Or.inl hs.2)
    (by rw [lo_col3 hu _ _ _ (by omega)]; exact Or.inl hs.1)
    (by
      rw [lo_row3 hu _ _ _ (by omega)]
      intro k hk
      exact ⟨(inl _ _).mpr (by simp only at hk ⊢; omega), by simp only [VView.addr, SView.addr, SView.reg]; ring⟩)
    (by
      rw [lo_row3 hu _ _ _ (by omega), lo_col3 hu _ _ _ (by omega)]
      intro k hk
      exact ⟨(inl _ _).mpr (by simp only at hk ⊢; omega), by simp only [VView.addr, SView.addr, SView.reg]; ring⟩)
    (by
      rw [lo_row3 hu _ _ _ (by omega)]
      intro k l hk hl' h
      have := congrArg Prod.fst h; simp at this hk hl'; omega)
    (fun i j => if i = i2 ∧ i1 < j ∧ j < i2 then (j, i1) else if j = i1 ∧ i1 < i ∧ i < i2 then (i2, i) else (i, j))
    (by
      rw [lo_row3 hu _ _ _ (by omega)]
      intro k hk
      simp only at hk
      dsimp only
      exact ⟨by rw [if_pos (by omega)], by rw [if_neg (by omega), if_pos (by omega)]⟩)
    (by
      rw [lo_row3 hu _ _ _ (by omega)]
      intro i j hij hno
      have hij' := (inl i j).mp hij
      have key1 : i1 < j → j < i2 → i ≠ i2 := by
        intro hj hj' hi
        have := (hno (j - i1 - 1).toNat (by simp only; omega)).1
        rw [show (((j - i1 - 1).toNat : Nat) : Int) = j - i1 - 1 by omega] at this
        apply this
        rw [hi]; congr 1; omega
      have key2 : i1 < i → i < i2 → j ≠ i1 := by
        intro hj hj' hi
        have := (hno (i - i1 - 1).toNat (by simp only; omega)).2
        rw [show (((i - i1 - 1).toNat : Nat) : Int) = i - i1 - 1 by omega] at this
        apply this
        rw [hi]; congr 1; omega
      rw [if_neg (by omega), if_neg (by omega)])
    m1 l1
  -- step 3
  have st3 : ∃ m3, (if M.herm then
      ((M.row3 i2 i1 i2).conjugateSelf m2).bind fun m => (M.col3 i1 (i1 + 1) i2).conjugateSelf m
      else some m2) = some m3 ∧
      (∀ i j, M.In i j → M.reg.val m3 i j =
        if (i = i2 ∧ i1 ≤ j ∧ j < i2) ∨ (j = i1 ∧ i1 < i ∧ i < i2) then (M.reg.val m2 i j).map (cj M.herm)
        else M.reg.val m2 i j) ∧ M.reg.Live m3 ∧ (∀ a, ¬ M.Covers a → m3 a = m2 a) := by
    cases hh : M.herm
    · refine ⟨m2, rfl, ?_, l2, fun _ _ => rfl⟩
      intro i j _
      have : (fun x : K => cj false x) = id := rfl
      show _ = if _ then (M.reg.val m2 i j).map (cj false) else _
      rw [show cj (K := K) false = id from rfl, Option.map_id]
      split <;> rfl
    · rw [if_pos rfl]
      obtain ⟨m3, e3, c3, l3, f3⟩ := M.reg.conjOne hW.1 (M.row3 i2 i1 i2) (fun k => (i2, i1 + k))
        (by rw [lo_row3 hu _ _ _ (by omega)]; rfl)
        (by rw [lo_row3 hu _ _ _ (by omega)]; exact Or.inl hs.2)
        (by
          rw [lo_row3 hu _ _ _ (by omega)]
          intro k hk
          exact ⟨(inl _ _).mpr (by simp only at hk ⊢; omega), by simp only [VView.addr, SView.addr, SView.reg]; ring⟩)
        (fun i j => i = i2 ∧ i1 ≤ j ∧ j < i2)
        (by
          rw [lo_row3 hu _ _ _ (by omega)]
          intro k hk
          simp only at hk
          exact ⟨rfl, by dsimp only; omega, by dsimp only; omega⟩)
        (by
          rw [lo_row3 hu _ _ _ (by omega)]
          rintro i j _ ⟨rfl, h3, h4⟩
          refine ⟨(j - i1).toNat, by simp only; omega, ?_⟩
          rw [show (((j - i1).toNat : Nat) : Int) = j - i1 by omega]
          congr 1; omega)
        m2 l2
      obtain ⟨m4, e4, c4, l4, f4⟩ := M.reg.conjOne hW.1 (M.col3 i1 (i1 + 1) i2) (fun k => (i1 + 1 + k, i1))
        (by rw [lo_col3 hu _ _ _ (by omega)]; rfl)
        (by rw [lo_col3 hu _ _ _ (by omega)]; exact Or.inl hs.1)
        (by
          rw [lo_col3 hu _ _ _ (by omega)]
          intro k hk
          exact ⟨(inl _ _).mpr (by simp only at hk ⊢; omega), by simp only [VView.addr, SView.addr, SView.reg]; ring⟩)
        (fun i j => j = i1 ∧ i1 < i ∧ i < i2)
        (by
          rw [lo_col3 hu _ _ _ (by omega)]
          intro k hk
          simp only at hk
          exact ⟨rfl, by dsimp only; omega, by dsimp only; omega⟩)
        (by
          rw [lo_col3 hu _ _ _ (by omega)]
          rintro i j _ ⟨rfl, h3, h4⟩
          refine ⟨(i - j - 1).toNat, by simp only; omega, ?_⟩
          rw [show (((i - j - 1).toNat : Nat) : Int) = i - j - 1 by omega]
          congr 1; omega)
        m3 l3
      refine ⟨m4, by rw [e3]; exact e4, ?_, l4, fun a ha => by rw [f4 a ha, f3 a ha]⟩
      intro i j hij
      rw [c4 i j hij, c3 i j hij]
      show _ = if _ then (M.reg.val m2 i j).map star else _
      by_cases p1 : i = i2 ∧ i1 ≤ j ∧ j < i2
      · rw [if_neg (by omega), if_pos p1, if_pos (Or.inl p1)]
      · rw [if_neg p1]
        by_cases p2 : j = i1 ∧ i1 < i ∧ i < i2
        · rw [if_pos p2, if_pos (Or.inr p2)]
        · rw [if_neg p2, if_neg (by tauto)]
  obtain ⟨m3, e3, c3, l3, f3⟩ := st3
  -- step 4
  obtain ⟨m4, e4, c4, l4, f4⟩ := M.reg.swapTwo hW.1 (M.col3 i1 (i2 + 1) M.n) (M.col3 i2 (i2 + 1) M.n)
    (fun k => (i2 + 1 + k, i1)) (fun k => (i2 + 1 + k, i2))
    (by rw [lo_col3 hu _ _ _ (by omega)]; rfl) (by rw [lo_col3 hu _ _ _ (by omega)]; rfl)
    (by rw [lo_col3 hu _ _ _ (by omega), lo_col3 hu _ _ _ (by omega)])
    (by rw [lo_col3 hu _ _ _ (by omega)]; exact Or.inl hs.1)
    (by rw [lo_col3 hu _ _ _ (by omega)]; exact Or.inl hs.1)
    (by
      rw [lo_col3 hu _ _ _ (by omega)]
      intro k hk
      exact ⟨(inl _ _).mpr (by simp only at hk ⊢; omega), by simp only [VView.addr, SView.addr, SView.reg]; ring⟩)
    (by
      rw [lo_col3 hu i1 _ _ (by omega), lo_col3 hu i2 _ _ (by omega)]
      intro k hk
      exact ⟨(inl _ _).mpr (by simp only at hk ⊢; omega), by simp only [VView.addr, SView.addr, SView.reg]; ring⟩)
    (by intro k l _ _ h; have := congrArg Prod.snd h; simp at this; omega)
    (fun i j => if i2 < i ∧ j = i1 then (i, i2) else if i2 < i ∧ j = i2 then (i, i1) else (i, j))
    (by
      rw [lo_col3 hu _ _ _ (by omega)]
      intro k hk
      simp only at hk
      dsimp only
      exact ⟨by rw [if_pos (by omega)], by rw [if_neg (by omega), if_pos (by omega)]⟩)
    (by
      rw [lo_col3 hu _ _ _ (by omega)]
      intro i j hij hno
      have hij' := (inl i j).mp hij
      have key : i2 < i → j ≠ i1 ∧ j ≠ i2 := by
        intro hj
        have := hno (i - i2 - 1).toNat (by simp only; omega)
        rw [show (((i - i2 - 1).toNat : Nat) : Int) = i - i2 - 1 by omega] at this
        constructor
        · intro hi; apply this.1; rw [hi]; congr 1; omega
        · intro hi; apply this.2; rw [hi]; congr 1; omega
      rw [if_neg (by omega), if_neg (by omega)])
    m3 l3
  -- step 5
  have dl : M.diag.Live m4 := fun k hk => by
    obtain ⟨i, j, hin, ea⟩ := ((sym_diag M).2 k hk).covers
    rw [ea]; exact l4 i j hin
  have da : ∀ k : Nat, M.diag.addr k = M.addr k k := by
    intro k; simp only [SView.diag, VView.addr, SView.addr]; ring
  obtain ⟨m5, e5, c5, f5⟩ := swap_spec M.diag m4 i1.toNat i2.toNat (Or.inl hW.2.2) dl
    (by show _ < M.n; omega) (by show _ < M.n; omega)
  rw [show ((i1.toNat : Nat) : Int) = i1 by omega, show ((i2.toNat : Nat) : Int) = i2 by omega] at e5
  have c5' : ∀ i j, M.In i j → m5 (M.addr i j) = m4 (if i = i1 ∧ j = i1 then M.addr i2 i2
      else if i = i2 ∧ j = i2 then M.addr i1 i1 else M.addr i j) := by
    intro i j hij
    have hij' := (inl i j).mp hij
    by_cases hd : i = j
    · subst hd
      have := c5 i.toNat (by show _ < M.n; omega)
      rw [da, da, show ((i.toNat : Nat) : Int) = i by omega] at this
      rw [this, Equiv.swap_apply_def]
      by_cases q1 : i = i1
      · subst q1
        rw [if_pos rfl, if_pos ⟨rfl, rfl⟩, show ((i2.toNat : Nat) : Int) = i2 by omega]
      · rw [if_neg (by omega)]
        by_cases q2 : i = i2
        · subst q2
          rw [if_pos rfl, if_neg (by omega), if_pos ⟨rfl, rfl⟩, show ((i1.toNat : Nat) : Int) = i1 by omega]
        · rw [if_neg (by omega), if_neg (by omega), if_neg (by omega), show ((i.toNat : Nat) : Int) = i by omega]
    · rw [if_neg (by omega), if_neg (by omega)]
      apply f5
      rintro ⟨k, hk, e⟩
      have hk' : k < M.n := hk
      rw [da] at e
      have := hW.1 _ _ _ _ hij ((inl k k).mpr (by omega)) e
      omega
  have v5 : ∀ i j, M.In i j → M.reg.val m5 i j = if i = i1 ∧ j = i1 then M.reg.val m4 i2 i2
      else if i = i2 ∧ j = i2 then M.reg.val m4 i1 i1 else M.reg.val m4 i j := by
    intro i j hij
    unfold Region.val
    show Option.map _ (m5 (M.addr i j)) = _
    rw [c5' i j hij]
    split
    · rfl
    · split <;> rfl
  refine ⟨m5, ?_, ?_, ?_, ?_⟩
  · unfold SView.swapRowsColsLo
    rw [e1, Option.bind_some, e2, Option.bind_some, e3, Option.bind_some, e4, Option.bind_some, e5]
  · intro i j hij
    rw [← sym_val M m5 i j hij, v5 i j hij]
    have V : ∀ a b : Int, 0 ≤ b → b ≤ a → a < M.n → M.cref m a b = M.reg.val m a b := fun a b x y z =>
      (sym_val M m a b ((inl a b).mpr ⟨x, y, z⟩)).symm
    have C1 : ∀ a b : Int, 0 ≤ b → b ≤ a → a < M.n → _ := fun a b x y z => c1 a b ((inl a b).mpr ⟨x, y, z⟩)
    have C2 : ∀ a b : Int, 0 ≤ b → b ≤ a → a < M.n → _ := fun a b x y z => c2 a b ((inl a b).mpr ⟨x, y, z⟩)
    have C3 : ∀ a b : Int, 0 ≤ b → b ≤ a → a < M.n → _ := fun a b x y z => c3 a b ((inl a b).mpr ⟨x, y, z⟩)
    have C4 : ∀ a b : Int, 0 ≤ b → b ≤ a → a < M.n → _ := fun a b x y z => c4 a b ((inl a b).mpr ⟨x, y, z⟩)
    have hij' := (inl i j).mp hij
    clear c1 c2 c3 c4 c5 c5' v5 f1 f2 f3 f4 f5 e1 e2 e3 e4 e5 l1 l2 l3 l4 dl da
    rcases lt_trichotomy i i1 with hi | hi | hi <;> rcases lt_trichotomy j i1 with hj | hj | hj <;>
      rcases lt_trichotomy i i2 with hi' | hi' | hi' <;> rcases lt_trichotomy j i2 with hj' | hj' | hj' <;>
      first
      | (exfalso; omega)
      | (simp (disch := omega) only [if_pos, if_neg, V, C4, C3, C2, C1]; try rw [hi', hj])
  · intro i j hij
    rw [c5' i j hij]
    split
    · exact l4 _ _ ((inl _ _).mpr (by omega))
    · split
      · exact l4 _ _ ((inl _ _).mpr (by omega))
      · exact l4 _ _ hij
  · intro a ha
    rw [f5 a, f4 a ha, f3 a ha, f2 a ha, f1 a ha]
    rintro ⟨k, hk, e⟩
    obtain ⟨i, j, hin, ea⟩ := ((sym_diag M).2 k hk).covers
    exact ha ⟨i, j, hin, e.trans ea⟩

theorem SView.Becomes.transpose [Star K] {M : SView} {m m' : Mem K} {y : Nat → Nat → K}
    (h : M.transpose.Becomes m m' (fun i j => y j i)) : M.Becomes m m' y := by
  obtain ⟨a, b, c, d⟩ := h
  have hol : M.Holds m' y := by
    intro i j hi hj
    have := a j i hj hi
    rw [(sym_transpose M _ _ _).2.2] at this
    exact this
  refine ⟨hol, ?_, hol.live, fun x hx => d x (fun hc => hx ((SView.transpose_covers M x).mp hc))⟩
  intro hh k x hk hx
  exact b hh k x hk (by
    have e : M.transpose.addr k k = M.addr k k := by simp only [SView.transpose, SView.addr]; ring
    rw [e]; exact hx)

theorem swap_lo [CommRing K] [StarRing K] (M : SView) (hW : M.WF) (hu : M.upper = false)
    (m : Mem K) (hH : M.HermOK m) (z : Nat → Nat → K) (hz : M.Holds m z) (i1 i2 : Nat) (h12 : i1 < i2)
    (h2 : i2 < M.n) :
    ∃ m', M.swapRowsColsLo i1 i2 m = some m' ∧
      M.Becomes m m' (fun i j => z (Equiv.swap i1 i2 i) (Equiv.swap i1 i2 j)) := by
  obtain ⟨m', e, c, l, f⟩ := swapRowsColsLo_spec M hW hu m hz.live i1 i2 (by omega) (by omega) (by omega)
  have hs := sym_holds_symOf hz hH
  have sym' : ∀ a b, a < M.n → b < M.n → cj M.herm (z a b) = z b a := by
    intro a b ha hb
    rw [hs b a hb ha]; rfl
  have lo : ∀ i j : Nat, j ≤ i → i < M.n → M.cref m' i j = some (z (Equiv.swap i1 i2 i) (Equiv.swap i1 i2 j)) := by
    intro i j hji hi
    rw [c i j ((in_lo' hu _ _).mpr (by omega))]
    have Z : ∀ a b : Nat, a < M.n → b < M.n → M.cref m (a : Int) (b : Int) = some (z a b) := hz
    rw [Equiv.swap_apply_def, Equiv.swap_apply_def]
    rcases lt_trichotomy i i1 with hi1 | hi1 | hi1 <;> rcases lt_trichotomy j i1 with hj1 | hj1 | hj1 <;>
      rcases lt_trichotomy i i2 with hi2 | hi2 | hi2 <;> rcases lt_trichotomy j i2 with hj2 | hj2 | hj2 <;>
      first
      | (exfalso; omega)
      | (simp (disch := omega) only [if_pos, if_neg, Z, Option.map_some, sym'])
  have hol : M.Holds m' (fun i j => z (Equiv.swap i1 i2 i) (Equiv.swap i1 i2 j)) := by
    intro i j hi hj
    by_cases hij : j ≤ i
    · exact lo i j hij hi
    · rw [sym_symmetric M m' i j (by omega), lo j i (by omega) hj]
      show some (cj M.herm _) = _
      rw [sym' _ _ (Equiv.swap_lt (by omega) h2 hj) (Equiv.swap_lt (by omega) h2 hi)]
  refine ⟨m', e, hol, (sym_hermOK_iff hol).mpr ?_, l, f⟩
  intro hh k hk
  exact (sym_hermOK_iff hz).mp hH hh _ (Equiv.swap_lt (by omega) h2 hk)

theorem sym_holds_transpose [Star K] {M : SView} {m : Mem K} {z : Nat → Nat → K} (hz : M.Holds m z) :
    M.transpose.Holds m (fun i j => z j i) := by
  intro i j hi hj
  rw [(sym_transpose M _ _ _).2.2]
  exact hz j i hj hi

/-- **C67** `m.swapRowsCols(i1,i2)`: rows `i1`,`i2` and columns `i1`,`i2` are interchanged, whichever
triangle is stored, for symmetric and Hermitian matrices, and the matrix stays symmetric/Hermitian. -/
theorem sym_swapRowsCols_spec [CommRing K] [StarRing K] (M : SView) (hW : M.WF)
    (m : Mem K) (hH : M.HermOK m) (z : Nat → Nat → K) (hz : M.Holds m z) (i1 i2 : Nat) (h1 : i1 < M.n)
    (h2 : i2 < M.n) :
    ∃ m', M.swapRowsCols i1 i2 m = some m' ∧
      M.Becomes m m' (fun i j => z (Equiv.swap i1 i2 i) (Equiv.swap i1 i2 j)) := by
  unfold SView.swapRowsCols
  by_cases h : (i1 : Int) = i2
  · rw [if_pos h]
    have : i1 = i2 := by omega
    subst this
    refine ⟨m, rfl, ?_, hH, hz.live, fun _ _ => rfl⟩
    simpa using hz
  rw [if_neg h]
  have main : ∀ a b : Nat, a < b → b < M.n → ∃ m', (if M.upper = true then M.transpose.swapRowsColsLo a b m
      else M.swapRowsColsLo a b m) = some m' ∧
      M.Becomes m m' (fun i j => z (Equiv.swap a b i) (Equiv.swap a b j)) := by
    intro a b hab hb
    cases hu : M.upper
    · rw [if_neg (by simp)]
      exact swap_lo M hW hu m hH z hz a b hab hb
    · rw [if_pos rfl]
      obtain ⟨m', e, c⟩ := swap_lo M.transpose hW.transpose (by simp [SView.transpose, hu]) m hH.transpose _
        (sym_holds_transpose hz) a b hab hb
      exact ⟨m', e, c.transpose⟩
  rcases lt_or_gt_of_ne (show i1 ≠ i2 by omega) with hlt | hlt
  · obtain ⟨m', e, c⟩ := main i1 i2 hlt h2
    rw [min_eq_left (by omega), max_eq_right (by omega)]
    exact ⟨m', e, c⟩
  · obtain ⟨m', e, c⟩ := main i2 i1 hlt h1
    rw [min_eq_right (by omega), max_eq_left (by omega)]
    rw [Equiv.swap_comm] at c
    exact ⟨m', e, c⟩

theorem SView.Becomes.trans [Star K] {M : SView} {m m1 m2 : Mem K} {y w : Nat → Nat → K}
    (h1 : M.Becomes m m1 y) (h2 : M.Becomes m1 m2 w) : M.Becomes m m2 w :=
  ⟨h2.1, h2.2.1, h2.2.2.1, fun a ha => by rw [h2.2.2.2 a ha, h1.2.2.2 a ha]⟩

/-- **C67** `m.permuteRowsCols(p,i1,i2)`: `P m Pᵀ` for the permutation `P` given by the interchanges. -/
theorem sym_permuteRowsCols_spec [CommRing K] [StarRing K] (M : SView) (hW : M.WF) (p : Nat → Nat)
    (i1 i2 : Nat) (h12 : i1 ≤ i2) (h2 : i2 ≤ M.n) (hp : ∀ k, i1 ≤ k → k < i2 → p k < M.n)
    (m : Mem K) (hH : M.HermOK m) (z : Nat → Nat → K) (hz : M.Holds m z) :
    ∃ m', M.permuteRowsCols p i1 i2 m = some m' ∧
      M.Becomes m m' (fun i j => z (swapProd p (i2 - i1) i1 i) (swapProd p (i2 - i1) i1 j)) := by
  unfold SView.permuteRowsCols
  have key : ∀ (k i : Nat) (m : Mem K) (z : Nat → Nat → K), i + k ≤ M.n →
      (∀ l, i ≤ l → l < i + k → p l < M.n) → M.HermOK m → M.Holds m z →
      ∃ m', M.permuteLoop p k i m = some m' ∧
        M.Becomes m m' (fun a b => z (swapProd p k i a) (swapProd p k i b)) := by
    intro k
    induction k with
    | zero => intro i m z _ _ hH hz; exact ⟨m, rfl, hz, hH, hz.live, fun _ _ => rfl⟩
    | succ k ih =>
      intro i m z h1 h2 hH hz
      obtain ⟨m1, e1, c1⟩ := sym_swapRowsCols_spec M hW m hH z hz i (p i) (by omega) (h2 i le_rfl (by omega))
      obtain ⟨m2, e2, c2⟩ := ih (i + 1) m1 _ (by omega) (fun l a b => h2 l (by omega) (by omega)) c1.2.1 c1.1
      refine ⟨m2, ?_, c1.trans c2⟩
      simp only [SView.permuteLoop, e1, Option.bind_eq_bind, Option.bind_some]
      exact e2
  exact key (i2 - i1) i1 m z (by omega) (fun l a b => hp l a (by omega)) hH hz

/-- **C67** `m.reversePermuteRowsCols(p,i1,i2)` is the inverse operation. -/
theorem sym_reversePermuteRowsCols_spec [CommRing K] [StarRing K] (M : SView) (hW : M.WF) (p : Nat → Nat)
    (i1 i2 : Nat) (h12 : i1 ≤ i2) (h2 : i2 ≤ M.n) (hp : ∀ k, i1 ≤ k → k < i2 → p k < M.n)
    (m : Mem K) (hH : M.HermOK m) (z : Nat → Nat → K) (hz : M.Holds m z) :
    ∃ m', M.reversePermuteRowsCols p i1 i2 m = some m' ∧
      M.Becomes m m' (fun i j => z ((swapProd p (i2 - i1) i1)⁻¹ i) ((swapProd p (i2 - i1) i1)⁻¹ j)) := by
  unfold SView.reversePermuteRowsCols
  have key : ∀ (k : Nat) (m : Mem K) (z : Nat → Nat → K), i1 + k ≤ M.n →
      (∀ l, i1 ≤ l → l < i1 + k → p l < M.n) → M.HermOK m → M.Holds m z →
      ∃ m', M.reverseLoop p i1 k m = some m' ∧
        M.Becomes m m' (fun a b => z ((swapProd p k i1)⁻¹ a) ((swapProd p k i1)⁻¹ b)) := by
    intro k
    induction k with
    | zero => intro m z _ _ hH hz; exact ⟨m, rfl, hz, hH, hz.live, fun _ _ => rfl⟩
    | succ k ih =>
      intro m z h1 h2 hH hz
      obtain ⟨m1, e1, c1⟩ := sym_swapRowsCols_spec M hW m hH z hz (i1 + k) (p (i1 + k)) (by omega)
        (h2 _ (by omega) (by omega))
      obtain ⟨m2, e2, c2⟩ := ih m1 _ (by omega) (fun l a b => h2 l (by omega) (by omega)) c1.2.1 c1.1
      refine ⟨m2, ?_, ?_⟩
      · simp only [SView.reverseLoop, e1, Option.bind_eq_bind, Option.bind_some]
        exact e2
      · rw [swapProd_snoc, mul_inv_rev, Equiv.swap_inv]
        exact c1.trans c2
  exact key (i2 - i1) m z (by omega) (fun l a b => hp l a (by omega)) hH hz

end TMV
