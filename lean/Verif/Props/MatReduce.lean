import Verif.Props.MatTwo
import Verif.Props.VecReduce

/-! Matrix Swap, comparison and reductions (properties C55, C56). -/
namespace TMV
variable {K : Type _}

/-! ### C55: Swap -/

/-- A loop of vector swaps over pairwise disjoint vectors. -/
theorem loopV2_swap [InvolutiveStar K] (f g : Nat → VView) :
    ∀ (n i : Nat) (m : Mem K),
      (∀ k, i ≤ k → k < i + n → (f k).size = (g k).size) →
      (∀ k, i ≤ k → k < i + n → (f k).WF ∧ (g k).WF) →
      (∀ k k', i ≤ k → k < i + n → i ≤ k' → k' < i + n → k ≠ k' →
        (f k).Disjoint (f k') ∧ (g k).Disjoint (g k')) →
      (∀ k k', i ≤ k → k < i + n → i ≤ k' → k' < i + n →
        (f k).Disjoint (g k') ∧ (g k').Disjoint (f k)) →
      (∀ k, i ≤ k → k < i + n → (f k).Live m ∧ (g k).Live m) →
      ∃ m', loopV2 f g VView.swapV n i m = some m' ∧
        (∀ k, i ≤ k → k < i + n → ∀ j : Nat, j < (f k).size →
          (f k).cref m' j = (g k).cref m j ∧ (g k).cref m' j = (f k).cref m j) ∧
        (∀ a, (∀ k, i ≤ k → k < i + n → ¬ (f k).Covers a ∧ ¬ (g k).Covers a) → m' a = m a) := by
  intro n
  induction n with
  | zero =>
    intro i m _ _ _ _ _
    exact ⟨m, rfl, fun k h1 h2 => by omega, fun _ _ => rfl⟩
  | succ n ih =>
    intro i m hsz hwf hd hfg hl
    have r0 : i ≤ i ∧ i < i + (n + 1) := by omega
    obtain ⟨m1, e1, c1, f1⟩ := swapV_spec (f i) (g i) m (hsz i r0.1 r0.2) (hwf i r0.1 r0.2).1
      (hwf i r0.1 r0.2).2 (hl i r0.1 r0.2).1 (hl i r0.1 r0.2).2 (hfg i i r0.1 r0.2 r0.1 r0.2).1
    have keepf : ∀ k, i + 1 ≤ k → k < i + 1 + n → ∀ j : Nat, j < (f k).size →
        m1 ((f k).addr j) = m ((f k).addr j) := fun k h1 h2 j hj =>
      f1 _ ((hd k i (by omega) (by omega) r0.1 r0.2 (by omega)).1 _ ⟨j, hj, rfl⟩)
        ((hfg k i (by omega) (by omega) r0.1 r0.2).1 _ ⟨j, hj, rfl⟩)
    have keepg : ∀ k, i + 1 ≤ k → k < i + 1 + n → ∀ j : Nat, j < (g k).size →
        m1 ((g k).addr j) = m ((g k).addr j) := fun k h1 h2 j hj =>
      f1 _ ((hfg i k r0.1 r0.2 (by omega) (by omega)).2 _ ⟨j, hj, rfl⟩)
        ((hd k i (by omega) (by omega) r0.1 r0.2 (by omega)).2 _ ⟨j, hj, rfl⟩)
    obtain ⟨m', e2, c2, f2⟩ := ih (i+1) m1
      (fun k h1 h2 => hsz k (by omega) (by omega))
      (fun k h1 h2 => hwf k (by omega) (by omega))
      (fun k k' h1 h2 h3 h4 => hd k k' (by omega) (by omega) (by omega) (by omega))
      (fun k k' h1 h2 h3 h4 => hfg k k' (by omega) (by omega) (by omega) (by omega))
      (fun k h1 h2 => ⟨fun j hj => by
          rw [keepf k h1 h2 j hj]; exact (hl k (by omega) (by omega)).1 j hj,
        fun j hj => by
          rw [keepg k h1 h2 j hj]; exact (hl k (by omega) (by omega)).2 j hj⟩)
    refine ⟨m', by simp [loopV2, e1, e2], ?_, ?_⟩
    · intro k h1 h2 j hj
      have hj' : j < (g k).size := by rw [← hsz k h1 h2]; exact hj
      by_cases hk : k = i
      · subst hk
        have a1 : m' ((f k).addr j) = m1 ((f k).addr j) := by
          apply f2
          intro k' h3 h4
          exact ⟨(hd k k' r0.1 r0.2 (by omega) (by omega) (by omega)).1 _ ⟨j, hj, rfl⟩,
            (hfg k k' r0.1 r0.2 (by omega) (by omega)).1 _ ⟨j, hj, rfl⟩⟩
        have a2 : m' ((g k).addr j) = m1 ((g k).addr j) := by
          apply f2
          intro k' h3 h4
          exact ⟨(hfg k' k (by omega) (by omega) r0.1 r0.2).2 _ ⟨j, hj', rfl⟩,
            (hd k k' r0.1 r0.2 (by omega) (by omega) (by omega)).2 _ ⟨j, hj', rfl⟩⟩
        have := c1 j hj
        simp only [VView.cref, Mem.read] at this ⊢
        rw [a1, a2]
        exact this
      · have := c2 k (by omega) (by omega) j hj
        have kf := keepf k (by omega) (by omega) j hj
        have kg := keepg k (by omega) (by omega) j hj'
        simp only [VView.cref, Mem.read] at this ⊢
        rw [kf, kg] at this
        exact this
    · intro a ha
      rw [f2 a (fun k h1 h2 => ha k (by omega) (by omega)),
        f1 a (ha i r0.1 r0.2).1 (ha i r0.1 r0.2).2]

theorem MView.Disjoint.symm {A B : MView} (h : A.Disjoint B) : B.Disjoint A :=
  fun a h1 h2 => h a h2 h1

/-- Column-wise swap loop. -/
theorem cols_swap [InvolutiveStar K] (A B : MView) (hcs : A.cs = B.cs) (hrs : A.rs = B.rs)
    (hA : A.WF) (hB : B.WF) (m : Mem K) (hlA : A.Live m) (hlB : B.Live m) (hd : A.Disjoint B) :
    ∃ m', loopV2 (fun j => A.col j) (fun j => B.col j) VView.swapV A.rs 0 m = some m' ∧
      (∀ i j : Nat, i < A.cs → j < A.rs → A.cref m' i j = B.cref m i j ∧
        B.cref m' i j = A.cref m i j) ∧
      (∀ a, ¬ A.Covers a → ¬ B.Covers a → m' a = m a) := by
  have cov : ∀ (M : MView) (k : Nat) a, k < M.rs → (M.col k).Covers a → M.Covers a := by
    rintro M k a hk ⟨i, hi, e⟩
    exact ⟨i, k, hi, hk, by rw [e, M.col_addr]⟩
  obtain ⟨m', e, c, fr⟩ := loopV2_swap (fun j => A.col j) (fun j => B.col j) A.rs 0 m
    (fun k _ _ => hcs)
    (fun k _ h => ⟨hA.col (by omega), hB.col (by omega)⟩)
    (fun k k' _ h _ h' hne => ⟨MView.col_disjoint hA.1 (by omega) (by omega) hne,
      MView.col_disjoint hB.1 (by omega) (by omega) hne⟩)
    (fun k k' _ h _ h' => ⟨fun a h1 h2 => hd a (cov A k a (by omega) h1) (cov B k' a (by omega) h2),
      fun a h1 h2 => hd a (cov A k a (by omega) h2) (cov B k' a (by omega) h1)⟩)
    (fun k _ h => ⟨hlA.col (by omega), hlB.col (by omega)⟩)
  refine ⟨m', e, ?_, ?_⟩
  · intro i j hi hj
    have := c j (by omega) (by omega) i hi
    rwa [A.col_cref, A.col_cref, B.col_cref, B.col_cref] at this
  · intro a h1 h2
    exact fr a (fun k _ h => ⟨fun h' => h1 (cov A k a (by omega) h'),
      fun h' => h2 (cov B k a (by omega) h')⟩)

theorem MView.transpose_cref' [Star K] (M : MView) (m : Mem K) (i j : Int) :
    M.transpose.cref m i j = M.cref m j i := by
  simp only [MView.cref, M.transpose_addr]; rfl

/-- **C55**.  `Swap(A,B)` on matrices of equal size with no common element exchanges all elements
as seen through the views, and touches nothing else. -/
theorem swapM_spec [InvolutiveStar K] (A B : MView) (hcs : A.cs = B.cs) (hrs : A.rs = B.rs)
    (hA : A.WF) (hB : B.WF) (hLA : A.LSOK) (hLB : B.LSOK) (m : Mem K) (hlA : A.Live m)
    (hlB : B.Live m) (hd : A.Disjoint B) :
    ∃ m', A.swapM B m = some m' ∧
      (∀ i j : Nat, i < A.cs → j < A.rs → A.cref m' i j = B.cref m i j ∧
        B.cref m' i j = A.cref m i j) ∧
      (∀ a, ¬ A.Covers a → ¬ B.Covers a → m' a = m a) := by
  unfold MView.swapM
  split
  · rename_i h
    obtain ⟨ca, cb, hsi, hsj⟩ := h
    obtain ⟨sa, ia, _, _⟩ := linearView_spec (K := K) A hLA ca
    obtain ⟨sb, ib, _, _⟩ := linearView_spec (K := K) B hLB cb
    obtain ⟨m', e, c, fr⟩ := swapV_spec A.linearView B.linearView m (by rw [sa, sb, hcs, hrs])
      (linearView_wf A) (linearView_wf B) (linearView_live (K := K) hLA ca hlA)
      (linearView_live (K := K) hLB cb hlB)
      (by
        intro a h1 h2
        rw [linearView_covers hLA ca] at h1
        rw [linearView_covers hLB cb] at h2
        exact hd a h1 h2)
    refine ⟨m', e, ?_, ?_⟩
    · intro i j hi hj
      obtain ⟨_, _, b3⟩ := ib i j (by omega) (by omega)
      obtain ⟨a1, _, a3⟩ := ia i j hi hj
      have := c _ a1
      rwa [a3, a3, linIdx_congr hcs hrs hsi hsj, b3, b3] at this
    · intro a ha hb
      exact fr a (by rwa [linearView_covers hLA ca]) (by rwa [linearView_covers hLB cb])
  split
  · obtain ⟨m', e, c, fr⟩ := cols_swap A.transpose B.transpose hrs hcs hA.transpose hB.transpose m
      (fun i j hi hj => by rw [A.transpose_addr]; exact hlA j i hj hi)
      (fun i j hi hj => by rw [B.transpose_addr]; exact hlB j i hj hi) hd.transpose
    refine ⟨m', e, ?_, ?_⟩
    · intro i j hi hj
      have := c j i hj hi
      simpa only [MView.transpose_cref'] using this
    · intro a h1 h2
      exact fr a (by rwa [A.transpose_covers]) (by rwa [B.transpose_covers])
  · exact cols_swap A B hcs hrs hA hB m hlA hlB hd

/-! ### C55: comparison -/

theorem MView.Holds.row [Star K] {M : MView} {m : Mem K} {x : Nat → Nat → K} (h : M.Holds m x)
    {i : Nat} (hi : i < M.cs) : (M.row i).Holds m (x i) := fun j hj => h i j hi hj

theorem MView.Holds.col [Star K] {M : MView} {m : Mem K} {x : Nat → Nat → K} (h : M.Holds m x)
    {j : Nat} (hj : j < M.rs) : (M.col j).Holds m (fun i => x i j) := fun i hi => by
  rw [M.col_cref]; exact h i j hi hj

theorem eqRows_spec [DecidableEq K] [InvolutiveStar K] (A B : MView) (m : Mem K)
    (x y : Nat → Nat → K) (hcs : A.cs = B.cs) (hrs : A.rs = B.rs) (hA : A.Holds m x)
    (hB : B.Holds m y) :
    ∀ n i : Nat, i + n = A.cs → ∃ b, A.eqRows B m n i = some b ∧
      (b = true ↔ ∀ i' j : Nat, i ≤ i' → i' < A.cs → j < A.rs → x i' j = y i' j) := by
  intro n
  induction n with
  | zero => intro i hi; exact ⟨true, rfl, by simp only [true_iff]; intro i' _ h1 h2; omega⟩
  | succ n ih =>
    intro i hi
    obtain ⟨b, e, hb⟩ := eqV_iff (A.row i) (B.row i) m (x i) (y i) (hA.row (by omega))
      (hB.row (by omega))
    obtain ⟨b', e', hb'⟩ := ih (i+1) (by omega)
    cases b with
    | false =>
      refine ⟨false, by simp [MView.eqRows, e], ?_⟩
      simp only [Bool.false_eq_true, false_iff] at hb ⊢
      intro hh
      exact hb ⟨hrs, fun j hj => hh i j le_rfl (by omega) hj⟩
    | true =>
      refine ⟨b', by simp [MView.eqRows, e, e'], hb'.trans ?_⟩
      simp only [true_iff] at hb
      constructor
      · intro hh i' j h1 h2 h3
        by_cases h : i' = i
        · subst h; exact hb.2 j h3
        · exact hh i' j (by omega) h2 h3
      · intro hh i' j h1 h2 h3; exact hh i' j (by omega) h2 h3

theorem MView.Holds.linear [Star K] {M : MView} {m : Mem K} {x : Nat → Nat → K} (h : M.Holds m x)
    (hM : M.LSOK) (hc : M.canLinearize = true) :
    ∃ z : Nat → K, M.linearView.Holds m z ∧
      ∀ i j : Nat, i < M.cs → j < M.rs → z (M.linIdx i j) = x i j := by
  obtain ⟨s, a, inj, sur⟩ := linearView_spec (K := K) M hM hc
  have ex : ∀ k : Nat, ∃ c : K, k < M.linearView.size → M.linearView.cref m k = some c := by
    intro k
    by_cases hk : k < M.linearView.size
    · obtain ⟨i, j, hi, hj, e⟩ := sur k hk
      exact ⟨x i j, fun _ => by rw [← e, (a i j hi hj).2.2 m, h i j hi hj]⟩
    · exact ⟨x 0 0, fun h => absurd h hk⟩
  choose z hz using ex
  refine ⟨z, fun k hk => hz k hk, ?_⟩
  intro i j hi hj
  have h1 := hz (M.linIdx i j) (a i j hi hj).1
  rw [(a i j hi hj).2.2 m, h i j hi hj] at h1
  exact (Option.some.inj h1).symm

/-- **C55**.  `A == B` is defined on live matrices and is true iff the shapes agree and all
elements, as seen through the views, agree. -/
theorem eqM_iff [DecidableEq K] [InvolutiveStar K] (A B : MView) (m : Mem K) (x y : Nat → Nat → K)
    (hLA : A.LSOK) (hLB : B.LSOK) (hA : A.Holds m x) (hB : B.Holds m y) :
    ∃ b, A.eqM B m = some b ∧
      (b = true ↔ A.cs = B.cs ∧ A.rs = B.rs ∧
        ∀ i j : Nat, i < A.cs → j < A.rs → x i j = y i j) := by
  unfold MView.eqM
  by_cases h1 : A.cs = B.cs
  swap
  · exact ⟨false, by simp [h1], by simp [h1]⟩
  by_cases h2 : A.rs = B.rs
  swap
  · exact ⟨false, by simp [h1, h2], by simp [h2]⟩
  rw [if_neg (by simpa using h1), if_neg (by simpa using h2)]
  split
  · rename_i hs
    obtain ⟨e1, _, _, e4, e5, e6⟩ := of_decide_eq_true hs
    refine ⟨true, rfl, by
      simp only [true_iff]
      refine ⟨h1, h2, fun i j hi hj => ?_⟩
      have a := hA i j hi hj
      have b := hB i j (by omega) (by omega)
      simp only [MView.cref, MView.addr, e1, e4, e5, e6] at a b
      rw [a] at b
      exact Option.some.inj b⟩
  split
  · rename_i _ h
    obtain ⟨hsi, hsj, ca, cb⟩ := h
    obtain ⟨z, hz, ez⟩ := hA.linear hLA ca
    obtain ⟨w, hw, ew⟩ := hB.linear hLB cb
    obtain ⟨sa, ia, _, sur⟩ := linearView_spec (K := K) A hLA ca
    obtain ⟨sb, ib, _, _⟩ := linearView_spec (K := K) B hLB cb
    obtain ⟨b, e, hb⟩ := eqV_iff A.linearView B.linearView m z w hz hw
    refine ⟨b, e, hb.trans ?_⟩
    have ic := fun i j => linIdx_congr (i := i) (j := j) h1 h2 hsi hsj
    constructor
    · rintro ⟨_, hh⟩
      refine ⟨h1, h2, fun i j hi hj => ?_⟩
      rw [← ez i j hi hj, ← ew i j (by omega) (by omega), ← ic]
      exact hh _ (ia i j hi hj).1
    · rintro ⟨_, _, hh⟩
      refine ⟨by rw [sa, sb, h1, h2], fun k hk => ?_⟩
      obtain ⟨i, j, hi, hj, e⟩ := sur k hk
      rw [← e, ez i j hi hj, ic, ew i j (by omega) (by omega)]
      exact hh i j hi hj
  · obtain ⟨b, e, hb⟩ := eqRows_spec A B m x y h1 h2 hA hB A.cs 0 (by omega)
    refine ⟨b, e, hb.trans ?_⟩
    constructor
    · intro hh; exact ⟨h1, h2, fun i j hi hj => hh i j (by omega) hi hj⟩
    · rintro ⟨_, _, hh⟩ i j _ hi hj; exact hh i j hi hj

/-! ### C56: sums and norms -/

theorem loopVFold_spec {β γ : Type _} (f : Nat → VView) (red : VView → Mem K → Option β)
    (g : γ → β → γ) (m : Mem K) (val : Nat → β) :
    ∀ (n i : Nat) (b : γ), (∀ k, i ≤ k → k < i + n → red (f k) m = some (val k)) →
      loopVFold f red g m n i b = some ((List.range' i n).foldl (fun c k => g c (val k)) b) := by
  intro n
  induction n with
  | zero => intro i b _; rfl
  | succ n ih =>
    intro i b h
    have h0 := h i le_rfl (by omega)
    simp only [loopVFold, h0, List.range'_succ, List.foldl_cons]
    exact ih (i+1) _ (fun k h1 h2 => h k (by omega) (by omega))

theorem foldl_add_range {β : Type _} [AddCommMonoid β] (val : Nat → β) (n : Nat) :
    (List.range' 0 n).foldl (fun c k => c + val k) 0 = ∑ k ∈ Finset.range n, val k := by
  induction n with
  | zero => rfl
  | succ n ih =>
    rw [List.range'_concat, List.foldl_append, ih, Finset.sum_range_succ]
    simp

/-- A linear view visits the same elements: sums over it are sums over all elements. -/
theorem linear_sum [Star K] {β : Type _} [AddCommMonoid β] {M : MView} (hM : M.LSOK)
    (hc : M.canLinearize = true) (z : Nat → K) (x : Nat → Nat → K) (F : K → β)
    (hz : ∀ i j : Nat, i < M.cs → j < M.rs → z (M.linIdx i j) = x i j) :
    ∑ k ∈ Finset.range M.linearView.size, F (z k) =
      ∑ i ∈ Finset.range M.cs, ∑ j ∈ Finset.range M.rs, F (x i j) := by
  obtain ⟨s, a, inj, sur⟩ := linearView_spec (K := K) M hM hc
  rw [← Finset.sum_product']
  symm
  apply Finset.sum_bij (fun p _ => M.linIdx p.1 p.2)
  · rintro ⟨i, j⟩ h
    simp only [Finset.mem_product, Finset.mem_range] at h ⊢
    exact (a i j h.1 h.2).1
  · rintro ⟨i, j⟩ h ⟨i', j'⟩ h' e
    simp only [Finset.mem_product, Finset.mem_range] at h h'
    obtain ⟨r1, r2⟩ := inj i j i' j' h.1 h.2 h'.1 h'.2 e
    rw [r1, r2]
  · intro k hk
    simp only [Finset.mem_range] at hk
    obtain ⟨i, j, hi, hj, e⟩ := sur k hk
    exact ⟨(i, j), by simp [hi, hj], e⟩
  · rintro ⟨i, j⟩ h
    simp only [Finset.mem_product, Finset.mem_range] at h
    rw [hz i j h.1 h.2]

/-- The three-way loop shared by all matrix sums. -/
theorem sumLoop_spec [Star K] {β : Type _} [AddCommMonoid β] (red : VView → Mem K → Option β)
    (F : K → β) (M : MView) (hW : M.WF) (hM : M.LSOK) (m : Mem K) (x : Nat → Nat → K)
    (hx : M.Holds m x) (b : Bool)
    (hred : ∀ v, M.Piece v → v.conj = M.conj → v.WF → ∀ z, v.Holds m z →
      red v m = some (∑ k ∈ Finset.range v.size, F (z k))) :
    (if M.canLinearize then red M.linearView m
      else if b then loopVFold (fun j => M.col j) red (· + ·) m M.rs 0 0
      else loopVFold (fun i => M.row i) red (· + ·) m M.cs 0 0) =
      some (∑ i ∈ Finset.range M.cs, ∑ j ∈ Finset.range M.rs, F (x i j)) := by
  by_cases hc : M.canLinearize = true
  · rw [if_pos hc]
    obtain ⟨z, hz, ez⟩ := hx.linear hM hc
    rw [hred _ (Or.inl ⟨hc, rfl⟩) rfl (linearView_wf M) z hz, linear_sum (K := K) hM hc z x F ez]
  rw [if_neg hc]
  cases b
  · rw [if_neg (by simp)]
    rw [loopVFold_spec _ red (· + ·) m (fun i => ∑ j ∈ Finset.range M.rs, F (x i j)),
      foldl_add_range]
    intro k _ hk
    exact hred _ (Or.inr (Or.inl ⟨k, by omega, rfl⟩)) rfl (hW.row (by omega)) _ (hx.row (by omega))
  · rw [if_pos rfl]
    rw [loopVFold_spec _ red (· + ·) m (fun j => ∑ i ∈ Finset.range M.cs, F (x i j)),
      foldl_add_range, Finset.sum_comm]
    intro k _ hk
    exact hred _ (Or.inr (Or.inr ⟨k, by omega, rfl⟩)) rfl (hW.col (by omega)) _ (hx.col (by omega))

/-- **C56** `sumElements` (partial: a conjugated single-row or single-column view with step 0 is
excluded, see `sumElements_step0_violated`). -/
theorem mat_sumElements_spec_partial [CommRing K] [StarRing K] (M : MView) (hW : M.WF)
    (hM : M.LSOK) (m : Mem K) (x : Nat → Nat → K) (hx : M.Holds m x)
    (hs : (M.si ≠ 0 ∧ M.sj ≠ 0) ∨ M.conj = false) :
    M.sumOver VView.sumElements m =
      some (∑ i ∈ Finset.range M.cs, ∑ j ∈ Finset.range M.rs, x i j) := by
  unfold MView.sumOver
  have := sumLoop_spec VView.sumElements id M hW hM m x hx M.iscm (by
    intro v hp hvc hvw z hz
    refine sumElements_spec_partial v m z hz hvw ?_
    rcases hs with ⟨h1, h2⟩ | h
    · left
      rcases hp with ⟨_, rfl⟩ | ⟨i, _, rfl⟩ | ⟨j, _, rfl⟩
      · exact one_ne_zero
      · exact h2
      · exact h1
    · right; rw [hvc, h])
  simpa using this

/-- **C56** `sumAbsElements`, `sumAbs2Elements`. -/
theorem mat_sumAbs_spec {R : Type _} [CommRing R] [InvolutiveStar K] (ab : K → R)
    (hab : ∀ y, ab (star y) = ab y) (M : MView) (hW : M.WF) (hM : M.LSOK) (m : Mem K)
    (x : Nat → Nat → K) (hx : M.Holds m x) :
    M.sumOver (fun v => v.sumAbs ab) m =
      some (∑ i ∈ Finset.range M.cs, ∑ j ∈ Finset.range M.rs, ab (x i j)) := by
  unfold MView.sumOver
  exact sumLoop_spec (fun v => v.sumAbs ab) ab M hW hM m x hx M.iscm
    (fun v _ _ hvw z hz => sumAbs_spec ab hab v m z hz hvw)

/-- **C56** `normSq(scale)`, and so `normF()` squared. -/
theorem mat_normSq_spec {R : Type _} [CommRing R] [DecidableEq R] [InvolutiveStar K] (nrm : K → R)
    (scal : R → K → K) (hn : ∀ y, nrm (star y) = nrm y)
    (hsc : ∀ c y, nrm (scal c y) = c ^ 2 * nrm y) (scale : R) (M : MView) (hW : M.WF)
    (hM : M.LSOK) (m : Mem K) (x : Nat → Nat → K) (hx : M.Holds m x) :
    M.normSq nrm scal scale m =
      some (∑ i ∈ Finset.range M.cs, ∑ j ∈ Finset.range M.rs, scale ^ 2 * nrm (x i j)) := by
  have key := sumLoop_spec (fun v => v.normSq nrm scal scale) (fun y => scale ^ 2 * nrm y) M hW hM m
    x hx (!M.isrm) (fun v _ _ hvw z hz => normSq_spec nrm scal hn hsc scale v m z hz hvw)
  rw [← key]
  unfold MView.normSq
  cases M.isrm <;> simp

/-- `foldl (fun mx t => if t > mx then t else mx)` is the maximum. -/
theorem foldl_max_spec {R : Type _} [LinearOrder R] (val : Nat → R) :
    ∀ (n i : Nat) (b : R),
      let r := (List.range' i n).foldl (fun c k => if val k > c then val k else c) b
      b ≤ r ∧ (∀ k, i ≤ k → k < i + n → val k ≤ r) ∧
        (r = b ∨ ∃ k, i ≤ k ∧ k < i + n ∧ r = val k) := by
  intro n
  induction n with
  | zero => intro i b; exact ⟨le_rfl, fun k h1 h2 => by omega, Or.inl rfl⟩
  | succ n ih =>
    intro i b
    simp only [List.range'_succ, List.foldl_cons]
    obtain ⟨h1, h2, h3⟩ := ih (i+1) (if val i > b then val i else b)
    refine ⟨le_trans ?_ h1, ?_, ?_⟩
    · split
      · rename_i h; exact h.le
      · exact le_rfl
    · intro k hk hk'
      by_cases e : k = i
      · subst e
        refine le_trans ?_ h1
        split
        · exact le_rfl
        · rename_i h; exact not_lt.mp h
      · exact h2 k (by omega) (by omega)
    · rcases h3 with h3 | ⟨k, ha, hb, hc⟩
      · split at h3
        · rename_i h
          right; exact ⟨i, le_rfl, by omega, by rw [if_pos h]; exact h3⟩
        · rename_i h
          left; rw [if_neg h]; exact h3
      · right; exact ⟨k, by omega, by omega, hc⟩

/-- **C56** `norm1()` is the largest column sum of absolute values (0 for an empty matrix). -/
theorem mat_norm1_spec {R : Type _} [CommRing R] [LinearOrder R] [InvolutiveStar K] (ab : K → R)
    (hab : ∀ y, ab (star y) = ab y) (M : MView) (hW : M.WF) (m : Mem K)
    (x : Nat → Nat → K) (hx : M.Holds m x) :
    ∃ r, M.norm1 ab m = some r ∧ 0 ≤ r ∧
      (∀ j : Nat, j < M.rs → ∑ i ∈ Finset.range M.cs, ab (x i j) ≤ r) ∧
      (r = 0 ∨ ∃ j : Nat, j < M.rs ∧ r = ∑ i ∈ Finset.range M.cs, ab (x i j)) := by
  unfold MView.norm1
  rw [loopVFold_spec _ _ _ m (fun j => ∑ i ∈ Finset.range M.cs, ab (x i j))]
  · obtain ⟨h1, h2, h3⟩ := foldl_max_spec (fun j => ∑ i ∈ Finset.range M.cs, ab (x i j)) M.rs 0 0
    refine ⟨_, rfl, h1, fun j hj => h2 j (by omega) (by omega), ?_⟩
    rcases h3 with h3 | ⟨k, _, hb, hc⟩
    · exact Or.inl h3
    · exact Or.inr ⟨k, by omega, hc⟩
  · intro k _ hk
    exact sumAbs_spec ab hab _ m _ (hx.col (by omega)) (hW.col (by omega))

/-- **C56** `normInf()` is the largest row sum of absolute values. -/
theorem mat_normInf_spec {R : Type _} [CommRing R] [LinearOrder R] [InvolutiveStar K] (ab : K → R)
    (hab : ∀ y, ab (star y) = ab y) (M : MView) (hW : M.WF) (m : Mem K)
    (x : Nat → Nat → K) (hx : M.Holds m x) :
    ∃ r, M.normInf ab m = some r ∧ 0 ≤ r ∧
      (∀ i : Nat, i < M.cs → ∑ j ∈ Finset.range M.rs, ab (x i j) ≤ r) ∧
      (r = 0 ∨ ∃ i : Nat, i < M.cs ∧ r = ∑ j ∈ Finset.range M.rs, ab (x i j)) :=
  mat_norm1_spec ab hab M.transpose hW.transpose m (fun j i => x i j)
    (fun j i hj hi => by rw [M.transpose_cref']; exact hx i j hi hj)

/-- **C56** `maxAbsElement()` (and `maxAbs2Element()`): an upper bound of all elements that is one
of them. -/
theorem mat_maxAbs_spec {R : Type _} [LinearOrder R] [Zero R] [InvolutiveStar K] (ab : K → R)
    (hab : ∀ y, ab (star y) = ab y) (hpos : ∀ y, 0 ≤ ab y) (M : MView) (hW : M.WF) (hM : M.LSOK)
    (m : Mem K) (x : Nat → Nat → K) (hx : M.Holds m x) :
    ∃ r, M.maxAbs ab m = some r ∧
      (∀ i j : Nat, i < M.cs → j < M.rs → ab (x i j) ≤ r) ∧
      ((∃ i j : Nat, i < M.cs ∧ j < M.rs ∧ r = ab (x i j)) ∨ ((M.cs = 0 ∨ M.rs = 0) ∧ r = 0)) := by
  -- one vector
  have one : ∀ (v : VView), v.WF → ∀ z, v.Holds m z → ∃ r,
      (v.maxAbs ab m).map (·.1) = some r ∧ (∀ k, k < v.size → ab (z k) ≤ r) ∧
      ((∃ k, k < v.size ∧ r = ab (z k)) ∨ (v.size = 0 ∧ r = 0)) := by
    intro v hw z hz
    by_cases h0 : v.size = 0
    · refine ⟨0, ?_, fun k hk => by omega, Or.inr ⟨h0, rfl⟩⟩
      rw [show v.maxAbs ab m = some (0, -1) by simp [VView.maxAbs, VView.doBest, h0]]
      rfl
    · obtain ⟨j, hj, e, hb⟩ := maxAbs_spec ab hab v m z hz (by omega) hw
      exact ⟨ab (z j), by rw [e]; rfl, hb, Or.inl ⟨j, hj, rfl⟩⟩
  -- the column loop, for any matrix
  have loop : ∀ (N : MView) (y : Nat → Nat → K), N.WF → N.Holds m y → ∃ r,
      loopVFold (fun j => N.col j) (fun v m => (v.maxAbs ab m).map (·.1))
        (fun mx t => if t > mx then t else mx) m N.rs 0 0 = some r ∧
      (∀ i j : Nat, i < N.cs → j < N.rs → ab (y i j) ≤ r) ∧
      ((∃ i j : Nat, i < N.cs ∧ j < N.rs ∧ r = ab (y i j)) ∨ ((N.cs = 0 ∨ N.rs = 0) ∧ r = 0)) := by
    intro N y hN hy
    have hv : ∀ j : Nat, ∃ r, j < N.rs →
        ((N.col j).maxAbs ab m).map (·.1) = some r ∧ (∀ k, k < N.cs → ab (y k j) ≤ r) ∧
        ((∃ k, k < N.cs ∧ r = ab (y k j)) ∨ (N.cs = 0 ∧ r = 0)) := by
      intro j
      by_cases hj : j < N.rs
      · obtain ⟨r, h⟩ := one (N.col j) (hN.col hj) _ (hy.col hj)
        exact ⟨r, fun _ => h⟩
      · exact ⟨0, fun h => absurd h hj⟩
    choose val hval using hv
    rw [loopVFold_spec _ _ _ m val]
    · obtain ⟨h1, h2, h3⟩ := foldl_max_spec val N.rs 0 0
      refine ⟨_, rfl, ?_, ?_⟩
      · intro i j hi hj
        exact le_trans ((hval j hj).2.1 i hi) (h2 j (by omega) (by omega))
      · by_cases he : N.cs = 0 ∨ N.rs = 0
        · right
          refine ⟨he, ?_⟩
          rcases h3 with h3 | ⟨k, _, hb, hc⟩
          · exact h3
          · rcases (hval k (by omega)).2.2 with ⟨i, hi, _⟩ | ⟨_, h⟩
            · omega
            · rw [hc, h]
        · left
          push Not at he
          rcases h3 with h3 | ⟨k, _, hb, hc⟩
          · refine ⟨0, 0, by omega, by omega, ?_⟩
            have := le_trans ((hval 0 (by omega)).2.1 0 (by omega)) (h2 0 (by omega) (by omega))
            rw [h3] at this ⊢
            exact le_antisymm (hpos _) this
          · rcases (hval k (by omega)).2.2 with ⟨i, hi, h⟩ | ⟨h, _⟩
            · exact ⟨i, k, hi, by omega, by rw [hc, h]⟩
            · omega
    · intro k _ hk
      exact (hval k (by omega)).1
  unfold MView.maxAbs
  by_cases hc : M.canLinearize = true
  · rw [if_pos hc]
    obtain ⟨z, hz, ez⟩ := hx.linear hM hc
    obtain ⟨s, a, inj, sur⟩ := linearView_spec (K := K) M hM hc
    obtain ⟨r, e, h1, h2⟩ := one _ (linearView_wf M) z hz
    refine ⟨r, e, ?_, ?_⟩
    · intro i j hi hj
      rw [← ez i j hi hj]
      exact h1 _ (a i j hi hj).1
    · rcases h2 with ⟨k, hk, h⟩ | ⟨h0, h⟩
      · obtain ⟨i, j, hi, hj, e'⟩ := sur k hk
        exact Or.inl ⟨i, j, hi, hj, by rw [h, ← e', ez i j hi hj]⟩
      · right
        rw [s] at h0
        exact ⟨by simpa using h0, h⟩
  rw [if_neg hc]
  split
  · exact loop M x hW hx
  · obtain ⟨r, e, h1, h2⟩ := loop M.transpose (fun j i => x i j) hW.transpose
      (fun j i hj hi => by rw [M.transpose_cref']; exact hx i j hi hj)
    refine ⟨r, e, fun i j hi hj => h1 j i hj hi, ?_⟩
    rcases h2 with ⟨i, j, hi, hj, h⟩ | ⟨h, h'⟩
    · exact Or.inl ⟨j, i, hj, hi, h⟩
    · exact Or.inr ⟨h.symm, h'⟩

/-- Non-vacuity: the 2×3 row-major matrix `[[1,-2,3],[4,5,-6]]`, its transposed view has norms
15 (largest row sum of the parent) and 9. -/
example :
    let M := MView.ofStor 0 2 3 true
    let mem : Mem Int := fun a => ([1, -2, 3, 4, 5, -6] : List Int)[a.toNat]?
    M.norm1 (fun x => |x|) mem = some 9 ∧ M.normInf (fun x => |x|) mem = some 15 ∧
      M.transpose.norm1 (fun x => |x|) mem = some 15 ∧ M.maxAbs (fun x => |x|) mem = some 6 ∧
      M.sumOver VView.sumElements mem = some 5 := by
  decide +kernel

end TMV
