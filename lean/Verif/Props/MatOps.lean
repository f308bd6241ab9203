import Verif.Props.MatViews
import Verif.Props.VecOps
import Verif.Props.VecTwo
import Verif.Props.VecPermute

/-! Whole-matrix element-wise operations, transposeSelf, row interchanges
(properties C17, C18, C19, C53). -/
namespace TMV
variable {K : Type _}

/-! ### Lemmas on rows and columns -/

theorem MView.WF.row {M : MView} (h : M.WF) {i : Nat} (hi : i < M.cs) : (M.row i).WF := by
  simp only [VView.WF, MView.row]
  by_cases h1 : M.rs = 1
  · exact Or.inr h1
  left
  rcases Nat.lt_or_ge M.rs 1 with h0 | h0
  · rcases h.2.1 (by omega) with h | h
    · omega
    · exact h
  · intro hs
    have := h.1 i 0 i 1 hi (by omega) hi (by omega) (by simp [MView.addr, hs])
    omega

theorem MView.transpose_covers (M : MView) (a : Int) : M.transpose.Covers a ↔ M.Covers a := by
  constructor
  · rintro ⟨i, j, hi, hj, e⟩
    exact ⟨j, i, hj, hi, by rw [e]; simp only [MView.addr, MView.transpose]; ring⟩
  · rintro ⟨i, j, hi, hj, e⟩
    exact ⟨j, i, hj, hi, by rw [e]; simp only [MView.addr, MView.transpose]; ring⟩

theorem MView.transpose_addr (M : MView) (i j : Int) : M.transpose.addr i j = M.addr j i := by
  simp only [MView.addr, MView.transpose]; ring

theorem MView.transpose_cref [Star K] (M : MView) (m : Mem K) (i j : Int) :
    M.transpose.cref m i j = M.cref m j i := by
  simp only [MView.cref, MView.transpose_addr]; rfl

theorem MView.WF.transpose {M : MView} (h : M.WF) : M.transpose.WF := by
  refine ⟨?_, h.2.2, h.2.1⟩
  intro i j i' j' hi hj hi' hj' e
  rw [M.transpose_addr, M.transpose_addr] at e
  obtain ⟨a, b⟩ := h.1 j i j' i' hj hi hj' hi' e
  exact ⟨b, a⟩

theorem MView.Live.transpose {M : MView} {m : Mem K} (h : M.Live m) : M.transpose.Live m := by
  intro i j hi hj
  rw [M.transpose_addr]; exact h j i hj hi

theorem MView.WF.col {M : MView} (h : M.WF) {j : Nat} (hj : j < M.rs) : (M.col j).WF :=
  MView.WF.row (M := M.transpose) h.transpose hj

theorem MView.row_addr (M : MView) (i j : Int) : (M.row i).addr j = M.addr i j := rfl
theorem MView.col_addr (M : MView) (i j : Int) : (M.col j).addr i = M.addr i j := by
  simp only [MView.col, VView.addr, MView.addr]; ring
theorem MView.row_cref [Star K] (M : MView) (m : Mem K) (i j : Int) :
    (M.row i).cref m j = M.cref m i j := rfl
theorem MView.col_cref [Star K] (M : MView) (m : Mem K) (i j : Int) :
    (M.col j).cref m i = M.cref m i j := by
  simp only [VView.cref, MView.cref, M.col_addr]; rfl

theorem MView.Live.row {M : MView} {m : Mem K} (h : M.Live m) {i : Nat} (hi : i < M.cs) :
    (M.row i).Live m := fun j hj => h i j hi hj
theorem MView.Live.col {M : MView} {m : Mem K} (h : M.Live m) {j : Nat} (hj : j < M.rs) :
    (M.col j).Live m := fun i hi => by rw [M.col_addr]; exact h i j hi hj

theorem MView.row_disjoint {M : MView} (h : M.Inj) {i i' : Nat} (hi : i < M.cs) (hi' : i' < M.cs)
    (hne : i ≠ i') : (M.row i).Disjoint (M.row i') := by
  rintro a ⟨j, hj, e⟩ ⟨j', hj', e'⟩
  exact hne (h i j i' j' hi hj hi' hj' (e.symm.trans e')).1
theorem MView.col_disjoint {M : MView} (h : M.Inj) {j j' : Nat} (hj : j < M.rs) (hj' : j' < M.rs)
    (hne : j ≠ j') : (M.col j).Disjoint (M.col j') := by
  rintro a ⟨i, hi, e⟩ ⟨i', hi', e'⟩
  rw [M.col_addr] at e e'
  exact hne (h i j i' j' hi hj hi' hj' (e.symm.trans e')).2

theorem VView.cref_of_eq [Star K] (v : VView) {m m' : Mem K} {i : Int}
    (h : m' (v.addr i) = m (v.addr i)) : v.cref m' i = v.cref m i := by
  simp only [VView.cref, Mem.read, h]

theorem MView.cref_of_eq [Star K] (M : MView) {m m' : Mem K} {i j : Int}
    (h : m' (M.addr i j) = m (M.addr i j)) : M.cref m' i j = M.cref m i j := by
  simp only [MView.cref, Mem.read, h]

/-- Every element of `v`, as seen through `v`, was replaced by its image under `g`. -/
def VView.Changed [Star K] (v : VView) (g : K → K) (m m' : Mem K) : Prop :=
  (∀ i : Nat, i < v.size → v.cref m' i = (v.cref m i).map g) ∧ v.Frame m m'

/-- Loop over pairwise disjoint vectors. -/
theorem loopV_spec [Star K] (f : Nat → VView) (op : VView → Mem K → Option (Mem K)) (g : K → K) :
    ∀ (n i : Nat) (m : Mem K),
      (∀ k, i ≤ k → k < i + n → ∀ m, (f k).Live m → ∃ m', op (f k) m = some m' ∧
        (f k).Changed g m m') →
      (∀ k k', i ≤ k → k < i + n → i ≤ k' → k' < i + n → k ≠ k' → (f k).Disjoint (f k')) →
      (∀ k, i ≤ k → k < i + n → (f k).Live m) →
      ∃ m', loopV f op n i m = some m' ∧
        (∀ k, i ≤ k → k < i + n → ∀ j : Nat, j < (f k).size →
          (f k).cref m' j = ((f k).cref m j).map g) ∧
        (∀ a, (∀ k, i ≤ k → k < i + n → ¬ (f k).Covers a) → m' a = m a) := by
  intro n
  induction n with
  | zero =>
    intro i m _ _ _
    exact ⟨m, rfl, fun k h1 h2 => by omega, fun _ _ => rfl⟩
  | succ n ih =>
    intro i m hop hd hl
    obtain ⟨m1, e1, c1, f1⟩ := hop i le_rfl (by omega) m (hl i le_rfl (by omega))
    have keep : ∀ k, i + 1 ≤ k → k < i + 1 + n → ∀ j : Nat, j < (f k).size →
        m1 ((f k).addr j) = m ((f k).addr j) := by
      intro k h1 h2 j hj
      exact f1 _ (hd k i (by omega) (by omega) le_rfl (by omega) (by omega) _ ⟨j, hj, rfl⟩)
    obtain ⟨m', e2, c2, f2⟩ := ih (i+1) m1
      (fun k h1 h2 => hop k (by omega) (by omega))
      (fun k k' h1 h2 h3 h4 => hd k k' (by omega) (by omega) (by omega) (by omega))
      (fun k h1 h2 j hj => by rw [keep k h1 h2 j hj]; exact hl k (by omega) (by omega) j hj)
    refine ⟨m', by simp [loopV, e1, e2], ?_, ?_⟩
    · intro k h1 h2 j hj
      by_cases hk : k = i
      · subst hk
        rw [← c1 j hj]
        apply VView.cref_of_eq
        apply f2
        intro k' h3 h4
        exact hd k k' le_rfl h2 (by omega) (by omega) (by omega) _ ⟨j, hj, rfl⟩
      · rw [c2 k (by omega) (by omega) j hj,
          VView.cref_of_eq (f k) (keep k (by omega) (by omega) j hj)]
    · intro a ha
      rw [f2 a (fun k h1 h2 => ha k (by omega) (by omega)), f1 a (ha i le_rfl (by omega))]

/-- The vectors a whole-matrix operation works on. -/
def MView.Piece (M : MView) (v : VView) : Prop :=
  (M.canLinearize = true ∧ v = M.linearView) ∨ (∃ i : Nat, i < M.cs ∧ v = M.row i) ∨
    (∃ j : Nat, j < M.rs ∧ v = M.col j)

/-- Every element of `M`, as seen through `M`, was replaced by its image under `g`; nothing else
changed. -/
def MView.Changed [Star K] (M : MView) (g : K → K) (m m' : Mem K) : Prop :=
  (∀ i j : Nat, i < M.cs → j < M.rs → M.cref m' i j = (M.cref m i j).map g) ∧ M.Frame m m'

theorem linearView_changed [Star K] {M : MView} (hM : M.LSOK) (hc : M.canLinearize = true)
    {g : K → K} {m m' : Mem K} (h : M.linearView.Changed g m m') : M.Changed g m m' := by
  obtain ⟨_, h2, _, h4⟩ := linearView_spec (K := K) M hM hc
  refine ⟨?_, ?_⟩
  · intro i j hi hj
    obtain ⟨a, _, c⟩ := h2 i j hi hj
    rw [← c m', ← c m]; exact h.1 _ a
  · intro a ha
    apply h.2
    rintro ⟨k, hk, e⟩
    obtain ⟨i, j, hi, hj, e'⟩ := h4 k hk
    obtain ⟨_, b, _⟩ := h2 i j hi hj
    exact ha ⟨i, j, hi, hj, by rw [e, ← e', b]⟩

theorem linearView_live [Star K] {M : MView} (hM : M.LSOK) (hc : M.canLinearize = true) {m : Mem K}
    (hl : M.Live m) : M.linearView.Live m := by
  obtain ⟨_, h2, _, h4⟩ := linearView_spec (K := K) M hM hc
  intro k hk
  obtain ⟨i, j, hi, hj, e'⟩ := h4 k hk
  obtain ⟨_, b, _⟩ := h2 i j hi hj
  rw [← e', b]; exact hl i j hi hj

theorem linearView_wf (M : MView) : M.linearView.WF := Or.inl (by simp [MView.linearView])

/-- **C17** (generic).  A whole-matrix element-wise operation that works on the linear view, the
rows, or the columns - whichever the code selects - changes every element exactly once and
nothing else, provided the vector operation is right on each of these vectors. -/
theorem each_spec [Star K] (op : VView → Mem K → Option (Mem K)) (g : K → K) (M : MView)
    (hW : M.WF) (hM : M.LSOK) (m : Mem K) (hl : M.Live m)
    (hop : ∀ v, M.Piece v → v.conj = M.conj → v.WF → ∀ m, v.Live m →
      ∃ m', op v m = some m' ∧ v.Changed g m m') :
    ∃ m', M.each op m = some m' ∧ M.Changed g m m' := by
  unfold MView.each
  by_cases hc : M.canLinearize = true
  · rw [if_pos hc]
    obtain ⟨m', e, c⟩ := hop M.linearView (Or.inl ⟨hc, rfl⟩) rfl (linearView_wf M) m
      (linearView_live (K := K) hM hc hl)
    exact ⟨m', e, linearView_changed hM hc c⟩
  rw [if_neg hc]
  split
  · obtain ⟨m', e, c, fr⟩ := loopV_spec (fun i => M.row i) op g M.cs 0 m
      (fun k _ h => hop _ (Or.inr (Or.inl ⟨k, by omega, rfl⟩)) rfl (hW.row (by omega)))
      (fun k k' _ h _ h' hne => MView.row_disjoint hW.1 (by omega) (by omega) hne)
      (fun k _ h => hl.row (by omega))
    refine ⟨m', e, ?_, ?_⟩
    · intro i j hi hj; exact c i (by omega) (by omega) j hj
    · intro a ha
      exact fr a (fun k _ h => fun ⟨j, hj, e⟩ => ha ⟨k, j, by omega, hj, e⟩)
  · obtain ⟨m', e, c, fr⟩ := loopV_spec (fun j => M.col j) op g M.rs 0 m
      (fun k _ h => hop _ (Or.inr (Or.inr ⟨k, by omega, rfl⟩)) rfl (hW.col (by omega)))
      (fun k k' _ h _ h' hne => MView.col_disjoint hW.1 (by omega) (by omega) hne)
      (fun k _ h => hl.col (by omega))
    refine ⟨m', e, ?_, ?_⟩
    · intro i j hi hj
      have := c j (by omega) (by omega) i hi
      rwa [M.col_cref, M.col_cref] at this
    · intro a ha
      exact fr a (fun k _ h => fun ⟨i, hi, e⟩ => ha ⟨i, k, hi, by omega, by rw [e, M.col_addr]⟩)

theorem resolve_ofStor (p : Int) (cs rs : Nat) (rm : Bool) :
    (MView.ofStor p cs rs rm).resolve = MView.ofStor p cs rs rm := by
  unfold MView.resolve
  rw [if_neg]
  have : (0 : Int) ≤ cs * rs := by positivity
  simp only [MView.ofStor]
  omega

/-- The same for the operations of an owning `Matrix`, which always use the linear view (also when
the matrix is empty). -/
theorem eachOwned_spec [Star K] (op : VView → Mem K → Option (Mem K)) (g : K → K) (p : Int)
    (cs rs : Nat) (rm : Bool) (m : Mem K) (hl : (MView.ofStor p cs rs rm).Live m)
    (hop : ∀ v : VView, v.conj = false → v.step = 1 → ∀ m, v.Live m →
      ∃ m', op v m = some m' ∧ v.Changed g m m') :
    ∃ m', (MView.ofStor p cs rs rm).eachOwned op m = some m' ∧
      (MView.ofStor p cs rs rm).Changed g m m' := by
  have hM := lsok_ofStor p cs rs rm
  unfold MView.eachOwned
  by_cases hc : (MView.ofStor p cs rs rm).canLinearize = true
  · obtain ⟨m', e, c⟩ := hop _ rfl rfl m (linearView_live (K := K) hM hc hl)
    exact ⟨m', e, linearView_changed hM hc c⟩
  · rw [MView.canLinearize, resolve_ofStor, decide_eq_true_eq, not_lt] at hc
    have h0 : cs * rs = 0 := by
      have : ((cs : Int) * rs) ≤ 0 := hc
      exact_mod_cast le_antisymm this (by positivity)
    have hs : (MView.ofStor p cs rs rm).linearView.size = 0 := by
      simp only [MView.linearView, resolve_ofStor]
      have : (cs : Int) * rs = 0 := by exact_mod_cast h0
      simp only [MView.ofStor, this]; simp
    obtain ⟨m', e, c⟩ := hop (MView.ofStor p cs rs rm).linearView rfl rfl m
      (fun i hi => by rw [hs] at hi; omega)
    refine ⟨m', e, ?_, ?_⟩
    · intro i j hi hj
      exfalso
      simp only [MView.ofStor] at hi hj
      rcases Nat.mul_eq_zero.mp h0 with h | h <;> omega
    · intro a _
      exact c.2 a (fun ⟨i, hi, _⟩ => by rw [hs] at hi; omega)

/-! ### The individual operations -/

/-- **C53** `m.setZero()`. -/
theorem mat_setZero_spec [CommRing K] [StarRing K] (M : MView) (hW : M.WF) (hM : M.LSOK) (m : Mem K)
    (hl : M.Live m) :
    ∃ m', M.setZero m = some m' ∧ M.Holds m' (fun _ _ => 0) ∧ M.Frame m m' := by
  obtain ⟨m', e, c, fr⟩ := each_spec VView.setZero (fun _ => (0 : K)) M hW hM m hl (by
    intro v _ _ hw m hl
    obtain ⟨m', a, b, c⟩ := setZero_spec v m hw hl
    refine ⟨m', a, fun i hi => ?_, c⟩
    obtain ⟨y, hy⟩ := Option.isSome_iff_exists.mp (hl i hi)
    rw [b i hi]; simp [VView.cref, Mem.read, hy])
  refine ⟨m', e, fun i j hi hj => ?_, fr⟩
  obtain ⟨y, hy⟩ := Option.isSome_iff_exists.mp (hl i j hi hj)
  rw [c i j hi hj]; simp [MView.cref, Mem.read, hy]

/-- **C53, partial** `m.setAllTo(x)`: right unless the view is conjugated and `x` not real
(`mat_setAllTo_conj_violated`). -/
theorem mat_setAllTo_spec_partial [InvolutiveStar K] (M : MView) (x : K) (hW : M.WF) (hM : M.LSOK)
    (m : Mem K) (hl : M.Live m) (hc : M.conj = false ∨ star x = x) :
    ∃ m', M.setAllTo x m = some m' ∧ M.Holds m' (fun _ _ => x) ∧ M.Frame m m' := by
  obtain ⟨m', e, c, fr⟩ := each_spec (fun v => v.setAllTo x) (fun _ => x) M hW hM m hl (by
    intro v _ hv hw m hl
    obtain ⟨m', a, b, c⟩ := setAllTo_spec_partial v x m hw hl (by rw [hv]; tauto)
    refine ⟨m', a, fun i hi => ?_, c⟩
    obtain ⟨y, hy⟩ := Option.isSome_iff_exists.mp (hl i hi)
    rw [b i hi]; simp [VView.cref, Mem.read, hy])
  refine ⟨m', e, fun i j hi hj => ?_, fr⟩
  obtain ⟨y, hy⟩ := Option.isSome_iff_exists.mp (hl i j hi hj)
  rw [c i j hi hj]; simp [MView.cref, Mem.read, hy]

/-- **C53 violated**: `m.conjugate().setAllTo(i)` on a complex matrix makes the elements read `-i`. -/
theorem mat_setAllTo_conj_violated :
    ∃ (M : MView) (m m' : Mem GaussianInt) (x : GaussianInt), M.WF ∧ M.LSOK ∧ M.Live m ∧
      M.setAllTo x m = some m' ∧ M.cref m' 0 0 ≠ some x := by
  refine ⟨(MView.ofStor 0 1 1 false).conjugate, fun a => if a = 0 then some 0 else none, _,
    ⟨0, 1⟩, ?_, ?_, ?_, rfl, ?_⟩
  · refine ⟨?_, by decide, by decide⟩
    intro i j i' j' hi hj hi' hj' _
    simp only [MView.conjugate, MView.ofStor] at *
    omega
  · exact lsok_run .conjugate _ _ (lsok_ofStor 0 1 1 false) rfl
  · intro i j hi hj
    simp only [MView.conjugate, MView.ofStor, MView.addr] at *
    obtain rfl : i = 0 := by omega
    obtain rfl : j = 0 := by omega
    simp
  · simp only [MView.cref, MView.addr, Mem.read, cj]
    decide

/-- **C53, partial** `m.addToAll(x)`; a step of exactly 0 on a conjugated view is excluded as for
vectors. -/
theorem mat_addToAll_spec_partial [CommRing K] [StarRing K] (M : MView) (x : K) (hW : M.WF)
    (hM : M.LSOK) (m : Mem K) (hl : M.Live m) (hc : M.conj = false ∨ (M.si ≠ 0 ∧ M.sj ≠ 0)) :
    ∃ m', M.addToAll x m = some m' ∧
      (∀ i j : Nat, i < M.cs → j < M.rs → M.cref m' i j = (M.cref m i j).map (· + x)) ∧
      M.Frame m m' := by
  obtain ⟨m', e, c⟩ := each_spec (fun v => v.addToAll x) (· + x) M hW hM m hl (by
    intro v hp hv hw m hl
    refine addToAll_spec_partial v x m hw hl ?_
    rcases hc with hc | ⟨h1, h2⟩
    · right; rw [hv, hc]
    · left
      rcases hp with ⟨_, rfl⟩ | ⟨i, _, rfl⟩ | ⟨j, _, rfl⟩
      · simp [MView.linearView]
      · exact h2
      · exact h1)
  exact ⟨m', e, c⟩

/-- **C53** `m.conjugateSelf()`. -/
theorem mat_conjugateSelf_spec [InvolutiveStar K] (M : MView) (hW : M.WF) (hM : M.LSOK) (m : Mem K)
    (hl : M.Live m) :
    ∃ m', M.conjugateSelf m = some m' ∧
      (∀ i j : Nat, i < M.cs → j < M.rs → M.cref m' i j = (M.cref m i j).map star) ∧
      M.Frame m m' :=
  each_spec VView.conjugateSelf star M hW hM m hl (fun v _ _ hw m hl => conjugateSelf_spec v m hw hl)

/-- **C53** `m.clip(thresh)`. -/
theorem mat_clip_spec {R : Type _} [LinearOrder R] [CommRing K] [StarRing K] (abs : K → R)
    (habs : ∀ x, abs (star x) = abs x) (M : MView) (t : R) (hW : M.WF) (hM : M.LSOK) (m : Mem K)
    (hl : M.Live m) :
    ∃ m', M.clip abs t m = some m' ∧
      (∀ i j : Nat, i < M.cs → j < M.rs →
        M.cref m' i j = (M.cref m i j).map (fun x => if abs x < t then 0 else x)) ∧
      M.Frame m m' :=
  each_spec (fun v => v.clip abs t) _ M hW hM m hl
    (fun v _ _ hw m hl => clip_spec abs habs v t m hw hl)

/-- **C53, partial** `m.setToIdentity(x)` on a square view: `x` on the diagonal, 0 elsewhere. -/
theorem mat_setToIdentity_spec_partial [CommRing K] [StarRing K] (M : MView) (x : K) (hW : M.WF)
    (hM : M.LSOK) (m : Mem K) (hl : M.Live m) (hsq : M.cs = M.rs) (hn : 0 < M.cs ∨ M.si + M.sj ≠ 0)
    (hc : M.conj = false ∨ star x = x) :
    ∃ m', M.setToIdentity x m = some m' ∧
      M.Holds m' (fun i j => if i = j then x else 0) ∧ M.Frame m m' := by
  obtain ⟨m1, e1, h1, f1⟩ := mat_setZero_spec M hW hM m hl
  have hd : ∀ k : Nat, M.diag.addr k = M.addr k k := by
    intro k; simp only [MView.diag, VView.addr, MView.addr]; ring
  have hsz : M.diag.size = M.cs := by simp [MView.diag, hsq]
  have hwd : M.diag.WF := by
    by_cases h1 : M.cs = 1
    · right; rw [hsz, h1]
    · left
      intro h0
      have hn : 0 < M.cs := hn.resolve_right (not_not.mpr h0)
      have : M.addr (0 : Nat) (0 : Nat) = M.addr (1 : Nat) (1 : Nat) := by
        rw [← hd, ← hd]; simp only [VView.addr, h0]; ring
      have := hW.1 0 0 1 1 (by omega) (by omega) (by omega) (by omega) this
      omega
  have hl1 : M.Live m1 := by
    intro i j hi hj
    have := h1 i j hi hj
    simp only [MView.cref, Mem.read] at this
    cases h : m1 (M.addr i j) with
    | none => simp [h] at this
    | some y => rfl
  obtain ⟨m', e2, h2, f2⟩ := setAllTo_spec_partial M.diag x m1 hwd
    (fun k hk => by rw [hd]; rw [hsz] at hk; exact hl1 k k hk (by omega))
    (by rcases hc with h | h; exact Or.inl h; exact Or.inr (Or.inl h))
  refine ⟨m', by simp [MView.setToIdentity, e1, e2], ?_, ?_⟩
  · intro i j hi hj
    by_cases hij : i = j
    · subst hij
      have := h2 i (by rw [hsz]; exact hi)
      simp only [VView.cref, hd] at this
      simpa [MView.cref, MView.diag] using this
    · have h1' := h1 i j hi hj
      simp only [if_neg hij]
      simp only at h1'
      rw [← h1']
      apply MView.cref_of_eq
      apply f2
      rintro ⟨k, hk, e⟩
      rw [hsz] at hk
      rw [hd] at e
      have := hW.1 i j k k hi hj hk (by omega) e
      omega
  · intro a ha
    rw [f2 a, f1 a ha]
    rintro ⟨k, hk, e⟩
    rw [hsz] at hk
    rw [hd] at e
    exact ha ⟨k, k, hk, by omega, e⟩

example : ∃ M : MView, M.WF ∧ M.LSOK ∧ M.conj = true ∧ M.cs = 2 ∧ M.rs = 2 ∧ M.canLinearize = false :=
  ⟨⟨0, 2, 2, 1, 5, true, 0⟩, ⟨by
    intro i j i' j' hi hj hi' hj' e
    simp only [MView.addr] at *
    omega, by decide, by decide⟩, Or.inr (Or.inl rfl), rfl, rfl, rfl, by decide⟩

/-! ### C18: transposeSelf -/

theorem transposeSelf_loop [InvolutiveStar K] (M : MView) (hI : M.Inj) (hsq : M.cs = M.rs)
    (m0 : Mem K) (hl0 : M.Live m0) :
    ∀ (n k : Nat) (m : Mem K), 1 ≤ k → k + n ≤ M.cs →
      (∀ i j : Nat, i < M.cs → j < M.rs →
        M.cref m i j = if i < k ∧ j < k then M.cref m0 j i else M.cref m0 i j) →
      M.Frame m0 m →
      ∃ m', loopV2 (fun i => M.row3 i 0 i) (fun i => M.col3 i 0 i) VView.swapV n k m = some m' ∧
        (∀ i j : Nat, i < M.cs → j < M.rs →
          M.cref m' i j = if i < k + n ∧ j < k + n then M.cref m0 j i else M.cref m0 i j) ∧
        M.Frame m0 m' := by
  have live_of : ∀ m : Mem K, (∀ i j : Nat, i < M.cs → j < M.rs → (M.cref m i j).isSome) → M.Live m := by
    intro m h i j hi hj
    have := h i j hi hj
    simpa [MView.cref, Mem.read] using this
  have crefS : ∀ i j : Nat, i < M.cs → j < M.rs → (M.cref m0 i j).isSome := by
    intro i j hi hj
    simpa [MView.cref, Mem.read] using hl0 i j hi hj
  intro n
  induction n with
  | zero => intro k m _ _ h hf; exact ⟨m, rfl, by simpa using h, hf⟩
  | succ n ih =>
    intro k m hk hkn h hf
    have hl : M.Live m := live_of m (by
      intro i j hi hj
      rw [h i j hi hj]
      split
      · exact crefS j i (by omega) (by omega)
      · exact crefS i j hi hj)
    have ra : ∀ j : Nat, (M.row3 k 0 k).addr j = M.addr k j := by
      intro j; simp only [MView.row3, VView.addr, MView.addr]; ring
    have ca : ∀ i : Nat, (M.col3 k 0 k).addr i = M.addr i k := by
      intro i; simp only [MView.col3, VView.addr, MView.addr]; ring
    have rsz : (M.row3 k 0 k).size = k := by simp [MView.row3]
    have csz : (M.col3 k 0 k).size = k := by simp [MView.col3]
    have rwf : (M.row3 k 0 k).WF := by
      by_cases h1 : k = 1
      · right; rw [rsz, h1]
      · left
        intro h0
        have := hI k 0 k 1 (by omega) (by omega) (by omega) (by omega) (by
          rw [← ra, ← ra]; simp only [VView.addr, h0]; ring)
        omega
    have cwf : (M.col3 k 0 k).WF := by
      by_cases h1 : k = 1
      · right; rw [csz, h1]
      · left
        intro h0
        have := hI 0 k 1 k (by omega) (by omega) (by omega) (by omega) (by
          rw [← ca, ← ca]; simp only [VView.addr, h0]; ring)
        omega
    obtain ⟨m1, e1, sw, fr⟩ := swapV_spec (M.row3 k 0 k) (M.col3 k 0 k) m (by rw [rsz, csz]) rwf cwf
      (fun j hj => by rw [ra]; rw [rsz] at hj; exact hl k j (by omega) (by omega))
      (fun i hi => by rw [ca]; rw [csz] at hi; exact hl i k (by omega) (by omega))
      (by
        rintro a ⟨j, hj, e⟩ ⟨i, hi, e'⟩
        rw [rsz] at hj; rw [csz] at hi
        rw [ra] at e; rw [ca] at e'
        have := hI k j i k (by omega) (by omega) (by omega) (by omega) (e.symm.trans e')
        omega)
    have sw' : ∀ j : Nat, j < k → M.cref m1 k j = M.cref m j k ∧ M.cref m1 j k = M.cref m k j := by
      intro j hj
      have := sw j (by rw [rsz]; exact hj)
      have r1 : ∀ m : Mem K, (M.row3 k 0 k).cref m j = M.cref m k j := fun m => by
        simp only [VView.cref, MView.cref, ra]; rfl
      have r2 : ∀ m : Mem K, (M.col3 k 0 k).cref m j = M.cref m j k := fun m => by
        simp only [VView.cref, MView.cref, ca]; rfl
      rwa [r1, r2, r2, r1] at this
    have h1 : ∀ i j : Nat, i < M.cs → j < M.rs →
        M.cref m1 i j = if i < k + 1 ∧ j < k + 1 then M.cref m0 j i else M.cref m0 i j := by
      intro i j hi hj
      by_cases hik : i = k ∧ j < k
      · obtain ⟨rfl, hj'⟩ := hik
        rw [(sw' j hj').1, h j i (by omega) (by omega), if_neg (by omega), if_pos (by omega)]
      by_cases hjk : j = k ∧ i < k
      · obtain ⟨rfl, hi'⟩ := hjk
        rw [(sw' i hi').2, h j i (by omega) (by omega), if_neg (by omega), if_pos (by omega)]
      have : M.cref m1 i j = M.cref m i j := by
        apply MView.cref_of_eq
        apply fr
        · rintro ⟨j', hj', e⟩
          rw [rsz] at hj'; rw [ra] at e
          have := hI i j k j' hi hj (by omega) (by omega) e
          omega
        · rintro ⟨i', hi', e⟩
          rw [csz] at hi'; rw [ca] at e
          have := hI i j i' k hi hj (by omega) (by omega) e
          omega
      rw [this, h i j hi hj]
      by_cases hd : i = k ∧ j = k
      · obtain ⟨rfl, rfl⟩ := hd
        rw [if_neg (by omega), if_pos (by omega)]
      · by_cases hb : i < k ∧ j < k
        · rw [if_pos hb, if_pos (by omega)]
        · rw [if_neg hb, if_neg (by omega)]
    have f1 : M.Frame m0 m1 := by
      intro a ha
      rw [fr a, hf a ha]
      · rintro ⟨j, hj, e⟩
        rw [rsz] at hj; rw [ra] at e
        exact ha ⟨k, j, by omega, by omega, e⟩
      · rintro ⟨i, hi, e⟩
        rw [csz] at hi; rw [ca] at e
        exact ha ⟨i, k, by omega, by omega, e⟩
    obtain ⟨m', e2, h2, f2⟩ := ih (k+1) m1 (by omega) (by omega) h1 f1
    refine ⟨m', by simp [loopV2, e1, e2], ?_, f2⟩
    have : k + 1 + n = k + (n + 1) := by omega
    rwa [this] at h2

/-- **C18**.  `m.transposeSelf()` on a square view makes every `m(i,j)` equal the old `m(j,i)` and
touches nothing else. -/
theorem transposeSelf_spec [InvolutiveStar K] (M : MView) (hI : M.Inj) (hsq : M.cs = M.rs)
    (m : Mem K) (hl : M.Live m) :
    ∃ m', M.transposeSelf m = some m' ∧
      (∀ i j : Nat, i < M.cs → j < M.rs → M.cref m' i j = M.cref m j i) ∧ M.Frame m m' := by
  rcases Nat.eq_zero_or_pos M.cs with h0 | h0
  · refine ⟨m, by simp [MView.transposeSelf, h0, loopV2], ?_, fun _ _ => rfl⟩
    intro i j hi; omega
  · obtain ⟨m', e, h, f⟩ := transposeSelf_loop M hI hsq m hl (M.cs - 1) 1 m le_rfl (by omega)
      (by
        intro i j hi hj
        split
        · rename_i h; obtain rfl : i = 0 := by omega
          obtain rfl : j = 0 := by omega
          rfl
        · rfl) (fun _ _ => rfl)
    refine ⟨m', e, ?_, f⟩
    intro i j hi hj
    rw [h i j hi hj, if_pos (by omega)]

/-- Memory is determined by the elements and the frame. -/
theorem MView.mem_ext [InvolutiveStar K] (M : MView) {m m' : Mem K}
    (h : ∀ i j : Nat, i < M.cs → j < M.rs → M.cref m' i j = M.cref m i j) (hf : M.Frame m m') :
    m' = m := by
  funext a
  by_cases ha : M.Covers a
  · obtain ⟨i, j, hi, hj, rfl⟩ := ha
    have := h i j hi hj
    simp only [MView.cref, Mem.read] at this
    refine Option.map_injective ?_ this
    intro x y e
    have := congrArg (cj M.conj) e
    rwa [cj_cj, cj_cj] at this
  · exact hf a ha

/-- **C18**: transposing twice restores the memory exactly. -/
theorem transposeSelf_twice [InvolutiveStar K] (M : MView) (hI : M.Inj) (hsq : M.cs = M.rs)
    (m : Mem K) (hl : M.Live m) :
    (M.transposeSelf m).bind M.transposeSelf = some m := by
  obtain ⟨m1, e1, h1, f1⟩ := transposeSelf_spec M hI hsq m hl
  have hl1 : M.Live m1 := by
    intro i j hi hj
    have := h1 i j hi hj
    have hs := hl j i (by omega) (by omega)
    simp only [MView.cref, Mem.read] at this
    have h2 : ((m1 (M.addr i j)).map (cj M.conj)).isSome := by rw [this]; simpa using hs
    simpa using h2
  obtain ⟨m2, e2, h2, f2⟩ := transposeSelf_spec M hI hsq m1 hl1
  rw [e1, Option.bind_some, e2]
  congr 1
  apply M.mem_ext
  · intro i j hi hj
    rw [h2 i j hi hj, h1 j i (by omega) (by omega)]
  · intro a ha; rw [f2 a ha, f1 a ha]

/-! ### C19: row interchanges -/

/-- `swapRows(i1,i2)` exchanges the two rows and touches nothing else. -/
theorem swapRows_spec [InvolutiveStar K] (M : MView) (hW : M.WF) (m : Mem K) (hl : M.Live m)
    (i1 i2 : Nat) (h1 : i1 < M.cs) (h2 : i2 < M.cs) :
    ∃ m', M.swapRows i1 i2 m = some m' ∧
      (∀ i j : Nat, i < M.cs → j < M.rs → M.cref m' i j = M.cref m (Equiv.swap i1 i2 i : Nat) j) ∧
      M.Frame m m' := by
  unfold MView.swapRows
  by_cases h12 : i1 = i2
  · subst h12
    refine ⟨m, by simp, ?_, fun _ _ => rfl⟩
    intro i j _ _; simp
  · rw [if_pos h12]
    obtain ⟨m', e, sw, fr⟩ := swapV_spec (M.row i1) (M.row i2) m rfl (hW.row h1) (hW.row h2)
      (hl.row h1) (hl.row h2) (MView.row_disjoint hW.1 h1 h2 h12)
    refine ⟨m', e, ?_, ?_⟩
    · intro i j hi hj
      by_cases e1 : i = i1
      · subst e1; rw [Equiv.swap_apply_left]; exact (sw j hj).1
      by_cases e2 : i = i2
      · subst e2; rw [Equiv.swap_apply_right]; exact (sw j hj).2
      rw [Equiv.swap_apply_of_ne_of_ne e1 e2]
      apply MView.cref_of_eq
      apply fr
      · rintro ⟨j', hj', e⟩; exact e1 (hW.1 i j i1 j' hi hj h1 hj' e).1
      · rintro ⟨j', hj', e⟩; exact e2 (hW.1 i j i2 j' hi hj h2 hj' e).1
    · intro a ha
      apply fr
      · rintro ⟨j', hj', e⟩; exact ha ⟨i1, j', h1, hj', e⟩
      · rintro ⟨j', hj', e⟩; exact ha ⟨i2, j', h2, hj', e⟩

theorem MView.Live.of_rearr [InvolutiveStar K] {M : MView} {m m' : Mem K} {σ : Nat → Nat}
    (hl : M.Live m) (hσ : ∀ i, i < M.cs → σ i < M.cs)
    (h : ∀ i j : Nat, i < M.cs → j < M.rs → M.cref m' i j = M.cref m (σ i) j) : M.Live m' := by
  intro i j hi hj
  have := h i j hi hj
  have hs := hl (σ i) j (hσ i hi) hj
  simp only [MView.cref, Mem.read] at this
  have h2 : ((m' (M.addr i j)).map (cj M.conj)).isSome := by rw [this]; simpa using hs
  simpa using h2

/-- Rows rearranged by `σ`, nothing else changed. -/
def MView.RowsBy [Star K] (M : MView) (σ : Equiv.Perm Nat) (m m' : Mem K) : Prop :=
  (∀ i j : Nat, i < M.cs → j < M.rs → M.cref m' i j = M.cref m (σ i : Nat) j) ∧ M.Frame m m'

theorem swapRowsLoop_spec [InvolutiveStar K] (M : MView) (hW : M.WF) (p : Nat → Nat) :
    ∀ (n i : Nat) (m : Mem K), M.Live m → i + n ≤ M.cs → (∀ k, i ≤ k → k < i + n → p k < M.cs) →
      ∃ m', M.swapRowsLoop p n i m = some m' ∧ M.RowsBy (swapProd p n i) m m' := by
  intro n
  induction n with
  | zero => intro i m _ _ _; exact ⟨m, rfl, fun _ _ _ _ => by simp [swapProd], fun _ _ => rfl⟩
  | succ n ih =>
    intro i m hl hin hp
    obtain ⟨m1, e1, h1, f1⟩ := swapRows_spec M hW m hl i (p i) (by omega) (hp i le_rfl (by omega))
    have hl1 : M.Live m1 := hl.of_rearr (σ := Equiv.swap i (p i))
      (fun k hk => Equiv.swap_lt (by omega) (hp i le_rfl (by omega)) hk) h1
    obtain ⟨m2, e2, h2, f2⟩ := ih (i+1) m1 hl1 (by omega) (fun k a b => hp k (by omega) (by omega))
    refine ⟨m2, by simp [MView.swapRowsLoop, e1, e2], ?_, ?_⟩
    · intro a b ha hb
      rw [h2 a b ha hb, h1 _ b (swapProd_lt p n (i+1) M.cs (by omega)
        (fun k a b => hp k (by omega) (by omega)) a ha) hb]
      rfl
    · intro a ha; rw [f2 a ha, f1 a ha]

theorem swapRowsLoopRev_spec [InvolutiveStar K] (M : MView) (hW : M.WF) (p : Nat → Nat) (i1 : Nat) :
    ∀ (n : Nat) (m : Mem K), M.Live m → i1 + n ≤ M.cs → (∀ k, i1 ≤ k → k < i1 + n → p k < M.cs) →
      ∃ m', M.swapRowsLoopRev p i1 n m = some m' ∧ M.RowsBy (swapProd p n i1)⁻¹ m m' := by
  intro n
  induction n with
  | zero => intro m _ _ _; exact ⟨m, rfl, fun _ _ _ _ => by simp [swapProd], fun _ _ => rfl⟩
  | succ n ih =>
    intro m hl hin hp
    obtain ⟨m1, e1, h1, f1⟩ := swapRows_spec M hW m hl (i1+n) (p (i1+n)) (by omega)
      (hp _ (by omega) (by omega))
    have hl1 : M.Live m1 := hl.of_rearr (σ := Equiv.swap (i1+n) (p (i1+n)))
      (fun k hk => Equiv.swap_lt (by omega) (hp _ (by omega) (by omega)) hk) h1
    obtain ⟨m2, e2, h2, f2⟩ := ih m1 hl1 (by omega) (fun k a b => hp k (by omega) (by omega))
    refine ⟨m2, by simp [MView.swapRowsLoopRev, e1, e2], ?_, ?_⟩
    · intro a b ha hb
      rw [h2 a b ha hb, h1 _ b (swapProd_inv_lt p n i1 M.cs (by omega)
        (fun k a b => hp k (by omega) (by omega)) a ha) hb, swapProd_snoc, mul_inv_rev,
        Equiv.swap_inv, Equiv.Perm.mul_apply]
    · intro a ha; rw [f2 a ha, f1 a ha]

theorem MView.colRange_addr (M : MView) (j1 j2 i j : Int) :
    (M.colRange j1 j2).addr i j = M.addr i (j1 + j) := by
  simp only [MView.colRange, MView.addr]; ring

theorem MView.colRange_cref [Star K] (M : MView) (j1 j2 i j : Int) (m : Mem K) :
    (M.colRange j1 j2).cref m i j = M.cref m i (j1 + j) := by
  simp only [MView.cref, M.colRange_addr]; rfl

theorem MView.WF.colRange {M : MView} (h : M.WF) {j1 j2 : Nat} (h1 : j1 < j2) (h2 : j2 ≤ M.rs) :
    (M.colRange j1 j2).WF := by
  have hsz : (M.colRange j1 j2).rs = j2 - j1 := by simp [MView.colRange]
  refine ⟨?_, ?_, ?_⟩
  · intro i j i' j' hi hj hi' hj' e
    rw [hsz] at hj hj'
    rw [M.colRange_addr, M.colRange_addr] at e
    have := h.1 i (j1 + j) i' (j1 + j') hi (by omega) hi' (by omega) (by push_cast; exact e)
    omega
  · intro h0; omega
  · intro h0
    rcases h.2.2 h0 with h' | h'
    · omega
    · exact Or.inr h'

theorem MView.Live.colRange {M : MView} {m : Mem K} (h : M.Live m) {j1 j2 : Nat} (h2 : j2 ≤ M.rs) :
    (M.colRange j1 j2).Live m := by
  intro i j hi hj
  have hsz : (M.colRange j1 j2).rs = j2 - j1 := by simp [MView.colRange]
  rw [hsz] at hj
  rw [M.colRange_addr]
  exact_mod_cast h i (j1 + j) hi (by omega)

/-- An operation on the columns `[j1,j2)` only, in terms of the whole matrix. -/
theorem colRange_rowsBy [Star K] {M : MView} (hI : M.Inj) {σ : Equiv.Perm Nat} {m m' : Mem K}
    {j1 j2 : Nat} (h2 : j2 ≤ M.rs) (h : (M.colRange j1 j2).RowsBy σ m m') :
    (∀ i j : Nat, i < M.cs → j < M.rs →
      M.cref m' i j = if j1 ≤ j ∧ j < j2 then M.cref m (σ i : Nat) j else M.cref m i j) ∧
    M.Frame m m' := by
  have hsz : (M.colRange j1 j2).rs = j2 - j1 := by simp [MView.colRange]
  refine ⟨?_, ?_⟩
  · intro i j hi hj
    by_cases hin : j1 ≤ j ∧ j < j2
    · have := h.1 i (j - j1) hi (by rw [hsz]; omega)
      rw [M.colRange_cref, M.colRange_cref] at this
      have e : (j1 : Int) + ((j - j1 : Nat) : Int) = j := by omega
      rw [e] at this
      rw [if_pos hin, this]
    · rw [if_neg hin]
      apply MView.cref_of_eq
      apply h.2
      rintro ⟨i', j', hi', hj', e⟩
      rw [hsz] at hj'
      rw [M.colRange_addr] at e
      have := hI i j i' (j1 + j') hi hj hi' (by omega) (by push_cast; exact e)
      omega
  · intro a ha
    apply h.2
    rintro ⟨i', j', hi', hj', e⟩
    rw [hsz] at hj'
    rw [M.colRange_addr] at e
    exact ha ⟨i', j1 + j', hi', by omega, by push_cast; exact e⟩

/-- The block loop, for any block size that divides the blocked width. -/
theorem blocked_spec [InvolutiveStar K] (inner : MView → Mem K → Option (Mem K)) (M : MView)
    (σ : Equiv.Perm Nat) (hσ : ∀ i, i < M.cs → σ i < M.cs) (B Nx : Nat) (hB : 0 < B)
    (hdvd : B ∣ Nx) (hN : Nx ≤ M.rs) (hW : M.WF)
    (hin : ∀ (j1 j2 : Nat) (m : Mem K), j1 < j2 → j2 ≤ M.rs → (M.colRange j1 j2).Live m →
      ∃ m', inner (M.colRange j1 j2) m = some m' ∧ (M.colRange j1 j2).RowsBy σ m m')
    (m0 : Mem K) (hl : M.Live m0) :
    ∃ m', M.blocked inner B Nx m0 = some m' ∧ M.RowsBy σ m0 m' := by
  have live_of : ∀ (m : Mem K) (j : Nat), (∀ a b : Nat, a < M.cs → b < M.rs →
        M.cref m a b = if b < j then M.cref m0 (σ a : Nat) b else M.cref m0 a b) → M.Live m := by
    intro m j h a b ha hb
    have h1 := h a b ha hb
    have h2 : (M.cref m a b).isSome := by
      rw [h1]
      split
      · simpa [MView.cref, Mem.read] using hl (σ a) b (hσ a ha) hb
      · simpa [MView.cref, Mem.read] using hl a b ha hb
    simpa [MView.cref, Mem.read] using h2
  have step : ∀ (j1 j2 : Nat) (m : Mem K), j1 < j2 → j2 ≤ M.rs →
      (∀ a b : Nat, a < M.cs → b < M.rs →
        M.cref m a b = if b < j1 then M.cref m0 (σ a : Nat) b else M.cref m0 a b) → M.Frame m0 m →
      ∃ m', inner (M.colRange j1 j2) m = some m' ∧
        (∀ a b : Nat, a < M.cs → b < M.rs →
          M.cref m' a b = if b < j2 then M.cref m0 (σ a : Nat) b else M.cref m0 a b) ∧
        M.Frame m0 m' := by
    intro j1 j2 m h12 h2 h hf
    obtain ⟨m', e, r⟩ := hin j1 j2 m h12 h2 ((live_of m j1 h).colRange h2)
    obtain ⟨r1, r2⟩ := colRange_rowsBy hW.1 h2 r
    refine ⟨m', e, ?_, fun a ha => by rw [r2 a ha, hf a ha]⟩
    intro a b ha hb
    rw [r1 a b ha hb]
    by_cases c1 : j1 ≤ b ∧ b < j2
    · rw [if_pos c1, if_pos c1.2, h (σ a) b (hσ a ha) hb, if_neg (by omega)]
    · rw [if_neg c1, h a b ha hb]
      by_cases c2 : b < j1
      · rw [if_pos c2, if_pos (by omega)]
      · rw [if_neg c2, if_neg (by omega)]
  have loop : ∀ (fuel j : Nat) (m : Mem K), B ∣ j → j ≤ Nx → Nx ≤ j + fuel →
      (∀ a b : Nat, a < M.cs → b < M.rs →
        M.cref m a b = if b < j then M.cref m0 (σ a : Nat) b else M.cref m0 a b) → M.Frame m0 m →
      ∃ m', MView.blockLoop inner M B Nx fuel j m = some m' ∧
        (∀ a b : Nat, a < M.cs → b < M.rs →
          M.cref m' a b = if b < Nx then M.cref m0 (σ a : Nat) b else M.cref m0 a b) ∧
        M.Frame m0 m' := by
    intro fuel
    induction fuel with
    | zero =>
      intro j m _ hj hf h hfr
      have : j = Nx := by omega
      subst this
      exact ⟨m, by simp [MView.blockLoop], h, hfr⟩
    | succ fuel ih =>
      intro j m hd hj hf h hfr
      simp only [MView.blockLoop]
      by_cases hlt : j < Nx
      · rw [if_pos hlt]
        have hle : j + B ≤ Nx := by
          obtain ⟨c, rfl⟩ := hd
          obtain ⟨d, rfl⟩ := hdvd
          have : c < d := by
            by_contra hh
            have := Nat.mul_le_mul_left B (not_lt.mp hh)
            omega
          calc B * c + B = B * (c + 1) := by ring
            _ ≤ B * d := Nat.mul_le_mul_left _ this
        obtain ⟨m1, e1, h1, f1⟩ := step j (j + B) m (by omega) (by omega) h hfr
        obtain ⟨m', e2, h2, f2⟩ := ih (j + B) m1 (Dvd.dvd.add hd (dvd_refl B)) hle (by omega) h1 f1
        exact ⟨m', by simp only [e1, Option.bind_eq_bind, Option.bind_some, e2], h2, f2⟩
      · rw [if_neg hlt]
        have : j = Nx := by omega
        subst this
        exact ⟨m, rfl, h, hfr⟩
  unfold MView.blocked
  obtain ⟨m1, e1, h1, f1⟩ : ∃ m', (if Nx ≠ 0 then MView.blockLoop inner M B Nx Nx 0 m0 else some m0) = some m' ∧
      (∀ a b : Nat, a < M.cs → b < M.rs →
        M.cref m' a b = if b < Nx then M.cref m0 (σ a : Nat) b else M.cref m0 a b) ∧ M.Frame m0 m' := by
    by_cases h0 : Nx = 0
    · subst h0
      exact ⟨m0, by simp, by simp, fun _ _ => rfl⟩
    · rw [if_pos h0]
      exact loop Nx 0 m0 (dvd_zero B) (by omega) (by omega) (by simp) (fun _ _ => rfl)
  rw [e1, Option.bind_some]
  by_cases hx : Nx = M.rs
  · rw [if_neg (not_not.mpr hx)]
    refine ⟨m1, rfl, ?_, f1⟩
    intro a b ha hb
    rw [h1 a b ha hb, if_pos (by omega)]
  · rw [if_pos hx]
    obtain ⟨m', e2, h2, f2⟩ := step Nx M.rs m1 (by omega) le_rfl h1 f1
    refine ⟨m', e2, ?_, f2⟩
    intro a b ha hb
    rw [h2 a b ha hb, if_pos hb]

/-- **C19**.  `m.permuteRows(p,i1,i2)` with any positive block size is defined for every valid
interchange list, and row `i` of the result is row `swapProd p i` of the original, i.e. the
interchanges `(i1,p[i1]), (i1+1,p[i1+1]), ...` applied in order; nothing else changes. -/
theorem permuteRows_spec [InvolutiveStar K] (B : Nat) (hB : 0 < B) (M : MView) (hW : M.WF)
    (p : Nat → Nat) (i1 i2 : Nat) (m : Mem K) (hl : M.Live m) (h12 : i1 ≤ i2) (h2 : i2 ≤ M.cs)
    (hp : ∀ k, i1 ≤ k → k < i2 → p k < M.cs) :
    ∃ m', M.permuteRows B p i1 i2 m = some m' ∧
      (∀ i j : Nat, i < M.cs → j < M.rs →
        M.cref m' i j = M.cref m (swapProd p (i2 - i1) i1 i : Nat) j) ∧ M.Frame m m' :=
  blocked_spec _ M (swapProd p (i2 - i1) i1)
    (fun i hi => swapProd_lt p _ i1 M.cs (by omega) (fun k a b => hp k a (by omega)) i hi) B _ hB
    (Dvd.intro_left _ rfl) (Nat.div_mul_le_self _ _) hW
    (fun j1 j2 m h1 h2' hl => swapRowsLoop_spec _ (hW.colRange h1 h2') p (i2 - i1) i1 m hl
      (by simp only [MView.colRange]; omega) (fun k a b => hp k a (by omega))) m hl

/-- **C19**.  `m.reversePermuteRows(p,i1,i2)` applies the inverse row permutation. -/
theorem reversePermuteRows_spec [InvolutiveStar K] (B : Nat) (hB : 0 < B) (M : MView) (hW : M.WF)
    (p : Nat → Nat) (i1 i2 : Nat) (m : Mem K) (hl : M.Live m) (h12 : i1 ≤ i2) (h2 : i2 ≤ M.cs)
    (hp : ∀ k, i1 ≤ k → k < i2 → p k < M.cs) :
    ∃ m', M.reversePermuteRows B p i1 i2 m = some m' ∧
      (∀ i j : Nat, i < M.cs → j < M.rs →
        M.cref m' i j = M.cref m ((swapProd p (i2 - i1) i1)⁻¹ i : Nat) j) ∧ M.Frame m m' :=
  blocked_spec _ M (swapProd p (i2 - i1) i1)⁻¹
    (fun i hi => swapProd_inv_lt p _ i1 M.cs (by omega) (fun k a b => hp k a (by omega)) i hi) B _ hB
    (Dvd.intro_left _ rfl) (Nat.div_mul_le_self _ _) hW
    (fun j1 j2 m h1 h2' hl => swapRowsLoopRev_spec _ (hW.colRange h1 h2') p i1 (i2 - i1) m hl
      (by simp only [MView.colRange]; omega) (fun k a b => hp k a (by omega))) m hl

/-- **C19**.  `reversePermuteRows` undoes `permuteRows` exactly, even with different block sizes. -/
theorem permuteRows_reverse [InvolutiveStar K] (B B' : Nat) (hB : 0 < B) (hB' : 0 < B') (M : MView)
    (hW : M.WF) (p : Nat → Nat) (i1 i2 : Nat) (m : Mem K) (hl : M.Live m) (h12 : i1 ≤ i2)
    (h2 : i2 ≤ M.cs) (hp : ∀ k, i1 ≤ k → k < i2 → p k < M.cs) :
    (M.permuteRows B p i1 i2 m).bind (M.reversePermuteRows B' p i1 i2) = some m := by
  obtain ⟨m1, e1, h1, f1⟩ := permuteRows_spec B hB M hW p i1 i2 m hl h12 h2 hp
  have hσ : ∀ i, i < M.cs → swapProd p (i2 - i1) i1 i < M.cs := fun i hi =>
    swapProd_lt p _ i1 M.cs (by omega) (fun k a b => hp k a (by omega)) i hi
  obtain ⟨m2, e2, h3, f2⟩ := reversePermuteRows_spec B' hB' M hW p i1 i2 m1 (hl.of_rearr hσ h1) h12 h2 hp
  rw [e1, Option.bind_some, e2]
  congr 1
  apply M.mem_ext
  · intro i j hi hj
    rw [h3 i j hi hj, h1 _ j (swapProd_inv_lt p _ i1 M.cs (by omega)
      (fun k a b => hp k a (by omega)) i hi) hj, ← Equiv.Perm.mul_apply, mul_inv_cancel,
      Equiv.Perm.one_apply]
  · intro a ha; rw [f2 a ha, f1 a ha]

/-- **C19** for a build with an even `TMV_BLOCKSIZE`. -/
theorem permuteRowsMacro_even_spec [InvolutiveStar K] (c : Nat) (hc : 0 < c) (M : MView) (hW : M.WF)
    (p : Nat → Nat) (i1 i2 : Nat) (m : Mem K) (hl : M.Live m) (h12 : i1 ≤ i2) (h2 : i2 ≤ M.cs)
    (hp : ∀ k, i1 ≤ k → k < i2 → p k < M.cs) :
    ∃ m', M.permuteRowsMacro (2 * c) p i1 i2 m = some m' ∧
      (∀ i j : Nat, i < M.cs → j < M.rs →
        M.cref m' i j = M.cref m (swapProd p (i2 - i1) i1 i : Nat) j) ∧ M.Frame m m' := by
  have e1 : 2 * c / 2 = c := by omega
  have e2 : M.rs / (2 * c) / 2 * (2 * c) / 2 = M.rs / (2 * c) / 2 * c := by
    rw [show M.rs / (2 * c) / 2 * (2 * c) = 2 * (M.rs / (2 * c) / 2 * c) by ring]
    omega
  unfold MView.permuteRowsMacro
  rw [e1, e2]
  refine blocked_spec _ M (swapProd p (i2 - i1) i1)
    (fun i hi => swapProd_lt p _ i1 M.cs (by omega) (fun k a b => hp k a (by omega)) i hi) c _ hc
    (Dvd.intro_left _ rfl) ?_ hW
    (fun j1 j2 m h1 h2' hl => swapRowsLoop_spec _ (hW.colRange h1 h2') p (i2 - i1) i1 m hl
      (by simp only [MView.colRange]; omega) (fun k a b => hp k a (by omega))) m hl
  calc M.rs / (2 * c) / 2 * c ≤ M.rs / (2 * c) * c := Nat.mul_le_mul_right _ (Nat.div_le_self _ _)
    _ ≤ M.rs / (2 * c) * (2 * c) := Nat.mul_le_mul_left _ (by omega)
    _ ≤ M.rs := Nat.div_mul_le_self _ _

/-- **C19 violated** for a build with an odd `TMV_BLOCKSIZE` (5): swapping rows 0 and 1 of a 2x20
matrix leaves column 5 unswapped (it is swapped twice), because the macro is not parenthesised. -/
theorem permuteRowsMacro_odd_violated :
    ∃ (m : Mem GaussianInt) (M : MView), M.cs = 2 ∧ M.rs = 20 ∧ ∃ m',
      M.permuteRowsMacro 5 (fun _ => 1) 0 1 m = some m' ∧
      m' (M.addr 0 4) = m (M.addr 1 4) ∧ m' (M.addr 0 5) ≠ m (M.addr 1 5) := by
  refine ⟨fun a => if 0 ≤ a ∧ a < 40 then some ⟨a, 0⟩ else none, MView.ofStor 0 2 20 false, rfl, rfl,
    ?_⟩
  have : ((MView.ofStor 0 2 20 false).permuteRowsMacro 5 (fun _ => 1) 0 1
      (fun a => if 0 ≤ a ∧ a < 40 then some (⟨a, 0⟩ : GaussianInt) else none)).map
      (fun m' => (m' 8, m' 10)) = some (some ⟨9, 0⟩, some ⟨10, 0⟩) := by
    decide +kernel
  rw [Option.map_eq_some_iff] at this
  obtain ⟨m', h1, h2⟩ := this
  rw [Prod.mk.injEq] at h2
  refine ⟨m', h1, ?_, ?_⟩
  · have : (MView.ofStor 0 2 20 false).addr 0 4 = 8 := by decide
    rw [this, h2.1]
    decide
  · have : (MView.ofStor 0 2 20 false).addr 0 5 = 10 := by decide
    rw [this, h2.2]
    decide

/-- Non-vacuity of C19: swapping rows of a 3x3 matrix with block size 2. -/
example : ((MView.ofStor 0 3 3 true).permuteRows 2 (fun i => if i = 0 then 2 else 1) 0 2
    (fun a => if 0 ≤ a ∧ a < 9 then some (⟨a, 0⟩ : GaussianInt) else none)).map
      (fun m' => (m' 0, m' 1, m' 2, m' 3, m' 6)) =
    some (some ⟨6, 0⟩, some ⟨7, 0⟩, some ⟨8, 0⟩, some ⟨3, 0⟩, some ⟨0, 0⟩) := by decide +kernel

end TMV
