import Verif.Props.MatOps

/-! Matrix assignment, Swap and comparison (properties C54, C55). -/
namespace TMV
variable {K : Type _}

/-- Loop of vector copies, stored values. -/
theorem loopV2_copied (f g : Nat → VView) (op : VView → VView → Mem K → Option (Mem K)) :
    ∀ (n i : Nat) (m : Mem K),
      (∀ k, i ≤ k → k < i + n → ∀ m : Mem K, (f k).Live m → (g k).Live m →
        ∃ m', op (f k) (g k) m = some m' ∧ Copied (f k) (g k) m m') →
      (∀ k, i ≤ k → k < i + n → (f k).size = (g k).size) →
      (∀ k k', i ≤ k → k < i + n → i ≤ k' → k' < i + n → k ≠ k' → (g k).Disjoint (g k')) →
      (∀ k k', i ≤ k → k < i + n → i ≤ k' → k' < i + n → (f k).Disjoint (g k')) →
      (∀ k, i ≤ k → k < i + n → (f k).Live m) → (∀ k, i ≤ k → k < i + n → (g k).Live m) →
      ∃ m', loopV2 f g op n i m = some m' ∧
        (∀ k, i ≤ k → k < i + n → ∀ j : Nat, j < (g k).size → m' ((g k).addr j) = m ((f k).addr j)) ∧
        (∀ a, (∀ k, i ≤ k → k < i + n → ¬ (g k).Covers a) → m' a = m a) := by
  intro n
  induction n with
  | zero =>
    intro i m _ _ _ _ _ _
    exact ⟨m, rfl, fun k h1 h2 => by omega, fun _ _ => rfl⟩
  | succ n ih =>
    intro i m hop hsz hgg hfg hlf hlg
    obtain ⟨m1, e1, c1, f1⟩ := hop i le_rfl (by omega) m (hlf i le_rfl (by omega))
      (hlg i le_rfl (by omega))
    have keepf : ∀ k, i + 1 ≤ k → k < i + 1 + n → ∀ j : Nat, j < (f k).size →
        m1 ((f k).addr j) = m ((f k).addr j) := fun k h1 h2 j hj =>
      f1 _ (hfg k i (by omega) (by omega) le_rfl (by omega) _ ⟨j, hj, rfl⟩)
    have keepg : ∀ k, i + 1 ≤ k → k < i + 1 + n → ∀ j : Nat, j < (g k).size →
        m1 ((g k).addr j) = m ((g k).addr j) := fun k h1 h2 j hj =>
      f1 _ (hgg k i (by omega) (by omega) le_rfl (by omega) (by omega) _ ⟨j, hj, rfl⟩)
    obtain ⟨m', e2, c2, f2⟩ := ih (i+1) m1
      (fun k h1 h2 => hop k (by omega) (by omega))
      (fun k h1 h2 => hsz k (by omega) (by omega))
      (fun k k' h1 h2 h3 h4 => hgg k k' (by omega) (by omega) (by omega) (by omega))
      (fun k k' h1 h2 h3 h4 => hfg k k' (by omega) (by omega) (by omega) (by omega))
      (fun k h1 h2 j hj => by rw [keepf k h1 h2 j hj]; exact hlf k (by omega) (by omega) j hj)
      (fun k h1 h2 j hj => by rw [keepg k h1 h2 j hj]; exact hlg k (by omega) (by omega) j hj)
    refine ⟨m', by simp [loopV2, e1, e2], ?_, ?_⟩
    · intro k h1 h2 j hj
      by_cases hk : k = i
      · subst hk
        rw [← c1 j hj]
        apply f2
        intro k' h3 h4
        exact hgg k k' le_rfl h2 (by omega) (by omega) (by omega) _ ⟨j, hj, rfl⟩
      · rw [c2 k (by omega) (by omega) j hj]
        exact keepf k (by omega) (by omega) j (by rw [hsz k h1 h2]; exact hj)
    · intro a ha
      rw [f2 a (fun k h1 h2 => ha k (by omega) (by omega)), f1 a (ha i le_rfl (by omega))]

theorem Copied.of_reverse {v w : VView} {m m' : Mem K} (hn : v.size = w.size)
    (h : Copied v.reverse w.reverse m m') : Copied v w m m' := by
  have ra : ∀ (u : VView) (i : Nat), i < u.size →
      u.addr i = u.reverse.addr ((u.size - 1 - i : Nat) : Int) := by
    intro u i hi
    rw [u.reverse_addr _ (by omega)]; congr 1; omega
  refine ⟨?_, ?_⟩
  · intro i hi
    rw [ra w i hi, ra v i (by omega)]
    have := h.1 (w.size - 1 - i) (by simp [VView.reverse]; omega)
    rw [this, hn]
  · intro a ha
    exact h.2 a (by rwa [w.reverse_covers])

/-- Stored values of `A` were copied to `B`; nothing else changed. -/
def MView.Copied (A B : MView) (m m' : Mem K) : Prop :=
  (∀ i j : Nat, i < B.cs → j < B.rs → m' (B.addr i j) = m (A.addr i j)) ∧ B.Frame m m'

/-- Any column-wise copy. -/
theorem cols_copied (A B : MView) (op : VView → VView → Mem K → Option (Mem K))
    (hcs : A.cs = B.cs) (hrs : A.rs = B.rs) (hI : B.Inj) (hd : A.Disjoint B) (m : Mem K)
    (hlA : A.Live m) (hlB : B.Live m)
    (hop : ∀ k : Nat, k < B.rs → ∀ m : Mem K, (A.col k).Live m → (B.col k).Live m →
      ∃ m', op (A.col k) (B.col k) m = some m' ∧ Copied (A.col k) (B.col k) m m') :
    ∃ m', loopV2 (fun j => A.col j) (fun j => B.col j) op B.rs 0 m = some m' ∧
      A.Copied B m m' := by
  obtain ⟨m', e, c, fr⟩ := loopV2_copied (fun j => A.col j) (fun j => B.col j) op B.rs 0 m
    (fun k _ h => hop k (by omega))
    (fun k _ _ => hcs)
    (fun k k' _ h _ h' hne => MView.col_disjoint hI (by omega) (by omega) hne)
    (by
      rintro k k' _ h _ h' a ⟨i, hi, e⟩ ⟨i', hi', e'⟩
      rw [A.col_addr] at e
      rw [B.col_addr] at e'
      exact hd a ⟨i, k, hi, by omega, e⟩ ⟨i', k', hi', by omega, e'⟩)
    (fun k _ h => hlA.col (by omega)) (fun k _ h => hlB.col (by omega))
  refine ⟨m', e, ?_, ?_⟩
  · intro i j hi hj
    have := c j (by omega) (by omega) i hi
    rwa [B.col_addr, A.col_addr] at this
  · intro a ha
    exact fr a (fun k _ h => fun ⟨i, hi, e⟩ => ha ⟨i, k, hi, by omega, by rw [e, B.col_addr]⟩)

theorem MView.Copied.of_transpose {A B : MView} {m m' : Mem K}
    (h : A.transpose.Copied B.transpose m m') : A.Copied B m m' := by
  refine ⟨?_, ?_⟩
  · intro i j hi hj
    have := h.1 j i hj hi
    rwa [B.transpose_addr, A.transpose_addr] at this
  · intro a ha
    exact h.2 a (by rwa [B.transpose_covers])

theorem MView.Disjoint.transpose {A B : MView} (h : A.Disjoint B) :
    A.transpose.Disjoint B.transpose := by
  intro a h1 h2
  rw [A.transpose_covers] at h1
  rw [B.transpose_covers] at h2
  exact h a h1 h2

theorem MView.row_eq (M : MView) : (fun i : Nat => M.row i) = fun i : Nat => M.transpose.col i := rfl

theorem copyColsCM_eq (A B : MView) :
    ∀ (n k : Nat) (m : Mem K),
      MView.copyColsCM n B.cs (A.ptr + k * A.sj) (B.ptr + k * B.sj) A.sj B.sj m =
      loopV2 (fun j => A.col j) (fun j => B.col j)
        (fun v w m => loopCopy 1 1 w.size v.ptr w.ptr m) n k m := by
  intro n
  induction n with
  | zero => intro k m; rfl
  | succ n ih =>
    intro k m
    simp only [MView.copyColsCM, loopV2]
    congr 1
    funext m1
    rw [← ih (k+1) m1]
    congr 1 <;> (push_cast; ring)

theorem nonLapCopy_spec (A B : MView) (hcs : A.cs = B.cs) (hrs : A.rs = B.rs) (hW : B.WF)
    (hd : A.Disjoint B) (m : Mem K) (hlA : A.Live m) (hlB : B.Live m)
    (hcA : A.conj = false) (hcB : B.conj = false) :
    ∃ m', A.nonLapCopy B m = some m' ∧ A.Copied B m m' := by
  have colDis : ∀ (A B : MView), A.Disjoint B → ∀ k : Nat, k < A.rs → k < B.rs →
      (A.col k).Disjoint (B.col k) := by
    rintro A B hd k h h' a ⟨i, hi, e⟩ ⟨i', hi', e'⟩
    rw [A.col_addr] at e
    rw [B.col_addr] at e'
    exact hd a ⟨i, k, hi, h, e⟩ ⟨i', k, hi', h', e'⟩
  have plain : ∀ (A B : MView), A.cs = B.cs → A.rs = B.rs → B.WF → A.Disjoint B → A.Live m →
      B.Live m → ∃ m', loopV2 (fun j => A.col j) (fun j => B.col j) VView.doCopy B.rs 0 m = some m' ∧
      A.Copied B m m' := by
    intro A B hcs hrs hW hd hlA hlB
    exact cols_copied A B _ hcs hrs hW.1 hd m hlA hlB (fun k hk m h1 h2 =>
      doCopy_spec _ _ m hcs (hW.col hk) h1 h2 (NoClash.of_disjoint (colDis A B hd k (by omega) hk)))
  have rev : ∀ (A B : MView), A.cs = B.cs → A.rs = B.rs → B.WF → A.Disjoint B → A.Live m →
      B.Live m → ∃ m', loopV2 (fun j => (A.col j).reverse) (fun j => (B.col j).reverse)
        VView.doCopy B.rs 0 m = some m' ∧ A.Copied B m m' := by
    intro A B hcs hrs hW hd hlA hlB
    have e : ∀ (n k : Nat) (m : Mem K), loopV2 (fun j => (A.col j).reverse) (fun j => (B.col j).reverse)
        VView.doCopy n k m = loopV2 (fun j => A.col j) (fun j => B.col j)
        (fun v w => VView.doCopy v.reverse w.reverse) n k m := by
      intro n
      induction n with
      | zero => intro k m; rfl
      | succ n ih => intro k m; simp only [loopV2, ih]
    rw [e]
    refine cols_copied A B _ hcs hrs hW.1 hd m hlA hlB (fun k hk m h1 h2 => ?_)
    obtain ⟨m', a, b⟩ := doCopy_spec (A.col k).reverse (B.col k).reverse m hcs (hW.col hk).reverse
      h1.reverse h2.reverse (NoClash.of_disjoint (colDis A B hd k (by omega) hk).reverse)
    exact ⟨m', a, b.of_reverse hcs⟩
  unfold MView.nonLapCopy
  split
  · rename_i hcm
    have e := copyColsCM_eq (K := K) A B B.rs 0 m
    simp only [Nat.cast_zero, zero_mul, add_zero] at e
    rw [e]
    refine cols_copied A B _ hcs hrs hW.1 hd m hlA hlB (fun k hk m h1 h2 => ?_)
    simp only [MView.iscm, decide_eq_true_eq] at hcm
    have dis := colDis A B hd k (by omega) hk
    obtain ⟨m', a, b, c⟩ := loopCopy_spec (A.col k).step (B.col k).step (B.col k).size (A.col k).ptr
      (B.col k).ptr m (hW.col hk).inj (fun i hi => h1 i (by simpa only [MView.col, hcs] using hi)) h2
      (by intro i j hi hj e; exact absurd ⟨j, hj, e⟩ (dis _ ⟨i, by simpa only [MView.col, hcs] using hi, rfl⟩))
    refine ⟨m', ?_, b, fun x hx => c x (fun i hi e => hx ⟨i, hi, e⟩)⟩
    rw [← a]
    simp only [MView.col, hcm.1, hcm.2]
  · split
    · split
      · exact rev A B hcs hrs hW hd hlA hlB
      · exact plain A B hcs hrs hW hd hlA hlB
    · split
      · obtain ⟨m', a, b⟩ := rev A.transpose B.transpose hrs hcs hW.transpose hd.transpose
          hlA.transpose hlB.transpose
        exact ⟨m', a, b.of_transpose⟩
      · obtain ⟨m', a, b⟩ := plain A.transpose B.transpose hrs hcs hW.transpose hd.transpose
          hlA.transpose hlB.transpose
        exact ⟨m', a, b.of_transpose⟩

theorem nonconjCopy_spec (A B : MView) (hcs : A.cs = B.cs) (hrs : A.rs = B.rs) (hW : B.WF)
    (hd : A.Disjoint B) (m : Mem K) (hlA : A.Live m) (hlB : B.Live m)
    (hcA : A.conj = false) (hcB : B.conj = false) :
    ∃ m', A.nonconjCopy B m = some m' ∧ A.Copied B m m' := by
  unfold MView.nonconjCopy
  split
  · obtain ⟨m', a, b⟩ := nonLapCopy_spec A.transpose B.transpose hrs hcs hW.transpose hd.transpose m
      hlA.transpose hlB.transpose hcA hcB
    exact ⟨m', a, b.of_transpose⟩
  · exact nonLapCopy_spec A B hcs hrs hW hd m hlA hlB hcA hcB

theorem linIdx_congr {A B : MView} (hcs : A.cs = B.cs) (hrs : A.rs = B.rs) (hsi : A.si = B.si)
    (hsj : A.sj = B.sj) (i j : Nat) : A.linIdx i j = B.linIdx i j := by
  simp only [MView.linIdx, hcs, hrs, hsi, hsj]

theorem linearView_covers {M : MView} (hM : M.LSOK) (hc : M.canLinearize = true) (a : Int) :
    M.linearView.Covers a ↔ M.Covers a := by
  obtain ⟨_, h2, _, h4⟩ := linearView_spec (K := GaussianInt) M hM hc
  constructor
  · rintro ⟨k, hk, e⟩
    obtain ⟨i, j, hi, hj, e'⟩ := h4 k hk
    obtain ⟨_, b, _⟩ := h2 i j hi hj
    exact ⟨i, j, hi, hj, by rw [e, ← e', b]⟩
  · rintro ⟨i, j, hi, hj, e⟩
    obtain ⟨a, b, _⟩ := h2 i j hi hj
    exact ⟨_, a, by rw [e, b]⟩

/-- `m2 = m1` for views without common elements. -/
theorem copyDiff_spec [InvolutiveStar K] (A B : MView) (hcs : A.cs = B.cs) (hrs : A.rs = B.rs)
    (hW : B.WF) (hLA : A.LSOK) (hLB : B.LSOK) (hd : A.Disjoint B) (m : Mem K) (hlA : A.Live m)
    (hlB : B.Live m) :
    ∃ m', A.copyDiff B m = some m' ∧
      (∀ i j : Nat, i < B.cs → j < B.rs → B.cref m' i j = A.cref m i j) ∧ B.Frame m m' := by
  have liveB : ∀ m1 : Mem K, A.Copied B m m1 → B.Live m1 := by
    intro m1 h i j hi hj
    rw [h.1 i j hi hj]; exact hlA i j (by omega) (by omega)
  unfold MView.copyDiff
  split
  · rename_i h
    obtain ⟨ca, cb, hsi, hsj⟩ := h
    obtain ⟨sa, ia, _, _⟩ := linearView_spec (K := K) A hLA ca
    obtain ⟨sb, ib, _, _⟩ := linearView_spec (K := K) B hLB cb
    obtain ⟨m', e, c, fr⟩ := copy_spec A.linearView B.linearView m (by rw [sa, sb, hcs, hrs])
      (linearView_wf B) (linearView_live (K := K) hLA ca hlA) (linearView_live (K := K) hLB cb hlB)
      (Or.inl (by
        intro a h1 h2
        rw [linearView_covers hLA ca] at h1
        rw [linearView_covers hLB cb] at h2
        exact hd a h1 h2))
    refine ⟨m', e, ?_, ?_⟩
    · intro i j hi hj
      obtain ⟨b1, _, b3⟩ := ib i j hi hj
      obtain ⟨_, _, a3⟩ := ia i j (by omega) (by omega)
      rw [← b3 m', ← a3 m, c _ b1, linIdx_congr hcs hrs hsi hsj]
    · intro a ha
      exact fr a (by rwa [linearView_covers hLB cb])
  · have dc : ∀ A' B' : MView, A'.ptr = A.ptr → A'.cs = A.cs → A'.rs = A.rs → A'.si = A.si →
        A'.sj = A.sj → B'.ptr = B.ptr → B'.cs = B.cs → B'.rs = B.rs → B'.si = B.si →
        B'.sj = B.sj → A'.conj = false → B'.conj = false →
        ∃ m', A'.nonconjCopy B' m = some m' ∧ A.Copied B m m' := by
      intro A' B' a1 a2 a3 a4 a5 b1 b2 b3 b4 b5 ca cb
      have aa : ∀ i j : Int, A'.addr i j = A.addr i j := by
        intro i j; simp only [MView.addr, a1, a4, a5]
      have ba : ∀ i j : Int, B'.addr i j = B.addr i j := by
        intro i j; simp only [MView.addr, b1, b4, b5]
      have bc : ∀ a, B'.Covers a ↔ B.Covers a := by
        intro a; simp only [MView.Covers, ba, b2, b3]
      obtain ⟨m', e, c⟩ := nonconjCopy_spec A' B' (by omega) (by omega)
        ⟨by
          intro i j i' j' hi hj hi' hj' e
          rw [ba, ba] at e
          exact hW.1 i j i' j' (by omega) (by omega) (by omega) (by omega) e,
         by rw [b2, b3, b5]; exact hW.2.1, by rw [b2, b3, b4]; exact hW.2.2⟩
        (by
          intro a h1 h2
          rw [bc] at h2
          refine hd a ?_ h2
          obtain ⟨i, j, hi, hj, e⟩ := h1
          exact ⟨i, j, by omega, by omega, by rw [e, aa]⟩) m
        (by intro i j hi hj; rw [aa]; exact hlA i j (by omega) (by omega))
        (by intro i j hi hj; rw [ba]; exact hlB i j (by omega) (by omega)) ca cb
      refine ⟨m', e, ?_, ?_⟩
      · intro i j hi hj
        have := c.1 i j (by omega) (by omega)
        rwa [ba, aa] at this
      · intro a ha; exact c.2 a (by rwa [bc])
    have fin : ∀ m' : Mem K, A.conj = B.conj → A.Copied B m m' →
        (∀ i j : Nat, i < B.cs → j < B.rs → B.cref m' i j = A.cref m i j) ∧ B.Frame m m' := by
      intro m' hc h
      refine ⟨?_, h.2⟩
      intro i j hi hj
      simp only [MView.cref, Mem.read, h.1 i j hi hj, hc]
    have fin2 : ∀ m1 : Mem K, A.conj = !B.conj → A.Copied B m m1 →
        ∃ m', B.conjugateSelf m1 = some m' ∧
        (∀ i j : Nat, i < B.cs → j < B.rs → B.cref m' i j = A.cref m i j) ∧ B.Frame m m' := by
      intro m1 hc h
      obtain ⟨m', e, c, fr⟩ := mat_conjugateSelf_spec B hW hLB m1 (liveB m1 h)
      refine ⟨m', e, ?_, fun a ha => by rw [fr a ha, h.2 a ha]⟩
      intro i j hi hj
      rw [c i j hi hj]
      simp only [MView.cref, Mem.read, h.1 i j hi hj, hc, Option.map_map]
      congr 1
      funext x
      cases B.conj <;> simp [cj]
    cases ca : A.conj <;> cases cb : B.conj
    · obtain ⟨m', e, c⟩ := dc A B rfl rfl rfl rfl rfl rfl rfl rfl rfl rfl ca cb
      exact ⟨m', by simpa using e, fin m' (by rw [ca, cb]) c⟩
    · obtain ⟨m1, e, c⟩ := dc A B.conjugate rfl rfl rfl rfl rfl rfl rfl rfl rfl rfl ca
        (by simp [MView.conjugate, cb])
      obtain ⟨m', e', r⟩ := fin2 m1 (by rw [ca, cb]; rfl) c
      exact ⟨m', by simp [e, e'], r⟩
    · obtain ⟨m1, e, c⟩ := dc A.conjugate B rfl rfl rfl rfl rfl rfl rfl rfl rfl rfl
        (by simp [MView.conjugate, ca]) cb
      obtain ⟨m', e', r⟩ := fin2 m1 (by rw [ca, cb]; rfl) c
      exact ⟨m', by simp [e, e'], r⟩
    · obtain ⟨m', e, c⟩ := dc A.conjugate B.conjugate rfl rfl rfl rfl rfl rfl rfl rfl rfl rfl
        (by simp [MView.conjugate, ca]) (by simp [MView.conjugate, cb])
      exact ⟨m', by simpa using e, fin m' (by rw [ca, cb]) c⟩

theorem canLinearize_ofStor (p : Int) (cs rs : Nat) (rm : Bool) (h1 : 0 < cs) (h2 : 0 < rs) :
    (MView.ofStor p cs rs rm).canLinearize = true := by
  rw [MView.canLinearize, resolve_ofStor, decide_eq_true_eq]
  simp only [MView.ofStor]
  positivity

theorem ofStor_covers (p : Int) (cs rs : Nat) (rm : Bool) (h1 : 0 < cs) (h2 : 0 < rs) (a : Int) :
    (MView.ofStor p cs rs rm).Covers a ↔ p ≤ a ∧ a < p + (cs * rs : Nat) := by
  rw [← linearView_covers (lsok_ofStor p cs rs rm) (canLinearize_ofStor p cs rs rm h1 h2)]
  obtain ⟨hs, _⟩ := linearView_spec (K := GaussianInt) _ (lsok_ofStor p cs rs rm)
    (canLinearize_ofStor p cs rs rm h1 h2)
  have hs' : (MView.ofStor p cs rs rm).linearView.size = cs * rs := hs
  constructor
  · rintro ⟨k, hk, e⟩
    rw [hs'] at hk
    have e' : a = p + k := by rw [e]; simp [VView.addr, MView.linearView, MView.ofStor, MView.resolve]
    omega
  · rintro ⟨ha, hb⟩
    refine ⟨(a - p).toNat, by rw [hs']; omega, ?_⟩
    have e' : ∀ k : Int, (MView.ofStor p cs rs rm).linearView.addr k = p + k := by
      intro k; simp [VView.addr, MView.linearView, MView.ofStor]
    rw [e']; omega

theorem ofStor_wf (p : Int) (cs rs : Nat) (rm : Bool) (h1 : 0 < cs) (h2 : 0 < rs) :
    (MView.ofStor p cs rs rm).WF := by
  obtain ⟨_, h, hi, _⟩ := linearView_spec (K := GaussianInt) _ (lsok_ofStor p cs rs rm)
    (canLinearize_ofStor p cs rs rm h1 h2)
  refine ⟨?_, fun h => ?_, fun h => ?_⟩
  · intro i j i' j' a b c d e
    apply hi i j i' j' a b c d
    have e1 := (h i j a b).2.1
    have e2 := (h i' j' c d).2.1
    rw [e, ← e2] at e1
    simp only [VView.addr, MView.linearView, mul_one] at e1
    omega
  · exfalso; simp only [MView.ofStor] at h; omega
  · exfalso; simp only [MView.ofStor] at h; omega

/-- **C54**.  Matrix assignment `m2 = m1` (equal sizes) makes every `m2(i,j)` equal the old
`m1(i,j)` and changes nothing else, for all storage orders, steps and conjugation flags, when the
views have no common element **or** when they start at the same element (`m = m.transpose()`,
`m = m.conjugate()`, `m.subMatrix(0,..) = m.transpose().subMatrix(0,..)`, self-assignment).
`base` is the address of the temporary the library allocates in the last case: any unused block. -/
theorem mat_copy_spec [InvolutiveStar K] (base : Int) (z : K) (A B : MView) (hcs : A.cs = B.cs)
    (hrs : A.rs = B.rs) (hW : B.WF) (hLA : A.LSOK) (hLB : B.LSOK) (m : Mem K) (hlA : A.Live m)
    (hlB : B.Live m) (hd : A.Disjoint B ∨ A.ptr = B.ptr)
    (hfresh : ∀ a, base ≤ a → a < base + (A.cs * A.rs : Nat) → m a = none) :
    ∃ m', A.copy base z B m = some m' ∧
      (∀ i j : Nat, i < B.cs → j < B.rs → B.cref m' i j = A.cref m i j) ∧ B.Frame m m' := by
  unfold MView.copy
  split
  · rename_i hpos
    by_cases hp : A.ptr = B.ptr
    · rw [if_pos hp]
      split
      · rename_i hs
        simp only [MView.isSameAs, decide_eq_true_eq] at hs
        refine ⟨m, rfl, ?_, fun _ _ => rfl⟩
        intro i j _ _
        simp only [MView.cref, MView.addr, hs.1, hs.2.2.2.1, hs.2.2.2.2.1, hs.2.2.2.2.2]
      split
      · rename_i _ hs
        have hs := of_decide_eq_true hs
        obtain ⟨h1, h2, h3, h4, h5, h6⟩ := hs
        simp only [MView.transpose] at h1 h2 h3 h4 h5 h6
        obtain ⟨m', e, c, fr⟩ := transposeSelf_spec B hW.1 (by omega) m hlB
        refine ⟨m', e, ?_, fr⟩
        intro i j hi hj
        rw [c i j hi hj]
        have ea : B.addr j i = A.addr i j := by
          simp only [MView.addr, h1, ← h4, ← h5]; ring
        simp only [MView.cref, ea, h6]
      · set T := MView.ofStor base A.cs A.rs A.isrm with hT
        set m0 := MView.alloc base (A.cs * A.rs) z m with hm0
        have hA1 : 0 < A.cs := by omega
        have hA2 : 0 < A.rs := by omega
        have tc := ofStor_covers base A.cs A.rs A.isrm hA1 hA2
        have out : ∀ a, ¬ T.Covers a → m0 a = m a := by
          intro a ha
          rw [hT, tc] at ha
          simp only [hm0, MView.alloc]
          rw [if_neg ha]
        have liveOut : ∀ a, (m a).isSome → ¬ T.Covers a := by
          intro a ha h
          rw [hT, tc] at h
          rw [hfresh a h.1 h.2] at ha
          simp at ha
        have hlA0 : A.Live m0 := fun i j hi hj => by
          rw [out _ (liveOut _ (hlA i j hi hj))]; exact hlA i j hi hj
        have hlT0 : T.Live m0 := fun i j hi hj => by
          have : T.Covers (T.addr i j) := ⟨i, j, hi, hj, rfl⟩
          rw [hT, tc] at this
          simp only [hm0, MView.alloc]
          rw [if_pos this]; rfl
        obtain ⟨m1, e1, c1, f1⟩ := copyDiff_spec A T rfl rfl (ofStor_wf base A.cs A.rs A.isrm hA1 hA2)
          hLA (lsok_ofStor _ _ _ _) (by
            rintro a ⟨i, j, hi, hj, rfl⟩
            exact liveOut _ (hlA i j hi hj)) m0 hlA0 hlT0
        have hlB1 : B.Live m1 := fun i j hi hj => by
          rw [f1 _ (liveOut _ (hlB i j hi hj)), out _ (liveOut _ (hlB i j hi hj))]
          exact hlB i j hi hj
        have hlT1 : T.Live m1 := fun i j hi hj => by
          have h1 := c1 i j hi hj
          have h2 : (T.cref m1 i j).isSome := by
            rw [h1]; simpa [MView.cref, Mem.read] using hlA0 i j hi hj
          simpa [MView.cref, Mem.read] using h2
        have dTB : T.Disjoint B := by
          rintro a h1 ⟨i, j, hi, hj, rfl⟩
          exact liveOut _ (hlB i j hi hj) h1
        obtain ⟨m2, e2, c2, f2⟩ := copyDiff_spec T B hcs hrs hW (lsok_ofStor _ _ _ _) hLB dTB m1
          hlT1 hlB1
        refine ⟨MView.free base (A.cs * A.rs) m2, by simp [e1, e2], ?_, ?_⟩
        · intro i j hi hj
          have nb := liveOut _ (hlB i j hi hj)
          rw [hT, tc] at nb
          have : B.cref (MView.free base (A.cs * A.rs) m2) i j = B.cref m2 i j := by
            apply MView.cref_of_eq
            simp only [MView.free]
            rw [if_neg nb]
          rw [this, c2 i j hi hj, c1 i j (by simp only [hT, MView.ofStor]; omega)
            (by simp only [hT, MView.ofStor]; omega)]
          apply MView.cref_of_eq
          exact out _ (liveOut _ (hlA i j (by omega) (by omega)))
        · intro a ha
          simp only [MView.free]
          by_cases hin : base ≤ a ∧ a < base + (A.cs * A.rs : Nat)
          · rw [if_pos hin, hfresh a hin.1 hin.2]
          · rw [if_neg hin, f2 a ha]
            have nt : ¬ T.Covers a := by rw [hT, tc]; exact hin
            rw [f1 a nt, out a nt]
    · rw [if_neg hp]
      exact copyDiff_spec A B hcs hrs hW hLA hLB (hd.resolve_right hp) m hlA hlB
  · rename_i h0
    refine ⟨m, rfl, ?_, fun _ _ => rfl⟩
    intro i j hi hj; omega

/-- Non-vacuity of `mat_copy_spec` on a detected alias: `m = m.transpose()` for the leading 2×2 block
of a 2×3 row-major matrix (not the whole matrix, so a temporary is needed at address 100). -/
example :
    let B : MView := (MView.ofStor 0 2 3 true).subMatrix4 0 2 0 2
    let A : MView := (MView.ofStor 0 2 3 true).conjugate.subMatrix4 0 2 0 2
    let mem : Mem GaussianInt := fun a => if 0 ≤ a ∧ a < 6 then some ⟨a, 10 + a⟩ else none
    ((A.transpose.copy 100 0 B mem).map fun m' =>
      [0, 1, 2, 3, 4, 5, 100].map m') =
      some [some ⟨0, -10⟩, some ⟨3, -13⟩, some ⟨2, 12⟩, some ⟨1, -11⟩, some ⟨4, -14⟩, some ⟨5, 15⟩,
        none] := by
  decide +kernel

end TMV
