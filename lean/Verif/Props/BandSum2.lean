import Verif.Props.BandSum

/-! Property C123: `A *= x`, `B = A`, `B = x*A`, `B += x*A`, `C = x*A + y*B` for band matrices. -/
namespace TMV
variable {K : Type _} [CommRing K] [StarRing K] [DecidableEq K]

omit [DecidableEq K] in
/-- `band_each_spec`, and nothing is freed. -/
theorem band_each_keep (op : VView → Mem K → Option (Mem K)) (g : K → K) (M : BView)
    (hW : M.WF) (hM : M.LSOK) (m : Mem K) (hg : M.Good m)
    (hop : ∀ v, M.Piece v → ∀ m, v.Live m → ∃ m', op v m = some m' ∧ v.Changed g m m') :
    ∃ m', M.each op m = some m' ∧ M.Changed g m m' ∧ (∀ a, ¬ M.Footprint a → m' a = m a) ∧ ∀ a, (m a).isSome → (m' a).isSome := by
  obtain ⟨m', e, c, f⟩ := band_each_spec op g M hW hM m hg.live hg.lin hop
  refine ⟨m', e, c, f, fun a ha => ?_⟩
  by_cases hf : M.Footprint a
  swap
  · rw [f a hf]; exact ha
  rcases hf with ⟨i, j, hij, rfl⟩ | ⟨hc, k, hk, rfl⟩
  · have := c i j hij
    rw [band_cref_in M _ _ _ hij, band_cref_in M _ _ _ hij] at this
    revert this ha
    cases m (M.addr i j) <;> cases m' (M.addr i j) <;> simp
  · unfold BView.each at e
    rw [if_pos hc] at e
    obtain ⟨m2, e2, c2, _⟩ := hop M.linearView ⟨rfl, Or.inl (by simp [BView.linearView]), Or.inl rfl⟩ m (hg.lin hc)
    rw [e] at e2
    obtain rfl := Option.some.inj e2
    have := c2 k hk
    simp only [VView.cref, Mem.read] at this
    revert this ha
    cases m (M.linearView.addr k) <;> cases m' (M.linearView.addr k) <;> simp

omit [DecidableEq K] in
theorem band_zero_becomes {M : BView} (hW : M.WF) (hM : M.LSOK) (m : Mem K) (hg : M.Good m) :
    ∃ m', M.setZero m = some m' ∧ M.Becomes m m' (fun _ _ => 0) := by
  obtain ⟨m', e, c, f, kp⟩ := band_each_keep VView.setZero (fun _ => (0 : K)) M hW hM m hg (by
    intro v hp m hl
    obtain ⟨m', a, b, c⟩ := setZero_spec v m hp.2.1 hl
    refine ⟨m', a, fun i hi => ?_, c⟩
    obtain ⟨y, hy⟩ := Option.isSome_iff_exists.mp (hl i hi)
    rw [b i hi]; simp [VView.cref, Mem.read, hy])
  refine ⟨m', e, BView.Has.holds (fun i j hij => band_changed_const hg.live c i j hij) (fun _ _ _ _ _ => rfl), f, kp⟩

/-! ### `A *= x` -/

theorem band_doMulX_spec (x : K) {A : BView} (hW : A.WF) (hL : A.LSOK) (h0 : 0 < A.cs ∧ 0 < A.rs) (m : Mem K) {y : Nat → Nat → K}
    (hg : A.Good m) (hA : A.Holds m y) :
    ∃ m', BView.doMulX x A m = some m' ∧ A.Becomes m m' (fun i j => x * y i j) := by
  unfold BView.doMulX
  split
  · rename_i hx
    obtain ⟨m', e, b⟩ := band_zero_becomes hW hL m hg
    exact ⟨m', e, b.congr fun i j _ _ => by rw [hx, zero_mul]⟩
  split
  · rename_i hc
    obtain ⟨m', e, c, f, kp⟩ := band_each_keep (VView.mulX x) (fun a => x * a) A hW hL m hg (by
      intro v hp m hl
      obtain ⟨p, hp'⟩ := vlive_ex hl
      obtain ⟨m', e, b, f⟩ := mulX_spec x v m p hp.2.1 hp'
      exact ⟨m', e, fun i hi => by rw [hp' i hi]; exact b i hi, f⟩)
    unfold BView.each at e
    rw [if_pos hc] at e
    refine ⟨m', e, BView.Has.holds (fun i j hij => ?_) (fun i j hi hj hb => by rw [hA.zero i j hi hj hb, mul_zero]), f, kp⟩
    rw [c i j hij, hA.has i j hij]; rfl
  · have hP := diags_reg A hW h0
    obtain ⟨m', e, c, f⟩ := parts_spec (fun t => (A.diagOff (t - A.lo)).mulX x) (R := A.reg) hW.2.2.2.2.2 hP m (fun i j => x * y i j)
      (fun k hk m1 hm1 hm2 => mulX_spec x (A.diagB k) m1 _ (hP.wf k hk) (Parts.hasB hP hA.has hk hm2))
    have g : A.Gets m m' (fun i j => x * y i j) := BView.gets_of c f
    exact ⟨m', e, g.becomes hW.2.2.2.2.2 hA (fun _ _ h => h) (fun _ _ => rfl) rfl fun i j hi hj hb => by
      rw [hA.zero i j hi hj hb]; ring⟩

/-- **C123** `A *= x`. -/
theorem band_mulX_spec (x : K) {A : BView} (hW : A.WF) (hL : A.LSOK) (m : Mem K) {y : Nat → Nat → K} (hg : A.Good m) (hA : A.Holds m y) :
    ∃ m', BView.mulX x A m = some m' ∧ A.Becomes m m' (fun i j => x * y i j) := by
  unfold BView.mulX
  split
  · rename_i h
    split
    · obtain ⟨m', e, b⟩ := band_doMulX_spec (star x) hW.conj (hL.conj hW) ⟨h.2.1, h.1⟩ m hg.conj hA.conj
      exact ⟨m', e, b.unconj.congr fun i j _ _ => by simp⟩
    · exact band_doMulX_spec x hW hL ⟨h.2.1, h.1⟩ m hg hA
  · rename_i h
    by_cases hx : x = 1
    · exact ⟨m, rfl, fun i j hi hj => by rw [hA i j hi hj, hx]; simp, fun _ _ => rfl, fun _ h => h⟩
    · exact ⟨m, rfl, BView.empty_becomes A (fun hh => h ⟨hh.2, hh.1, hx⟩) m _⟩

/-! ### `B = A` -/

omit [CommRing K] [StarRing K] [DecidableEq K] in
/-- What `Copy` writes into is a part of `B`. -/
theorem whole_eq (B : BView) (lo hi : Int) : B.whole lo hi = B.narrow lo hi := by
  simp [BView.whole, BView.subBand6, BView.narrow]

omit [CommRing K] [StarRing K] [DecidableEq K] in
theorem lin_zero {B : BView} (h : B.ls = 0) : B.canLinearize = false := by simp [BView.canLinearize, BView.resolveLs, h]

omit [CommRing K] [StarRing K] [DecidableEq K] in
theorem foot_zero {B : BView} (h : B.ls = 0) {a : Int} : B.Footprint a ↔ B.Covers a := by
  simp [BView.Footprint, lin_zero h]

/-- Separate matrices of the same shape. -/
theorem band_doCopy_gets {A B : BView} (hl : A.Like B) (hB0 : B.ls = 0) (hWA : A.WF) (hWB : B.WF) (h0 : 0 < B.cs ∧ 0 < B.rs)
    (hd : ∀ a, A.Covers a → ¬ B.Covers a) (m : Mem K) {y : Nat → Nat → K} (hA : A.Has m y) (hB : B.Live m) :
    ∃ m', BView.doCopy A B m = some m' ∧ B.Gets m m' y := by
  unfold BView.doCopy
  rw [if_neg (by rw [lin_zero hB0]; simp)]
  exact diag_copy hl hWA hWB h0 hd m hA hB

theorem band_copySep_gets {A B : BView} (hl : A.Like B) (hB0 : B.ls = 0) (hWA : A.WF) (hWB : B.WF) (h0 : 0 < B.cs ∧ 0 < B.rs)
    (hd : ∀ a, A.Covers a → ¬ B.Covers a) (m : Mem K) {y : Nat → Nat → K} (hA : A.Has m y) (hB : B.Live m) :
    ∃ m', BView.copySep A B m = some m' ∧ B.Gets m m' y := by
  unfold BView.copySep
  split
  · obtain ⟨m', e, h, f⟩ := band_doCopy_gets (A := A.conjugate) (B := B.conjugate) ⟨hl.cs, hl.rs, hl.lo, hl.hi⟩
      (by simp [BView.conjugate, hB0]) hWA.conj hWB.conj h0 hd m (y := fun i j => star (y i j))
      (fun i j hij => by rw [(band_conjugate A m i j).2.2, hA i j hij]; rfl) hB
    refine ⟨m', e, fun i j hij => ?_, f⟩
    have := h i j hij
    rw [(band_conjugate B m' i j).2.2] at this
    cases e : B.cref m' i j with
    | none => rw [e] at this; simp at this
    | some v => rw [e] at this; simpa using this
  · exact band_doCopy_gets hl hB0 hWA hWB h0 hd m hA hB

/-- The order of a temporary copy of `A` for which the array of the copy holds all its elements (it does not for a diagonal-major matrix with
more rows than columns, no subdiagonal and some superdiagonal: `band_storage_violated`). -/
def TempOK (s : Stor) (A : BView) : Prop := ¬ (s = Stor.dm ∧ A.rs < A.cs ∧ A.lo = 0 ∧ 0 < A.hi)

/-- A temporary copy of `A`. -/
theorem withCopy_spec {al : Alloc K} (hal : al.OK) (s : Stor) {A : BView} (hs : TempOK s A) (hW : A.WF) (h0 : 0 < A.cs ∧ 0 < A.rs)
    (f : BView → Mem K → Option (Mem K)) (m : Mem K) (hb : m.Bdd) {y : Nat → Nat → K} (hA : A.Holds m y) (C : Int → Prop)
    (hC : ∀ a, C a → (m a).isSome) (Q : Mem K → Prop) (hQ : ∀ m1 m2 : Mem K, Q m1 → (∀ a, C a → m2 a = m1 a) → Q m2)
    (h : ∀ (T : BView) (m0 : Mem K), T.Like A → T.WF → T.LSOK → T.Good m0 → T.Holds m0 y → m0.Bdd →
      (∀ a, (m a).isSome → ¬ T.Footprint a ∧ m0 a = m a) → ∃ m1, f T m0 = some m1 ∧ Q m1 ∧ ∀ a, ¬ C a → ¬ T.Footprint a → m1 a = m0 a) :
    ∃ m', BView.withCopy al s A f m = some m' ∧ Q m' ∧ ∀ a, ¬ C a → m' a = m a := by
  obtain ⟨w1, w2, w3, w4, w5, w6⟩ := hW
  refine withTemp_spec hal _ _ m hb C hC Q hQ fun t m0 T => ?_
  obtain ⟨M, hM⟩ : ∃ M, M = BView.ofStor t s A.cs A.rs A.lo A.hi := ⟨_, rfl⟩
  dsimp only
  rw [← hM]
  obtain ⟨h1, h2⟩ := band_storage_partial t s A.cs A.rs A.lo A.hi w1 w2 (by omega) (by omega) hs
  have hcs : M.cs = A.cs := by rw [hM]; rfl
  have hrs : M.rs = A.rs := by rw [hM]; rfl
  have hlo : M.lo = A.lo := by rw [hM]; rfl
  have hhi : M.hi = A.hi := by rw [hM]; rfl
  have hW : M.WF := by
    rw [hM]
    refine ⟨w1, w2, Or.inr (by simp only [BView.ofStor]; omega), Or.inr (by simp only [BView.ofStor]; omega), ?_, h2⟩
    simp only [BView.ofStor]; cases s <;> simp; omega
  have hL : M.LSOK := by rw [hM]; exact lsok_bandStor t s A.cs A.rs A.lo A.hi
  have hin : ∀ a, M.Footprint a → t ≤ a ∧ a < t + (bandStorageLength s A.cs A.rs A.lo A.hi).toNat := by
    intro a ha
    rcases ha with ⟨i, j, hij, e⟩ | ⟨hc, k, hk, e⟩
    · have := h1 i j (by simpa [BView.In, InBand, hcs, hrs, hlo, hhi] using hij)
      rw [← hM, ← e] at this
      omega
    · by_cases hd : s = Stor.dm
      · rw [lin_zero (by rw [hM]; simp [BView.ofStor, hd])] at hc
        exact absurd hc (by simp)
      · have e1 : M.ls = bandStorageLength s A.cs A.rs A.lo A.hi := by rw [hM]; simp [BView.ofStor, hd]
        have e2 : M.ptr = t := by rw [hM]; simp [BView.ofStor, hd]
        have hpos : bandStorageLength s A.cs A.rs A.lo A.hi ≠ -1 := by
          have := h1 0 0 ⟨by omega, by omega, by omega, by omega, by omega, by omega⟩
          omega
        have e3 : M.resolveLs = bandStorageLength s A.cs A.rs A.lo A.hi := by
          unfold BView.resolveLs; rw [e1, if_neg hpos]
        simp only [BView.linearView, e3] at hk
        simp only [BView.linearView, VView.addr, e2] at e
        omega
  have hg : M.Good m0 := fun a ha => T.live a (hin a ha).1 (hin a ha).2
  have hdis : ∀ a, (m a).isSome → ¬ M.Footprint a := fun a ha hf => T.nin ha (hin a hf)
  have eqm : ∀ a, (m a).isSome → m0 a = m a := fun a ha => T.off a (T.nin ha)
  rw [whole_eq]
  have hNin : ∀ i j, (M.narrow A.lo A.hi).In i j ↔ M.In i j := fun i j => by simp [BView.In, InBand, BView.narrow, hlo, hhi]
  obtain ⟨m1, e1, g1⟩ := band_copySep_gets (A := A) (B := M.narrow A.lo A.hi) ⟨hcs.symm, hrs.symm, rfl, rfl⟩ rfl
    ⟨w1, w2, w3, w4, w5, w6⟩ (narrow_wf hW w1 w2 (by omega) (by omega)) ⟨by simpa [BView.narrow, hcs] using h0.1, by simpa [BView.narrow, hrs] using h0.2⟩
    (fun a hA1 hN1 => by
      obtain ⟨i, j, hij, e⟩ := hN1
      obtain ⟨i', j', hij', e'⟩ := hA1
      exact hdis a (e' ▸ hA.live i' j' hij') (Or.inl ⟨i, j, (hNin i j).mp hij, e⟩)) m0 (y := y)
    (hA.has.frame fun a ha => by obtain ⟨i, j, hij, rfl⟩ := ha; exact eqm _ (hA.live i j hij))
    (fun i j hij => hg.live i j ((hNin i j).mp hij))
  obtain ⟨z, hz⟩ := hg.live.exHas
  have b1 : M.Becomes m0 m1 y := g1.becomes hW.2.2.2.2.2 hz (fun i j hij => (hNin i j).mp hij) (fun _ _ => rfl) rfl
    (fun i j hi hj hb => by
      rw [hNin] at hb
      rw [hz.zero i j hi hj hb, hA.zero i j (by omega) (by omega) (by simpa [BView.In, InBand, hcs, hrs, hlo, hhi] using hb)])
  obtain ⟨m2, e2, q, fr⟩ := h M m1 ⟨hcs, hrs, hlo, hhi⟩ hW hL (b1.good hg) b1.1 (b1.bdd hg T.bdd)
    (fun a ha => ⟨hdis a ha, by rw [b1.2.1 a (hdis a ha), eqm a ha]⟩)
  refine ⟨m2, by rw [e1]; exact e2, q, fun a h3 h4 => ?_⟩
  have : ¬ M.Footprint a := fun hf => h4 (hin a hf)
  rw [fr a h3 this, b1.2.1 a this]

omit [DecidableEq K] in
/-- A view that has the fields of `A`. -/
theorem same_holds {A W : BView} (h : W.isSameAs A = true) {m : Mem K} {y : Nat → Nat → K} (hA : A.Holds m y) : W.Holds m y := by
  simp only [BView.isSameAs, decide_eq_true_eq] at h
  obtain ⟨h1, h2, h3, h4, h5, h6, h7, h8⟩ := h
  intro i j hi hj
  rw [← hA i j (by omega) (by omega)]
  unfold BView.cref BView.okij BView.addr
  rw [h1, h4, h5, h6, h7, h8]

/-- `DoCopy1(A,W)`. -/
theorem band_doCopy1_spec {al : Alloc K} (hal : al.OK) {A W : BView} (hl : A.Like W) (hW0 : W.ls = 0) (hWA : A.WF) (hWW : W.WF)
    (hd : (∀ a, A.Covers a → ¬ W.Covers a) ∨ A.ptr = W.ptr ∧ TempOK A.tempStor A) (m : Mem K) (hb : m.Bdd) {y : Nat → Nat → K}
    (hA : A.Holds m y) (hW : W.Live m) : ∃ m', BView.doCopy1 al A W m = some m' ∧ W.Becomes m m' y := by
  unfold BView.doCopy1
  have hgW : W.Good m := fun a ha => by
    obtain ⟨i, j, hij, rfl⟩ := (foot_zero hW0).mp ha; exact hW i j hij
  have fromGets : ∀ m1 m2 : Mem K, W.Live m1 → W.Gets m1 m2 y → W.Becomes m1 m2 y := fun m1 m2 hlv g => by
    obtain ⟨z, hz⟩ := hlv.exHas
    exact g.becomes hWW.2.2.2.2.2 hz (fun _ _ h => h) (fun _ _ => rfl) rfl (fun i j hi hj hb => by
      rw [hz.zero i j hi hj hb, hA.zero i j (by rw [hl.cs]; exact hi) (by rw [hl.rs]; exact hj) (by
        simpa [BView.In, InBand, hl.cs, hl.rs, hl.lo, hl.hi] using hb)])
  split
  swap
  · rename_i h; exact ⟨m, rfl, W.empty_becomes h m _⟩
  rename_i h0
  split
  swap
  · rename_i hs
    have hd' : ∀ a, A.Covers a → ¬ W.Covers a := by
      rcases hd with h | h
      · exact h
      · simp [BView.sameStorage, h.1] at hs
    obtain ⟨m', e, g⟩ := band_copySep_gets hl hW0 hWA hWW h0 hd' m hA.has hW
    exact ⟨m', e, fromGets m m' hW g⟩
  rename_i hs
  have hs' : A.ptr = W.ptr := by simpa [BView.sameStorage] using hs
  have z0 : ∀ M : BView, M.WF → 0 < M.cs → 0 < M.rs → M.Covers M.ptr := fun M hM h1 h2 =>
    ⟨0, 0, ⟨by omega, by omega, by omega, by omega, by have := hM.1; omega, by have := hM.2.1; omega⟩, by simp [BView.addr]⟩
  have hto : TempOK A.tempStor A := by
    rcases hd with h | h
    · exact absurd (hs' ▸ z0 W hWW h0.1 h0.2) (h A.ptr (z0 A hWA (by rw [hl.cs]; omega) (by rw [hl.rs]; omega)))
    · exact h.2
  split
  · rename_i h
    exact ⟨m, rfl, same_holds h hA, fun _ _ => rfl, fun _ h => h⟩
  split
  · rename_i h
    obtain ⟨hlh, ht⟩ := h
    have hT := same_holds ht hA
    unfold BView.isSameAs at ht
    rw [decide_eq_true_eq] at ht
    simp only [BView.transpose] at ht
    obtain ⟨h1, h2, h3, h4, h5, h6, h7, h8⟩ := ht
    have hsq : W.cs = W.rs := by rw [← hl.cs, ← h2]
    obtain ⟨m', e, c, f⟩ := band_transposeSelf_spec W hWW hsq hlh h0.1 m hW
    refine ⟨m', e, ?_⟩
    have hh : W.Holds m' y := fun i j hi hj => by
      rw [c i j ⟨by omega, by omega, by omega, by omega⟩, ← (band_transpose W m i j).2.2]
      exact hT i j (by simp only [BView.transpose]; omega) (by simp only [BView.transpose]; omega)
    exact fromGets m m' hW ⟨hh.has, f⟩
  split
  · rename_i h
    have hT := same_holds h.2 hA
    obtain ⟨m', e, c, f⟩ := band_conjugateSelf_spec W hWW (Or.inr (Or.inl hW0)) m hW (fun h => by rw [lin_zero hW0] at h; cases h)
    refine ⟨m', e, ?_⟩
    refine fromGets m m' hW ⟨fun i j hij => ?_, fun a ha => f a (fun hf => ha ((foot_zero hW0).mp hf))⟩
    have hij' := hij
    simp only [BView.In, InBand] at hij'
    rw [c i j hij, ← (band_conjugate W m i j).2.2]
    exact hT i j (by simp only [BView.conjugate]; omega) (by simp only [BView.conjugate]; omega)
  · obtain ⟨m', e, q, fr⟩ := withCopy_spec hal A.tempStor hto hWA ⟨by rw [hl.cs]; omega, by rw [hl.rs]; omega⟩
      (fun T m => BView.copySep T W m) m hb hA W.Covers (fun a ⟨i, j, hij, e⟩ => e ▸ hW i j hij) (fun m => W.Has m y)
      (fun m1 m2 h1 h2 => h1.frame h2) (fun T m0 tl tw _ _ th _ tf => by
        obtain ⟨m1, e1, g1, f1⟩ := band_copySep_gets (A := T) (B := W)
          ⟨tl.cs.trans hl.cs, tl.rs.trans hl.rs, tl.lo.trans hl.lo, tl.hi.trans hl.hi⟩ hW0 tw hWW h0
          (fun a h1 ⟨i, j, hij, e⟩ => (tf a (e ▸ hW i j hij)).1 (Or.inl h1)) m0 th.has
          (fun i j hij => by rw [(tf _ (hW i j hij)).2]; exact hW i j hij)
        exact ⟨m1, e1, g1, fun a h1 _ => f1 a h1⟩)
    exact ⟨m', e, fromGets m m' hW ⟨q, fr⟩⟩

omit [DecidableEq K] in
theorem zero_part {V B : BView} {a b : Int} {keep : Int → Int → Prop} (h : V.Shows B a b keep) (hc : V.conj = B.conj) (hV : V.WF) (hls : V.ls = 0)
    (hI : B.Inj) (m : Mem K) (hB : B.Live m) :
    ∃ m', V.setZero m = some m' ∧ (∀ i j, B.In i j → keep i j → B.cref m' i j = some 0) ∧
      (∀ i j, B.In i j → ¬ keep i j → B.cref m' i j = B.cref m i j) ∧ (∀ a, ¬ B.Covers a → m' a = m a) ∧ B.Live m' := by
  obtain ⟨m', e, c, f⟩ := band_setZero_spec V hV (Or.inr (Or.inl hls)) m (h.live hB) (fun h => by rw [lin_zero hls] at h; cases h)
  have k1 : ∀ i j, B.In i j → keep i j → B.cref m' i j = some 0 := fun i j hij hk => by
    have hin : V.In (i - a) (j - b) := (h _ _).1.mpr (by simpa using ⟨hij, hk⟩)
    have h1 := c (i - a) (j - b) (by simp only [BView.In, InBand] at hin; exact ⟨hin.1, hin.2.1, hin.2.2.1, hin.2.2.2.1⟩)
    rw [band_cref_in V _ _ _ hin, (h _ _).2, hc] at h1
    rw [band_cref_in B _ _ _ hij]
    simpa using h1
  have k2 : ∀ i j, B.In i j → ¬ keep i j → B.cref m' i j = B.cref m i j := fun i j hij hk => by
    rw [band_cref_in B _ _ _ hij, band_cref_in B _ _ _ hij, f]
    rw [foot_zero hls]
    rintro ⟨i', j', h', e⟩
    rw [(h _ _).2] at e
    obtain ⟨e1, e2⟩ := hI _ _ _ _ hij ((h _ _).1.mp h').1 e
    rw [e1, e2] at hk
    exact hk ((h _ _).1.mp h').2
  have k3 : ∀ a, ¬ B.Covers a → m' a = m a := fun x hx => f x fun hf => by
    rw [foot_zero hls] at hf
    obtain ⟨i', j', h', e⟩ := hf
    exact hx ⟨_, _, ((h _ _).1.mp h').1, by rw [e, (h _ _).2]⟩
  refine ⟨m', e, k1, k2, k3, fun i j hij => ?_⟩
  have : B.cref m' i j = some 0 ∨ B.cref m' i j = B.cref m i j := by
    by_cases hk : keep i j
    · exact Or.inl (k1 i j hij hk)
    · exact Or.inr (k2 i j hij hk)
  have hl := hB i j hij
  rw [band_cref_in B _ _ _ hij, band_cref_in B _ _ _ hij] at this
  revert this hl
  cases m (B.addr i j) <;> cases m' (B.addr i j) <;> simp

/-- When `B = A` can be relied on: `A` and `B` share no memory, or they start at the same element (and the code can make a copy of `A`). -/
def BView.AliasOK (A B : BView) : Prop := A.Sep B ∨ A.ptr = B.ptr ∧ TempOK A.tempStor A

/-- `Copy(A,B)`. -/
theorem band_copy_spec {al : Alloc K} (hal : al.OK) {A B : BView} (hcs : A.cs = B.cs) (hrs : A.rs = B.rs) (hlo : A.lo ≤ B.lo) (hhi : A.hi ≤ B.hi)
    (hWA : A.WF) (hWB : B.WF) (hd : A.AliasOK B) (m : Mem K) (hb : m.Bdd) {y : Nat → Nat → K} (hA : A.Holds m y) (hB : B.Live m) :
    ∃ m', BView.copy al A B m = some m' ∧ B.Becomes m m' y := by
  unfold BView.copy
  rw [whole_eq]
  obtain ⟨w1, w2, w3, w4, w5, w6⟩ := hWB
  have hWB : B.WF := ⟨w1, w2, w3, w4, w5, w6⟩
  by_cases h0 : B.cs > 0 ∧ B.rs > 0
  swap
  · have hz : ∀ k1 k2, (B.diagRange k1 k2).setZero m = some m := fun k1 k2 => by
      unfold BView.setZero BView.each
      rw [lin_zero rfl, if_neg (by simp)]
      unfold BView.eachLoop
      rw [if_neg]
      rintro ⟨h1, h2⟩
      simp only [BView.diagRange] at h1 h2
      split_ifs at h1 h2 <;> omega
    have h1 : BView.doCopy1 al A (B.narrow A.lo A.hi) m = some m := by
      unfold BView.doCopy1; rw [if_neg]; exact h0
    refine ⟨m, ?_, B.empty_becomes h0 m _⟩
    rw [h1]
    simp only [Option.bind_some, hz, ite_self]
  have hS := band_narrow B A.lo A.hi hlo hhi
  have hin : ∀ i j, (B.narrow A.lo A.hi).In i j → B.In i j := fun i j h => narrow_in hlo hhi h
  obtain ⟨m1, e1, b1⟩ := band_doCopy1_spec hal (A := A) (W := B.narrow A.lo A.hi) ⟨hcs, hrs, rfl, rfl⟩ rfl hWA
    (narrow_wf hWB hWA.1 hWA.2.1 hlo hhi)
    (hd.imp (fun h a h1 ⟨i, j, hij, e⟩ => h a (Or.inl h1) (Or.inl ⟨i, j, hin i j hij, e⟩)) id) m hb hA (hS.live hB)
  rw [e1]
  have l1 : B.Live m1 := fun i j hij => b1.2.2 _ (hB i j hij)
  have f1 : ∀ a, ¬ B.Covers a → m1 a = m a := fun a ha => b1.2.1 a fun hf => by
    rw [foot_zero rfl] at hf
    obtain ⟨i, j, hij, e⟩ := hf
    exact ha ⟨i, j, hin i j hij, e⟩
  have v1 : ∀ i j : Nat, B.In i j → ((i : Int) - j ≤ A.lo ∧ (j : Int) - i ≤ A.hi) → B.cref m1 i j = some (y i j) := fun i j hij hk => by
    have h1 : (B.narrow A.lo A.hi).In i j := (hS _ _).1.mpr (by rw [add_zero, add_zero]; exact ⟨hij, hk⟩)
    have := b1.1.has i j h1
    rw [band_cref_in _ _ _ _ h1] at this
    rw [band_cref_in _ _ _ _ hij]; exact this
  have s2 : ∃ m2, (if B.hi > A.hi then (B.diagRange (A.hi + 1) (B.hi + 1)).setZero m1 else some m1) = some m2 ∧
      (∀ i j, B.In i j → j - i > A.hi → B.cref m2 i j = some 0) ∧
      (∀ i j, B.In i j → ¬ (j - i > A.hi) → B.cref m2 i j = B.cref m1 i j) ∧ (∀ a, ¬ B.Covers a → m2 a = m1 a) ∧ B.Live m2 := by
    split
    · rename_i h
      have := hWA.2.1
      obtain ⟨m2, e, k1, k2, k3, k4⟩ := zero_part (band_diagRange B (A.hi + 1) (B.hi + 1) (by omega) (by omega) (by omega)) rfl
        (by
          refine ⟨?_, ?_, Or.inr ?_, Or.inr ?_, w5, (band_diagRange B (A.hi + 1) (B.hi + 1) (by omega) (by omega) (by omega)).inj w6⟩ <;>
            (simp only [BView.diagRange]; split_ifs <;> omega)) rfl w6 m1 l1
      refine ⟨m2, e, fun i j hij hk => k1 i j hij ?_, fun i j hij hk => k2 i j hij ?_, k3, k4⟩
      · simp only [BView.In, InBand] at hij; omega
      · omega
    · refine ⟨m1, rfl, fun i j hij hk => ?_, fun _ _ _ _ => rfl, fun _ _ => rfl, l1⟩
      simp only [BView.In, InBand] at hij; omega
  obtain ⟨m2, e2, p1, p2, p3, p4⟩ := s2
  have s3 : ∃ m3, (if B.lo > A.lo then (B.diagRange (-B.lo) (-A.lo)).setZero m2 else some m2) = some m3 ∧
      (∀ i j, B.In i j → i - j > A.lo → B.cref m3 i j = some 0) ∧
      (∀ i j, B.In i j → ¬ (i - j > A.lo) → B.cref m3 i j = B.cref m2 i j) ∧ (∀ a, ¬ B.Covers a → m3 a = m2 a) ∧ B.Live m3 := by
    split
    · rename_i h
      have := hWA.1
      obtain ⟨m2, e, k1, k2, k3, k4⟩ := zero_part (band_diagRange B (-B.lo) (-A.lo) (by omega) (by omega) (by omega)) rfl
        (by
          refine ⟨?_, ?_, Or.inr ?_, Or.inr ?_, w5, (band_diagRange B (-B.lo) (-A.lo) (by omega) (by omega) (by omega)).inj w6⟩ <;>
            (simp only [BView.diagRange]; split_ifs <;> omega)) rfl w6 m2 p4
      refine ⟨m2, e, fun i j hij hk => k1 i j hij ?_, fun i j hij hk => k2 i j hij ?_, k3, k4⟩
      · simp only [BView.In, InBand] at hij; omega
      · omega
    · refine ⟨m2, rfl, fun i j hij hk => ?_, fun _ _ _ _ => rfl, fun _ _ => rfl, p4⟩
      simp only [BView.In, InBand] at hij; omega
  obtain ⟨m3, e3, q1, q2, q3, q4⟩ := s3
  refine ⟨m3, ?_, ?_⟩
  · simp only [Option.bind_some, e2, e3]
  have g : B.Gets m m3 y := by
    refine ⟨fun i j hij => ?_, fun a ha => by rw [q3 a ha, p3 a ha, f1 a ha]⟩
    have hij' := hij
    simp only [BView.In, InBand] at hij'
    have hz : ¬ ((i : Int) - j ≤ A.lo ∧ (j : Int) - i ≤ A.hi) → y i j = 0 := fun h =>
      hA.zero i j (by omega) (by omega) fun hi => by simp only [BView.In, InBand] at hi; omega
    by_cases h1 : (i : Int) - j > A.lo
    · rw [q1 i j hij h1, hz (by omega)]
    rw [q2 i j hij h1]
    by_cases h2 : (j : Int) - i > A.hi
    · rw [p1 i j hij h2, hz (by omega)]
    rw [p2 i j hij h2]
    exact v1 i j hij (by omega)
  obtain ⟨z, hz⟩ := hB.exHas
  exact g.becomes w6 hz (fun _ _ h => h) (fun _ _ => rfl) rfl (fun i j hi hj hb => by
    rw [hz.zero i j hi hj hb, hA.zero i j (by omega) (by omega) (by
      simp only [BView.In, InBand] at hb ⊢; omega)])

/-- **C123** `B = A`: for any storage orders, `A` narrower than `B`, conjugated or not, `B` a view of the memory of `A` or not. -/
theorem band_assign_spec_partial {al : Alloc K} (hal : al.OK) {A B : BView} (hcs : A.cs = B.cs) (hrs : A.rs = B.rs) (hlo : A.lo ≤ B.lo)
    (hhi : A.hi ≤ B.hi) (hWA : A.WF) (hWB : B.WF) (hd : A.AliasOK B) (m : Mem K) (hb : m.Bdd) {y : Nat → Nat → K} (hA : A.Holds m y)
    (hB : B.Live m) : ∃ m', BView.assignToB al A B m = some m' ∧ B.Becomes m m' y := by
  unfold BView.assignToB
  split
  · rename_i h
    have h' : B.isSameAs A = true := by
      unfold BView.isSameAs at h ⊢
      rw [decide_eq_true_eq] at h ⊢
      obtain ⟨h1, h2, h3, h4, h5, h6, h7, h8⟩ := h
      exact ⟨h1.symm, h2.symm, h3.symm, h4.symm, h5.symm, h6.symm, h7.symm, h8.symm⟩
    exact ⟨m, rfl, same_holds h' hA, fun _ _ => rfl, fun _ h => h⟩
  · exact band_copy_spec hal hcs hrs hlo hhi hWA hWB hd m hb hA hB

/-- **C123** `B = x*A`. -/
theorem band_assignMulX_spec_partial {al : Alloc K} (hal : al.OK) (x : K) {A B : BView} (hcs : A.cs = B.cs) (hrs : A.rs = B.rs) (hlo : A.lo ≤ B.lo)
    (hhi : A.hi ≤ B.hi) (hWA : A.WF) (hWB : B.WF) (hLB : B.LSOK) (hd : A.AliasOK B) (m : Mem K) (hb : m.Bdd) {y : Nat → Nat → K}
    (hA : A.Holds m y) (hB : B.Good m) :
    ∃ m', BView.assignMulX al x A B m = some m' ∧ B.Becomes m m' (fun i j => x * y i j) := by
  unfold BView.assignMulX
  obtain ⟨m1, e1, b1⟩ := band_assign_spec_partial hal hcs hrs hlo hhi hWA hWB hd m hb hA hB.live
  obtain ⟨m2, e2, b2⟩ := band_mulX_spec x hWB hLB m1 (b1.good hB) b1.1
  exact ⟨m2, by rw [e1]; exact e2, b1.trans b2⟩

/-! ### `B += x*A` -/

omit [CommRing K] [StarRing K] [DecidableEq K] in
theorem BView.WF.ptr {M : BView} (hM : M.WF) (h : 0 < M.cs ∧ 0 < M.rs) : M.Covers M.ptr :=
  ⟨0, 0, ⟨by omega, by omega, by omega, by omega, by have := hM.1; omega, by have := hM.2.1; omega⟩, by simp [BView.addr]⟩

omit [CommRing K] [StarRing K] [DecidableEq K] in
theorem BView.Sep.ptr {A B : BView} (hd : A.Sep B) (hA : A.WF) (hB : B.WF) (h : 0 < A.cs ∧ 0 < A.rs) (h' : 0 < B.cs ∧ 0 < B.rs) :
    A.ptr ≠ B.ptr := fun e => hd A.ptr (Or.inl (hA.ptr h)) (e ▸ Or.inl (hB.ptr h'))

theorem band_addMMnc_spec {al : Alloc K} (hal : al.OK) (x : K) {A B : BView} (hcs : A.cs = B.cs) (hrs : A.rs = B.rs) (hlo : A.lo ≤ B.lo)
    (hhi : A.hi ≤ B.hi) (hWA : A.WF) (hWB : B.WF) (hLA : A.LSOK) (hLB : B.LSOK) (h0 : 0 < B.cs ∧ 0 < B.rs)
    (hd : A.Sep B ∨ A.ptr = B.ptr ∧ TempOK B.tempStor A) (m : Mem K) (hb : m.Bdd) {y z : Nat → Nat → K}
    (hgA : A.Good m) (hgB : B.Good m) (hA : A.Holds m y) (hB : B.Holds m z) :
    ∃ m', BView.addMMnc al x A B m = some m' ∧ B.Becomes m m' (fun i j => z i j + x * y i j) := by
  have h0A : 0 < A.cs ∧ 0 < A.rs := by rw [hcs, hrs]; exact h0
  unfold BView.addMMnc
  split
  · rename_i hs
    have hs' : A.ptr = B.ptr := by simpa [BView.sameStorage] using hs
    have hto : TempOK B.tempStor A := by
      rcases hd with h | h
      · exact absurd hs' (h.ptr hWA hWB h0A h0)
      · exact h.2
    obtain ⟨m', e, ⟨q1, q2⟩, fr⟩ := withCopy_spec hal B.tempStor hto hWA h0A (fun T m => BView.doAdd x T B m) m hb hA B.Footprint hgB
      (fun m => B.Holds m (fun i j => z i j + x * y i j) ∧ B.Good m)
      (fun m1 m2 h1 h2 => ⟨h1.1.frame fun a ha => h2 a (Or.inl ha), fun a ha => by rw [h2 a ha]; exact h1.2 a ha⟩)
      (fun T m0 tl tw tls tg th _ tf => by
        obtain ⟨m1, e1, b1⟩ := band_doAdd_spec x (A := T) (B := B) (tl.cs.trans hcs) (tl.rs.trans hrs) (by rw [tl.lo]; exact hlo) (by rw [tl.hi]; exact hhi)
          tw hWB tls hLB h0 (fun a h1 h2 => (tf a (hgB a h2)).1 h1) m0 tg (fun a ha => by rw [(tf a (hgB a ha)).2]; exact hgB a ha) th
          (hB.frame fun a ha => (tf a (hgB a (Or.inl ha))).2)
        exact ⟨m1, e1, ⟨b1.1, b1.good fun a ha => by rw [(tf a (hgB a ha)).2]; exact hgB a ha⟩, fun a h1 _ => b1.2.1 a h1⟩)
    refine ⟨m', e, q1, fr, fun a ha => ?_⟩
    by_cases hf : B.Footprint a
    · exact q2 a hf
    · rw [fr a hf]; exact ha
  · rename_i hs
    have hd' : A.Sep B := by
      rcases hd with h | h
      · exact h
      · simp [BView.sameStorage, h.1] at hs
    exact band_doAdd_spec x hcs hrs hlo hhi hWA hWB hLA hLB h0 hd' m hgA hgB hA hB

/-- **C123** `B += x*A` (`B -= A` is `x = -1`). -/
theorem band_addMM_spec_partial {al : Alloc K} (hal : al.OK) (x : K) {A B : BView} (hcs : A.cs = B.cs) (hrs : A.rs = B.rs) (hlo : A.lo ≤ B.lo)
    (hhi : A.hi ≤ B.hi) (hWA : A.WF) (hWB : B.WF) (hLA : A.LSOK) (hLB : B.LSOK)
    (hd : A.Sep B ∨ A.ptr = B.ptr ∧ TempOK B.tempStor A) (m : Mem K) (hb : m.Bdd) {y z : Nat → Nat → K}
    (hgA : A.Good m) (hgB : B.Good m) (hA : A.Holds m y) (hB : B.Holds m z) :
    ∃ m', BView.addMM al x A B m = some m' ∧ B.Becomes m m' (fun i j => z i j + x * y i j) := by
  unfold BView.addMM
  split
  swap
  · rename_i h; exact ⟨m, rfl, B.empty_becomes h m _⟩
  rename_i h0
  split
  · obtain ⟨m', e, b⟩ := band_addMMnc_spec hal (star x) (A := A.conjugate) (B := B.conjugate) hcs hrs hlo hhi hWA.conj hWB.conj (hLA.conj hWA)
      (hLB.conj hWB) h0 (hd.imp BView.Sep.conj id) m hb hgA.conj hgB.conj hA.conj hB.conj
    exact ⟨m', e, b.unconj.congr fun i j _ _ => by simp⟩
  · exact band_addMMnc_spec hal x hcs hrs hlo hhi hWA hWB hLA hLB h0 hd m hb hgA hgB hA hB

/-! ### `C = x*A + y*B` -/

/-- When `C = x*A + y*B` can be relied on: each operand shares no memory with `C`, or starts at the same element (and the code can make a copy
of it). -/
def BView.SumOK (A C : BView) : Prop := A.Sep C ∨ A.ptr = C.ptr ∧ ¬ (A.rs < A.cs ∧ A.lo = 0 ∧ 0 < A.hi)

omit [CommRing K] [StarRing K] [DecidableEq K] in
theorem BView.SumOK.alias {A C : BView} (h : A.SumOK C) : A.AliasOK C := h.imp id fun h => ⟨h.1, fun hh => h.2 hh.2⟩

omit [CommRing K] [StarRing K] [DecidableEq K] in
theorem BView.SumOK.conj {A C : BView} (h : A.SumOK C) : A.conjugate.SumOK C.conjugate := h.imp BView.Sep.conj id

theorem band_addMM3nc_spec {al : Alloc K} (hal : al.OK) (x y : K) {A B C : BView} (hcs : A.cs = C.cs) (hrs : A.rs = C.rs) (hlo : A.lo ≤ C.lo)
    (hhi : A.hi ≤ C.hi) (hcs' : B.cs = C.cs) (hrs' : B.rs = C.rs) (hlo' : B.lo ≤ C.lo) (hhi' : B.hi ≤ C.hi) (hWA : A.WF) (hWB : B.WF) (hWC : C.WF)
    (hLA : A.LSOK) (hLB : B.LSOK) (hLC : C.LSOK) (hd : A.SumOK C) (hd' : B.SumOK C) (m : Mem K) (hb : m.Bdd) {p q : Nat → Nat → K}
    (hgA : A.Good m) (hgB : B.Good m) (hgC : C.Good m) (hA : A.Holds m p) (hB : B.Holds m q) :
    ∃ m', BView.addMM3nc al x A y B C m = some m' ∧ C.Becomes m m' (fun i j => x * p i j + y * q i j) := by
  unfold BView.addMM3nc
  split
  swap
  · rename_i h; exact ⟨m, rfl, C.empty_becomes (by rw [← hcs', ← hrs']; exact h) m _⟩
  rename_i h0'
  have h0 : 0 < C.cs ∧ 0 < C.rs := by rw [← hcs', ← hrs']; exact h0'
  have h0A : 0 < A.cs ∧ 0 < A.rs := by rw [hcs, hrs]; exact h0
  have two : ∀ (m : Mem K), m.Bdd → C.Good m → ∀ (u v : K) (U V : BView) (r s : Nat → Nat → K), U.cs = C.cs → U.rs = C.rs → U.lo ≤ C.lo →
      U.hi ≤ C.hi → V.cs = C.cs → V.rs = C.rs → V.lo ≤ C.lo → V.hi ≤ C.hi → U.WF → V.WF → V.LSOK → U.AliasOK C → V.Sep C → V.Good m →
      U.Holds m r → V.Holds m s → ∃ m', ((BView.assignMulX al u U C m).bind fun m => BView.doAdd v V C m) = some m' ∧
        C.Becomes m m' (fun i j => u * r i j + v * s i j) := by
    intro m hb hgC u v U V r s a1 a2 a3 a4 c1 c2 c3 c4 hU hV hLV d1 d2 gV hU' hV'
    obtain ⟨m1, e1, b1⟩ := band_assignMulX_spec_partial hal u a1 a2 a3 a4 hU hWC hLC d1 m hb hU' hgC
    obtain ⟨m2, e2, b2⟩ := band_doAdd_spec v c1 c2 c3 c4 hV hWC hLV hLC h0 d2 m1 (b1.good gV) (b1.good hgC) (d2.holds b1 hV') b1.1
    exact ⟨m2, by rw [e1]; exact e2, b1.trans b2⟩
  split
  · rename_i hs
    have hs1 : A.ptr = C.ptr := by simpa [BView.sameStorage] using hs
    split
    · rename_i hs
      have hs2 : B.ptr = C.ptr := by simpa [BView.sameStorage] using hs
      have hto : ∀ s, TempOK s B := fun s => by
        rcases hd' with h | h
        · exact absurd hs2 (h.ptr hWB hWC h0' h0)
        · exact fun hh => h.2 hh.2
      obtain ⟨m', e, ⟨q1, q2⟩, fr⟩ := withCopy_spec hal _ (hto _) hWB h0' (fun T m => (BView.assignMulX al x A C m).bind fun m => BView.doAdd y T C m)
        m hb hB C.Footprint hgC (fun m => C.Holds m (fun i j => x * p i j + y * q i j) ∧ C.Good m)
        (fun m1 m2 h1 h2 => ⟨h1.1.frame fun a ha => h2 a (Or.inl ha), fun a ha => by rw [h2 a ha]; exact h1.2 a ha⟩)
        (fun T m0 tl tw tls tg th tb tf => by
          have gC0 : C.Good m0 := fun a ha => by rw [(tf a (hgC a ha)).2]; exact hgC a ha
          obtain ⟨m1, e1, b1⟩ := two m0 tb gC0 x y A T p q hcs hrs hlo hhi (tl.cs.trans hcs') (tl.rs.trans hrs') (by rw [tl.lo]; exact hlo')
            (by rw [tl.hi]; exact hhi') hWA tw tls hd.alias (fun a h1 h2 => (tf a (hgC a h2)).1 h1) tg
            (hA.frame fun a ha => (tf a (hgA a (Or.inl ha))).2) th
          exact ⟨m1, e1, ⟨b1.1, b1.good gC0⟩, fun a h1 _ => b1.2.1 a h1⟩)
      refine ⟨m', e, q1, fr, fun a ha => ?_⟩
      by_cases hf : C.Footprint a
      · exact q2 a hf
      · rw [fr a hf]; exact ha
    · rename_i hs
      have hdB : B.Sep C := by
        rcases hd' with h | h
        · exact h
        · simp [BView.sameStorage, h.1] at hs
      exact two m hb hgC x y A B p q hcs hrs hlo hhi hcs' hrs' hlo' hhi' hWA hWB hLB hd.alias hdB hgB hA hB
  · rename_i hs
    have hdA : A.Sep C := by
      rcases hd with h | h
      · exact h
      · simp [BView.sameStorage, h.1] at hs
    obtain ⟨m', e, b⟩ := two m hb hgC y x B A q p hcs' hrs' hlo' hhi' hcs hrs hlo hhi hWB hWA hLA hd'.alias hdA hgA hB hA
    exact ⟨m', e, b.congr fun i j _ _ => add_comm _ _⟩

/-- **C123** `C = x*A + y*B` of band matrices. -/
theorem band_addMM3_spec_partial {al : Alloc K} (hal : al.OK) (x y : K) {A B C : BView} (hcs : A.cs = C.cs) (hrs : A.rs = C.rs) (hlo : A.lo ≤ C.lo)
    (hhi : A.hi ≤ C.hi) (hcs' : B.cs = C.cs) (hrs' : B.rs = C.rs) (hlo' : B.lo ≤ C.lo) (hhi' : B.hi ≤ C.hi) (hWA : A.WF) (hWB : B.WF) (hWC : C.WF)
    (hLA : A.LSOK) (hLB : B.LSOK) (hLC : C.LSOK) (hd : A.SumOK C) (hd' : B.SumOK C) (m : Mem K) (hb : m.Bdd) {p q : Nat → Nat → K}
    (hgA : A.Good m) (hgB : B.Good m) (hgC : C.Good m) (hA : A.Holds m p) (hB : B.Holds m q) :
    ∃ m', BView.addMM3 al x A y B C m = some m' ∧ C.Becomes m m' (fun i j => x * p i j + y * q i j) := by
  unfold BView.addMM3
  split
  · obtain ⟨m', e, b⟩ := band_addMM3nc_spec hal (star x) (star y) (A := A.conjugate) (B := B.conjugate) (C := C.conjugate) hcs hrs hlo hhi hcs' hrs'
      hlo' hhi' hWA.conj hWB.conj hWC.conj (hLA.conj hWA) (hLB.conj hWB) (hLC.conj hWC) hd.conj hd'.conj m hb hgA.conj hgB.conj hgC.conj
      hA.conj hB.conj
    exact ⟨m', e, b.unconj.congr fun i j _ _ => by simp⟩
  · exact band_addMM3nc_spec hal x y hcs hrs hlo hhi hcs' hrs' hlo' hhi' hWA hWB hWC hLA hLB hLC hd hd' m hb hgA hgB hgC hA hB

end TMV
