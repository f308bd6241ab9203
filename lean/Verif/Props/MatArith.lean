import Verif.Lemmas.MatArith

/-! Property C70: scaling and adding matrices, element-wise products, and the aliases the library detects. -/
namespace TMV
variable {K : Type _} [CommRing K] [StarRing K] [DecidableEq K]

/-! ### `A *= x` -/

omit [DecidableEq K] in
private theorem rowMajor_spec (x : K) (A : MView) (m : Mem K) (y : Nat → Nat → K) (hW : A.WF)
    (hA : A.Holds m y) (hc : A.conj = false) (hr : A.sj = 1) :
    ∃ m', MView.rowMajorMulX x A m = some m' ∧ A.Becomes m m' (fun i j => x * y i j) := by
  unfold MView.rowMajorMulX
  refine rows_spec _ A hW.1 m _ ?_
  intro i hi m1 _ h2
  have hl : (A.row i).Holds m1 (y i) := by
    intro j hj
    rw [← hA i j hi hj, VView.cref, MView.cref, Mem.read, Mem.read]
    exact congrArg _ (h2 i j le_rfl hi hj)
  obtain ⟨m2, e, b⟩ := (A.row i).mapped_loopMod (· * x) m1 (by left; simp [MView.row, hr]) hl.live
  rw [show (A.row i).step = 1 from hr] at e
  refine ⟨m2, e, VView.Holds.of_raw fun j hj => ?_, b.2⟩
  rw [b.1 j hj, hl.rawA j hj]
  show _ = some (cj A.conj _)
  rw [show (A.row i).conj = false from hc, hc]
  simp [cj, mul_comm]

private theorem doMulX_spec (x : K) (A : MView) (m : Mem K) (y : Nat → Nat → K) (hW : A.WF) (hL : A.LSOK)
    (hA : A.Holds m y) (hc : A.conj = false) :
    ∃ m', MView.doMulX x A m = some m' ∧ A.Becomes m m' (fun i j => x * y i j) := by
  unfold MView.doMulX
  by_cases h0 : x = 0
  · rw [if_pos h0]
    obtain ⟨m', a, b, c⟩ := mat_setZero_spec A hW hL m hA.live
    exact ⟨m', a, MView.Becomes.congr ⟨b, c⟩ (by intro i j _ _; simp [h0])⟩
  rw [if_neg h0]
  by_cases h1 : A.canLinearize = true
  · rw [if_pos h1]
    obtain ⟨z, hz, ez⟩ := hA.linear hL h1
    obtain ⟨m', a, b⟩ := mulX_spec x A.linearView m z (linearView_wf A) hz
    exact ⟨m', a, (MView.Becomes.of_linear hL h1 b).congr (fun i j hi hj => by rw [ez i j hi hj])⟩
  rw [if_neg h1]
  by_cases h2 : A.isrm = true
  · rw [if_pos h2]
    exact rowMajor_spec x A m y hW hA hc (by simpa [MView.isrm] using h2)
  rw [if_neg h2]
  by_cases h3 : A.iscm = true
  · rw [if_pos h3]
    obtain ⟨m', a, b⟩ := rowMajor_spec x A.transpose m _ hW.transpose hA.transpose hc (by
      have : A.si = 1 := by simpa [MView.iscm] using h3
      exact this)
    exact ⟨m', a, b.of_transpose⟩
  rw [if_neg h3]
  split
  · refine rows_spec _ A hW.1 m _ ?_
    intro i hi m1 _ h4
    refine mulX_spec x (A.row i) m1 (y i) (hW.row hi) ?_
    intro j hj
    rw [← hA i j hi hj, VView.cref, MView.cref, Mem.read, Mem.read]
    exact congrArg _ (h4 i j le_rfl hi hj)
  · refine cols_spec _ A hW.1 m _ ?_
    intro j hj m1 _ h4
    refine mulX_spec x (A.col j) m1 (fun i => y i j) (hW.col hj) ?_
    intro i hi
    rw [← hA i j hi hj, VView.cref, MView.cref, Mem.read, Mem.read, A.col_addr]
    exact congrArg _ (h4 i j le_rfl hj hi)

/-- **C70** (`A *= x`).  Every element is multiplied by `x`, for every layout and conjugation; nothing else
changes. -/
theorem mat_mulX_spec (x : K) (A : MView) (m : Mem K) (y : Nat → Nat → K) (hW : A.WF) (hL : A.LSOK)
    (hA : A.Holds m y) :
    ∃ m', MView.mulX x A m = some m' ∧ A.Becomes m m' (fun i j => x * y i j) := by
  unfold MView.mulX
  by_cases h : A.cs > 0 ∧ A.rs > 0 ∧ x ≠ 1
  · rw [if_pos h]
    by_cases hc : A.conj = true
    · rw [if_pos hc]
      obtain ⟨m', a, b⟩ := doMulX_spec (star x) A.conjugate m _ hW hL (MView.Holds.conjugate.mp hA)
        (by simp [MView.conjugate, hc])
      exact ⟨m', a, MView.Becomes.of_conjugate (b.congr (fun i j _ _ => by rw [star_mul']))⟩
    · rw [if_neg hc]
      exact doMulX_spec x A m y hW hL hA (by simpa using hc)
  · rw [if_neg h]
    refine ⟨m, rfl, MView.Becomes.refl fun i j hi hj => ?_⟩
    have : x = 1 := by by_contra h'; exact h ⟨by omega, by omega, h'⟩
    rw [hA i j hi hj, this, one_mul]

/-- **C70** (`B = x*A`). -/
theorem mat_assignMulX_spec {al : Alloc K} (hal : al.OK) (x : K) (A B : MView) (hcs : A.cs = B.cs)
    (hrs : A.rs = B.rs) (hW : B.WF) (hLA : A.LSOK) (hLB : B.LSOK) (m : Mem K) (hb : m.Bdd) (y : Nat → Nat → K)
    (hA : A.Holds m y) (hlB : B.Live m) (hd : A.AliasOK B) :
    ∃ m', MView.assignMulX al x A B m = some m' ∧ B.Becomes m m' (fun i j => x * y i j) := by
  unfold MView.assignMulX
  obtain ⟨m1, e1, b1⟩ := assign_spec hal A B hcs hrs hW hLA hLB m hb y hA hlB hd
  obtain ⟨m2, e2, b2⟩ := mat_mulX_spec x B m1 y hW hLB b1.1
  exact ⟨m2, by rw [e1]; exact e2, b1.trans b2⟩

/-! ### `B += x*A` -/

private theorem rowAdd_spec (rm : Bool) (x : K) (A B : MView) (hcs : A.cs = B.cs) (hrs : A.rs = B.rs)
    (hr : rm = true → A.sj = 1 ∧ B.sj = 1) (m : Mem K) (y z : Nat → Nat → K) (hW : B.WF) (hc : B.conj = false)
    (hA : A.Holds m y) (hB : B.Holds m z) (hd : A.Disjoint B) :
    ∃ m', MView.rowAdd rm x A B m = some m' ∧ B.Becomes m m' (fun i j => z i j + x * y i j) := by
  unfold MView.rowAdd
  dsimp only
  rw [hcs]
  refine rows_spec _ B hW.1 m _ ?_
  intro i hi m1 h1 h2
  have e1 : (if rm = true then 1 else A.sj) = A.sj := by
    split
    · rename_i h; exact (hr h).1.symm
    · rfl
  have e2 : (if rm = true then 1 else B.sj) = B.sj := by
    split
    · rename_i h; exact (hr h).2.symm
    · rfl
  have hAi : (A.row i).Holds m1 (y i) := by
    intro j hj
    rw [← hA i j (by omega) hj, VView.cref, MView.cref, Mem.read, Mem.read]
    exact congrArg _ (h1 _ (hd _ ⟨i, j, by omega, hj, rfl⟩))
  have hBi : (B.row i).Holds m1 (z i) := by
    intro j hj
    rw [← hB i j hi hj, VView.cref, MView.cref, Mem.read, Mem.read]
    exact congrArg _ (h2 i j le_rfl hi hj)
  have dis : (A.row i).Disjoint (B.row i) := by
    rintro a ⟨j, hj, e⟩ ⟨j', hj', e'⟩
    exact hd a ⟨i, j, by omega, hj, e⟩ ⟨i, j', hi, hj', e'⟩
  obtain ⟨m2, p, q, r⟩ := loop2_becomes
    (fun a b => if x = 1 then b + cj A.conj a else b + x * cj A.conj a) (A.row i) (B.row i) m1 (y i) hrs
    (hW.row hi) (Ahead.of_noClash hrs (NoClash.of_disjoint dis)) hAi hBi.live
  rw [e1, e2, hrs]
  refine ⟨m2, p, VView.Holds.of_raw fun j hj => ?_, q⟩
  rw [r j hj _ (hBi.rawA j hj)]
  show some (if x = 1 then cj B.conj (z i j) + cj A.conj (cj A.conj (y i j))
    else cj B.conj (z i j) + x * cj A.conj (cj A.conj (y i j))) = some (cj B.conj _)
  rw [cj_cj, hc]
  by_cases h : x = 1
  · simp [h, cj]
  · simp [h, cj]

private theorem doAdd_spec (x : K) (A B : MView) (hcs : A.cs = B.cs) (hrs : A.rs = B.rs) (m : Mem K)
    (y z : Nat → Nat → K) (hW : B.WF) (hLA : A.LSOK) (hLB : B.LSOK) (hc : B.conj = false)
    (hA : A.Holds m y) (hB : B.Holds m z) (hd : A.Disjoint B) :
    ∃ m', MView.doAdd x A B m = some m' ∧ B.Becomes m m' (fun i j => z i j + x * y i j) := by
  unfold MView.doAdd
  have tr : ∀ rm, (rm = true → A.si = 1 ∧ B.si = 1) → ∃ m', MView.rowAdd rm x A.transpose B.transpose m = some m' ∧
      B.Becomes m m' (fun i j => z i j + x * y i j) := by
    intro rm hr
    obtain ⟨m', a, b⟩ := rowAdd_spec rm x A.transpose B.transpose hrs hcs hr m _ _ hW.transpose hc hA.transpose
      hB.transpose hd.transpose
    exact ⟨m', a, b.of_transpose⟩
  by_cases h1 : A.canLinearize ∧ B.canLinearize ∧ A.si = B.si ∧ A.sj = B.sj
  · rw [if_pos h1]
    obtain ⟨u, hu, eu⟩ := hA.linear hLA h1.1
    obtain ⟨v, hv, ev⟩ := hB.linear hLB h1.2.1
    have hn : A.linearView.size = B.linearView.size := by
      rw [(linearView_spec (K := K) A hLA h1.1).1, (linearView_spec (K := K) B hLB h1.2.1).1, hcs, hrs]
    have dis : A.linearView.Disjoint B.linearView := by
      intro a p q
      exact hd a ((linearView_covers hLA h1.1 a).mp p) ((linearView_covers hLB h1.2.1 a).mp q)
    obtain ⟨m', a, b⟩ := addVV_spec x A.linearView B.linearView m u v hn (linearView_wf B)
      (SafeOrder.of_noClash hn (NoClash.of_disjoint dis)) hu hv
    refine ⟨m', a, (MView.Becomes.of_linear hLB h1.2.1 b).congr (fun i j hi hj => ?_)⟩
    rw [ev i j hi hj, ← eu i j (by omega) (by omega), linIdx_congr hcs hrs h1.2.2.1 h1.2.2.2]
  rw [if_neg h1]
  by_cases h2 : A.isrm ∧ B.isrm
  · rw [if_pos h2]
    exact rowAdd_spec true x A B hcs hrs (fun _ => by simpa [MView.isrm] using h2) m y z hW hc hA hB hd
  rw [if_neg h2]
  by_cases h3 : A.iscm ∧ B.iscm
  · rw [if_pos h3]
    exact tr true (fun _ => by simpa [MView.iscm] using h3)
  rw [if_neg h3]
  split
  · exact rowAdd_spec false x A B hcs hrs (fun h => by cases h) m y z hW hc hA hB hd
  · exact tr false (fun h => by cases h)

private theorem addMMnc_spec {al : Alloc K} (hal : al.OK) (x : K) (A B : MView) (hcs : A.cs = B.cs)
    (hrs : A.rs = B.rs) (m : Mem K) (hb : m.Bdd) (h0 : 0 < B.cs) (h0' : 0 < B.rs)
    (y z : Nat → Nat → K) (hW : B.WF) (hLA : A.LSOK) (hLB : B.LSOK) (hc : B.conj = false)
    (hA : A.Holds m y) (hB : B.Holds m z) (hd : A.AliasOK B) :
    ∃ m', MView.addMMnc al x A B m = some m' ∧ B.Becomes m m' (fun i j => z i j + x * y i j) := by
  unfold MView.addMMnc
  by_cases hs : A.sameStorage B = true
  · rw [if_pos hs]
    refine withTempM hal _ _ m hb B hB.live _ ?_
    intro t m0 T
    dsimp only
    obtain ⟨m1, e1, v1, T1⟩ := T.copyOf hal B.isrm (by omega) (by omega) hLA y hA
    obtain ⟨m2, e2, b2⟩ := doAdd_spec x (MView.ofStor t A.cs A.rs B.isrm) B hcs hrs m1 y z hW (lsok_ofStor _ _ _ _) hLB
      hc v1 (T1.holdsM hB) (fun a p q => T1.disjM B.isrm hB.live a q p)
    refine ⟨m2, by rw [e1]; exact e2, b2.1, fun a ha ha' => ?_⟩
    rw [b2.2 a ha, T1.off a ha', T.off a ha']
  · rw [if_neg hs]
    refine doAdd_spec x A B hcs hrs m y z hW hLA hLB hc hA hB (hd.resolve_right ?_)
    simpa [MView.sameStorage] using hs

/-- **C70 / C41** (`B += x*A`, `B -= x*A`).  The result is the old `B` plus `x` times the old `A`, for every layout and
conjugation, when `A` and `B` share no element or start at the same element (`B += B.transpose()`, ...). -/
theorem mat_addMM_spec {al : Alloc K} (hal : al.OK) (x : K) (A B : MView) (hcs : A.cs = B.cs)
    (hrs : A.rs = B.rs) (m : Mem K) (hb : m.Bdd)
    (y z : Nat → Nat → K) (hW : B.WF) (hLA : A.LSOK) (hLB : B.LSOK)
    (hA : A.Holds m y) (hB : B.Holds m z) (hd : A.AliasOK B) :
    ∃ m', MView.addMM al x A B m = some m' ∧ B.Becomes m m' (fun i j => z i j + x * y i j) := by
  unfold MView.addMM
  by_cases h : x ≠ 0 ∧ B.cs > 0 ∧ B.rs > 0
  · rw [if_pos h]
    by_cases hc : B.conj = true
    · rw [if_pos hc]
      obtain ⟨m', a, b⟩ := addMMnc_spec hal (star x) A.conjugate B.conjugate hcs hrs m hb h.2.1 h.2.2 _ _ hW hLA hLB
        (by simp [MView.conjugate, hc]) (MView.Holds.conjugate.mp hA) (MView.Holds.conjugate.mp hB) hd
      exact ⟨m', a, MView.Becomes.of_conjugate (b.congr (fun i j _ _ => by rw [star_add, star_mul']))⟩
    · rw [if_neg hc]
      exact addMMnc_spec hal x A B hcs hrs m hb h.2.1 h.2.2 y z hW hLA hLB (by simpa using hc) hA hB hd
  · rw [if_neg h]
    refine ⟨m, rfl, MView.Becomes.refl fun i j hi hj => ?_⟩
    have : x = 0 := by by_contra h'; exact h ⟨h', by omega, by omega⟩
    rw [hB i j hi hj, this, zero_mul, add_zero]

/-- **C70 / C41** (`C = x*A + y*B`).  The result is computed from the old values, for every layout and
conjugation, when each operand shares no element with `C` or starts at the first element of `C`; nothing else
changes. -/
theorem mat_addMM3_spec {al : Alloc K} (hal : al.OK) (x : K) (A : MView) (y : K) (B C : MView)
    (hAc : A.cs = C.cs) (hAr : A.rs = C.rs) (hBc : B.cs = C.cs) (hBr : B.rs = C.rs) (m : Mem K) (hb : m.Bdd)
    (p q : Nat → Nat → K) (hW : C.WF) (hLA : A.LSOK) (hLB : B.LSOK) (hLC : C.LSOK)
    (hA : A.Holds m p) (hB : B.Holds m q) (hC : C.Live m) (hdA : A.AliasOK C) (hdB : B.AliasOK C) :
    ∃ m', MView.addMM3 al x A y B C m = some m' ∧ C.Becomes m m' (fun i j => x * p i j + y * q i j) := by
  unfold MView.addMM3
  by_cases h0 : C.cs > 0 ∧ C.rs > 0
  swap
  · rw [if_neg h0]
    exact ⟨m, rfl, fun i j hi hj => absurd ⟨by omega, by omega⟩ h0, fun _ _ => rfl⟩
  rw [if_pos h0]
  -- `C = U; C *= u; C += v*V` with `V` not overlapping `C`
  have seq : ∀ (m : Mem K), m.Bdd → C.Live m → ∀ (u : K) (U : MView) (v : K) (V : MView) (r s : Nat → Nat → K),
      U.cs = C.cs → U.rs = C.rs → V.cs = C.cs → V.rs = C.rs → U.LSOK → V.LSOK → U.Holds m r → V.Holds m s →
      U.AliasOK C → V.Disjoint C →
      ∃ m', ((MView.assign al U C m).bind fun m => (C.mulX u m).bind fun m => MView.addMM al v V C m) = some m' ∧
        C.Becomes m m' (fun i j => u * r i j + v * s i j) := by
    intro m hb hC u U v V r s h1 h2 h3 h4 h5 h6 h7 h8 h9 h10
    obtain ⟨m1, e1, b1⟩ := assign_spec hal U C h1 h2 hW h5 hLC m hb r h7 hC h9
    obtain ⟨m2, e2, b2⟩ := mat_mulX_spec u C m1 r hW hLC b1.1
    have b12 := b1.trans b2
    obtain ⟨m3, e3, b3⟩ := mat_addMM_spec hal v V C h3 h4 m2 (b12.bdd hC hb) s _ hW h6 hLC
      (h8.frame b12.2 h10) b2.1 (Or.inl h10)
    exact ⟨m3, by rw [e1, Option.bind_some, e2]; exact e3, b12.trans b3⟩
  by_cases hsA : A.sameStorage C = true
  · rw [if_pos hsA]
    by_cases hsB : B.sameStorage C = true
    · rw [if_pos hsB]
      refine withTempM hal _ _ m hb C hC _ ?_
      intro t m0 T
      dsimp only
      obtain ⟨m1, e1, v1, T1⟩ := T.copyOf hal A.isrm (by omega) (by omega) hLA p hA
      obtain ⟨m2, e2, b2⟩ := seq m1 T1.bdd (T1.liveM hC) y B x (MView.ofStor t A.cs A.rs A.isrm) q p hBc hBr hAc hAr hLB
        (lsok_ofStor _ _ _ _) (T1.holdsM hB) v1 hdB (fun a u v => T1.disjM A.isrm hC a v u)
      refine ⟨m2, by rw [e1]; exact e2, b2.1.congr (fun i j _ _ => add_comm _ _), fun a ha ha' => ?_⟩
      rw [b2.2 a ha, T1.off a ha', T.off a ha']
    · rw [if_neg hsB]
      exact seq m hb hC x A y B p q hAc hAr hBc hBr hLA hLB hA hB hdA
        (hdB.resolve_right (by simpa [MView.sameStorage] using hsB))
  · rw [if_neg hsA]
    obtain ⟨m', e, b⟩ := seq m hb hC y B x A q p hBc hBr hAc hAr hLB hLA hB hA hdB
        (hdA.resolve_right (by simpa [MView.sameStorage] using hsA))
    exact ⟨m', e, b.congr (fun i j _ _ => add_comm _ _)⟩

/-! ### Element-wise product -/

/-- The operand `A` and the result `C` share no element, or are the same matrix up to conjugation. -/
def MView.SameOrDisjoint (A C : MView) : Prop :=
  A.Disjoint C ∨ (A.ptr = C.ptr ∧ A.si = C.si ∧ A.sj = C.sj)

/-- **C70** (`C = x*ElemProd(A,B)`, `C += x*ElemProd(A,B)`), for every layout and conjugation.  Partial: a plain
assignment needs `x ≠ 0` (`elemProd_zero_violated`), and operands that overlap `C` without being `C` itself (up to
conjugation) are not covered. -/
theorem mat_elemMul_spec_partial (t : Nat → Int) (junk : Int → K) (add : Bool) (x : K) (A B C : MView)
    (hAc : A.cs = C.cs) (hAr : A.rs = C.rs) (hBc : B.cs = C.cs) (hBr : B.rs = C.rs) (m : Mem K)
    (p q r : Nat → Nat → K) (hW : C.WF) (hLA : A.LSOK) (hLB : B.LSOK) (hLC : C.LSOK)
    (hx : add = true ∨ x ≠ 0)
    (hA : A.Holds m p) (hB : B.Holds m q) (hC : C.Holds m r) (hdA : A.SameOrDisjoint C)
    (hdB : B.SameOrDisjoint C) :
    ∃ m', MView.elemMul t junk add x A B C m = some m' ∧
      C.Becomes m m' (fun i j => if add then r i j + x * (p i j * q i j) else x * (p i j * q i j)) := by
  have sizes : ∀ (A : MView), A.cs = C.cs → A.rs = C.rs → A.LSOK → A.canLinearize = true → C.canLinearize = true →
      A.linearView.size = C.linearView.size := by
    intro A h1 h2 h3 h4 h5
    rw [(linearView_spec (K := K) A h3 h4).1, (linearView_spec (K := K) C hLC h5).1, h1, h2]
  have keepR : ∀ (A : MView) (p : Nat → Nat → K), A.cs = C.cs → A.rs = C.rs → A.Holds m p → A.SameOrDisjoint C →
      ∀ i, i < C.cs → ∀ m1 : Mem K, (∀ a, ¬ C.Covers a → m1 a = m a) →
      (∀ i' j : Nat, i ≤ i' → i' < C.cs → j < C.rs → m1 (C.addr i' j) = m (C.addr i' j)) →
      (A.row i).Holds m1 (p i) ∧ TMV.SameOrDisjoint (A.row i) (C.row i) := by
    intro A p h1 h2 h3 h4 i hi m1 h5 h6
    constructor
    · intro j hj
      rw [← h3 i j (by omega) hj, VView.cref, MView.cref, Mem.read, Mem.read]
      refine congrArg _ ?_
      rcases h4 with h4 | ⟨h4, h4', h4''⟩
      · exact h5 _ (h4 _ ⟨i, j, by omega, hj, rfl⟩)
      · have : (A.row i).addr j = C.addr i j := by simp only [MView.row, VView.addr, MView.addr, h4, h4', h4'']
        have e2 : A.addr i j = C.addr i j := this
        rw [this, e2]; exact h6 i j le_rfl hi (by rw [← h2]; exact hj)
    · rcases h4 with h4 | ⟨h4, h4', h4''⟩
      · left
        rintro a ⟨j, hj, e⟩ ⟨j', hj', e'⟩
        exact h4 a ⟨i, j, by omega, hj, e⟩ ⟨i, j', hi, hj', e'⟩
      · right; simp only [MView.row, h4, h4', h4'', and_self]
  have keepC : ∀ (A : MView) (p : Nat → Nat → K), A.cs = C.cs → A.rs = C.rs → A.Holds m p → A.SameOrDisjoint C →
      ∀ j, j < C.rs → ∀ m1 : Mem K, (∀ a, ¬ C.Covers a → m1 a = m a) →
      (∀ i j' : Nat, j ≤ j' → j' < C.rs → i < C.cs → m1 (C.addr i j') = m (C.addr i j')) →
      (A.col j).Holds m1 (fun i => p i j) ∧ TMV.SameOrDisjoint (A.col j) (C.col j) := by
    intro A p h1 h2 h3 h4 j hj m1 h5 h6
    constructor
    · intro i hi
      rw [← h3 i j hi (by omega), VView.cref, MView.cref, Mem.read, Mem.read, A.col_addr]
      refine congrArg _ ?_
      rcases h4 with h4 | ⟨h4, h4', h4''⟩
      · exact h5 _ (h4 _ ⟨i, j, hi, by omega, rfl⟩)
      · have e2 : A.addr i j = C.addr i j := by simp only [MView.addr, h4, h4', h4'']
        rw [e2]; exact h6 i j le_rfl hj (by rw [← h1]; exact hi)
    · rcases h4 with h4 | ⟨h4, h4', h4''⟩
      · left
        rintro a ⟨i, hi, e⟩ ⟨i', hi', e'⟩
        exact h4 a ⟨i, j, hi, by omega, by rw [e, A.col_addr]⟩ ⟨i', j, hi', hj, by rw [e', C.col_addr]⟩
      · right; simp only [MView.col, h4, h4', h4'', and_self]
  unfold MView.elemMul
  by_cases h1 : A.canLinearize ∧ B.canLinearize ∧ C.canLinearize ∧ A.si = C.si ∧ A.sj = C.sj ∧ B.si = C.si ∧
      B.sj = C.sj
  · rw [if_pos h1]
    obtain ⟨lA, lB, lC, s1, s2, s3, s4⟩ := h1
    obtain ⟨u, hu, eu⟩ := hA.linear hLA lA
    obtain ⟨v, hv, ev⟩ := hB.linear hLB lB
    obtain ⟨w, hw, ew⟩ := hC.linear hLC lC
    have sd : ∀ (A : MView), A.LSOK → A.canLinearize = true → A.SameOrDisjoint C →
        TMV.SameOrDisjoint A.linearView C.linearView := by
      intro A h1 h2 h3
      rcases h3 with h3 | ⟨h3, _⟩
      · left; intro a p q
        exact h3 a ((linearView_covers h1 h2 a).mp p) ((linearView_covers hLC lC a).mp q)
      · right; exact ⟨h3, rfl⟩
    obtain ⟨m', a, b⟩ := elemMulVV_same t junk add x A.linearView B.linearView C.linearView m u v w hx
      (sizes A hAc hAr hLA lA lC) (sizes B hBc hBr hLB lB lC) (linearView_wf C) (sd A hLA lA hdA) (sd B hLB lB hdB)
      hu hv hw
    refine ⟨m', a, (MView.Becomes.of_linear hLC lC b).congr (fun i j hi hj => ?_)⟩
    have e1 := eu i j (by omega) (by omega)
    have e2 := ev i j (by omega) (by omega)
    rw [linIdx_congr hAc hAr s1 s2] at e1
    rw [linIdx_congr hBc hBr s3 s4] at e2
    simp only [elemVal, e1, e2, ew i j hi hj]
  rw [if_neg h1]
  split
  · refine rows_spec _ C hW.1 m _ ?_
    intro i hi m1 k1 k2
    obtain ⟨a1, a2⟩ := keepR A p hAc hAr hA hdA i hi m1 k1 k2
    obtain ⟨b1, b2⟩ := keepR B q hBc hBr hB hdB i hi m1 k1 k2
    obtain ⟨c1, _⟩ := keepR C r rfl rfl hC (Or.inr ⟨rfl, rfl, rfl⟩) i hi m1 k1 k2
    exact elemMulVV_same t junk add x (A.row i) (B.row i) (C.row i) m1 _ _ _ hx hAr hBr (hW.row hi) a2 b2 a1 b1 c1
  · refine cols_spec _ C hW.1 m _ ?_
    intro j hj m1 k1 k2
    obtain ⟨a1, a2⟩ := keepC A p hAc hAr hA hdA j hj m1 k1 k2
    obtain ⟨b1, b2⟩ := keepC B q hBc hBr hB hdB j hj m1 k1 k2
    obtain ⟨c1, _⟩ := keepC C r rfl rfl hC (Or.inr ⟨rfl, rfl, rfl⟩) j hj m1 k1 k2
    exact elemMulVV_same t junk add x (A.col j) (B.col j) (C.col j) m1 _ _ _ hx hAc hBc (hW.col hj) a2 b2 a1 b1 c1

end TMV
