import Verif.Props.TriSum

/-! Sums of triangular matrices with triangular and full ones (`Model/TriSum`).  Properties C120-C122. -/
set_option linter.unusedSectionVars false
set_option linter.unusedVariables false
namespace TMV
variable {K : Type _} [CommRing K] [StarRing K] [DecidableEq K]

/-! ### C120: `C = x*A + y*B`, all triangular -/

theorem TView.Has.holdsNU {M : TView} {m : Mem K} {y : Nat → Nat → K} (h : M.Has m y) (hu : M.unit = false) :
    M.Holds m (fun i j => if i ≤ j then y i j else 0) := by
  refine TView.Has.holds (h.congr fun i j hij => ?_) (fun i j _ hj => if_neg (by omega)) (fun h' => by rw [hu] at h'; cases h')
  rw [TView.in_iff, hu, ub_false] at hij
  rw [if_pos (by omega)]

theorem in_le {M : TView} {i j : Nat} (h : M.In i j) : i ≤ j := by
  have := ub_range M.unit
  rw [TView.in_iff] at h; omega

theorem tri_addUUnc_spec {al : Alloc K} (hal : al.OK) (x y : K) (A B C : TView) (hnA : A.n = C.n) (hnB : B.n = C.n) (hWA : A.WF)
    (hWB : B.WF) (hWC : C.WF) (hua : A.unit = false) (hub : B.unit = false) (huc : C.unit = false)
    (hdA : A.Sep C ∨ (A.ptr = C.ptr ∧ A.NoClash C)) (hdB : B.Sep C ∨ (B.ptr = C.ptr ∧ B.NoClash C)) (m : Mem K) (hb : m.Bdd)
    (p q : Nat → Nat → K) (hA : A.Has m p) (hB : B.Has m q) (hC : C.Live m) :
    ∃ m', TView.addUUnc al x A y B C m = some m' ∧ C.Gets m m' (fun i j => x * p i j + y * q i j) := by
  unfold TView.addUUnc
  by_cases h0 : C.n = 0
  · rw [if_pos h0]
    exact ⟨m, rfl, fun i j hij => by have := hij.1; have := hij.2.1; omega, fun _ _ => rfl⟩
  rw [if_neg h0]
  have noclash : ∀ {U : TView}, U.Sep C ∨ (U.ptr = C.ptr ∧ U.NoClash C) → U.NoClash C := fun h => h.elim TView.Sep.noClash And.right
  -- `C = u*U; C += v*V` with `V` not overlapping `C`
  have seq : ∀ (m : Mem K), m.Bdd → C.Live m → ∀ (u : K) (U : TView) (v : K) (V : TView) (r s : Nat → Nat → K),
      U.n = C.n → V.n = C.n → U.WF → V.WF → U.unit = false → V.unit = false → U.Has m r → V.Has m s → U.NoClash C → V.Sep C →
      ∃ m', ((TView.assignMulX u U C m).bind fun m => TView.addMM al v V C m) = some m' ∧ C.Gets m m' (fun i j => u * r i j + v * s i j) := by
    intro m hb hC u U v V r s h1 h2 h3 h4 h5 h6 h7 h8 h9 h10
    obtain ⟨m1, e1, b1⟩ := tri_assignMulX_gets u U C h1 h3 hWC (fun h => by rw [huc] at h; cases h) h9 m _ (h7.holdsNU h5) hC
    have h8' := (h8.holdsNU h6).frame (m' := m1) fun a ha => b1.2 a (h10 a ha)
    obtain ⟨m2, e2, b2⟩ := tri_addMM_gets hal v V C h2 h4 hWC huc (Or.inl h10) m1 (b1.bdd hC hb) _ _ h8' b1.1
    refine ⟨m2, by rw [e1]; exact e2, b1.trans b2 |>.congr fun i j hij => ?_⟩
    rw [if_pos (in_le hij), if_pos (in_le hij)]
  by_cases hsA : A.sameStorage C = true
  · rw [if_pos hsA]
    by_cases hsB : B.sameStorage C = true
    · rw [if_pos hsB]
      refine withTempT hal _ _ m hb C hC _ ?_
      intro t m0 T
      dsimp only
      obtain ⟨w, l, cov⟩ := temp_tri T A.isrm false
      obtain ⟨m1, e1, b1⟩ := tri_assignMulX_gets x A (TView.ofStor t A.n A.isrm false) rfl hWA w (fun h => by cases h)
        (T.sepT hA.live cov).symm.noClash m0 _ ((T.hasT hA).holdsNU hua) l
      have T1 := T.after b1 cov
      obtain ⟨m2, e2, b2⟩ := seq m1 T1.bdd (T1.liveT hC) y B 1 (TView.ofStor t A.n A.isrm false) q _ hnB hnA hWB w hub rfl
        (T1.hasT hB) b1.1 (noclash hdB) (T.sepT hC cov)
      refine ⟨m2, by rw [e1]; exact e2, b2.1.congr (fun i j hij => ?_), fun a ha ha' => ?_⟩
      · rw [if_pos (in_le hij)]; ring
      · rw [b2.2 a ha, T1.off a ha', T.off a ha']
    · rw [if_neg hsB]
      exact seq m hb hC x A y B p q hnA hnB hWA hWB hua hub hA hB (noclash hdA)
        (hdB.resolve_right fun h => by simp [TView.sameStorage] at hsB; exact hsB h.1)
  · rw [if_neg hsA]
    obtain ⟨m', e, b⟩ := seq m hb hC y B x A q p hnB hnA hWB hWA hub hua hB hA (noclash hdB)
        (hdA.resolve_right fun h => by simp [TView.sameStorage] at hsA; exact hsA h.1)
    exact ⟨m', e, b.congr fun i j _ => add_comm _ _⟩

theorem TView.AliasOK.noClash {A C : TView} (h : A.AliasOK C) (hn : A.n = C.n) (hW : C.WF) (huc : C.unit = false) : A.NoClash C := by
  rcases h with h | h | h
  · exact h.noClash
  · intro i j i' j' h1 h2 e
    refine hW.1 _ _ _ _ ?_ h2 ?_
    · have := ub_range A.unit
      rw [TView.in_iff] at h1 ⊢
      rw [huc, ub_false, ← hn]; omega
    · rw [← e, TView.addr, TView.addr, h.1, h.2.1, h.2.2]
  · exact h.2.1

theorem TView.AliasOK.offDiag {A C : TView} (h : A.AliasOK C) (hn : A.n = C.n) (hW : C.WF) :
    (A.offDiag 1).Sep (C.offDiag 1) ∨ ((A.offDiag 1).ptr = (C.offDiag 1).ptr ∧ (A.offDiag 1).NoClash (C.offDiag 1)) := by
  rcases h with h | h | h
  · exact Or.inl h.offDiag
  · refine Or.inr ⟨by simp [TView.offDiag, h], ?_⟩
    apply TView.AliasOK.noClash (Or.inr (Or.inl (by simp [TView.offDiag, h]))) (by simp [TView.offDiag, hn]) (tri_offDiag_wf hW) rfl
  · exact Or.inl h.2.2

/-- **C120** (`C = x*A + y*B` for upper triangular matrices; lower triangular ones go through the transpose).  The result is computed from
the old values for every layout, conjugation and diagonal type of the operands, when each operand shares no element with `C`, or is the
same triangle, or shares only the diagonal with it; nothing else changes.  Partial: if both operands have an implicit diagonal and
`C` is a conjugated view whose diagonal is contiguous, `x + y` must be real (`setAllTo` of a contiguous conjugated vector, C05). -/
theorem tri_addUU_partial {al : Alloc K} (hal : al.OK) (x y : K) (A B C : TView) (hnA : A.n = C.n) (hnB : B.n = C.n) (hWA : A.WF)
    (hWB : B.WF) (hWC : C.WF) (huc : C.unit = false) (hdA : A.AliasOK C) (hdB : B.AliasOK C) (m : Mem K) (hb : m.Bdd)
    (p q : Nat → Nat → K) (hA : A.Holds m p) (hB : B.Holds m q) (hC : C.Live m)
    (hset : A.unit = true → B.unit = true → C.conj = false ∨ star (x + y) = x + y ∨ 1 < |C.si + C.sj|) :
    ∃ m', TView.addUU al x A y B C m = some m' ∧ C.Becomes m m' (fun i j => x * p i j + y * q i j) := by
  have fin : ∀ m', C.Gets m m' (fun i j => x * p i j + y * q i j) → C.Becomes m m' (fun i j => x * p i j + y * q i j) := fun m' h =>
    h.becomes (fun i j hi hj => by rw [hA.low (by omega) hj, hB.low (by omega) hj, mul_zero, mul_zero, add_zero])
      (fun h => by rw [huc] at h; cases h)
  unfold TView.addUU
  by_cases h0 : C.n = 0
  · rw [if_pos h0]
    exact ⟨m, rfl, fin m ⟨fun i j hij => by have := hij.1; have := hij.2.1; omega, fun _ _ => rfl⟩⟩
  rw [if_neg h0]
  by_cases hu : A.unit = true ∨ B.unit = true
  swap
  · rw [if_neg hu]
    simp only [not_or, Bool.not_eq_true] at hu
    obtain ⟨m', e, b⟩ := tri_addUUnc_spec hal x y A B C hnA hnB hWA hWB hWC hu.1 hu.2 huc
      (hdA.elim Or.inl fun h => Or.inr ⟨h.elim (·.1) (·.1), hdA.noClash hnA hWC huc⟩)
      (hdB.elim Or.inl fun h => Or.inr ⟨h.elim (·.1) (·.1), hdB.noClash hnB hWC huc⟩) m hb p q hA.has hB.has hC
    exact ⟨m', e, fin m' b⟩
  rw [if_pos hu]
  -- the part above the diagonal
  have off : ∃ m1, (if A.n > 1 then TView.addUUnc al x (A.offDiag 1) y (B.offDiag 1) (C.offDiag 1) m else some m) = some m1 ∧
      (C.offDiag 1).Gets m m1 (fun i j => x * p i (j+1) + y * q i (j+1)) := by
    by_cases h1 : A.n > 1
    · rw [if_pos h1]
      exact tri_addUUnc_spec hal x y (A.offDiag 1) (B.offDiag 1) (C.offDiag 1) (by simp [TView.offDiag, hnA])
        (by simp [TView.offDiag, hnB]) (tri_offDiag_wf hWA) (tri_offDiag_wf hWB) (tri_offDiag_wf hWC) rfl rfl rfl (hdA.offDiag hnA hWC)
        (hdB.offDiag hnB hWC) m hb _ _ hA.has.offDiag hB.has.offDiag
        (fun i j hij => by rw [tri_offDiag_addr]; exact hC _ _ ((tri_offDiag_in C i j).mp hij).1)
    · rw [if_neg h1]
      refine ⟨m, rfl, fun i j hij => ?_, fun _ _ => rfl⟩
      have := (tri_offDiag_in C i j).mp hij
      rw [TView.in_iff] at this
      omega
  obtain ⟨m1, e1, b1⟩ := off
  rw [e1]
  simp only [Option.bind_some]
  have hl1 : C.Live m1 := TView.Live.after b1 hC
  have ends : ∀ m2, (∀ k : Nat, k < C.n → C.cref m2 k k = some (x * p k k + y * q k k)) → C.diag.Frame m1 m2 →
      C.Becomes m m2 (fun i j => x * p i j + y * q i j) := by
    intro m2 h1 h2
    refine fin m2 (tri_glue hWC huc h1 (b1.1.frame fun a ha => h2 a fun h => diag_off hWC huc h ha) fun a ha => ?_)
    rw [h2 a fun h => ha (tri_diag_covers C huc h), b1.2 a fun h => ha (offDiag_covers h)]
  have dcref : ∀ (M : TView) (m : Mem K) (k : Nat), M.unit = false → k < M.n → M.diag.cref m k = M.cref m k k := by
    intro M m k hM hk
    rw [tri_cref_in M _ _ _ (tri_diag_in M hM k hk), VView.cref, tri_diag_addr]; rfl
  -- `C.diag() = y*B.diag()` then `addToAll(x)`
  have two : ∀ (B : TView) (y x : K) (q : Nat → Nat → K), B.n = C.n → B.unit = false → B.AliasOK C → B.Holds m q →
      ∃ m2, ((VView.mulXV y B.diag C.diag m1).bind fun m => C.diag.addToAll x m) = some m2 ∧
        (∀ k : Nat, k < C.n → C.cref m2 k k = some (y * q k k + x)) ∧ C.diag.Frame m1 m2 := by
    intro B y x q hnB hub hdB hB
    have nc := hdB.noClash hnB hWC huc
    have hBd : B.diag.Holds m1 (fun k => q k k) := by
      intro k hk
      have hin := tri_diag_in B hub k hk
      rw [dcref B m1 k hub hk, ← hB k k hk hk, tri_cref_in B _ _ _ hin, tri_cref_in B _ _ _ hin, b1.2]
      rintro ⟨i, j, hij, e⟩
      rw [tri_offDiag_addr] at e
      have h' := (tri_offDiag_in C i j).mp hij
      have := nc _ _ _ _ hin h'.1 e
      omega
    have ncd : NoClash B.diag C.diag := by
      intro i j hi hj e
      rw [tri_diag_addr, tri_diag_addr] at e
      have := nc _ _ _ _ (tri_diag_in B hub i hi) (tri_diag_in C huc j hj) e
      omega
    obtain ⟨m2, e2, b2⟩ := mulXV_spec y B.diag C.diag m1 _ hnB (tri_diag_wf C hWC) (SafeOrder.of_noClash hnB ncd) hBd (tri_diag_live C huc hl1)
    obtain ⟨m3, e3, c3, f3⟩ := addToAll_spec_partial C.diag x m2 (tri_diag_wf C hWC) b2.1.live (Or.inl hWC.2.2)
    refine ⟨m3, by rw [e2]; exact e3, fun k hk => ?_, fun a ha => by rw [f3 a ha, b2.2 a ha]⟩
    rw [← dcref C m3 k huc hk, c3 k hk, b2.1 k hk]; rfl
  by_cases huu : A.unit = true ∧ B.unit = true
  · rw [if_pos huu]
    obtain ⟨m2, e2, v2, f2⟩ := setAllTo_spec_partial C.diag (x + y) m1 (tri_diag_wf C hWC) (tri_diag_live C huc hl1) (hset huu.1 huu.2)
    refine ⟨m2, e2, ends m2 (fun k hk => ?_) f2⟩
    rw [← dcref C m2 k huc hk, v2 k hk, hA.diag1 huu.1 (by omega), hB.diag1 huu.2 (by omega), mul_one, mul_one]
  rw [if_neg huu]
  by_cases hua : A.unit = true
  · rw [if_pos hua]
    obtain ⟨m2, e2, v2, f2⟩ := two B y x q hnB (by cases h : B.unit; rfl; exact absurd ⟨hua, h⟩ huu) hdB hB
    refine ⟨m2, e2, ends m2 (fun k hk => ?_) f2⟩
    rw [v2 k hk, hA.diag1 hua (by omega), mul_one, add_comm]
  · rw [if_neg hua]
    obtain ⟨m2, e2, v2, f2⟩ := two A x y p hnA (by simpa using hua) hdA hA
    refine ⟨m2, e2, ends m2 (fun k hk => ?_) f2⟩
    rw [v2 k hk, hB.diag1 (hu.resolve_left hua) (by omega), mul_one]

/-! ### C121: `C = x*A + y*B`, `A` triangular, `B` and `C` full -/

/-- A square full matrix whose steps are those of a matrix in memory. -/
structure MView.Square (C : MView) (n : Nat) : Prop where
  cs : C.cs = n
  rs : C.rs = n
  wf : C.WF
  ls : C.LSOK
  si : C.si ≠ 0
  sj : C.sj ≠ 0
  ds : C.si + C.sj ≠ 0

/-- The triangular matrix shares no element with the full one. -/
def TView.SepM (A : TView) (C : MView) : Prop := ∀ a, A.Covers a → ¬ C.Covers a

theorem upper_in {C : MView} {n : Nat} (hr : C.rs = n) (i j : Int) : (C.upperTri false).In i j ↔ 0 ≤ i ∧ i ≤ j ∧ j < n := by
  rw [TView.in_iff]
  simp only [MView.upperTri, ub_false]
  omega

theorem upper_covers {C : MView} {n : Nat} (hs : C.Square n) {a : Int} (h : (C.upperTri false).Covers a) : C.Covers a := by
  obtain ⟨i, j, hij, e⟩ := h
  have := (upper_in hs.rs i j).mp hij
  refine ⟨i.toNat, j.toNat, by have := hs.cs; omega, by have := hs.rs; omega, ?_⟩
  rw [e, Int.toNat_of_nonneg (by omega), Int.toNat_of_nonneg (by omega)]; rfl

theorem upper_wf {C : MView} {n : Nat} (hs : C.Square n) : (C.upperTri false).WF := by
  refine ⟨fun i j i' j' h1 h2 e => ?_, Or.inr ⟨hs.si, hs.sj⟩, hs.ds⟩
  have h1' := (upper_in hs.rs i j).mp h1
  have h2' := (upper_in hs.rs i' j').mp h2
  have hc := hs.cs
  have hr := hs.rs
  have := hs.wf.1 i.toNat j.toNat i'.toNat j'.toNat (by omega) (by omega) (by omega) (by omega) (by
    rw [Int.toNat_of_nonneg (by omega), Int.toNat_of_nonneg (by omega), Int.toNat_of_nonneg (by omega), Int.toNat_of_nonneg (by omega)]
    exact e)
  omega

theorem upper_live {C : MView} {n : Nat} (hs : C.Square n) {m : Mem K} (h : C.Live m) : (C.upperTri false).Live m := by
  intro i j hij
  have h1 := (upper_in hs.rs i j).mp hij
  have := h i.toNat j.toNat (by have := hs.cs; omega) (by have := hs.rs; omega)
  rw [Int.toNat_of_nonneg (by omega), Int.toNat_of_nonneg (by omega)] at this
  exact this

theorem upper_cref {C : MView} {n : Nat} (hs : C.Square n) (m : Mem K) (i j : Nat) (hij : i ≤ j) (hj : j < n) :
    (C.upperTri false).cref m i j = C.cref m i j :=
  tri_cref_in (C.upperTri false) m i j ((upper_in hs.rs i j).mpr ⟨by omega, by omega, by omega⟩)

theorem upper_has {C : MView} {n : Nat} (hs : C.Square n) {m : Mem K} {z : Nat → Nat → K} (h : C.Holds m z) : (C.upperTri false).Has m z := by
  intro i j hij
  have h1 := (upper_in hs.rs i j).mp hij
  rw [upper_cref hs m i j (by omega) (by omega)]
  exact h i j (by have := hs.cs; omega) (by have := hs.rs; omega)

/-- An operation on the upper triangle of a full matrix. -/
theorem upper_gets {C : MView} {n : Nat} (hs : C.Square n) {m m' : Mem K} {z w : Nat → Nat → K} (hz : C.Holds m z)
    (h : (C.upperTri false).Gets m m' w) : C.Becomes m m' (fun i j => if i ≤ j then w i j else z i j) := by
  refine ⟨fun i j hi hj => ?_, fun a ha => h.2 a fun hc => ha (upper_covers hs hc)⟩
  have hc := hs.cs
  have hr := hs.rs
  dsimp only
  split
  · rename_i hij
    rw [← upper_cref hs m' i j hij (by omega)]
    exact h.1 i j ((upper_in hs.rs i j).mpr ⟨by omega, by omega, by omega⟩)
  · rename_i hij
    rw [← hz i j hi hj, MView.cref, MView.cref, Mem.read, Mem.read, h.2]
    rintro ⟨i', j', hij', e⟩
    have h1 := (upper_in hs.rs i' j').mp hij'
    have := hs.wf.1 i j i'.toNat j'.toNat hi hj (by omega) (by omega) (by
      rw [Int.toNat_of_nonneg (by omega), Int.toNat_of_nonneg (by omega)]; exact e)
    omega

theorem Temp.afterM' {m m0 m1 : Mem K} {t : Int} {n : Nat} (T : Temp m m0 t n) {N : MView} {y : Nat → Nat → K} (h : N.Becomes m0 m1 y)
    (hN : ∀ a, N.Covers a → t ≤ a ∧ a < t + n) : Temp m m1 t n := by
  refine ⟨T.fresh, fun a ha => by rw [h.2 a fun h => ha (hN a h), T.off a ha], fun a h1 h2 => ?_, ?_⟩
  · by_cases hc : N.Covers a
    · obtain ⟨i, j, hi, hj, rfl⟩ := hc; exact h.1.live i j hi hj
    · rw [h.2 a hc]; exact T.live a h1 h2
  · obtain ⟨b, hb⟩ := T.bdd
    refine ⟨max b (t + n), fun a ha => ?_⟩
    rw [h.2 a fun h => by have := hN a h; omega, hb a (by omega)]

/-- A square matrix in a temporary block. -/
theorem temp_square (t : Int) (n : Nat) (hn : 0 < n) (rm : Bool) : (MView.ofStor t n n rm).Square n := by
  refine ⟨rfl, rfl, ofStor_wf t n n rm hn hn, lsok_ofStor _ _ _ _, ?_, ?_, ?_⟩ <;> cases rm <;> simp [MView.ofStor] <;> omega

/-- The common ending of the two aliased branches: the sum has been put in the temporary `T`, then `C = T`. -/
theorem copy_back {al : Alloc K} (hal : al.OK) {m m0 m1 : Mem K} {t : Int} {C : MView} {n : Nat} (hn : 0 < n) (hs : C.Square n) (rm : Bool)
    (T : Temp m m0 t (C.cs * C.rs)) (hC : C.Live m) (w : Nat → Nat → K) (T1 : Temp m m1 t (C.cs * C.rs))
    (h : (MView.ofStor t C.cs C.rs rm).Holds m1 w) :
    ∃ m2, MView.assign al (MView.ofStor t C.cs C.rs rm) C m1 = some m2 ∧ C.Holds m2 w ∧
      ∀ a, ¬ C.Covers a → ¬ (t ≤ a ∧ a < t + (C.cs * C.rs : Nat)) → m2 a = m0 a := by
  obtain ⟨m2, e, b⟩ := assign_spec hal (MView.ofStor t C.cs C.rs rm) C rfl rfl hs.wf (lsok_ofStor _ _ _ _) hs.ls m1 T1.bdd w h (T1.liveM hC)
    (Or.inl fun a h1 h2 => T1.disjM rm hC a h2 h1)
  exact ⟨m2, e, b.1, fun a h1 h2 => by rw [b.2 a h1, T1.off a h2, T.off a h2]⟩

section
variable {al : Alloc K} (hal : al.OK) (x y : K) (A : TView) (B C : MView) (hs : C.Square A.n) (hWA : A.WF) (hBc : B.cs = A.n) (hBr : B.rs = A.n)
  (hLB : B.LSOK) (m : Mem K) (hb : m.Bdd) (p q : Nat → Nat → K) (hA : A.Holds m p) (hB : B.Holds m q) (hC : C.Live m)
  (hdA : A.SepM C ∨ A.ptr = C.ptr) (hdB : B.AliasOK C)
include hal hs hWA hBc hBr hLB hb hA hB hC hdA hdB

/-- **C121** (`C = x*A + y*B` for an upper triangular `A` and full `B`, `C`; `C = B + A`, `C = B - A` and lower triangular matrices go
through the same function).  The result is computed from the old values for every layout, conjugation and diagonal type, when `A` and `B`
each share no element with `C` or start at its first element.  Partial: not when `A` is in the storage of `C` and `B` is not
(`tri_addUM_alias_violated`). -/
theorem tri_addUM_partial (hcase : A.ptr = C.ptr → B.ptr = C.ptr) :
    ∃ m', TView.addUM al x A y B C m = some m' ∧ C.Becomes m m' (fun i j => x * p i j + y * q i j) := by
  have hcs := hs.cs
  have hrs := hs.rs
  unfold TView.addUM
  by_cases h0 : A.n > 0
  swap
  · rw [if_neg h0]
    exact ⟨m, rfl, fun i j hi hj => by omega, fun _ _ => rfl⟩
  rw [if_pos h0]
  have low : ∀ i j : Nat, i < A.n → (if i ≤ j then y * q i j + x * p i j else y * q i j) = x * p i j + y * q i j := by
    intro i j hi
    split
    · ring
    · rw [hA.low hi (by omega)]; ring
  by_cases h1 : A.ptr = C.ptr
  · rw [if_pos h1, if_pos (hcase h1)]
    refine withTempM hal _ _ m hb C hC _ ?_
    intro t m0 T
    dsimp only
    have hsq : (MView.ofStor t C.cs C.rs C.isrm).Square A.n := by rw [hcs, hrs]; exact temp_square t A.n h0 C.isrm
    have hdT : ∀ {M : MView}, M.Live m → M.Disjoint (MView.ofStor t C.cs C.rs C.isrm) := fun h => T.disjM C.isrm h
    obtain ⟨m1, e1, b1⟩ := mat_assignMulX_spec hal y B (MView.ofStor t C.cs C.rs C.isrm) (by rw [hBc]; exact hcs.symm)
      (by rw [hBr]; exact hrs.symm) hsq.wf hLB hsq.ls m0 T.bdd q (T.holdsM hB) (T.stor C.isrm) (Or.inl (hdT hB.live))
    have T1 := T.afterM' b1 (fun a h => ofStor_in h)
    have hsep : A.Sep ((MView.ofStor t C.cs C.rs C.isrm).upperTri false) := by
      rintro a ⟨i, j, hij, rfl⟩ h
      exact T.nin (hA.has.live i j hij) (ofStor_in (upper_covers hsq h))
    obtain ⟨m2, e2, b2⟩ := tri_addMM_gets hal x A _ (by simp [MView.upperTri, MView.ofStor, hrs]) hWA (upper_wf hsq) rfl (Or.inl hsep) m1
      T1.bdd p _ (T1.holdsT hA) (upper_has hsq b1.1)
    have b3 := upper_gets hsq b1.1 b2
    have T2 := T1.afterM' b3 (fun a h => ofStor_in h)
    obtain ⟨m3, e3, v3, f3⟩ := copy_back hal h0 hs C.isrm T hC _ T2 b3.1
    refine ⟨m3, by rw [e1, Option.bind_some, e2]; exact e3, v3.congr fun i j hi hj => low i j (by omega), f3⟩
  · rw [if_neg h1]
    have hsep : A.SepM C := hdA.resolve_right h1
    obtain ⟨m1, e1, b1⟩ := mat_assignMulX_spec hal y B C (by omega) (by omega) hs.wf hLB hs.ls m hb q hB hC hdB
    obtain ⟨m2, e2, b2⟩ := tri_addMM_gets hal x A (C.upperTri false) (by simp [MView.upperTri, hrs]) hWA (upper_wf hs) rfl
      (Or.inl fun a h h' => hsep a h (upper_covers hs h')) m1 (b1.bdd hC hb) p _ (hA.frame fun a ha => b1.2 a (hsep a ha)) (upper_has hs b1.1)
    refine ⟨m2, by rw [e1]; exact e2, b1.trans (upper_gets hs b1.1 b2) |>.congr fun i j hi hj => low i j (by omega)⟩

/-- **C121** (violated).  When `A` is in the storage of `C` and `B` is not (`C = C.upperTri() + B`), the elements of `C` below the diagonal
are not replaced: `C = x*A + y*B` leaves its old elements there plus `y*B`. -/
theorem tri_addUM_alias_violated (c : Nat → Nat → K) (hCc : C.Holds m c) (h1 : A.ptr = C.ptr) (h2 : B.ptr ≠ C.ptr)
    (hnc : A.NoClash (C.upperTri false)) :
    ∃ m', TView.addUM al x A y B C m = some m' ∧
      C.Becomes m m' (fun i j => if i ≤ j then x * p i j + y * q i j else c i j + y * q i j) := by
  have hcs := hs.cs
  have hrs := hs.rs
  unfold TView.addUM
  by_cases h0 : A.n > 0
  swap
  · rw [if_neg h0]
    exact ⟨m, rfl, fun i j hi hj => by omega, fun _ _ => rfl⟩
  rw [if_pos h0, if_pos h1, if_neg h2]
  have hsep := hdB.resolve_right h2
  obtain ⟨m1, e1, b1⟩ := tri_assignMulX_gets x A (C.upperTri false) (by simp [MView.upperTri, hrs]) hWA (upper_wf hs) (fun h => by cases h)
    hnc m p hA (upper_live hs hC)
  have b1' := upper_gets hs hCc b1
  obtain ⟨m2, e2, b2⟩ := mat_addMM_spec hal y B C (by omega) (by omega) m1 (b1'.bdd hC hb) q _ hs.wf hLB hs.ls
    (hB.frame b1'.2 hsep) b1'.1 hdB
  refine ⟨m2, by rw [e1]; exact e2, b1'.trans b2 |>.congr fun i j _ _ => ?_⟩
  split <;> rfl

end

/-! ### C122: `C = x*A + y*L`, `A` upper triangular, `L` lower triangular, `C` full -/

theorem MView.Square.transpose {C : MView} {n : Nat} (h : C.Square n) : C.transpose.Square n :=
  ⟨h.rs, h.cs, h.wf.transpose, h.ls.transpose, h.sj, h.si, by rw [add_comm]; exact h.ds⟩

/-- `L` reads as the matrix `q`, including the zeros above and the implicit ones on the diagonal. -/
def LView.Holds (M : LView) (m : Mem K) (x : Nat → Nat → K) : Prop :=
  ∀ i j : Nat, i < M.n → j < M.n → M.cref m i j = some (x i j)

theorem LView.Holds.transpose {L : LView} {m : Mem K} {q : Nat → Nat → K} (h : L.Holds m q) : L.transpose.Holds m (fun i j => q j i) := by
  intro i j hi hj
  rw [(lower_transpose L m i j).2.2]
  exact h j i hj hi

theorem lower_zero {C : MView} {n : Nat} (hs : C.Square n) (m : Mem K) (z : Nat → Nat → K) (hz : (C.upperTri false).Has m z) (hl : C.Live m) :
    ∃ m', ((C.lowerTri false).offDiag 1).setZero m = some m' ∧ C.Holds m' (fun i j => if i ≤ j then z i j else 0) ∧
      ∀ a, ¬ C.Covers a → m' a = m a := by
  have hcs := hs.cs
  have hrs := hs.rs
  have hN : ((C.lowerTri false).offDiag 1).setZero m = (((C.transpose.upperTri false).offDiag 1)).setZero m := rfl
  rw [hN]
  have hw := upper_wf hs.transpose
  have hlv : ((C.transpose.upperTri false).offDiag 1).Live m := fun i j hij => by
    rw [tri_offDiag_addr]
    exact upper_live hs.transpose (fun i j hi hj => by rw [C.transpose_addr]; exact hl j i hj hi) _ _ ((tri_offDiag_in _ i j).mp hij).1
  obtain ⟨m', e, c, fr⟩ := tri_setZero_spec _ (tri_offDiag_wf hw) m hlv
  have addrT : ∀ i j : Int, (C.transpose.upperTri false).addr i j = C.addr j i := fun i j => by
    simp only [TView.addr, MView.upperTri, MView.transpose, MView.addr]; ring
  refine ⟨m', e, fun i j hi hj => ?_, fun a ha => fr a fun hc => ha ?_⟩
  · dsimp only
    split
    · rename_i hij
      rw [← upper_cref hs m' i j hij (by omega)]
      have hin := (upper_in hs.rs i j).mpr ⟨by omega, by omega, by omega⟩
      rw [← hz i j hin, tri_cref_in _ _ _ _ hin, tri_cref_in _ _ _ _ hin, fr]
      rintro ⟨i', j', hij', e'⟩
      rw [tri_offDiag_addr, addrT] at e'
      have h1 := (tri_offDiag_in _ i' j').mp hij'
      have h2 := (upper_in hs.transpose.rs i' (j'+1)).mp h1.1
      have := hs.wf.1 i j (j'+1).toNat i'.toNat hi hj (by omega) (by omega) (by
        rw [Int.toNat_of_nonneg (by omega), Int.toNat_of_nonneg (by omega)]; exact e')
      omega
    · rename_i hij
      have hin : ((C.transpose.upperTri false).offDiag 1).In j ((i - 1 : Nat) : Int) := by
        rw [tri_offDiag_in, upper_in hs.transpose.rs]; omega
      have h1 := c j (i - 1 : Nat) hin.1 hin.2.1 hin.2.2.1 hin.2.2.2.1
      rw [tri_cref_in _ _ _ _ hin, tri_offDiag_addr, addrT, show (((i - 1 : Nat) : Int) + 1) = i by omega, if_neg (by simp [TView.offDiag])] at h1
      exact h1
  · obtain ⟨i, j, hij, e'⟩ := hc
    rw [tri_offDiag_addr, addrT] at e'
    have h1 := (tri_offDiag_in _ i j).mp hij
    have h2 := (upper_in hs.transpose.rs i (j+1)).mp h1.1
    exact ⟨(j+1).toNat, i.toNat, by omega, by omega, by rw [e', Int.toNat_of_nonneg (by omega), Int.toNat_of_nonneg (by omega)]⟩

/-- `C = x*A` for a full `C`. -/
theorem tri_assignMulXToM_spec (x : K) (A : TView) (C : MView) (hs : C.Square A.n) (hWA : A.WF) (hnc : A.NoClash (C.upperTri false)) (m : Mem K)
    (p : Nat → Nat → K) (hA : A.Holds m p) (hC : C.Live m) :
    ∃ m', TView.assignMulXToM x A C m = some m' ∧ C.Becomes m m' (fun i j => x * p i j) := by
  have hcs := hs.cs
  have hrs := hs.rs
  unfold TView.assignMulXToM
  dsimp only
  by_cases hu : x = 1 ∧ A.unit = true
  · have e : (decide (x = 1) && A.unit) = true := by simp [hu]
    have e' : ∀ m, TView.mulX x (C.upperTri true) m = some m := fun m => by
      unfold TView.mulX; rw [if_neg (by simp [hu.1])]
    have nc : A.NoClash (C.upperTri A.unit) := by
      rw [hu.2]
      intro i j i' j' h1 h2 e
      refine hnc i j i' j' h1 ?_ e
      rw [upper_in hs.rs]
      rw [TView.in_iff] at h2
      simp only [MView.upperTri, ub_true] at h2
      omega
    obtain ⟨m', e1, c, fr⟩ := tri_assignToM_spec A C hcs hrs hWA hs.wf.1 (Or.inr ⟨hs.si, hs.sj⟩) hs.ds nc m hA.has.live hC
    refine ⟨m', ?_, fun i j hi hj => ?_, fr⟩
    · rw [← e1, e]
      unfold TView.assignMulX TView.assignToM
      rw [hu.2]
      simp only [if_true]
      cases A.assignToU (C.upperTri true) m with
      | none => rfl
      | some m1 => simp only [Option.bind_some, e']
    · rw [c i j (by omega) (by omega), hA i j (by omega) (by omega)]; simp [hu.1]
  · have e : (decide (x = 1) && A.unit) = false := by
      rw [Bool.and_eq_false_iff]
      by_cases h : x = 1
      · right; cases h' : A.unit
        · rfl
        · exact absurd ⟨h, h'⟩ hu
      · left; simp [h]
    rw [e]
    obtain ⟨m1, e1, b1⟩ := tri_assignMulX_gets x A (C.upperTri false) hrs.symm hWA (upper_wf hs) (fun h => by cases h) hnc m p hA (upper_live hs hC)
    rw [e1]
    simp only [Option.bind_some, if_neg Bool.false_ne_true]
    have hl1 : C.Live m1 := by
      obtain ⟨z, hz⟩ := hC.holds
      exact (upper_gets hs hz b1).1.live
    by_cases h0 : A.n > 0
    · rw [if_pos h0]
      obtain ⟨m2, e2, v2, f2⟩ := lower_zero hs m1 _ b1.1 hl1
      refine ⟨m2, e2, v2.congr fun i j hi hj => ?_, fun a ha => by rw [f2 a ha, b1.2 a fun h => ha (upper_covers hs h)]⟩
      split
      · rfl
      · rw [hA.low (by omega) (by omega), mul_zero]
    · rw [if_neg h0]
      exact ⟨m1, rfl, fun i j hi hj => by omega, fun a ha => b1.2 a fun h => ha (upper_covers hs h)⟩

/-- `C = y*L` for a full `C`, through the composite's own array: any aliasing. -/
theorem tri_assignMulXLToM_spec {al : Alloc K} (hal : al.OK) (y : K) (B : TView) (C : MView) (hs : C.Square B.n) (hWB : B.WF) (m : Mem K)
    (hb : m.Bdd) (q : Nat → Nat → K) (hB : B.Holds m q) (hC : C.Live m) :
    ∃ m', TView.assignMulXLToM al y B C m = some m' ∧ C.Becomes m m' (fun i j => y * q j i) := by
  have hst := hs.transpose
  unfold TView.assignMulXLToM
  refine withTempM hal _ _ m hb C hC _ ?_
  intro t m0 T
  dsimp only
  have hsub : ∀ u, u = (decide (y = 1) && B.unit) → u = true → B.unit = true ∧ y = 1 := by
    intro u hu h
    rw [h] at hu
    have := hu.symm
    rw [Bool.and_eq_true, decide_eq_true_eq] at this
    exact ⟨this.2, this.1⟩
  generalize hu : (decide (y = 1) && B.unit) = u
  have hsub' := hsub u hu.symm
  obtain ⟨w, l, cov⟩ := temp_tri T true u
  obtain ⟨m1, e1, b1⟩ := tri_assignMulX_gets y B (TView.ofStor t B.n true u) rfl hWB w hsub'
    (T.sepT hB.has.live cov).symm.noClash m0 q (T.holdsT hB) l
  have T1 := T.after b1 cov
  have hT : (TView.ofStor t B.n true u).Holds m1 (fun i j => y * q i j) := by
    refine b1.1.holds (fun i j hi hj => by rw [hB.low hi hj, mul_zero]) (fun h i hi => ?_)
    rw [hB.diag1 (hsub' h).1 hi, (hsub' h).2, mul_one]
  have hCt : C.transpose.Live m1 := fun i j hi hj => by rw [C.transpose_addr]; exact T1.liveM hC j i hj hi
  have nc : (TView.ofStor t B.n true u).NoClash (C.transpose.upperTri u) := by
    intro i j i' j' h1 h2 e
    refine absurd ?_ (T.nin (m := m) (a := (C.transpose.upperTri u).addr i' j') ?_)
    · rw [← e]; exact cov _ ⟨i, j, h1, rfl⟩
    · have h2' : (C.transpose.upperTri false).In i' j' := by
        rw [TView.in_iff] at h2 ⊢
        have := ub_range u
        simp only [MView.upperTri, ub_false] at h2 ⊢
        omega
      exact upper_live hst (fun i j hi hj => by rw [C.transpose_addr]; exact hC j i hj hi) i' j' h2'
  obtain ⟨m2, e2, c2, f2⟩ := tri_assignToM_spec (TView.ofStor t B.n true u) C.transpose hst.cs hst.rs w hst.wf.1
    (Or.inr ⟨hst.si, hst.sj⟩) hst.ds nc m1 hT.has.live hCt
  refine ⟨m2, by rw [e1]; exact e2, fun i j hi hj => ?_, fun a h1 h2 => ?_⟩
  · have hc := hs.cs
    have hr := hs.rs
    have h1 := c2 j i (by show j < B.n; omega) (by show i < B.n; omega)
    rw [C.transpose_cref] at h1
    rw [h1]
    exact hT j i (by show j < B.n; omega) (by show i < B.n; omega)
  · rw [f2 a (by rwa [C.transpose_covers]), T1.off a h2, T.off a h2]

/-- **C122** (`C = x*A + y*L` for an upper triangular `A`, a lower triangular `L` and a full `C`; `C = y*L + x*A` is the same function).
The result is computed from the old values for every layout, conjugation and diagonal type, when `A` and `L` each share no element with
`C` or start at its first element (`C = C.upperTri() + C.unitLowerTri()`, ...); if `A` alone starts there, its elements may be elements of
the upper triangle of `C` only at equal indices.  Nothing else changes. -/
theorem tri_addUL_spec {al : Alloc K} (hal : al.OK) (x y : K) (A : TView) (L : LView) (C : MView) (hs : C.Square A.n) (hnL : L.n = A.n)
    (hWA : A.WF) (hWL : L.WF) (m : Mem K) (hb : m.Bdd) (p q : Nat → Nat → K) (hA : A.Holds m p) (hL : L.Holds m q) (hC : C.Live m)
    (hdA : A.SepM C ∨ (A.ptr = C.ptr ∧ A.NoClash (C.upperTri false))) (hdL : (∀ a, L.Covers a → ¬ C.Covers a) ∨ L.ptr = C.ptr) :
    ∃ m', TView.addUL al x A y L.transpose C m = some m' ∧ C.Becomes m m' (fun i j => x * p i j + y * q i j) := by
  have hcs := hs.cs
  have hrs := hs.rs
  have hst := hs.transpose
  have hB := hL.transpose
  have hWB := hWL.transpose
  have hnB : L.transpose.n = A.n := hnL
  have hdB : (∀ a, L.transpose.Covers a → ¬ C.Covers a) ∨ L.transpose.ptr = C.ptr := hdL.imp_left fun h a ha => h a ((L.transpose_covers a).mp ha)
  generalize L.transpose = B at *
  unfold TView.addUL
  by_cases h0 : A.n > 0
  swap
  · rw [if_neg h0]
    exact ⟨m, rfl, fun i j hi hj => by omega, fun _ _ => rfl⟩
  rw [if_pos h0]
  have low : ∀ i j : Nat, i < A.n → (if i ≤ j then y * q i j + x * p i j else y * q i j) = x * p i j + y * q i j := by
    intro i j hi
    split
    · ring
    · rw [hA.low hi (by omega)]; ring
  by_cases h1 : A.ptr = C.ptr
  · rw [if_pos h1]
    by_cases h2 : B.ptr = C.ptr
    · rw [if_pos h2]
      refine withTempM hal _ _ m hb C hC _ ?_
      intro t m0 T
      dsimp only
      have hsq : (MView.ofStor t C.cs C.rs C.isrm).Square A.n := by rw [hcs, hrs]; exact temp_square t A.n h0 C.isrm
      obtain ⟨m1, e1, b1⟩ := tri_assignMulXLToM_spec hal y B (MView.ofStor t C.cs C.rs C.isrm) (by rw [hnB]; exact hsq) hWB m0 T.bdd _
        (T.holdsT hB) (T.stor C.isrm)
      have T1 := T.afterM' b1 (fun a h => ofStor_in h)
      have hsep : A.Sep ((MView.ofStor t C.cs C.rs C.isrm).upperTri false) := by
        rintro a ⟨i, j, hij, rfl⟩ h
        exact T.nin (hA.has.live i j hij) (ofStor_in (upper_covers hsq h))
      obtain ⟨m2, e2, b2⟩ := tri_addMM_gets hal x A _ (by simp [MView.upperTri, MView.ofStor, hrs]) hWA (upper_wf hsq) rfl (Or.inl hsep) m1
        T1.bdd p _ (T1.holdsT hA) (upper_has hsq b1.1)
      have b3 := upper_gets hsq b1.1 b2
      have T2 := T1.afterM' b3 (fun a h => ofStor_in h)
      obtain ⟨m3, e3, v3, f3⟩ := copy_back hal h0 hs C.isrm T hC _ T2 b3.1
      refine ⟨m3, by rw [e1, Option.bind_some, e2]; exact e3, v3.congr fun i j hi hj => low i j (by omega), f3⟩
    · rw [if_neg h2]
      have hsep := hdB.resolve_right h2
      have hnc : A.NoClash (C.upperTri false) := hdA.elim (fun h i j i' j' h1 h2 e =>
        absurd (upper_covers hs ⟨i', j', h2, e⟩) (h _ ⟨i, j, h1, rfl⟩)) And.right
      obtain ⟨m1, e1, b1⟩ := tri_assignMulXToM_spec x A C hs hWA hnc m p hA hC
      rw [e1]
      have ht : (C.lowerTri false).transpose = C.transpose.upperTri false := rfl
      simp only [Option.bind_some, ht]
      have covT : ∀ a, (C.transpose.upperTri false).Covers a → C.Covers a := fun a h => (C.transpose_covers a).mp (upper_covers hst h)
      obtain ⟨m2, e2, b2⟩ := tri_addMM_gets hal y B (C.transpose.upperTri false) (by rw [hnB]; exact hst.rs.symm) hWB (upper_wf hst) rfl
        (Or.inl fun a h h' => hsep a h (covT a h')) m1 (b1.bdd hC hb) _ _ (hB.frame fun a ha => b1.2 a (hsep a ha)) (upper_has hst b1.1.transpose)
      have b3 := (upper_gets hst b1.1.transpose b2)
      refine ⟨m2, e2, b1.trans (MView.Becomes.of_transpose (x := fun i j => x * p i j + y * q i j) (b3.congr fun i j hi hj => ?_))⟩
      have hi' : i < A.n := by have := hst.cs; omega
      have hj' : j < A.n := by have := hst.rs; omega
      split
      · rfl
      · have : q j i = 0 := hB.low (i := i) (j := j) (by omega) (by omega)
        rw [this, mul_zero, add_zero]
  · rw [if_neg h1]
    have hsep : A.SepM C := hdA.resolve_right fun h => h1 h.1
    obtain ⟨m1, e1, b1⟩ := tri_assignMulXLToM_spec hal y B C (by rw [hnB]; exact hs) hWB m hb _ hB hC
    obtain ⟨m2, e2, b2⟩ := tri_addMM_gets hal x A (C.upperTri false) (by simp [MView.upperTri, hrs]) hWA (upper_wf hs) rfl
      (Or.inl fun a h h' => hsep a h (upper_covers hs h')) m1 (b1.bdd hC hb) p _ (hA.frame fun a ha => b1.2 a (hsep a ha)) (upper_has hs b1.1)
    refine ⟨m2, by rw [e1]; exact e2, b1.trans (upper_gets hs b1.1 b2) |>.congr fun i j hi hj => low i j (by omega)⟩

end TMV
