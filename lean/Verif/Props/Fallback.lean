import Verif.Model.Fallback
import Verif.Props.Omp
import Verif.Props.MatMatEx

/-! **C82** The matrix product when memory runs out. -/
namespace TMV
open Finset
variable {K : Type _} [CommRing K] [StarRing K] [DecidableEq K]

theorem runCalls_args {al : Alloc K} (hal : al.OK) {E : ElemTy K} (hE : E.OK) {A B C : MView} {a b : Nat → Nat → K} (ks : List (Call K))
    (hF : ∀ k ∈ ks, k.Fits A B) {c : Nat → Nat → K} {m : Mem K} (H : BlkArgs A B C a b c m) :
    ∃ m', runCalls E al A B C ks m = some m' ∧ BlkArgs A B C a b (valCalls A.rs a b ks c) m' ∧ C.Frame m m' := by
  induction ks generalizing c m with
  | nil => exact ⟨m, rfl, H, fun _ _ => rfl⟩
  | cons k ks ih =>
    obtain ⟨m1, e1, H1, f1⟩ := blockPart_spec hal hE (k.ops_pa hal E (hF k (List.mem_cons_self ..))) (k.ops_pb hal E (hF k (List.mem_cons_self ..)))
      (k.ops_st hal E) H
    obtain ⟨m2, e2, r2, f2⟩ := ih (fun k hk => hF k (List.mem_cons_of_mem _ hk)) H1
    refine ⟨m2, ?_, r2, fun x hx => (f2 x hx).trans (f1 x hx)⟩
    have e1' : BlockOps.run (k.ops E al) al A B C m = some m1 := e1
    rw [runCalls, e1']
    exact e2

theorem rrcSlice_spec {al : Alloc K} (hal : al.OK) (add : Bool) (alpha : K) (A B C : MView) (m : Mem K) (hb : m.Bdd)
    (a b c : Nat → Nat → K) (hcs : A.cs = C.cs) (hk : A.rs = B.cs) (hrs : B.rs = C.rs)
    (h1 : 0 < C.cs) (h2 : 0 < C.rs) (h3 : 0 < A.rs) (hAr : A.isrm = true)
    (hW : C.WF) (hLB : B.LSOK) (hL : C.LSOK) (hA : A.Holds m a) (hB : B.Holds m b) (hC : C.Holds m c) :
    ∃ m', MView.rrcSlice al add alpha A B C m = some m' ∧ C.Becomes m m' (accVal add alpha c (matMul A.rs a b)) := by
  unfold MView.rrcSlice
  refine withTempM hal _ _ m hb C hC.live _ fun t m0 T => ?_
  dsimp only
  obtain ⟨m1, e1, b1, T1⟩ := T.copyOf hal false (by omega) (by omega) hLB b hB
  obtain ⟨m2, e2, b2⟩ := rccMulMM_spec hal add alpha A (MView.ofStor t B.cs B.rs false) C m1 T1.bdd a b c hcs hk hrs h1 h2 hAr
    (by simp [MView.iscm, MView.ofStor]) hW hL (T1.holdsM hA) b1 (T1.holdsM hC)
  refine ⟨m2, by rw [e1]; exact e2, b2.1, fun x hx hnx => ?_⟩
  rw [b2.2 x hx, T1.off x hnx, T.off x hnx]

omit [CommRing K] [StarRing K] [DecidableEq K] in
theorem colRange_lsok (M : MView) (j1 j2 : Int) : (M.colRange j1 j2).LSOK := by
  simp only [MView.LSOK, MView.colRange]
  split
  · exact Or.inl rfl
  · exact Or.inr (Or.inl rfl)

theorem colRange_holds {M : MView} {m : Mem K} {x : Nat → Nat → K} (h : M.Holds m x) {j1 j2 : Nat} (h2 : j2 ≤ M.rs) :
    (M.colRange j1 j2).Holds m (fun i j => x i (j1+j)) := by
  intro i j hi hj
  have hj' : j < j2 - j1 := by simpa [MView.colRange] using hj
  rw [M.colRange_cref]
  have := h i (j1+j) hi (by omega)
  rw [Nat.cast_add] at this
  exact this

/-- One slice of columns. -/
theorem slice_step {al : Alloc K} (hal : al.OK) (add : Bool) (alpha : K) (A B C : MView) (m : Mem K) (hb : m.Bdd)
    (a b c : Nat → Nat → K) (hcs : A.cs = C.cs) (hk : A.rs = B.cs) (hrs : B.rs = C.rs)
    (h1 : 0 < C.cs) (h3 : 0 < A.rs) (hAr : A.isrm = true)
    (hW : C.WF) (hA : A.Holds m a) (hB : B.Holds m b) (hC : C.Holds m c) (dA : A.Disjoint C) (dB : B.Disjoint C)
    (j1 j2 : Nat) (hj : j1 < j2) (hj2 : j2 ≤ C.rs) :
    ∃ m', MView.rrcSlice al add alpha A (B.colRange j1 j2) (C.colRange j1 j2) m = some m' ∧
      C.Becomes m m' (fun i j => if j1 ≤ j ∧ j < j2 then accVal add alpha c (matMul A.rs a b) i j else c i j) ∧
      A.Holds m' a ∧ B.Holds m' b ∧ m'.Bdd := by
  have sz : (C.colRange j1 j2).rs = j2 - j1 := by simp [MView.colRange]
  have szB : (B.colRange j1 j2).rs = j2 - j1 := by simp [MView.colRange]
  obtain ⟨m', e, v, f⟩ := rrcSlice_spec hal add alpha A (B.colRange j1 j2) (C.colRange j1 j2) m hb a (fun i j => b i (j1+j)) (fun i j => c i (j1+j))
    hcs hk (by rw [sz, szB]) h1 (by omega) h3 hAr (hW.colRange hj hj2) (colRange_lsok _ _ _) (colRange_lsok _ _ _) hA
    (colRange_holds hB (by omega)) (colRange_holds hC hj2)
  have cov : ∀ x, (C.colRange j1 j2).Covers x → C.Covers x := by
    rintro x ⟨i, j, hi, hj', rfl⟩
    have : j < j2 - j1 := by rw [← sz]; exact hj'
    exact ⟨i, j1+j, hi, by omega, by rw [C.colRange_addr]; push_cast; rfl⟩
  have bc : C.Becomes m m' (fun i j => if j1 ≤ j ∧ j < j2 then accVal add alpha c (matMul A.rs a b) i j else c i j) := by
    refine ⟨fun i j hi hj' => ?_, fun x hx => f x fun h => hx (cov x h)⟩
    dsimp only
    by_cases hh : j1 ≤ j ∧ j < j2
    · rw [if_pos hh]
      have := v i (j - j1) hi (by omega)
      rw [C.colRange_cref] at this
      rw [show (j1 : Int) + ((j - j1 : Nat) : Int) = (j : Int) by omega] at this
      rw [this]
      simp only [accVal, matMul]
      rw [show j1 + (j - j1) = j by omega]
    · rw [if_neg hh, ← hC i j hi hj', MView.cref, MView.cref, Mem.read, Mem.read, f]
      rintro ⟨i', j', hi', hj'', e'⟩
      have l : j' < j2 - j1 := by rw [← sz]; exact hj''
      rw [C.colRange_addr] at e'
      have := hW.1 i j i' (j1+j') hi hj' hi' (by omega) (by push_cast; exact e')
      omega
  refine ⟨m', e, bc, ?_, ?_, bc.bdd hC.live hb⟩
  · intro i j hi hj'
    rw [← hA i j hi hj', MView.cref, MView.cref, Mem.read, Mem.read, bc.2 _ (dA _ ⟨i, j, hi, hj', rfl⟩)]
  · intro i j hi hj'
    rw [← hB i j hi hj', MView.cref, MView.cref, Mem.read, Mem.read, bc.2 _ (dB _ ⟨i, j, hi, hj', rfl⟩)]

theorem rrcLoop_spec {al : Alloc K} (hal : al.OK) (add : Bool) (alpha : K) (A B C : MView)
    (a b c0 : Nat → Nat → K) (hcs : A.cs = C.cs) (hk : A.rs = B.cs) (hrs : B.rs = C.rs)
    (h1 : 0 < C.cs) (h3 : 0 < A.rs) (hAr : A.isrm = true) (hW : C.WF) (dA : A.Disjoint C) (dB : B.Disjoint C) :
    ∀ (fuel j1 : Nat) (m : Mem K), C.rs < j1 + fuel → j1 < C.rs → m.Bdd → A.Holds m a → B.Holds m b →
      C.Holds m (fun i j => if j < j1 then accVal add alpha c0 (matMul A.rs a b) i j else c0 i j) →
      ∃ m', MView.rrcLoop al add alpha A B C fuel j1 m = some m' ∧ C.Becomes m m' (accVal add alpha c0 (matMul A.rs a b)) := by
  intro fuel
  induction fuel with
  | zero => intro j1 m hf hj; omega
  | succ fuel ih =>
    intro j1 m hf hj hb hA hB hC
    have val : ∀ i j, j1 ≤ j → accVal add alpha (fun i j => if j < j1 then accVal add alpha c0 (matMul A.rs a b) i j else c0 i j) (matMul A.rs a b) i j =
        accVal add alpha c0 (matMul A.rs a b) i j := by
      intro i j hj
      simp only [accVal]
      rw [if_neg (show ¬ j < j1 by omega)]
    unfold MView.rrcLoop
    by_cases hl : j1 + 16 < B.rs
    · rw [if_pos hl]
      obtain ⟨m1, e1, b1, hA1, hB1, hb1⟩ := slice_step hal add alpha A B C m hb a b _ hcs hk hrs h1 h3 hAr hW hA hB hC dA dB j1 (j1+16)
        (by omega) (by omega)
      obtain ⟨m2, e2, b2⟩ := ih (j1+16) m1 (by omega) (by omega) hb1 hA1 hB1 (by
        intro i j hi hj'
        rw [b1.1 i j hi hj']
        dsimp only
        by_cases c1 : j1 ≤ j ∧ j < j1 + 16
        · rw [if_pos c1, if_pos c1.2, val i j c1.1]
        · rw [if_neg c1]
          by_cases c2 : j < j1
          · rw [if_pos c2, if_pos (show j < j1 + 16 by omega)]
          · rw [if_neg c2, if_neg (show ¬ j < j1 + 16 by omega)])
      refine ⟨m2, ?_, b2.1, fun x hx => (b2.2 x hx).trans (b1.2 x hx)⟩
      rw [e1]; exact e2
    · rw [if_neg hl]
      obtain ⟨m1, e1, b1, -⟩ := slice_step hal add alpha A B C m hb a b _ hcs hk hrs h1 h3 hAr hW hA hB hC dA dB j1 B.rs
        (by omega) (by omega)
      refine ⟨m1, e1, b1.congr fun i j hi hj' => ?_⟩
      by_cases c1 : j1 ≤ j ∧ j < B.rs
      · rw [if_pos c1, val i j c1.1]
      · rw [if_neg c1, if_pos (show j < j1 by omega)]

/-- **C82** The handler alone: the product is right. -/
theorem fallback_spec {al : Alloc K} (hal : al.OK) (add : Bool) (alpha : K) (A B C : MView) (m : Mem K) (hb : m.Bdd)
    (a b c : Nat → Nat → K) (hcs : A.cs = C.cs) (hk : A.rs = B.cs) (hrs : B.rs = C.rs)
    (h1 : 0 < C.cs) (h2 : 0 < C.rs) (h3 : 0 < A.rs) (hA1 : A.iscm = true ∨ A.isrm = true) (hB1 : B.iscm = true ∨ B.isrm = true)
    (hW : C.WF) (hLB : B.LSOK) (hL : C.LSOK) (hA : A.Holds m a) (hB : B.Holds m b) (hC : C.Holds m c) (dA : A.Disjoint C) (dB : B.Disjoint C) :
    ∃ m', MView.fallback al add alpha A B C m = some m' ∧ C.Becomes m m' (accVal add alpha c (matMul A.rs a b)) := by
  unfold MView.fallback
  by_cases hAc : A.iscm = true
  · rw [if_pos hAc]
    by_cases hBc : B.iscm = true
    · rw [if_pos hBc]
      exact cccMulMM_spec hal add alpha A B C m hb a b c hcs hk hrs h1 h2 h3 hAc hBc hW hL hA hB hC
    · rw [if_neg hBc]
      exact crcMulMM_spec hal add alpha A B C m hb a b c hcs hk hrs h1 h2 h3 hAc (by tauto) hW hL hA hB hC
  · rw [if_neg hAc]
    have hAr : A.isrm = true := by tauto
    by_cases hBc : B.iscm = true
    · rw [if_pos hBc]
      exact rccMulMM_spec hal add alpha A B C m hb a b c hcs hk hrs h1 h2 hAr hBc hW hL hA hB hC
    · rw [if_neg hBc]
      by_cases h16 : B.rs > 16
      · rw [if_pos h16]
        exact rrcLoop_spec hal add alpha A B C a b c hcs hk hrs h1 h3 hAr hW dA dB (B.rs+1) 0 m (by omega) h2 hb hA hB (by
          intro i j hi hj
          rw [hC i j hi hj]; simp)
      · rw [if_neg h16]
        exact rrcSlice_spec hal add alpha A B C m hb a b c hcs hk hrs h1 h2 h3 hAr hW hLB hL hA hB hC

/-- What is in `C` after the allocation of call number `f` failed: the handler works on what the calls before made of it. -/
theorem blockMMFail_spec {al : Alloc K} (hal : al.OK) {E : ElemTy K} (hE : E.OK) (ca cb : Bool) (hP : (ca = true ∨ cb = true) → E.Parts)
    (add : Bool) (alpha : K) (f : Nat) (A B C : MView) (m : Mem K) (hb : m.Bdd)
    (a b c : Nat → Nat → K) (hcs : A.cs = C.cs) (hk : A.rs = B.cs) (hrs : B.rs = C.rs)
    (h1 : 0 < C.cs) (h2 : 0 < C.rs) (h3 : 0 < A.rs) (hA1 : A.iscm = true ∨ A.isrm = true) (hB1 : B.iscm = true ∨ B.isrm = true)
    (hCc : C.conj = false) (hrA : RealOK ca A a) (hrB : RealOK cb B b)
    (hW : C.WF) (hLB : B.LSOK) (hL : C.LSOK) (hA : A.Holds m a) (hB : B.Holds m b) (hC : C.Holds m c) (dA : A.Disjoint C) (dB : B.Disjoint C) :
    ∃ m', MView.blockMMFail E al ca cb add alpha f A B C m = some m' ∧ C.Becomes m m'
      (if f < (blockCalls E ca cb add alpha A B).length then
        accVal add alpha (valCalls A.rs (fun i j => cj A.conj (a i j)) (fun i j => cj B.conj (b i j))
          ((blockCalls E ca cb add alpha A B).take f) c) (matMul A.rs a b)
      else accVal add alpha c (matMul A.rs a b)) := by
  have H : BlkArgs A B C (fun i j => cj A.conj (a i j)) (fun i j => cj B.conj (b i j)) c m :=
    { cs := hcs, k := hk, rs := hrs, inj := hW.1, conj := hCc, dA := dA, dB := dB, bdd := hb
      hA := fun i j hi hj => hA.rawA i j hi hj, hB := fun i j hi hj => hB.rawA i j hi hj
      hC := fun i j hi hj => by have := hC.rawA i j hi hj; rw [hCc] at this; exact this }
  unfold MView.blockMMFail
  dsimp only
  by_cases hf : f < (blockCalls E ca cb add alpha A B).length
  · rw [if_pos hf, if_pos hf]
    obtain ⟨m1, e1, H1, f1⟩ := runCalls_args hal hE ((blockCalls E ca cb add alpha A B).take f)
      (fun k hk => blockCalls_fits E ca cb add alpha A B (fun h => (hrA h).1) (fun h => (hrB h).1) k (List.mem_of_mem_take hk)) H
    have hA' : A.Holds m1 a := (MView.Holds.of_raw H1.hA).congr fun i j _ _ => by simp
    have hB' : B.Holds m1 b := (MView.Holds.of_raw H1.hB).congr fun i j _ _ => by simp
    have hC' : C.Holds m1 _ := MView.Holds.of_raw fun i j hi hj => by rw [hCc]; exact H1.hC i j hi hj
    obtain ⟨m2, e2, b2⟩ := fallback_spec hal add alpha A B C m1 H1.bdd a b _ hcs hk hrs h1 h2 h3 hA1 hB1 hW hLB hL hA' hB' hC' dA dB
    refine ⟨m2, by rw [e1]; exact e2, b2.1, fun x hx => (b2.2 x hx).trans (f1 x hx)⟩
  · rw [if_neg hf, if_neg hf]
    obtain ⟨m', e, r, fr⟩ := blockMM_spec hal hE ca cb hP add alpha A B C (fun i j => cj A.conj (a i j)) (fun i j => cj B.conj (b i j)) c m H
      (fun h => (hrA h).1) (fun h => (hrB h).1)
      (fun h _ i j hi hj => by rw [(hrA h).1]; exact (hrA h).2 i j hi hj)
      (fun h _ i j hi hj => by rw [(hrB h).1]; exact (hrB h).2 i j hi hj)
    refine ⟨m', e, MView.Holds.of_raw fun i j hi hj => ?_, fr⟩
    rw [r i j hi hj, hCc]
    simp only [cj_cj]
    rfl

/-- **C82** Whichever allocation fails, `C = alpha*A*B` is right; `C += alpha*A*B` is right for real matrices, and for complex ones if the
first allocation fails or none.  Missing: complex `C += alpha*A*B` when a later allocation fails; see `blockMMFail_violated`. -/
theorem blockMMFail_partial {al : Alloc K} (hal : al.OK) {E : ElemTy K} (hE : E.OK) (ca cb : Bool) (hP : (ca = true ∨ cb = true) → E.Parts)
    (add : Bool) (alpha : K) (f : Nat) (A B C : MView) (m : Mem K) (hb : m.Bdd)
    (a b c : Nat → Nat → K) (hcs : A.cs = C.cs) (hk : A.rs = B.cs) (hrs : B.rs = C.rs)
    (h1 : 0 < C.cs) (h2 : 0 < C.rs) (h3 : 0 < A.rs) (hA1 : A.iscm = true ∨ A.isrm = true) (hB1 : B.iscm = true ∨ B.isrm = true)
    (hCc : C.conj = false) (hrA : RealOK ca A a) (hrB : RealOK cb B b)
    (hW : C.WF) (hLB : B.LSOK) (hL : C.LSOK) (hA : A.Holds m a) (hB : B.Holds m b) (hC : C.Holds m c) (dA : A.Disjoint C) (dB : B.Disjoint C)
    (hok : add = false ∨ (ca = false ∧ cb = false) ∨ f = 0) :
    ∃ m', MView.blockMMFail E al ca cb add alpha f A B C m = some m' ∧
      C.Becomes m m' (fun i j => if add then c i j + alpha * ∑ l ∈ range A.rs, a i l * b l j else alpha * ∑ l ∈ range A.rs, a i l * b l j) := by
  obtain ⟨m', e, h⟩ := blockMMFail_spec hal hE ca cb hP add alpha f A B C m hb a b c hcs hk hrs h1 h2 h3 hA1 hB1 hCc hrA hrB hW hLB hL hA hB hC dA dB
  refine ⟨m', e, h.congr fun i j hi hj => ?_⟩
  by_cases hf : f < (blockCalls E ca cb add alpha A B).length
  · rw [if_pos hf]
    rcases hok with rfl | ⟨rfl, rfl⟩ | rfl
    · rfl
    · simp only [blockCalls, List.length_singleton, Nat.lt_one_iff] at hf
      subst hf
      rfl
    · rfl
  · rw [if_neg hf]
    rfl

theorem exFail (add : Bool) (f : Nat) : ∃ m', MView.blockMMFail giTy Alloc.good true true add 1 f (MView.ofStor 0 20 30 true)
    (MView.ofStor 1000 30 25 true) (MView.ofStor 2000 20 25 false) bigMem = some m' ∧ (MView.ofStor 2000 20 25 false).Becomes bigMem m'
      (if f < 4 then
        accVal add 1 (valCalls 30 (fun i j => ⟨0 + (i * 30 + j : Nat), 1⟩) (fun i j => ⟨1000 + (i * 25 + j : Nat), 1⟩)
          ((blockCalls giTy true true add 1 (MView.ofStor 0 20 30 true) (MView.ofStor 1000 30 25 true)).take f) (fun i j => ⟨2000 + (i + j * 20 : Nat), 1⟩))
          (matMul 30 (fun i j => ⟨0 + (i * 30 + j : Nat), 1⟩) (fun i j => ⟨1000 + (i * 25 + j : Nat), 1⟩))
      else accVal add 1 (fun i j => ⟨2000 + (i + j * 20 : Nat), 1⟩)
        (matMul 30 (fun i j => ⟨0 + (i * 30 + j : Nat), 1⟩) (fun i j => ⟨1000 + (i * 25 + j : Nat), 1⟩))) := by
  have := blockMMFail_spec Alloc.good_ok giTy_ok true true (fun _ => giTy_parts) add 1 f (MView.ofStor 0 20 30 true)
    (MView.ofStor 1000 30 25 true) (MView.ofStor 2000 20 25 false) bigMem bigMem_bdd
    (fun i j => ⟨0 + (i * 30 + j : Nat), 1⟩) (fun i j => ⟨1000 + (i * 25 + j : Nat), 1⟩) (fun i j => ⟨2000 + (i + j * 20 : Nat), 1⟩)
    rfl rfl rfl (by decide) (by decide) (by decide) (by decide) (by decide) rfl (fun h => by cases h) (fun h => by cases h)
    (ofStor_wf _ _ _ _ (by decide) (by decide)) (lsok_ofStor _ _ _ _) (lsok_ofStor _ _ _ _)
    ((bigMem_holds 0 20 30 true (by decide)).congr fun i j _ _ => by simp)
    ((bigMem_holds 1000 30 25 true (by decide)).congr fun i j _ _ => by simp)
    ((bigMem_holds 2000 20 25 false (by decide)).congr fun i j _ _ => by simp)
    (fun x h h' => by have := ofStor_in h; have := ofStor_in h'; omega)
    (fun x h h' => by have := ofStor_in h; have := ofStor_in h'; omega)
  exact this

/-- **C82** fails for complex `C += A*B`: when the memory for the third of the four products of real parts is not available, the real part of
the product is in `C` twice. -/
theorem blockMMFail_violated : ∃ m', MView.blockMMFail giTy Alloc.good true true true 1 2 (MView.ofStor 0 20 30 true)
      (MView.ofStor 1000 30 25 true) (MView.ofStor 2000 20 25 false) bigMem = some m' ∧
    ∃ v, (MView.ofStor 2000 20 25 false).cref m' 0 0 = some v ∧
      v.re - 2000 = 2 * (∑ l ∈ range 30, (⟨(l : Int), 1⟩ : GaussianInt) * ⟨1000 + 25 * (l : Int), 1⟩).re ∧
      v.re - 2000 ≠ (∑ l ∈ range 30, (⟨(l : Int), 1⟩ : GaussianInt) * ⟨1000 + 25 * (l : Int), 1⟩).re := by
  obtain ⟨m', e, h⟩ := exFail true 2
  refine ⟨m', e, _, h.1 0 0 (by decide) (by decide), ?_, ?_⟩ <;> decide +kernel

/-- The hypotheses of `blockMMFail_partial` are met: `C = A*B` with the third allocation failing gives the product. -/
example : ∃ m', MView.blockMMFail giTy Alloc.good true true false 1 2 (MView.ofStor 0 20 30 true)
      (MView.ofStor 1000 30 25 true) (MView.ofStor 2000 20 25 false) bigMem = some m' ∧
    (MView.ofStor 2000 20 25 false).cref m' 0 0 = some (∑ l ∈ range 30, (⟨(l : Int), 1⟩ : GaussianInt) * ⟨1000 + 25 * (l : Int), 1⟩) := by
  obtain ⟨m', e, h⟩ := exFail false 2
  refine ⟨m', e, (h.1 0 0 (by decide) (by decide)).trans ?_⟩
  decide +kernel

end TMV
