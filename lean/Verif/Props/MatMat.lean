import Verif.Props.MatMatParts

/-! **C40** The matrix product. -/
namespace TMV
open Finset
variable {K : Type _} [CommRing K] [StarRing K] [DecidableEq K]

/-- A matrix of real element type (`cplx = false`) is not conjugated and contains real numbers. -/
def RealOK (cplx : Bool) (A : MView) (a : Nat → Nat → K) : Prop :=
  cplx = false → A.conj = false ∧ ∀ i j, i < A.cs → j < A.rs → star (a i j) = a i j

theorem nonBlasMulMM_spec {al : Alloc K} (hal : al.OK) {E : ElemTy K} (hE : E.OK) (ca cb : Bool) (hP : (ca = true ∨ cb = true) → E.Parts)
    (add : Bool) (alpha : K) (A B C : MView) (m : Mem K) (hb : m.Bdd)
    (a b c : Nat → Nat → K) (hcs : A.cs = C.cs) (hk : A.rs = B.cs) (hrs : B.rs = C.rs)
    (h1 : 0 < C.cs) (h2 : 0 < C.rs) (h3 : 0 < A.rs) (hA1 : A.iscm = true ∨ A.isrm = true) (hB1 : B.iscm = true ∨ B.isrm = true)
    (hCc : C.conj = false) (hrA : RealOK ca A a) (hrB : RealOK cb B b)
    (hW : C.WF) (hLB : B.LSOK) (hL : C.LSOK) (hA : A.Holds m a) (hB : B.Holds m b) (hC : C.Holds m c) (dA : A.Disjoint C) (dB : B.Disjoint C) :
    ∃ m', MView.nonBlasMulMM E al ca cb add alpha A B C m = some m' ∧ C.Becomes m m' (accVal add alpha c (matMul A.rs a b)) := by
  unfold MView.nonBlasMulMM
  by_cases hs : MView.useSimple C.cs C.rs A.rs = true
  · rw [if_pos hs]
    by_cases hAc : A.iscm = true
    · rw [if_pos hAc]
      by_cases hBc : B.iscm = true
      · rw [if_pos hBc]
        exact cccMulMM_spec hal add alpha A B C m hb a b c hcs hk hrs h1 h2 h3 hAc hBc hW hL hA hB hC
      · rw [if_neg hBc]
        exact crcMulMM_spec hal add alpha A B C m hb a b c hcs hk hrs h1 h2 h3 hAc (by tauto) hW hL hA hB hC
    · rw [if_neg hAc]
      have hAr : A.isrm = true := by tauto
      by_cases hBc : B.iscm = true
      · rw [if_pos hBc]
        exact rccMulMM_spec hal add alpha A B C m hb a b c hcs hk hrs h1 h2 hAr hBc hW hL hA hB hC
      · rw [if_neg hBc]
        refine withTempM hal _ _ m hb C hC.live _ fun t m0 T => ?_
        dsimp only
        obtain ⟨m1, e1, b1, T1⟩ := T.copyOf hal false (by omega) (by omega) hLB b hB
        obtain ⟨m2, e2, b2⟩ := rccMulMM_spec hal add alpha A (MView.ofStor t B.cs B.rs false) C m1 T1.bdd a b c hcs hk hrs h1 h2 hAr
          (by simp [MView.iscm, MView.ofStor]) hW hL (T1.holdsM hA) b1 (T1.holdsM hC)
        refine ⟨m2, by rw [e1]; exact e2, b2.1, fun x hx hnx => ?_⟩
        rw [b2.2 x hx, T1.off x hnx, T.off x hnx]
  · rw [if_neg hs]
    obtain ⟨m', e, r, f⟩ := blockMM_spec hal hE ca cb hP add alpha A B C (fun i j => cj A.conj (a i j)) (fun i j => cj B.conj (b i j)) c m
      { cs := hcs, k := hk, rs := hrs, inj := hW.1, conj := hCc, dA := dA, dB := dB, bdd := hb
        hA := fun i j hi hj => hA.rawA i j hi hj, hB := fun i j hi hj => hB.rawA i j hi hj
        hC := fun i j hi hj => by have := hC.rawA i j hi hj; rw [hCc] at this; exact this }
      (fun h => (hrA h).1) (fun h => (hrB h).1)
      (fun h _ i j hi hj => by rw [(hrA h).1]; exact (hrA h).2 i j hi hj)
      (fun h _ i j hi hj => by rw [(hrB h).1]; exact (hrB h).2 i j hi hj)
    refine ⟨m', e, MView.Holds.of_raw fun i j hi hj => ?_, f⟩
    rw [r i j hi hj, hCc]
    simp only [cj_cj]
    rfl

theorem holds_conjIf {cplx : Bool} {A : MView} {a : Nat → Nat → K} {m : Mem K} (hr : RealOK cplx A a) (h : A.Holds m a) :
    (A.conjIf cplx).Holds m (fun i j => star (a i j)) := by
  cases cplx with
  | true => exact MView.Holds.conjugate.mp h
  | false => exact h.congr fun i j hi hj => ((hr rfl).2 i j hi hj).symm

theorem realOK_conjIf {cplx : Bool} {A : MView} {a : Nat → Nat → K} (hr : RealOK cplx A a) :
    RealOK cplx (A.conjIf cplx) (fun i j => star (a i j)) := by
  intro h
  subst h
  refine ⟨(hr rfl).1, fun i j hi hj => ?_⟩
  have := (hr rfl).2 i j hi hj
  dsimp only
  rw [this, this]

theorem conjIf_geom (cplx : Bool) (A : MView) : (A.conjIf cplx).cs = A.cs ∧ (A.conjIf cplx).rs = A.rs ∧ (A.conjIf cplx).si = A.si ∧
    (A.conjIf cplx).sj = A.sj ∧ (A.conjIf cplx).ptr = A.ptr ∧ (A.conjIf cplx).ls = A.ls := by
  cases cplx <;> exact ⟨rfl, rfl, rfl, rfl, rfl, rfl⟩

theorem conjIf_lsok {cplx : Bool} {A : MView} (h : A.LSOK) : (A.conjIf cplx).LSOK := by cases cplx <;> exact h
theorem conjIf_alias {cplx : Bool} {A C : MView} (h : A.AliasOK C) : (A.conjIf cplx).AliasOK C.conjugate := by cases cplx <;> exact h

omit [StarRing K] [DecidableEq K] in
theorem accVal_mul (add : Bool) (alpha : K) (c p p' : Nat → Nat → K) (i j : Nat) (h : alpha * p i j = p' i j) :
    accVal add alpha c p i j = accVal add 1 c p' i j := by
  simp only [accVal, one_mul, h]

/-- How deep the recursion of `MultMM` goes. -/
def mulDepth (A C : MView) : Nat :=
  (if C.conj then 1 else 0) + (if C.iscm then (if ¬ A.sameStorage C ∧ (A.iscm ∨ A.isrm) then 1 else 2) else 3)

theorem mulMMAux_spec {al : Alloc K} (hal : al.OK) {E : ElemTy K} (hE : E.OK) (ct : Bool) (hP : ct = true → E.Parts) :
    ∀ (fuel : Nat) (ca cb : Bool), (ca = true → ct = true) → (cb = true → ct = true) → ∀
    (add : Bool) (alpha : K) (A B C : MView) (m : Mem K), m.Bdd → ∀
    (a b c : Nat → Nat → K), A.cs = C.cs → A.rs = B.cs → B.rs = C.rs →
    RealOK ca A a → RealOK cb B b → (ct = false → C.conj = false ∧ star alpha = alpha) →
    C.WF → A.LSOK → B.LSOK → C.LSOK → A.Holds m a → B.Holds m b → C.Holds m c → A.AliasOK C → B.AliasOK C →
    mulDepth A C ≤ fuel →
    ∃ m', MView.mulMMAux E al ct fuel ca cb add alpha A B C m = some m' ∧ C.Becomes m m' (accVal add alpha c (matMul A.rs a b)) := by
  intro fuel
  induction fuel with
  | zero =>
    intro ca cb _ _ add alpha A B C m _ a b c _ _ _ _ _ _ _ _ _ _ _ _ _ _ _ hd
    exfalso; unfold mulDepth at hd; split at hd <;> split at hd <;> (try split at hd) <;> omega
  | succ fuel ih =>
    intro ca cb hca hcb add alpha A B C m hb a b c hcs hk hrs hrA hrB hrC hW hLA hLB hL hA hB hC aA aB hd
    have hP' : (ca = true ∨ cb = true) → E.Parts := fun h => hP (by tauto)
    rw [MView.mulMMAux]
    by_cases h0 : C.cs > 0 ∧ C.rs > 0
    swap
    · rw [if_neg h0]
      refine ⟨m, rfl, fun i j hi hj => absurd ⟨by omega, by omega⟩ h0, fun _ _ => rfl⟩
    rw [if_pos h0]
    obtain ⟨h1, h2⟩ := h0
    by_cases hz : A.rs = 0 ∨ alpha = 0
    · rw [if_pos hz]
      have hv : ∀ i j, alpha * matMul A.rs a b i j = 0 := by
        intro i j
        rcases hz with h | h
        · simp [matMul, h]
        · simp [h]
      cases add with
      | true =>
        refine ⟨m, rfl, hC.congr fun i j _ _ => ?_, fun _ _ => rfl⟩
        simp [accVal, hv]
      | false =>
        obtain ⟨m', e, v, f⟩ := mat_setZero_spec C hW hL m hC.live
        refine ⟨m', e, MView.Holds.congr v fun i j _ _ => ?_, f⟩
        simp [accVal, hv]
    rw [if_neg hz]
    rw [not_or] at hz
    by_cases hc : C.conj = true
    · rw [if_pos hc]
      obtain ⟨g1, g2, g3, g4, g5, g6⟩ := conjIf_geom ca A
      obtain ⟨g1', g2', g3', g4', g5', g6'⟩ := conjIf_geom cb B
      have ect : ct = true := by
        by_contra h
        have := (hrC (by simpa using h)).1
        rw [hc] at this; cases this
      obtain ⟨m', e, v⟩ := ih ca cb hca hcb add (star alpha) (A.conjIf ca) (B.conjIf cb) C.conjugate m hb
        (fun i j => star (a i j)) (fun i j => star (b i j)) (fun i j => star (c i j)) (by rw [g1]; exact hcs) (by rw [g2, g1']; exact hk)
        (by rw [g2']; exact hrs) (realOK_conjIf hrA) (realOK_conjIf hrB) (fun h => by rw [ect] at h; cases h)
        hW.conjugate (conjIf_lsok hLA) (conjIf_lsok hLB) hL.conjugate (holds_conjIf hrA hA) (holds_conjIf hrB hB)
        (MView.Holds.conjugate.mp hC) (conjIf_alias aA) (conjIf_alias aB) (by
          have e1 : C.conjugate.conj = false := by simp [MView.conjugate, hc]
          have e2 : (A.conjIf ca).iscm = A.iscm := by simp [MView.iscm, g3]
          have e3 : (A.conjIf ca).isrm = A.isrm := by simp [MView.isrm, g4]
          have e4 : (A.conjIf ca).sameStorage C.conjugate = A.sameStorage C := by simp [MView.sameStorage, g5, MView.conjugate]
          have e5 : C.conjugate.iscm = C.iscm := rfl
          unfold mulDepth at hd ⊢
          rw [e1, e2, e3, e4, e5]
          rw [hc] at hd
          simp only [if_true, Bool.false_eq_true, if_false, zero_add] at hd ⊢
          omega)
      refine ⟨m', e, MView.Becomes.of_conjugate (v.congr fun i j hi hj => ?_)⟩
      have : matMul (A.conjIf ca).rs (fun i j => star (a i j)) (fun i j => star (b i j)) i j = star (matMul A.rs a b i j) := by
        rw [g2]
        unfold matMul
        rw [star_sum]
        refine sum_congr rfl fun l _ => ?_
        rw [star_mul, mul_comm]
      simp only [accVal, this]
      cases add
      · simp [mul_comm]
      · simp [mul_comm]
    rw [if_neg hc]
    have hc' : C.conj = false := by simpa using hc
    have h3 : 0 < A.rs := by omega
    by_cases hcm : C.iscm = true
    · rw [if_pos hcm]
      by_cases hA1 : ¬ A.sameStorage C = true ∧ (A.iscm = true ∨ A.isrm = true)
      · rw [if_pos hA1]
        have dA : A.Disjoint C := by
          rcases aA with h | h
          · exact h
          · exact absurd (by simp [MView.sameStorage, h]) hA1.1
        by_cases hB1 : ¬ B.sameStorage C = true ∧ (B.iscm = true ∨ B.isrm = true)
        · rw [if_pos hB1]
          have dB : B.Disjoint C := by
            rcases aB with h | h
            · exact h
            · exact absurd (by simp [MView.sameStorage, h]) hB1.1
          exact nonBlasMulMM_spec hal hE ca cb hP' add alpha A B C m hb a b c hcs hk hrs h1 h2 h3 hA1.2 hB1.2 hc' hrA hrB hW hLB hL hA hB hC dA dB
        · rw [if_neg hB1]
          refine withTempM hal _ _ m hb C hC.live _ fun t m0 T => ?_
          dsimp only
          obtain ⟨m1, e1, b1⟩ := mat_assignMulX_spec hal alpha B (MView.ofStor t B.cs B.rs false) rfl rfl
            (ofStor_wf t B.cs B.rs false (by omega) (by omega)) hLB (lsok_ofStor _ _ _ _) m0 T.bdd b (T.holdsM hB) (T.stor false)
            (Or.inl (T.disjM false hB.live))
          have T1 : Temp m m1 t (B.cs * B.rs) := T.afterM (rm := false) b1
          have hr2 : RealOK ct (MView.ofStor t B.cs B.rs false) (fun i j => alpha * b i j) := by
            intro h
            have hcb' : cb = false := by
              cases hq : cb with
              | false => rfl
              | true => rw [hcb hq] at h; cases h
            refine ⟨rfl, fun i j hi hj => real_mul (hrC h).2 ((hrB hcb').2 i j hi hj)⟩
          obtain ⟨m2, e2, b2⟩ := nonBlasMulMM_spec hal hE ca ct (fun h => hP (by tauto)) add 1 A (MView.ofStor t B.cs B.rs false) C m1 T1.bdd
            a (fun i j => alpha * b i j) c hcs hk hrs h1 h2 h3 hA1.2 (Or.inl (by simp [MView.iscm, MView.ofStor])) hc' hrA hr2 hW
            (lsok_ofStor _ _ _ _) hL (T1.holdsM hA) b1.1 (T1.holdsM hC) dA (fun x h h' => T.disjM false hC.live x h' h)
          refine ⟨m2, by rw [e1]; exact e2, b2.1.congr fun i j _ _ => (accVal_mul add alpha c _ _ i j ?_).symm, fun x hx hnx => ?_⟩
          · unfold matMul; rw [mul_sum]
            exact sum_congr rfl fun l _ => by ring
          · rw [b2.2 x hx, T1.off x hnx, T.off x hnx]
      · rw [if_neg hA1]
        refine withTempM hal _ _ m hb C hC.live _ fun t m0 T => ?_
        dsimp only
        obtain ⟨m1, e1, b1⟩ := mat_assignMulX_spec hal alpha A (MView.ofStor t A.cs A.rs false) rfl rfl
          (ofStor_wf t A.cs A.rs false (by omega) (by omega)) hLA (lsok_ofStor _ _ _ _) m0 T.bdd a (T.holdsM hA) (T.stor false)
          (Or.inl (T.disjM false hA.live))
        have T1 : Temp m m1 t (A.cs * A.rs) := T.afterM (rm := false) b1
        have hr2 : RealOK ct (MView.ofStor t A.cs A.rs false) (fun i j => alpha * a i j) := by
          intro h
          have hca' : ca = false := by
            cases hq : ca with
            | false => rfl
            | true => rw [hca hq] at h; cases h
          refine ⟨rfl, fun i j hi hj => real_mul (hrC h).2 ((hrA hca').2 i j hi hj)⟩
        have dA2 : (MView.ofStor t A.cs A.rs false).Disjoint C := fun x h h' => T.disjM false hC.live x h' h
        have hss : (MView.ofStor t A.cs A.rs false).sameStorage C = false := by
          simp only [MView.sameStorage, decide_eq_false_iff_not]
          intro h
          refine dA2 t ⟨0, 0, by show 0 < A.cs; omega, h3, by simp [MView.addr, MView.ofStor]⟩ ⟨0, 0, h1, h2, ?_⟩
          have h' : t = C.ptr := h
          simp [MView.addr, h']
        obtain ⟨m2, e2, b2⟩ := ih ct cb (fun h => h) hcb add 1 (MView.ofStor t A.cs A.rs false) B C m1 T1.bdd
          (fun i j => alpha * a i j) b c hcs hk hrs hr2 hrB (fun _ => ⟨hc', star_one K⟩) hW (lsok_ofStor _ _ _ _) hLB hL
          b1.1 (T1.holdsM hB) (T1.holdsM hC) (Or.inl dA2) aB (by
            unfold mulDepth at hd ⊢
            have hi : (MView.ofStor t A.cs A.rs false).iscm = true := by simp [MView.iscm, MView.ofStor]
            rw [if_pos hcm, if_neg hA1, if_neg (by rw [hc']; simp)] at hd
            rw [if_pos hcm, if_neg (by rw [hc']; simp), if_pos ⟨by rw [hss]; simp, Or.inl hi⟩]
            omega)
        refine ⟨m2, by rw [e1]; exact e2, b2.1.congr fun i j _ _ => (accVal_mul add alpha c _ _ i j ?_).symm, fun x hx hnx => ?_⟩
        · unfold matMul; rw [mul_sum]
          exact sum_congr rfl fun l _ => by ring
        · rw [b2.2 x hx, T1.off x hnx, T.off x hnx]
    · rw [if_neg hcm]
      have hfuel : 2 ≤ fuel := by
        unfold mulDepth at hd
        rw [if_neg hcm, hc'] at hd
        simp at hd
        omega
      by_cases hrm : C.isrm = true
      · rw [if_pos hrm]
        have hCT : C.transpose.Holds m (fun i j => c j i) := hC.transpose
        have tr : ∀ {cp : Bool} {M : MView} {x : Nat → Nat → K}, RealOK cp M x → RealOK cp M.transpose (fun i j => x j i) :=
          fun h hh => ⟨(h hh).1, fun i j hi hj => (h hh).2 j i hj hi⟩
        obtain ⟨m', e, v⟩ := ih cb ca hcb hca add alpha B.transpose A.transpose C.transpose m hb
          (fun i j => b j i) (fun i j => a j i) (fun i j => c j i) hrs hk.symm hcs (tr hrB) (tr hrA) hrC
          hW.transpose hLB.transpose hLA.transpose hL.transpose hB.transpose hA.transpose hCT aB.transpose aA.transpose (by
            have e1 : C.transpose.iscm = true := by
              have : C.sj = 1 := by simpa [MView.isrm] using hrm
              exact decide_eq_true this
            have e2 : C.transpose.conj = false := hc'
            unfold mulDepth
            rw [e1, e2]
            simp only [if_true, Bool.false_eq_true, if_false, zero_add]
            split <;> omega)
        refine ⟨m', e, MView.Becomes.of_transpose (v.congr fun i j hi hj => ?_)⟩
        have : matMul B.transpose.rs (fun i j => b j i) (fun i j => a j i) i j = matMul A.rs a b j i := by
          show matMul B.cs _ _ _ _ = _
          rw [← hk]
          unfold matMul
          exact sum_congr rfl fun l _ => mul_comm _ _
        simp only [accVal, this]
      · rw [if_neg hrm]
        refine withTempM hal _ _ m hb C hC.live _ fun t m0 T => ?_
        dsimp only
        have hTW := ofStor_wf t C.cs C.rs false h1 h2
        have hTL := lsok_ofStor t C.cs C.rs false
        obtain ⟨x0, hx0⟩ := (T.stor (cs := C.cs) (rs := C.rs) false).holds
        have dA2 : A.Disjoint (MView.ofStor t C.cs C.rs false) := T.disjM false hA.live
        have dB2 : B.Disjoint (MView.ofStor t C.cs C.rs false) := T.disjM false hB.live
        obtain ⟨m1, e1, b1⟩ := ih ca cb hca hcb false 1 A B (MView.ofStor t C.cs C.rs false) m0 T.bdd a b x0 hcs hk hrs hrA hrB
          (fun _ => ⟨rfl, star_one K⟩) hTW hLA hLB hTL (T.holdsM hA) (T.holdsM hB) hx0 (Or.inl dA2) (Or.inl dB2) (by
            unfold mulDepth
            have : (MView.ofStor t C.cs C.rs false).iscm = true := by simp [MView.iscm, MView.ofStor]
            rw [this]
            simp only [MView.ofStor, if_true, Bool.false_eq_true, if_false, zero_add]
            split <;> omega)
        have T1 : Temp m m1 t (C.cs * C.rs) := T.afterM (rm := false) b1
        have hd' : (MView.ofStor t C.cs C.rs false).Disjoint C := fun x h h' => T.disjM false hC.live x h' h
        have hfin : ∃ m2, (if add then MView.addMM al alpha (MView.ofStor t C.cs C.rs false) C m1
            else MView.assignMulX al alpha (MView.ofStor t C.cs C.rs false) C m1) = some m2 ∧
            C.Becomes m1 m2 (accVal add alpha c (matMul A.rs a b)) := by
          cases add with
          | true =>
            obtain ⟨m2, p, q⟩ := mat_addMM_spec hal alpha (MView.ofStor t C.cs C.rs false) C rfl rfl m1 T1.bdd _ _ hW hTL hL b1.1
              (T1.holdsM hC) (Or.inl hd')
            exact ⟨m2, p, q.congr fun i j _ _ => by simp [accVal]⟩
          | false =>
            obtain ⟨m2, p, q⟩ := mat_assignMulX_spec hal alpha (MView.ofStor t C.cs C.rs false) C rfl rfl hW hTL hL m1 T1.bdd _ b1.1
              (T1.liveM hC.live) (Or.inl hd')
            exact ⟨m2, p, q.congr fun i j _ _ => by simp [accVal]⟩
        obtain ⟨m2, e2, b2⟩ := hfin
        refine ⟨m2, by rw [e1]; exact e2, b2.1, fun x hx hnx => ?_⟩
        rw [b2.2 x hx, T1.off x hnx, T.off x hnx]

/-- **C40** `C = alpha*A*B` and `C += alpha*A*B` give the product of the matrices, for every shape, layout and element type, if A and
B share no element with C or have the same first element as C; nothing but C changes. -/
theorem mulMM_spec {al : Alloc K} (hal : al.OK) {E : ElemTy K} (hE : E.OK) (ct ca cb : Bool) (hP : ct = true → E.Parts)
    (hca : ca = true → ct = true) (hcb : cb = true → ct = true)
    (add : Bool) (alpha : K) (A B C : MView) (m : Mem K) (hb : m.Bdd) (a b c : Nat → Nat → K)
    (hcs : A.cs = C.cs) (hk : A.rs = B.cs) (hrs : B.rs = C.rs)
    (hrA : RealOK ca A a) (hrB : RealOK cb B b) (hrC : ct = false → C.conj = false ∧ star alpha = alpha)
    (hW : C.WF) (hLA : A.LSOK) (hLB : B.LSOK) (hLC : C.LSOK)
    (hA : A.Holds m a) (hB : B.Holds m b) (hC : C.Holds m c) (aA : A.AliasOK C) (aB : B.AliasOK C) :
    ∃ m', MView.mulMM E al ct ca cb add alpha A B C m = some m' ∧
      C.Becomes m m' (fun i j => if add then c i j + alpha * ∑ l ∈ range A.rs, a i l * b l j else alpha * ∑ l ∈ range A.rs, a i l * b l j) :=
  mulMMAux_spec hal hE ct hP 4 ca cb hca hcb add alpha A B C m hb a b c hcs hk hrs hrA hrB hrC hW hLA hLB hLC hA hB hC aA aB (by
    unfold mulDepth; split <;> split <;> (try split) <;> omega)

end TMV
