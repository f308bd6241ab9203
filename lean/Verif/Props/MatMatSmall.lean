import Verif.Props.MatMatKern

/-! The small-size algorithms `CCCMultMM`, `CRCMultMM`, `RCCMultMM`. -/
namespace TMV
open Finset
variable {K : Type _} [CommRing K] [StarRing K] [DecidableEq K]

/-- The product of two matrices with `n` as inner dimension. -/
def matMul (n : Nat) (a b : Nat → Nat → K) (i j : Nat) : K := ∑ l ∈ range n, a i l * b l j

/-- The result of `C = alpha*P` or `C += alpha*P`. -/
def accVal (add : Bool) (alpha : K) (c p : Nat → Nat → K) (i j : Nat) : K :=
  if add then c i j + alpha * p i j else alpha * p i j

theorem viaTemp_spec {al : Alloc K} (hal : al.OK) (add : Bool) (alpha : K) (C : MView)
    (kern : Int → Mem K → Option (Mem K)) (m : Mem K) (hb : m.Bdd) (c f : Nat → Nat → K)
    (h1 : 0 < C.cs) (h2 : 0 < C.rs) (hW : C.WF) (hL : C.LSOK) (hC : C.Holds m c)
    (hk : ∀ t m0, Temp m m0 t (C.cs * C.rs) →
      ∃ m1, kern t m0 = some m1 ∧ m0.Adds m1 (rect t 1 C.cs C.cs C.rs f)) :
    ∃ m', MView.viaTemp al add alpha C kern m = some m' ∧ C.Becomes m m' (accVal add alpha c f) := by
  unfold MView.viaTemp
  refine withTempM hal _ _ m hb C hC.live _ fun t m0 T => ?_
  dsimp only
  have hTW : (MView.ofStor t C.cs C.rs false).WF := ofStor_wf t C.cs C.rs false h1 h2
  have hTL := lsok_ofStor t C.cs C.rs false
  have hdis := T.disjM false hC.live
  obtain ⟨m1, e1, b1, fr1⟩ := mat_setAllTo_spec_partial (MView.ofStor t C.cs C.rs false) (0 : K) hTW hTL m0 (T.stor false)
    (Or.inl rfl)
  have T1 : Temp m m1 t (C.cs * C.rs) := T.afterM (rm := false) ⟨b1, fr1⟩
  obtain ⟨m2, e2, a2⟩ := hk t m1 T1
  have b2 : (MView.ofStor t C.cs C.rs false).Becomes m1 m2 (fun i j => 0 + f i j) :=
    Mem.Adds.holds (M := MView.ofStor t C.cs C.rs false) hTW.1 rfl a2 b1
  have T2 : Temp m m2 t (C.cs * C.rs) := T1.afterM (rm := false) b2
  obtain ⟨m3, e3, b3⟩ : ∃ m3, (if alpha ≠ 1 then (MView.ofStor t C.cs C.rs false).mulX alpha m2 else some m2) = some m3 ∧
      (MView.ofStor t C.cs C.rs false).Becomes m2 m3 (fun i j => alpha * f i j) := by
    by_cases ha : alpha ≠ 1
    · rw [if_pos ha]
      obtain ⟨m3, p, q⟩ := mat_mulX_spec alpha _ m2 _ hTW hTL b2.1
      exact ⟨m3, p, q.congr fun i j _ _ => by simp⟩
    · rw [if_neg ha]
      refine ⟨m2, rfl, MView.Becomes.refl (b2.1.congr fun i j _ _ => ?_)⟩
      simp at ha; simp [ha]
  have T3 : Temp m m3 t (C.cs * C.rs) := T2.afterM (rm := false) b3
  have hd' : (MView.ofStor t C.cs C.rs false).Disjoint C := fun a ha hc => hdis a hc ha
  have hfin : ∃ m4, (if add then MView.addMM al 1 (MView.ofStor t C.cs C.rs false) C m3
      else MView.assign al (MView.ofStor t C.cs C.rs false) C m3) = some m4 ∧ C.Becomes m3 m4 (accVal add alpha c f) := by
    cases add with
    | true =>
      obtain ⟨m4, p, q⟩ := mat_addMM_spec hal 1 (MView.ofStor t C.cs C.rs false) C rfl rfl m3 T3.bdd _ _ hW hTL hL b3.1
        (T3.holdsM hC) (Or.inl hd')
      exact ⟨m4, p, q.congr fun i j _ _ => by simp [accVal]⟩
    | false =>
      obtain ⟨m4, p, q⟩ := assign_spec hal (MView.ofStor t C.cs C.rs false) C rfl rfl hW hTL hL m3 T3.bdd _ b3.1
        (T3.liveM hC.live) (Or.inl hd')
      exact ⟨m4, p, q.congr fun i j _ _ => by simp [accVal]⟩
  obtain ⟨m4, e4, b4⟩ := hfin
  refine ⟨m4, ?_, b4.1, fun a ha hna => ?_⟩
  · rw [e1]; simp only [Option.bind_some]
    rw [e2]; simp only [Option.bind_some]
    rw [e3]; exact e4
  · rw [b4.2 a ha, T3.off a hna, T.off a hna]

/-- The situation inside the temporary's scope: A and B can be read, the temporary can be written. -/
theorem Temp.env {m m0 : Mem K} {t : Int} {n : Nat} (T : Temp m m0 t n) {A B : MView} {a b : Nat → Nat → K}
    (hA : A.Holds m a) (hB : B.Holds m b) :
    Env (fun x => A.Covers x ∨ B.Covers x) (fun x => t ≤ x ∧ x < t + n) (fun x => (m x).getD 0) m0 := by
  have hl : ∀ x, A.Covers x ∨ B.Covers x → (m x).isSome := by
    rintro x (⟨i, j, hi, hj, rfl⟩ | ⟨i, j, hi, hj, rfl⟩)
    · exact hA.live i j hi hj
    · exact hB.live i j hi hj
  refine ⟨fun x hx => ?_, fun x hx => T.live x hx.1 hx.2, fun x hx => T.nin (hl x hx)⟩
  rw [T.off x (T.nin (hl x hx))]
  obtain ⟨z, hz⟩ := Option.isSome_iff_exists.mp (hl x hx)
  simp [hz]

theorem stor_cell {t : Int} {cs rs : Nat} {i j : Nat} (hi : i < cs) (hj : j < rs) :
    t ≤ t + i + j * (cs : Int) ∧ t + i + j * (cs : Int) < t + (cs * rs : Nat) := by
  have := ofStor_in (t := t) (cs := cs) (rs := rs) (rm := false) ⟨i, j, hi, hj, rfl⟩
  simpa [MView.ofStor, MView.addr] using this

/-- `CCCMultMM` and `CRCMultMM`: A column-major; B of any layout here. -/
theorem ccMulMM_spec {al : Alloc K} (hal : al.OK) (add : Bool) (alpha : K) (A B C : MView) (m : Mem K) (hb : m.Bdd)
    (a b c : Nat → Nat → K) (hcs : A.cs = C.cs) (hk : A.rs = B.cs) (hrs : B.rs = C.rs)
    (h1 : 0 < C.cs) (h2 : 0 < C.rs) (h3 : 0 < A.rs) (hAcm : A.si = 1)
    (hW : C.WF) (hL : C.LSOK) (hA : A.Holds m a) (hB : B.Holds m b) (hC : C.Holds m c) :
    ∃ m', MView.viaTemp al add alpha C (fun t =>
      recCC A.conj B.conj A.sj B.si B.sj C.cs (C.rs + A.rs) C.cs C.rs A.rs A.ptr B.ptr t) m = some m' ∧
      C.Becomes m m' (accVal add alpha c (matMul A.rs a b)) := by
  refine viaTemp_spec hal add alpha C _ m hb c _ h1 h2 hW hL hC fun t m0 T => ?_
  have E := T.env hA hB
  have hac := recCC_acc (R := fun x => A.Covers x ∨ B.Covers x) (W := fun x => t ≤ x ∧ x < t + (C.cs * C.rs : Nat))
    (val := fun x => (m x).getD 0) A.conj B.conj A.sj B.si B.sj C.cs (C.rs + A.rs) C.cs C.rs A.rs A.ptr B.ptr t h2 h3 le_rfl
    (fun i l hi hl => Or.inl ⟨i, l, by omega, hl, by simp [MView.addr, hAcm]⟩)
    (fun l j hl hj => Or.inr ⟨l, j, by omega, by omega, rfl⟩)
    (fun i j hi hj => stor_cell hi hj)
  obtain ⟨m1, e, ad⟩ := hac.2 m0 E
  refine ⟨m1, e, fun x => ?_⟩
  rw [ad x]
  congr 2; funext z; congr 1
  refine rect_congr (fun i j hi hj => sum_congr rfl fun l hl => ?_) x
  have hl' : l < A.rs := mem_range.mp hl
  have ea := hA.rawA i l (by omega) hl'
  have eb := hB.rawA l j (by omega) (by omega)
  rw [show A.ptr + i + l * A.sj = A.addr i l by simp [MView.addr, hAcm],
    show B.ptr + l * B.si + j * B.sj = B.addr l j from rfl, ea, eb]
  simp [cj_cj]

theorem cccMulMM_spec {al : Alloc K} (hal : al.OK) (add : Bool) (alpha : K) (A B C : MView) (m : Mem K) (hb : m.Bdd)
    (a b c : Nat → Nat → K) (hcs : A.cs = C.cs) (hk : A.rs = B.cs) (hrs : B.rs = C.rs)
    (h1 : 0 < C.cs) (h2 : 0 < C.rs) (h3 : 0 < A.rs) (hAcm : A.iscm = true) (hBcm : B.iscm = true)
    (hW : C.WF) (hL : C.LSOK) (hA : A.Holds m a) (hB : B.Holds m b) (hC : C.Holds m c) :
    ∃ m', MView.cccMulMM al add alpha A B C m = some m' ∧ C.Becomes m m' (accVal add alpha c (matMul A.rs a b)) := by
  have := ccMulMM_spec hal add alpha A B C m hb a b c hcs hk hrs h1 h2 h3 (by simpa [MView.iscm] using hAcm) hW hL hA hB hC
  rw [show B.si = 1 by simpa [MView.iscm] using hBcm] at this
  exact this

theorem crcMulMM_spec {al : Alloc K} (hal : al.OK) (add : Bool) (alpha : K) (A B C : MView) (m : Mem K) (hb : m.Bdd)
    (a b c : Nat → Nat → K) (hcs : A.cs = C.cs) (hk : A.rs = B.cs) (hrs : B.rs = C.rs)
    (h1 : 0 < C.cs) (h2 : 0 < C.rs) (h3 : 0 < A.rs) (hAcm : A.iscm = true) (hBrm : B.isrm = true)
    (hW : C.WF) (hL : C.LSOK) (hA : A.Holds m a) (hB : B.Holds m b) (hC : C.Holds m c) :
    ∃ m', MView.crcMulMM al add alpha A B C m = some m' ∧ C.Becomes m m' (accVal add alpha c (matMul A.rs a b)) := by
  have := ccMulMM_spec hal add alpha A B C m hb a b c hcs hk hrs h1 h2 h3 (by simpa [MView.iscm] using hAcm) hW hL hA hB hC
  rw [show B.sj = 1 by simpa [MView.isrm] using hBrm] at this
  exact this

theorem rccMulMM_spec {al : Alloc K} (hal : al.OK) (add : Bool) (alpha : K) (A B C : MView) (m : Mem K) (hb : m.Bdd)
    (a b c : Nat → Nat → K) (hcs : A.cs = C.cs) (hk : A.rs = B.cs) (hrs : B.rs = C.rs)
    (h1 : 0 < C.cs) (h2 : 0 < C.rs) (hArm : A.isrm = true) (hBcm : B.iscm = true)
    (hW : C.WF) (hL : C.LSOK) (hA : A.Holds m a) (hB : B.Holds m b) (hC : C.Holds m c) :
    ∃ m', MView.rccMulMM al add alpha A B C m = some m' ∧ C.Becomes m m' (accVal add alpha c (matMul A.rs a b)) := by
  have hArm' : A.sj = 1 := by simpa [MView.isrm] using hArm
  have hBcm' : B.si = 1 := by simpa [MView.iscm] using hBcm
  refine viaTemp_spec hal add alpha C _ m hb c _ h1 h2 hW hL hC fun t m0 T => ?_
  have E := T.env hA hB
  have hac := recRCC_acc (R := fun x => A.Covers x ∨ B.Covers x) (W := fun x => t ≤ x ∧ x < t + (C.cs * C.rs : Nat))
    (val := fun x => (m x).getD 0) A.conj B.conj A.si B.sj C.cs (C.cs + C.rs) C.cs C.rs A.rs A.ptr B.ptr t h1 h2 le_rfl
    (fun i l hi hl => Or.inl ⟨i, l, by omega, hl, by simp [MView.addr, hArm']⟩)
    (fun l j hl hj => Or.inr ⟨l, j, by omega, by omega, by simp [MView.addr, hBcm']; ring⟩)
    (fun i j hi hj => stor_cell hi hj)
  obtain ⟨m1, e, ad⟩ := hac.2 m0 E
  refine ⟨m1, e, fun x => ?_⟩
  rw [ad x]
  congr 2; funext z; congr 1
  refine rect_congr (fun i j hi hj => sum_congr rfl fun l hl => ?_) x
  have hl' : l < A.rs := mem_range.mp hl
  have ea := hA.rawA i l (by omega) hl'
  have eb := hB.rawA l j (by omega) (by omega)
  rw [show A.ptr + i * A.si + l = A.addr i l by simp [MView.addr, hArm'],
    show B.ptr + j * B.sj + l = B.addr l j by simp [MView.addr, hBcm']; ring]
  dsimp only
  rw [ea, eb]
  simp [cj_cj]

end TMV
