import Verif.Model.SmallSum
import Verif.Props.SmallProd
import Verif.Props.MatArith
import Verif.Props.MatTwo
import Verif.Props.MatArithEx

/-! Property C116: sums of `SmallMatrix`es, also mixed with other matrices, assigned to any view. -/
namespace TMV.SmallSum
noncomputable section
open TMV.SmallDiv TMV.SmallProd Classical

variable {K : Type} [RCLike K]

/-- The elements of `C` are contiguous, in row-major (`rm`) or column-major order. -/
def Contig (C : MView) (M N : Nat) (rm : Bool) : Prop := if rm then C.sj = 1 ∧ C.si = N else C.si = 1 ∧ C.sj = M

theorem Contig.addr {C : MView} {M N : Nat} {rm : Bool} (h : Contig C M N rm) (i j : Nat) : C.addr i j = C.ptr + (idx rm M N i j : Nat) := by
  cases rm
  · obtain ⟨h1, h2⟩ : C.si = 1 ∧ C.sj = M := h
    simp only [MView.addr, h1, h2, idx, Bool.false_eq_true, if_false]; push_cast; ring
  · obtain ⟨h1, h2⟩ : C.sj = 1 ∧ C.si = N := h
    simp only [MView.addr, h1, h2, idx, if_true]; push_cast; ring

theorem Contig.ofStor (p : Int) (M N : Nat) (s : Bool) : Contig (MView.ofStor p M N s) M N s := by cases s <;> exact ⟨rfl, rfl⟩

/-- What an array holds if the view of it reads `x`. -/
theorem Contig.arr {C : MView} {M N : Nat} {rm : Bool} (h : Contig C M N rm) (hc : C.cs = M) (hr : C.rs = N) {m : Mem K} {x : Nat → Nat → K}
    (hx : C.Holds m x) {i j : Nat} (hi : i < M) (hj : j < N) : SmallSum.arr m C.ptr (idx rm M N i j) = cj C.conj (x i j) := by
  have := hx.rawA i j (by omega) (by omega)
  rw [h.addr] at this
  unfold SmallSum.arr
  rw [this, Option.getD_some]

theorem onArray_spec {M N : Nat} {rm : Bool} {C : MView} (h : Contig C M N rm) (hc : C.cs = M) (hr : C.rs = N)
    (kern : (Nat → K) → Nat → K) (m : Mem K) (hC : C.Live m) (val : Nat → Nat → K)
    (hk : ∀ c, Rel rm M N c (kern c) val) : C.Becomes m (onArray M N kern C m) val := by
  obtain ⟨h1, h2⟩ := hk (SmallSum.arr m C.ptr)
  have key : ∀ k, (if C.conj then conjSelf (M*N) (kern (SmallSum.arr m C.ptr)) else kern (SmallSum.arr m C.ptr)) k =
      if k < M*N then cj C.conj (kern (SmallSum.arr m C.ptr) k) else SmallSum.arr m C.ptr k := by
    intro k
    cases C.conj
    · simp only [Bool.false_eq_true, if_false, cj]
      split_ifs with h3
      · rfl
      · exact h2 k (by omega)
    · simp only [if_true, conjSelf_eq, cj]
      split_ifs with h3
      · rfl
      · exact h2 k (by omega)
  refine ⟨MView.Holds.of_raw fun i j hi hj => ?_, fun a ha => ?_⟩
  · have hl := hC i j hi hj
    rw [hc] at hi; rw [hr] at hj
    rw [h.addr] at hl ⊢
    have h0 := idx_lt (rm := rm) hi hj
    have e0 : (C.ptr + (idx rm M N i j : Nat) - C.ptr).toNat = idx rm M N i j := by omega
    unfold onArray put
    simp only [key, e0, if_pos h0, h1 i j hi hj]
    split_ifs with h3
    · rfl
    · have h4 : cj C.conj (val i j) = SmallSum.arr m C.ptr (idx rm M N i j) := by
        by_contra hne
        exact h3 ⟨by omega, hne⟩
      obtain ⟨z, hz⟩ := Option.isSome_iff_exists.mp hl
      rw [h4, hz]; unfold SmallSum.arr; rw [hz, Option.getD_some]
  · unfold onArray put
    simp only [key]
    rw [if_neg]
    rintro ⟨h3, h4⟩
    by_cases h5 : (a - C.ptr).toNat < M*N
    · have hM : 0 < M := Nat.pos_of_ne_zero fun h => by simp [h] at h5
      have hN : 0 < N := Nat.pos_of_ne_zero fun h => by simp [h] at h5
      have h6 := (ofStor_covers C.ptr M N rm hM hN a).mpr ⟨h3, by omega⟩
      obtain ⟨i, j, hi, hj, e⟩ := h6
      exact ha ⟨i, j, by rw [hc]; exact hi, by rw [hr]; exact hj, by rw [h.addr, e, (Contig.ofStor _ _ _ _).addr]; rfl⟩
    · exact h4 (if_neg h5)

theorem rel_of_spec {rm : Bool} {M N : Nat} {c c' : Nat → K} {X : Matrix (Fin M) (Fin N) K} {val : Nat → Nat → K}
    (h : smat rm M N c' = X ∧ SameOutside (M*N) c' c) (hX : ∀ (i : Fin M) (j : Fin N), X i j = val i j) : Rel rm M N c c' val :=
  ⟨fun i j hi hj => by rw [← hX ⟨i, hi⟩ ⟨j, hj⟩, ← h.1]; rfl, h.2⟩

theorem copy_out (M N : Nat) (s1 s2 : Bool) (a c : Nat → K) : smat s2 M N (copy M N s1 s2 a c) = smat s1 M N a ∧ SameOutside (M*N) (copy M N s1 s2 a c) c :=
  Rel.out (copy_rel M N s1 s2 a c) fun _ _ => rfl

theorem multXV_mat (M N : Nat) (s : Bool) (x : K) (c : Nat → K) :
    smat s M N (multXV (M*N) x c) = x • smat s M N c ∧ SameOutside (M*N) (multXV (M*N) x c) c := by
  have h : multXV (M*N) x c = fun k => if k < M*N then c k * x else c k := up_mod1 (fun _ o => o * x) (M*N) c
  exact Rel.out (flat_rel _ h) fun i j => mul_comm _ _

theorem conjSelf_mat (M N : Nat) (s : Bool) (c : Nat → K) :
    smat s M N (conjSelf (M*N) c) = (smat s M N c).map star ∧ SameOutside (M*N) (conjSelf (M*N) c) c :=
  Rel.out (flat_rel _ (conjSelf_eq (M*N) c)) fun i j => rfl

theorem sot {n : Nat} {a b c : Nat → K} (h1 : SameOutside n a b) (h2 : SameOutside n b c) : SameOutside n a c :=
  fun k hk => (h1 k hk).trans (h2 k hk)

section
variable {M N : Nat} {s1 s2 : Bool} {al : Alloc K} {p1 p2 : Int} {m0 : MView} {m : Mem K}

/-- What the statements below assume: the target `m0` is an `M`×`N` view the library can create, alive in memory; each operand reads
`p`, `q` and either shares no element with `m0` or starts at its address. -/
structure Ready (M N : Nat) (al : Alloc K) (m1 m2 m0 : MView) (m : Mem K) (p q : Nat → Nat → K) : Prop where
  hal : al.OK
  hc1 : m1.cs = M
  hr1 : m1.rs = N
  hc2 : m2.cs = M
  hr2 : m2.rs = N
  hc0 : m0.cs = M
  hr0 : m0.rs = N
  hb : m.Bdd
  hW : m0.WF
  hL1 : m1.LSOK
  hL2 : m2.LSOK
  hL0 : m0.LSOK
  h1 : m1.Holds m p
  h2 : m2.Holds m q
  h0 : m0.Live m
  ha1 : m1.AliasOK m0
  ha2 : m2.AliasOK m0

theorem Ready.gen {m1 m2 : MView} {p q : Nat → Nat → K} (h : Ready M N al m1 m2 m0 m p q) (x1 x2 : K) :
    ∃ m', MView.addMM3 al x1 m1 x2 m2 m0 m = some m' ∧ m0.Becomes m m' fun i j => x1 * p i j + x2 * q i j :=
  mat_addMM3_spec h.hal x1 m1 x2 m2 m0 (h.hc1.trans h.hc0.symm) (h.hr1.trans h.hr0.symm) (h.hc2.trans h.hc0.symm) (h.hr2.trans h.hr0.symm) m h.hb
    p q h.hW h.hL1 h.hL2 h.hL0 h.h1 h.h2 h.h0 h.ha1 h.ha2

theorem summm_core {p q : Nat → Nat → K} (h : Ready M N al (.ofStor p1 M N s1) (.ofStor p2 M N s2) m0 m p q)
    (kern : Bool → (Nat → K) → (Nat → K) → (Nat → K) → Nat → K) (x1 x2 : K)
    (hk : ∀ rm a1 a2 c, smat rm M N (kern rm a1 a2 c) = x1 • smat s1 M N a1 + x2 • smat s2 M N a2 ∧ SameOutside (M*N) (kern rm a1 a2 c) c)
    (y2 : K) (hy : x2 = y2 ∨ (Contig m0 M N false ∨ Contig m0 M N true) ∧ m0.ptr ≠ p1 ∧ m0.ptr ≠ p2) :
    ∃ m', summm M N kern x1 y2 al (.ofStor p1 M N s1) (.ofStor p2 M N s2) m0 m = some m' ∧
      m0.Becomes m m' fun i j => x1 * p i j + x2 * q i j := by
  have hkr : ∀ rm c, Rel rm M N c (kern rm (SmallSum.arr m p1) (SmallSum.arr m p2) c) fun i j => x1 * p i j + x2 * q i j := fun rm c =>
    rel_of_spec (hk rm _ _ c) fun i j => by
      have e1 := (Contig.ofStor p1 M N s1).arr rfl rfl h.h1 i.2 j.2
      have e2 := (Contig.ofStor p2 M N s2).arr rfl rfl h.h2 i.2 j.2
      show x1 * SmallSum.arr m p1 (idx s1 M N i j) + x2 * SmallSum.arr m p2 (idx s2 M N i j) = _
      simp only [MView.ofStor] at e1 e2
      rw [e1, e2]; rfl
  unfold summm
  split_ifs with hb1 hb2
  · exact ⟨_, rfl, onArray_spec (rm := false) ⟨hb1.1, hb1.2.1⟩ h.hc0 h.hr0 _ m h.h0 _ (hkr false)⟩
  · exact ⟨_, rfl, onArray_spec (rm := true) ⟨hb2.1, hb2.2.1⟩ h.hc0 h.hr0 _ m h.h0 _ (hkr true)⟩
  · rcases hy with rfl | ⟨hcon, hn1, hn2⟩
    · exact h.gen x1 x2
    · exfalso
      have e1 : (!m0.sameStorage (.ofStor p1 M N s1)) = true := by
        rw [Bool.not_eq_true', MView.sameStorage]; exact decide_eq_false hn1
      have e2 : (!m0.sameStorage (.ofStor p2 M N s2)) = true := by
        rw [Bool.not_eq_true', MView.sameStorage]; exact decide_eq_false hn2
      rcases hcon with hcon | hcon
      · exact hb1 ⟨hcon.1, hcon.2, e1, e2⟩
      · exact hb2 ⟨hcon.1, hcon.2, e1, e2⟩

variable {p q : Nat → Nat → K} (h : Ready M N al (.ofStor p1 M N s1) (.ofStor p2 M N s2) m0 m p q)
include h

/-- `m0 = m1 + m2`. -/
theorem assign_1_1_spec : ∃ m', assign_1_1 M N s1 s2 al p1 p2 m0 m = some m' ∧ m0.Becomes m m' fun i j => p i j + q i j := by
  have := summm_core h (fun rm a1 a2 c => addMM1 M N s2 rm a2 (copy M N s1 rm a1 c)) 1 1 (fun rm a1 a2 c => by
    obtain ⟨e1, o1⟩ := copy_out M N s1 rm a1 c
    obtain ⟨e2, o2⟩ := addMM1_spec M N s2 rm a2 (copy M N s1 rm a1 c)
    exact ⟨by rw [e2, e1, one_smul, one_smul], sot o2 o1⟩) 1 (Or.inl rfl)
  simp only [one_mul] at this
  exact this

/-- `m0 = m1 - m2`. -/
theorem assign_1_m1_spec : ∃ m', assign_1_m1 M N s1 s2 al p1 p2 m0 m = some m' ∧ m0.Becomes m m' fun i j => p i j - q i j := by
  have := summm_core h (fun rm a1 a2 c => addMMm1 M N s2 rm a2 (copy M N s1 rm a1 c)) 1 (-1) (fun rm a1 a2 c => by
    obtain ⟨e1, o1⟩ := copy_out M N s1 rm a1 c
    obtain ⟨e2, o2⟩ := addMMm1_spec M N s2 rm a2 (copy M N s1 rm a1 c)
    exact ⟨by rw [e2, e1, one_smul, neg_one_smul, sub_eq_add_neg], sot o2 o1⟩) (-1) (Or.inl rfl)
  simp only [one_mul, neg_one_mul, ← sub_eq_add_neg] at this
  exact this

/-- `m0 = m1 + x2*m2`. -/
theorem assign_1_x_spec (x2 : K) : ∃ m', assign_1_x M N s1 s2 al p1 p2 m0 m x2 = some m' ∧ m0.Becomes m m' fun i j => p i j + x2 * q i j := by
  have := summm_core h (fun rm a1 a2 c => addMM1 M N s1 rm a1 (multXV (M*N) x2 (copy M N s2 rm a2 c))) 1 x2 (fun rm a1 a2 c => by
    obtain ⟨e1, o1⟩ := copy_out M N s2 rm a2 c
    obtain ⟨e3, o3⟩ := multXV_mat M N rm x2 (copy M N s2 rm a2 c)
    obtain ⟨e2, o2⟩ := addMM1_spec M N s1 rm a1 (multXV (M*N) x2 (copy M N s2 rm a2 c))
    exact ⟨by rw [e2, e3, e1, one_smul, add_comm], sot (sot o2 o3) o1⟩) x2 (Or.inl rfl)
  simp only [one_mul] at this
  exact this

/-- `m0 = x1*m1 + m2`. -/
theorem assign_x_1_spec (x1 : K) : ∃ m', assign_x_1 M N s1 s2 al p1 p2 m0 m x1 = some m' ∧ m0.Becomes m m' fun i j => x1 * p i j + q i j := by
  have := summm_core h (fun rm a1 a2 c => addMM1 M N s2 rm a2 (multXV (M*N) x1 (copy M N s1 rm a1 c))) x1 1 (fun rm a1 a2 c => by
    obtain ⟨e1, o1⟩ := copy_out M N s1 rm a1 c
    obtain ⟨e3, o3⟩ := multXV_mat M N rm x1 (copy M N s1 rm a1 c)
    obtain ⟨e2, o2⟩ := addMM1_spec M N s2 rm a2 (multXV (M*N) x1 (copy M N s1 rm a1 c))
    exact ⟨by rw [e2, e3, e1, one_smul], sot (sot o2 o3) o1⟩) 1 (Or.inl rfl)
  simp only [one_mul] at this
  exact this

/-- `m0 = x1*m1 + x2*m2`. -/
theorem assign_x_x_spec (x1 x2 : K) :
    ∃ m', assign_x_x M N s1 s2 al p1 p2 m0 m x1 x2 = some m' ∧ m0.Becomes m m' fun i j => x1 * p i j + x2 * q i j :=
  summm_core h (fun rm a1 a2 c => addMM M N s2 rm x2 a2 (multXV (M*N) x1 (copy M N s1 rm a1 c))) x1 x2 (fun rm a1 a2 c => by
    obtain ⟨e1, o1⟩ := copy_out M N s1 rm a1 c
    obtain ⟨e3, o3⟩ := multXV_mat M N rm x1 (copy M N s1 rm a1 c)
    obtain ⟨e2, o2⟩ := addMM_spec M N s2 rm a2 (multXV (M*N) x1 (copy M N s1 rm a1 c)) x2
    exact ⟨by rw [e2, e3, e1], sot (sot o2 o3) o1⟩) x2 (Or.inl rfl)

/-- `m0 = x1*m1 - m2`, for a contiguous target that does not start at the address of an operand. -/
theorem assign_x_m1_partial (x1 : K) (hcon : Contig m0 M N false ∨ Contig m0 M N true) (hn1 : m0.ptr ≠ p1) (hn2 : m0.ptr ≠ p2) :
    ∃ m', assign_x_m1 M N s1 s2 al p1 p2 m0 m x1 = some m' ∧ m0.Becomes m m' fun i j => x1 * p i j - q i j := by
  have := summm_core h (fun rm a1 a2 c => addMMm1 M N s2 rm a2 (multXV (M*N) x1 (copy M N s1 rm a1 c))) x1 (-1) (fun rm a1 a2 c => by
    obtain ⟨e1, o1⟩ := copy_out M N s1 rm a1 c
    obtain ⟨e3, o3⟩ := multXV_mat M N rm x1 (copy M N s1 rm a1 c)
    obtain ⟨e2, o2⟩ := addMMm1_spec M N s2 rm a2 (multXV (M*N) x1 (copy M N s1 rm a1 c))
    exact ⟨by rw [e2, e3, e1, neg_one_smul, sub_eq_add_neg], sot (sot o2 o3) o1⟩) 1 (Or.inr ⟨hcon, hn1, hn2⟩)
  simp only [neg_one_mul, ← sub_eq_add_neg] at this
  exact this

/-- Any other target of `m0 = x1*m1 - m2` receives `x1*m1 + m2`: the code is wrong. -/
theorem assign_x_m1_violated (x1 : K) (hcon : ¬ Contig m0 M N false ∧ ¬ Contig m0 M N true ∨ m0.ptr = p1 ∨ m0.ptr = p2) :
    ∃ m', assign_x_m1 M N s1 s2 al p1 p2 m0 m x1 = some m' ∧ m0.Becomes m m' fun i j => x1 * p i j + q i j := by
  have h1 := h.gen x1 1
  simp only [one_mul] at h1
  unfold assign_x_m1 summm
  have e1 : m0.ptr = p1 → m0.sameStorage (.ofStor p1 M N s1) = true := fun h => by simp [MView.sameStorage, MView.ofStor, h]
  have e2 : m0.ptr = p2 → m0.sameStorage (.ofStor p2 M N s2) = true := fun h => by simp [MView.sameStorage, MView.ofStor, h]
  rw [if_neg, if_neg]
  · exact h1
  · rintro ⟨f1, f2, f3, f4⟩
    rcases hcon with hcon | hcon | hcon
    · exact hcon.2 ⟨f1, f2⟩
    · rw [e1 hcon] at f3; exact absurd f3 (by simp)
    · rw [e2 hcon] at f4; exact absurd f4 (by simp)
  · rintro ⟨f1, f2, f3, f4⟩
    rcases hcon with hcon | hcon | hcon
    · exact hcon.1 ⟨f1, f2⟩
    · rw [e1 hcon] at f3; exact absurd f3 (by simp)
    · rw [e2 hcon] at f4; exact absurd f4 (by simp)

end

/-! ### Mixed sums -/

theorem sumBody_out (M N : Nat) (sa sb cja : Bool) (x y : K) (a b : Nat → K) (rm : Bool) (c : Nat → K) :
    smat rm M N (sumBody M N sa sb cja x y a b rm c) = x • (smat sa M N a).map (cj cja) + y • smat sb M N b ∧
      SameOutside (M*N) (sumBody M N sa sb cja x y a b rm c) c := by
  obtain ⟨e1, o1⟩ := copy_out M N sa rm a c
  have h2 : smat rm M N (if cja then conjSelf (M*N) (copy M N sa rm a c) else copy M N sa rm a c) = (smat sa M N a).map (cj cja) ∧
      SameOutside (M*N) (if cja then conjSelf (M*N) (copy M N sa rm a c) else copy M N sa rm a c) c := by
    cases cja
    · simp only [Bool.false_eq_true, if_false]
      exact ⟨by rw [e1]; rfl, o1⟩
    · simp only [if_true]
      obtain ⟨e2, o2⟩ := conjSelf_mat M N rm (copy M N sa rm a c)
      exact ⟨by rw [e2, e1]; rfl, sot o2 o1⟩
  unfold sumBody
  dsimp only
  generalize (if cja then conjSelf (M*N) (copy M N sa rm a c) else copy M N sa rm a c) = c2 at h2 ⊢
  have h3 : smat rm M N (if x ≠ 1 then multXV (M*N) x c2 else c2) = x • (smat sa M N a).map (cj cja) ∧
      SameOutside (M*N) (if x ≠ 1 then multXV (M*N) x c2 else c2) c := by
    by_cases hx : x = 1
    · rw [if_neg (by simpa using hx), hx, one_smul]; exact h2
    · rw [if_pos hx]
      obtain ⟨e3, o3⟩ := multXV_mat M N rm x c2
      exact ⟨by rw [e3, h2.1], sot o3 h2.2⟩
  generalize (if x ≠ 1 then multXV (M*N) x c2 else c2) = c3 at h3 ⊢
  by_cases hy : y = 1
  · rw [if_pos hy]
    obtain ⟨e4, o4⟩ := addMM1_spec M N sb rm b c3
    exact ⟨by rw [e4, h3.1, hy, one_smul], sot o4 h3.2⟩
  · rw [if_neg hy]
    obtain ⟨e4, o4⟩ := addMM_spec M N sb rm b c3 y
    exact ⟨by rw [e4, h3.1], sot o4 h3.2⟩

theorem sumTarget_spec {M N : Nat} {C : MView} (hc : C.cs = M) (hr : C.rs = N) (body : Bool → (Nat → K) → Nat → K) (m : Mem K) (hC : C.Live m)
    (val : Nat → Nat → K) (hk : ∀ rm c, Rel rm M N c (body rm c) val) (els : Option (Mem K)) (he : ∃ m', els = some m' ∧ C.Becomes m m' val) :
    ∃ m', sumTarget M N body C m els = some m' ∧ C.Becomes m m' val := by
  unfold sumTarget
  split_ifs with h1 h2
  · exact ⟨_, rfl, onArray_spec (rm := false) h1 hc hr _ m hC _ (hk false)⟩
  · exact ⟨_, rfl, onArray_spec (rm := true) h2 hc hr _ m hC _ (hk true)⟩
  · exact he

theorem body_rel {M N : Nat} {A B : MView} {sa sb : Bool} {m : Mem K} {p q : Nat → Nat → K} (hcA : Contig A M N sa) (hcB : Contig B M N sb)
    (h1 : A.cs = M) (h2 : A.rs = N) (h3 : B.cs = M) (h4 : B.rs = N) (hp : A.Holds m p) (hq : B.Holds m q) (hB : B.conj = false) (x y : K)
    (rm : Bool) (c : Nat → K) :
    Rel rm M N c (sumBody M N sa sb A.conj x y (SmallSum.arr m A.ptr) (SmallSum.arr m B.ptr) rm c) fun i j => x * p i j + y * q i j :=
  rel_of_spec (sumBody_out M N sa sb A.conj x y _ _ rm c) fun i j => by
    have e1 := hcA.arr h1 h2 hp i.2 j.2
    have e2 := hcB.arr h3 h4 hq i.2 j.2
    show x * cj A.conj (SmallSum.arr m A.ptr (idx sa M N i j)) + y * SmallSum.arr m B.ptr (idx sb M N i j) = _
    rw [e1, e2, hB, cj_cj]; rfl

section
variable {M N : Nat} {s1 s2 : Bool} {al : Alloc K} {p1 p2 : Int} {m0 : MView} {m : Mem K} {p q : Nat → Nat → K}

/-- `m0 = x1*m1 + x2*m2` with a `SmallMatrix` `m1` and any view `m2`. -/
theorem assign_mM_spec {m2 : MView} (h : Ready M N al (.ofStor p1 M N s1) m2 m0 m p q) (x1 x2 : K) :
    ∃ m', assign_mM M N s1 al x1 p1 x2 m2 m0 m = some m' ∧ m0.Becomes m m' fun i j => x1 * p i j + x2 * q i j := by
  have hg := h.gen x1 x2
  have key : ∀ sa, Contig m2 M N sa → ∀ rm c, Rel rm M N c
      (sumBody M N sa s1 m2.conj x2 x1 (SmallSum.arr m m2.ptr) (SmallSum.arr m p1) rm c) fun i j => x1 * p i j + x2 * q i j := fun sa hsa rm c => by
    have := body_rel hsa (Contig.ofStor p1 M N s1) h.hc2 h.hr2 rfl rfl h.h2 h.h1 rfl x2 x1 rm c
    exact this.congr fun i j _ _ => add_comm _ _
  unfold assign_mM
  dsimp only
  split_ifs with hb1 hb2
  · exact sumTarget_spec h.hc0 h.hr0 _ m h.h0 _ (key false ⟨hb1.1, hb1.2.1⟩) _ hg
  · exact sumTarget_spec h.hc0 h.hr0 _ m h.h0 _ (key true ⟨hb2.1, hb2.2.1⟩) _ hg
  · exact hg

/-- The version for a real target. -/
theorem assign_mM_real_spec {m2 : MView} (h : Ready M N al (.ofStor p1 M N s1) m2 m0 m p q) (h2 : m2.conj = false) (x1 x2 : K) :
    ∃ m', assign_mM_real M N s1 al x1 p1 x2 m2 m0 m = some m' ∧ m0.Becomes m m' fun i j => x1 * p i j + x2 * q i j := by
  have hg := h.gen x1 x2
  have key : ∀ sb, Contig m2 M N sb → ∀ rm c, Rel rm M N c
      (sumBody M N s1 sb false x1 x2 (SmallSum.arr m p1) (SmallSum.arr m m2.ptr) rm c) fun i j => x1 * p i j + x2 * q i j := fun sb hsb rm c =>
    body_rel (Contig.ofStor p1 M N s1) hsb rfl rfl h.hc2 h.hr2 h.h1 h.h2 h2 x1 x2 rm c
  unfold assign_mM_real
  dsimp only
  split_ifs with hb1 hb2
  · exact sumTarget_spec h.hc0 h.hr0 _ m h.h0 _ (key false ⟨hb1.1, hb1.2.1⟩) _ hg
  · exact sumTarget_spec h.hc0 h.hr0 _ m h.h0 _ (key true ⟨hb2.1, hb2.2.1⟩) _ hg
  · exact hg

/-- `m0 = x1*m1 + x2*m2` with any view `m1` and a `SmallMatrix` `m2`: right if `m2` is column-major or `m1` is contiguous. -/
theorem assign_Mm_partial {m1 : MView} (h : Ready M N al m1 (.ofStor p2 M N s2) m0 m p q) (x1 x2 : K)
    (hs : s2 = false ∨ Contig m1 M N false ∨ Contig m1 M N true) :
    ∃ m', assign_Mm M N s2 al x1 m1 x2 p2 m0 m = some m' ∧ m0.Becomes m m' fun i j => x1 * p i j + x2 * q i j := by
  have hg := h.gen x1 x2
  have key : ∀ sa, Contig m1 M N sa → ∀ rm c, Rel rm M N c
      (sumBody M N sa s2 m1.conj x1 x2 (SmallSum.arr m m1.ptr) (SmallSum.arr m p2) rm c) fun i j => x1 * p i j + x2 * q i j := fun sa hsa rm c =>
    body_rel hsa (Contig.ofStor p2 M N s2) h.hc1 h.hr1 rfl rfl h.h1 h.h2 rfl x1 x2 rm c
  unfold assign_Mm
  dsimp only
  split_ifs with hb1 hb2
  · exact sumTarget_spec h.hc0 h.hr0 _ m h.h0 _ (key false ⟨hb1.1, hb1.2.1⟩) _ hg
  · rcases hs with hs | hs | hs
    · -- `M = N = 1`
      subst hs
      have hM : M = 1 := by have := hb2.1; simp only [MView.ofStor, Bool.false_eq_true, if_false] at this; exact_mod_cast this
      have hN : N = 1 := by have := hb2.2.1; simp only [MView.ofStor, Bool.false_eq_true, if_false] at this; exact_mod_cast this.symm
      subst hM; subst hN
      refine sumTarget_spec h.hc0 h.hr0 _ m h.h0 _ (fun rm c => rel_of_spec (sumBody_out 1 1 true false m1.conj x1 x2 _ _ rm c) fun i j => ?_) _ hg
      have e2 := (Contig.ofStor p2 1 1 false).arr rfl rfl h.h2 i.2 j.2
      have e1 := h.h1.rawA i j (by rw [h.hc1]; exact i.2) (by rw [h.hr1]; exact j.2)
      obtain rfl : i = 0 := Subsingleton.elim _ _
      obtain rfl : j = 0 := Subsingleton.elim _ _
      have e3 : SmallSum.arr m m1.ptr 0 = cj m1.conj (p 0 0) := by
        unfold SmallSum.arr
        simp only [MView.addr, Fin.val_zero, Nat.cast_zero, zero_mul, add_zero] at e1 ⊢
        rw [e1, Option.getD_some]
      show x1 * cj m1.conj (SmallSum.arr m m1.ptr 0) + x2 * SmallSum.arr m p2 (idx false 1 1 0 0) = _
      rw [e3, cj_cj]
      exact congrArg (fun z => _ + x2 * z) e2
    · exact absurd ⟨hs.1, hs.2, hb2.2.2⟩ hb1
    · exact sumTarget_spec h.hc0 h.hr0 _ m h.h0 _ (key true hs) _ hg
  · exact hg

end

/-! ### Concrete cases -/

/-- Addresses 0 to 15, each holding its own address. -/
def exMem : Mem ℝ := fun a => if 0 ≤ a ∧ a < 16 then some a else none

theorem exMem_at (a : Int) (h : 0 ≤ a ∧ a < 16) : exMem a = some (a : ℝ) := if_pos h

theorem exMem_bdd : exMem.Bdd := ⟨16, fun a ha => if_neg (by omega)⟩

/-- A 2×2 view with steps 4 and 2 at address 0: the elements 0, 2, 4, 6. -/
def exA : MView := ⟨0, 2, 2, 4, 2, false, 0⟩

/-- A row-major `SmallMatrix` at address 8, a strided operand, a contiguous target at address 12. -/
theorem exReady : Ready 2 2 Alloc.good exA (.ofStor 8 2 2 true) (.ofStor 12 2 2 false) exMem
    (fun i j => 4*i + 2*j) (fun i j => 8 + 2*i + j) := by
  refine ⟨Alloc.good_ok, rfl, rfl, rfl, rfl, rfl, rfl, exMem_bdd, ofStor_wf _ _ _ _ (by decide) (by decide), Or.inr (Or.inl rfl),
    lsok_ofStor _ _ _ _, lsok_ofStor _ _ _ _, ?_, ?_, ?_, Or.inl ?_, Or.inl ?_⟩
  · intro i j hi hj
    have hi' : i < 2 := hi
    have hj' : j < 2 := hj
    simp only [MView.cref, Mem.read, MView.addr, exA]
    rw [exMem_at _ (by omega)]
    simp only [Option.map_some, cj, Bool.false_eq_true, if_false]
    push_cast; congr 1; ring
  · intro i j hi hj
    have hi' : i < 2 := hi
    have hj' : j < 2 := hj
    simp only [MView.cref, Mem.read, MView.addr, MView.ofStor, if_true]
    rw [exMem_at _ (by omega)]
    simp only [Option.map_some, cj, Bool.false_eq_true, if_false]
    push_cast; congr 1; ring
  · intro i j hi hj
    have hi' : i < 2 := hi
    have hj' : j < 2 := hj
    simp only [MView.addr, MView.ofStor, Bool.false_eq_true, if_false]
    rw [exMem_at _ (by omega)]; rfl
  · rintro a ⟨i, j, hi, hj, e⟩ ⟨i', j', hi', hj', e'⟩
    simp only [MView.addr, MView.ofStor, exA, Bool.false_eq_true, if_false] at *
    omega
  · rintro a ⟨i, j, hi, hj, e⟩ ⟨i', j', hi', hj', e'⟩
    simp only [MView.addr, MView.ofStor, Bool.false_eq_true, if_false, if_true] at *
    omega

/-- The code is wrong for a row-major `SmallMatrix` added to a view that is not contiguous: it reads the view as if it were. -/
theorem assign_Mm_violated : ∃ (m1 m0 : MView) (m : Mem ℝ) (p2 : Int) (p q : Nat → Nat → ℝ), Ready 2 2 Alloc.good m1 (.ofStor p2 2 2 true) m0 m p q ∧
    ∀ m', assign_Mm 2 2 true Alloc.good 1 m1 1 p2 m0 m = some m' → m0.cref m' 0 1 ≠ some (p 0 1 + q 0 1) := by
  refine ⟨exA, .ofStor 12 2 2 false, exMem, 8, _, _, exReady, fun m' h => ?_⟩
  unfold assign_Mm at h
  dsimp only at h
  rw [if_neg (by rintro ⟨h1, -⟩; exact absurd h1 (by decide)), if_pos ⟨rfl, rfl, by decide, by decide⟩] at h
  unfold sumTarget at h
  rw [if_pos ⟨rfl, rfl⟩, Option.some.injEq] at h
  have hb := onArray_spec (rm := false) (C := .ofStor 12 2 2 false) ⟨rfl, rfl⟩ rfl rfl
    (sumBody 2 2 true true false 1 1 (SmallSum.arr exMem 0) (SmallSum.arr exMem 8) false) exMem exReady.h0
    (fun i j => 1 * SmallSum.arr exMem 0 (i*2+j) + 1 * SmallSum.arr exMem 8 (i*2+j))
    fun c => rel_of_spec (sumBody_out 2 2 true true false 1 1 _ _ false c) fun i j => rfl
  have h1 := hb.1 0 1 (by decide) (by decide)
  rw [← h]
  intro h2
  have h3 := h1.symm.trans h2
  simp only [Option.some.injEq, SmallSum.arr, exMem] at h3
  norm_num at h3

end
end TMV.SmallSum
