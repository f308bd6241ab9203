import Verif.Model.Rank1
import Verif.Props.MatArithEx

/-! Property C72: rank-1 updates. -/
namespace TMV
variable {K : Type _} [CommRing K] [StarRing K] [DecidableEq K]

/-- The result of `A (+)= x^y`. -/
def outerVal (add : Bool) (x y : Nat → K) (a : Nat → Nat → K) (i j : Nat) : K :=
  if add then a i j + x i * y j else x i * y j

theorem colRank1_spec (add cx cm : Bool) (x y : VView) (A : MView) (m : Mem K) (u v : Nat → K) (a : Nat → Nat → K)
    (hcm : cm = true → A.si = 1) (hx : x.size = A.cs) (hy : y.size = A.rs) (hxs : x.step = 1) (hcx : x.conj = cx)
    (hAc : A.conj = false) (hW : A.WF) (hX : x.Holds m u) (hY : y.Holds m v) (hA : A.Holds m a)
    (hdx : x.DisjointM A) (hdy : y.DisjointM A) :
    ∃ m', MView.colRank1 add cx cm x y A m = some m' ∧ A.Becomes m m' (outerVal add u v a) := by
  unfold MView.colRank1
  dsimp only
  have e1 : (if cm = true then 1 else A.si) = A.si := by
    split
    · rename_i h; exact (hcm h).symm
    · rfl
  rw [e1]
  refine cols_spec _ A hW.1 m _ ?_
  intro j hj m1 h1 h2
  have hXm : x.Holds m1 u := hX.frameM h1 hdx
  have hYm : y.Holds m1 v := hY.frameM h1 hdy
  have hAj : (A.col j).Holds m1 (fun i => a i j) := by
    intro i hi
    rw [← hA i j hi hj, VView.cref, MView.cref, Mem.read, Mem.read, A.col_addr]
    exact congrArg _ (h2 i j le_rfl hj hi)
  have hwj := hW.col hj
  have yj := hYm.rawA j (by omega)
  simp only [VView.addr] at yj
  rw [Mem.read, yj, Option.bind_some]
  have cz : ∀ c : K, cj y.conj c = 0 ↔ c = 0 := by intro c; unfold cj; split <;> simp
  by_cases h0 : cj y.conj (v j) ≠ 0
  · rw [if_pos h0]
    have colcov : ∀ i : Nat, i < A.cs → A.Covers (A.ptr + j * A.sj + i * A.si) := fun i hi =>
      ⟨i, j, hi, hj, by simp only [MView.addr]; ring⟩
    obtain ⟨m2, p, q, r⟩ := loop3_spec (fun a b c => let t := cj cx a * cj y.conj b; if add then c + t else t) 1 0 A.si
      A.cs x.ptr (y.ptr + j * y.step) (A.ptr + j * A.sj) m1 (fun i => cj cx (u i)) (fun _ => cj y.conj (v j))
      (fun i => a i j) hwj.inj
      (by
        intro i i' hi hi' e
        refine hdx _ (colcov i (by omega)) ⟨i', by omega, ?_⟩
        rw [← e, VView.addr, hxs])
      (by
        intro i i' hi hi' e
        refine hdy _ (colcov i (by omega)) ⟨j, by omega, ?_⟩
        rw [← e, VView.addr, mul_zero, add_zero])
      (fun i hi => by
        have := hXm.rawA i (by omega)
        rwa [VView.addr, hxs, hcx] at this)
      (fun i hi => by rw [mul_zero, add_zero]; exact yj)
      (fun i hi => by
        have := hAj.rawA i hi
        rwa [show (A.col j).conj = false from hAc] at this)
    refine ⟨m2, p, VView.Holds.of_raw fun i hi => ?_, fun c hc => r c fun i hi e => hc ⟨i, hi, e⟩⟩
    have := q i hi
    rw [show (A.col j).addr i = A.ptr + j * A.sj + i * A.si from rfl, this]
    dsimp only
    rw [cj_cj, cj_cj, show (A.col j).conj = false from hAc]
    rfl
  · rw [if_neg h0]
    have h0' : v j = 0 := (cz _).mp (not_not.mp h0)
    cases add with
    | true =>
      exact ⟨m1, rfl, VView.Becomes.refl fun i hi => by rw [hAj i hi]; simp [outerVal, h0']⟩
    | false =>
      obtain ⟨m2, p, q⟩ := (A.col j).mapped_loopFill (0 : K) m1 hwj.inj hAj.live
      refine ⟨m2, p, VView.Holds.of_raw fun i hi => ?_, q.2⟩
      rw [q.1 i hi, hAj.rawA i hi, show (A.col j).conj = false from hAc]
      simp [outerVal, h0', cj]

theorem unitRank1_spec (add cx : Bool) (x y : VView) (A : MView) (m : Mem K) (u v : Nat → K) (a : Nat → Nat → K)
    (hx : x.size = A.cs) (hy : y.size = A.rs) (hxs : x.step = 1) (hcx : x.conj = cx)
    (hAc : A.conj = false) (hW : A.WF) (hX : x.Holds m u) (hY : y.Holds m v) (hA : A.Holds m a)
    (hdx : x.DisjointM A) (hdy : y.DisjointM A) :
    ∃ m', MView.unitRank1 add cx x y A m = some m' ∧ A.Becomes m m' (outerVal add u v a) := by
  unfold MView.unitRank1
  split
  · rename_i h
    exact colRank1_spec add cx true x y A m u v a (fun _ => by simpa [MView.iscm] using h) hx hy hxs hcx hAc hW hX hY hA
      hdx hdy
  · exact colRank1_spec add cx false x y A m u v a (fun h => by cases h) hx hy hxs hcx hAc hW hX hY hA hdx hdy

private theorem nonBlasRank1_spec {al : Alloc K} (hal : al.OK) (add : Bool) (alpha : K) (x y : VView) (A : MView)
    (m : Mem K) (hb : m.Bdd) (u v : Nat → K) (a : Nat → Nat → K)
    (hx : x.size = A.cs) (hy : y.size = A.rs)
    (hAc : A.conj = false) (hW : A.WF) (hX : x.Holds m u) (hY : y.Holds m v) (hA : A.Holds m a)
    (hdx : x.DisjointM A) (hdy : y.DisjointM A) :
    ∃ m', MView.nonBlasRank1 al add alpha x y A m = some m' ∧
      A.Becomes m m' (fun i j => if add then a i j + alpha * (u i * v j) else alpha * (u i * v j)) := by
  unfold MView.nonBlasRank1
  have tw : ∀ (t : Int) (n : Nat), (⟨t, n, 1, false⟩ : VView).WF := fun t n => Or.inl one_ne_zero
  have tdis : ∀ {m0 : Mem K} {t : Int} {n : Nat}, Temp m m0 t n → (⟨t, n, 1, false⟩ : VView).DisjointM A := by
    rintro m0 t n T c ⟨i, j, hi, hj, rfl⟩ hc
    exact T.nin (hA.live i j hi hj) (vtemp_in hc)
  have cpy : ∀ (w : VView) (z : Nat → K) (m0 : Mem K) (t : Int), w.Holds m z → Temp m m0 t w.size →
      ∃ m1, VView.mulXV alpha w ⟨t, w.size, 1, false⟩ m0 = some m1 ∧ Temp m m1 t w.size ∧
        (⟨t, w.size, 1, false⟩ : VView).Holds m1 (fun i => alpha * z i) := by
    intro w z m0 t hw T
    obtain ⟨W, hWe⟩ : ∃ W : VView, W = ⟨t, w.size, 1, false⟩ := ⟨_, rfl⟩
    have sz : w.size = W.size := by rw [hWe]
    obtain ⟨m1, e, b⟩ := mulXV_spec alpha w W m0 z sz (by rw [hWe]; exact tw _ _)
      (SafeOrder.of_noClash sz (NoClash.of_disjoint (by rw [hWe]; exact T.disjV hw.live))) (T.holdsV hw)
      (by rw [hWe]; exact T.vec)
    rw [hWe] at e b
    exact ⟨m1, e, T.afterV b, b.1⟩
  split
  · split
    · rename_i h1 h2
      refine withTempM hal _ _ m hb A hA.live _ ?_
      intro t m0 T
      dsimp only
      obtain ⟨m1, e1, T1, v1⟩ := cpy y v m0 t hY T
      obtain ⟨m2, e2, b2⟩ := unitRank1_spec add x.conj x ⟨t, y.size, 1, false⟩ A m1 u _ a hx hy h2.1 rfl hAc hW
        (T1.holdsV hX) v1 (T1.holdsM hA) hdx (tdis T1)
      refine ⟨m2, by rw [e1]; exact e2, b2.1.congr fun i j _ _ => ?_, fun c h3 h4 => ?_⟩
      · simp only [outerVal]; rw [show u i * (alpha * v j) = alpha * (u i * v j) by ring]
      · rw [b2.2 c h3, T1.off c h4, T.off c h4]
    · refine withTempM hal _ _ m hb A hA.live _ ?_
      intro t m0 T
      dsimp only
      obtain ⟨m1, e1, T1, v1⟩ := cpy x u m0 t hX T
      obtain ⟨m2, e2, b2⟩ := unitRank1_spec add false ⟨t, x.size, 1, false⟩ y A m1 _ v a hx hy rfl rfl hAc hW
        v1 (T1.holdsV hY) (T1.holdsM hA) (tdis T1) hdy
      refine ⟨m2, by rw [e1]; exact e2, b2.1.congr fun i j _ _ => ?_, fun c h3 h4 => ?_⟩
      · simp only [outerVal]; rw [mul_assoc]
      · rw [b2.2 c h3, T1.off c h4, T.off c h4]
  · rename_i h1
    rw [not_or, not_not, not_not] at h1
    obtain ⟨m', e, b⟩ := unitRank1_spec add x.conj x y A m u v a hx hy h1.1 rfl hAc hW hX hY hA hdx hdy
    exact ⟨m', e, b.congr fun i j _ _ => by simp [outerVal, h1.2]⟩

private theorem rank1nc_spec {al : Alloc K} (hal : al.OK) (add : Bool) (alpha : K) (x y : VView) (A : MView)
    (m : Mem K) (hb : m.Bdd) (u v : Nat → K) (a : Nat → Nat → K)
    (hx : x.size = A.cs) (hy : y.size = A.rs)
    (hAc : A.conj = false) (hW : A.WF) (hX : x.Holds m u) (hY : y.Holds m v) (hA : A.Holds m a)
    (hdx : x.DisjointM A) (hdy : y.DisjointM A) :
    ∃ m', MView.rank1nc al add alpha x y A m = some m' ∧
      A.Becomes m m' (fun i j => if add then a i j + alpha * (u i * v j) else alpha * (u i * v j)) := by
  unfold MView.rank1nc
  split
  · have tr : ∀ w : VView, w.DisjointM A → w.DisjointM A.transpose := fun w h c hc => h c (by rwa [A.transpose_covers] at hc)
    obtain ⟨m', e, b⟩ := nonBlasRank1_spec hal add alpha y x A.transpose m hb v u _ hy hx hAc hW.transpose hY hX hA.transpose
      (tr y hdy) (tr x hdx)
    refine ⟨m', e, MView.Becomes.of_transpose (b.congr fun i j _ _ => ?_)⟩
    rw [mul_comm (v i)]
  · exact nonBlasRank1_spec hal add alpha x y A m hb u v a hx hy hAc hW hX hY hA hdx hdy

/-- **C72** (`A = alpha * x^y`, `A += alpha * x^y`).  For every size, layout, step and conjugation `A(i,j)` becomes
`alpha*x(i)*y(j)`, plus its old value if adding; nothing else changes and the temporaries are gone.  Partial: the
vectors must not share elements with `A`; although the documentation promises to recognise vectors that start at the
first element of `A`, `rank1_alias_violated` shows that it does not. -/
theorem rank1_spec_partial {al : Alloc K} (hal : al.OK) (add : Bool) (alpha : K) (x y : VView) (A : MView)
    (m : Mem K) (hb : m.Bdd) (u v : Nat → K) (a : Nat → Nat → K)
    (hx : x.size = A.cs) (hy : y.size = A.rs) (hW : A.WF) (hL : A.LSOK)
    (hX : x.Holds m u) (hY : y.Holds m v) (hA : A.Holds m a)
    (hdx : x.DisjointM A) (hdy : y.DisjointM A) :
    ∃ m', MView.rank1 al add alpha x y A m = some m' ∧
      A.Becomes m m' (fun i j => if add then a i j + alpha * (u i * v j) else alpha * (u i * v j)) := by
  unfold MView.rank1
  by_cases h0 : A.cs > 0 ∧ A.rs > 0
  swap
  · rw [if_neg h0]
    exact ⟨m, rfl, fun i j hi hj => absurd ⟨by omega, by omega⟩ h0, fun _ _ => rfl⟩
  rw [if_pos h0]
  by_cases h1 : alpha = 0
  · rw [if_pos h1]
    cases add with
    | true => exact ⟨m, rfl, MView.Becomes.refl fun i j hi hj => by rw [hA i j hi hj]; simp [h1]⟩
    | false =>
      obtain ⟨m1, p, q, r⟩ := mat_setZero_spec A hW hL m hA.live
      exact ⟨m1, p, MView.Becomes.congr ⟨q, r⟩ fun i j _ _ => by simp [h1]⟩
  rw [if_neg h1]
  by_cases hc : A.conj = true
  · rw [if_pos hc]
    obtain ⟨m', e, b⟩ := rank1nc_spec hal add (star alpha) x.conjugate y.conjugate A.conjugate m hb _ _ _ hx hy
      (by simp [MView.conjugate, hc]) hW (VView.Holds.conjugate.mp hX) (VView.Holds.conjugate.mp hY)
      (MView.Holds.conjugate.mp hA) hdx hdy
    refine ⟨m', e, MView.Becomes.of_conjugate (b.congr fun i j _ _ => ?_)⟩
    cases add <;> simp [mul_comm]
  · rw [if_neg hc]
    exact rank1nc_spec hal add alpha x y A m hb u v a hx hy (by simpa using hc) hW hX hY hA hdx hdy

/-- The hypotheses are met: `m += 2*x^y` with `x` of step 1 at address 10 and `y.conjugate()` of step 2 at 15. -/
example : ∃ m', MView.rank1 Alloc.good true 2 ⟨10, 3, 1, false⟩ ⟨15, 3, 2, true⟩ exM exMem = some m' ∧
    exM.cref m' 1 2 = some (⟨6, 0⟩ + 2 * (⟨12, 0⟩ * star ⟨20, 0⟩)) := by
  obtain ⟨m', e, h, -⟩ := rank1_spec_partial Alloc.good_ok true 2 ⟨10, 3, 1, false⟩ ⟨15, 3, 2, true⟩ exM exMem exMem_bdd
    (fun i => ⟨i + 11, 0⟩) (fun i => star ⟨2 * i + 16, 0⟩) _ rfl rfl exM_wf (lsok_ofStor _ _ _ _)
    (by intro i hi; have : i < 3 := hi; interval_cases i <;> decide)
    (by intro i hi; have : i < 3 := hi; interval_cases i <;> decide) exM_holds
    (by rintro k ⟨a, b, ha, hb, h⟩ ⟨i, hi, h'⟩
        have h1 : a < 3 := ha
        have h2 : b < 3 := hb
        simp [exM, MView.ofStor, MView.addr, VView.addr] at h h'
        omega)
    (by rintro k ⟨a, b, ha, hb, h⟩ ⟨i, hi, h'⟩
        have h1 : a < 3 := ha
        have h2 : b < 3 := hb
        simp [exM, MView.ofStor, MView.addr, VView.addr] at h h'
        omega)
  refine ⟨m', e, ?_⟩
  refine (h 1 2 (by decide) (by decide)).trans ?_
  decide +kernel

/-- Finding: `m = m.col(0) ^ m.row(0)` for the 2×2 column-major matrix with rows (2,4), (3,5).  All three objects start at
the same element, the case the documentation says is recognised, but no temporary is made: `m(0,1)` should become
`2*4`, and becomes `(2*2)*4` since `m.col(0)` has been overwritten in the meantime. -/
theorem rank1_alias_violated :
    ∃ (A : MView) (x y : VView) (m' : Mem GaussianInt), A = MView.ofStor 1 2 2 false ∧ x = A.col 0 ∧ y = A.row 0 ∧
      x.ptr = A.ptr ∧ y.ptr = A.ptr ∧ x.cref exMem 0 = some 2 ∧ y.cref exMem 1 = some 4 ∧
      MView.rank1 ⟨fun _ _ => 100, fun _ => 0⟩ false (1 : GaussianInt) x y A exMem = some m' ∧
      A.cref m' 0 1 = some ((2 * 2) * 4) ∧ A.cref m' 0 1 ≠ some (2 * 4) := by
  refine ⟨MView.ofStor 1 2 2 false, (MView.ofStor 1 2 2 false).col 0, (MView.ofStor 1 2 2 false).row 0, ?_⟩
  obtain ⟨m', h, g⟩ : ∃ m', MView.rank1 ⟨fun _ _ => 100, fun _ => 0⟩ false (1 : GaussianInt)
      ((MView.ofStor 1 2 2 false).col 0) ((MView.ofStor 1 2 2 false).row 0) (MView.ofStor 1 2 2 false) exMem = some m' ∧
      (MView.ofStor 1 2 2 false).cref m' 0 1 = some ((2 * 2) * 4) := by
    rw [← Option.bind_eq_some_iff]
    decide +kernel
  exact ⟨m', rfl, rfl, rfl, by decide, by decide, by decide, by decide, h, g, by rw [g]; decide⟩

end TMV
