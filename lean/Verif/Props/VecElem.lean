import Verif.Props.VecArith

/-!
Properties C69 and C41: the element-wise product `z = alpha*ElemProd(x,y)`, `z += alpha*ElemProd(x,y)`.
-/
namespace TMV
variable {K : Type _}

private theorem stepEq (p s : Int) (i : Nat) : p + ((i + 1 : Nat) : Int) * s = p + s + i * s := by
  push_cast; ring

theorem loop3_spec (f : K → K → K → K) (sx sy sz : Int) :
    ∀ (n : Nat) (px py pz : Int) (m : Mem K) (x y z : Nat → K), (sz ≠ 0 ∨ n ≤ 1) →
      AheadP n px sx pz sz → AheadP n py sy pz sz →
      (∀ i : Nat, i < n → m (px + i * sx) = some (x i)) →
      (∀ i : Nat, i < n → m (py + i * sy) = some (y i)) →
      (∀ i : Nat, i < n → m (pz + i * sz) = some (z i)) →
      ∃ m', VView.loop3 f sx sy sz n px py pz m = some m' ∧
        (∀ i : Nat, i < n → m' (pz + i * sz) = some (f (x i) (y i) (z i))) ∧
        (∀ a, (∀ i : Nat, i < n → a ≠ pz + i * sz) → m' a = m a) := by
  intro n
  induction n with
  | zero => intro px py pz m x y z _ _ _ _ _ _; exact ⟨m, rfl, by intro i hi; omega, fun _ _ => rfl⟩
  | succ n ih =>
    intro px py pz m x y z hs hx hy rx ry rz
    have x0 := rx 0 (by omega)
    have y0 := ry 0 (by omega)
    have z0 := rz 0 (by omega)
    simp only [Nat.cast_zero, zero_mul, add_zero] at x0 y0 z0
    have e2 : ∀ i : Nat, i < n → pz + sz + i * sz ≠ pz := by
      intro i hi h
      rcases hs with hs | hs
      · have : ((i : Int) + 1) * sz = 0 := by linarith [h]
        rcases mul_eq_zero.mp this with h | h
        · omega
        · exact hs h
      · omega
    have ex : ∀ i : Nat, i < n → px + sx + i * sx ≠ pz := by
      intro i hi
      have := hx 0 (i+1) (by omega) (by omega)
      rw [stepEq] at this; simpa using this
    have ey : ∀ i : Nat, i < n → py + sy + i * sy ≠ pz := by
      intro i hi
      have := hy 0 (i+1) (by omega) (by omega)
      rw [stepEq] at this; simpa using this
    obtain ⟨m', a, b, c⟩ := ih (px + sx) (py + sy) (pz + sz)
      (fun b => if b = pz then some (f (x 0) (y 0) (z 0)) else m b)
      (fun i => x (i+1)) (fun i => y (i+1)) (fun i => z (i+1))
      (by rcases hs with h | h; exact Or.inl h; right; omega)
      (by
        intro i j hij hj
        have := hx (i+1) (j+1) (by omega) (by omega)
        rwa [stepEq, stepEq] at this)
      (by
        intro i j hij hj
        have := hy (i+1) (j+1) (by omega) (by omega)
        rwa [stepEq, stepEq] at this)
      (by
        intro i hi
        have := rx (i+1) (by omega); rw [stepEq] at this
        simpa [ex i hi] using this)
      (by
        intro i hi
        have := ry (i+1) (by omega); rw [stepEq] at this
        simpa [ey i hi] using this)
      (by
        intro i hi
        have := rz (i+1) (by omega); rw [stepEq] at this
        simpa [e2 i hi] using this)
    refine ⟨m', ?_, ?_, ?_⟩
    · simp only [VView.loop3, Mem.read, x0, y0, z0, Option.bind_some]
      rw [Mem.write_of_isSome _ (by rw [z0]; rfl), Option.bind_some]; exact a
    · intro i hi
      cases i with
      | zero =>
        have := c pz (fun i hi => (e2 i hi).symm)
        simpa using this
      | succ i =>
        rw [stepEq]
        exact b i (by omega)
    · intro w hw
      rw [c w]
      · have a2 : w ≠ pz := by simpa using hw 0 (by omega)
        simp [a2]
      · intro i hi; have := hw (i+1) (by omega); rwa [stepEq] at this

theorem elemReverse_neg (sx sy sz : Int) (h : VView.elemReverse sx sy sz = true) :
    VView.elemReverse (-sx) (-sy) (-sz) = false := by
  simp only [VView.elemReverse, decide_eq_true_eq, decide_eq_false_iff_not] at h ⊢
  omega

/-- Value of an element after `z (+)= alpha*ElemProd(x,y)`. -/
def elemVal [Add K] [Mul K] (add : Bool) (alpha : K) (x y z : Nat → K) (i : Nat) : K :=
  if add then z i + alpha * (x i * y i) else alpha * (x i * y i)

/-- The operand `u` and the result `z` share no element, or are the same vector up to conjugation. -/
def SameOrDisjoint (u z : VView) : Prop := u.Disjoint z ∨ (u.ptr = z.ptr ∧ u.step = z.step)

theorem SameOrDisjoint.noClash {u z : VView} (h : SameOrDisjoint u z) (hn : u.size = z.size) (hz : z.WF) :
    NoClash u z := by
  rcases h with h | ⟨h1, h2⟩
  · exact NoClash.of_disjoint h
  · exact NoClash.of_same h1 h2 hn hz

theorem SameOrDisjoint.reverse {u z : VView} (h : SameOrDisjoint u z) (hn : u.size = z.size) :
    SameOrDisjoint u.reverse z.reverse := by
  rcases h with h | ⟨h1, h2⟩
  · left; intro a ha hb
    rw [u.reverse_covers] at ha; rw [z.reverse_covers] at hb
    exact h a ha hb
  · right; exact ⟨by simp only [VView.reverse, h1, h2, hn], by simp only [VView.reverse, h2]⟩

theorem SameOrDisjoint.not_copied {u z : VView} (h : SameOrDisjoint u z) (hn : u.size = z.size) (h0 : 0 < z.size) :
    ¬ (u.sameStorage z = true ∧ u.step > z.step) := by
  rintro ⟨h1, h2⟩
  simp only [VView.sameStorage, decide_eq_true_eq] at h1
  rcases h with h | ⟨_, h3⟩
  · exact h u.ptr ⟨0, by omega, by simp [VView.addr]⟩ ⟨0, h0, by simp [VView.addr, h1]⟩
  · omega

section
variable [CommRing K] [StarRing K] [DecidableEq K]

private theorem doElem_spec (add : Bool) (alpha : K) (X Y Z : VView) (m : Mem K) (x y z : Nat → K)
    (hX : X.size = Z.size) (hY : Y.size = Z.size) (hZ : Z.WF) (hc : Z.conj = false) (aX : Ahead X Z) (aY : Ahead Y Z)
    (rX : X.Holds m x) (rY : Y.Holds m y) (rZ : Z.Holds m z) :
    ∃ m', VView.doElemMul add alpha X Y Z m = some m' ∧ Z.Becomes m m' (elemVal add alpha x y z) := by
  unfold VView.doElemMul
  obtain ⟨m', p, q, r⟩ := loop3_spec (fun a b c =>
      let p := if alpha = 1 then cj X.conj a * cj Y.conj b else alpha * cj X.conj a * cj Y.conj b
      if add then c + p else p) X.step Y.step Z.step Z.size X.ptr Y.ptr Z.ptr m _ _ _ hZ.inj aX aY
      (fun i hi => rX.rawA i (by omega)) (fun i hi => rY.rawA i (by omega)) (fun i hi => rZ.rawA i hi)
  refine ⟨m', p, VView.Holds.of_raw ?_, fun a ha => r a (fun i hi e => ha ⟨i, hi, e⟩)⟩
  intro i hi
  rw [VView.addr, q i hi, hc]
  dsimp only
  rw [cj_cj, cj_cj]
  congr 1
  show _ = elemVal add alpha x y z i
  unfold elemVal
  by_cases h1 : alpha = 1
  · rw [if_pos h1, h1, one_mul]; rfl
  · rw [if_neg h1, mul_assoc]; rfl

/-- With operands that are the result itself (up to conjugation) or disjoint from it. -/
private theorem elem_basic (fuel : Nat) (t : Nat → Int) (junk : Int → K) (add : Bool) (alpha : K)
    (X Y Z : VView) (m : Mem K) (x y z : Nat → K) (ha : add = true ∨ alpha ≠ 0)
    (hX : X.size = Z.size) (hY : Y.size = Z.size) (hZ : Z.WF) (hc : Z.conj = false)
    (aX : SameOrDisjoint X Z) (aY : SameOrDisjoint Y Z)
    (rX : X.Holds m x) (rY : Y.Holds m y) (rZ : Z.Holds m z) :
    ∃ m', VView.elemMulVV (fuel+2) t junk add alpha X Y Z m = some m' ∧
      Z.Becomes m m' (elemVal add alpha x y z) := by
  by_cases h : Z.size > 0 ∧ alpha ≠ 0
  swap
  · rw [VView.elemMulVV]; dsimp only; rw [if_neg h]
    refine ⟨m, rfl, fun i hi => ?_, fun _ _ => rfl⟩
    have h0 : alpha = 0 := by by_contra h'; exact h ⟨by omega, h'⟩
    have h1 : add = true := by rcases ha with h | h; exact h; exact absurd h0 h
    rw [rZ i hi]; simp [elemVal, h0, h1]
  by_cases hr : VView.elemReverse X.step Y.step Z.step = true
  · rw [VView.elemMulVV]; dsimp only
    rw [if_pos h, if_neg (by simp [hc]), if_pos hr, VView.elemMulVV]; dsimp only
    have h' : Z.reverse.size > 0 ∧ alpha ≠ 0 := h
    have hc' : Z.reverse.conj = false := hc
    rw [if_pos h', if_neg (by simp [hc']), if_neg (by simp [VView.reverse, elemReverse_neg _ _ _ hr]),
      if_neg ((aX.reverse hX).not_copied hX h.1), if_neg ((aY.reverse hY).not_copied hY h.1)]
    obtain ⟨m', p, q⟩ := doElem_spec add alpha X.reverse Y.reverse Z.reverse m _ _ _ hX hY hZ.reverse hc
      (Ahead.of_noClash hX ((aX.noClash hX hZ).reverse hX)) (Ahead.of_noClash hY ((aY.noClash hY hZ).reverse hY))
      rX.reverse rY.reverse rZ.reverse
    refine ⟨m', p, VView.Becomes.of_reverse ?_⟩
    rw [hX, hY] at q
    exact q
  · rw [VView.elemMulVV]; dsimp only
    rw [if_pos h, if_neg (by simp [hc]), if_neg hr, if_neg (aX.not_copied hX h.1), if_neg (aY.not_copied hY h.1)]
    exact doElem_spec add alpha X Y Z m x y z hX hY hZ hc (Ahead.of_noClash hX (aX.noClash hX hZ))
      (Ahead.of_noClash hY (aY.noClash hY hZ)) rX rY rZ

/-- Operands that are the result itself (up to conjugation) or disjoint from it need no temporaries. -/
theorem elemMulVV_same (t : Nat → Int) (junk : Int → K) (add : Bool) (alpha : K)
    (X Y Z : VView) (m : Mem K) (x y z : Nat → K) (ha : add = true ∨ alpha ≠ 0)
    (hX : X.size = Z.size) (hY : Y.size = Z.size) (hZ : Z.WF)
    (aX : SameOrDisjoint X Z) (aY : SameOrDisjoint Y Z)
    (rX : X.Holds m x) (rY : Y.Holds m y) (rZ : Z.Holds m z) :
    ∃ m', VView.elemMulVV 5 t junk add alpha X Y Z m = some m' ∧
      Z.Becomes m m' (elemVal add alpha x y z) := by
  rcases Bool.eq_false_or_eq_true Z.conj with hc | hc
  · rw [VView.elemMulVV]; dsimp only
    by_cases h : Z.size > 0 ∧ alpha ≠ 0
    swap
    · rw [if_neg h]
      refine ⟨m, rfl, fun i hi => ?_, fun _ _ => rfl⟩
      have h0 : alpha = 0 := by by_contra h'; exact h ⟨by omega, h'⟩
      have h1 : add = true := by rcases ha with h | h; exact h; exact absurd h0 h
      rw [rZ i hi]; simp [elemVal, h0, h1]
    rw [if_pos h, if_pos hc]
    obtain ⟨m', e, b⟩ := elem_basic 2 (fun k => t (k+1)) junk add (star alpha) X.conjugate Y.conjugate Z.conjugate m
      _ _ _ (Or.inr (fun h0 => h.2 (by rw [← star_star alpha, h0, star_zero]))) hX hY hZ
      (by simp [VView.conjugate, hc]) aX aY (VView.Holds.conjugate.mp rX) (VView.Holds.conjugate.mp rY)
      (VView.Holds.conjugate.mp rZ)
    refine ⟨m', e, VView.Becomes.of_conjugate (b.congr ?_)⟩
    intro i _
    unfold elemVal
    split <;> simp [mul_comm]
  · exact elem_basic 3 t junk add alpha X Y Z m x y z ha hX hY hZ hc aX aY rX rY rZ

/-- The temporary copy of `u`. -/
private theorem temp_spec (t : Int) (junk : Int → K) (u : VView) (m : Mem K) (x : Nat → K)
    (hu : u.Holds m x) (ht : m.Fresh t u.size) :
    ∃ m1, VView.copy u ⟨t, u.size, 1, false⟩ (m.alloc t u.size junk) = some m1 ∧
      (⟨t, u.size, 1, false⟩ : VView).Holds m1 x ∧
      (∀ a v, m a = some v → m1 a = some v) ∧ (∀ a, ¬ (t ≤ a ∧ a < t + u.size) → m1 a = m a) := by
  obtain ⟨T, hT⟩ : ∃ T : VView, T = ⟨t, u.size, 1, false⟩ := ⟨_, rfl⟩
  rw [← hT]
  have hTs : T.size = u.size := by rw [hT]
  have hd : u.Disjoint T := by rw [hT]; exact ht.disjoint hu.live
  obtain ⟨m1, e1, b1⟩ := copy_safe_spec u T (m.alloc t u.size junk) x hTs.symm
    (Or.inl (by rw [hT]; exact one_ne_zero)) (SafeOrder.of_noClash hTs.symm (NoClash.of_disjoint hd))
    (VView.Holds.of_raw fun i hi => Mem.alloc_of_some ht junk (hu.rawA i hi))
    (by rw [hT]; exact Mem.alloc_live m t u.size junk)
  have off : ∀ a, ¬ (t ≤ a ∧ a < t + u.size) → m1 a = m a := by
    intro a ha
    have hTc : ¬ T.Covers a := by
      rintro ⟨j, hj, e⟩
      rw [hT] at e hj
      simp only [VView.addr] at e hj
      exact ha (by omega)
    rw [b1.2 a hTc, Mem.alloc, if_neg ha]
  refine ⟨m1, e1, b1.1, ?_, off⟩
  intro a v hv
  by_cases hh : t ≤ a ∧ a < t + u.size
  · rw [ht a hh.1 hh.2] at hv; cases hv
  · rw [off a hh, hv]

omit [CommRing K] [StarRing K] [DecidableEq K] in
private theorem Holds.keep [InvolutiveStar K] {u : VView} {m m1 : Mem K} {x : Nat → K} (hu : u.Holds m x)
    (h : ∀ a v, m a = some v → m1 a = some v) : u.Holds m1 x :=
  VView.Holds.of_raw fun i hi => h _ _ (hu.rawA i hi)

omit [CommRing K] [StarRing K] [DecidableEq K] in
/-- After the temporary is destroyed. -/
private theorem free_spec [InvolutiveStar K] {t : Int} {n : Nat} {w : VView} {m m1 m2 : Mem K} {x : Nat → K}
    (ht : m.Fresh t n) (hw : w.Live m) (off : ∀ a, ¬ (t ≤ a ∧ a < t + n) → m1 a = m a)
    (b : w.Becomes m1 m2 x) : w.Becomes m (m2.free t n) x := by
  constructor
  · intro i hi
    have hnt : ¬ (t ≤ w.addr i ∧ w.addr i < t + n) := by
      intro hh
      have := hw i hi
      rw [ht _ hh.1 hh.2] at this; cases this
    have h1 := b.1 i hi
    rw [VView.cref, Mem.read, Mem.free, if_neg hnt]; exact h1
  · intro c hc
    unfold Mem.free
    by_cases hh : t ≤ c ∧ c < t + n
    · rw [if_pos hh, ht c hh.1 hh.2]
    · rw [if_neg hh, b.2 c hc, off c hh]

/-- The operand `u` has the same first element as the result `z` and a larger positive step. -/
def Strided (u z : VView) : Prop := u.ptr = z.ptr ∧ 0 < z.step ∧ z.step < u.step

private theorem Strided.copied {u z : VView} (h : Strided u z) : u.sameStorage z = true ∧ u.step > z.step :=
  ⟨by simp [VView.sameStorage, h.1], h.2.2⟩

omit [CommRing K] [StarRing K] [DecidableEq K] in
private theorem temp_ok {t : Int} {n : Nat} {m : Mem K} {z : VView} (ht : m.Fresh t n) (hz : z.Live m) :
    SameOrDisjoint ⟨t, n, 1, false⟩ z := by
  left; intro a h1 h2; exact ht.disjoint hz a h2 h1

private theorem elem_nc (fuel : Nat) (t : Nat → Int) (junk : Int → K) (add : Bool) (alpha : K)
    (X Y Z : VView) (m : Mem K) (x y z : Nat → K) (ha : add = true ∨ alpha ≠ 0)
    (hX : X.size = Z.size) (hY : Y.size = Z.size) (hZ : Z.WF) (hc : Z.conj = false)
    (aX : SameOrDisjoint X Z ∨ Strided X Z) (aY : SameOrDisjoint Y Z ∨ Strided Y Z)
    (hr : (SameOrDisjoint X Z ∧ SameOrDisjoint Y Z) ∨ VView.elemReverse X.step Y.step Z.step = false)
    (rX : X.Holds m x) (rY : Y.Holds m y) (rZ : Z.Holds m z)
    (ht0 : m.Fresh (t 0) Z.size) (ht1 : m.Fresh (t 1) Z.size)
    (ht : t 1 + Z.size ≤ t 0 ∨ t 0 + Z.size ≤ t 1) :
    ∃ m', VView.elemMulVV (fuel+4) t junk add alpha X Y Z m = some m' ∧
      Z.Becomes m m' (elemVal add alpha x y z) := by
  by_cases hbb : SameOrDisjoint X Z ∧ SameOrDisjoint Y Z
  · exact elem_basic (fuel+2) t junk add alpha X Y Z m x y z ha hX hY hZ hc hbb.1 hbb.2 rX rY rZ
  have hr' : VView.elemReverse X.step Y.step Z.step = false := by
    rcases hr with h | h
    · exact absurd h hbb
    · exact h
  by_cases h : Z.size > 0 ∧ alpha ≠ 0
  swap
  · rw [VView.elemMulVV]; dsimp only; rw [if_neg h]
    refine ⟨m, rfl, fun i hi => ?_, fun _ _ => rfl⟩
    have h0 : alpha = 0 := by by_contra h'; exact h ⟨by omega, h'⟩
    have h1 : add = true := by rcases ha with h | h; exact h; exact absurd h0 h
    rw [rZ i hi]; simp [elemVal, h0, h1]
  have up : ∀ {m1 : Mem K}, (∀ a, ¬ (t 0 ≤ a ∧ a < t 0 + Z.size) → m1 a = m a) → m1.Fresh (t 1) Z.size := by
    intro m1 off a h1 h2
    rw [off a (by omega)]; exact ht1 a h1 h2
  have symY : ∀ U V : VView, U.Disjoint V → V.Disjoint U := fun U V h a h1 h2 => h a h2 h1
  -- the second operand strided, first basic
  have stepY : ∀ (fuel : Nat) (t : Nat → Int) (X : VView) (m : Mem K) (x z : Nat → K), X.size = Z.size →
      SameOrDisjoint X Z → Strided Y Z → VView.elemReverse X.step Y.step Z.step = false →
      X.Holds m x → Y.Holds m y → Z.Holds m z → m.Fresh (t 0) Z.size →
      ∃ m', VView.elemMulVV (fuel+3) t junk add alpha X Y Z m = some m' ∧
        Z.Becomes m m' (elemVal add alpha x y z) := by
    intro fuel t X m x z hX aX aY hr' rX rY rZ ht0
    rw [VView.elemMulVV]; dsimp only
    rw [if_pos h, if_neg (by simp [hc]), if_neg (by simp [hr']), if_neg (aX.not_copied hX h.1), if_pos aY.copied]
    obtain ⟨m1, e1, b1, k1, o1⟩ := temp_spec (t 0) junk Y m y rY (by rw [hY]; exact ht0)
    rw [hY] at e1 b1 o1
    by_cases had : add = true
    · rw [if_pos had, hY, e1, Option.bind_some]
      obtain ⟨m2, e2, b2⟩ := elem_basic fuel (fun k => t (k+1)) junk add alpha X ⟨t 0, Z.size, 1, false⟩ Z m1 x y z ha hX rfl hZ hc
        aX (temp_ok ht0 rZ.live) (Holds.keep rX k1) b1 (Holds.keep rZ k1)
      rw [e2, Option.bind_some]
      exact ⟨_, rfl, free_spec ht0 rZ.live o1 b2⟩
    · rw [if_neg had]
      have had' : add = false := by simpa using had
      rw [had']
      by_cases hxs : X.sameStorage Z = true
      · rw [if_pos hxs, hY, e1, Option.bind_some]
        obtain ⟨m2, e2, b2⟩ := copy_safe_spec X Z m1 x hX hZ
          (SafeOrder.of_noClash hX (aX.noClash hX hZ)) (Holds.keep rX k1) (Holds.keep rZ k1).live
        rw [e2, Option.bind_some]
        have dT : (⟨t 0, Z.size, 1, false⟩ : VView).Disjoint Z := symY _ _ (ht0.disjoint rZ.live)
        obtain ⟨m3, e3, b3⟩ := elem_basic fuel (fun k => t (k+1)) junk false alpha Z ⟨t 0, Z.size, 1, false⟩ Z m2 x y x
          (Or.inr h.2) rfl rfl hZ hc (Or.inr ⟨rfl, rfl⟩) (Or.inl dT) b2.1 (b1.frame b2.2 dT) b2.1
        rw [e3, Option.bind_some]
        refine ⟨_, rfl, free_spec ht0 rZ.live o1 ⟨b3.1, fun c hc => by rw [b3.2 c hc, b2.2 c hc]⟩⟩
      · rw [if_neg hxs]
        have dX : X.Disjoint Z := by
          rcases aX with h | h
          · exact h
          · exact absurd (by simp [VView.sameStorage, h.1]) hxs
        obtain ⟨m2, e2, b2⟩ := copy_safe_spec Y Z m y hY hZ
          (SafeOrder.of_step aY.1 aY.2.1 (le_of_lt aY.2.2)) rY rZ.live
        rw [e2, Option.bind_some]
        obtain ⟨m3, e3, b3⟩ := elem_basic fuel (fun k => t (k+1)) junk false alpha X Z Z m2 x y y (Or.inr h.2) hX rfl hZ hc
          (Or.inl dX) (Or.inr ⟨rfl, rfl⟩) (rX.frame b2.2 dX) b2.1 b2.1
        exact ⟨m3, e3, b3.1, fun c hc => by rw [b3.2 c hc, b2.2 c hc]⟩
  rcases aX with aX | aX
  · rcases aY with aY | aY
    · exact absurd ⟨aX, aY⟩ hbb
    · exact stepY (fuel+1) t X m x z hX aX aY hr' rX rY rZ ht0
  -- the first operand strided
  rw [VView.elemMulVV]; dsimp only
  rw [if_pos h, if_neg (by simp [hc]), if_neg (by simp [hr']), if_pos aX.copied]
  obtain ⟨m1, e1, b1, k1, o1⟩ := temp_spec (t 0) junk X m x rX (by rw [hX]; exact ht0)
  rw [hX] at e1 b1 o1
  by_cases had : add = true
  · rw [if_pos had, hX, e1, Option.bind_some]
    have tok : SameOrDisjoint ⟨t 0, Z.size, 1, false⟩ Z := temp_ok ht0 rZ.live
    have hr2 : VView.elemReverse 1 Y.step Z.step = false := by
      have := aX.2
      simp only [VView.elemReverse, decide_eq_false_iff_not]; omega
    have fin : ∃ m2, VView.elemMulVV (fuel+3) (fun k => t (k+1)) junk add alpha ⟨t 0, Z.size, 1, false⟩ Y Z m1 = some m2 ∧
        Z.Becomes m1 m2 (elemVal add alpha x y z) := by
      rcases aY with aY | aY
      · exact elem_basic (fuel+1) _ junk add alpha _ Y Z m1 x y z ha rfl hY hZ hc tok aY b1 (Holds.keep rY k1)
          (Holds.keep rZ k1)
      · exact stepY fuel _ ⟨t 0, Z.size, 1, false⟩ m1 x z rfl tok aY hr2 b1 (Holds.keep rY k1) (Holds.keep rZ k1)
          (up o1)
    obtain ⟨m2, e2, b2⟩ := fin
    rw [e2, Option.bind_some]
    exact ⟨_, rfl, free_spec ht0 rZ.live o1 b2⟩
  · rw [if_neg had]
    have had' : add = false := by simpa using had
    rw [had']
    by_cases hys : Y.sameStorage Z = true
    · rw [if_pos hys, hX, e1, Option.bind_some]
      have sY : SafeOrder Y Z := by
        rcases aY with aY | aY
        · exact SafeOrder.of_noClash hY (aY.noClash hY hZ)
        · exact SafeOrder.of_step aY.1 aY.2.1 (le_of_lt aY.2.2)
      obtain ⟨m2, e2, b2⟩ := copy_safe_spec Y Z m1 y hY hZ sY (Holds.keep rY k1) (Holds.keep rZ k1).live
      rw [e2, Option.bind_some]
      have dT : (⟨t 0, Z.size, 1, false⟩ : VView).Disjoint Z := symY _ _ (ht0.disjoint rZ.live)
      obtain ⟨m3, e3, b3⟩ := elem_basic (fuel+1) (fun k => t (k+1)) junk false alpha ⟨t 0, Z.size, 1, false⟩ Z Z m2 x y y
        (Or.inr h.2) rfl rfl hZ hc (Or.inl dT) (Or.inr ⟨rfl, rfl⟩) (b1.frame b2.2 dT) b2.1 b2.1
      rw [e3, Option.bind_some]
      refine ⟨_, rfl, free_spec ht0 rZ.live o1 ⟨b3.1, fun c hc => by rw [b3.2 c hc, b2.2 c hc]⟩⟩
    · rw [if_neg hys]
      have dY : Y.Disjoint Z := by
        rcases aY with (h | h) | h
        · exact h
        · exact absurd (by simp [VView.sameStorage, h.1]) hys
        · exact absurd (by simp [VView.sameStorage, h.1]) hys
      obtain ⟨m2, e2, b2⟩ := copy_safe_spec X Z m x hX hZ
        (SafeOrder.of_step aX.1 aX.2.1 (le_of_lt aX.2.2)) rX rZ.live
      rw [e2, Option.bind_some]
      obtain ⟨m3, e3, b3⟩ := elem_basic (fuel+1) (fun k => t (k+1)) junk false alpha Z Y Z m2 x y x (Or.inr h.2) rfl hY hZ hc
        (Or.inr ⟨rfl, rfl⟩) (Or.inl dY) b2.1 (rY.frame b2.2 dY) b2.1
      exact ⟨m3, e3, b3.1, fun c hc => by rw [b3.2 c hc, b2.2 c hc]⟩

/-- **C69 / C41** (`z = alpha*ElemProd(x,y)`, `z += alpha*ElemProd(x,y)`), for every size, step and conjugation
(partial).  Each operand is disjoint from `z`, or `z` itself up to conjugation, or starts at the first element of `z`
with a larger step (then the library makes a temporary copy, or uses `z` itself); in the last case the vectors
must not be run through in reverse order.  A plain assignment needs `alpha ≠ 0`: `elemProd_zero_violated`.
Nothing outside `z` changes and the temporaries are gone. -/
theorem elemMulVV_spec_partial (t : Nat → Int) (junk : Int → K) (add : Bool) (alpha : K)
    (X Y Z : VView) (m : Mem K) (x y z : Nat → K) (ha : add = true ∨ alpha ≠ 0)
    (hX : X.size = Z.size) (hY : Y.size = Z.size) (hZ : Z.WF)
    (aX : SameOrDisjoint X Z ∨ Strided X Z) (aY : SameOrDisjoint Y Z ∨ Strided Y Z)
    (hr : (SameOrDisjoint X Z ∧ SameOrDisjoint Y Z) ∨ VView.elemReverse X.step Y.step Z.step = false)
    (rX : X.Holds m x) (rY : Y.Holds m y) (rZ : Z.Holds m z)
    (ht : ∀ k, m.Fresh (t k) Z.size) (htd : ∀ j k, j ≠ k → t j + Z.size ≤ t k ∨ t k + Z.size ≤ t j) :
    ∃ m', VView.elemMulVV 5 t junk add alpha X Y Z m = some m' ∧
      Z.Becomes m m' (fun i => if add then z i + alpha * (x i * y i) else alpha * (x i * y i)) := by
  rcases Bool.eq_false_or_eq_true Z.conj with hc | hc
  · rw [VView.elemMulVV]; dsimp only
    by_cases h : Z.size > 0 ∧ alpha ≠ 0
    swap
    · rw [if_neg h]
      refine ⟨m, rfl, fun i hi => ?_, fun _ _ => rfl⟩
      have h0 : alpha = 0 := by by_contra h'; exact h ⟨by omega, h'⟩
      have h1 : add = true := by rcases ha with h | h; exact h; exact absurd h0 h
      rw [rZ i hi]; simp [h0, h1]
    rw [if_pos h, if_pos hc]
    obtain ⟨m', p, q⟩ := elem_nc 0 (fun k => t (k+1)) junk add (star alpha) X.conjugate Y.conjugate Z.conjugate m _ _ _
      (by rcases ha with h | h; exact Or.inl h; right; rwa [Ne, star_eq_zero]) hX hY hZ
      (by simp [VView.conjugate, hc]) aX aY hr (VView.Holds.conjugate.mp rX) (VView.Holds.conjugate.mp rY)
      (VView.Holds.conjugate.mp rZ) (ht 1) (ht 2) (htd 2 1 (by omega))
    refine ⟨m', p, VView.Becomes.of_conjugate (q.congr ?_)⟩
    intro i _
    unfold elemVal
    cases add <;> simp [star_mul', star_add]
  · exact elem_nc 1 t junk add alpha X Y Z m x y z ha hX hY hZ hc aX aY hr rX rY rZ (ht 0) (ht 1) (htd 1 0 (by omega))

end
end TMV
