import Verif.Lemmas.VecArith
import Verif.Props.VecReduce

/-!
Property C69: scaling, adding and multiplying vectors; property C41: the aliases the library detects.
-/
namespace TMV
variable {K : Type _}

/-! ### Vocabulary -/

/-- After the operation `v` reads the values `val`, and nothing outside `v` changed. -/
def VView.Becomes [Star K] (v : VView) (m m' : Mem K) (val : Nat → K) : Prop :=
  v.Holds m' val ∧ v.Frame m m'

/-- Element by element in index order, no element of `v` is needed after it was overwritten through
`w`. -/
def Ahead (v w : VView) : Prop := ∀ i j : Nat, i < j → j < w.size → v.addr j ≠ w.addr i

/-- The same for the order in which the library runs through the two vectors. -/
def SafeOrder (v w : VView) : Prop :=
  if VView.shouldReverse v.step w.step = true then Ahead v.reverse w.reverse else Ahead v w

theorem Ahead.of_noClash {v w : VView} (hn : v.size = w.size) (h : NoClash v w) : Ahead v w := by
  intro i j hij hj e
  have := h j i (by omega) (by omega) e
  omega

/-- Vectors that share elements only at equal indices (in particular disjoint vectors, a vector and
itself, a vector and its conjugate) are always safe. -/
theorem SafeOrder.of_noClash {v w : VView} (hn : v.size = w.size) (h : NoClash v w) : SafeOrder v w := by
  unfold SafeOrder
  split
  · exact Ahead.of_noClash hn (h.reverse hn)
  · exact Ahead.of_noClash hn h

/-- Vectors with the same first element are safe if the source has the larger step. -/
theorem SafeOrder.of_step {v w : VView} (hp : v.ptr = w.ptr) (hs : 0 < w.step) (h : w.step ≤ v.step) :
    SafeOrder v w := by
  unfold SafeOrder
  rw [if_neg (by simp [VView.shouldReverse]; omega)]
  intro i j hij hj e
  simp only [VView.addr, hp] at e
  have h1 : (i : Int) * w.step < j * w.step := by
    have : (i : Int) < j := by omega
    exact mul_lt_mul_of_pos_right this hs
  have h2 : (j : Int) * w.step ≤ j * v.step := mul_le_mul_of_nonneg_left h (by omega)
  omega

section
variable [InvolutiveStar K]

theorem VView.Holds.conjugate {v : VView} {m : Mem K} {x : Nat → K} :
    v.Holds m x ↔ v.conjugate.Holds m (fun i => star (x i)) := by
  constructor <;> intro h i hi
  · have := h i hi
    simp only [VView.cref, Mem.read, Option.map_eq_some_iff] at this ⊢
    obtain ⟨a, h1, h2⟩ := this
    refine ⟨a, h1, ?_⟩
    rw [← h2]
    show cj (!v.conj) a = _
    rcases Bool.eq_false_or_eq_true v.conj with h|h <;> simp [h, cj]
  · have := h i hi
    simp only [VView.cref, Mem.read, Option.map_eq_some_iff] at this ⊢
    obtain ⟨a, h1, h2⟩ := this
    refine ⟨a, h1, ?_⟩
    have h2' : cj (!v.conj) a = star (x i) := h2
    rcases Bool.eq_false_or_eq_true v.conj with h|h <;> simp [h, cj] at h2' ⊢
    · rw [← star_star (x i), ← h2']
    · exact h2'

theorem VView.Holds.of_reverse {v : VView} {m : Mem K} {x : Nat → K}
    (h : v.reverse.Holds m (fun i => x (v.size - 1 - i))) : v.Holds m x := by
  intro i hi
  have := h (v.size - 1 - i) (by show v.size - 1 - i < v.size; omega)
  rw [VView.cref, v.reverse_addr _ (by omega)] at this
  have e : v.size - 1 - (v.size - 1 - i) = i := by omega
  dsimp only at this
  rw [e] at this
  exact this

theorem VView.Becomes.of_reverse {v : VView} {m m' : Mem K} {x : Nat → K}
    (h : v.reverse.Becomes m m' (fun i => x (v.size - 1 - i))) : v.Becomes m m' x :=
  ⟨h.1.of_reverse, fun a ha => h.2 a (by rwa [v.reverse_covers])⟩

theorem VView.Becomes.of_conjugate {v : VView} {m m' : Mem K} {x : Nat → K}
    (h : v.conjugate.Becomes m m' (fun i => star (x i))) : v.Becomes m m' x :=
  ⟨VView.Holds.conjugate.mpr h.1, h.2⟩

theorem VView.Becomes.congr {v : VView} {m m' : Mem K} {x y : Nat → K} (h : v.Becomes m m' x)
    (e : ∀ i, i < v.size → x i = y i) : v.Becomes m m' y :=
  ⟨fun i hi => by rw [h.1 i hi, e i hi], h.2⟩

theorem VView.Holds.live {v : VView} {m : Mem K} {x : Nat → K} (h : v.Holds m x) : v.Live m := by
  intro i hi
  have := h i hi
  simp only [VView.cref, Mem.read, Option.map_eq_some_iff] at this
  obtain ⟨a, h1, -⟩ := this
  rw [h1]; rfl

theorem VView.Holds.rawA {v : VView} {m : Mem K} {x : Nat → K} (h : v.Holds m x) (i : Nat) (hi : i < v.size) :
    m (v.addr i) = some (cj v.conj (x i)) := by
  have := h i hi
  simp only [VView.cref, Mem.read, Option.map_eq_some_iff] at this
  obtain ⟨a, h1, h2⟩ := this
  rw [h1, ← h2, cj_cj]

theorem VView.Holds.of_raw {v : VView} {m : Mem K} {x : Nat → K}
    (h : ∀ i : Nat, i < v.size → m (v.addr i) = some (cj v.conj (x i))) : v.Holds m x := by
  intro i hi
  rw [VView.cref, Mem.read, h i hi, Option.map_some, cj_cj]

theorem VView.Holds.frame {v w : VView} {m m' : Mem K} {x : Nat → K} (h : v.Holds m x) (hf : w.Frame m m')
    (hd : v.Disjoint w) : v.Holds m' x := by
  intro i hi
  rw [← h i hi, VView.cref, VView.cref, Mem.read, Mem.read, hf _ (hd _ ⟨i, hi, rfl⟩)]

theorem VView.Live.frame {v w : VView} {m m' : Mem K} {x : Nat → K} (h : w.Becomes m m' x) (hl : v.Live m) :
    v.Live m' := by
  intro i hi
  by_cases hc : w.Covers (v.addr i)
  · obtain ⟨j, hj, e⟩ := hc
    rw [e]; exact h.1.live j hj
  · rw [h.2 _ hc]; exact hl i hi

/-- Element-by-element computation, memory level. -/
theorem loop2_becomes (f : K → K → K) (v w : VView) (m : Mem K) (x : Nat → K) (hn : v.size = w.size)
    (hw : w.WF) (hA : Ahead v w) (hv : v.Holds m x) (hlw : w.Live m) :
    ∃ m', loop2 f v.step w.step w.size v.ptr w.ptr m = some m' ∧ w.Frame m m' ∧
      (∀ i : Nat, i < w.size → ∀ y, m (w.addr i) = some y →
        m' (w.addr i) = some (f (cj v.conj (x i)) y)) := by
  obtain ⟨m', a, b, c⟩ := loop2_spec f v.step w.step w.size v.ptr w.ptr m hw.inj hA
    (fun i hi => hv.live i (by omega)) hlw
  refine ⟨m', a, fun a ha => c a (fun i hi e => ha ⟨i, hi, e⟩), fun i hi y hy => ?_⟩
  exact b i hi _ y (hv.rawA i (by omega)) hy
end

/-! ### `v *= x` -/

section
variable [CommRing K] [StarRing K] [DecidableEq K]

private theorem mulX_core (x : K) (v : VView) (m : Mem K) (y : Nat → K) (hw : v.WF) (hv : v.Holds m y)
    (hc : v.conj = false) :
    ∃ m', (if x = 0 then v.setZero m else VView.doMulX x v m) = some m' ∧
      v.Becomes m m' (fun i => x * y i) := by
  by_cases h0 : x = 0
  · rw [if_pos h0]
    obtain ⟨m', a, b, c⟩ := setZero_spec v m hw hv.live
    exact ⟨m', a, VView.Becomes.congr ⟨b, c⟩ (by intro i _; simp [h0])⟩
  · rw [if_neg h0, doMulX_eq]
    obtain ⟨m', a, b⟩ := v.mapped_loopMod (· * x) m hw.inj hv.live
    refine ⟨m', a, ?_, b.2⟩
    apply VView.Holds.of_raw
    intro i hi
    rw [b.1 i hi, hv.rawA i hi]
    simp [hc, cj, mul_comm]

/-- **C69** (`v *= x`).  Every element is multiplied by `x`, whatever the step and the conjugation of the
view; nothing else changes. -/
theorem mulX_spec (x : K) (v : VView) (m : Mem K) (y : Nat → K) (hw : v.WF) (hv : v.Holds m y) :
    ∃ m', VView.mulX x v m = some m' ∧ v.Becomes m m' (fun i => x * y i) := by
  have pos : ∀ (x : K) (v : VView) (y : Nat → K), v.WF → v.Holds m y → ¬ v.step < 0 → v.conj = false →
      ∃ m', VView.mulX x v m = some m' ∧ v.Becomes m m' (fun i => x * y i) := by
    intro x v y hw hv hs hc
    rw [VView.mulX]
    by_cases h : v.size > 0 ∧ x ≠ 1
    · rw [if_pos h, dif_neg hs, dif_neg (by simp [hc])]
      exact mulX_core x v m y hw hv hc
    · rw [if_neg h]
      refine ⟨m, rfl, fun i hi => ?_, fun _ _ => rfl⟩
      have : x = 1 := by by_contra h'; exact h ⟨by omega, h'⟩
      simp [hv i hi, this]
  have nonneg : ∀ (x : K) (v : VView) (y : Nat → K), v.WF → v.Holds m y → ¬ v.step < 0 →
      ∃ m', VView.mulX x v m = some m' ∧ v.Becomes m m' (fun i => x * y i) := by
    intro x v y hw hv hs
    rcases Bool.eq_false_or_eq_true v.conj with hc | hc
    · rw [VView.mulX]
      by_cases h : v.size > 0 ∧ x ≠ 1
      · rw [if_pos h, dif_neg hs, dif_pos hc]
        obtain ⟨m', a, b⟩ := pos (star x) v.conjugate _ hw (VView.Holds.conjugate.mp hv) hs (by simp [VView.conjugate, hc])
        exact ⟨m', a, VView.Becomes.of_conjugate (b.congr (by intro i _; rw [star_mul']))⟩
      · rw [if_neg h]
        refine ⟨m, rfl, fun i hi => ?_, fun _ _ => rfl⟩
        have : x = 1 := by by_contra h'; exact h ⟨by omega, h'⟩
        simp [hv i hi, this]
    · exact pos x v y hw hv hs hc
  by_cases hs : v.step < 0
  · rw [VView.mulX]
    by_cases h : v.size > 0 ∧ x ≠ 1
    · rw [if_pos h, dif_pos hs]
      obtain ⟨m', a, b⟩ := nonneg x v.reverse _ hw.reverse hv.reverse (by
        have : v.reverse.step = -v.step := rfl
        omega)
      exact ⟨m', a, VView.Becomes.of_reverse b⟩
    · rw [if_neg h]
      refine ⟨m, rfl, fun i hi => ?_, fun _ _ => rfl⟩
      have : x = 1 := by by_contra h'; exact h ⟨by omega, h'⟩
      simp [hv i hi, this]
  · exact nonneg x v y hw hv hs

/-! ### Assignment in a safe order -/

omit [CommRing K] [StarRing K] [DecidableEq K] in
theorem loopCopy_eq (s1 s2 : Int) : ∀ (n : Nat) (p1 p2 : Int) (m : Mem K),
    loopCopy s1 s2 n p1 p2 m = loop2 (fun a _ => a) s1 s2 n p1 p2 m := by
  intro n
  induction n with
  | zero => intros; rfl
  | succ n ih =>
    intro p1 p2 m
    simp only [loopCopy, loop2, step2, Mem.read, Option.bind_eq_bind]
    cases h1 : m p1 with
    | none => rfl
    | some a =>
      cases h2 : m p2 with
      | none => simp [Mem.write, h2]
      | some b => simp only [Option.bind_some, ih]

omit [CommRing K] [StarRing K] [DecidableEq K] in
theorem doCopy_ahead (v w : VView) (m : Mem K) (hn : v.size = w.size) (hw : w.WF) (hA : Ahead v w)
    (hlv : v.Live m) (hlw : w.Live m) :
    ∃ m', VView.doCopy v w m = some m' ∧ Copied v w m m' := by
  unfold VView.doCopy
  by_cases hs : v.isSameAs w = true
  · rw [if_pos hs]
    simp only [VView.isSameAs, decide_eq_true_eq] at hs
    subst hs
    exact ⟨m, rfl, fun _ _ => rfl, fun _ _ => rfl⟩
  · rw [if_neg hs]
    have e : (if v.step = 1 ∧ w.step = 1 then loopCopy 1 1 w.size v.ptr w.ptr m
        else loopCopy v.step w.step w.size v.ptr w.ptr m) =
        loopCopy v.step w.step w.size v.ptr w.ptr m := by
      split
      · rename_i h; rw [h.1, h.2]
      · rfl
    rw [e, loopCopy_eq]
    obtain ⟨m', a, b, c⟩ := loop2_spec (fun a _ => a) v.step w.step w.size v.ptr w.ptr m hw.inj hA
      (fun i hi => hlv i (by omega)) hlw
    refine ⟨m', a, ?_, fun x hx => c x (fun i hi e => hx ⟨i, hi, e⟩)⟩
    intro i hi
    obtain ⟨x, hx⟩ := Option.isSome_iff_exists.mp (hlv i (by omega))
    obtain ⟨y, hy⟩ := Option.isSome_iff_exists.mp (hlw i hi)
    rw [hx]; exact b i hi x y hx hy

private theorem copy_core (v w : VView) (m : Mem K) (x : Nat → K) (hn : v.size = w.size) (hw : w.WF)
    (hA : Ahead v w) (hv : v.Holds m x) (hlw : w.Live m) :
    ∃ m', (if v.conj then
          if w.conj then VView.doCopy v.conjugate w.conjugate m
          else (VView.doCopy v.conjugate w m).bind fun m => w.conjugateSelf m
        else if w.conj then (VView.doCopy v w.conjugate m).bind fun m => w.conjugateSelf m
        else VView.doCopy v w m) = some m' ∧ w.Becomes m m' x := by
  have fin : ∀ m1, Copied v w m m1 → ∃ m', w.conjugateSelf m1 = some m' ∧
      (∀ i : Nat, i < w.size → w.cref m' i = (w.cref m1 i).map star) ∧ w.Frame m m' := by
    intro m1 h
    have hl1 : w.Live m1 := by
      intro i hi; rw [h.1 i hi]; exact hv.live i (by omega)
    obtain ⟨m', a, b, c⟩ := conjugateSelf_spec w m1 hw hl1
    exact ⟨m', a, b, fun x hx => by rw [c x hx, h.2 x hx]⟩
  rcases Bool.eq_false_or_eq_true v.conj with hvc | hvc <;>
    rcases Bool.eq_false_or_eq_true w.conj with hwc | hwc
  · obtain ⟨m', a, b⟩ := doCopy_ahead v.conjugate w.conjugate m hn hw hA hv.live hlw
    refine ⟨m', by simpa [hvc, hwc] using a, VView.Holds.of_raw ?_, b.2⟩
    intro i hi
    rw [show w.addr i = w.conjugate.addr i from rfl, b.1 i hi]
    have := hv.rawA i (by omega)
    rw [hvc] at this; rw [hwc]; exact this
  · obtain ⟨m1, a, b⟩ := doCopy_ahead v.conjugate w m hn hw hA hv.live hlw
    obtain ⟨m', c, d, e⟩ := fin m1 b
    refine ⟨m', by simp [hvc, hwc, a, c], ?_, e⟩
    intro i hi
    have hb : m1 (w.addr i) = m (v.addr i) := b.1 i hi
    have := hv.rawA i (by omega)
    rw [d i hi, VView.cref, Mem.read, hb, this, hvc, hwc]
    simp [cj]
  · obtain ⟨m1, a, b⟩ := doCopy_ahead v w.conjugate m hn hw hA hv.live hlw
    obtain ⟨m', c, d, e⟩ := fin m1 b
    refine ⟨m', by simp [hvc, hwc, a, c], ?_, e⟩
    intro i hi
    have hb : m1 (w.addr i) = m (v.addr i) := b.1 i hi
    have := hv.rawA i (by omega)
    rw [d i hi, VView.cref, Mem.read, hb, this, hvc, hwc]
    simp [cj]
  · obtain ⟨m', a, b⟩ := doCopy_ahead v w m hn hw hA hv.live hlw
    refine ⟨m', by simpa [hvc, hwc] using a, VView.Holds.of_raw ?_, b.2⟩
    intro i hi
    rw [b.1 i hi]
    have := hv.rawA i (by omega)
    rw [hvc] at this; rw [hwc]; exact this

/-- **C41** (assignment).  `w = v` is correct whenever the two vectors are run through in a safe order. -/
theorem copy_safe_spec (v w : VView) (m : Mem K) (x : Nat → K) (hn : v.size = w.size) (hw : w.WF)
    (hA : SafeOrder v w) (hv : v.Holds m x) (hlw : w.Live m) :
    ∃ m', VView.copy v w m = some m' ∧ w.Becomes m m' x := by
  have nr : ∀ v w : VView, ∀ x : Nat → K, v.size = w.size → w.WF → Ahead v w → v.Holds m x → w.Live m →
      VView.shouldReverse v.step w.step = false →
      ∃ m', VView.copy v w m = some m' ∧ w.Becomes m m' x := by
    intro v w x hn hw hA hv hlw hr
    rw [VView.copy]
    by_cases h0 : v.size > 0
    · rw [if_pos h0, dif_neg (by simp [hr])]
      exact copy_core v w m x hn hw hA hv hlw
    · rw [if_neg h0]
      exact ⟨m, rfl, fun i hi => by omega, fun _ _ => rfl⟩
  unfold SafeOrder at hA
  rcases Bool.eq_false_or_eq_true (VView.shouldReverse v.step w.step) with hr | hr
  · rw [if_pos hr] at hA
    rw [VView.copy]
    by_cases h0 : v.size > 0
    · rw [if_pos h0, dif_pos hr]
      obtain ⟨m', a, b⟩ := nr v.reverse w.reverse _ hn hw.reverse hA hv.reverse hlw.reverse
        (VView.shouldReverse_neg _ _ hr)
      refine ⟨m', a, VView.Becomes.of_reverse ?_⟩
      rw [hn] at b; exact b
    · rw [if_neg h0]
      exact ⟨m, rfl, fun i hi => by omega, fun _ _ => rfl⟩
  · rw [if_neg (by simp [hr])] at hA
    exact nr v w x hn hw hA hv hlw hr

/-! ### `w = a*v` -/

private theorem mulXV_core (a : K) (v w : VView) (m : Mem K) (x : Nat → K) (hn : v.size = w.size) (hw : w.WF)
    (hc : w.conj = false) (hA : Ahead v w) (hr : VView.shouldReverse v.step w.step = false)
    (hv : v.Holds m x) (hlw : w.Live m) (h1 : w.size ≠ 1) (h0 : 0 < w.size) :
    ∃ m', (if a = 0 then w.setZero m
    else if a = 1 then VView.copy v w m
    else if v.step = 0 then (m.read v.ptr).bind fun b => w.setAllTo (a * cj v.conj b) m
    else if w.isSameAs v then VView.mulX a w m
    else VView.doMulXV a v w m) = some m' ∧ w.Becomes m m' (fun i => a * x i) := by
  by_cases ha0 : a = 0
  · rw [if_pos ha0]
    obtain ⟨m', p, q, r⟩ := setZero_spec w m hw hlw
    exact ⟨m', p, VView.Becomes.congr ⟨q, r⟩ (by intro i _; simp [ha0])⟩
  rw [if_neg ha0]
  by_cases ha1 : a = 1
  · rw [if_pos ha1]
    obtain ⟨m', p, q⟩ := copy_safe_spec v w m x hn hw (by
      unfold SafeOrder; rw [if_neg (by simp [hr])]; exact hA) hv hlw
    exact ⟨m', p, q.congr (by intro i _; simp [ha1])⟩
  rw [if_neg ha1]
  by_cases hs0 : v.step = 0
  · rw [if_pos hs0]
    have hx : ∀ i : Nat, i < v.size → m v.ptr = some (cj v.conj (x i)) := by
      intro i hi
      have := hv.rawA i hi
      rwa [VView.addr, hs0, mul_zero, add_zero] at this
    rw [Mem.read, hx 0 (by omega), Option.bind_some]
    obtain ⟨m', p, q, r⟩ := setAllTo_spec_partial w (a * cj v.conj (cj v.conj (x 0))) m hw hlw (Or.inl hc)
    refine ⟨m', p, VView.Becomes.congr ⟨q, r⟩ ?_⟩
    intro i hi
    have e := (hx 0 (by omega)).symm.trans (hx i (by omega))
    rw [Option.some_inj] at e
    rw [e, cj_cj]
  rw [if_neg hs0]
  by_cases hsame : w.isSameAs v = true
  · rw [if_pos hsame]
    simp only [VView.isSameAs, decide_eq_true_eq] at hsame
    subst hsame
    exact mulX_spec a w m x hw hv
  rw [if_neg hsame]
  have e : VView.doMulXV a v w m = loop2 (fun b _ => a * cj v.conj b) v.step w.step w.size v.ptr w.ptr m := by
    dsimp only [VView.doMulXV]
    rw [hn]
    split
    · rename_i h; rw [unit2_eq, h.1, h.2]
    · rfl
  rw [e]
  obtain ⟨m', p, q, r⟩ := loop2_becomes (fun b _ => a * cj v.conj b) v w m x hn hw hA hv hlw
  refine ⟨m', p, VView.Holds.of_raw ?_, q⟩
  intro i hi
  obtain ⟨y, hy⟩ := Option.isSome_iff_exists.mp (hlw i hi)
  rw [r i hi y hy, cj_cj, hc]; rfl

/-- **C69 / C41** (`w = a*v`).  The result is `a` times the old `v`, for every step, conjugation and size,
when `v` and `w` are disjoint, equal, conjugate of each other or share elements in a safe order. -/
theorem mulXV_spec (a : K) (v w : VView) (m : Mem K) (x : Nat → K) (hn : v.size = w.size) (hw : w.WF)
    (hA : SafeOrder v w) (hv : v.Holds m x) (hlw : w.Live m) :
    ∃ m', VView.mulXV a v w m = some m' ∧ w.Becomes m m' (fun i => a * x i) := by
  have one : ∀ (a : K) (v w : VView) (x : Nat → K), v.size = w.size → w.conj = false → w.size = 1 →
      v.Holds m x → w.Live m →
      ∃ m', ((m.read v.ptr).bind fun b => m.write w.ptr (a * cj v.conj b)) = some m' ∧
        w.Becomes m m' (fun i => a * x i) := by
    intro a v w x hn hc h1 hv hlw
    have hx := hv.rawA 0 (by omega)
    rw [show v.addr ((0:Nat) : Int) = v.ptr by simp [VView.addr]] at hx
    rw [Mem.read, hx, Option.bind_some]
    obtain ⟨m', p, q⟩ := w.mapped_write (a * cj v.conj (cj v.conj (x 0))) m h1 hlw
    refine ⟨m', p, VView.Holds.of_raw ?_, q.2⟩
    intro i hi
    obtain rfl : i = 0 := by omega
    obtain ⟨y, hy⟩ := Option.isSome_iff_exists.mp (hlw 0 hi)
    rw [q.1 0 hi, hy, cj_cj, hc]; rfl
  have nc : ∀ (a : K) (v w : VView) (x : Nat → K), v.size = w.size → w.WF → w.conj = false → SafeOrder v w →
      v.Holds m x → w.Live m → ∃ m', VView.mulXV a v w m = some m' ∧ w.Becomes m m' (fun i => a * x i) := by
    intro a v w x hn hw hc hA hv hlw
    rw [VView.mulXV]
    by_cases h0 : w.size > 0
    · rw [if_pos h0, dif_neg (by simp [hc])]
      by_cases h1 : w.size = 1
      · rw [if_pos h1]; exact one a v w x hn hc h1 hv hlw
      · rw [if_neg h1]
        unfold SafeOrder at hA
        rcases Bool.eq_false_or_eq_true (VView.shouldReverse v.step w.step) with hr | hr
        · rw [if_pos hr] at hA
          rw [dif_pos hr, VView.mulXV]
          have hr' : VView.shouldReverse v.reverse.step w.reverse.step = false := VView.shouldReverse_neg _ _ hr
          have h0' : w.reverse.size > 0 := h0
          have h1' : ¬ w.reverse.size = 1 := h1
          have hc' : ¬ w.reverse.conj = true := by simp [VView.reverse, hc]
          rw [if_pos h0', dif_neg hc', if_neg h1', dif_neg (by simp [hr'])]
          obtain ⟨m', p, q⟩ := mulXV_core a v.reverse w.reverse m _ hn hw.reverse hc hA hr' hv.reverse
            hlw.reverse h1 h0
          refine ⟨m', p, VView.Becomes.of_reverse ?_⟩
          rw [hn] at q; exact q
        · rw [if_neg (by simp [hr])] at hA
          rw [dif_neg (by simp [hr])]
          exact mulXV_core a v w m x hn hw hc hA hr hv hlw h1 h0
    · rw [if_neg h0]
      exact ⟨m, rfl, fun i hi => by omega, fun _ _ => rfl⟩
  rcases Bool.eq_false_or_eq_true w.conj with hc | hc
  · rw [VView.mulXV]
    by_cases h0 : w.size > 0
    · rw [if_pos h0, dif_pos hc]
      obtain ⟨m', p, q⟩ := nc (star a) v.conjugate w.conjugate _ hn hw (by simp [VView.conjugate, hc]) hA
        (VView.Holds.conjugate.mp hv) hlw
      exact ⟨m', p, VView.Becomes.of_conjugate (q.congr (by intro i _; rw [star_mul']))⟩
    · rw [if_neg h0]
      exact ⟨m, rfl, fun i hi => by omega, fun _ _ => rfl⟩
  · exact nc a v w x hn hw hc hA hv hlw

/-! ### `w += a*v` -/

private theorem addVV_core (a : K) (v w : VView) (m : Mem K) (x y : Nat → K) (hn : v.size = w.size) (hw : w.WF)
    (hc : w.conj = false) (hA : Ahead v w) (hv : v.Holds m x) (hy : w.Holds m y) :
    ∃ m', VView.doAddVV a v w m = some m' ∧ w.Becomes m m' (fun i => y i + a * x i) := by
  have key : ∀ f : K → K → K, (∀ i, i < w.size → f (cj v.conj (x i)) (y i) = y i + a * x i) →
      ∃ m', loop2 f v.step w.step w.size v.ptr w.ptr m = some m' ∧
        w.Becomes m m' (fun i => y i + a * x i) := by
    intro f hf
    obtain ⟨m', p, q, r⟩ := loop2_becomes f v w m x hn hw hA hv hy.live
    refine ⟨m', p, VView.Holds.of_raw ?_, q⟩
    intro i hi
    have h1 := hy.rawA i hi
    rw [hc] at h1
    rw [r i hi _ h1, hc]
    show some (f (cj v.conj (x i)) (y i)) = some (y i + a * x i)
    rw [hf i hi]
  have e : VView.doAddVV a v w m = loop2 (fun p q => if a = 1 then q + cj v.conj p else
      if a = -1 then q - cj v.conj p else q + a * cj v.conj p) v.step w.step w.size v.ptr w.ptr m := by
    dsimp only [VView.doAddVV]
    by_cases h : v.step = 1 ∧ w.step = 1
    · rw [if_pos h]
      by_cases h1 : a = 1
      · simp only [if_pos h1, unit2_eq, h.1, h.2]
      · by_cases h2 : a = -1
        · simp only [if_neg h1, if_pos h2, unit2_eq, h.1, h.2]
        · simp only [if_neg h1, if_neg h2, unit2_eq, h.1, h.2]
    · rw [if_neg h]
      by_cases h1 : a = 1
      · simp only [if_pos h1]
      · by_cases h2 : a = -1
        · simp only [if_neg h1, if_pos h2]
        · simp only [if_neg h1, if_neg h2]
  rw [e]
  apply key
  intro i hi
  rw [cj_cj]
  by_cases h1 : a = 1
  · simp [h1]
  · by_cases h2 : a = -1
    · rw [if_neg h1, if_pos h2, h2]; ring
    · rw [if_neg h1, if_neg h2]

/-- **C69 / C41** (`w += a*v`, `w -= a*v`).  The result is the old `w` plus `a` times the old `v`, for every
step, conjugation and size, when `v` and `w` are disjoint, equal, conjugates or share elements in a safe
order. -/
theorem addVV_spec (a : K) (v w : VView) (m : Mem K) (x y : Nat → K) (hn : v.size = w.size) (hw : w.WF)
    (hA : SafeOrder v w) (hv : v.Holds m x) (hy : w.Holds m y) :
    ∃ m', VView.addVV a v w m = some m' ∧ w.Becomes m m' (fun i => y i + a * x i) := by
  have trivial' : ∀ (a : K) (v w : VView) (x y : Nat → K), w.Holds m y → ¬ (w.size > 0 ∧ a ≠ 0) →
      ∃ m', some m = some m' ∧ w.Becomes m m' (fun i => y i + a * x i) := by
    intro a v w x y hy h
    refine ⟨m, rfl, fun i hi => ?_, fun _ _ => rfl⟩
    have : a = 0 := by by_contra h'; exact h ⟨by omega, h'⟩
    simp [hy i hi, this]
  have same : ∀ (a : K) (w : VView) (x y : Nat → K), w.WF → w.Holds m x → w.Holds m y →
      ∃ m', (if a = -1 then w.setZero m else VView.mulX (a + 1) w m) = some m' ∧
        w.Becomes m m' (fun i => y i + a * x i) := by
    intro a w x y hw hx hy
    have exy : ∀ i, i < w.size → x i = y i := fun i hi => by
      have := (hx i hi).symm.trans (hy i hi); simpa using this
    by_cases h : a = -1
    · rw [if_pos h]
      obtain ⟨m', p, q, r⟩ := setZero_spec w m hw hx.live
      exact ⟨m', p, VView.Becomes.congr ⟨q, r⟩ (by intro i hi; rw [exy i hi, h]; ring)⟩
    · rw [if_neg h]
      obtain ⟨m', p, q⟩ := mulX_spec (a+1) w m x hw hx
      exact ⟨m', p, q.congr (by intro i hi; rw [exy i hi]; ring)⟩
  have nr : ∀ (a : K) (v w : VView) (x y : Nat → K), v.size = w.size → w.WF → w.conj = false → Ahead v w →
      VView.shouldReverse v.step w.step = false → v.Holds m x → w.Holds m y →
      ∃ m', VView.addVV a v w m = some m' ∧ w.Becomes m m' (fun i => y i + a * x i) := by
    intro a v w x y hn hw hc hA hr hv hy
    rw [VView.addVV]
    by_cases h : w.size > 0 ∧ a ≠ 0
    · rw [if_pos h]
      by_cases hs : w.isSameAs v = true
      · rw [if_pos hs]
        simp only [VView.isSameAs, decide_eq_true_eq] at hs
        subst hs
        exact same a w x y hw hv hy
      · rw [if_neg hs, dif_neg (by simp [hc]), dif_neg (by simp [hr])]
        exact addVV_core a v w m x y hn hw hc hA hv hy
    · rw [if_neg h]; exact trivial' a v w x y hy h
  have nc : ∀ (a : K) (v w : VView) (x y : Nat → K), v.size = w.size → w.WF → w.conj = false → SafeOrder v w →
      v.Holds m x → w.Holds m y →
      ∃ m', VView.addVV a v w m = some m' ∧ w.Becomes m m' (fun i => y i + a * x i) := by
    intro a v w x y hn hw hc hA hv hy
    unfold SafeOrder at hA
    rcases Bool.eq_false_or_eq_true (VView.shouldReverse v.step w.step) with hr | hr
    · rw [if_pos hr] at hA
      rw [VView.addVV]
      by_cases h : w.size > 0 ∧ a ≠ 0
      · rw [if_pos h]
        by_cases hs : w.isSameAs v = true
        · rw [if_pos hs]
          simp only [VView.isSameAs, decide_eq_true_eq] at hs
          subst hs
          exact same a w x y hw hv hy
        · rw [if_neg hs, dif_neg (by simp [hc]), dif_pos hr]
          obtain ⟨m', p, q⟩ := nr a v.reverse w.reverse _ _ hn hw.reverse hc hA
            (VView.shouldReverse_neg _ _ hr) hv.reverse hy.reverse
          refine ⟨m', p, VView.Becomes.of_reverse ?_⟩
          rw [hn] at q; exact q
      · rw [if_neg h]; exact trivial' a v w x y hy h
    · rw [if_neg (by simp [hr])] at hA
      exact nr a v w x y hn hw hc hA hr hv hy
  rcases Bool.eq_false_or_eq_true w.conj with hc | hc
  · rw [VView.addVV]
    by_cases h : w.size > 0 ∧ a ≠ 0
    · rw [if_pos h]
      by_cases hs : w.isSameAs v = true
      · rw [if_pos hs]
        simp only [VView.isSameAs, decide_eq_true_eq] at hs
        subst hs
        exact same a w x y hw hv hy
      · rw [if_neg hs, dif_pos hc]
        obtain ⟨m', p, q⟩ := nc (star a) v.conjugate w.conjugate _ _ hn hw (by simp [VView.conjugate, hc]) hA
          (VView.Holds.conjugate.mp hv) (VView.Holds.conjugate.mp hy)
        exact ⟨m', p, VView.Becomes.of_conjugate (q.congr (by intro i _; rw [star_add, star_mul']))⟩
    · rw [if_neg h]; exact trivial' a v w x y hy h
  · exact nc a v w x y hn hw hc hA hv hy

/-! ### `w = a*u + b*v` -/

/-- Temporary storage at `t` does not exist yet. -/
def Mem.Fresh (m : Mem K) (t : Int) (n : Nat) : Prop := ∀ a, t ≤ a → a < t + n → m a = none

omit [CommRing K] [DecidableEq K] [StarRing K] in
theorem Mem.Fresh.disjoint {m : Mem K} {t : Int} {n : Nat} (h : m.Fresh t n) {v : VView} (hl : v.Live m) :
    v.Disjoint ⟨t, n, 1, false⟩ := by
  rintro a ⟨i, hi, rfl⟩ ⟨j, hj, e⟩
  have h1 := hl i hi
  simp only [VView.addr] at e
  rw [h (v.addr i) (by simp only [VView.addr]; omega) (by simp only [VView.addr] at hj ⊢; push_cast; omega)] at h1
  cases h1

omit [CommRing K] [DecidableEq K] [StarRing K] in
theorem Mem.alloc_live (m : Mem K) (t : Int) (n : Nat) (junk : Int → K) :
    (⟨t, n, 1, false⟩ : VView).Live (m.alloc t n junk) := by
  intro i hi
  have hi' : i < n := hi
  unfold Mem.alloc
  rw [if_pos (by simp only [VView.addr]; omega)]; rfl

omit [CommRing K] [DecidableEq K] [StarRing K] in
theorem Mem.alloc_of_some {m : Mem K} {t : Int} {n : Nat} (h : m.Fresh t n) (junk : Int → K) {a : Int} {x : K}
    (ha : m a = some x) : m.alloc t n junk a = some x := by
  unfold Mem.alloc
  by_cases hh : t ≤ a ∧ a < t + n
  · rw [h a hh.1 hh.2] at ha; cases ha
  · rw [if_neg hh, ha]

/-- The documented alias rule for an operand `u` of `w = a*u + b*v`: it is disjoint from `w`, or it has the
same first element and is run through in a safe order (any order if the other operand is aliased
too: then a temporary is used). -/
def AliasOK (u v w : VView) : Prop :=
  u.Disjoint w ∨ (u.ptr = w.ptr ∧ (v.ptr = w.ptr ∨ SafeOrder u w))

/-- **C41** (`w = a*u + b*v`).  With the aliases the library detects, the result is the sum computed from the
old values; nothing outside `w` changes and the temporary is gone. -/
theorem addVV3_spec_partial (t : Int) (junk : Int → K) (a : K) (u : VView) (b : K) (v w : VView) (m : Mem K)
    (x y : Nat → K) (hu' : u.size = w.size) (hv' : v.size = w.size) (hw : w.WF)
    (hu : u.Holds m x) (hv : v.Holds m y) (hlw : w.Live m) (ht : m.Fresh t w.size)
    (hAu : AliasOK u v w) (hAv : AliasOK v u w) :
    ∃ m', VView.addVV3 t junk a u b v w m = some m' ∧ w.Becomes m m' (fun i => a * x i + b * y i) := by
  unfold VView.addVV3
  by_cases h0 : w.size > 0
  swap
  · rw [if_neg h0]
    exact ⟨m, rfl, fun i hi => by omega, fun _ _ => rfl⟩
  rw [if_pos h0]
  have notDisj : ∀ q : VView, q.size = w.size → q.Disjoint w → q.ptr ≠ w.ptr := by
    intro q hq hd e
    exact hd q.ptr ⟨0, by omega, by simp [VView.addr]⟩ ⟨0, h0, by simp [VView.addr, e]⟩
  by_cases hus : u.ptr = w.ptr
  · rw [if_pos (by simp [VView.sameStorage, hus])]
    by_cases hvs : v.ptr = w.ptr
    · rw [if_pos (by simp [VView.sameStorage, hvs])]
      obtain ⟨T, hT⟩ : ∃ T : VView, T = ⟨t, w.size, 1, false⟩ := ⟨_, rfl⟩
      obtain ⟨M, hM⟩ : ∃ M : Mem K, M = m.alloc t w.size junk := ⟨_, rfl⟩
      dsimp only
      rw [← hT, ← hM]
      have hTs : T.size = w.size := by rw [hT]
      have hTw : T.WF := Or.inl (by rw [hT]; exact one_ne_zero)
      have up : ∀ (q : VView) (z : Nat → K), q.Holds m z → q.Holds M z := by
        intro q z hq
        apply VView.Holds.of_raw
        intro i hi
        rw [hM]; exact Mem.alloc_of_some ht junk (hq.rawA i hi)
      have hTl : T.Live M := by rw [hT, hM]; exact Mem.alloc_live m t w.size junk
      have dT : ∀ q : VView, q.Live m → q.Disjoint T := by
        intro q hq; rw [hT]; exact ht.disjoint hq
      obtain ⟨m1, e1, b1⟩ := mulXV_spec b v T M y (by omega) hTw
        (SafeOrder.of_noClash (by omega) (NoClash.of_disjoint (dT v hv.live))) (up v y hv) hTl
      obtain ⟨m2, e2, b2⟩ := addVV_spec a u T m1 x (fun i => b * y i) (by omega) hTw
        (SafeOrder.of_noClash (by omega) (NoClash.of_disjoint (dT u hu.live)))
        ((up u x hu).frame b1.2 (dT u hu.live)) b1.1
      have hlw2 : w.Live m2 := VView.Live.frame b2 (VView.Live.frame b1 (by
        intro i hi
        obtain ⟨z, hz⟩ := Option.isSome_iff_exists.mp (hlw i hi)
        rw [hM, Mem.alloc_of_some ht junk hz]; rfl))
      have dTw : T.Disjoint w := fun c h1 h2 => dT w hlw c h2 h1
      obtain ⟨m3, e3, b3⟩ := copy_safe_spec T w m2 _ hTs hw
        (SafeOrder.of_noClash hTs (NoClash.of_disjoint dTw)) b2.1 hlw2
      rw [e1, Option.bind_some, e2, Option.bind_some, e3, Option.bind_some]
      refine ⟨_, rfl, ?_, ?_⟩
      · intro i hi
        have h1 := b3.1 i hi
        have hnt : ¬ (t ≤ w.addr i ∧ w.addr i < t + w.size) := by
          intro hh
          have := hlw i hi
          rw [ht _ hh.1 hh.2] at this; cases this
        rw [VView.cref, Mem.read, Mem.free, if_neg hnt]
        rw [VView.cref, Mem.read] at h1
        rw [h1]; congr 1; ring
      · intro c hc
        unfold Mem.free
        by_cases hh : t ≤ c ∧ c < t + w.size
        · rw [if_pos hh, ht c hh.1 hh.2]
        · rw [if_neg hh]
          have hTc : ¬ T.Covers c := by
            rintro ⟨j, hj, e⟩
            rw [hT] at e hj
            simp only [VView.addr] at e hj
            exact hh (by omega)
          rw [b3.2 c hc, b2.2 c hTc, b1.2 c hTc, hM, Mem.alloc, if_neg hh]
    · rw [if_neg (by simp [VView.sameStorage, hvs])]
      have hsu : SafeOrder u w := by
        rcases hAu with h | ⟨_, h | h⟩
        · exact absurd hus (notDisj u hu' h)
        · exact absurd h hvs
        · exact h
      have hdv : v.Disjoint w := by
        rcases hAv with h | ⟨h, _⟩
        · exact h
        · exact absurd h hvs
      obtain ⟨m1, e1, b1⟩ := mulXV_spec a u w m x hu' hw hsu hu hlw
      obtain ⟨m2, e2, b2⟩ := addVV_spec b v w m1 y (fun i => a * x i) hv' hw
        (SafeOrder.of_noClash hv' (NoClash.of_disjoint hdv)) (hv.frame b1.2 hdv) b1.1
      rw [e1, Option.bind_some]
      exact ⟨m2, e2, b2.1, fun c hc => by rw [b2.2 c hc, b1.2 c hc]⟩
  · rw [if_neg (by simp [VView.sameStorage, hus])]
    have hdu : u.Disjoint w := by
      rcases hAu with h | ⟨h, _⟩
      · exact h
      · exact absurd h hus
    have hsv : SafeOrder v w := by
      rcases hAv with h | ⟨_, h | h⟩
      · exact SafeOrder.of_noClash hv' (NoClash.of_disjoint h)
      · exact absurd h hus
      · exact h
    obtain ⟨m1, e1, b1⟩ := mulXV_spec b v w m y hv' hw hsv hv hlw
    obtain ⟨m2, e2, b2⟩ := addVV_spec a u w m1 x (fun i => b * y i) hu' hw
      (SafeOrder.of_noClash hu' (NoClash.of_disjoint hdu)) (hu.frame b1.2 hdu) b1.1
    rw [e1, Option.bind_some]
    refine ⟨m2, e2, b2.congr ?_ |>.1, fun c hc => by rw [b2.2 c hc, b1.2 c hc]⟩
    intro i _; ring

end
end TMV
