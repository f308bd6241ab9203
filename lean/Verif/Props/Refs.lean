import Verif.Model.Refs
import Mathlib.Tactic.Ring
import Mathlib.Tactic.NormNum
import Mathlib.Tactic.Linarith

/-! References through conjugated views and iterators (properties C49, C57). -/
namespace TMV

section mem
variable {K : Type _}
theorem Mem.modify_of_some {m : Mem K} {a : Int} {v : K} (h : m a = some v) (f : K → K) :
    m.modify a f = some (fun b => if b = a then some (f v) else m b) := by
  simp [Mem.modify, Mem.read, Mem.write, h]
theorem Mem.write_of_some {m : Mem K} {a : Int} {v : K} (h : m a = some v) (x : K) :
    m.write a x = some (fun b => if b = a then some x else m b) := by
  simp [Mem.write, h]
end mem

/-! ### Specification

A reference denotes a location `a` seen through a conjugation flag `c`; `seen a c m` is the element value a user of
the view sees. -/
noncomputable def seen (a : Int) (c : Bool) (m : Mem ℂ) : Option ℂ := (m a).map fun v => if c then star v else v

/-- The memory after: only location `a` changed, and through flag `c` it now reads `x`. -/
def Became (m m' : Mem ℂ) (a : Int) (c : Bool) (x : ℂ) : Prop :=
  seen a c m' = some x ∧ ∀ b, b ≠ a → m' b = m b

/-- The result of two locations exchanging what is seen through their flags. -/
def Swapped (m m' : Mem ℂ) (a : Int) (c : Bool) (b : Int) (d : Bool) : Prop :=
  seen a c m' = seen b d m ∧ seen b d m' = seen a c m ∧ ∀ e, e ≠ a → e ≠ b → m' e = m e

theorem AOp.star_ap (op : AOp) (v x : ℂ) : star (op.ap v x) = op.ap (star v) (star x) := by
  cases op <;> simp [AOp.ap]

theorem AOp.ap_cj (op : AOp) (c : Bool) (v x : ℂ) :
    (if c then star (op.ap v (if c then star x else x)) else op.ap v (if c then star x else x)) =
      op.ap (if c then star v else v) x := by
  cases c <;> simp [AOp.star_ap]

theorem seen_some {a : Int} {c : Bool} {m : Mem ℂ} {v : ℂ} (h : seen a c m = some v) :
    m a = some (if c then star v else v) := by
  unfold seen at h
  cases hm : m a with
  | none => simp [hm] at h
  | some w => simp only [hm, Option.map_some, Option.some.injEq] at h; subst h; cases c <;> simp

theorem modify_became {a : Int} {c : Bool} {m : Mem ℂ} {v x : ℂ} (h : seen a c m = some v) (op : AOp) :
    ∃ m', m.modify a (fun v => op.ap v (if c then star x else x)) = some m' ∧ Became m m' a c (op.ap v x) := by
  have h1 := seen_some h
  refine ⟨_, Mem.modify_of_some h1 _, ?_, fun b hb => by simp [hb]⟩
  simp only [seen, if_true, Option.map_some, AOp.ap_cj]
  cases c <;> simp

/-- **C49** (`v(i) op= x`, complex `x`).  Through a `VarConjRef` with either flag and through a `ConjRef`: the seen
value becomes `old op x`, nothing else changes. -/
theorem ref_assign_complex (op : AOp) (a : Int) (c : Bool) (x : ℂ) (m : Mem ℂ) :
    (∀ v, seen a c m = some v → ∃ m', VRef.assignC op ⟨a, c⟩ x m = some m' ∧ Became m m' a c (op.ap v x)) ∧
    (∀ v, seen a true m = some v → ∃ m', CRef.assignC op ⟨a⟩ x m = some m' ∧ Became m m' a true (op.ap v x)) :=
  ⟨fun _ h => modify_became h op, fun _ h => modify_became h op⟩

/-- **C49** (`v(i) op= x`, real `x`). -/
theorem ref_assign_real (op : AOp) (a : Int) (c : Bool) (x : ℝ) (m : Mem ℂ) :
    (∀ v, seen a c m = some v → ∃ m', VRef.assignR op ⟨a, c⟩ x m = some m' ∧ Became m m' a c (op.ap v x)) ∧
    (∀ v, seen a true m = some v → ∃ m', CRef.assignR op ⟨a⟩ x m = some m' ∧ Became m m' a true (op.ap v x)) := by
  have hx : ∀ c : Bool, (if c then star (x : ℂ) else (x : ℂ)) = x := by
    intro c; cases c <;> simp
  constructor
  · intro v h
    have := modify_became (x := (x : ℂ)) h op
    rw [hx] at this; exact this
  · intro v h
    have := modify_became (x := (x : ℂ)) h op
    rw [hx] at this; exact this

/-- **C49** (`v(i) op= w(j)`), for every combination of flags and also when both are the same location. -/
theorem ref_assign_ref (op : AOp) (a b : Int) (c d : Bool) (m : Mem ℂ) :
    (∀ v x, seen a c m = some v → seen b d m = some x →
      ∃ m', VRef.assignRef op ⟨a, c⟩ ⟨b, d⟩ m = some m' ∧ Became m m' a c (op.ap v x)) ∧
    (∀ v x, seen a true m = some v → seen b true m = some x →
      ∃ m', CRef.assignRef op ⟨a⟩ ⟨b⟩ m = some m' ∧ Became m m' a true (op.ap v x)) := by
  constructor
  · intro v x hv hx
    have h2 := seen_some hx
    have := modify_became (x := x) hv op
    have e : VRef.assignRef op ⟨a, c⟩ ⟨b, d⟩ m = m.modify a (fun v => op.ap v (if c then star x else x)) := by
      simp only [VRef.assignRef, Mem.read, h2, Option.bind_eq_bind, Option.bind_some]
      cases c <;> cases d <;> simp
    rw [e]; exact this
  · intro v x hv hx
    have h2 := seen_some hx
    have := modify_became (x := x) hv op
    have e : CRef.assignRef op ⟨a⟩ ⟨b⟩ m = m.modify a (fun v => op.ap v (if true then star x else x)) := by
      simp only [CRef.assignRef, Mem.read, h2, Option.bind_eq_bind, Option.bind_some]
    rw [e]; exact this

/-- **C49** (reading).  Conversion, `conj()`, `real()`, `imag()`, unary minus, `TMV_NORM`, `==` agree with the seen
value. -/
theorem ref_read (a : Int) (c : Bool) (m : Mem ℂ) (v : ℂ) (h : seen a c m = some v) (x : ℂ) (y : ℝ) :
    VRef.toC ⟨a, c⟩ m = some v ∧ VRef.conjVal ⟨a, c⟩ m = some (star v) ∧ VRef.real ⟨a, c⟩ m = some v.re ∧
    VRef.imag ⟨a, c⟩ m = some v.im ∧ VRef.neg ⟨a, c⟩ m = some (-v) ∧
    VRef.norm ⟨a, c⟩ m = some (Complex.normSq v) ∧ VRef.sqr ⟨a, c⟩ m = some (v * v) ∧
    (VRef.eqC ⟨a, c⟩ x m = some true ↔ v = x) ∧ (VRef.eqR ⟨a, c⟩ y m = some true ↔ v = y) := by
  have h1 := seen_some h
  have e1 : VRef.toC ⟨a, c⟩ m = some v := h
  refine ⟨e1, ?_, ?_, ?_, ?_, ?_, ?_, ?_, ?_⟩
  · cases c <;> simp [VRef.conjVal, Mem.read, h1]
  · cases c <;> simp [VRef.real, Mem.read, h1]
  · cases c <;> simp [VRef.imag, Mem.read, h1]
  · simp [VRef.neg, e1]
  · simp [VRef.norm, e1]
  · simp [VRef.sqr, e1]
  · cases c
    · simp [VRef.eqC, Mem.read, h1]
    · simpa [VRef.eqC, Mem.read, h1] using (star_inj (x := v) (y := x))
  · cases c <;> simp [VRef.eqR, Mem.read, h1, Complex.ext_iff]

/-- **C49** (reading, `ConjRef`), with the binary operators.  `TMV_SQR` and `TMV_SQRT` are excluded, see
`conjref_sqr_violated`. -/
theorem cref_read_partial (a : Int) (m : Mem ℂ) (v : ℂ) (h : seen a true m = some v) (x : ℂ) (y : ℝ) (op : AOp) :
    CRef.toC ⟨a⟩ m = some v ∧ CRef.conjVal ⟨a⟩ m = some (star v) ∧ CRef.real ⟨a⟩ m = some v.re ∧
    CRef.imag ⟨a⟩ m = some v.im ∧ CRef.neg ⟨a⟩ m = some (-v) ∧ CRef.norm ⟨a⟩ m = some (Complex.normSq v) ∧
    (CRef.eqC ⟨a⟩ x m = some true ↔ v = x) ∧ (CRef.eqR ⟨a⟩ y m = some true ↔ v = y) ∧
    CRef.binC op ⟨a⟩ x m = some (op.ap v x) ∧
    (∀ b w, seen b true m = some w → CRef.binRef op ⟨a⟩ ⟨b⟩ m = some (op.ap v w) ∧
      (CRef.eqRef ⟨a⟩ ⟨b⟩ m = some true ↔ v = w)) := by
  have h1 := seen_some h
  simp only [if_true] at h1
  refine ⟨by simp [CRef.toC, Mem.read, h1], by simp [CRef.conjVal, Mem.read, h1],
    by simp [CRef.real, Mem.read, h1], by simp [CRef.imag, Mem.read, h1], by simp [CRef.neg, Mem.read, h1],
    ?_, ?_, ?_, ?_, ?_⟩
  · simp [CRef.norm, CRef.conjVal, Mem.read, h1, Complex.normSq_conj]
  · simp [CRef.eqC, Mem.read, h1]
  · simp [CRef.eqR, Mem.read, h1, Complex.ext_iff]
  · simp [CRef.binC, Mem.read, h1]
  · intro b w hw
    have h2 := seen_some hw
    simp only [if_true] at h2
    constructor
    · simp only [CRef.binRef, Mem.read, h1, h2, Option.bind_eq_bind, Option.bind_some, Option.pure_def,
        AOp.star_ap, star_star]
    · simpa [CRef.eqRef, Mem.read, h1, h2] using (star_inj (x := v) (y := w))

/-- **C49** (`==` between references with any flags). -/
theorem ref_eq_ref (a b : Int) (c d : Bool) (m : Mem ℂ) (v w : ℂ) (h : seen a c m = some v)
    (h' : seen b d m = some w) : VRef.eqRef ⟨a, c⟩ ⟨b, d⟩ m = some true ↔ v = w := by
  have h1 := seen_some h
  have h2 := seen_some h'
  have e : VRef.eqRef ⟨a, c⟩ ⟨b, d⟩ m = some (decide ((if c then star v else v) =
      if c = d then (if d then star w else w) else star (if d then star w else w))) := by
    simp [VRef.eqRef, Mem.read, h1, h2]
  rw [e]
  have hs : star v = star w ↔ v = w := star_inj
  cases c <;> cases d <;> first | (simp; done) | simpa using hs

theorem two_writes {m : Mem ℂ} {a b : Int} {v w x y : ℂ} (hab : a ≠ b) (ha : m a = some v) (hb : m b = some w) :
    ((m.write b x).bind fun m => m.write a y) =
      some (fun e => if e = a then some y else if e = b then some x else m e) := by
  rw [Mem.write_of_some hb, Option.bind_some, Mem.write_of_some (v := v)]
  simp [hab, ha]

/-- **C49** (`swap`).  Exchanging two elements through any two references exchanges the seen values, unless both are
the same location with different flags (where no value could satisfy it). -/
theorem ref_swap (a b : Int) (c d : Bool) (m : Mem ℂ) (v w : ℂ) (h : seen a c m = some v)
    (h' : seen b d m = some w) (hal : a = b → c = d) :
    ∃ m', VRef.swapRef ⟨a, c⟩ ⟨b, d⟩ m = some m' ∧ Swapped m m' a c b d := by
  have h1 := seen_some h
  have h2 := seen_some h'
  by_cases hab : a = b
  · subst hab
    obtain rfl := hal rfl
    exact ⟨m, by simp [VRef.swapRef], rfl, rfl, fun _ _ _ => rfl⟩
  have hba : ¬ b = a := fun h => hab h.symm
  by_cases hcd : c = d
  · subst hcd
    have e : VRef.swapRef ⟨a, c⟩ ⟨b, c⟩ m = ((m.write b (if c then star v else v)).bind fun m =>
        m.write a (if c then star w else w)) := by
      simp [VRef.swapRef, hab, Mem.read, h1, h2]
    rw [e, two_writes hab h1 h2]
    refine ⟨_, rfl, ?_, ?_, ?_⟩
    · rw [h']; cases c <;> simp [seen]
    · rw [h]; cases c <;> simp [seen, hba]
    · intro e h1 h2; simp [h1, h2]
  · have e : VRef.swapRef ⟨a, c⟩ ⟨b, d⟩ m = ((m.write b (if d then star v else v)).bind fun m =>
        m.write a (if c then star w else w)) := by
      have t1 : VRef.toC ⟨a, c⟩ m = some v := h
      have t2 : VRef.toC ⟨b, d⟩ m = some w := h'
      simp only [VRef.swapRef, hab, hcd, if_false, t1, t2, Option.bind_eq_bind, Option.bind_some,
        VRef.assignC, AOp.ap]
      rw [Mem.modify_of_some h2, Mem.write_of_some h2, Option.bind_some, Option.bind_some]
      have h3 : (fun e => if e = b then some (if d then star v else v) else m e) a =
          some (if c then star v else v) := by simp [hab, h1]
      rw [Mem.modify_of_some h3, Mem.write_of_some h3]
    rw [e, two_writes hab h1 h2]
    refine ⟨_, rfl, ?_, ?_, ?_⟩
    · rw [h']; cases c <;> simp [seen]
    · rw [h]; cases d <;> simp [seen, hba]
    · intro e h1 h2; simp [h1, h2]

/-- **C49** (`swap` with a plain complex variable, and between `ConjRef`s). -/
theorem ref_swap_plain (a b : Int) (c : Bool) (m : Mem ℂ) (v w : ℂ) (h : seen a c m = some v)
    (h' : m b = some w) (hab : a ≠ b) :
    (∃ m', VRef.swapC ⟨a, c⟩ b m = some m' ∧ Swapped m m' a c b false) ∧
    (c = true → ∃ m', CRef.swapC ⟨a⟩ b m = some m' ∧ Swapped m m' a true b false) ∧
    (c = true → ∃ m', CRef.swapRef ⟨a⟩ ⟨b⟩ m = some m' ∧ Swapped m m' a true b true) := by
  have h1 := seen_some h
  have hba : ¬ b = a := fun h => hab h.symm
  refine ⟨?_, ?_, ?_⟩
  · have e : VRef.swapC ⟨a, c⟩ b m = ((m.write b v).bind fun m => m.write a (if c then star w else w)) := by
      have t1 : VRef.toC ⟨a, c⟩ m = some v := h
      simp only [VRef.swapC, hab, if_false, t1, Mem.read, h', Option.bind_eq_bind, Option.bind_some,
        VRef.assignC, AOp.ap]
      rw [Mem.write_of_some h', Option.bind_some, Option.bind_some]
      have h3 : (fun e => if e = b then some v else m e) a = some (if c then star v else v) := by simp [hab, h1]
      rw [Mem.modify_of_some h3, Mem.write_of_some h3]
    rw [e, two_writes hab h1 h']
    refine ⟨_, rfl, ?_, ?_, ?_⟩
    · cases c <;> simp [seen, h']
    · rw [h]; simp [seen, hba]
    · intro e h1 h2; simp [h1, h2]
  · rintro rfl
    simp only [if_true] at h1
    have e : CRef.swapC ⟨a⟩ b m = ((m.write b v).bind fun m => m.write a (star w)) := by
      simp [CRef.swapC, Mem.read, h1, h']
    rw [e, two_writes hab h1 h']
    refine ⟨_, rfl, ?_, ?_, ?_⟩
    · simp [seen, h']
    · rw [h]; simp [seen, hba]
    · intro e h1 h2; simp [h1, h2]
  · rintro rfl
    simp only [if_true] at h1
    have e : CRef.swapRef ⟨a⟩ ⟨b⟩ m = ((m.write b (star v)).bind fun m => m.write a w) := by
      simp [CRef.swapRef, Mem.read, h1, h']
    rw [e, two_writes hab h1 h']
    refine ⟨_, rfl, ?_, ?_, ?_⟩
    · simp [seen, h']
    · rw [h]; simp [seen, hba]
    · intro e h1 h2; simp [h1, h2]

/-- The unchanged code violates C49 for `TMV_SQR(ConjRef)`: it returns the square of the conjugate of the seen
value.  For the element seen as `1+i` it returns `-2i` instead of `2i`. -/
theorem conjref_sqr_violated :
    ∃ (m : Mem ℂ) (v : ℂ), seen 0 true m = some v ∧ CRef.sqr ⟨0⟩ m ≠ some (v * v) := by
  refine ⟨fun _ => some ⟨1, -1⟩, ⟨1, 1⟩, ?_, ?_⟩
  · simp [seen, Complex.ext_iff]
  · simp [CRef.sqr, CRef.conjVal, Mem.read, Complex.ext_iff]
    norm_num

/-- The same for `TMV_SQRT(ConjRef)`, whatever square root function is used: the square of the result is not the
seen value. -/
theorem conjref_sqrt_violated (f : ℂ → ℂ) (hf : ∀ z, f z * f z = z) :
    ∃ (m : Mem ℂ) (v : ℂ), seen 0 true m = some v ∧
      ∀ r, CRef.sqrt f ⟨0⟩ m = some r → r * r ≠ v := by
  refine ⟨fun _ => some ⟨1, -1⟩, ⟨1, 1⟩, ?_, ?_⟩
  · simp [seen, Complex.ext_iff]
  · intro r hr
    simp only [CRef.sqrt, CRef.conjVal, Mem.read, Option.map_some, Option.some.injEq] at hr
    rw [← hr, hf]
    simp [Complex.ext_iff]
    norm_num

/-- Non-vacuity: a memory with a conjugated element seen as `1+2i`. -/
example : seen 3 true (fun _ => some ⟨1, -2⟩) = some ⟨1, 2⟩ := by
  simp [seen, Complex.ext_iff]

/-! ### Iterators -/

/-- Applying `++` (`n ≥ 0`) or `--` (`n < 0`) `|n|` times. -/
def It.steps (i : It) (n : Int) : It := if 0 ≤ n then It.incr^[n.toNat] i else It.decr^[(-n).toNat] i

theorem It.incr_iter (i : It) (k : Nat) : It.incr^[k] i = { i with p := i.p + k * i.s } := by
  induction k with
  | zero => simp
  | succ k ih => rw [Function.iterate_succ_apply', ih]; simp [It.incr]; ring

theorem It.decr_iter (i : It) (k : Nat) : It.decr^[k] i = { i with p := i.p - k * i.s } := by
  induction k with
  | zero => simp
  | succ k ih => rw [Function.iterate_succ_apply', ih]; simp [It.decr]; ring

theorem It.steps_eq (i : It) (n : Int) : i.steps n = { i with p := i.p + n * i.s } := by
  unfold It.steps
  split
  · rename_i h; rw [It.incr_iter]; simp [h]
  · rename_i h
    rw [It.decr_iter]
    have : ((-n).toNat : Int) = -n := Int.toNat_of_nonneg (by omega)
    rw [this]; congr 1; ring

theorem It.plus_eq (i : It) (n : Int) : i.plus n = { i with p := i.p + n * i.s } := by
  unfold It.plus; split
  · rename_i h; simp [h]
  · rfl

theorem It.minus_eq (i : It) (n : Int) : i.minus n = { i with p := i.p - n * i.s } := by
  unfold It.minus; split
  · rename_i h; simp [h]
  · rfl

/-- **C57** (random access arithmetic; partial — `+=`/`-=` of the complex iterators need a step other than 1, see
`iter_plus_assign_violated`).  For every iterator and every `n`: `it + n`, `it - n`, `it += n`, `it -= n` are
`n`-fold increments/decrements, differences and comparisons count steps, `it[n]` is `*(it+n)`. -/
theorem iter_arith_partial (i : It) (n k : Int) :
    i.plus n = i.steps n ∧ i.minus n = i.steps (-n) ∧ i.addEqV n = i.steps n ∧ i.subEqV n = i.steps (-n) ∧
    (i.s ≠ 1 → i.addEq n = i.steps n ∧ i.subEq n = i.steps (-n)) ∧
    (i.s ≠ 0 → It.diff (i.steps n) (i.steps k) = some (n - k) ∧
      (It.lt (i.steps n) (i.steps k) = true ↔ n < k) ∧ (It.beq (i.steps n) (i.steps k) = true ↔ n = k)) ∧
    (∀ {K : Type} [Star K] (m : Mem K), i.at_ n m = (i.steps n).deref m) := by
  simp only [It.steps_eq]
  refine ⟨It.plus_eq i n, ?_, rfl, ?_, ?_, ?_, ?_⟩
  · rw [It.minus_eq]; congr 1; ring
  · unfold It.subEqV; congr 1; ring
  · intro h
    unfold It.addEq It.subEq
    rw [if_neg h, if_neg h]
    exact ⟨rfl, by congr 1; ring⟩
  · intro h
    have e : i.p + n * i.s - (i.p + k * i.s) = (n - k) * i.s := by ring
    refine ⟨?_, ?_, ?_⟩
    · unfold It.diff
      simp only [h, if_false, e]
      split
      · rename_i h1; simp [h1]
      · rw [Int.mul_tdiv_cancel _ h]
    · unfold It.lt
      simp only
      by_cases hs : i.s > 0
      · rw [if_pos hs]
        simp only [decide_eq_true_eq, add_lt_add_iff_left]
        exact mul_lt_mul_iff_left₀ hs
      · rw [if_neg hs]
        have hs' : i.s < 0 := lt_of_le_of_ne (not_lt.mp hs) h
        simp only [decide_eq_true_eq, gt_iff_lt, add_lt_add_iff_left]
        exact mul_lt_mul_right_of_neg hs'
    · unfold It.beq
      simp [h]
  · intro K _ m
    unfold It.at_ It.deref
    simp only
    split
    · rename_i h; simp [h]
    · rfl

/-- **C57** (iterating over a vector).  `*(begin()+i)` is element `i`, and stores through it are element
assignments; `end() - begin()` is the size. -/
theorem iter_elements (v : VView) {K : Type} [Star K] (m : Mem K) (i : Int) (x : K) :
    ((It.begin_ v).plus i).deref m = v.cref m i ∧ ((It.begin_ v).plus i).store x m = v.setRef i x m ∧
    ((It.begin_ v).plus v.size) = It.end_ v ∧ (v.step ≠ 0 → It.diff (It.end_ v) (It.begin_ v) = some v.size) := by
  simp only [It.plus_eq]
  refine ⟨rfl, rfl, rfl, ?_⟩
  intro h
  have := (iter_arith_partial (It.begin_ v) v.size 0).2.2.2.2.2.1 h
  simp only [It.steps_eq, zero_mul, add_zero, sub_zero] at this
  exact this.1

/-- The unchanged code violates C57: `it += n` on the iterator of a complex `Vector` (step 1) advances by one
element whatever `n` is, so `it += 3` and `it + 3` differ; standard algorithms that use `+=` read the wrong
elements. -/
theorem iter_plus_assign_violated (p : Int) (c : Bool) (n : Int) (h : n ≠ 1) :
    It.addEq ⟨p, 1, c⟩ n ≠ It.plus ⟨p, 1, c⟩ n ∧ It.subEq ⟨p, 1, c⟩ n ≠ It.minus ⟨p, 1, c⟩ n := by
  simp only [It.addEq, It.plus, It.subEq, It.minus, if_true, ne_eq, It.mk.injEq, and_true]
  omega

end TMV
