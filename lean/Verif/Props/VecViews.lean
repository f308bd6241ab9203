import Verif.Lemmas.Vec
import Mathlib.Tactic.NormNum
import Mathlib.Tactic.IntervalCases

/-! Properties C01, C02, C03: vector views and their range checks. -/
namespace TMV
variable {K : Type _}

/-- Specification of C02: all elements `i1, i1+istep, ..., ` up to (excluding) `i2` exist in a
vector of `n` elements (an empty range `i1 = i2` has no elements). -/
def RangeOK (n : Nat) (i1 i2 istep : Int) : Prop :=
  ∃ k : Nat, i2 = i1 + k * istep ∧ ∀ j : Nat, j < k → 0 ≤ i1 + j * istep ∧ i1 + j * istep < n

private theorem tdiv_nonneg_of {d s : Int} (hs : s ≠ 0) (hm : d.tmod s = 0) (hd : 0 ≤ d.tdiv s) :
    d = (d.tdiv s).toNat * s := by
  have := Int.mul_tdiv_add_tmod d s
  rw [hm] at this
  rw [Int.toNat_of_nonneg hd]; linarith

/-- intermediate points of an arithmetic progression lie between its ends -/
private theorem mid_in (i1 s : Int) (k j : Nat) (n : Nat) (hk : 0 < k) (hj : j < k)
    (h1 : 0 ≤ i1) (h1' : i1 < n) (h2 : 0 ≤ i1 + (k - 1 : Int) * s) (h2' : i1 + (k - 1 : Int) * s < n) :
    0 ≤ i1 + j * s ∧ i1 + j * s < n := by
  have hj' : (j : Int) ≤ k - 1 := by omega
  have hj0 : (0 : Int) ≤ j := by omega
  rcases le_total 0 s with hs | hs
  · have a : (j : Int) * s ≤ (k - 1) * s := mul_le_mul_of_nonneg_right hj' hs
    have b : 0 ≤ (j : Int) * s := mul_nonneg hj0 hs
    constructor <;> linarith
  · have a : (k - 1) * s ≤ (j : Int) * s := mul_le_mul_of_nonpos_right hj' hs
    have b : (j : Int) * s ≤ 0 := mul_nonpos_of_nonneg_of_nonpos hj0 hs
    constructor <;> linarith

/-- **C02** (main part).  For a nonzero step the C-style check is defined and accepts exactly
the ranges all of whose elements exist. -/
theorem hasSubVector_iff (v : VView) (i1 i2 istep : Int) (hs : istep ≠ 0) :
    ∃ b, v.hasSubVector i1 i2 istep = some b ∧ (b = true ↔ RangeOK v.size i1 i2 istep) := by
  by_cases h12 : i1 = i2
  · refine ⟨true, by simp [VView.hasSubVector, h12], by simp only [true_iff]; exact ⟨0, by simp [h12], by simp⟩⟩
  · simp only [VView.hasSubVector, if_neg h12, if_neg hs]
    refine ⟨_, rfl, ?_⟩
    constructor
    · intro h
      split at h
      · simp at h
      rename_i hdiv
      split at h
      · simp at h
      rename_i hmod
      split at h
      · simp at h
      rename_i hl
      split at h
      · simp at h
      rename_i hf
      simp only [not_or, not_lt, not_le, ge_iff_le, ne_eq, not_not] at *
      have e := tdiv_nonneg_of hs hmod hdiv
      set k := ((i2 - i1).tdiv istep).toNat
      have hk : 0 < k := by
        rcases Nat.eq_zero_or_pos k with h0 | h0
        · rw [h0] at e; simp at e; omega
        · exact h0
      refine ⟨k, by linarith, fun j hj => ?_⟩
      apply mid_in i1 istep k j v.size hk hj hf.1 hf.2
      · linarith [hl.1]
      · linarith [hl.2]
    · rintro ⟨k, hk, hin⟩
      have hk0 : 0 < k := by
        rcases Nat.eq_zero_or_pos k with h0 | h0
        · subst h0; simp at hk; exact absurd hk.symm h12
        · exact h0
      have hd : i2 - i1 = k * istep := by linarith
      have h0 := hin 0 hk0
      have hl := hin (k-1) (by omega)
      have hc : ((k - 1 : Nat) : Int) = k - 1 := by omega
      rw [hc] at hl
      have hlast : i1 + ((k : Int) - 1) * istep = i2 - istep := by rw [hk]; ring
      rw [hlast] at hl
      simp only [Nat.cast_zero, zero_mul, add_zero] at h0
      rw [hd, Int.mul_tmod_left, Int.mul_tdiv_cancel _ hs]
      have e1 : ¬ (i1 < 0 ∨ i1 ≥ v.size) := by omega
      have e2 : ¬ (i2 - istep < 0 ∨ i2 - istep ≥ v.size) := by omega
      simp only [if_neg e1, if_neg e2]
      simp

example : RangeOK 10 8 (-1) (-3) := ⟨3, by norm_num, by intro j hj; interval_cases j <;> norm_num⟩

/-- **C02 violated**: the check itself has undefined behaviour for `istep == 0` (it reports the
problem and then still evaluates `(i2-i1)%istep`). -/
theorem hasSubVector_zero_step_violated :
    (⟨0, 10, 1, false⟩ : VView).hasSubVector 1 4 0 = none := by decide

/-- **C02 violated**: `subVector(3,3,0)` passes the check and then divides by zero. -/
theorem subVector_empty_zero_step_violated :
    (⟨0, 10, 1, false⟩ : VView).hasSubVector 3 3 0 = some true ∧
    (⟨0, 10, 1, false⟩ : VView).cSubVector 3 3 0 = none := by decide

/-- Specification for the Fortran style: 1-based, both ends included, at least one element. -/
def RangeOKF (n : Nat) (i1 i2 istep : Int) : Prop :=
  ∃ k : Nat, i2 = i1 + k * istep ∧ ∀ j : Nat, j ≤ k → 1 ≤ i1 + j * istep ∧ i1 + j * istep ≤ n

/-- **C02/C03** (partial: excludes `i1 = i2`, where the code is wrong, see
`hasSubVectorF_single_violated`, and `istep = 0`): the Fortran-style check accepts exactly the
ranges all of whose elements exist. -/
theorem hasSubVectorF_iff_partial (v : VView) (i1 i2 istep : Int) (hs : istep ≠ 0) (h12 : i1 ≠ i2) :
    ∃ b, v.hasSubVectorF i1 i2 istep = some b ∧ (b = true ↔ RangeOKF v.size i1 i2 istep) := by
  simp only [VView.hasSubVectorF, if_neg h12, if_neg hs]
  refine ⟨_, rfl, ?_⟩
  constructor
  · intro h
    split at h
    · simp at h
    rename_i hdiv
    split at h
    · simp at h
    rename_i hmod
    split at h
    · simp at h
    rename_i hl
    split at h
    · simp at h
    rename_i hf
    simp only [not_or, not_lt, not_le, ge_iff_le, gt_iff_lt, ne_eq, not_not] at *
    have e := tdiv_nonneg_of hs hmod hdiv
    set k := ((i2 - i1).tdiv istep).toNat
    refine ⟨k, by linarith, fun j hj => ?_⟩
    have := mid_in (i1 - 1) istep (k+1) j v.size (by omega) (by omega) (by omega) (by omega)
      (by push_cast; linarith [hl.1]) (by push_cast; linarith [hl.2])
    constructor <;> linarith [this.1, this.2]
  · rintro ⟨k, hk, hin⟩
    have hd : i2 - i1 = k * istep := by linarith
    have h0 := hin 0 (by omega)
    have hl := hin k (by omega)
    rw [← hk] at hl
    simp only [Nat.cast_zero, zero_mul, add_zero] at h0
    rw [hd, Int.mul_tmod_left, Int.mul_tdiv_cancel _ hs]
    have e1 : ¬ (i1 < 1 ∨ i1 > v.size) := by omega
    have e2 : ¬ (i2 < 1 ∨ i2 > v.size) := by omega
    simp [e1, e2]

/-- **C02/C03 violated**: the Fortran-style check accepts the one-element range (7,7) of a vector
with 5 elements, and the resulting view addresses memory outside the vector. -/
theorem hasSubVectorF_single_violated :
    ∃ v : VView, v.size = 5 ∧ v.hasSubVectorF 7 7 1 = some true ∧ ¬ RangeOKF v.size 7 7 1 ∧
      (v.subVectorF 7 7 1).size = 1 ∧ ¬ v.Covers ((v.subVectorF 7 7 1).addr 0) := by
  refine ⟨⟨0, 5, 1, false⟩, rfl, by decide, ?_, by decide, ?_⟩
  · rintro ⟨k, _, h⟩; have := h 0 (by omega); norm_num at this
  · rintro ⟨i, hi, h⟩
    simp [VView.subVectorF, VView.subVector, VView.addr] at h hi
    omega

/-- **C03**: the Fortran-style check agrees with the C-style check on the shifted range
(except for `i1 = i2`). -/
theorem hasSubVectorF_shift_partial (v : VView) (i1 i2 istep : Int) (hs : istep ≠ 0) (h12 : i1 ≠ i2) :
    (v.hasSubVectorF i1 i2 istep = some true) ↔
      (i1 - 1 ≠ i2 - 1 + istep ∧ v.hasSubVector (i1 - 1) (i2 - 1 + istep) istep = some true) := by
  obtain ⟨b, hb, hb'⟩ := hasSubVectorF_iff_partial v i1 i2 istep hs h12
  obtain ⟨c, hc, hc'⟩ := hasSubVector_iff v (i1 - 1) (i2 - 1 + istep) istep hs
  rw [hb, hc, Option.some_inj, Option.some_inj, hb', hc']
  constructor
  · rintro ⟨k, hk, h⟩
    refine ⟨?_, k+1, by push_cast; linarith, fun j hj => ?_⟩
    · intro he
      have : ((k : Int) + 1) * istep = 0 := by linarith
      rcases mul_eq_zero.mp this with h | h
      · omega
      · exact hs h
    · have := h j (by omega)
      constructor <;> linarith [this.1, this.2]
  · rintro ⟨hne, k, hk, h⟩
    cases k with
    | zero => simp at hk; exact absurd hk.symm hne
    | succ k =>
      refine ⟨k, by push_cast at hk; linarith, fun j hj => ?_⟩
      have := h j (by omega)
      constructor <;> linarith [this.1, this.2]

/-- **C03**: element `k` (0-based) of the Fortran-style `subVector(i1,i2,istep)` is element number
`i1 + k*istep` in 1-based numbering, and there are `(i2-i1)/istep + 1` of them. -/
theorem subVectorF_elements [Star K] (v : VView) (i1 i2 istep : Int) (n : Nat) (m : Mem K)
    (hs : istep ≠ 0) (hn : i2 = i1 + n * istep) :
    (v.subVectorF i1 i2 istep).size = n + 1 ∧
    ∀ k : Int, (v.subVectorF i1 i2 istep).cref m k = v.cref m ((i1 + k * istep) - 1) := by
  constructor
  · simp only [VView.subVectorF, VView.subVector]
    have : i2 - 1 + istep - (i1 - 1) = ((n : Int) + 1) * istep := by rw [hn]; ring
    rw [this, Int.mul_tdiv_cancel _ hs]; omega
  · intro k
    simp only [VView.subVectorF, VView.subVector, VView.cref, VView.addr, Mem.read]
    congr 2; ring

/-- **C03** for the two-argument form. -/
theorem subVector2F_elements [Star K] (v : VView) (i1 i2 : Int) (m : Mem K) :
    ((v.subVector2F i1 i2).size : Int) = max (i2 - i1 + 1) 0 ∧
    ∀ k : Int, (v.subVector2F i1 i2).cref m k = v.cref m ((i1 + k) - 1) := by
  constructor
  · simp only [VView.subVector2F, VView.subVector2]; omega
  · intro k
    simp only [VView.subVector2F, VView.subVector2, VView.cref, VView.addr, Mem.read]
    congr 2; ring

/-! ### C01: chains of views -/

/-- The view-producing calls of the C-style API. -/
inductive VOp where
  | sub (i1 i2 istep : Int)
  | sub2 (i1 i2 : Int)
  | rev
  | conj

/-- One call, rejected (`none`) unless the library's own check accepts it; for
`subVector(i1,i2)` the check is `hasSubVector(i1,i2,1)` (include/tmv/TMV_Vector.h:407-411,
419-423). -/
def VOp.run : VOp → VView → Option VView
  | .sub i1 i2 istep, v => if v.hasSubVector i1 i2 istep = some true then v.cSubVector i1 i2 istep else none
  | .sub2 i1 i2, v => if v.hasSubVector i1 i2 1 = some true then some (v.subVector2 i1 i2) else none
  | .rev, v => some v.reverse
  | .conj, v => some v.conjugate

def VOp.runAll : List VOp → VView → Option VView
  | [], v => some v
  | o :: os, v => (o.run v).bind (VOp.runAll os)

/-- Documented meaning of one call: element `i` of the result is element `sel i` of the argument. -/
def VOp.sel : VOp → (n : Nat) → Int → Int
  | .sub i1 _ istep, _, i => i1 + i * istep
  | .sub2 i1 _, _, i => i1 + i
  | .rev, n, i => n - 1 - i
  | .conj, _, i => i

def VOp.isConj : VOp → Bool
  | .conj => true
  | _ => false

theorem VOp.run_spec (o : VOp) (v w : VView) (h : o.run v = some w) :
    (∀ i : Nat, i < w.size → 0 ≤ o.sel v.size i ∧ o.sel v.size i < v.size ∧
      w.addr i = v.addr (o.sel v.size i)) ∧
    (v.step ≠ 0 → w.step ≠ 0) ∧ w.conj = (v.conj ^^ o.isConj) := by
  have key : ∀ i1 i2 istep : Int, v.hasSubVector i1 i2 istep = some true → istep ≠ 0 →
      ∀ i : Nat, i < ((i2 - i1).tdiv istep).toNat → 0 ≤ i1 + i * istep ∧ i1 + i * istep < v.size := by
    intro i1 i2 istep hc hs i hi
    obtain ⟨b, hb, hb'⟩ := hasSubVector_iff v i1 i2 istep hs
    rw [hc, Option.some_inj] at hb
    obtain ⟨k, hk, hin⟩ := hb'.mp hb.symm
    have : i2 - i1 = k * istep := by linarith
    rw [this, Int.mul_tdiv_cancel _ hs] at hi
    exact hin i (by omega)
  cases o with
  | sub i1 i2 istep =>
    simp only [VOp.run, VView.cSubVector] at h
    split at h
    · rename_i hc
      split at h
      · simp at h
      rename_i hs
      simp only [Option.some_inj] at h
      subst h
      refine ⟨fun i hi => ?_, fun hv => mul_ne_zero hs hv, by simp [VOp.isConj, VView.subVector]⟩
      obtain ⟨a, b⟩ := key i1 i2 istep hc hs i hi
      refine ⟨a, b, ?_⟩
      simp only [VView.subVector, VView.addr, VOp.sel]; ring
    · simp at h
  | sub2 i1 i2 =>
    simp only [VOp.run] at h
    split at h
    · rename_i hc
      simp only [Option.some_inj] at h
      subst h
      refine ⟨fun i hi => ?_, fun hv => hv, by simp [VOp.isConj, VView.subVector2]⟩
      simp only [VView.subVector2] at hi
      obtain ⟨a, b⟩ := key i1 i2 1 hc (by norm_num) i (by simpa using hi)
      refine ⟨by simpa [VOp.sel] using a, by simpa [VOp.sel] using b, ?_⟩
      simp only [VView.subVector2, VView.addr, VOp.sel]; ring
    · simp at h
  | rev =>
    simp only [VOp.run, Option.some_inj] at h
    subst h
    refine ⟨fun i hi => ?_, fun hv => neg_ne_zero.mpr hv, by simp [VOp.isConj, VView.reverse]⟩
    have hi' : i < v.size := hi
    refine ⟨by simp [VOp.sel]; omega, by simp [VOp.sel]; omega, ?_⟩
    simp only [VView.reverse, VView.addr, VOp.sel]; ring
  | conj =>
    simp only [VOp.run, Option.some_inj] at h
    subst h
    have hc : v.conjugate.conj = !v.conj := rfl
    refine ⟨fun i hi => ?_, fun hv => hv, by simp [VOp.isConj, hc]⟩
    have hi' : i < v.size := hi
    refine ⟨by simp [VOp.sel], by simp [VOp.sel]; omega, rfl⟩

/-- **C01**.  Every element of a view obtained by a chain of accepted calls is an element of the
vector the chain started from; distinct indices address distinct elements. -/
theorem view_chain_inside (os : List VOp) (v w : VView) (hv : v.step ≠ 0)
    (h : VOp.runAll os v = some w) :
    (∀ i : Nat, i < w.size → v.Covers (w.addr i)) ∧
    (∀ i j : Nat, i < w.size → j < w.size → w.addr i = w.addr j → i = j) := by
  induction os generalizing v with
  | nil =>
    simp only [VOp.runAll, Option.some_inj] at h
    subst h
    exact ⟨fun i hi => ⟨i, hi, rfl⟩, fun i j hi hj e => VView.Inj.addr_inj (Or.inl hv) hi hj e⟩
  | cons o os ih =>
    simp only [VOp.runAll] at h
    cases hr : o.run v with
    | none => simp [hr] at h
    | some u =>
      rw [hr, Option.bind_some] at h
      obtain ⟨hsel, hst, _⟩ := o.run_spec v u hr
      obtain ⟨hin, hinj⟩ := ih u (hst hv) h
      refine ⟨fun i hi => ?_, hinj⟩
      obtain ⟨j, hj, e⟩ := hin i hi
      obtain ⟨a, b, c⟩ := hsel j hj
      refine ⟨(o.sel v.size j).toNat, by omega, ?_⟩
      rw [e, c, Int.toNat_of_nonneg a]

/-- **C01** (which element): reading element `i` of the result of one accepted call reads the
documented element of the argument, conjugated iff the call is `conjugate()`. -/
theorem view_op_reads [InvolutiveStar K] (o : VOp) (v w : VView) (m : Mem K)
    (h : o.run v = some w) (i : Nat) (hi : i < w.size) :
    w.cref m i = (v.cref m (o.sel v.size i)).map (cj o.isConj) := by
  obtain ⟨hsel, _, hc⟩ := o.run_spec v w h
  obtain ⟨_, _, e⟩ := hsel i hi
  simp only [VView.cref, Mem.read, e, Option.map_map, hc]
  congr 1
  funext x
  cases v.conj <;> cases o.isConj <;> simp [cj]

/-- Non-vacuity: `v.subVector(1,9,2).reverse().conjugate().subVector(0,2)` on ten elements. -/
example : VOp.runAll [.sub 1 9 2, .rev, .conj, .sub2 0 2] ⟨100, 10, 1, false⟩ =
    some ⟨107, 2, -2, true⟩ := by decide

end TMV
