import Verif.Lemmas.Vec
import Verif.Props.VecOps
import Mathlib.Algebra.Order.Archimedean.Basic
import Mathlib.Analysis.SpecialFunctions.Sqrt
import Mathlib.Analysis.Complex.Norm

/-! Properties C11 (min/max), C12 (sums), C13 (norm2). -/
namespace TMV
variable {K : Type _}

theorem VView.Holds.raw [InvolutiveStar K] {u : VView} {m : Mem K} {z : Nat → K} (h : u.Holds m z) :
    ∀ i : Nat, i < u.size → m (u.ptr + i * u.step) = some (cj u.conj (z i)) := by
  intro i hi
  have := h i hi
  simp only [VView.cref, Mem.read, Option.map_eq_some_iff] at this
  obtain ⟨c, hc, hc'⟩ := this
  rw [VView.addr] at hc
  rw [hc, ← hc', cj_cj]

theorem VView.Holds.reverse [Star K] {u : VView} {m : Mem K} {z : Nat → K} (h : u.Holds m z) :
    u.reverse.Holds m (fun i => z (u.size - 1 - i)) := by
  intro i hi
  have hi' : i < u.size := hi
  have := h (u.size - 1 - i) (by omega)
  simp only [VView.cref, Mem.read] at this ⊢
  rw [u.reverse_addr i hi]; exact this

/-! ### C11 -/

theorem findLoop_spec {β R : Type _} [LinearOrder R] (val : K → β) (key : β → R) (s : Int) :
    ∀ (n : Nat) (p : Int) (i : Nat) (m : Mem K) (b : β) (ib : Nat) (x : Nat → K),
      (∀ k : Nat, k < n → m (p + k * s) = some (x (i + k))) → ib < i → b = val (x ib) →
      (∀ k, k < i → key b ≤ key (val (x k))) →
      ∃ j, j < i + n ∧ VView.findLoop val (fun a b => decide (key a < key b)) s n p i m b ib =
          some (val (x j), (j : Int)) ∧ ∀ k, k < i + n → key (val (x j)) ≤ key (val (x k)) := by
  intro n
  induction n with
  | zero =>
    intro p i m b ib x _ hib hb hmin
    exact ⟨ib, by omega, by simp [VView.findLoop, hb], by rw [← hb]; simpa using hmin⟩
  | succ n ih =>
    intro p i m b ib x hx hib hb hmin
    have h0 : m p = some (x i) := by simpa using hx 0 (by omega)
    have hx' : ∀ k : Nat, k < n → m (p + s + k * s) = some (x (i + 1 + k)) := by
      intro k hk
      have := hx (k+1) (by omega)
      have e : p + ((k + 1 : Nat) : Int) * s = p + s + k * s := by push_cast; ring
      rw [e] at this
      rw [this]; congr 2; omega
    have hc : ((i : Int) + 1) = ((i + 1 : Nat) : Int) := by push_cast; ring
    simp only [VView.findLoop, Mem.read, h0, Option.bind_eq_bind, Option.bind_some,
      decide_eq_true_eq]
    by_cases h : key (val (x i)) < key b
    · obtain ⟨j, h1, h2, h3⟩ := ih (p+s) (i+1) m (val (x i)) i x hx' (by omega) rfl (by
        intro k hk
        rcases Nat.lt_succ_iff_lt_or_eq.mp hk with h' | h'
        · exact le_trans h.le (hmin k h')
        · subst h'; exact le_rfl)
      exact ⟨j, by omega, by rw [if_pos h, hc]; exact h2, fun k hk => h3 k (by omega)⟩
    · obtain ⟨j, h1, h2, h3⟩ := ih (p+s) (i+1) m b ib x hx' (by omega) hb (by
        intro k hk
        rcases Nat.lt_succ_iff_lt_or_eq.mp hk with h' | h'
        · exact hmin k h'
        · subst h'; exact not_lt.mp h)
      exact ⟨j, by omega, by rw [if_neg h, hc]; exact h2, fun k hk => h3 k (by omega)⟩

theorem findBest_spec {β R : Type _} [LinearOrder R] [InvolutiveStar K] (val : K → β) (key : β → R)
    (fin : β → β) (v : VView) (m : Mem K) (x : Nat → K) (hx : v.Holds m x) (h0 : 0 < v.size)
    (hfin : ∀ y, fin (val y) = val (cj v.conj y)) (hkey : ∀ y, key (fin y) = key y) :
    ∃ j, j < v.size ∧ v.findBest val (fun a b => decide (key a < key b)) fin m =
          some (val (x j), (j : Int)) ∧ ∀ k, k < v.size → key (val (x j)) ≤ key (val (x k)) := by
  have hraw := hx.raw
  have hr0 : m v.ptr = some (cj v.conj (x 0)) := by simpa using hraw 0 h0
  obtain ⟨j, h1, h2, h3⟩ := findLoop_spec val key v.step (v.size - 1) (v.ptr + v.step) 1 m
    (val (cj v.conj (x 0))) 0 (fun i => cj v.conj (x i)) (by
      intro k hk
      have := hraw (k+1) (by omega)
      have e : v.ptr + ((k + 1 : Nat) : Int) * v.step = v.ptr + v.step + k * v.step := by
        push_cast; ring
      rw [e] at this
      rw [this]; congr 3; omega) (by omega) rfl (by
      intro k hk
      have : k = 0 := by omega
      subst this; exact le_rfl)
  refine ⟨j, by omega, ?_, ?_⟩
  · simp only [VView.findBest, Mem.read, hr0, Option.bind_eq_bind, Option.bind_some]
    simp only [Nat.cast_one, Nat.cast_zero] at h2
    rw [h2]
    simp [hfin, cj_cj]
  · intro k hk
    have := h3 k (by omega)
    have e : ∀ y, key (val (cj v.conj y)) = key (val y) := by
      intro y; rw [← hfin, hkey]
    rwa [e, e] at this

/-- Generic form of C11. -/
theorem doBest_spec {β R : Type _} [LinearOrder R] [InvolutiveStar K] (val : K → β) (key : β → R)
    (fin : β → β) (z : β) (v : VView) (m : Mem K) (x : Nat → K) (hx : v.Holds m x)
    (h0 : 0 < v.size) (hw : v.WF)
    (hfin : ∀ y, fin (val y) = val (cj v.conj y)) (hkey : ∀ y, key (fin y) = key y)
    (hs : v.step ≠ 0 ∨ ∀ y, fin (val y) = val y) :
    ∃ j, j < v.size ∧ v.doBest val (fun a b => decide (key a < key b)) fin z m =
          some (val (x j), (j : Int)) ∧ ∀ k, k < v.size → key (val (x j)) ≤ key (val (x k)) := by
  unfold VView.doBest
  rw [if_neg (by omega)]
  by_cases hp : v.step > 0
  · rw [if_pos hp]
    exact findBest_spec val key fin v m x hx h0 hfin hkey
  rw [if_neg hp]
  by_cases hz : v.step = 0
  · rw [if_pos hz]
    have h1 : v.size = 1 := by rcases hw with h | h; exact absurd hz h; exact h
    have hf : ∀ y, fin (val y) = val y := by rcases hs with h | h; exact absurd hz h; exact h
    have hr0 : m v.ptr = some (cj v.conj (x 0)) := by simpa using hx.raw 0 h0
    refine ⟨0, h0, ?_, ?_⟩
    · simp [Mem.read, hr0, ← hfin, hf]
    · intro k hk
      have : k = 0 := by omega
      subst this; exact le_rfl
  · rw [if_neg hz]
    obtain ⟨j, h1, h2, h3⟩ := findBest_spec val key fin v.reverse m _ hx.reverse h0 hfin hkey
    have h1' : j < v.size := h1
    refine ⟨v.size - 1 - j, by omega, ?_, ?_⟩
    · rw [h2]
      simp only [Option.bind_eq_bind, Option.bind_some]
      congr 2; omega
    · intro k hk
      have := h3 (v.size - 1 - k) (by show v.size - 1 - k < v.size; omega)
      have e : v.size - 1 - (v.size - 1 - k) = k := by omega
      rwa [e] at this

/-- **C11** `minAbsElement` / `minAbs2Element`: the returned value is `|v(j)|` for the returned index
`j` and no element is smaller. -/
theorem minAbs_spec {R : Type _} [LinearOrder R] [Zero R] [InvolutiveStar K] (ab : K → R)
    (hab : ∀ y, ab (star y) = ab y) (v : VView) (m : Mem K) (x : Nat → K) (hx : v.Holds m x)
    (h0 : 0 < v.size) (hw : v.WF) :
    ∃ j, j < v.size ∧ v.minAbs ab m = some (ab (x j), (j : Int)) ∧
      ∀ k, k < v.size → ab (x j) ≤ ab (x k) := by
  exact doBest_spec ab id id 0 v m x hx h0 hw
    (by intro y; cases v.conj <;> simp [cj, hab]) (fun _ => rfl) (Or.inr fun _ => rfl)

/-- **C11** `maxAbsElement` / `maxAbs2Element`. -/
theorem maxAbs_spec {R : Type _} [LinearOrder R] [Zero R] [InvolutiveStar K] (ab : K → R)
    (hab : ∀ y, ab (star y) = ab y) (v : VView) (m : Mem K) (x : Nat → K) (hx : v.Holds m x)
    (h0 : 0 < v.size) (hw : v.WF) :
    ∃ j, j < v.size ∧ v.maxAbs ab m = some (ab (x j), (j : Int)) ∧
      ∀ k, k < v.size → ab (x k) ≤ ab (x j) := by
  exact doBest_spec (R := Rᵒᵈ) ab OrderDual.toDual id 0 v m x hx h0 hw
    (by intro y; cases v.conj <;> simp [cj, hab]) (fun _ => rfl) (Or.inr fun _ => rfl)

/-- **C11** `minElement` (partial: conjugated views with step 0 are excluded, see
`minElement_step0_violated`). -/
theorem minElement_spec_partial {R : Type _} [LinearOrder R] [Zero K] [InvolutiveStar K] (re : K → R)
    (hre : ∀ y, re (star y) = re y) (v : VView) (m : Mem K) (x : Nat → K) (hx : v.Holds m x)
    (h0 : 0 < v.size) (hw : v.WF) (hs : v.step ≠ 0 ∨ v.conj = false) :
    ∃ j, j < v.size ∧ v.minElement re m = some (x j, (j : Int)) ∧
      ∀ k, k < v.size → re (x j) ≤ re (x k) := by
  exact doBest_spec id re (cj v.conj) 0 v m x hx h0 hw
    (by intro y; rfl) (by intro y; cases v.conj <;> simp [cj, hre])
    (by rcases hs with h | h; exact Or.inl h; right; intro y; simp [h, cj])

/-- **C11** `maxElement`. -/
theorem maxElement_spec_partial {R : Type _} [LinearOrder R] [Zero K] [InvolutiveStar K] (re : K → R)
    (hre : ∀ y, re (star y) = re y) (v : VView) (m : Mem K) (x : Nat → K) (hx : v.Holds m x)
    (h0 : 0 < v.size) (hw : v.WF) (hs : v.step ≠ 0 ∨ v.conj = false) :
    ∃ j, j < v.size ∧ v.maxElement re m = some (x j, (j : Int)) ∧
      ∀ k, k < v.size → re (x k) ≤ re (x j) := by
  exact doBest_spec (R := Rᵒᵈ) id (fun y => OrderDual.toDual (re y)) (cj v.conj) 0 v m x hx h0 hw
    (by intro y; rfl) (by intro y; cases v.conj <;> simp [cj, hre])
    (by rcases hs with h | h; exact Or.inl h; right; intro y; simp [h, cj])

/-- **C11** empty vectors give value 0 and index -1. -/
theorem minmax_empty {R : Type _} [LinearOrder R] [Zero R] [Zero K] [Star K] (re ab : K → R)
    (v : VView) (m : Mem K) (h : v.size = 0) :
    v.minElement re m = some (0, -1) ∧ v.maxElement re m = some (0, -1) ∧
    v.minAbs ab m = some (0, -1) ∧ v.maxAbs ab m = some (0, -1) := by
  simp [VView.minElement, VView.maxElement, VView.minAbs, VView.maxAbs, VView.doBest, h]

/-- **C11 violated**: on the conjugated one-element step-0 view holding `-i`, `minElement()`
returns `i`. -/
theorem minElement_step0_violated :
    ∃ (v : VView) (m : Mem GaussianInt), v.WF ∧ v.Holds m (fun _ => ⟨0, -1⟩) ∧
      v.minElement (fun z => z.re) m = some (⟨0, 1⟩, 0) := by
  refine ⟨⟨0, 1, 0, true⟩, fun a => if a = 0 then some ⟨0, 1⟩ else none, Or.inr rfl, ?_, ?_⟩
  · intro i hi
    have : i = 0 := by simpa using hi
    subst this
    simp only [VView.cref, VView.addr, Mem.read, cj]
    decide
  · decide

/-! ### C12 -/

/-- **C12** `sumElements` (partial: conjugated views with step 0 are excluded, see
`sumElements_step0_violated`). -/
theorem sumElements_spec_partial [CommRing K] [StarRing K] (v : VView) (m : Mem K) (x : Nat → K)
    (hx : v.Holds m x) (hw : v.WF) (hs : v.step ≠ 0 ∨ v.conj = false) :
    v.sumElements m = some (∑ i ∈ Finset.range v.size, x i) := by
  have key : ∀ (w : VView) (y : Nat → K), w.Holds m y → w.WF → (w.step ≠ 0 ∨ w.conj = false) →
      w.sumElementsNonneg m = some (∑ i ∈ Finset.range w.size, y i) := by
    intro w y hy hw hs
    unfold VView.sumElementsNonneg
    by_cases h0 : w.size = 0
    · simp [h0]
    rw [if_neg h0]
    have hf := loopFold_spec (fun a b : K => a + b) w.step w.size w.ptr m 0 _ hy.raw
    rw [foldl_range_sum, zero_add] at hf
    have hmap : (loopFold (fun a b : K => a + b) w.step w.size w.ptr m 0).map (cj w.conj) =
        some (∑ i ∈ Finset.range w.size, y i) := by
      rw [hf, Option.map_some]
      congr 1
      cases w.conj
      · simp [cj]
      · simp [cj, star_sum]
    by_cases h1 : w.step = 1
    · rw [if_pos h1]; rw [h1] at hmap; exact hmap
    rw [if_neg h1]
    by_cases hz : w.step = 0
    · rw [if_pos hz]
      have hs1 : w.size = 1 := by rcases hw with h | h; exact absurd hz h; exact h
      have hc : w.conj = false := by rcases hs with h | h; exact absurd hz h; exact h
      have hr0 : m w.ptr = some (cj w.conj (y 0)) := by simpa using hy.raw 0 (by omega)
      simp [Mem.read, hr0, hs1, hc, cj]
    · rw [if_neg hz]; exact hmap
  unfold VView.sumElements
  split
  · rw [key v.reverse _ hx.reverse hw.reverse (by simpa [VView.reverse] using hs)]
    congr 1
    exact Finset.sum_range_reflect x v.size
  · exact key v x hx hw hs

/-- **C12 violated**: `sumElements()` of the conjugated one-element step-0 view holding `-i` is `i`. -/
theorem sumElements_step0_violated :
    ∃ (v : VView) (m : Mem GaussianInt), v.WF ∧ v.Holds m (fun _ => ⟨0, -1⟩) ∧
      v.sumElements m = some ⟨0, 1⟩ := by
  refine ⟨⟨0, 1, 0, true⟩, fun a => if a = 0 then some ⟨0, 1⟩ else none, Or.inr rfl, ?_, ?_⟩
  · intro i hi
    have : i = 0 := by simpa using hi
    subst this
    simp only [VView.cref, VView.addr, Mem.read, cj]
    decide
  · decide

/-- **C12** `normSq(scale)` is the sum of `|scale*v(i)|²`, for every step and conj flag. -/
theorem normSq_spec {R : Type _} [CommRing R] [DecidableEq R] [InvolutiveStar K] (nrm : K → R)
    (scal : R → K → K) (hn : ∀ y, nrm (star y) = nrm y)
    (hsc : ∀ c y, nrm (scal c y) = c ^ 2 * nrm y)
    (scale : R) (v : VView) (m : Mem K) (x : Nat → K) (hx : v.Holds m x) (hw : v.WF) :
    v.normSq nrm scal scale m = some (∑ i ∈ Finset.range v.size, scale ^ 2 * nrm (x i)) := by
  have hcj : ∀ c y, nrm (cj c y) = nrm y := by intro c y; cases c <;> simp [cj, hn]
  have key : ∀ (w : VView) (y : Nat → K), w.Holds m y → w.WF →
      w.normSqNonneg nrm scal scale m = some (∑ i ∈ Finset.range w.size, scale ^ 2 * nrm (y i)) := by
    intro w y hy hw
    unfold VView.normSqNonneg
    by_cases h0 : w.size = 0
    · simp [h0]
    rw [if_neg h0]
    have hf1 : scale = 1 → loopFold (fun b x => b + nrm x) w.step w.size w.ptr m 0 =
        some (∑ i ∈ Finset.range w.size, scale ^ 2 * nrm (y i)) := by
      intro h1
      rw [loopFold_spec _ w.step w.size w.ptr m 0 _ hy.raw,
        foldl_range_sum (fun i => nrm (cj w.conj (y i))), zero_add]
      simp [h1, hcj]
    have hf2 : loopFold (fun b x => b + nrm (scal scale x)) w.step w.size w.ptr m 0 =
        some (∑ i ∈ Finset.range w.size, scale ^ 2 * nrm (y i)) := by
      rw [loopFold_spec _ w.step w.size w.ptr m 0 _ hy.raw,
        foldl_range_sum (fun i => nrm (scal scale (cj w.conj (y i)))), zero_add]
      simp [hsc, hcj]
    by_cases h1 : w.step = 1
    · rw [if_pos h1]
      rw [h1] at hf1 hf2
      split
      · exact hf1 (by assumption)
      · exact hf2
    rw [if_neg h1]
    by_cases hz : w.step = 0
    · rw [if_pos hz]
      have hs1 : w.size = 1 := by rcases hw with h | h; exact absurd hz h; exact h
      have hr0 : m w.ptr = some (cj w.conj (y 0)) := by simpa using hy.raw 0 (by omega)
      simp [Mem.read, hr0, hs1, hsc, hcj]
    · rw [if_neg hz]
      split
      · exact hf1 (by assumption)
      · exact hf2
  unfold VView.normSq
  split
  · rw [key v.reverse _ hx.reverse hw.reverse]
    congr 1
    exact Finset.sum_range_reflect (fun i => scale ^ 2 * nrm (x i)) v.size
  · exact key v x hx hw

/-- **C12** `sumAbsElements` / `sumAbs2Elements`. -/
theorem sumAbs_spec {R : Type _} [CommRing R] [InvolutiveStar K] (ab : K → R)
    (hab : ∀ y, ab (star y) = ab y) (v : VView) (m : Mem K) (x : Nat → K) (hx : v.Holds m x)
    (hw : v.WF) :
    v.sumAbs ab m = some (∑ i ∈ Finset.range v.size, ab (x i)) := by
  have hcj : ∀ c y, ab (cj c y) = ab y := by intro c y; cases c <;> simp [cj, hab]
  have key : ∀ (w : VView) (y : Nat → K), w.Holds m y →
      loopFold (fun b x => b + ab x) w.step w.size w.ptr m 0 =
        some (∑ i ∈ Finset.range w.size, ab (y i)) := by
    intro w y hy
    rw [loopFold_spec _ w.step w.size w.ptr m 0 _ hy.raw,
      foldl_range_sum (fun i => ab (cj w.conj (y i))), zero_add]
    simp [hcj]
  unfold VView.sumAbs
  by_cases h0 : v.size = 0
  · simp [h0]
  rw [if_neg h0]
  by_cases hp : v.step > 0
  · rw [if_pos hp]; exact key v x hx
  rw [if_neg hp]
  by_cases hn : v.step < 0
  · rw [if_pos hn, key v.reverse _ hx.reverse]
    congr 1
    exact Finset.sum_range_reflect (fun i => ab (x i)) v.size
  · rw [if_neg hn]
    have hs1 : v.size = 1 := by rcases hw with h | h; omega; exact h
    have hr0 : m v.ptr = some (cj v.conj (x 0)) := by simpa using hx.raw 0 (by omega)
    simp [Mem.read, hr0, hs1, hcj]

/-! ### C13 -/

theorem rescaleLoop_spec (more : ℝ → Bool) (f : ℝ) (hf : 0 < f) (N : Nat) :
    ∀ (scale vmax : ℝ), 0 < scale → more (vmax * f ^ N) = false →
      ∀ fuel, N < fuel → ∃ s, VView.rescaleLoop more f fuel scale vmax = some s ∧ 0 < s := by
  induction N with
  | zero =>
    intro scale vmax hs hm fuel hfuel
    cases fuel with
    | zero => omega
    | succ fuel => exact ⟨scale, by simp only [pow_zero, mul_one] at hm; simp [VView.rescaleLoop, hm], hs⟩
  | succ N ih =>
    intro scale vmax hs hm fuel hfuel
    cases fuel with
    | zero => omega
    | succ fuel =>
      simp only [VView.rescaleLoop]
      split
      · exact ih (scale * f) (vmax * f) (mul_pos hs hf) (by rw [← hm]; congr 1; ring) fuel (by omega)
      · exact ⟨scale, rfl, hs⟩

/-- **C13**.  In exact arithmetic `norm2()` terminates and equals the Euclidean norm whichever
rescaling branch is taken: `uflow` (underflow test) and `invZero` (overflow test) are arbitrary
predicates, except that no element is "infinite" (`invZero vmax = false`, the branch that
returns `inf`).  `eps` is any number in (0,1).  The elements may be real or complex: `nrm` is
`|x|²`, `ab2` is `|re|+|im|`. -/
theorem norm2_spec [InvolutiveStar K] (eps : ℝ) (he0 : 0 < eps) (he1 : eps < 1)
    (uflow invZero : ℝ → Bool) (ab2 nrm : K → ℝ) (scal : ℝ → K → K)
    (hn : ∀ y, nrm (star y) = nrm y) (hsc : ∀ c y, nrm (scal c y) = c ^ 2 * nrm y)
    (hab : ∀ y, ab2 (star y) = ab2 y) (hab0 : ∀ y, 0 ≤ ab2 y) (habz : ∀ y, ab2 y = 0 → nrm y = 0)
    (v : VView) (m : Mem K) (x : Nat → K) (hx : v.Holds m x) (hw : v.WF)
    (hfin : ∀ i, i < v.size → invZero (ab2 (x i)) = false) :
    ∃ N, ∀ fuel, N ≤ fuel →
      v.norm2 eps uflow invZero Real.sqrt ab2 nrm scal fuel m =
        some (Real.sqrt (∑ i ∈ Finset.range v.size, nrm (x i))) := by
  have root : ∀ (n : Nat) (y : Nat → K) (s : ℝ), 0 < s →
      Real.sqrt (∑ i ∈ Finset.range n, s ^ 2 * nrm (y i)) / s =
        Real.sqrt (∑ i ∈ Finset.range n, nrm (y i)) := by
    intro n y s hs
    rw [← Finset.mul_sum, Real.sqrt_mul (by positivity), Real.sqrt_sq hs.le]
    field_simp
  have key : ∀ (w : VView) (y : Nat → K), w.Holds m y → w.WF → 0 < w.size →
      (∀ i, i < w.size → invZero (ab2 (y i)) = false) →
      ∃ N, ∀ fuel, N ≤ fuel → w.doNorm2 eps uflow invZero Real.sqrt ab2 nrm scal fuel m =
        some (Real.sqrt (∑ i ∈ Finset.range w.size, nrm (y i))) := by
    intro w y hy hw h0 hfin
    obtain ⟨j, hj, hj1, hj2⟩ := maxAbs_spec ab2 hab w m y hy h0 hw
    have hsq := fun s => normSq_spec nrm scal hn hsc s w m y hy hw
    by_cases hz : ab2 (y j) = 0
    · refine ⟨0, fun fuel _ => ?_⟩
      simp only [VView.doNorm2, hj1, Option.map_some, Option.bind_eq_bind, Option.bind_some, hz, if_true]
      have : ∑ i ∈ Finset.range w.size, nrm (y i) = 0 := by
        apply Finset.sum_eq_zero
        intro i hi
        apply habz
        have := hj2 i (Finset.mem_range.mp hi)
        rw [hz] at this
        exact le_antisymm this (hab0 _)
      simp [this]
    · have hpos : 0 < ab2 (y j) := lt_of_le_of_ne (hab0 _) (Ne.symm hz)
      have hinv : 1 < 1 / eps := by rw [one_div]; exact (one_lt_inv₀ he0).mpr he1
      have hinv0 : 0 < 1 / eps := by positivity
      -- underflow loop bound
      obtain ⟨N1, hN1⟩ := pow_unbounded_of_one_lt (eps * eps / (ab2 (y j) * (1 / eps))) hinv
      obtain ⟨N2, hN2⟩ := exists_pow_lt_of_lt_one (show 0 < (1 / eps) / (ab2 (y j) * eps) by positivity) he1
      refine ⟨max N1 N2 + 1, fun fuel hf => ?_⟩
      have hf1 : N1 < fuel := by omega
      have hf2 : N2 < fuel := by omega
      simp only [VView.doNorm2, hj1, Option.map_some, Option.bind_eq_bind, Option.bind_some, hz, if_false]
      obtain ⟨s1, hs1, hs1'⟩ := rescaleLoop_spec (fun x => decide (x < eps * eps)) (1 / eps) hinv0 N1
        (1 / eps) (ab2 (y j) * (1 / eps)) hinv0 (by
          simp only [decide_eq_false_iff_not, not_lt]
          rw [div_lt_iff₀ (by positivity)] at hN1
          linarith) fuel hf1
      obtain ⟨s2, hs2, hs2'⟩ := rescaleLoop_spec (fun x => decide (x > 1 / eps)) eps he0 N2
        eps (ab2 (y j) * eps) he0 (by
          simp only [decide_eq_false_iff_not, not_lt]
          rw [lt_div_iff₀ (by positivity)] at hN2
          linarith) fuel hf2
      split
      · simp only [hs1, hsq, Option.bind_some, root _ _ _ hs1']
        rfl
      · rw [if_neg (by simp [hfin j hj])]
        split
        · simp only [hs2, hsq, Option.bind_some, root _ _ _ hs2']
          rfl
        · simp [hsq]
  unfold VView.norm2
  by_cases h0 : v.size = 0
  · exact ⟨0, fun fuel _ => by simp [h0]⟩
  simp only [if_neg h0]
  split
  · obtain ⟨N, hN⟩ := key v.reverse _ hx.reverse hw.reverse (by show 0 < v.size; omega)
      (fun i hi => hfin _ (by show v.size - 1 - i < v.size; have : i < v.size := hi; omega))
    refine ⟨N, fun fuel hf => ?_⟩
    rw [hN fuel hf]
    congr 2
    exact Finset.sum_range_reflect (fun i => nrm (x i)) v.size
  · exact key v x hx hw (by omega) hfin

/-- The hypotheses of `norm2_spec` hold for complex numbers with the library's own `TMV_NORM`,
`TMV_ABS2`; the underflow test is left arbitrary. -/
example (m : Mem ℂ) (v : VView) (x : Nat → ℂ) (hx : v.Holds m x) (hw : v.WF) (uflow : ℝ → Bool) :
    ∃ N, ∀ fuel, N ≤ fuel →
      v.norm2 (1/2) uflow (fun _ => false) Real.sqrt
        (fun z => |z.re| + |z.im|) Complex.normSq (fun c z => (c : ℂ) * z) fuel m =
        some (Real.sqrt (∑ i ∈ Finset.range v.size, Complex.normSq (x i))) := by
  apply norm2_spec
  · norm_num
  · norm_num
  · intro y; simp
  · intro c y; simp [Complex.normSq_mul, Complex.normSq_ofReal]; ring_nf; simp
  · intro y; simp
  · intro y; positivity
  · intro y hy
    have h1 : y.re = 0 := by have := abs_nonneg y.re; have := abs_nonneg y.im; exact abs_eq_zero.mp (by linarith)
    have h2 : y.im = 0 := by have := abs_nonneg y.re; have := abs_nonneg y.im; exact abs_eq_zero.mp (by linarith)
    simp [Complex.normSq_apply, h1, h2]
  · exact hx
  · exact hw
  · intro i _; rfl

end TMV
