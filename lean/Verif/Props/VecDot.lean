import Verif.Props.VecArith

/-!
Property C69: the product `v1*v2`.
-/
namespace TMV
variable {K : Type _}
section
variable [CommRing K] [DecidableEq K] [StarRing K]

private theorem stepEq (p s : Int) (i : Nat) : p + ((i + 1 : Nat) : Int) * s = p + s + i * s := by
  push_cast; ring

omit [DecidableEq K] in
theorem dotLoop_spec (c2 : Bool) (s1 s2 : Int) (m : Mem K) :
    ∀ (n : Nat) (p1 p2 : Int) (r : K) (p q : Nat → K),
      (∀ i : Nat, i < n → m (p1 + i * s1) = some (p i)) → (∀ i : Nat, i < n → m (p2 + i * s2) = some (q i)) →
      VView.dotLoop c2 s1 s2 m n p1 p2 r = some (r + ∑ i ∈ Finset.range n, p i * cj c2 (q i)) := by
  intro n
  induction n with
  | zero => intro p1 p2 r p q _ _; simp [VView.dotLoop]
  | succ n ih =>
    intro p1 p2 r p q h1 h2
    have a := h1 0 (by omega)
    have b := h2 0 (by omega)
    simp only [Nat.cast_zero, zero_mul, add_zero] at a b
    simp only [VView.dotLoop, Mem.read, a, b, Option.bind_eq_bind, Option.bind_some]
    rw [ih (p1+s1) (p2+s2) _ (fun i => p (i+1)) (fun i => q (i+1))
      (fun i hi => by rw [← stepEq]; exact h1 (i+1) (by omega))
      (fun i hi => by rw [← stepEq]; exact h2 (i+1) (by omega)), Finset.sum_range_succ']
    congr 1; ring

omit [DecidableEq K] in
theorem dotLoop4_spec (c2 : Bool) (m : Mem K) :
    ∀ (n : Nat) (p1 p2 : Int) (r : K) (p q : Nat → K),
      (∀ i : Nat, i < 4*n → m (p1 + i) = some (p i)) → (∀ i : Nat, i < 4*n → m (p2 + i) = some (q i)) →
      VView.dotLoop4 c2 m n p1 p2 r = some (r + ∑ i ∈ Finset.range (4*n), p i * cj c2 (q i)) := by
  intro n
  induction n with
  | zero => intro p1 p2 r p q _ _; simp [VView.dotLoop4]
  | succ n ih =>
    intro p1 p2 r p q h1 h2
    have a0 := h1 0 (by omega)
    have b0 := h2 0 (by omega)
    have a1 := h1 1 (by omega)
    have b1 := h2 1 (by omega)
    have a2 := h1 2 (by omega)
    have b2 := h2 2 (by omega)
    have a3 := h1 3 (by omega)
    have b3 := h2 3 (by omega)
    simp only [Nat.cast_zero, add_zero, Nat.cast_one, Nat.cast_ofNat] at a0 b0 a1 b1 a2 b2 a3 b3
    simp only [VView.dotLoop4, Mem.read, a0, b0, a1, b1, a2, b2, a3, b3, Option.bind_eq_bind, Option.bind_some]
    rw [ih (p1+4) (p2+4) _ (fun i => p (i+4)) (fun i => q (i+4))
      (fun i hi => by rw [← h1 (i+4) (by omega)]; congr 1; push_cast; ring)
      (fun i hi => by rw [← h2 (i+4) (by omega)]; congr 1; push_cast; ring),
      show 4 * (n+1) = 4*n+1+1+1+1 from by ring, Finset.sum_range_succ', Finset.sum_range_succ',
      Finset.sum_range_succ', Finset.sum_range_succ']
    congr 1; ring

omit [DecidableEq K] in
theorem dotRec_spec (bs : Nat) (unit c2 : Bool) (m : Mem K) :
    ∀ (n : Nat) (v w : VView) (p q : Nat → K), v.size = n → w.size = n →
      (unit = true → v.step = 1 ∧ w.step = 1) →
      (∀ i : Nat, i < n → m (v.addr i) = some (p i)) → (∀ i : Nat, i < n → m (w.addr i) = some (q i)) →
      VView.dotRec bs unit c2 v w m = some (∑ i ∈ Finset.range n, p i * cj c2 (q i)) := by
  intro n
  induction n using Nat.strong_induction_on with
  | _ n ih =>
    intro v w p q hv hw hu h1 h2
    rw [VView.dotRec]
    by_cases h : v.size > bs + 1
    · rw [dif_pos h]
      dsimp only
      have hn2 : v.size / 2 ≤ v.size := Nat.div_le_self _ _
      rw [hv]
      rw [ih (n/2) (by omega) (v.subVector2 0 (n/2 : Nat)) (w.subVector2 0 (n/2 : Nat)) p q
          (by simp only [VView.subVector2]; omega) (by simp only [VView.subVector2]; omega) hu
          (fun i hi => by
            rw [← h1 i (by omega)]; congr 1; simp only [VView.subVector2, VView.addr]; ring)
          (fun i hi => by
            rw [← h2 i (by omega)]; congr 1; simp only [VView.subVector2, VView.addr]; ring),
        Option.bind_some,
        ih (n - n/2) (by omega) (v.subVector2 (n/2 : Nat) n) (w.subVector2 (n/2 : Nat) n)
          (fun i => p (n/2 + i)) (fun i => q (n/2 + i))
          (by simp only [VView.subVector2]; omega) (by simp only [VView.subVector2]; omega) hu
          (fun i hi => by
            rw [← h1 (n/2 + i) (by omega)]; congr 1; simp only [VView.subVector2, VView.addr]; push_cast; ring)
          (fun i hi => by
            rw [← h2 (n/2 + i) (by omega)]; congr 1; simp only [VView.subVector2, VView.addr]; push_cast; ring),
        Option.bind_some, ← Finset.sum_range_add]
      congr 3; omega
    · rw [dif_neg h]
      by_cases hun : unit = true
      · rw [if_pos hun]
        obtain ⟨s1, s2⟩ := hu hun
        dsimp only
        have r1 : ∀ i : Nat, i < n → m (v.ptr + i) = some (p i) := fun i hi => by
          have := h1 i hi; rwa [VView.addr, s1, mul_one] at this
        have r2 : ∀ i : Nat, i < n → m (w.ptr + i) = some (q i) := fun i hi => by
          have := h2 i hi; rwa [VView.addr, s2, mul_one] at this
        rw [hv, dotLoop4_spec c2 m (n/4) v.ptr w.ptr 0 p q (fun i hi => r1 i (by omega)) (fun i hi => r2 i (by omega)),
          Option.bind_some, dotLoop_spec c2 1 1 m (n - 4*(n/4)) _ _ _ (fun i => p (4*(n/4) + i))
            (fun i => q (4*(n/4) + i))
            (fun i hi => by rw [← r1 (4*(n/4)+i) (by omega)]; congr 1; push_cast; ring)
            (fun i hi => by rw [← r2 (4*(n/4)+i) (by omega)]; congr 1; push_cast; ring), zero_add,
          ← Finset.sum_range_add]
        congr 3; omega
      · rw [if_neg hun, hv, dotLoop_spec c2 v.step w.step m n v.ptr w.ptr 0 p q h1 h2, zero_add]

omit [DecidableEq K] in
private theorem doMulVV_spec (bs : Nat) (v w : VView) (m : Mem K) (x y : Nat → K) (hn : v.size = w.size)
    (hc : v.conj = false) (hv : v.Holds m x) (hw : w.Holds m y) :
    VView.doMulVV bs v w m = some (∑ i ∈ Finset.range w.size, x i * y i) := by
  unfold VView.doMulVV
  rw [dotRec_spec bs _ w.conj m w.size v w x (fun i => cj w.conj (y i)) hn rfl
    (by intro h; simpa using h) (fun i hi => by have := hv.rawA i (by omega); rwa [hc] at this) hw.rawA]
  congr 1
  apply Finset.sum_congr rfl
  intro i _; rw [cj_cj]

/-- `normSq()` without a scale. -/
theorem normSq_one (nrm : K → K) (hnrm : ∀ a, nrm (star a) = nrm a) (v : VView) (m : Mem K) (x : Nat → K)
    (hv : v.Holds m x) :
    v.normSq nrm (· * ·) 1 m = some (∑ i ∈ Finset.range v.size, nrm (x i)) := by
  have hcj : ∀ c y, nrm (cj c y) = nrm y := by intro c y; cases c <;> simp [cj, hnrm]
  have key : ∀ (w : VView) (y : Nat → K), w.Holds m y →
      w.normSqNonneg nrm (· * ·) 1 m = some (∑ i ∈ Finset.range w.size, nrm (y i)) := by
    intro w y hy
    unfold VView.normSqNonneg
    by_cases h0 : w.size = 0
    · simp [h0]
    rw [if_neg h0]
    have hf1 : loopFold (fun b x => b + nrm x) w.step w.size w.ptr m 0 =
        some (∑ i ∈ Finset.range w.size, nrm (y i)) := by
      rw [loopFold_spec _ w.step w.size w.ptr m 0 _ hy.raw,
        foldl_range_sum (fun i => nrm (cj w.conj (y i))), zero_add]
      simp [hcj]
    by_cases h1 : w.step = 1
    · rw [if_pos h1, if_pos rfl, ← h1]; exact hf1
    rw [if_neg h1]
    by_cases hz : w.step = 0
    · rw [if_pos hz]
      have hr : ∀ i, i < w.size → m w.ptr = some (cj w.conj (y i)) := fun i hi => by
        have := hy.raw i hi; rwa [hz, mul_zero, add_zero] at this
      have hr0 := hr 0 (by omega)
      have : ∑ i ∈ Finset.range w.size, nrm (y i) = ∑ i ∈ Finset.range w.size, nrm (y 0) := by
        apply Finset.sum_congr rfl
        intro i hi
        have := hr0.symm.trans (hr i (Finset.mem_range.mp hi))
        rw [Option.some_inj] at this
        rw [← hcj w.conj, ← hcj w.conj (y 0), this]
      simp [Mem.read, hr0, hcj, this]
    · rw [if_neg hz, if_pos rfl]; exact hf1
  unfold VView.normSq
  split
  · rw [key v.reverse _ hv.reverse]
    congr 1
    exact Finset.sum_range_reflect (fun i => nrm (x i)) v.size
  · exact key v x hv

/-- **C69** (`v*w`).  The product is the sum of the products of corresponding elements (no conjugation but
that of the views), for every size, step, conjugation and recursion size; the operands may be aliased in any way. -/
theorem mulVV_spec (bs : Nat) (nrm : K → K) (hnrm : ∀ a, nrm a = a * star a) (v w : VView) (m : Mem K)
    (x y : Nat → K) (hn : v.size = w.size) (hv : v.Holds m x) (hw : w.Holds m y) :
    VView.mulVV bs nrm v w m = some (∑ i ∈ Finset.range v.size, x i * y i) := by
  have starsum : ∀ n, star (∑ i ∈ Finset.range n, star (x i) * star (y i)) = ∑ i ∈ Finset.range n, x i * y i := by
    intro n; rw [star_sum]; apply Finset.sum_congr rfl; intro i _; rw [star_mul', star_star, star_star]
  have starsum' : ∀ n, star (∑ i ∈ Finset.range n, star (x (n-1-i)) * star (y (n-1-i))) =
      ∑ i ∈ Finset.range n, x i * y i := by
    intro n; rw [Finset.sum_range_reflect (fun i => star (x i) * star (y i)) n]; exact starsum n
  unfold VView.mulVV
  by_cases h0 : v.size > 0
  swap
  · rw [if_neg h0, show v.size = 0 by omega]; rfl
  rw [if_pos h0]
  by_cases hs : w.isSameAs v.conjugate = true
  · rw [if_pos hs]
    simp only [VView.isSameAs, decide_eq_true_eq] at hs
    rw [normSq_one nrm (fun a => by rw [hnrm, hnrm, star_star, mul_comm]) v m x hv]
    congr 1
    apply Finset.sum_congr rfl
    intro i hi
    have h1 := VView.Holds.conjugate.mp hv i (Finset.mem_range.mp hi)
    rw [← hs, hw i (by rw [← hn]; exact Finset.mem_range.mp hi), Option.some_inj] at h1
    rw [hnrm, h1]
  rw [if_neg hs]
  by_cases hr : VView.shouldReverse v.step w.step = true
  · rw [if_pos hr]
    by_cases hc : v.conj = true
    · rw [if_pos hc, doMulVV_spec bs v.reverse.conjugate w.reverse.conjugate m _ _ hn
        (by simp [VView.conjugate, VView.reverse, hc]) (VView.Holds.conjugate.mp hv.reverse)
        (VView.Holds.conjugate.mp hw.reverse), Option.map_some, ← starsum' v.size, hn]
      rfl
    · rw [if_neg hc, doMulVV_spec bs v.reverse w.reverse m _ _ hn
        (by simpa [VView.reverse] using hc) hv.reverse hw.reverse,
        ← Finset.sum_range_reflect (fun i => x i * y i) v.size, hn]
      rfl
  · rw [if_neg hr]
    by_cases hc : v.conj = true
    · rw [if_pos hc, doMulVV_spec bs v.conjugate w.conjugate m _ _ hn
        (by simp [VView.conjugate, hc]) (VView.Holds.conjugate.mp hv)
        (VView.Holds.conjugate.mp hw), Option.map_some, ← starsum v.size, hn]
      rfl
    · rw [if_neg hc, doMulVV_spec bs v w m _ _ hn (by simpa using hc) hv hw, hn]

end
end TMV
