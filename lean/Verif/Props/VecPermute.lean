import Verif.Lemmas.Vec
import Verif.Props.VecOps
import Mathlib.NumberTheory.Zsqrtd.GaussianInt

/-! Properties C07, C08: reverseSelf, swap, permute, reversePermute. -/
namespace TMV
variable {K : Type _}

/-- **C08** building block: `v.swap(i,j)` exchanges exactly the two elements. -/
theorem swap_spec (v : VView) (m : Mem K) (i j : Nat) (hw : v.WF) (hl : v.Live m)
    (hi : i < v.size) (hj : j < v.size) :
    ∃ m', v.swap i j m = some m' ∧
      (∀ k : Nat, k < v.size → m' (v.addr k) = m (v.addr (Equiv.swap i j k))) ∧
      v.Frame m m' := by
  unfold VView.swap
  by_cases hij : (i : Int) = j
  · have : i = j := by omega
    subst this
    exact ⟨m, by simp, by simp, fun _ _ => rfl⟩
  · have hij' : i ≠ j := by omega
    have e : (if v.step = 1 then m.swap (v.ptr + i) (v.ptr + j)
        else m.swap (v.ptr + i * v.step) (v.ptr + j * v.step)) = m.swap (v.addr i) (v.addr j) := by
      simp only [VView.addr]
      split
      · rename_i h; simp [h]
      · rfl
    rw [if_pos hij, e, Mem.swap_of_isSome (hl i hi) (hl j hj)]
    refine ⟨_, rfl, ?_, ?_⟩
    · intro k hk
      by_cases hkj : k = j
      · subst hkj; simp
      · have h1 : v.addr k ≠ v.addr j := fun h => hkj (hw.inj.addr_inj hk hj h)
        by_cases hki : k = i
        · subst hki; simp [h1]
        · have h2 : v.addr k ≠ v.addr i := fun h => hki (hw.inj.addr_inj hk hi h)
          simp [h1, h2, Equiv.swap_apply_of_ne_of_ne hki hkj]
    · intro a ha
      have h1 : a ≠ v.addr j := fun h => ha ⟨j, hj, h⟩
      have h2 : a ≠ v.addr i := fun h => ha ⟨i, hi, h⟩
      simp [h1, h2]

theorem Equiv.swap_lt {i j k n : Nat} (hi : i < n) (hj : j < n) (hk : k < n) :
    Equiv.swap i j k < n := by
  rw [Equiv.swap_apply_def]; split_ifs <;> assumption

theorem swapProd_lt (p : Nat → Nat) (n i N : Nat) (hin : i + n ≤ N)
    (hp : ∀ k, i ≤ k → k < i + n → p k < N) (k : Nat) (hk : k < N) : swapProd p n i k < N := by
  induction n generalizing i with
  | zero => simpa [swapProd] using hk
  | succ n ih =>
    simp only [swapProd, Equiv.Perm.mul_apply]
    exact Equiv.swap_lt (by omega) (hp i (by omega) (by omega))
      (ih (i+1) (by omega) (fun k h1 h2 => hp k (by omega) (by omega)))

theorem VView.Live.of_rearr {v : VView} {m m' : Mem K} {σ : Nat → Nat} (hl : v.Live m)
    (hσ : ∀ k, k < v.size → σ k < v.size)
    (h : ∀ k : Nat, k < v.size → m' (v.addr k) = m (v.addr (σ k))) : v.Live m' := by
  intro k hk; rw [h k hk]; exact hl _ (hσ k hk)

theorem permuteLoop_spec (v : VView) (p : Nat → Nat) (hw : v.WF) :
    ∀ (n i : Nat) (m : Mem K), v.Live m → i + n ≤ v.size →
      (∀ k, i ≤ k → k < i + n → p k < v.size) →
      ∃ m', v.permuteLoop p n i m = some m' ∧
        (∀ k : Nat, k < v.size → m' (v.addr k) = m (v.addr (swapProd p n i k))) ∧
        v.Frame m m' := by
  intro n
  induction n with
  | zero => intro i m _ _ _; exact ⟨m, rfl, by simp [swapProd], fun _ _ => rfl⟩
  | succ n ih =>
    intro i m hl hin hp
    obtain ⟨m1, h1, h2, h3⟩ := swap_spec v m i (p i) hw hl (by omega) (hp i (by omega) (by omega))
    have hl1 : v.Live m1 := hl.of_rearr
      (fun k hk => Equiv.swap_lt (by omega) (hp i (by omega) (by omega)) hk) h2
    obtain ⟨m2, h4, h5, h6⟩ := ih (i+1) m1 hl1 (by omega) (fun k a b => hp k (by omega) (by omega))
    refine ⟨m2, by simp only [VView.permuteLoop, h1, Option.bind_eq_bind, Option.bind_some, h4], ?_, ?_⟩
    · intro k hk
      rw [h5 k hk, h2 _ (swapProd_lt p n (i+1) v.size (by omega)
        (fun k a b => hp k (by omega) (by omega)) k hk)]
      simp [swapProd, Equiv.Perm.mul_apply]
    · intro a ha; rw [h6 a ha, h3 a ha]

/-- **C08**.  `v.permute(p,i1,i2)` is defined for every valid interchange list and rearranges the
elements by the product of the transpositions; nothing outside `v` changes. -/
theorem permute_spec (v : VView) (p : Nat → Nat) (i1 i2 : Nat) (m : Mem K) (hw : v.WF)
    (hl : v.Live m) (h12 : i1 ≤ i2) (h2 : i2 ≤ v.size)
    (hp : ∀ k, i1 ≤ k → k < i2 → p k < v.size) :
    ∃ m', v.permute p i1 i2 m = some m' ∧
      (∀ k : Nat, k < v.size → m' (v.addr k) = m (v.addr (swapProd p (i2 - i1) i1 k))) ∧
      v.Frame m m' :=
  permuteLoop_spec v p hw (i2 - i1) i1 m hl (by omega) (fun k a b => hp k a (by omega))

/-- Peeling the last transposition off the product. -/
theorem swapProd_snoc (p : Nat → Nat) (n i : Nat) :
    swapProd p (n+1) i = swapProd p n i * Equiv.swap (i+n) (p (i+n)) := by
  induction n generalizing i with
  | zero => simp [swapProd]
  | succ n ih =>
    conv_lhs => rw [swapProd]
    rw [ih (i+1)]
    conv_rhs => rw [swapProd]
    rw [mul_assoc, show i + 1 + n = i + (n + 1) by omega]

theorem swapProd_inv_lt (p : Nat → Nat) (n i N : Nat) (hin : i + n ≤ N)
    (hp : ∀ k, i ≤ k → k < i + n → p k < N) (k : Nat) (hk : k < N) : (swapProd p n i)⁻¹ k < N := by
  induction n generalizing k with
  | zero => simpa [swapProd] using hk
  | succ n ih =>
    rw [swapProd_snoc, mul_inv_rev, Equiv.swap_inv, Equiv.Perm.mul_apply]
    exact Equiv.swap_lt (by omega) (hp _ (by omega) (by omega))
      (ih (by omega) (fun k a b => hp k (by omega) (by omega)) k hk)

theorem reversePermuteLoop_spec (v : VView) (p : Nat → Nat) (i1 : Nat) (hw : v.WF) :
    ∀ (n : Nat) (m : Mem K), v.Live m → i1 + n ≤ v.size →
      (∀ k, i1 ≤ k → k < i1 + n → p k < v.size) →
      ∃ m', v.reversePermuteLoop p i1 n m = some m' ∧
        (∀ k : Nat, k < v.size → m' (v.addr k) = m (v.addr ((swapProd p n i1)⁻¹ k : Nat))) ∧
        v.Frame m m' := by
  intro n
  induction n with
  | zero => intro m _ _ _; exact ⟨m, rfl, by simp [swapProd], fun _ _ => rfl⟩
  | succ n ih =>
    intro m hl hin hp
    obtain ⟨m1, h1, h2, h3⟩ := swap_spec v m (i1+n) (p (i1+n)) hw hl (by omega)
      (hp _ (by omega) (by omega))
    have hl1 : v.Live m1 := hl.of_rearr
      (fun k hk => Equiv.swap_lt (by omega) (hp _ (by omega) (by omega)) hk) h2
    obtain ⟨m2, h4, h5, h6⟩ := ih m1 hl1 (by omega) (fun k a b => hp k (by omega) (by omega))
    refine ⟨m2, by simp only [VView.reversePermuteLoop, h1, Option.bind_eq_bind, Option.bind_some, h4], ?_, ?_⟩
    · intro k hk
      rw [h5 k hk, h2 _ (swapProd_inv_lt p n i1 v.size (by omega)
        (fun k a b => hp k (by omega) (by omega)) k hk), swapProd_snoc, mul_inv_rev,
        Equiv.swap_inv, Equiv.Perm.mul_apply]
    · intro a ha; rw [h6 a ha, h3 a ha]

/-- **C08**.  `v.reversePermute(p,i1,i2)` applies the inverse rearrangement. -/
theorem reversePermute_spec (v : VView) (p : Nat → Nat) (i1 i2 : Nat) (m : Mem K) (hw : v.WF)
    (hl : v.Live m) (h12 : i1 ≤ i2) (h2 : i2 ≤ v.size)
    (hp : ∀ k, i1 ≤ k → k < i2 → p k < v.size) :
    ∃ m', v.reversePermute p i1 i2 m = some m' ∧
      (∀ k : Nat, k < v.size → m' (v.addr k) = m (v.addr ((swapProd p (i2 - i1) i1)⁻¹ k : Nat))) ∧
      v.Frame m m' :=
  reversePermuteLoop_spec v p i1 hw (i2 - i1) m hl (by omega) (fun k a b => hp k a (by omega))

theorem Mem.ext_view (v : VView) {m m' : Mem K} (h : ∀ k : Nat, k < v.size → m' (v.addr k) = m (v.addr k))
    (hf : v.Frame m m') : m' = m := by
  funext a
  by_cases ha : v.Covers a
  · obtain ⟨i, hi, rfl⟩ := ha; exact h i hi
  · exact hf a ha

/-- **C08** headline: permute then reversePermute restores the whole memory, and vice versa. -/
theorem permute_reversePermute (v : VView) (p : Nat → Nat) (i1 i2 : Nat) (m : Mem K) (hw : v.WF)
    (hl : v.Live m) (h12 : i1 ≤ i2) (h2 : i2 ≤ v.size)
    (hp : ∀ k, i1 ≤ k → k < i2 → p k < v.size) :
    (v.permute p i1 i2 m).bind (v.reversePermute p i1 i2) = some m ∧
    (v.reversePermute p i1 i2 m).bind (v.permute p i1 i2) = some m := by
  have hp' : ∀ k, i1 ≤ k → k < i1 + (i2 - i1) → p k < v.size := fun k a b => hp k a (by omega)
  have hlt := swapProd_lt p (i2 - i1) i1 v.size (by omega) hp'
  have hltinv := swapProd_inv_lt p (i2 - i1) i1 v.size (by omega) hp'
  constructor
  · obtain ⟨m1, a1, b1, c1⟩ := permute_spec v p i1 i2 m hw hl h12 h2 hp
    obtain ⟨m2, a2, b2, c2⟩ := reversePermute_spec v p i1 i2 m1 hw (hl.of_rearr hlt b1) h12 h2 hp
    rw [a1, Option.bind_some, a2]
    congr 1
    apply Mem.ext_view v
    · intro k hk
      rw [b2 k hk, b1 _ (hltinv k hk)]; simp
    · intro a ha; rw [c2 a ha, c1 a ha]
  · obtain ⟨m1, a1, b1, c1⟩ := reversePermute_spec v p i1 i2 m hw hl h12 h2 hp
    obtain ⟨m2, a2, b2, c2⟩ := permute_spec v p i1 i2 m1 hw (hl.of_rearr hltinv b1) h12 h2 hp
    rw [a1, Option.bind_some, a2]
    congr 1
    apply Mem.ext_view v
    · intro k hk
      rw [b2 k hk, b1 _ (hlt k hk)]; simp
    · intro a ha; rw [c2 a ha, c1 a ha]

/-- Non-vacuity: the interchange list 2,3,2,3 on four elements. -/
example : (∀ k, 0 ≤ k → k < 4 → (fun i => if i % 2 = 0 then 2 else 3) k < 4) ∧
    swapProd (fun i => if i % 2 = 0 then 2 else 3) 4 0 0 = 2 := by
  constructor
  · intro k _ _; dsimp; split <;> omega
  · decide

/-! ### C07 -/

theorem reverseLoop_spec (P s : Int) (hs : 0 < s) :
    ∀ (fuel : Nat) (lo hi : Int) (m : Mem K), hi - lo < 2 * fuel →
      (∀ i, lo ≤ i → i ≤ hi → (m (P + i * s)).isSome) →
      ∃ m', VView.reverseLoop s fuel (P + lo * s) (P + hi * s) m = some m' ∧
        (∀ i, lo ≤ i → i ≤ hi → m' (P + i * s) = m (P + (lo + hi - i) * s)) ∧
        (∀ a, (∀ i, lo ≤ i → i ≤ hi → a ≠ P + i * s) → m' a = m a) := by
  have hlt : ∀ lo hi : Int, P + hi * s > P + lo * s ↔ lo < hi := by
    intro lo hi
    constructor
    · intro h
      by_contra hc
      have : hi * s ≤ lo * s := mul_le_mul_of_nonneg_right (by omega) hs.le
      omega
    · intro h
      have : lo * s < hi * s := mul_lt_mul_of_pos_right h hs
      omega
  have hinj : ∀ i j : Int, P + i * s = P + j * s → i = j := by
    intro i j h
    have : (i - j) * s = 0 := by linarith
    rcases mul_eq_zero.mp this with h | h <;> omega
  have base : ∀ (lo hi : Int) (m : Mem K), ¬ lo < hi →
      (∀ i, lo ≤ i → i ≤ hi → m (P + i * s) = m (P + (lo + hi - i) * s)) := by
    intro lo hi m h i h1 h2
    have : i = lo + hi - i := by omega
    rw [← this]
  intro fuel
  induction fuel with
  | zero =>
    intro lo hi m hf _
    refine ⟨m, ?_, base lo hi m (by omega), fun _ _ => rfl⟩
    simp only [VView.reverseLoop]
    rw [if_neg (by rw [hlt]; omega)]
  | succ fuel ih =>
    intro lo hi m hf hl
    by_cases h : lo < hi
    · have e1 : P + lo * s + s = P + (lo + 1) * s := by ring
      have e2 : P + hi * s - s = P + (hi - 1) * s := by ring
      have hll := hl lo (by omega) (by omega)
      have hlh := hl hi (by omega) (by omega)
      obtain ⟨m', h1, h2, h3⟩ := ih (lo+1) (hi-1)
        (fun c => if c = P + hi * s then m (P + lo * s) else if c = P + lo * s then m (P + hi * s) else m c)
        (by push_cast at hf ⊢; omega)
        (by
          intro i a b
          split
          · exact hll
          split
          · exact hlh
          · exact hl i (by omega) (by omega))
      refine ⟨m', ?_, ?_, ?_⟩
      · simp only [VView.reverseLoop]
        rw [if_pos ((hlt lo hi).mpr h), Mem.swap_of_isSome hll hlh, e1, e2]
        exact h1
      · intro i a b
        by_cases hi1 : i = lo
        · subst hi1
          rw [h3 _ (by intro j c d e; have := hinj _ _ e; omega)]
          have : ¬ (P + i * s = P + hi * s) := fun e => by have := hinj _ _ e; omega
          rw [if_neg this, if_pos rfl]
          congr 2; ring
        by_cases hi2 : i = hi
        · subst hi2
          rw [h3 _ (by intro j c d e; have := hinj _ _ e; omega)]
          rw [if_pos rfl]
          congr 2; ring
        · rw [h2 i (by omega) (by omega)]
          have n1 : ¬ (P + (lo + 1 + (hi - 1) - i) * s = P + hi * s) := fun e => by
            have := hinj _ _ e; omega
          have n2 : ¬ (P + (lo + 1 + (hi - 1) - i) * s = P + lo * s) := fun e => by
            have := hinj _ _ e; omega
          rw [if_neg n1, if_neg n2]
          congr 2; ring
      · intro a ha
        rw [h3 a (fun i c d => ha i (by omega) (by omega))]
        rw [if_neg (ha hi (by omega) le_rfl), if_neg (ha lo le_rfl (by omega))]
    · refine ⟨m, ?_, base lo hi m h, fun _ _ => rfl⟩
      simp only [VView.reverseLoop]
      rw [if_neg (by rw [hlt]; omega)]

/-- **C07**.  After `reverseSelf()` element `i` is the old element `n-1-i`; nothing else changes. -/
theorem reverseSelf_spec [Star K] (v : VView) (m : Mem K) (hw : v.WF) (hl : v.Live m) :
    ∃ m', v.reverseSelf m = some m' ∧
      (∀ i : Nat, i < v.size → v.cref m' i = v.cref m (v.size - 1 - i)) ∧ v.Frame m m' := by
  have key : ∀ w : VView, 0 ≤ w.step → w.WF → w.Live m → ∃ m', w.reverseSelfNonneg m = some m' ∧
      (∀ i : Nat, i < w.size → m' (w.addr i) = m (w.addr (w.size - 1 - i))) ∧ w.Frame m m' := by
    intro w h0 hw hl
    unfold VView.reverseSelfNonneg
    by_cases hs : w.step > 0
    · rw [if_pos hs]
      obtain ⟨m', a, b, c⟩ := reverseLoop_spec w.ptr w.step hs w.size 0 (w.size - 1) m (by omega)
        (by
          intro i h1 h2
          have := hl i.toNat (by omega)
          simp only [VView.addr] at this
          rwa [Int.toNat_of_nonneg h1] at this)
      refine ⟨m', ?_, ?_, ?_⟩
      · rw [← a]
        by_cases h1 : w.step = 1
        · rw [if_pos h1, h1]; congr 1 <;> ring
        · rw [if_neg h1]; congr 1 <;> ring
      · intro i hi
        have := b i (by omega) (by omega)
        simp only [VView.addr]
        rw [this]; congr 2; ring
      · intro x hx
        apply c
        intro i h1 h2 e
        exact hx ⟨i.toNat, by omega, by simp only [VView.addr]; rw [Int.toNat_of_nonneg h1]; exact e⟩
    · rw [if_neg hs]
      have h1 : w.size = 1 := by
        rcases hw with h | h
        · omega
        · exact h
      refine ⟨m, rfl, ?_, fun _ _ => rfl⟩
      intro i hi
      have : i = 0 := by omega
      subst this; simp [h1]
  unfold VView.reverseSelf
  split
  · obtain ⟨m', a, b, c⟩ := key v.reverse (by simp [VView.reverse]; omega) hw.reverse hl.reverse
    refine ⟨m', a, ?_, fun x hx => c x (by rwa [v.reverse_covers])⟩
    intro i hi
    have := b (v.size - 1 - i) (by simp [VView.reverse]; omega)
    rw [v.reverse_addr _ (by omega)] at this
    have e1 : ((v.size - 1 - (v.size - 1 - i) : Nat) : Int) = i := by omega
    rw [e1] at this
    have e2 : (v.reverse.addr (v.reverse.size - 1 - ((v.size - 1 - i : Nat) : Int))) =
        v.addr (v.size - 1 - i) := by
      have : ((v.size - 1 - i : Nat) : Int) = v.size - 1 - i := by omega
      rw [this]; simp only [VView.addr, VView.reverse]; ring
    rw [e2] at this
    simp [VView.cref, Mem.read, this]
  · obtain ⟨m', a, b, c⟩ := key v (by omega) hw hl
    refine ⟨m', a, ?_, c⟩
    intro i hi
    simp [VView.cref, Mem.read, b i hi]

/-- **C07**: reversing twice restores memory. -/
theorem reverseSelf_twice (v : VView) (m : Mem K) (hw : v.WF) (hl : v.Live m) :
    (v.reverseSelf m).bind v.reverseSelf = some m := by
  let _ : Star K := ⟨id⟩
  have hcj : cj (K := K) v.conj = id := by funext x; simp only [cj]; split <;> rfl
  obtain ⟨m1, a1, b1, c1⟩ := reverseSelf_spec v m hw hl
  simp only [VView.cref, Mem.read, hcj, Option.map_id, id] at b1
  have hl1 : v.Live m1 := by
    intro i hi
    rw [b1 i hi]
    have e : ((v.size : Int) - 1 - i) = ((v.size - 1 - i : Nat) : Int) := by omega
    rw [e]; exact hl _ (by omega)
  obtain ⟨m2, a2, b2, c2⟩ := reverseSelf_spec v m1 hw hl1
  simp only [VView.cref, Mem.read, hcj, Option.map_id, id] at b2
  rw [a1, Option.bind_some, a2]
  congr 1
  apply Mem.ext_view v
  · intro k hk
    have e : ((v.size : Int) - 1 - k) = ((v.size - 1 - k : Nat) : Int) := by omega
    rw [b2 k hk, e, b1 _ (by omega)]
    congr 2; omega
  · intro a ha; rw [c2 a ha, c1 a ha]

end TMV
