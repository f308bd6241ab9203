import Verif.Lemmas.Vec
import Verif.Props.VecOps

/-! Properties C14 (Swap), C15 (==) and C50 (assignment): operations on two vectors. -/
namespace TMV
variable {K : Type _}

private theorem stepEq (p s : Int) (i : Nat) : p + ((i + 1 : Nat) : Int) * s = p + s + i * s := by
  push_cast; ring

theorem loopSwap_spec (g : K → K) (s1 s2 : Int) :
    ∀ (n : Nat) (p1 p2 : Int) (m : Mem K), (s1 ≠ 0 ∨ n ≤ 1) → (s2 ≠ 0 ∨ n ≤ 1) →
      (∀ i : Nat, i < n → (m (p1 + i * s1)).isSome) →
      (∀ i : Nat, i < n → (m (p2 + i * s2)).isSome) →
      (∀ i j : Nat, i < n → j < n → p1 + i * s1 ≠ p2 + j * s2) →
      ∃ m', loopSwap g s1 s2 n p1 p2 m = some m' ∧
        (∀ i : Nat, i < n → m' (p1 + i * s1) = (m (p2 + i * s2)).map g) ∧
        (∀ i : Nat, i < n → m' (p2 + i * s2) = (m (p1 + i * s1)).map g) ∧
        (∀ a, (∀ i : Nat, i < n → a ≠ p1 + i * s1) → (∀ i : Nat, i < n → a ≠ p2 + i * s2) →
          m' a = m a) := by
  intro n
  induction n with
  | zero => intro p1 p2 m _ _ _ _ _; exact ⟨m, rfl, by intro i hi; omega, by intro i hi; omega, fun _ _ _ => rfl⟩
  | succ n ih =>
    intro p1 p2 m hs1 hs2 hl1 hl2 hd
    have hne : ∀ (p s : Int), (s ≠ 0 ∨ n + 1 ≤ 1) → ∀ i : Nat, i < n → p + s + i * s ≠ p := by
      intro p s hs i hi h
      rcases hs with hs | hs
      · have : ((i : Int) + 1) * s = 0 := by linarith [h]
        rcases mul_eq_zero.mp this with h | h
        · omega
        · exact hs h
      · omega
    have h10 : (m p1).isSome := by simpa using hl1 0 (by omega)
    have h20 : (m p2).isSome := by simpa using hl2 0 (by omega)
    obtain ⟨x, hx⟩ := Option.isSome_iff_exists.mp h10
    obtain ⟨y, hy⟩ := Option.isSome_iff_exists.mp h20
    have h12 : p1 ≠ p2 := by simpa using hd 0 0 (by omega) (by omega)
    have d1 : ∀ i : Nat, i < n → p1 + s1 + i * s1 ≠ p2 := by
      intro i hi; have := hd (i+1) 0 (by omega) (by omega); rw [stepEq] at this; simpa using this
    have d2 : ∀ i : Nat, i < n → p2 + s2 + i * s2 ≠ p1 := by
      intro i hi; have := hd 0 (i+1) (by omega) (by omega); rw [stepEq] at this
      intro e; apply this; simpa using e.symm
    have e1 := hne p1 s1 hs1
    have e2 := hne p2 s2 hs2
    set mm : Mem K := fun b => if b = p2 then some (g x) else if b = p1 then some (g y) else m b with hmm
    obtain ⟨m', a, b, c, d⟩ := ih (p1 + s1) (p2 + s2) mm
      (by rcases hs1 with h | h; exact Or.inl h; right; omega)
      (by rcases hs2 with h | h; exact Or.inl h; right; omega)
      (by
        intro i hi
        have := hl1 (i+1) (by omega); rw [stepEq] at this
        simpa [hmm, d1 i hi, e1 i hi] using this)
      (by
        intro i hi
        have := hl2 (i+1) (by omega); rw [stepEq] at this
        simpa [hmm, d2 i hi, e2 i hi] using this)
      (by
        intro i j hi hj
        have := hd (i+1) (j+1) (by omega) (by omega)
        rwa [stepEq, stepEq] at this)
    refine ⟨m', ?_, ?_, ?_, ?_⟩
    · simp only [loopSwap, Mem.read, hx, hy, Option.bind_eq_bind, Option.bind_some,
        Mem.write_of_isSome _ h10]
      rw [Mem.write_of_isSome _ (by simp [h12.symm, h20])]
      simpa [hmm] using a
    · intro i hi
      cases i with
      | zero =>
        have := d p1 (fun i hi => (e1 i hi).symm) (fun i hi => (d2 i hi).symm)
        simp [this, hmm, h12, hy]
      | succ i =>
        rw [stepEq, stepEq, b i (by omega)]
        simp [hmm, d2 i (by omega), e2 i (by omega)]
    · intro i hi
      cases i with
      | zero =>
        have := d p2 (fun i hi => (d1 i hi).symm) (fun i hi => (e2 i hi).symm)
        simp [this, hmm, hx]
      | succ i =>
        rw [stepEq, stepEq, c i (by omega)]
        simp [hmm, d1 i (by omega), e1 i (by omega)]
    · intro z hz1 hz2
      rw [d z]
      · have a1 : z ≠ p1 := by simpa using hz1 0 (by omega)
        have a2 : z ≠ p2 := by simpa using hz2 0 (by omega)
        simp [hmm, a1, a2]
      · intro i hi; have := hz1 (i+1) (by omega); rwa [stepEq] at this
      · intro i hi; have := hz2 (i+1) (by omega); rwa [stepEq] at this

theorem VView.Disjoint.reverse {v w : VView} (h : v.Disjoint w) : v.reverse.Disjoint w.reverse := by
  intro a ha hb
  rw [v.reverse_covers] at ha; rw [w.reverse_covers] at hb
  exact h a ha hb

theorem VView.conjugate_covers (v : VView) (a : Int) : v.conjugate.Covers a ↔ v.Covers a := Iff.rfl

/-- stored-memory statement for the exchange -/
def Exchanged (g : K → K) (v w : VView) (m m' : Mem K) : Prop :=
  (∀ i : Nat, i < v.size → m' (v.addr i) = (m (w.addr i)).map g) ∧
  (∀ i : Nat, i < w.size → m' (w.addr i) = (m (v.addr i)).map g) ∧
  (∀ a, ¬ v.Covers a → ¬ w.Covers a → m' a = m a)

theorem doSwap_spec [Star K] (v w : VView) (m : Mem K) (hn : v.size = w.size)
    (hv : v.WF) (hw : w.WF) (hlv : v.Live m) (hlw : w.Live m) (hd : v.Disjoint w) :
    ∃ m', VView.doSwap v w m = some m' ∧ Exchanged (if v.conj then star else id) v w m m' := by
  have e : VView.doSwap v w m = loopSwap (if v.conj then star else id) v.step w.step w.size v.ptr w.ptr m := by
    unfold VView.doSwap
    cases v.conj <;> simp <;> intro h1 h2 <;> rw [h1, h2]
  obtain ⟨m', a, b, c, d⟩ := loopSwap_spec (K := K) (if v.conj then star else id) v.step w.step w.size v.ptr w.ptr m
    (by have := hv.inj; rwa [VView.Inj, hn] at this) hw.inj
    (by intro i hi; exact hlv i (by omega)) hlw
    (by intro i j hi hj e; exact hd _ ⟨i, by omega, rfl⟩ ⟨j, hj, e⟩)
  refine ⟨m', by rw [e, a], ?_, c, ?_⟩
  · intro i hi; exact b i (by omega)
  · intro x h1 h2
    exact d x (fun i hi e => h1 ⟨i, by omega, e⟩) (fun i hi e => h2 ⟨i, hi, e⟩)

theorem Exchanged.of_reverse {g : K → K} {v w : VView} {m m' : Mem K} (hn : v.size = w.size)
    (h : Exchanged g v.reverse w.reverse m m') : Exchanged g v w m m' := by
  have ra : ∀ (u : VView) (i : Nat), i < u.size →
      u.addr i = u.reverse.addr ((u.size - 1 - i : Nat) : Int) := by
    intro u i hi
    rw [u.reverse_addr _ (by omega)]; congr 1; omega
  refine ⟨?_, ?_, ?_⟩
  · intro i hi
    rw [ra v i hi, ra w i (by omega)]
    have := h.1 (v.size - 1 - i) (by simp [VView.reverse]; omega)
    rw [this, hn]
  · intro i hi
    rw [ra w i hi, ra v i (by omega)]
    have := h.2.1 (w.size - 1 - i) (by simp [VView.reverse]; omega)
    rw [this, hn]
  · intro a h1 h2
    exact h.2.2 a (by rwa [v.reverse_covers]) (by rwa [w.reverse_covers])

/-- **C14**.  `Swap(v,w)` on disjoint views of equal size exchanges the elements as seen through
the views, and touches nothing else. -/
theorem swapV_spec [InvolutiveStar K] (v w : VView) (m : Mem K) (hn : v.size = w.size)
    (hv : v.WF) (hw : w.WF) (hlv : v.Live m) (hlw : w.Live m) (hd : v.Disjoint w) :
    ∃ m', VView.swapV v w m = some m' ∧
      (∀ i : Nat, i < v.size → v.cref m' i = w.cref m i ∧ w.cref m' i = v.cref m i) ∧
      (∀ a, ¬ v.Covers a → ¬ w.Covers a → m' a = m a) := by
  -- memory-level result first
  have core : ∀ (v w : VView), v.size = w.size → v.WF → w.WF → v.Live m → w.Live m →
      v.Disjoint w → 0 < v.size → ∃ m',
      (if w.conj then VView.doSwap v.conjugate w.conjugate m else VView.doSwap v w m) = some m' ∧
        Exchanged (if v.conj = w.conj then id else star) v w m m' := by
    intro v w hn hv hw hlv hlw hd _
    cases hwc : w.conj
    · obtain ⟨m', a, b⟩ := doSwap_spec v w m hn hv hw hlv hlw hd
      refine ⟨m', by simpa using a, ?_⟩
      cases hvc : v.conj <;> simpa [hvc] using b
    · obtain ⟨m', a, b⟩ := doSwap_spec v.conjugate w.conjugate m hn hv hw hlv hlw hd
      refine ⟨m', by simpa using a, ?_⟩
      have hcc : v.conjugate.conj = !v.conj := rfl
      rw [hcc] at b
      cases hvc : v.conj <;> (rw [hvc] at b; exact b)
  have done : ∀ m', Exchanged (if v.conj = w.conj then id else star) v w m m' →
      (∀ i : Nat, i < v.size → v.cref m' i = w.cref m i ∧ w.cref m' i = v.cref m i) ∧
      (∀ a, ¬ v.Covers a → ¬ w.Covers a → m' a = m a) := by
    intro m' h
    refine ⟨fun i hi => ?_, h.2.2⟩
    simp only [VView.cref, Mem.read, h.1 i hi, h.2.1 i (by omega), Option.map_map]
    constructor <;> congr 1 <;> funext x <;>
      cases v.conj <;> cases w.conj <;> simp [cj]
  rw [VView.swapV]
  by_cases h0 : v.size > 0
  · have hns : ¬ (w.isSameAs v = true) := by
      intro h
      simp only [VView.isSameAs, decide_eq_true_eq] at h
      subst h
      exact hd (w.addr 0) ⟨0, h0, rfl⟩ ⟨0, h0, rfl⟩
    rw [if_pos ⟨h0, hns⟩]
    split
    · rename_i hr
      rw [VView.swapV]
      have hns' : ¬ (w.reverse.isSameAs v.reverse = true) := by
        intro h
        simp only [VView.isSameAs, decide_eq_true_eq] at h
        have := hd.reverse
        rw [h] at this
        exact this (v.reverse.addr 0) ⟨0, h0, rfl⟩ ⟨0, h0, rfl⟩
      have hr' : VView.shouldReverse v.reverse.step w.reverse.step = false := by
        simpa [VView.reverse] using VView.shouldReverse_neg _ _ hr
      rw [if_pos ⟨h0, hns'⟩, dif_neg (by simp [hr'])]
      obtain ⟨m', a, b⟩ := core v.reverse w.reverse hn hv.reverse hw.reverse hlv.reverse
        hlw.reverse hd.reverse h0
      exact ⟨m', a, done m' (b.of_reverse hn)⟩
    · obtain ⟨m', a, b⟩ := core v w hn hv hw hlv hlw hd h0
      exact ⟨m', a, done m' b⟩
  · rw [if_neg (fun h => h0 h.1)]
    exact ⟨m, rfl, fun i hi => by omega, fun _ _ _ => rfl⟩

/-- Non-vacuity for C14: even and odd elements of an array, one reversed. -/
example : (⟨0, 3, 2, false⟩ : VView).Disjoint ⟨5, 3, -2, true⟩ := by
  rintro a ⟨i, hi, rfl⟩ ⟨j, hj, h⟩
  simp [VView.addr] at h; omega

/-! ### C15 -/

theorem loopEq_spec [DecidableEq K] (g : K → K) (s1 s2 : Int) :
    ∀ (n : Nat) (p1 p2 : Int) (m : Mem K) (x y : Nat → K),
      (∀ i : Nat, i < n → m (p1 + i * s1) = some (x i)) →
      (∀ i : Nat, i < n → m (p2 + i * s2) = some (y i)) →
      ∃ b, loopEq g s1 s2 n p1 p2 m = some b ∧ (b = true ↔ ∀ i : Nat, i < n → x i = g (y i)) := by
  intro n
  induction n with
  | zero => intro p1 p2 m x y _ _; exact ⟨true, rfl, by simp⟩
  | succ n ih =>
    intro p1 p2 m x y hx hy
    have hx0 : m p1 = some (x 0) := by simpa using hx 0 (by omega)
    have hy0 : m p2 = some (y 0) := by simpa using hy 0 (by omega)
    obtain ⟨b, hb, hb'⟩ := ih (p1 + s1) (p2 + s2) m (fun i => x (i+1)) (fun i => y (i+1))
      (by intro i hi; have := hx (i+1) (by omega); rwa [stepEq] at this)
      (by intro i hi; have := hy (i+1) (by omega); rwa [stepEq] at this)
    simp only [loopEq, Mem.read, hx0, hy0, Option.bind_eq_bind, Option.bind_some]
    by_cases h : x 0 = g (y 0)
    · refine ⟨b, by simp [h, hb], hb'.trans ⟨?_, ?_⟩⟩
      · intro hh i hi
        cases i with
        | zero => exact h
        | succ i => exact hh i (by omega)
      · intro hh i hi; exact hh (i+1) (by omega)
    · refine ⟨false, by simp [h], by simp only [Bool.false_eq_true, false_iff]; intro hh; exact h (hh 0 (by omega))⟩

/-- **C15**.  `v == w` is defined on live views and is true iff sizes agree and all elements (as
seen through the views) agree. -/
theorem eqV_iff [DecidableEq K] [InvolutiveStar K] (v w : VView) (m : Mem K) (x y : Nat → K)
    (hv : v.Holds m x) (hw : w.Holds m y) :
    ∃ b, VView.eqV v w m = some b ∧
      (b = true ↔ v.size = w.size ∧ ∀ i : Nat, i < v.size → x i = y i) := by
  have raw : ∀ (u : VView) (z : Nat → K), u.Holds m z →
      ∀ i : Nat, i < u.size → m (u.ptr + i * u.step) = some (cj u.conj (z i)) := by
    intro u z h i hi
    have := h i hi
    simp only [VView.cref, Mem.read, Option.map_eq_some_iff] at this
    obtain ⟨c, hc, hc'⟩ := this
    rw [VView.addr] at hc
    rw [hc, ← hc', cj_cj]
  unfold VView.eqV
  by_cases hn : v.size = w.size
  · rw [if_neg (by simpa using hn)]
    by_cases hsame : w.isSameAs v = true
    · rw [if_pos hsame]
      refine ⟨true, rfl, by
        simp only [true_iff]
        refine ⟨hn, fun i hi => ?_⟩
        simp only [VView.isSameAs, decide_eq_true_eq] at hsame
        subst hsame
        have a := hv i hi; have b := hw i hi
        rw [a] at b; exact Option.some_inj.mp b⟩
    · rw [if_neg hsame]
      have e : (if v.conj = w.conj then
            (if v.step = 1 ∧ w.step = 1 then loopEq id 1 1 w.size v.ptr w.ptr m
              else loopEq id v.step w.step w.size v.ptr w.ptr m)
          else
            (if v.step = 1 ∧ w.step = 1 then loopEq star 1 1 w.size v.ptr w.ptr m
              else loopEq star v.step w.step w.size v.ptr w.ptr m)) =
          loopEq (if v.conj = w.conj then id else star) v.step w.step w.size v.ptr w.ptr m := by
        by_cases hc : v.conj = w.conj
        · simp only [if_pos hc]
          split
          · rename_i h; rw [h.1, h.2]
          · rfl
        · simp only [if_neg hc]
          split
          · rename_i h; rw [h.1, h.2]
          · rfl
      rw [e]
      obtain ⟨b, hb, hb'⟩ := loopEq_spec (if v.conj = w.conj then id else star) v.step w.step w.size
        v.ptr w.ptr m (fun i => cj v.conj (x i)) (fun i => cj w.conj (y i))
        (fun i hi => raw v x hv i (by omega)) (fun i hi => raw w y hw i hi)
      refine ⟨b, hb, hb'.trans ⟨?_, ?_⟩⟩
      · intro h
        refine ⟨hn, fun i hi => ?_⟩
        have := h i (by omega)
        cases hvc : v.conj <;> cases hwc : w.conj <;> simp_all [cj]
      · rintro ⟨_, h⟩ i hi
        have := h i (by omega)
        rw [this]
        cases v.conj <;> cases w.conj <;> simp [cj]
  · rw [if_pos (by simpa using hn)]
    exact ⟨false, rfl, by simp [hn]⟩

example : (⟨0, 2, 1, false⟩ : VView).Holds (fun a => some a) (fun i => (i : Int)) := by
  intro i hi; simp [VView.cref, VView.addr, Mem.read, cj]

/-! ### C50: assignment -/

theorem loopCopy_spec (s1 s2 : Int) :
    ∀ (n : Nat) (p1 p2 : Int) (m : Mem K), (s2 ≠ 0 ∨ n ≤ 1) →
      (∀ i : Nat, i < n → (m (p1 + i * s1)).isSome) →
      (∀ i : Nat, i < n → (m (p2 + i * s2)).isSome) →
      (∀ i j : Nat, i < n → j < n → p1 + i * s1 = p2 + j * s2 → i = j) →
      ∃ m', loopCopy s1 s2 n p1 p2 m = some m' ∧
        (∀ i : Nat, i < n → m' (p2 + i * s2) = m (p1 + i * s1)) ∧
        (∀ a, (∀ i : Nat, i < n → a ≠ p2 + i * s2) → m' a = m a) := by
  intro n
  induction n with
  | zero => intro p1 p2 m _ _ _ _; exact ⟨m, rfl, by intro i hi; omega, fun _ _ => rfl⟩
  | succ n ih =>
    intro p1 p2 m hs2 hl1 hl2 hd
    have h10 : (m p1).isSome := by simpa using hl1 0 (by omega)
    have h20 : (m p2).isSome := by simpa using hl2 0 (by omega)
    obtain ⟨x, hx⟩ := Option.isSome_iff_exists.mp h10
    have e2 : ∀ i : Nat, i < n → p2 + s2 + i * s2 ≠ p2 := by
      intro i hi h
      rcases hs2 with hs | hs
      · have : ((i : Int) + 1) * s2 = 0 := by linarith [h]
        rcases mul_eq_zero.mp this with h | h
        · omega
        · exact hs h
      · omega
    have d1 : ∀ i : Nat, i < n → p1 + s1 + i * s1 ≠ p2 := by
      intro i hi h
      have := hd (i+1) 0 (by omega) (by omega) (by rw [stepEq]; simpa using h)
      omega
    obtain ⟨m', a, b, c⟩ := ih (p1 + s1) (p2 + s2) (fun b => if b = p2 then some x else m b)
      (by rcases hs2 with h | h; exact Or.inl h; right; omega)
      (by
        intro i hi
        have := hl1 (i+1) (by omega); rw [stepEq] at this
        simpa [d1 i hi] using this)
      (by
        intro i hi
        have := hl2 (i+1) (by omega); rw [stepEq] at this
        simpa [e2 i hi] using this)
      (by
        intro i j hi hj h
        have := hd (i+1) (j+1) (by omega) (by omega) (by rw [stepEq, stepEq]; exact h)
        omega)
    refine ⟨m', ?_, ?_, ?_⟩
    · simp only [loopCopy, Mem.read, hx, Option.bind_eq_bind, Option.bind_some,
        Mem.write_of_isSome _ h20]
      exact a
    · intro i hi
      cases i with
      | zero =>
        have := c p2 (fun i hi => (e2 i hi).symm)
        simp [this, hx]
      | succ i =>
        rw [stepEq, stepEq, b i (by omega)]
        simp [d1 i (by omega)]
    · intro z hz
      rw [c z]
      · have a2 : z ≠ p2 := by simpa using hz 0 (by omega)
        simp [a2]
      · intro i hi; have := hz (i+1) (by omega); rwa [stepEq] at this

/-- memory-level statement: stored values of `v` were copied to `w`. -/
def Copied (v w : VView) (m m' : Mem K) : Prop :=
  (∀ i : Nat, i < w.size → m' (w.addr i) = m (v.addr i)) ∧ w.Frame m m'

/-- An element of `v` may be an element of `w` only at the same index. -/
def NoClash (v w : VView) : Prop :=
  ∀ i j : Nat, i < v.size → j < w.size → v.addr i = w.addr j → i = j

theorem NoClash.of_disjoint {v w : VView} (h : v.Disjoint w) : NoClash v w :=
  fun i j hi hj e => absurd ⟨j, hj, e⟩ (h _ ⟨i, hi, rfl⟩)

theorem NoClash.of_same {v w : VView} (h1 : v.ptr = w.ptr) (h2 : v.step = w.step)
    (hn : v.size = w.size) (hw : w.WF) : NoClash v w := by
  intro i j hi hj e
  simp only [VView.addr, h1, h2] at e
  rcases hw with h | h
  · have : ((i : Int) - j) * w.step = 0 := by linarith [e]
    rcases mul_eq_zero.mp this with h' | h'
    · omega
    · exact absurd h' h
  · omega

theorem NoClash.reverse {v w : VView} (h : NoClash v w) (hn : v.size = w.size) :
    NoClash v.reverse w.reverse := by
  intro i j hi hj e
  have hi' : i < v.size := hi
  have hj' : j < w.size := hj
  rw [v.reverse_addr _ hi', w.reverse_addr _ hj'] at e
  have := h (v.size - 1 - i) (w.size - 1 - j) (by omega) (by omega) (by
    convert e using 2 <;> omega)
  omega

theorem doCopy_spec (v w : VView) (m : Mem K) (hn : v.size = w.size) (hw : w.WF)
    (hlv : v.Live m) (hlw : w.Live m) (hd : NoClash v w) :
    ∃ m', VView.doCopy v w m = some m' ∧ Copied v w m m' := by
  unfold VView.doCopy
  by_cases hs : v.isSameAs w = true
  · rw [if_pos hs]
    simp only [VView.isSameAs, decide_eq_true_eq] at hs
    subst hs
    exact ⟨m, rfl, fun _ _ => rfl, fun _ _ => rfl⟩
  · rw [if_neg hs]
    have e : (if v.step = 1 ∧ w.step = 1 then loopCopy 1 1 w.size v.ptr w.ptr m
        else loopCopy v.step w.step w.size v.ptr w.ptr m) =
        loopCopy v.step w.step w.size v.ptr w.ptr m := by
      split
      · rename_i h; rw [h.1, h.2]
      · rfl
    rw [e]
    obtain ⟨m', a, b, c⟩ := loopCopy_spec v.step w.step w.size v.ptr w.ptr m hw.inj
      (fun i hi => hlv i (by omega)) hlw
      (by intro i j hi hj e; exact hd i j (by omega) hj e)
    exact ⟨m', a, b, fun x hx => c x (fun i hi e => hx ⟨i, hi, e⟩)⟩

/-- **C50** (general form).  `w = v` makes every element of `w` equal the old element of `v`, provided
the two views share elements only at the same index; nothing outside `w` changes. -/
theorem copy_noClash_spec [InvolutiveStar K] (v w : VView) (m : Mem K) (hn : v.size = w.size)
    (hw : w.WF) (hlv : v.Live m) (hlw : w.Live m) (hd : NoClash v w) :
    ∃ m', VView.copy v w m = some m' ∧
      (∀ i : Nat, i < w.size → w.cref m' i = v.cref m i) ∧ w.Frame m m' := by
  have core : ∀ v w : VView, v.size = w.size → w.WF → v.Live m → w.Live m →
      NoClash v w →
      ∃ m', (if v.conj then
          if w.conj then VView.doCopy v.conjugate w.conjugate m
          else do
            let m ← VView.doCopy v.conjugate w m
            w.conjugateSelf m
        else if w.conj then do
            let m ← VView.doCopy v w.conjugate m
            w.conjugateSelf m
        else VView.doCopy v w m) = some m' ∧
        (∀ i : Nat, i < w.size → w.cref m' i = v.cref m i) ∧ w.Frame m m' := by
    intro v w hn hw hlv hlw hd
    have aux : ∀ v' w' : VView, v'.ptr = v.ptr → v'.step = v.step → v'.size = v.size →
        w'.ptr = w.ptr → w'.step = w.step → w'.size = w.size → v'.conj = w'.conj →
        ∃ m', VView.doCopy v' w' m = some m' ∧ Copied v w m m' := by
      intro v' w' a1 a2 a3 b1 b2 b3 c
      have hv' : v' = ⟨v.ptr, v.size, v.step, v'.conj⟩ := by rw [← a1, ← a2, ← a3]
      have hw' : w' = ⟨w.ptr, w.size, w.step, v'.conj⟩ := by rw [c, ← b1, ← b2, ← b3]
      obtain ⟨m', p, q⟩ := doCopy_spec v' w' m (by omega) (by simpa [VView.WF, b2, b3] using hw)
        (by rw [hv']; exact hlv) (by rw [hw']; exact hlw)
        (by rw [hv', hw']; exact hd)
      refine ⟨m', p, ?_⟩
      rw [hv', hw'] at q
      exact q
    have fin : ∀ m1, Copied v w m m1 → ∃ m', w.conjugateSelf m1 = some m' ∧
        (∀ i : Nat, i < w.size → w.cref m' i = (w.cref m1 i).map star) ∧ w.Frame m m' := by
      intro m1 h
      have hl1 : w.Live m1 := by
        intro i hi; rw [h.1 i hi]; exact hlv i (by omega)
      obtain ⟨m', a, b, c⟩ := conjugateSelf_spec w m1 hw hl1
      exact ⟨m', a, b, fun x hx => by rw [c x hx, h.2 x hx]⟩
    cases hvc : v.conj <;> cases hwc : w.conj
    · obtain ⟨m', a, b⟩ := aux v w rfl rfl rfl rfl rfl rfl (by rw [hvc, hwc])
      refine ⟨m', by simpa using a, ?_, b.2⟩
      intro i hi; simp only [VView.cref, Mem.read, b.1 i hi, hvc, hwc]
    · obtain ⟨m1, a, b⟩ := aux v w.conjugate rfl rfl rfl rfl rfl rfl (by simp [VView.conjugate, hvc, hwc])
      obtain ⟨m', c, d, e⟩ := fin m1 b
      refine ⟨m', by simp [a, c], ?_, e⟩
      intro i hi
      rw [d i hi]
      simp only [VView.cref, Mem.read, b.1 i hi, hvc, hwc, Option.map_map]
      congr 1; funext x; simp [cj]
    · obtain ⟨m1, a, b⟩ := aux v.conjugate w rfl rfl rfl rfl rfl rfl (by simp [VView.conjugate, hvc, hwc])
      obtain ⟨m', c, d, e⟩ := fin m1 b
      refine ⟨m', by simp [a, c], ?_, e⟩
      intro i hi
      rw [d i hi]
      simp only [VView.cref, Mem.read, b.1 i hi, hvc, hwc, Option.map_map]
      congr 1
    · obtain ⟨m', a, b⟩ := aux v.conjugate w.conjugate rfl rfl rfl rfl rfl rfl (by simp [VView.conjugate, hvc, hwc])
      refine ⟨m', by simpa using a, ?_, b.2⟩
      intro i hi; simp only [VView.cref, Mem.read, b.1 i hi, hvc, hwc]
  rw [VView.copy]
  by_cases h0 : v.size > 0
  · rw [if_pos h0]
    split
    · rename_i hr
      rw [VView.copy, if_pos (by exact h0), dif_neg (by
        have := VView.shouldReverse_neg _ _ hr
        simp [VView.reverse, this])]
      obtain ⟨m', a, b, c⟩ := core v.reverse w.reverse hn hw.reverse hlv.reverse hlw.reverse
        (hd.reverse hn)
      refine ⟨m', a, ?_, fun x hx => c x (by rwa [w.reverse_covers])⟩
      intro i hi
      have := b (w.size - 1 - i) (by simp [VView.reverse]; omega)
      have ra : ∀ u : VView, u.size = w.size →
          u.reverse.addr ((w.size - 1 - i : Nat) : Int) = u.addr i := by
        intro u hu
        rw [u.reverse_addr _ (by omega)]; congr 1; omega
      simp only [VView.cref, Mem.read, ra w rfl, ra v hn] at this
      exact this
    · exact core v w hn hw hlv hlw hd
  · rw [if_neg h0]
    exact ⟨m, rfl, fun i hi => by omega, fun _ _ => rfl⟩

/-- **C50**.  `w = v` makes every element of `w` equal the old element of `v`, for disjoint views
and also when both views describe the same elements in the same order (`v = v.conjugate()`,
self-assignment); nothing outside `w` changes.  All step / conj combinations. -/
theorem copy_spec [InvolutiveStar K] (v w : VView) (m : Mem K) (hn : v.size = w.size)
    (hw : w.WF) (hlv : v.Live m) (hlw : w.Live m)
    (hd : v.Disjoint w ∨ (v.ptr = w.ptr ∧ v.step = w.step)) :
    ∃ m', VView.copy v w m = some m' ∧
      (∀ i : Nat, i < w.size → w.cref m' i = v.cref m i) ∧ w.Frame m m' :=
  copy_noClash_spec v w m hn hw hlv hlw (by
    rcases hd with h | h
    · exact NoClash.of_disjoint h
    · exact NoClash.of_same h.1 h.2 hn hw)

/-- Non-vacuity for C50: `v = v.conjugate()` (same storage) and a disjoint reversed copy. -/
example : ((⟨0, 3, 1, true⟩ : VView).ptr = (⟨0, 3, 1, false⟩ : VView).ptr) ∧
    (⟨2, 3, -1, true⟩ : VView).Disjoint ⟨10, 3, 1, false⟩ := by
  refine ⟨rfl, ?_⟩
  rintro a ⟨i, hi, rfl⟩ ⟨j, hj, h⟩
  simp [VView.addr] at h hi hj; omega

end TMV
