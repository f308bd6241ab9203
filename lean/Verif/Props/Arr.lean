import Verif.Model.Arr
import Mathlib.Tactic.IntervalCases
import Mathlib.Tactic.Ring

/-! Aligned allocation (property C46). -/
namespace TMV.Arr

theorem calcP_eq (mem : Nat) : calcP mem = mem + (16 - mem % 16) % 16 := by
  unfold calcP
  have h1 : mem &&& 0xf = mem % 16 := Nat.and_two_pow_sub_one_eq_mod mem 4
  rw [h1]
  have h2 : mem % 16 < 16 := Nat.mod_lt _ (by omega)
  generalize mem % 16 = r at h2
  congr 1
  interval_cases r <;> decide

/-- **C46** (one allocation).  For every size and every address the allocator may return: the pointer handed out is
16-byte aligned, not before the block, and all `n` elements of `2^sh` bytes fit into the block. -/
theorem alloc_aligned_fits (sh mem n : Nat) :
    calcP mem % 16 = 0 ∧ mem ≤ calcP mem ∧ calcP mem + n * 2^sh ≤ mem + nbytes sh false n := by
  rw [calcP_eq]
  have : n <<< sh = n * 2^sh := Nat.shiftLeft_eq n sh
  simp only [nbytes, this]
  refine ⟨by omega, by omega, ?_⟩
  simp only [Bool.false_eq_true, if_false]
  omega

/-- The invariant of all histories: what the arrays own is exactly what is live, nothing is owned twice, and every
array points to an aligned address with room for its `n` elements. -/
structure Inv (sh : Nat) (s : St) : Prop where
  owned : ∀ k a b, s.arr k = some a → a.mem = some b → (s.live b).isSome
  noLeak : ∀ b, (s.live b).isSome → ∃ k a, s.arr k = some a ∧ a.mem = some b
  unique : ∀ k l a c b, s.arr k = some a → s.arr l = some c → a.mem = some b → c.mem = some b → k = l
  fresh : ∀ b, s.next ≤ b → s.live b = none
  good : ∀ k a, s.arr k = some a → (a.n = 0 → a.mem = none) ∧ (0 < a.n → ∃ b base len, a.mem = some b ∧
    s.live b = some (base, len) ∧ a.p % 16 = 0 ∧ base ≤ a.p ∧ a.p + a.n * 2^sh ≤ base + len)

theorem inv_init (sh : Nat) : Inv sh St.init :=
  ⟨by simp [St.init], by simp [St.init], by simp [St.init], by simp [St.init], by simp [St.init]⟩

/-- Variable `k` replaced by a freshly allocated array, its previous block (if any) released. -/
theorem inv_alloc (sh : Nat) (s : St) (k n base : Nat) (a : AM)
    (hu : ∀ l c b, s.arr l = some c → c.mem = some b → (s.live b).isSome ∨ l = k)
    (hleak : ∀ b, (s.live b).isSome → ∃ l c, l ≠ k ∧ s.arr l = some c ∧ c.mem = some b)
    (huniq : ∀ l l' c c' b, l ≠ k → l' ≠ k → s.arr l = some c → s.arr l' = some c' → c.mem = some b →
      c'.mem = some b → l = l')
    (hf : ∀ b, s.next ≤ b → s.live b = none)
    (hg : ∀ l c, l ≠ k → s.arr l = some c → (c.n = 0 → c.mem = none) ∧ (0 < c.n → ∃ b base len, c.mem = some b ∧
      s.live b = some (base, len) ∧ c.p % 16 = 0 ∧ base ≤ c.p ∧ c.p + c.n * 2^sh ≤ base + len))
    (ha : a.mem = none) :
    Inv sh ((alloc sh s a n base).1.set k (some (alloc sh s a n base).2)) := by
  unfold alloc
  by_cases hn : n > 0
  · rw [if_pos hn]
    have hlt : ∀ b, (s.live b).isSome → b < s.next := by
      intro b hb
      by_contra h
      rw [hf b (by omega)] at hb; cases hb
    constructor
    · intro l c b hl hb
      simp only [St.set] at hl ⊢
      by_cases hlk : l = k
      · rw [if_pos hlk] at hl
        obtain rfl := Option.some.inj hl
        obtain rfl := Option.some.inj hb
        simp
      · rw [if_neg hlk] at hl
        have h1 := (hu l c b hl hb).resolve_right hlk
        have h2 := hlt b h1
        rw [if_neg (by omega)]; exact h1
    · intro b hb
      simp only [St.set] at hb ⊢
      by_cases hbn : b = s.next
      · exact ⟨k, _, if_pos rfl, by rw [hbn]⟩
      · rw [if_neg hbn] at hb
        obtain ⟨l, c, h1, h2, h3⟩ := hleak b hb
        exact ⟨l, c, by rw [if_neg h1]; exact h2, h3⟩
    · intro l l' c c' b hl hl' hb hb'
      simp only [St.set] at hl hl'
      by_cases h1 : l = k <;> by_cases h2 : l' = k
      · rw [h1, h2]
      · rw [if_pos h1] at hl; rw [if_neg h2] at hl'
        obtain rfl := Option.some.inj hl
        obtain rfl := Option.some.inj hb
        have := hlt _ ((hu l' c' _ hl' hb').resolve_right h2)
        omega
      · rw [if_neg h1] at hl; rw [if_pos h2] at hl'
        obtain rfl := Option.some.inj hl'
        obtain rfl := Option.some.inj hb'
        have := hlt _ ((hu l c _ hl hb).resolve_right h1)
        omega
      · rw [if_neg h1] at hl; rw [if_neg h2] at hl'
        exact huniq l l' c c' b h1 h2 hl hl' hb hb'
    · intro b hb
      simp only [St.set] at hb ⊢
      rw [if_neg (by omega)]
      exact hf b (by omega)
    · intro l c hl
      simp only [St.set] at hl ⊢
      by_cases hlk : l = k
      · rw [if_pos hlk] at hl
        obtain rfl := Option.some.inj hl
        obtain ⟨a1, a2, a3⟩ := alloc_aligned_fits sh base n
        exact ⟨fun h => by simp at h; omega, fun _ => ⟨s.next, base, _, rfl, if_pos rfl, a1, a2, a3⟩⟩
      · rw [if_neg hlk] at hl
        obtain ⟨g1, g2⟩ := hg l c hlk hl
        refine ⟨g1, fun h => ?_⟩
        obtain ⟨b, bs, len, e1, e2, e3⟩ := g2 h
        have := hlt b (by rw [e2]; rfl)
        exact ⟨b, bs, len, e1, by rw [if_neg (by omega)]; exact e2, e3⟩
  · rw [if_neg hn]
    constructor
    · intro l c b hl hb
      simp only [St.set] at hl ⊢
      by_cases hlk : l = k
      · rw [if_pos hlk] at hl
        obtain rfl := Option.some.inj hl
        rw [ha] at hb; cases hb
      · rw [if_neg hlk] at hl
        exact (hu l c b hl hb).resolve_right hlk
    · intro b hb
      simp only [St.set] at hb ⊢
      obtain ⟨l, c, h1, h2, h3⟩ := hleak b hb
      exact ⟨l, c, by rw [if_neg h1]; exact h2, h3⟩
    · intro l l' c c' b hl hl' hb hb'
      simp only [St.set] at hl hl'
      by_cases h1 : l = k
      · rw [if_pos h1] at hl
        obtain rfl := Option.some.inj hl
        rw [ha] at hb; cases hb
      · by_cases h2 : l' = k
        · rw [if_pos h2] at hl'
          obtain rfl := Option.some.inj hl'
          rw [ha] at hb'; cases hb'
        · rw [if_neg h1] at hl; rw [if_neg h2] at hl'
          exact huniq l l' c c' b h1 h2 hl hl' hb hb'
    · exact hf
    · intro l c hl
      simp only [St.set] at hl ⊢
      by_cases hlk : l = k
      · rw [if_pos hlk] at hl
        obtain rfl := Option.some.inj hl
        exact ⟨fun _ => ha, fun h => absurd h hn⟩
      · rw [if_neg hlk] at hl
        exact hg l c hlk hl

/-- Releasing the block of variable `k`. -/
theorem dealloc_spec (sh : Nat) (s : St) (hs : Inv sh s) (k : Nat) (a : AM) (hk : s.arr k = some a) :
    ∃ s' a', dealloc s a = some (s', a') ∧ a'.mem = none ∧ s'.arr = s.arr ∧ s'.next = s.next ∧
      (∀ b, s'.live b = if a.mem = some b then none else s.live b) := by
  unfold dealloc
  cases hm : a.mem with
  | none => exact ⟨s, _, rfl, rfl, rfl, rfl, fun b => by simp⟩
  | some b =>
    obtain ⟨x, hx⟩ := Option.isSome_iff_exists.mp (hs.owned k a b hk hm)
    simp only [hx]
    refine ⟨_, _, rfl, rfl, rfl, rfl, ?_⟩
    intro b'
    simp only [Option.some.injEq]
    by_cases h : b' = b
    · simp [h]
    · rw [if_neg h, if_neg (fun h' => h h'.symm)]

theorem step_inv (sh : Nat) (s : St) (hs : Inv sh s) (o : Op) : ∃ s', step sh s o = some s' ∧ Inv sh s' := by
  cases o with
  | ctor k n base =>
    simp only [step]
    cases hk : s.arr k with
    | some a => exact ⟨s, rfl, hs⟩
    | none =>
      refine ⟨_, rfl, inv_alloc sh s k n base ⟨none, 0, 0⟩ ?_ ?_ ?_ hs.fresh ?_ rfl⟩
      · intro l c b h1 h2; exact Or.inl (hs.owned l c b h1 h2)
      · intro b hb
        obtain ⟨l, c, h1, h2⟩ := hs.noLeak b hb
        exact ⟨l, c, (fun h => by rw [h, hk] at h1; cases h1), h1, h2⟩
      · intro l l' c c' b _ _ h1 h2 h3 h4; exact hs.unique l l' c c' b h1 h2 h3 h4
      · intro l c _ h; exact hs.good l c h
  | resize k n base =>
    simp only [step]
    cases hk : s.arr k with
    | none => exact ⟨s, rfl, hs⟩
    | some a =>
      obtain ⟨s', a', h1, h2, h3, h4, h5⟩ := dealloc_spec sh s hs k a hk
      simp only [h1]
      refine ⟨_, rfl, inv_alloc sh s' k n base a' ?_ ?_ ?_ ?_ ?_ h2⟩
      · intro l c b e1 e2
        rw [h3] at e1
        by_cases hlk : l = k
        · exact Or.inr hlk
        · left
          rw [h5, if_neg]
          · exact hs.owned l c b e1 e2
          · intro h; exact hlk (hs.unique l k c a b e1 hk e2 h)
      · intro b hb
        rw [h5] at hb
        split at hb
        · cases hb
        · rename_i hne
          obtain ⟨l, c, e1, e2⟩ := hs.noLeak b hb
          refine ⟨l, c, ?_, by rw [h3]; exact e1, e2⟩
          rintro rfl
          rw [hk] at e1; obtain rfl := Option.some.inj e1
          exact hne e2
      · intro l l' c c' b _ _ e1 e2 e3 e4
        rw [h3] at e1 e2
        exact hs.unique l l' c c' b e1 e2 e3 e4
      · intro b hb
        rw [h4] at hb
        rw [h5, hs.fresh b hb]; simp
      · intro l c hlk e1
        rw [h3] at e1
        obtain ⟨g1, g2⟩ := hs.good l c e1
        refine ⟨g1, fun h => ?_⟩
        obtain ⟨b, bs, len, f1, f2, f3⟩ := g2 h
        refine ⟨b, bs, len, f1, ?_, f3⟩
        rw [h5, if_neg]
        · exact f2
        · intro h'; exact hlk (hs.unique l k c a b e1 hk f1 h')
  | swap k l =>
    simp only [step]
    cases hk : s.arr k with
    | none => exact ⟨s, rfl, hs⟩
    | some a =>
      cases hl : s.arr l with
      | none => exact ⟨s, rfl, hs⟩
      | some c =>
        refine ⟨_, rfl, ?_⟩
        -- the new variable x holds what σ x held before
        have key : ∀ x d, ((s.set k (some c)).set l (some a)).arr x = some d →
            s.arr (if x = l then k else if x = k then l else x) = some d := by
          intro x d h
          simp only [St.set] at h
          by_cases h1 : x = l
          · rw [if_pos h1] at h ⊢; rw [hk]; exact h
          · rw [if_neg h1] at h ⊢
            by_cases h2 : x = k
            · rw [if_pos h2] at h ⊢; rw [hl]; exact h
            · rw [if_neg h2] at h ⊢; exact h
        have key' : ∀ x d, s.arr x = some d →
            ((s.set k (some c)).set l (some a)).arr (if x = l then k else if x = k then l else x) = some d := by
          intro x d h
          simp only [St.set]
          by_cases h1 : x = l
          · rw [if_pos h1]
            by_cases h2 : k = l
            · rw [if_pos h2]; rw [← hk, h2, ← h1]; exact h
            · rw [if_neg h2, if_pos rfl, ← hl, ← h1]; exact h
          · rw [if_neg h1]
            by_cases h2 : x = k
            · rw [if_pos h2, if_pos rfl, ← hk, ← h2]; exact h
            · rw [if_neg h2, if_neg h1, if_neg h2]; exact h
        have hlive : ((s.set k (some c)).set l (some a)).live = s.live := rfl
        constructor
        · intro x d b h1 h2; exact hs.owned _ d b (key x d h1) h2
        · intro b hb
          obtain ⟨x, d, h1, h2⟩ := hs.noLeak b hb
          exact ⟨_, d, key' x d h1, h2⟩
        · intro x y d e b h1 h2 h3 h4
          have := hs.unique _ _ d e b (key x d h1) (key y e h2) h3 h4
          by_cases a1 : x = l <;> by_cases a2 : y = l
          · rw [a1, a2]
          · rw [if_pos a1, if_neg a2] at this
            by_cases a3 : y = k
            · rw [if_pos a3] at this; rw [a1, a3, this]
            · rw [if_neg a3] at this; exact absurd this.symm a3
          · rw [if_neg a1, if_pos a2] at this
            by_cases a3 : x = k
            · rw [if_pos a3] at this; rw [a2, a3, this]
            · rw [if_neg a3] at this; exact absurd this a3
          · rw [if_neg a1, if_neg a2] at this
            by_cases a3 : x = k <;> by_cases a4 : y = k
            · rw [a3, a4]
            · rw [if_pos a3, if_neg a4] at this; exact absurd this.symm a2
            · rw [if_neg a3, if_pos a4] at this; exact absurd this a1
            · rw [if_neg a3, if_neg a4] at this; exact this
        · exact hs.fresh
        · intro x d h1; exact hs.good _ d (key x d h1)
  | dtor k =>
    simp only [step]
    cases hk : s.arr k with
    | none => exact ⟨s, rfl, hs⟩
    | some a =>
      obtain ⟨s', a', h1, h2, h3, h4, h5⟩ := dealloc_spec sh s hs k a hk
      simp only [h1]
      refine ⟨_, rfl, ?_⟩
      have key : ∀ x d, (s'.set k none).arr x = some d → x ≠ k ∧ s.arr x = some d := by
        intro x d h
        simp only [St.set] at h
        by_cases hx : x = k
        · rw [if_pos hx] at h; cases h
        · rw [if_neg hx, h3] at h; exact ⟨hx, h⟩
      have hlive : ∀ b, (s'.set k none).live b = if a.mem = some b then none else s.live b := h5
      constructor
      · intro x d b e1 e2
        obtain ⟨f1, f2⟩ := key x d e1
        rw [hlive, if_neg]
        · exact hs.owned x d b f2 e2
        · intro h; exact f1 (hs.unique x k d a b f2 hk e2 h)
      · intro b hb
        rw [hlive] at hb
        split at hb
        · cases hb
        · rename_i hne
          obtain ⟨x, d, e1, e2⟩ := hs.noLeak b hb
          refine ⟨x, d, ?_, e2⟩
          have hx : x ≠ k := by
            rintro rfl
            rw [hk] at e1; obtain rfl := Option.some.inj e1
            exact hne e2
          simp only [St.set, if_neg hx, h3]; exact e1
      · intro x y d e b e1 e2 e3 e4
        exact hs.unique x y d e b (key x d e1).2 (key y e e2).2 e3 e4
      · intro b hb
        rw [hlive, hs.fresh b (by rw [← h4]; exact hb)]; simp
      · intro x d e1
        obtain ⟨f1, f2⟩ := key x d e1
        obtain ⟨g1, g2⟩ := hs.good x d f2
        refine ⟨g1, fun h => ?_⟩
        obtain ⟨b, bs, len, p1, p2, p3⟩ := g2 h
        refine ⟨b, bs, len, p1, ?_, p3⟩
        rw [hlive, if_neg]
        · exact p2
        · intro h'; exact f1 (hs.unique x k d a b f2 hk p1 h')

/-- **C46** (all histories of construction, resize, swap and destruction, all addresses the allocator may return).
No block is freed twice or after being released (no undefined behaviour); the live blocks are exactly those owned
by existing arrays, each by one array (no leak, no sharing); and every array with `n > 0` elements has an aligned
pointer with room for them in its own live block. -/
theorem array_histories (sh : Nat) (os : List Op) : ∃ s, run sh St.init os = some s ∧
    (∀ b, (s.live b).isSome ↔ ∃ k a, s.arr k = some a ∧ a.mem = some b) ∧
    (∀ k l a c b, s.arr k = some a → s.arr l = some c → a.mem = some b → c.mem = some b → k = l) ∧
    (∀ k a, s.arr k = some a → 0 < a.n → ∃ b base len, a.mem = some b ∧ s.live b = some (base, len) ∧
      a.p % 16 = 0 ∧ base ≤ a.p ∧ a.p + a.n * 2^sh ≤ base + len) := by
  have : ∀ os s, Inv sh s → ∃ s', run sh s os = some s' ∧ Inv sh s' := by
    intro os
    induction os with
    | nil => intro s hs; exact ⟨s, rfl, hs⟩
    | cons o os ih =>
      intro s hs
      obtain ⟨s1, h1, h2⟩ := step_inv sh s hs o
      obtain ⟨s2, h3, h4⟩ := ih s1 h2
      exact ⟨s2, by simp [run, h1, h3], h4⟩
  obtain ⟨s, h, hi⟩ := this os _ (inv_init sh)
  refine ⟨s, h, fun b => ⟨hi.noLeak b, ?_⟩, hi.unique, fun k a hk => (hi.good k a hk).2⟩
  rintro ⟨k, a, h1, h2⟩
  exact hi.owned k a b h1 h2

/-- An array remembers the size it was last given. -/
theorem array_size (sh : Nat) (s : St) (hs : Inv sh s) (k n base : Nat) (a : AM) (hk : s.arr k = some a) :
    ∃ s' a', step sh s (.resize k n base) = some s' ∧ s'.arr k = some a' ∧ a'.n = n := by
  obtain ⟨s1, a1, h1, _⟩ := dealloc_spec sh s hs k a hk
  simp only [step, hk, h1]
  refine ⟨_, (alloc sh s1 a1 n base).2, rfl, by simp [St.set], ?_⟩
  unfold alloc; split <;> rfl

/-- The unchanged code violates C46 with `-DTMV_END_PADDING`: if the allocator returns an address that is 8 modulo
16 (8-byte aligned `malloc`), the zero padding of a `double` array is written beyond the end of the block, for every
size; likewise for `float` arrays. -/
theorem end_padding_overflow_violated (mem n : Nat) (h : mem % 16 = 8) :
    mem + nbytes 3 true n < padEnd 3 mem n ∧ mem + nbytes 2 true n < padEnd 2 mem n := by
  unfold padEnd
  rw [calcP_eq, h]
  simp only [nbytes, Nat.shiftLeft_eq, Nat.shiftRight_eq_div_pow, if_true]
  constructor <;> omega

/-- With 16-byte aligned blocks (the usual 64-bit `malloc`) the padding stays inside. -/
theorem end_padding_fits_partial (mem n : Nat) (h : mem % 16 = 0) :
    padEnd 3 mem n ≤ mem + nbytes 3 true n ∧ padEnd 2 mem n ≤ mem + nbytes 2 true n := by
  unfold padEnd
  rw [calcP_eq, h]
  simp only [nbytes, Nat.shiftLeft_eq, Nat.shiftRight_eq_div_pow, if_true]
  constructor <;> omega

/-- Non-vacuity: two arrays, a resize, a swap and a destruction leave one block. -/
example : (run 3 St.init [.ctor 0 3 1001, .ctor 1 2 2008, .resize 0 5 3000, .swap 0 1, .dtor 0]).map
    (fun s => ((s.arr 1).map (fun a => (a.mem, a.p, a.n)), (List.range 4).map fun b => (s.live b).isSome)) =
    some (some (some 2, 3008, 5), [false, false, true, false]) := by decide +kernel

end TMV.Arr
