import Verif.Props.MatTwo
import Verif.Props.MatReduce

/-!
Proof library: a set of index pairs stored at given addresses (`Region`), and families of vectors that
visit every element of it exactly once (`Region.Parts`).  Used for triangular and symmetric matrices.
-/
namespace TMV
variable {K : Type _}

/-- Stored elements of a matrix: index pairs `In`, addresses, conjugation flag. -/
structure Region where
  In : Int → Int → Prop
  addr : Int → Int → Int
  conj : Bool

namespace Region

def Live (R : Region) (m : Mem K) : Prop := ∀ i j, R.In i j → (m (R.addr i j)).isSome
def Inj (R : Region) : Prop :=
  ∀ i j i' j', R.In i j → R.In i' j' → R.addr i j = R.addr i' j' → i = i' ∧ j = j'
def Covers (R : Region) (a : Int) : Prop := ∃ i j, R.In i j ∧ a = R.addr i j
/-- The value stored for `(i,j)`. -/
def val [Star K] (R : Region) (m : Mem K) (i j : Int) : Option K := (m (R.addr i j)).map (cj R.conj)

/-- A family of vectors that together contain every stored element exactly once. -/
structure Parts (R : Region) (f : Nat → VView) (n : Nat) (at_ : Nat → Nat → Int × Int) : Prop where
  conj : ∀ k, k < n → (f k).conj = R.conj
  wf : ∀ k, k < n → (f k).WF
  mem : ∀ k, k < n → ∀ j, j < (f k).size → R.In (at_ k j).1 (at_ k j).2 ∧
    (f k).addr j = R.addr (at_ k j).1 (at_ k j).2
  cover : ∀ i j, R.In i j → ∃ k l, k < n ∧ l < (f k).size ∧ at_ k l = (i, j)
  inj : ∀ k l k' l', k < n → l < (f k).size → k' < n → l' < (f k').size → at_ k l = at_ k' l' →
    k = k' ∧ l = l'

variable {R : Region} {f : Nat → VView} {n : Nat} {at_ : Nat → Nat → Int × Int}

theorem Parts.disj (h : R.Parts f n at_) (hI : R.Inj) {k k' : Nat} (hk : k < n) (hk' : k' < n)
    (hne : k ≠ k') : (f k).Disjoint (f k') := by
  rintro a ⟨l, hl, e⟩ ⟨l', hl', e'⟩
  obtain ⟨a0, b0⟩ := h.mem k hk l hl
  obtain ⟨a1, b1⟩ := h.mem k' hk' l' hl'
  rw [b0] at e; rw [b1] at e'
  have := hI _ _ _ _ a0 a1 (e.symm.trans e')
  exact hne (h.inj k l k' l' hk hl hk' hl' (Prod.ext this.1 this.2)).1

theorem Parts.live (h : R.Parts f n at_) {m : Mem K} (hl : R.Live m) {k : Nat} (hk : k < n) :
    (f k).Live m := by
  intro l hl'
  obtain ⟨a0, b0⟩ := h.mem k hk l hl'
  rw [b0]; exact hl _ _ a0

theorem Parts.val [Star K] (h : R.Parts f n at_) (m : Mem K) {k l : Nat} (hk : k < n)
    (hl : l < (f k).size) : (f k).cref m l = R.val m (at_ k l).1 (at_ k l).2 := by
  obtain ⟨a0, b0⟩ := h.mem k hk l hl
  rw [Region.val, ← b0, VView.cref, h.conj k hk]; rfl

theorem Parts.covers (h : R.Parts f n at_) {k : Nat} (hk : k < n) {a : Int} (hc : (f k).Covers a) :
    R.Covers a := by
  obtain ⟨l, hl, e⟩ := hc
  obtain ⟨a0, b0⟩ := h.mem k hk l hl
  exact ⟨_, _, a0, by rw [e, b0]⟩

/-- Element-wise operation. -/
theorem each_spec [Star K] (op : VView → Mem K → Option (Mem K)) (g : K → K)
    (hI : R.Inj) (m : Mem K) (hl : R.Live m) (hP : R.Parts f n at_)
    (hop : ∀ k, k < n → ∀ m, (f k).Live m → ∃ m', op (f k) m = some m' ∧ (f k).Changed g m m') :
    ∃ m', loopV f op n 0 m = some m' ∧
      (∀ i j, R.In i j → R.val m' i j = (R.val m i j).map g) ∧ (∀ a, ¬ R.Covers a → m' a = m a) := by
  obtain ⟨m', e, c, fr⟩ := loopV_spec f op g n 0 m
    (fun k _ h => hop k (by omega))
    (fun k k' _ h _ h' hne => hP.disj hI (by omega) (by omega) hne)
    (fun k _ h => hP.live hl (by omega))
  refine ⟨m', e, ?_, ?_⟩
  · intro i j hij
    obtain ⟨k, l, hk, hl', e'⟩ := hP.cover i j hij
    have := c k (by omega) (by omega) l hl'
    rw [hP.val m' hk hl', hP.val m hk hl', e'] at this
    exact this
  · intro a ha
    exact fr a (fun k _ hk hc => ha (hP.covers (by omega) hc))

/-- `for(k) g(k) = f(k)`, where an element of `f k` may be an element of `g k'` only if `k = k'` and at
the same index. -/
theorem loopV2_assign [InvolutiveStar K] (f g : Nat → VView) :
    ∀ (n i : Nat) (m : Mem K),
      (∀ k, i ≤ k → k < i + n → (f k).size = (g k).size) →
      (∀ k, i ≤ k → k < i + n → (g k).WF) →
      (∀ k k', i ≤ k → k < i + n → i ≤ k' → k' < i + n → k ≠ k' → (g k).Disjoint (g k')) →
      (∀ k k', i ≤ k → k < i + n → i ≤ k' → k' < i + n → k ≠ k' → (f k).Disjoint (g k')) →
      (∀ k, i ≤ k → k < i + n → NoClash (f k) (g k)) →
      (∀ k, i ≤ k → k < i + n → (f k).Live m) → (∀ k, i ≤ k → k < i + n → (g k).Live m) →
      ∃ m', loopV2 f g VView.copy n i m = some m' ∧
        (∀ k, i ≤ k → k < i + n → ∀ j : Nat, j < (g k).size → (g k).cref m' j = (f k).cref m j) ∧
        (∀ a, (∀ k, i ≤ k → k < i + n → ¬ (g k).Covers a) → m' a = m a) := by
  intro n
  induction n with
  | zero =>
    intro i m _ _ _ _ _ _ _
    exact ⟨m, rfl, fun k h1 h2 => by omega, fun _ _ => rfl⟩
  | succ n ih =>
    intro i m hs hw hgg hfg hnc hlf hlg
    obtain ⟨m1, e1, c1, fr1⟩ := copy_noClash_spec (f i) (g i) m (hs i le_rfl (by omega))
      (hw i le_rfl (by omega)) (hlf i le_rfl (by omega)) (hlg i le_rfl (by omega))
      (hnc i le_rfl (by omega))
    have keepF : ∀ k, i + 1 ≤ k → k < i + 1 + n → ∀ j : Nat, j < (f k).size →
        m1 ((f k).addr j) = m ((f k).addr j) := fun k h1 h2 j hj =>
      fr1 _ (hfg k i (by omega) (by omega) le_rfl (by omega) (by omega) _ ⟨j, hj, rfl⟩)
    have keepG : ∀ k, i + 1 ≤ k → k < i + 1 + n → ∀ j : Nat, j < (g k).size →
        m1 ((g k).addr j) = m ((g k).addr j) := fun k h1 h2 j hj =>
      fr1 _ (hgg k i (by omega) (by omega) le_rfl (by omega) (by omega) _ ⟨j, hj, rfl⟩)
    obtain ⟨m', e, c, fr⟩ := ih (i+1) m1
      (fun k h1 h2 => hs k (by omega) (by omega)) (fun k h1 h2 => hw k (by omega) (by omega))
      (fun k k' h1 h2 h3 h4 => hgg k k' (by omega) (by omega) (by omega) (by omega))
      (fun k k' h1 h2 h3 h4 => hfg k k' (by omega) (by omega) (by omega) (by omega))
      (fun k h1 h2 => hnc k (by omega) (by omega))
      (fun k h1 h2 j hj => by rw [keepF k h1 h2 j hj]; exact hlf k (by omega) (by omega) j hj)
      (fun k h1 h2 j hj => by rw [keepG k h1 h2 j hj]; exact hlg k (by omega) (by omega) j hj)
    refine ⟨m', by simp only [loopV2, e1]; exact e, ?_, ?_⟩
    · intro k h1 h2 j hj
      by_cases hk : k = i
      · subst hk
        rw [← c1 j hj, VView.cref, VView.cref, Mem.read, Mem.read]
        rw [fr _ (fun k' h1' h2' hc => hgg k' k (by omega) (by omega) le_rfl (by omega) (by omega) _ hc
          ⟨j, hj, rfl⟩)]
      · rw [c k (by omega) (by omega) j hj, VView.cref, VView.cref, Mem.read, Mem.read,
          keepF k (by omega) (by omega) j (by rw [hs k h1 h2]; exact hj)]
    · intro a ha
      rw [fr a (fun k h1 h2 => ha k (by omega) (by omega)), fr1 a (ha i le_rfl (by omega))]

/-- Assignment between two regions with the same index set. -/
theorem assign_spec [InvolutiveStar K] {S : Region} {g : Nat → VView} (hIn : ∀ i j, R.In i j ↔ S.In i j)
    (hI : S.Inj) (hR : R.Parts f n at_) (hS : S.Parts g n at_)
    (hs : ∀ k, k < n → (f k).size = (g k).size)
    (hc : ∀ i j i' j', R.In i j → S.In i' j' → R.addr i j = S.addr i' j' → i = i' ∧ j = j')
    (m : Mem K) (hlR : R.Live m) (hlS : S.Live m) :
    ∃ m', loopV2 f g VView.copy n 0 m = some m' ∧
      (∀ i j, S.In i j → S.val m' i j = R.val m i j) ∧ (∀ a, ¬ S.Covers a → m' a = m a) := by
  have clash : ∀ k l k' l', k < n → l < (f k).size → k' < n → l' < (g k').size →
      (f k).addr l = (g k').addr l' → k = k' ∧ l = l' := by
    intro k l k' l' hk hl hk' hl' e
    obtain ⟨a0, b0⟩ := hR.mem k hk l hl
    obtain ⟨a1, b1⟩ := hS.mem k' hk' l' hl'
    rw [b0, b1] at e
    have := hc _ _ _ _ a0 a1 e
    exact hR.inj k l k' l' hk hl hk' (by rw [hs k' hk']; exact hl') (Prod.ext this.1 this.2)
  obtain ⟨m', e, c, fr⟩ := loopV2_assign f g n 0 m
    (fun k _ h => hs k (by omega)) (fun k _ h => hS.wf k (by omega))
    (fun k k' _ h _ h' hne => hS.disj hI (by omega) (by omega) hne)
    (by
      rintro k k' _ h _ h' hne a ⟨l, hl, e⟩ ⟨l', hl', e'⟩
      exact hne (clash k l k' l' (by omega) hl (by omega) hl' (e.symm.trans e')).1)
    (fun k _ h l l' hl hl' e => (clash k l k l' (by omega) hl (by omega) hl' e).2)
    (fun k _ h => hR.live hlR (by omega)) (fun k _ h => hS.live hlS (by omega))
  refine ⟨m', e, ?_, ?_⟩
  · intro i j hij
    obtain ⟨k, l, hk, hl', e'⟩ := hS.cover i j hij
    have := c k (by omega) (by omega) l hl'
    rw [hS.val m' hk hl', hR.val m hk (by rw [hs k hk]; exact hl'), e'] at this
    exact this
  · intro a ha
    exact fr a (fun k _ hk hc => ha (hS.covers (by omega) hc))

/-- Swap of two disjoint regions with the same index set. -/
theorem swap_spec [InvolutiveStar K] {S : Region} {g : Nat → VView} (hIn : ∀ i j, R.In i j ↔ S.In i j)
    (hIR : R.Inj) (hIS : S.Inj) (hR : R.Parts f n at_) (hS : S.Parts g n at_)
    (hs : ∀ k, k < n → (f k).size = (g k).size)
    (hd : ∀ a, R.Covers a → ¬ S.Covers a)
    (m : Mem K) (hlR : R.Live m) (hlS : S.Live m) :
    ∃ m', loopV2 f g VView.swapV n 0 m = some m' ∧
      (∀ i j, R.In i j → R.val m' i j = S.val m i j ∧ S.val m' i j = R.val m i j) ∧
      (∀ a, ¬ R.Covers a → ¬ S.Covers a → m' a = m a) := by
  obtain ⟨m', e, c, fr⟩ := loopV2_swap f g n 0 m
    (fun k _ h => hs k (by omega)) (fun k _ h => ⟨hR.wf k (by omega), hS.wf k (by omega)⟩)
    (fun k k' _ h _ h' hne => ⟨hR.disj hIR (by omega) (by omega) hne, hS.disj hIS (by omega) (by omega) hne⟩)
    (fun k k' _ h _ h' => ⟨fun a h1 h2 => hd a (hR.covers (by omega) h1) (hS.covers (by omega) h2),
      fun a h1 h2 => hd a (hR.covers (by omega) h2) (hS.covers (by omega) h1)⟩)
    (fun k _ h => ⟨hR.live hlR (by omega), hS.live hlS (by omega)⟩)
  refine ⟨m', e, ?_, ?_⟩
  · intro i j hij
    obtain ⟨k, l, hk, hl', e'⟩ := hR.cover i j hij
    have := c k (by omega) (by omega) l hl'
    have hl'' : l < (g k).size := by rw [← hs k hk]; exact hl'
    rw [hR.val m' hk hl', hS.val m hk hl'', hS.val m' hk hl'', hR.val m hk hl', e'] at this
    exact this
  · intro a ha ha'
    exact fr a (fun k _ hk => ⟨fun hc => ha (hR.covers (by omega) hc), fun hc => ha' (hS.covers (by omega) hc)⟩)

/-- Values seen through a part. -/
theorem Parts.holds [Star K] (h : R.Parts f n at_) {m : Mem K} {x : Nat → Nat → K}
    (hpos : ∀ i j, R.In i j → 0 ≤ i ∧ 0 ≤ j)
    (hx : ∀ i j : Nat, R.In i j → R.val m i j = some (x i j)) {k : Nat} (hk : k < n) :
    (f k).Holds m (fun l => x (at_ k l).1.toNat (at_ k l).2.toNat) := by
  intro l hl
  rw [h.val m hk hl]
  obtain ⟨a0, _⟩ := h.mem k hk l hl
  obtain ⟨p1, p2⟩ := hpos _ _ a0
  have e1 : (((at_ k l).1.toNat : Nat) : Int) = (at_ k l).1 := by omega
  have e2 : (((at_ k l).2.toNat : Nat) : Int) = (at_ k l).2 := by omega
  have := hx (at_ k l).1.toNat (at_ k l).2.toNat (by rw [e1, e2]; exact a0)
  rwa [e1, e2] at this

/-- Summing over the parts is summing over the stored elements. -/
theorem Parts.sum {β : Type _} [AddCommMonoid β] (h : R.Parts f n at_) (cs rs : Nat)
    (hb : ∀ i j, R.In i j → 0 ≤ i ∧ i < cs ∧ 0 ≤ j ∧ j < rs) [∀ i j, Decidable (R.In i j)]
    (F : Nat → Nat → β) :
    ∑ k ∈ Finset.range n, ∑ l ∈ Finset.range (f k).size, F (at_ k l).1.toNat (at_ k l).2.toNat =
    ∑ i ∈ Finset.range cs, ∑ j ∈ Finset.range rs, if R.In i j then F i j else 0 := by
  rw [← Finset.sum_product', ← Finset.sum_filter, Finset.sum_sigma']
  apply Finset.sum_bij (fun (p : (_ : Nat) × Nat) _ => ((at_ p.1 p.2).1.toNat, (at_ p.1 p.2).2.toNat))
  · rintro ⟨k, l⟩ hp
    simp only [Finset.mem_sigma, Finset.mem_range] at hp
    obtain ⟨a0, _⟩ := h.mem k hp.1 l hp.2
    have a0' := hb _ _ a0
    have e1 : (((at_ k l).1.toNat : Nat) : Int) = (at_ k l).1 := by omega
    have e2 : (((at_ k l).2.toNat : Nat) : Int) = (at_ k l).2 := by omega
    simp only [Finset.mem_filter, Finset.mem_product, Finset.mem_range, e1, e2]
    exact ⟨⟨by omega, by omega⟩, a0⟩
  · rintro ⟨k, l⟩ hp ⟨k', l'⟩ hp' e
    simp only [Finset.mem_sigma, Finset.mem_range] at hp hp'
    obtain ⟨a0, _⟩ := h.mem k hp.1 l hp.2
    obtain ⟨a1, _⟩ := h.mem k' hp'.1 l' hp'.2
    have a0' := hb _ _ a0
    have a1' := hb _ _ a1
    simp only [Prod.mk.injEq] at e
    obtain ⟨rfl, rfl⟩ := h.inj k l k' l' hp.1 hp.2 hp'.1 hp'.2 (Prod.ext (by omega) (by omega))
    rfl
  · rintro ⟨i, j⟩ hp
    simp only [Finset.mem_filter, Finset.mem_product, Finset.mem_range] at hp
    obtain ⟨k, l, hk, hl, e⟩ := h.cover i j hp.2
    exact ⟨⟨k, l⟩, by simp [hk, hl], by simp [e]⟩
  · rintro ⟨k, l⟩ _; rfl

/-- The largest absolute value over the parts. -/
theorem max_spec {S : Type _} [LinearOrder S] [Zero S] [CommRing K] [StarRing K] (ab : K → S)
    (hab : ∀ y, ab (star y) = ab y) (hpos0 : ∀ y, 0 ≤ ab y)
    (hP : R.Parts f n at_) (m : Mem K) (x : Nat → Nat → K) (hpos : ∀ i j, R.In i j → 0 ≤ i ∧ 0 ≤ j)
    (hx : ∀ i j : Nat, R.In i j → R.val m i j = some (x i j)) :
    ∃ r, loopVFold f (fun v m => (v.maxAbs ab m).map (·.1)) (fun mx t => if t > mx then t else mx)
        m n 0 0 = some r ∧ 0 ≤ r ∧
      (∀ i j : Nat, R.In i j → ab (x i j) ≤ r) ∧
      (r = 0 ∨ ∃ i j : Nat, R.In i j ∧ r = ab (x i j)) := by
  have one : ∀ k, ∃ v : S, k < n → ((f k).maxAbs ab m).map (·.1) = some v ∧ 0 ≤ v ∧
      (∀ l, l < (f k).size → ab (x (at_ k l).1.toNat (at_ k l).2.toNat) ≤ v) ∧
      (v = 0 ∨ ∃ l, l < (f k).size ∧ v = ab (x (at_ k l).1.toNat (at_ k l).2.toNat)) := by
    intro k
    by_cases hk : k < n
    · by_cases h0 : (f k).size = 0
      · refine ⟨0, fun _ => ⟨?_, le_rfl, fun l hl => by omega, Or.inl rfl⟩⟩
        simp [VView.maxAbs, VView.doBest, h0]
      · obtain ⟨j, hj, e, hb⟩ := maxAbs_spec ab hab (f k) m _ (hP.holds hpos hx hk) (by omega) (hP.wf k hk)
        exact ⟨_, fun _ => ⟨by rw [e]; rfl, hpos0 _, hb, Or.inr ⟨j, hj, rfl⟩⟩⟩
    · exact ⟨0, fun h => absurd h hk⟩
  choose q hq using one
  rw [loopVFold_spec f _ _ m q n 0 0 (fun k _ hk => (hq k (by omega)).1)]
  obtain ⟨g1, g2, g3⟩ := foldl_max_spec q n 0 (0 : S)
  refine ⟨_, rfl, g1, ?_, ?_⟩
  · intro i j hin
    obtain ⟨k, l, hk, hl, e⟩ := hP.cover i j hin
    have b := (hq k hk).2.2.1 l hl
    simp only [e, Int.toNat_natCast] at b
    exact le_trans b (g2 k (by omega) (by omega))
  · rcases g3 with g3 | ⟨k, _, hk, e⟩
    · exact Or.inl g3
    · rcases (hq k (by omega)).2.2.2 with h | ⟨l, hl, h⟩
      · exact Or.inl (e.trans h)
      · right
        obtain ⟨a0, _⟩ := hP.mem k (by omega) l hl
        obtain ⟨p1, p2⟩ := hpos _ _ a0
        have e1 : (((at_ k l).1.toNat : Nat) : Int) = (at_ k l).1 := by omega
        have e2 : (((at_ k l).2.toNat : Nat) : Int) = (at_ k l).2 := by omega
        exact ⟨_, _, by rw [e1, e2]; exact a0, e.trans h⟩

end Region
end TMV
