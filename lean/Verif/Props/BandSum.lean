import Verif.Model.BandSum
import Verif.Props.BandOps
import Verif.Props.TriSum

/-! Properties C123 and C124: assignment, scaling and sums of band matrices. -/
namespace TMV
variable {K : Type _} [CommRing K] [StarRing K]

/-- Afterwards `M` reads as the matrix `y`; nothing else has changed, except unused elements inside the array of a packed matrix, and no memory
has been freed. -/
def BView.Becomes (M : BView) (m m' : Mem K) (y : Nat → Nat → K) : Prop :=
  M.Holds m' y ∧ (∀ a, ¬ M.Footprint a → m' a = m a) ∧ ∀ a, (m a).isSome → (m' a).isSome

omit [CommRing K] [StarRing K] in
/-- The elements of `M`, and the unused ones inside its array if it is packed, are allocated. -/
def BView.Good (M : BView) (m : Mem K) : Prop := ∀ a, M.Footprint a → (m a).isSome

/-- The two matrices share no memory. -/
def BView.Sep (A B : BView) : Prop := ∀ a, A.Footprint a → ¬ B.Footprint a

/-! ### Stored elements -/

def BView.reg (M : BView) : Region := ⟨M.In, M.addr, M.conj⟩
def BView.Has (M : BView) (m : Mem K) (y : Nat → Nat → K) : Prop := ∀ i j : Nat, M.In i j → M.cref m i j = some (y i j)
def BView.Gets (M : BView) (m m' : Mem K) (y : Nat → Nat → K) : Prop := M.Has m' y ∧ ∀ a, ¬ M.Covers a → m' a = m a

omit [CommRing K] [StarRing K] in
theorem BView.Good.live {M : BView} {m : Mem K} (h : M.Good m) : M.Live m := fun i j hij => h _ (Or.inl ⟨i, j, hij, rfl⟩)
omit [CommRing K] [StarRing K] in
theorem BView.Good.lin {M : BView} {m : Mem K} (h : M.Good m) (hc : M.canLinearize = true) : M.linearView.Live m :=
  fun i hi => h _ (Or.inr ⟨hc, i, hi, rfl⟩)
omit [CommRing K] [StarRing K] in
theorem BView.Good.mono {M : BView} {m m' : Mem K} (h : M.Good m) (e : ∀ a, (m a).isSome → (m' a).isSome) : M.Good m' :=
  fun a ha => e a (h a ha)

theorem BView.Holds.has {M : BView} {m : Mem K} {y : Nat → Nat → K} (h : M.Holds m y) : M.Has m y := fun i j hij => by
  simp only [BView.In, InBand] at hij
  exact h i j (by omega) (by omega)

theorem BView.Has.int {M : BView} {m : Mem K} {y : Nat → Nat → K} (h : M.Has m y) {i j : Int} (hij : M.In i j) :
    (m (M.addr i j)).map (cj M.conj) = some (y i.toNat j.toNat) := by
  have h0 := hij
  simp only [BView.In, InBand] at h0
  have := h i.toNat j.toNat (by rw [Int.toNat_of_nonneg h0.1, Int.toNat_of_nonneg h0.2.2.1]; exact hij)
  rw [Int.toNat_of_nonneg h0.1, Int.toNat_of_nonneg h0.2.2.1, band_cref_in M m _ _ hij] at this
  exact this

theorem BView.Has.live {M : BView} {m : Mem K} {y : Nat → Nat → K} (h : M.Has m y) : M.Live m := fun i j hij => by
  have := h.int hij
  revert this; cases m (M.addr i j) <;> simp

theorem BView.Has.holds {M : BView} {m : Mem K} {y : Nat → Nat → K} (h : M.Has m y) (h0 : ∀ i j : Nat, i < M.cs → j < M.rs → ¬ M.In i j → y i j = 0) :
    M.Holds m y := fun i j hi hj => by
  by_cases hb : M.In i j
  · exact h i j hb
  · rw [h0 i j hi hj hb]
    apply band_cref_zero
    intro hh; exact hb ⟨by omega, by omega, by omega, by omega, hh.1, hh.2⟩

theorem BView.Has.frame {M : BView} {m m' : Mem K} {y : Nat → Nat → K} (h : M.Has m y) (e : ∀ a, M.Covers a → m' a = m a) : M.Has m' y :=
  fun i j hij => by
    rw [← h i j hij, band_cref_in M _ _ _ hij, band_cref_in M _ _ _ hij, e _ ⟨i, j, hij, rfl⟩]

theorem BView.Holds.frame {M : BView} {m m' : Mem K} {y : Nat → Nat → K} (h : M.Holds m y) (e : ∀ a, M.Covers a → m' a = m a) : M.Holds m' y :=
  (h.has.frame e).holds fun i j hi hj hb => h.zero i j hi hj hb

theorem BView.Live.exHas {M : BView} {m : Mem K} (h : M.Live m) : ∃ y, M.Holds m y := by
  refine ⟨fun i j => (M.cref m i j).getD 0, fun i j hi hj => ?_⟩
  have : (M.cref m i j).isSome := band_cref_total M m h i j ⟨by omega, by omega, by omega, by omega⟩
  obtain ⟨y, hy⟩ := Option.isSome_iff_exists.mp this
  simp [hy]

omit [CommRing K] [StarRing K] in
theorem covers_int {M : BView} {i j : Nat} (h : M.In i j) : M.Covers (M.addr i j) := ⟨i, j, h, rfl⟩

theorem diags_reg (M : BView) (hW : M.WF) (h0 : 0 < M.cs ∧ 0 < M.rs) :
    M.reg.Parts M.diagB (M.lo + M.hi + 1).toNat (fun k l => (max (-((k : Int) - M.lo)) 0 + l, max ((k : Int) - M.lo) 0 + l)) := by
  have h := diags_parts M hW h0
  exact ⟨h.conj, fun k hk => h.wf hW.2.2.2.2.2 hk, h.mem, h.cover, h.inj⟩

theorem Parts.hasB {M : BView} {f : Nat → VView} {n : Nat} {at_ : Nat → Nat → Int × Int} (hP : M.reg.Parts f n at_) {m m1 : Mem K}
    {y : Nat → Nat → K} (h : M.Has m y) {k : Nat} (hk : k < n) (e : ∀ a, (f k).Covers a → m1 a = m a) :
    (f k).Holds m1 (fun l => y (at_ k l).1.toNat (at_ k l).2.toNat) := by
  intro l hl
  have h1 : (f k).cref m1 l = (f k).cref m l := by
    unfold VView.cref Mem.read; rw [e _ ⟨l, hl, rfl⟩]
  rw [h1, hP.val m hk hl]
  exact h.int (hP.mem k hk l hl).1

theorem BView.gets_of {M : BView} {m m' : Mem K} {y : Nat → Nat → K} (h : ∀ i j, M.reg.In i j → M.reg.val m' i j = some (y i.toNat j.toNat))
    (hf : ∀ a, ¬ M.reg.Covers a → m' a = m a) : M.Gets m m' y := by
  refine ⟨fun i j hij => ?_, hf⟩
  have := h i j hij
  rw [band_cref_in M _ _ _ hij]
  simpa [Region.val, BView.reg] using this

theorem safeOrder_disj {v w : VView} (hn : v.size = w.size) (h : v.Disjoint w) : SafeOrder v w :=
  SafeOrder.of_noClash hn (NoClash.of_disjoint h)

theorem vlive_ex {v : VView} {m : Mem K} (h : v.Live m) : ∃ y, v.Holds m y := by
  refine ⟨fun i => (v.cref m i).getD 0, fun i hi => ?_⟩
  obtain ⟨y, hy⟩ := Option.isSome_iff_exists.mp (h i hi)
  simp [VView.cref, Mem.read, hy]

/-- Same shape. -/
structure BView.Like (A B : BView) : Prop where
  cs : A.cs = B.cs
  rs : A.rs = B.rs
  lo : A.lo = B.lo
  hi : A.hi = B.hi

omit [CommRing K] [StarRing K] in
theorem BView.Like.size {A B : BView} (h : A.Like B) (d : Int) : (A.diagOff d).size = (B.diagOff d).size := by
  unfold BView.diagOff
  split <;> simp [h.cs, h.rs]

section
variable {A B : BView} (hl : A.Like B) (hWA : A.WF) (hWB : B.WF) (h0 : 0 < B.cs ∧ 0 < B.rs)
  (hd : ∀ a, A.Covers a → ¬ B.Covers a) (m : Mem K) {y z : Nat → Nat → K}
include hl hWA hWB h0 hd

/-- Diagonal by diagonal. -/
theorem diag_zip (op : VView → VView → Mem K → Option (Mem K)) (g : K → K → K) (hA : A.Has m y) (hB : B.Has m z)
    (hop : ∀ v w : VView, v.size = w.size → w.WF → v.Disjoint w → ∀ (m : Mem K) (x z : Nat → K), v.Holds m x → w.Holds m z →
      ∃ m', op v w m = some m' ∧ w.Becomes m m' (fun i => g (x i) (z i))) :
    ∃ m', loopN (fun t => op (A.diagOff (t - B.lo)) (B.diagOff (t - B.lo))) (B.lo + B.hi + 1).toNat 0 m = some m' ∧
      B.Gets m m' (fun i j => g (y i j) (z i j)) := by
  have hf := diags_reg A hWA (by rw [hl.cs, hl.rs]; exact h0)
  have hg := diags_reg B hWB h0
  rw [hl.lo, hl.hi] at hf
  have hI : B.reg.Inj := hWB.2.2.2.2.2
  have eA : ∀ k : Nat, A.diagB k = A.diagOff (k - B.lo) := fun k => by rw [BView.diagB, hl.lo]
  obtain ⟨m', e, c, fr⟩ := parts_spec (fun t => op (A.diagOff (t - B.lo)) (B.diagOff (t - B.lo))) hI hg m (fun i j => g (y i j) (z i j))
    (fun k hk m1 hm1 hm2 => by
      have := hop (A.diagB k) (B.diagB k) (by rw [eA]; exact hl.size _) (hg.wf k hk)
        (fun a h1 h2 => hd a (hf.covers hk h1) (hg.covers hk h2)) m1 _ _
        (Parts.hasB hf hA hk fun a ha => hm1 a fun h => hd a (hf.covers hk ha) h) (Parts.hasB hg hB hk hm2)
      rw [eA] at this
      exact this)
  exact ⟨m', e, BView.gets_of c fr⟩

theorem diag_copy [DecidableEq K] (hA : A.Has m y) (hB : B.Live m) :
    ∃ m', loopN (fun t => VView.copy (A.diagOff (t - B.lo)) (B.diagOff (t - B.lo))) (B.lo + B.hi + 1).toNat 0 m = some m' ∧ B.Gets m m' y := by
  obtain ⟨z, hz⟩ := hB.exHas
  exact diag_zip hl hWA hWB h0 hd m VView.copy (fun a _ => a) hA hz.has (fun v w hn hw hd m x z hv hz =>
    copy_safe_spec v w m x hn hw (safeOrder_disj hn hd) hv hz.live)

theorem diag_add [DecidableEq K] (x : K) (hA : A.Has m y) (hB : B.Has m z) :
    ∃ m', loopN (fun t => VView.addVV x (A.diagOff (t - B.lo)) (B.diagOff (t - B.lo))) (B.lo + B.hi + 1).toNat 0 m = some m' ∧
      B.Gets m m' (fun i j => z i j + x * y i j) :=
  diag_zip hl hWA hWB h0 hd m (VView.addVV x) (fun a b => b + x * a) hA hB (fun v w hn hw hd m a b hv hz =>
    addVV_spec x v w m a b hn hw (safeOrder_disj hn hd) hv hz)
end

/-! ### The linear view -/

omit [CommRing K] [StarRing K] in
/-- The length of the linear view depends on the shape only. -/
theorem lin_size {A B : BView} (hl : A.Like B) (hWA : A.WF) (hWB : B.WF) (hLA : A.LSOK) (hLB : B.LSOK) (hcA : A.canLinearize = true)
    (hcB : B.canLinearize = true) (hsi : A.si = B.si) (hsj : A.sj = B.sj) : A.linearView.size = B.linearView.size := by
  have key : ∀ M : BView, M.WF → M.LSOK → M.canLinearize = true → ∃ c r : Int,
      (r = min (M.rs : Int) (M.cs + M.hi) ∧ c = min (M.cs : Int) (M.rs + M.lo)) ∧
      ((M.sj = 1 ∧ M.si = M.lo + M.hi ∧ M.resolveLs = r + (c - 1) * (M.lo + M.hi)) ∨
       (M.si = 1 ∧ M.sj = M.lo + M.hi ∧ M.resolveLs = c + (r - 1) * (M.lo + M.hi))) := by
    intro M hW hL hc
    obtain ⟨w1, w2, w3, w4, w5, w6⟩ := hW
    simp only [BView.canLinearize, decide_eq_true_eq] at hc
    refine ⟨_, _, ⟨rfl, rfl⟩, ?_⟩
    unfold BView.resolveLs at hc ⊢
    by_cases hls : M.ls = -1
    · rw [if_pos hls] at hc ⊢
      dsimp only at hc ⊢
      obtain ⟨r, hr⟩ : ∃ r : Int, r = if (M.rs : Int) > M.cs + M.hi then M.cs + M.hi else M.rs := ⟨_, rfl⟩
      rw [← hr] at hc ⊢
      obtain ⟨c, hcc⟩ : ∃ c : Int, c = if (M.cs : Int) > r + M.lo then r + M.lo else M.cs := ⟨_, rfl⟩
      rw [← hcc] at hc ⊢
      have br : min (M.rs : Int) (M.cs + M.hi) = r := by rw [hr]; split <;> omega
      have bc : min (M.cs : Int) (M.rs + M.lo) = c := by rw [hcc]; split <;> (split_ifs at hr <;> omega)
      rw [br, bc]
      split at hc
      · omega
      rename_i h1
      rw [if_neg h1]
      split at hc
      · rename_i h2
        rw [if_pos h2]; exact Or.inr ⟨h2.1, h2.2, rfl⟩
      rename_i h2
      rw [if_neg h2]
      split at hc
      · rename_i h3
        rw [if_pos h3]; exact Or.inl ⟨h3.1, h3.2, rfl⟩
      · omega
    · rw [if_neg hls] at hc ⊢
      have fin : ∀ c r : Int, c = min (M.cs : Int) (M.rs + M.lo) → r = min (M.rs : Int) (M.cs + M.hi) →
          c = min (M.cs : Int) (M.rs + M.lo) ∧ r = min (M.rs : Int) (M.cs + M.hi) := fun _ _ a b => ⟨a, b⟩
      rcases hL with h | h | ⟨a, b, h⟩ | ⟨a, b, h⟩
      · omega
      · omega
      · left
        refine ⟨a, b, ?_⟩
        rw [h]
        rw [h] at hc
        unfold bandStorageLength at hc ⊢
        split at hc
        · omega
        rename_i g
        rw [if_neg g]
        split
        · rename_i e
          rw [show min (M.rs : Int) (M.cs + M.hi) = M.cs by omega, show min (M.cs : Int) (M.rs + M.lo) = M.cs by omega]; ring
        · simp only [if_true]
          rw [show (if (M.cs : Int) > M.rs + M.lo then (M.rs : Int) + M.lo else M.cs) = min (M.cs : Int) (M.rs + M.lo) by split <;> omega]
          rw [show (if (M.rs : Int) > min (M.cs : Int) (M.rs + M.lo) + M.hi then min (M.cs : Int) (M.rs + M.lo) + M.hi else M.rs)
            = min (M.rs : Int) (M.cs + M.hi) by split <;> omega]
          ring
      · right
        refine ⟨a, b, ?_⟩
        rw [h]
        rw [h] at hc
        unfold bandStorageLength at hc ⊢
        split at hc
        · omega
        rename_i g
        rw [if_neg g]
        split
        · rename_i e
          rw [show min (M.rs : Int) (M.cs + M.hi) = M.cs by omega, show min (M.cs : Int) (M.rs + M.lo) = M.cs by omega]; ring
        · simp only [reduceCtorEq, if_false, if_true]
          rw [show (if (M.cs : Int) > M.rs + M.lo then (M.rs : Int) + M.lo else M.cs) = min (M.cs : Int) (M.rs + M.lo) by split <;> omega]
          rw [show (if (M.rs : Int) > min (M.cs : Int) (M.rs + M.lo) + M.hi then min (M.cs : Int) (M.rs + M.lo) + M.hi else M.rs)
            = min (M.rs : Int) (M.cs + M.hi) by split <;> omega]
          ring
  obtain ⟨c, r, ⟨e1, e2⟩, k1⟩ := key A hWA hLA hcA
  obtain ⟨c', r', ⟨e1', e2'⟩, k2⟩ := key B hWB hLB hcB
  rw [hl.cs, hl.rs, hl.lo, hl.hi] at *
  have ec : c = c' := by rw [e2, e2']
  have er : r = r' := by rw [e1, e1']
  subst ec er
  simp only [BView.linearView]
  congr 1
  rcases k1 with ⟨a, b, h⟩ | ⟨a, b, h⟩ <;> rcases k2 with ⟨a', b', h'⟩ | ⟨a', b', h'⟩
  · rw [h, h']
  · rw [h, h', ← b, hsi, a']; ring
  · rw [h, h', ← b, hsj, a']; ring
  · rw [h, h']

omit [CommRing K] [StarRing K] in
theorem bandLinear_wf (M : BView) : M.linearView.WF := Or.inl (by simp [BView.linearView])

section
variable {A B : BView} (hl : A.Like B) (hWA : A.WF) (hWB : B.WF) (hLA : A.LSOK) (hLB : B.LSOK) (hcA : A.canLinearize = true)
  (hcB : B.canLinearize = true) (hsi : A.si = B.si) (hsj : A.sj = B.sj) (hd : A.Sep B) (m : Mem K) {y z : Nat → Nat → K}
  (hgA : A.Good m) (hgB : B.Good m)
include hl hWA hWB hLA hLB hcA hcB hsi hsj hd hgA hgB

theorem lin_zip (op : VView → VView → Mem K → Option (Mem K)) (g : K → K → K) (hA : A.Has m y) (hB : B.Has m z)
    (hop : ∀ v w : VView, v.size = w.size → w.WF → v.Disjoint w → ∀ (m : Mem K) (x z : Nat → K), v.Holds m x → w.Holds m z →
      ∃ m', op v w m = some m' ∧ w.Becomes m m' (fun i => g (x i) (z i))) :
    ∃ m', op A.linearView B.linearView m = some m' ∧ B.Has m' (fun i j => g (y i j) (z i j)) ∧
      (∀ a, ¬ B.Footprint a → m' a = m a) ∧ ∀ a, (m a).isSome → (m' a).isSome := by
  obtain ⟨p, hp⟩ := vlive_ex (hgA.lin hcA)
  obtain ⟨q, hq⟩ := vlive_ex (hgB.lin hcB)
  obtain ⟨m', e, b1, b2⟩ := hop A.linearView B.linearView (lin_size hl hWA hWB hLA hLB hcA hcB hsi hsj) (bandLinear_wf B)
    (fun a h1 h2 => hd a (Or.inr ⟨hcA, h1⟩) (Or.inr ⟨hcB, h2⟩)) m p q hp hq
  refine ⟨m', e, fun i j hij => ?_, fun a ha => b2 a fun h => ha (Or.inr ⟨hcB, h⟩), ?_⟩
  · obtain ⟨k, hk, ek⟩ := band_linear_covers B hWB hLB hcB i j hij
    have hij' : A.In i j := by
      have := hij
      simp only [BView.In, InBand, hl.cs, hl.rs, hl.lo, hl.hi] at this ⊢
      exact this
    have ek' : A.linearView.addr k = A.addr i j := by
      simp only [BView.linearView, VView.addr, BView.addr, hsi, hsj] at ek ⊢
      omega
    have hk' : k < A.linearView.size := by rw [lin_size hl hWA hWB hLA hLB hcA hcB hsi hsj]; exact hk
    have c1 : B.linearView.cref m' k = some (g (p k) (q k)) := b1 k hk
    have c2 : B.linearView.cref m k = some (q k) := hq k hk
    have c3 : A.linearView.cref m k = some (p k) := hp k hk'
    have r1 := hB i j hij
    have r2 := hA i j hij'
    rw [band_cref_in B _ _ _ hij, ← ek] at r1 ⊢
    rw [band_cref_in A _ _ _ hij', ← ek'] at r2
    have t2 : q k = z i j := by
      have : some (q k) = some (z i j) := by rw [← c2, ← r1]; rfl
      exact Option.some.inj this
    have t3 : p k = y i j := by
      have : some (p k) = some (y i j) := by rw [← c3, ← r2]; rfl
      exact Option.some.inj this
    show Option.map _ _ = some (g (y i j) (z i j))
    rw [← t2, ← t3, ← c1]; rfl
  · intro a ha
    by_cases h : B.linearView.Covers a
    · obtain ⟨k, hk, rfl⟩ := h; exact b1.live k hk
    · rw [b2 a h]; exact ha
end

/-! ### Helpers -/

theorem BView.Gets.keep {M : BView} {m m' : Mem K} {y : Nat → Nat → K} (h : M.Gets m m' y) (a : Int) (ha : (m a).isSome) : (m' a).isSome := by
  by_cases hc : M.Covers a
  · obtain ⟨i, j, hij, rfl⟩ := hc; exact h.1.live i j hij
  · rw [h.2 a hc]; exact ha

/-- Part of the band of `B` has changed. -/
theorem BView.Gets.becomes {N B : BView} {m m' : Mem K} {w z : Nat → Nat → K} (h : N.Gets m m' w) (hI : B.Inj) (hB : B.Holds m z)
    (hN : ∀ i j, N.In i j → B.In i j) (ha : ∀ i j, N.addr i j = B.addr i j) (hc : N.conj = B.conj)
    (hz : ∀ i j : Nat, i < B.cs → j < B.rs → ¬ N.In i j → w i j = z i j) : B.Becomes m m' w := by
  refine ⟨fun i j hi hj => ?_, fun a hna => h.2 a ?_, h.keep⟩
  · by_cases hb : N.In i j
    · have := h.1 i j hb
      rw [band_cref_in N _ _ _ hb, ha, hc] at this
      rw [band_cref_in B _ _ _ (hN _ _ hb)]
      exact this
    · rw [hz i j hi hj hb, ← hB i j hi hj]
      by_cases hb' : B.In i j
      · rw [band_cref_in B _ _ _ hb', band_cref_in B _ _ _ hb', h.2]
        rintro ⟨i', j', h', e⟩
        rw [ha] at e
        obtain ⟨e1, e2⟩ := hI _ _ _ _ hb' (hN _ _ h') e
        rw [e1, e2] at hb; exact hb h'
      · have : ¬ ((i : Int) - j ≤ B.lo ∧ (j : Int) - i ≤ B.hi) := fun hh => hb' ⟨by omega, by omega, by omega, by omega, hh.1, hh.2⟩
        rw [band_cref_zero _ _ _ _ this, band_cref_zero _ _ _ _ this]
  · rintro ⟨i, j, hij, e⟩
    exact hna (Or.inl ⟨i, j, hN _ _ hij, by rw [e, ha]⟩)

theorem BView.Becomes.trans {M : BView} {m1 m2 m3 : Mem K} {y z : Nat → Nat → K} (h1 : M.Becomes m1 m2 y) (h2 : M.Becomes m2 m3 z) :
    M.Becomes m1 m3 z :=
  ⟨h2.1, fun a ha => by rw [h2.2.1 a ha, h1.2.1 a ha], fun a ha => h2.2.2 a (h1.2.2 a ha)⟩

theorem BView.Becomes.good {M N : BView} {m m' : Mem K} {y : Nat → Nat → K} (h : M.Becomes m m' y) (hg : N.Good m) : N.Good m' :=
  hg.mono h.2.2

theorem BView.Becomes.bdd {M : BView} {m m' : Mem K} {y : Nat → Nat → K} (h : M.Becomes m m' y) (hg : M.Good m) (hb : m.Bdd) : m'.Bdd := by
  obtain ⟨b, hb⟩ := hb
  refine ⟨b, fun a ha => ?_⟩
  by_cases hf : M.Footprint a
  · have := hg a hf
    rw [hb a ha] at this; simp at this
  · rw [h.2.1 a hf]; exact hb a ha

theorem BView.Becomes.congr {M : BView} {m m' : Mem K} {y z : Nat → Nat → K} (h : M.Becomes m m' y)
    (e : ∀ i j, i < M.cs → j < M.rs → y i j = z i j) : M.Becomes m m' z :=
  ⟨fun i j hi hj => by rw [← e i j hi hj]; exact h.1 i j hi hj, h.2⟩

theorem BView.Sep.holds {A M : BView} {m m' : Mem K} {y z : Nat → Nat → K} (hd : A.Sep M) (h : M.Becomes m m' z) (hA : A.Holds m y) :
    A.Holds m' y := hA.frame fun a ha => h.2.1 a (hd a (Or.inl ha))

/-- A matrix without elements. -/
theorem BView.empty_becomes (M : BView) (h0 : ¬ (M.cs > 0 ∧ M.rs > 0)) (m : Mem K) (y : Nat → Nat → K) : M.Becomes m m y :=
  ⟨fun i j hi hj => absurd ⟨by omega, by omega⟩ h0, fun _ _ => rfl, fun _ h => h⟩

/-! ### The conjugate -/

omit [CommRing K] [StarRing K] in
theorem BView.conj_footprint {M : BView} {a : Int} (h : M.conjugate.Footprint a) : M.Footprint a := by
  rcases h with h | ⟨h1, h2⟩
  · exact Or.inl h
  · by_cases hd : M.isdm = true
    · have : M.conjugate.ls = 0 := by simp [BView.conjugate, hd]
      simp [BView.canLinearize, BView.resolveLs, this] at h1
    · have e : M.conjugate.resolveLs = M.resolveLs := by simp [BView.conjugate, BView.resolveLs, hd]
      refine Or.inr ⟨?_, ?_⟩
      · simpa [BView.canLinearize, e] using h1
      · obtain ⟨k, hk, e2⟩ := h2
        refine ⟨k, ?_, e2⟩
        simpa [BView.linearView, e] using hk

omit [CommRing K] [StarRing K] in
theorem BView.WF.conj {M : BView} (h : M.WF) : M.conjugate.WF := h
omit [CommRing K] [StarRing K] in
theorem BView.Good.conj {M : BView} {m : Mem K} (h : M.Good m) : M.conjugate.Good m := fun a ha => h a (BView.conj_footprint ha)
omit [CommRing K] [StarRing K] in
theorem BView.LSOK.conj {M : BView} (h : M.LSOK) (hW : M.WF) : M.conjugate.LSOK := (lsok_band_views M h hW.1 hW.2.1).2.2.1
omit [CommRing K] [StarRing K] in
theorem BView.Sep.conj {A B : BView} (h : A.Sep B) : A.conjugate.Sep B.conjugate :=
  fun a h1 h2 => h a (BView.conj_footprint h1) (BView.conj_footprint h2)
theorem BView.Holds.conj {M : BView} {m : Mem K} {y : Nat → Nat → K} (h : M.Holds m y) : M.conjugate.Holds m (fun i j => star (y i j)) :=
  fun i j hi hj => by rw [(band_conjugate M m i j).2.2, h i j hi hj]; rfl
theorem BView.Becomes.unconj {M : BView} {m m' : Mem K} {y : Nat → Nat → K} (h : M.conjugate.Becomes m m' y) :
    M.Becomes m m' (fun i j => star (y i j)) := by
  refine ⟨fun i j hi hj => ?_, fun a ha => h.2.1 a fun hh => ha (BView.conj_footprint hh), h.2.2⟩
  have := h.1 i j hi hj
  rw [(band_conjugate M m' i j).2.2] at this
  cases e : M.cref m' i j with
  | none => rw [e] at this; simp at this
  | some v => rw [e] at this; simp at this; simp only [← this, star_star]

/-! ### Sums -/

section
variable [DecidableEq K]

omit [CommRing K] [StarRing K] [DecidableEq K] in
theorem narrow_wf {B : BView} (hW : B.WF) {lo hi : Int} (h0 : 0 ≤ lo) (h1 : 0 ≤ hi) (h2 : lo ≤ B.lo) (h3 : hi ≤ B.hi) : (B.narrow lo hi).WF := by
  obtain ⟨w1, w2, w3, w4, w5, w6⟩ := hW
  refine ⟨h0, h1, ?_, ?_, w5, (band_narrow B lo hi h2 h3).inj w6⟩
  · simp only [BView.narrow]; omega
  · simp only [BView.narrow]; omega

omit [CommRing K] [StarRing K] [DecidableEq K] in
theorem narrow_in {B : BView} {lo hi : Int} (h2 : lo ≤ B.lo) (h3 : hi ≤ B.hi) {i j : Int} (h : (B.narrow lo hi).In i j) : B.In i j := by
  simp only [BView.In, InBand, BView.narrow] at h ⊢; omega

/-- `DoAddMM(x,A,B)` of separate matrices, the band of `A` inside that of `B`. -/
theorem band_doAdd_spec (x : K) {A B : BView} (hcs : A.cs = B.cs) (hrs : A.rs = B.rs) (hlo : A.lo ≤ B.lo) (hhi : A.hi ≤ B.hi)
    (hWA : A.WF) (hWB : B.WF) (hLA : A.LSOK) (hLB : B.LSOK) (h0 : 0 < B.cs ∧ 0 < B.rs) (hd : A.Sep B) (m : Mem K)
    {y z : Nat → Nat → K} (hgA : A.Good m) (hgB : B.Good m) (hA : A.Holds m y) (hB : B.Holds m z) :
    ∃ m', BView.doAdd x A B m = some m' ∧ B.Becomes m m' (fun i j => z i j + x * y i j) := by
  have hz : ∀ i j : Nat, i < A.cs → j < A.rs → ¬ A.In i j → z i j + x * y i j = z i j := fun i j hi hj hb => by
    rw [hA.zero i j hi hj hb]; ring
  unfold BView.doAdd
  split
  · rename_i h
    obtain ⟨e1, e2, hcA, hcB, hsi, hsj⟩ := h
    have hl : A.Like B := ⟨hcs, hrs, e1, e2⟩
    obtain ⟨m', e, v, f, kp⟩ := lin_zip hl hWA hWB hLA hLB hcA hcB hsi hsj hd m hgA hgB (VView.addVV x) (fun a b => b + x * a) hA.has hB.has
      (fun v w hn hw hd m a b hv hz => addVV_spec x v w m a b hn hw (safeOrder_disj hn hd) hv hz)
    refine ⟨m', e, v.holds fun i j hi hj hb => ?_, f, kp⟩
    have : ¬ A.In i j := by simpa [BView.In, InBand, hcs, hrs, e1, e2] using hb
    rw [hz i j (by omega) (by omega) this, hB.zero i j hi hj hb]
  · have hl : A.Like (B.narrow A.lo A.hi) := ⟨hcs, hrs, rfl, rfl⟩
    have hN := narrow_wf hWB hWA.1 hWA.2.1 hlo hhi
    obtain ⟨m', e, g⟩ := diag_add hl hWA hN h0 (fun a h1 h2 => by
      obtain ⟨i, j, hij, e⟩ := h2
      exact hd a (Or.inl h1) (Or.inl ⟨i, j, narrow_in hlo hhi hij, e⟩)) m (z := z) x hA.has
      (fun i j hij => by
        have h1 := narrow_in hlo hhi hij
        rw [band_cref_in _ _ _ _ hij]
        have := hB.has i j h1
        rw [band_cref_in _ _ _ _ h1] at this
        exact this)
    refine ⟨m', e, g.becomes hWB.2.2.2.2.2 hB (fun i j => narrow_in hlo hhi) (fun _ _ => rfl) rfl fun i j hi hj hb => ?_⟩
    exact hz i j (by omega) (by omega) (by simpa [BView.In, InBand, BView.narrow, hcs, hrs] using hb)
end

end TMV
