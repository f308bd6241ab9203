import Verif.Spec.Band
import Verif.Props.MatReduce
import Mathlib.Tactic.Linarith
import Mathlib.Tactic.Ring

/-! Band matrices: storage, structural zeros, views (properties C36, C37). -/
namespace TMV
variable {K : Type _}

theorem BView.okij_iff (M : BView) (i j : Int) : M.okij i j = true ↔ i - j ≤ M.lo ∧ j - i ≤ M.hi := by
  simp only [BView.okij, decide_eq_true_eq]; omega

/-! ### C36: storage -/

private theorem uniq {n a b s t : Int} (h : a * n + s = b * n + t) (h1 : t - s < n)
    (h2 : s - t < n) : a = b := by
  rcases lt_trichotomy a b with h' | h' | h'
  · nlinarith
  · exact h'
  · nlinarith

/-- **C36** (partial: a `DiagMajor` matrix with more rows than columns, no subdiagonals and at least one
superdiagonal is excluded - there it is false, see `band_storage_violated`).  Every stored element
of a newly constructed (or resized) `BandMatrix` lies inside its array of `BandStorageLength`
elements, and distinct elements have distinct addresses. -/
theorem band_storage_partial (p : Int) (s : Stor) (cs rs : Nat) (lo hi : Int)
    (hlo : 0 ≤ lo) (hhi : 0 ≤ hi) (hl : lo < cs) (hh : hi < rs)
    (hx : ¬ (s = Stor.dm ∧ rs < cs ∧ lo = 0 ∧ 0 < hi)) :
    (∀ i j, InBand cs rs lo hi i j →
      p ≤ (BView.ofStor p s cs rs lo hi).addr i j ∧
      (BView.ofStor p s cs rs lo hi).addr i j < p + bandStorageLength s cs rs lo hi) ∧
    (BView.ofStor p s cs rs lo hi).Inj := by
  constructor
  · rintro i j ⟨h1, h2, h3, h4, h5, h6⟩
    have g0 : ¬ ((cs : Int) = 0 ∨ (rs : Int) = 0) := by omega
    have t0 : 0 ≤ i * (lo + hi) := mul_nonneg h1 (by omega)
    have t1 : 0 ≤ j * (lo + hi) := mul_nonneg h3 (by omega)
    simp only [bandStorageLength, if_neg g0, BView.addr, BView.ofStor]
    cases s
    · simp only [reduceCtorEq, if_true, if_false]
      refine ⟨by omega, ?_⟩
      have key : ∀ c r : Int, i ≤ c - 1 → j ≤ r - 1 →
          p + i * (lo + hi) + j * 1 < p + ((c - 1) * (lo + hi) + r) := by
        intro c r hc hr
        have : i * (lo + hi) ≤ (c - 1) * (lo + hi) := mul_le_mul_of_nonneg_right hc (by omega)
        omega
      split
      · exact key _ _ (by omega) (by omega)
      · apply key <;> (split_ifs <;> omega)
    · simp only [reduceCtorEq, if_true, if_false]
      refine ⟨by omega, ?_⟩
      have key : ∀ c r : Int, i ≤ c - 1 → j ≤ r - 1 →
          p + i * 1 + j * (lo + hi) < p + ((r - 1) * (lo + hi) + c) := by
        intro c r hc hr
        have : j * (lo + hi) ≤ (r - 1) * (lo + hi) := mul_le_mul_of_nonneg_right hr (by omega)
        omega
      split
      · rename_i e
        have := key cs rs (by omega) (by omega)
        rw [← e] at this; exact this
      · apply key <;> (split_ifs <;> omega)
    · simp only [reduceCtorEq, if_true, if_false]
      by_cases hc : (rs : Nat) ≥ cs
      · simp only [if_pos hc]
        have e : p - lo * (1 - (cs : Int)) + i * (1 - cs) + j * (-(1 - (cs : Int)) + 1) =
            p + ((j - i + lo) * (cs - 1) + j) := by ring
        rw [e]
        have b1 : 0 ≤ (j - i + lo) * ((cs : Int) - 1) := mul_nonneg (by omega) (by omega)
        have b2 : (j - i + lo) * ((cs : Int) - 1) ≤ (lo + hi) * ((cs : Int) - 1) :=
          mul_le_mul_of_nonneg_right (by omega) (by omega)
        refine ⟨by omega, ?_⟩
        have b3 : (lo + hi) * ((cs : Int) - 1) = (cs - 1) * (lo + hi) := by ring
        split
        · omega
        · rw [if_neg (show ¬ ((cs : Int) > rs + lo) by omega)]
          split_ifs <;> omega
      · simp only [if_neg hc]
        have e : p - lo * (-(rs : Int)) + i * (-rs) + j * (-(-(rs : Int)) + 1) =
            p + ((j - i + lo) * rs + j) := by ring
        rw [e]
        have b1 : 0 ≤ (j - i + lo) * (rs : Int) := mul_nonneg (by omega) (by omega)
        have b2 : (j - i + lo) * (rs : Int) ≤ (lo + hi) * (rs : Int) :=
          mul_le_mul_of_nonneg_right (by omega) (by omega)
        refine ⟨by omega, ?_⟩
        rw [if_neg (show ¬ ((cs : Int) = rs) by omega)]
        have b3 : (rs : Int) * (lo + hi + 1) = (lo + hi) * rs + rs := by ring
        by_cases hl0 : lo = 0
        · have hh0 : hi = 0 := by
            by_contra h
            exact hx ⟨rfl, by omega, hl0, by omega⟩
          subst hl0; subst hh0
          split_ifs <;> simp <;> simp at b2 <;> omega
        · split_ifs <;> omega
  · rintro i j i' j' ⟨h1, h2, h3, h4, h5, h6⟩ ⟨k1, k2, k3, k4, k5, k6⟩ e
    simp only [BView.ofStor] at h1 h2 h3 h4 h5 h6 k1 k2 k3 k4 k5 k6
    simp only [BView.addr, BView.ofStor] at e
    cases s
    · simp only [reduceCtorEq, if_true, if_false] at e
      have : i = i' := uniq (n := lo + hi + 1) (s := j - i) (t := j' - i') (by linarith)
        (by omega) (by omega)
      subst this
      exact ⟨rfl, by omega⟩
    · simp only [reduceCtorEq, if_true, if_false] at e
      have : j = j' := uniq (n := lo + hi + 1) (s := i - j) (t := i' - j') (by linarith)
        (by omega) (by omega)
      subst this
      exact ⟨by omega, rfl⟩
    · simp only [reduceCtorEq, if_true, if_false] at e
      by_cases hc : (rs : Nat) ≥ cs
      · simp only [if_pos hc] at e
        have : j - i = j' - i' := uniq (n := (cs : Int)) (s := i) (t := i') (by linarith)
          (by omega) (by omega)
        have e2 : (j - i) * (cs : Int) + i = (j' - i') * cs + i' := by linarith
        rw [this] at e2
        omega
      · simp only [if_neg hc] at e
        have : j - i = j' - i' := uniq (n := (rs : Int)) (s := j) (t := j') (by linarith)
          (by omega) (by omega)
        have e2 : (j - i) * (rs : Int) + j = (j' - i') * rs + j' := by linarith
        rw [this] at e2
        omega

example : InBand 5 7 1 2 3 5 ∧ ¬ (Stor.dm = Stor.dm ∧ 7 < 5 ∧ (1 : Int) = 0 ∧ (0 : Int) < 2) := by
  constructor
  · decide
  · decide

/-- **C36 is violated**: a 5x3 `DiagMajor` band matrix with `nlo=0, nhi=2` gets an array of 7 elements,
but its element (0,2) is at offset 8: writing it is a heap overflow. -/
theorem band_storage_violated :
    bandStorageLength Stor.dm 5 3 0 2 = 7 ∧ InBand 5 3 0 2 0 2 ∧
    (BView.ofStor 0 Stor.dm 5 3 0 2).addr 0 2 = 8 := by
  refine ⟨by decide, by decide, by decide⟩

/-- The overflow happens for every such shape. -/
theorem band_storage_violated_all (p : Int) (cs rs : Nat) (hi : Int) (hc : rs < cs) (hh : 0 < hi)
    (hr : hi < rs) :
    InBand cs rs 0 hi 0 hi ∧ InBand cs rs 0 hi (rs - 1 - hi) (rs - 1) ∧
    p + bandStorageLength Stor.dm cs rs 0 hi ≤
      (BView.ofStor p Stor.dm cs rs 0 hi).addr (rs - 1 - hi) (rs - 1) := by
  refine ⟨by unfold InBand; omega, by unfold InBand; omega, ?_⟩
  simp only [bandStorageLength, BView.addr, BView.ofStor]
  rw [if_neg (by omega), if_neg (by omega), if_neg (by simp), if_neg (by simp)]
  rw [if_pos (show (cs : Int) > rs + 0 by omega), if_neg (show ¬ rs ≥ cs by omega)]
  rw [if_neg (show ¬ ((rs : Int) > rs + 0 + hi) by omega), if_neg (by omega)]
  simp only [reduceCtorEq, if_true, if_false]
  nlinarith

/-- The memory of a new `BandMatrix` with `n` elements at `p`. -/
def bandAlloc (p n : Int) (z : Int → K) : Mem K :=
  fun a => if p ≤ a ∧ a < p + n then some (z a) else none

/-- **C36**: so every stored element of a new matrix can be read and written. -/
theorem band_new_live_partial (p : Int) (s : Stor) (cs rs : Nat) (lo hi : Int) (z : Int → K)
    (hlo : 0 ≤ lo) (hhi : 0 ≤ hi) (hl : lo < cs) (hh : hi < rs)
    (hx : ¬ (s = Stor.dm ∧ rs < cs ∧ lo = 0 ∧ 0 < hi)) :
    (BView.ofStor p s cs rs lo hi).WF ∧
    (BView.ofStor p s cs rs lo hi).Live (bandAlloc p (bandStorageLength s cs rs lo hi) z) := by
  obtain ⟨h1, h2⟩ := band_storage_partial p s cs rs lo hi hlo hhi hl hh hx
  refine ⟨⟨hlo, hhi, Or.inr hl, Or.inr hh, ?_, h2⟩, ?_⟩
  · simp only [BView.ofStor]; cases s <;> simp; omega
  · intro i j h
    simp only [bandAlloc]
    rw [if_pos (h1 i j h)]; rfl

/-! ### C37: element access -/

/-- **C37**: outside the band every element reads 0, whatever the memory contains. -/
theorem band_cref_zero [Star K] [Zero K] (M : BView) (m : Mem K) (i j : Int)
    (h : ¬ (i - j ≤ M.lo ∧ j - i ≤ M.hi)) : M.cref m i j = some 0 := by
  unfold BView.cref
  rw [if_neg (by rw [M.okij_iff]; exact h)]

theorem band_cref_in [Star K] [Zero K] (M : BView) (m : Mem K) (i j : Int) (h : M.In i j) :
    M.cref m i j = (m (M.addr i j)).map (cj M.conj) := by
  unfold BView.cref
  rw [if_pos (by rw [M.okij_iff]; exact h.2.2.2.2)]; rfl

/-- **C37**: reading any element of a live band matrix is defined. -/
theorem band_cref_total [Star K] [Zero K] (M : BView) (m : Mem K) (hl : M.Live m) (i j : Int)
    (h : InRect M.cs M.rs i j) : (M.cref m i j).isSome := by
  by_cases hb : i - j ≤ M.lo ∧ j - i ≤ M.hi
  · have hi : M.In i j := ⟨h.1, h.2.1, h.2.2.1, h.2.2.2, hb.1, hb.2⟩
    rw [band_cref_in M m i j hi]
    have := hl i j hi
    revert this; cases m (M.addr i j) <;> simp
  · rw [band_cref_zero M m i j hb]; rfl

/-- **C37**: writing a stored element changes that element and nothing else. -/
theorem band_write [InvolutiveStar K] [Zero K] (M : BView) (hW : M.Inj) (m : Mem K) (hl : M.Live m)
    (i j : Int) (h : M.In i j) (x : K) :
    ∃ m', M.setRef i j x m = some m' ∧ M.cref m' i j = some x ∧
      (∀ i' j', InRect M.cs M.rs i' j' → (i', j') ≠ (i, j) → M.cref m' i' j' = M.cref m i' j') ∧
      (∀ a, a ≠ M.addr i j → m' a = m a) := by
  refine ⟨_, Mem.write_of_isSome _ (hl i j h), ?_, ?_, ?_⟩
  · rw [band_cref_in M _ i j h]; simp [cj_cj]
  · intro i' j' hr hne
    by_cases hb : i' - j' ≤ M.lo ∧ j' - i' ≤ M.hi
    · have hi : M.In i' j' := ⟨hr.1, hr.2.1, hr.2.2.1, hr.2.2.2, hb.1, hb.2⟩
      rw [band_cref_in M _ _ _ hi, band_cref_in M _ _ _ hi]
      rw [if_neg]
      intro e
      obtain ⟨a, b⟩ := hW _ _ _ _ hi h e
      exact hne (by rw [a, b])
    · rw [band_cref_zero M _ _ _ hb, band_cref_zero M _ _ _ hb]
  · intro a ha; simp [ha]

/-! ### C37: vector views -/

/-- **C37** `row(i,j1,j2)`. -/
theorem band_row3 [Star K] [Zero K] (M : BView) (m : Mem K) (i j1 j2 : Int)
    (h : j1 = j2 ∨ (M.In i j1 ∧ M.In i (j2 - 1) ∧ j1 ≤ j2)) :
    ((M.row3 i j1 j2).size : Int) = j2 - j1 ∧
    ∀ k : Nat, k < (M.row3 i j1 j2).size →
      M.In i (j1 + k) ∧ (M.row3 i j1 j2).addr k = M.addr i (j1 + k) ∧
      (M.row3 i j1 j2).cref m k = M.cref m i (j1 + k) := by
  simp only [BView.row3, BView.In, InBand] at h ⊢
  refine ⟨by omega, ?_⟩
  intro k hk
  have hin : M.In i (j1 + k) := by simp only [BView.In, InBand]; omega
  have ea : M.ptr + i * M.si + j1 * M.sj + k * M.sj = M.addr i (j1 + k) := by
    simp only [BView.addr]; ring
  refine ⟨hin, ea, ?_⟩
  rw [band_cref_in M m _ _ hin, ← ea]; rfl

/-- **C37** `col(j,i1,i2)`. -/
theorem band_col3 [Star K] [Zero K] (M : BView) (m : Mem K) (j i1 i2 : Int)
    (h : i1 = i2 ∨ (M.In i1 j ∧ M.In (i2 - 1) j ∧ i1 ≤ i2)) :
    ((M.col3 j i1 i2).size : Int) = i2 - i1 ∧
    ∀ k : Nat, k < (M.col3 j i1 i2).size →
      M.In (i1 + k) j ∧ (M.col3 j i1 i2).addr k = M.addr (i1 + k) j ∧
      (M.col3 j i1 i2).cref m k = M.cref m (i1 + k) j := by
  simp only [BView.col3, BView.In, InBand] at h ⊢
  refine ⟨by omega, ?_⟩
  intro k hk
  have hin : M.In (i1 + k) j := by simp only [BView.In, InBand]; omega
  have ea : M.ptr + i1 * M.si + j * M.sj + k * M.si = M.addr (i1 + k) j := by
    simp only [BView.addr]; ring
  refine ⟨hin, ea, ?_⟩
  rw [band_cref_in M m _ _ hin, ← ea]; rfl

/-- **C37** `diag(d,j1,j2)`, for any diagonal of the band. -/
theorem band_diag3 [Star K] [Zero K] (M : BView) (hsd : M.sd = M.si + M.sj) (m : Mem K)
    (d j1 j2 : Int) (hd : -M.lo ≤ d ∧ d ≤ M.hi) (h1 : 0 ≤ j1) (h12 : j1 ≤ j2)
    (h2 : j2 ≤ if d ≥ 0 then min ((M.rs : Int) - d) M.cs else min ((M.cs : Int) + d) M.rs) :
    ((M.diag3 d j1 j2).size : Int) = j2 - j1 ∧
    ∀ k : Nat, k < (M.diag3 d j1 j2).size →
      M.In (max (-d) 0 + j1 + k) (max d 0 + j1 + k) ∧
      (M.diag3 d j1 j2).addr k = M.addr (max (-d) 0 + j1 + k) (max d 0 + j1 + k) ∧
      (M.diag3 d j1 j2).cref m k = M.cref m (max (-d) 0 + j1 + k) (max d 0 + j1 + k) := by
  have hs : ((M.diag3 d j1 j2).size : Int) = j2 - j1 := by
    unfold BView.diag3; split <;> (dsimp only; omega)
  refine ⟨hs, ?_⟩
  intro k hk
  have hin : M.In (max (-d) 0 + j1 + k) (max d 0 + j1 + k) := by
    simp only [BView.In, InBand]
    split at h2 <;> omega
  have ea : (M.diag3 d j1 j2).addr k = M.addr (max (-d) 0 + j1 + k) (max d 0 + j1 + k) := by
    unfold BView.diag3
    split
    · rename_i hd0
      rw [max_eq_right (show -d ≤ 0 by omega), max_eq_left (show 0 ≤ d by omega)]
      simp only [BView.addr, VView.addr, hsd]; ring
    · rename_i hd0
      rw [max_eq_left (show 0 ≤ -d by omega), max_eq_right (show d ≤ 0 by omega)]
      simp only [BView.addr, VView.addr, hsd]; ring
  refine ⟨hin, ea, ?_⟩
  rw [band_cref_in M m _ _ hin, ← ea, VView.cref]
  have : (M.diag3 d j1 j2).conj = M.conj := by unfold BView.diag3; split <;> rfl
  rw [this]; rfl

/-- `diag(d)` is `diag(d,0,length)`. -/
theorem BView.diagOff_eq (M : BView) (d : Int) :
    M.diagOff d = M.diag3 d 0
      (if d ≥ 0 then min ((M.rs : Int) - d) M.cs else min ((M.cs : Int) + d) M.rs) := by
  unfold BView.diagOff BView.diag3
  split
  · simp [min_comm]
  · simp

theorem BView.diag_eq (M : BView) : M.diag = M.diagOff 0 := by
  unfold BView.diag BView.diagOff
  simp; omega

/-- **C37** `diag(d)`: all elements of the `d`-th diagonal. -/
theorem band_diagOff [Star K] [Zero K] (M : BView) (hW : M.WF) (m : Mem K) (d : Int)
    (hd : -M.lo ≤ d ∧ d ≤ M.hi) (h0 : 0 < M.cs ∧ 0 < M.rs) :
    (∀ k : Nat, k < (M.diagOff d).size →
      M.In (max (-d) 0 + k) (max d 0 + k) ∧
      (M.diagOff d).addr k = M.addr (max (-d) 0 + k) (max d 0 + k) ∧
      (M.diagOff d).cref m k = M.cref m (max (-d) 0 + k) (max d 0 + k)) ∧
    (∀ i j, M.In i j → j - i = d → ∃ k : Nat, k < (M.diagOff d).size ∧
      i = max (-d) 0 + k ∧ j = max d 0 + k) := by
  obtain ⟨w1, w2, w3, w4, w5, w6⟩ := hW
  rw [BView.diagOff_eq]
  obtain ⟨hs, h⟩ := band_diag3 M w5 m d 0 _ hd le_rfl (by split <;> omega) le_rfl
  refine ⟨fun k hk => by simpa using h k hk, ?_⟩
  intro i j hij e
  simp only [BView.In, InBand] at hij
  refine ⟨(min i j).toNat, ?_, by omega, by omega⟩
  have : ((min i j).toNat : Int) = min i j := by omega
  zify; rw [hs, this]
  split <;> omega

/-! ### C37: matrix views -/

theorem BView.Shows.inj {V M : BView} {a b : Int} {keep : Int → Int → Prop} (h : V.Shows M a b keep)
    (hM : M.Inj) : V.Inj := by
  intro i j i' j' h1 h2 e
  rw [(h i j).2, (h i' j').2] at e
  obtain ⟨e1, e2⟩ := hM _ _ _ _ ((h i j).1.mp h1).1 ((h i' j').1.mp h2).1 e
  omega

theorem BView.Shows.live {V M : BView} {a b : Int} {keep : Int → Int → Prop} (h : V.Shows M a b keep)
    {m : Mem K} (hl : M.Live m) : V.Live m := by
  intro i j h1
  rw [(h i j).2]; exact hl _ _ ((h i j).1.mp h1).1

/-- What `Shows` means for the user: the view reads the parent's elements where `keep` holds and 0
elsewhere. -/
theorem BView.Shows.cref [Star K] [Zero K] {V M : BView} {a b : Int} {keep : Int → Int → Prop}
    (h : V.Shows M a b keep) (hc : V.conj = M.conj) (m : Mem K) (i j : Int)
    (hr : InRect V.cs V.rs i j) :
    (M.In (i + a) (j + b) ∧ keep (i + a) (j + b) → V.cref m i j = M.cref m (i + a) (j + b)) ∧
    (¬ (M.In (i + a) (j + b) ∧ keep (i + a) (j + b)) → V.cref m i j = some 0) := by
  constructor
  · intro hk
    rw [band_cref_in V m _ _ ((h i j).1.mpr hk), band_cref_in M m _ _ hk.1, (h i j).2, hc]
  · intro hk
    rw [← (h i j).1] at hk
    apply band_cref_zero
    intro hb
    exact hk ⟨hr.1, hr.2.1, hr.2.2.1, hr.2.2.2, hb.1, hb.2⟩

private theorem shift_addr (M : BView) (a b i j : Int) (V : BView)
    (hp : V.ptr = M.ptr + a * M.si + b * M.sj) (h1 : V.si = M.si) (h2 : V.sj = M.sj) :
    V.addr i j = M.addr (i + a) (j + b) := by
  simp only [BView.addr, hp, h1, h2]; ring

private theorem rangeCheck_one {n : Nat} {i1 i2 : Int}
    (h : MView.rangeCheck n i1 i2 1 = some true) : 0 ≤ i1 ∧ i1 ≤ i2 ∧ i2 ≤ n := by
  simp only [MView.rangeCheck] at h
  rw [if_neg (by norm_num)] at h
  simp only [Int.tmod_one, Int.tdiv_one, Option.some.injEq] at h
  split at h
  · cases h
  split at h
  · cases h
  split at h
  · cases h
  split at h
  · cases h
  omega

/-- **C37** `subBandMatrix(i1,i2,j1,j2,newnlo,newnhi)`: if `hasSubBandMatrix` accepts the arguments,
the view shows exactly the rectangle's elements on the chosen diagonals, and they are all stored
elements of the parent. -/
theorem band_subBand6 (M : BView) (i1 i2 j1 j2 nl nh : Int)
    (h : M.hasSubBand i1 i2 j1 j2 nl nh 1 1 = some true) :
    (M.subBand6 i1 i2 j1 j2 nl nh).Shows M i1 j1 (fun i j => i1 ≤ i ∧ i < i2 ∧ j1 ≤ j ∧ j < j2 ∧
      (i - i1) - (j - j1) ≤ nl ∧ (j - j1) - (i - i1) ≤ nh) ∧
    ∀ i j, i1 ≤ i → i < i2 → j1 ≤ j → j < j2 → (i - i1) - (j - j1) ≤ nl → (j - j1) - (i - i1) ≤ nh →
      M.In i j := by
  have key : ∀ i j, i1 ≤ i → i < i2 → j1 ≤ j → j < j2 → (i - i1) - (j - j1) ≤ nl →
      (j - j1) - (i - i1) ≤ nh → M.In i j := by
    intro i j a1 a2 a3 a4 a5 a6
    unfold BView.hasSubBand at h
    rw [if_neg (by omega)] at h
    simp only [Option.bind_eq_bind, Option.bind_eq_some_iff] at h
    obtain ⟨x, hx, y, hy, h⟩ := h
    simp only [Bool.not_eq_true', Option.some.injEq] at h
    split at h
    · cases h
    split at h
    · cases h
    split at h
    · cases h
    split at h
    · cases h
    split at h
    · cases h
    rename_i n5 n4 n3 n2 n1
    simp only [Bool.not_eq_false] at n1 n2 n3
    rw [M.okij_iff] at n1 n2 n3
    simp only [Bool.and_eq_true] at h
    obtain ⟨rfl, rfl⟩ := h
    have r1 := rangeCheck_one hx
    have r2 := rangeCheck_one hy
    simp only [BView.In, InBand]
    omega
  refine ⟨?_, key⟩
  intro i j
  refine ⟨?_, shift_addr M i1 j1 i j _ rfl rfl rfl⟩
  constructor
  · intro hV
    simp only [BView.In, InBand, BView.subBand6] at hV
    have := key (i + i1) (j + j1) (by omega) (by omega) (by omega) (by omega) (by omega) (by omega)
    exact ⟨this, by omega⟩
  · rintro ⟨_, hk⟩
    simp only [BView.In, InBand, BView.subBand6]
    omega

/-- **C37** `subBandMatrix(i1,i2,j1,j2)`: everything of the parent's band inside the rectangle. -/
theorem band_subBand4 (M : BView) (i1 i2 j1 j2 : Int) (h1 : 0 ≤ i1) (h2 : i2 ≤ M.cs) (h3 : 0 ≤ j1)
    (h4 : j2 ≤ M.rs) :
    (M.subBand4 i1 i2 j1 j2).Shows M i1 j1 (fun i j => i1 ≤ i ∧ i < i2 ∧ j1 ≤ j ∧ j < j2) := by
  intro i j
  refine ⟨?_, shift_addr M i1 j1 i j _ rfl rfl rfl⟩
  simp only [BView.In, InBand, BView.subBand4, BView.subBand6]
  omega

/-- The rows `i1..i2-1` for which `rowRange` is right (found by comparing with the code: `newnhi` is
`nlo+nhi-newnlo`, which is only right if `newnlo` was not cut off by `i2-1`, or if the result does
not have the extra diagonals). -/
def rowRangeOK (M : BView) (i1 i2 : Int) : Prop :=
  M.lo ≤ i1 ∨ M.lo ≤ i2 - 1 ∨ i2 ≤ i1 + 1 ∨ (M.rs : Int) ≤ i1 + M.hi + 1

/-- **C37** `rowRange(i1,i2)` (partial: `rowRangeOK`; see `band_rowRange_violated`): shows exactly the
stored elements in those rows. -/
theorem band_rowRange_partial (M : BView) (hW : M.WF) (i1 i2 : Int) (h1 : 0 ≤ i1) (h12 : i1 ≤ i2)
    (h2 : i2 ≤ M.cs) (hok : rowRangeOK M i1 i2) :
    (M.rowRange i1 i2).Shows M i1 (if i1 > M.lo then i1 - M.lo else 0)
      (fun i _ => i1 ≤ i ∧ i < i2) := by
  obtain ⟨w1, w2, w3, w4, w5, w6⟩ := hW
  intro i j
  refine ⟨?_, shift_addr M _ _ i j _ rfl rfl rfl⟩
  simp only [rowRangeOK] at hok
  simp only [BView.In, InBand, BView.rowRange]
  split_ifs <;> omega

/-- **C37** `colRange(j1,j2)` (partial as `rowRange`): shows exactly the stored elements in those
columns. -/
theorem band_colRange_partial (M : BView) (hW : M.WF) (j1 j2 : Int) (h1 : 0 ≤ j1) (h12 : j1 ≤ j2)
    (h2 : j2 ≤ M.rs) (hok : rowRangeOK M.transpose j1 j2) :
    (M.colRange j1 j2).Shows M (if j1 > M.hi then j1 - M.hi else 0) j1
      (fun _ j => j1 ≤ j ∧ j < j2) := by
  obtain ⟨w1, w2, w3, w4, w5, w6⟩ := hW
  intro i j
  refine ⟨?_, shift_addr M _ _ i j _ rfl rfl rfl⟩
  simp only [rowRangeOK, BView.transpose] at hok
  simp only [BView.In, InBand, BView.colRange]
  split_ifs <;> omega

/-- **C37** the view `rowRange(i1,i2)` of at least one row is again a well-formed band view (partial:
`rowRangeOK`, and rows that are not entirely below the band, where `rowRangeRs` is negative). -/
theorem band_rowRange_wf_partial (M : BView) (hW : M.WF) (i1 i2 : Int) (h1 : 0 ≤ i1) (h12 : i1 < i2)
    (h2 : i2 ≤ M.cs) (hrs : i1 - M.lo ≤ M.rs) (hok : rowRangeOK M i1 i2) :
    (M.rowRange i1 i2).WF := by
  have hI := (band_rowRange_partial M hW i1 i2 h1 (by omega) h2 hok).inj hW.2.2.2.2.2
  obtain ⟨w1, w2, w3, w4, w5, w6⟩ := hW
  refine ⟨?_, ?_, ?_, ?_, w5, hI⟩ <;> simp only [BView.rowRange] <;> split_ifs <;> omega

/-- **C37** the view `colRange(j1,j2)` of at least one column is again a well-formed band view. -/
theorem band_colRange_wf_partial (M : BView) (hW : M.WF) (j1 j2 : Int) (h1 : 0 ≤ j1) (h12 : j1 < j2)
    (h2 : j2 ≤ M.rs) (hcs : j1 - M.hi ≤ M.cs) (hok : rowRangeOK M.transpose j1 j2) :
    (M.colRange j1 j2).WF := by
  have hI := (band_colRange_partial M hW j1 j2 h1 (by omega) h2 hok).inj hW.2.2.2.2.2
  obtain ⟨w1, w2, w3, w4, w5, w6⟩ := hW
  refine ⟨?_, ?_, ?_, ?_, w5, hI⟩ <;> simp only [BView.colRange] <;> split_ifs <;> omega

/-- Example: rows 2,3 of a 5x7 matrix with two sub- and one superdiagonals. -/
example : (BView.ofStor 0 Stor.cm 5 7 2 1).WF ∧ rowRangeOK (BView.ofStor 0 Stor.cm 5 7 2 1) 2 4 :=
  ⟨(band_new_live_partial 0 Stor.cm 5 7 2 1 (fun _ => (0 : Int)) (by decide) (by decide) (by decide)
    (by decide) (by decide)).1, Or.inl (by decide)⟩

/-- **C37 is violated** by `rowRange`: rows 0,1 of a 5x5 column-major matrix with `nlo=3, nhi=0` get a
view with a superdiagonal, whose element (0,1) is not 0 as in the parent but the memory of the
parent's (3,0). -/
theorem band_rowRange_violated :
    let M := BView.ofStor 0 Stor.cm 5 5 3 0
    let V := M.rowRange 0 2
    let m : Mem Int := bandAlloc 0 17 (fun a => a + 100)
    V.In 0 1 ∧ ¬ M.In 0 1 ∧ V.addr 0 1 = M.addr 3 0 ∧ M.In 3 0 ∧
      V.cref m 0 1 = some 103 ∧ M.cref m 0 1 = some 0 := by
  decide

/-- The same for `colRange`. -/
theorem band_colRange_violated :
    let M := BView.ofStor 0 Stor.rm 5 5 0 3
    let V := M.colRange 0 2
    V.In 1 0 ∧ ¬ M.In 1 0 ∧ V.addr 1 0 = M.addr 0 3 ∧ M.In 0 3 := by
  decide

/-- **C37** `diagRange(k1,k2)`: exactly the diagonals `k1..k2-1`. -/
theorem band_diagRange (M : BView) (k1 k2 : Int) (h1 : -M.lo ≤ k1) (h12 : k1 < k2)
    (h2 : k2 ≤ M.hi + 1) :
    (M.diagRange k1 k2).Shows M (if k2 ≤ 0 then -k2 + 1 else 0) (if k1 ≤ 0 then 0 else k1)
      (fun i j => k1 ≤ j - i ∧ j - i < k2) := by
  intro i j
  refine ⟨?_, shift_addr M _ _ i j _ rfl rfl rfl⟩
  simp only [BView.In, InBand, BView.diagRange]
  split_ifs <;> omega

/-- **C37** `upperBand()`: the diagonal and the superdiagonals. -/
theorem band_upperBand (M : BView) (hlo : 0 ≤ M.lo) :
    M.upperBand.Shows M 0 0 (fun i j => i ≤ j) := by
  intro i j
  refine ⟨?_, by simp [BView.addr, BView.upperBand]⟩
  simp only [BView.In, InBand, BView.upperBand]
  omega

/-- **C37** `lowerBand()`. -/
theorem band_lowerBand (M : BView) (hhi : 0 ≤ M.hi) :
    M.lowerBand.Shows M 0 0 (fun i j => j ≤ i) := by
  intro i j
  refine ⟨?_, by simp [BView.addr, BView.lowerBand]⟩
  simp only [BView.In, InBand, BView.lowerBand]
  omega

/-- **C37** `upperBandOff()`: the superdiagonals. -/
theorem band_upperBandOff (M : BView) (hlo : 0 ≤ M.lo) :
    M.upperBandOff.Shows M 0 1 (fun i j => i < j) := by
  intro i j
  refine ⟨?_, by simp only [BView.addr, BView.upperBandOff]; ring⟩
  simp only [BView.In, InBand, BView.upperBandOff]
  omega

/-- **C37** `lowerBandOff()`: the subdiagonals. -/
theorem band_lowerBandOff (M : BView) (hhi : 0 ≤ M.hi) :
    M.lowerBandOff.Shows M 1 0 (fun i j => j < i) := by
  intro i j
  refine ⟨?_, by simp only [BView.addr, BView.lowerBandOff]; ring⟩
  simp only [BView.In, InBand, BView.lowerBandOff]
  omega

/-- `view()` and `conjugate()`. -/
theorem band_view_shows (M : BView) : M.view.Shows M 0 0 (fun _ _ => True) := by
  intro i j
  simp [BView.In, BView.addr, BView.view]

/-- **C37** `transpose()`, `conjugate()`, `adjoint()`. -/
theorem band_transpose [Star K] [Zero K] (M : BView) (m : Mem K) (i j : Int) :
    (M.transpose.In i j ↔ M.In j i) ∧ M.transpose.addr i j = M.addr j i ∧
    M.transpose.cref m i j = M.cref m j i := by
  have e : M.transpose.addr i j = M.addr j i := by
    simp only [BView.addr, BView.transpose]; ring
  refine ⟨by simp only [BView.In, InBand, BView.transpose]; omega, e, ?_⟩
  unfold BView.cref
  rw [e]
  have : M.transpose.okij i j = M.okij j i := by
    rw [Bool.eq_iff_iff, BView.okij_iff, BView.okij_iff]
    simp only [BView.transpose]; omega
  rw [this]; rfl

theorem band_conjugate [CommRing K] [StarRing K] (M : BView) (m : Mem K) (i j : Int) :
    (M.conjugate.In i j ↔ M.In i j) ∧ M.conjugate.addr i j = M.addr i j ∧
    M.conjugate.cref m i j = (M.cref m i j).map star := by
  refine ⟨Iff.rfl, rfl, ?_⟩
  unfold BView.cref
  have : M.conjugate.okij i j = M.okij i j := rfl
  rw [this]
  split
  · change (m.read (M.addr i j)).map (cj (!M.conj)) = _
    cases m.read (M.addr i j) <;> cases M.conj <;> simp [cj]
  · simp

theorem band_adjoint [CommRing K] [StarRing K] (M : BView) (m : Mem K) (i j : Int) :
    (M.adjoint.In i j ↔ M.In j i) ∧ M.adjoint.addr i j = M.addr j i ∧
    M.adjoint.cref m i j = (M.cref m j i).map star := by
  have e : M.adjoint = { M.transpose.conjugate with ls := M.adjoint.ls } := by
    simp [BView.adjoint, BView.transpose, BView.conjugate]
  obtain ⟨a1, a2, a3⟩ := band_conjugate M.transpose m i j
  obtain ⟨b1, b2, b3⟩ := band_transpose M m i j
  exact ⟨a1.trans b1, a2.trans b2, by rw [← b3]; exact a3⟩

/-- **C37** the band of a full matrix. -/
theorem band_ofMat [Star K] [Zero K] (M : MView) (lo hi : Int) (m : Mem K) (i j : Int)
    (h : i - j ≤ lo ∧ j - i ≤ hi) :
    (BView.ofMat M lo hi).cref m i j = M.cref m i j := by
  unfold BView.cref
  rw [if_pos (by rw [BView.okij_iff]; exact h)]; rfl

/-- **C37** narrowing the band. -/
theorem band_narrow (M : BView) (lo hi : Int) (h1 : lo ≤ M.lo) (h2 : hi ≤ M.hi) :
    (M.narrow lo hi).Shows M 0 0 (fun i j => i - j ≤ lo ∧ j - i ≤ hi) := by
  intro i j
  refine ⟨?_, by simp [BView.addr, BView.narrow]⟩
  simp only [BView.In, InBand, BView.narrow]
  omega

/-! ### C37: rectangular and general vector sub-views -/

private theorem between {s : Int} {a n : Int} (h0 : 0 ≤ a) (h1 : a ≤ n) :
    min 0 (n * s) ≤ a * s ∧ a * s ≤ max 0 (n * s) := by
  rcases le_total 0 s with hs | hs
  · have a1 : a * s ≤ n * s := mul_le_mul_of_nonneg_right h1 hs
    have a2 : 0 ≤ a * s := mul_nonneg h0 hs
    omega
  · have a1 : n * s ≤ a * s := mul_le_mul_of_nonpos_right h1 hs
    have a2 : a * s ≤ 0 := mul_nonpos_of_nonneg_of_nonpos h0 hs
    omega

/-- **C37** `subVector(i,j,istep,jstep,size)`: an accepted nonempty vector consists of stored
elements. -/
theorem band_subVector [Star K] [Zero K] (M : BView) (m : Mem K) (i j istep jstep : Int) (s : Nat)
    (h : M.hasSubVector i j istep jstep s = true) (k : Nat) (hk : k < s) :
    M.In (i + k * istep) (j + k * jstep) ∧
    (M.subVector i j istep jstep s).addr k = M.addr (i + k * istep) (j + k * jstep) ∧
    (M.subVector i j istep jstep s).cref m k = M.cref m (i + k * istep) (j + k * jstep) := by
  have hin : M.In (i + k * istep) (j + k * jstep) := by
    unfold BView.hasSubVector at h
    rw [if_neg (by omega)] at h
    simp only [Bool.not_eq_true'] at h
    split at h
    · cases h
    split at h
    · cases h
    split at h
    · cases h
    split at h
    · cases h
    split at h
    · cases h
    split at h
    · cases h
    rename_i n6 n5 n4 n3 n2 n1
    simp only [Bool.not_eq_false, M.okij_iff] at n6 n5
    have b1 := between (s := istep) (a := k) (n := (s : Int) - 1) (by omega) (by omega)
    have b2 := between (s := jstep) (a := k) (n := (s : Int) - 1) (by omega) (by omega)
    have b3 := between (s := jstep - istep) (a := k) (n := (s : Int) - 1) (by omega) (by omega)
    rw [mul_sub, mul_sub] at b3
    rw [mul_comm istep, mul_comm jstep] at *
    simp only [BView.In, InBand]
    omega
  have ea : (M.subVector i j istep jstep s).addr k = M.addr (i + k * istep) (j + k * jstep) := by
    simp only [BView.subVector, VView.addr, BView.addr]; ring
  refine ⟨hin, ea, ?_⟩
  rw [band_cref_in M m _ _ hin, ← ea]; rfl

/-- **C37** `subMatrix(i1,i2,j1,j2,istep,jstep)`: an accepted rectangle consists of stored elements,
for any nonzero steps. -/
theorem band_subMatrix6 [Star K] [Zero K] (M : BView) (m : Mem K) (i1 i2 j1 j2 istep jstep : Int)
    (V : MView) (hV : M.subMatrix6 i1 i2 j1 j2 istep jstep = some V)
    (h : M.hasSubMatrix i1 i2 j1 j2 istep jstep = some true) (i j : Nat) (hi : i < V.cs)
    (hj : j < V.rs) :
    M.In (i1 + i * istep) (j1 + j * jstep) ∧
    V.addr i j = M.addr (i1 + i * istep) (j1 + j * jstep) ∧
    V.cref m i j = M.cref m (i1 + i * istep) (j1 + j * jstep) := by
  unfold BView.subMatrix6 at hV
  split at hV
  · cases hV
  rename_i h0
  rw [not_or] at h0
  simp only [Option.some.injEq] at hV
  subst hV
  simp only at hi hj
  have hne : ¬ (i1 = i2 ∨ j1 = j2) := by
    rintro (rfl | rfl)
    · simp at hi
    · simp at hj
  have hin : M.In (i1 + i * istep) (j1 + j * jstep) := by
    unfold BView.hasSubMatrix at h
    rw [if_neg hne] at h
    rw [not_or] at hne
    obtain ⟨a, ha, ha'⟩ := rangeCheck_iff M.cs i1 i2 istep h0.1 hne.1
    obtain ⟨b, hb, hb'⟩ := rangeCheck_iff M.rs j1 j2 jstep h0.2 hne.2
    simp only [ha, hb, Option.bind_eq_bind, Option.bind_some, Option.some.injEq, Bool.not_eq_true'] at h
    split at h
    · cases h
    split at h
    · cases h
    split at h
    · cases h
    split at h
    · cases h
    rename_i n4 n3 n2 n1
    simp only [Bool.not_eq_false, M.okij_iff] at n1 n2 n3 n4
    simp only [Bool.and_eq_true] at h
    obtain ⟨ki, ei, ri⟩ := ha'.mp h.1
    obtain ⟨kj, ej, rj⟩ := hb'.mp h.2
    have si : (i2 - i1).tdiv istep = ki := by
      rw [ei, add_sub_cancel_left]; exact Int.mul_tdiv_cancel _ h0.1
    have sj : (j2 - j1).tdiv jstep = kj := by
      rw [ej, add_sub_cancel_left]; exact Int.mul_tdiv_cancel _ h0.2
    rw [si] at hi
    rw [sj] at hj
    have hi' : i < ki := by simpa using hi
    have hj' : j < kj := by simpa using hj
    have b1 := between (s := istep) (a := i) (n := (ki : Int) - 1) (by omega) (by omega)
    have b2 := between (s := jstep) (a := j) (n := (kj : Int) - 1) (by omega) (by omega)
    have e1 : i2 - istep = i1 + ((ki : Int) - 1) * istep := by rw [ei]; ring
    have e2 : j2 - jstep = j1 + ((kj : Int) - 1) * jstep := by rw [ej]; ring
    rw [e2] at n2
    rw [e1] at n3
    rw [e1, e2] at n4
    have c1 := ri i hi'
    have c2 := rj j hj'
    refine ⟨c1.1, c1.2, c2.1, c2.2, ?_, ?_⟩ <;> omega
  have ea : M.ptr + i1 * M.si + j1 * M.sj + i * (istep * M.si) + j * (jstep * M.sj) =
      M.addr (i1 + i * istep) (j1 + j * jstep) := by simp only [BView.addr]; ring
  refine ⟨hin, ea, ?_⟩
  rw [band_cref_in M m _ _ hin, ← ea]; rfl

example : (BView.ofStor 0 Stor.rm 6 6 2 2).hasSubMatrix 0 3 0 3 1 1 = some true ∧
    (BView.ofStor 0 Stor.rm 6 6 2 2).hasSubMatrix 0 4 2 0 2 (-1) = some true ∧
    (BView.ofStor 0 Stor.rm 6 6 2 2).hasSubVector 2 0 1 2 3 = true ∧
    (BView.ofStor 0 Stor.rm 6 6 2 2).hasSubBand 0 4 1 5 2 1 1 1 = some true := by decide

/-- **C37 is violated** by `subBandMatrix` with steps: `hasSubBandMatrix` accepts (in debug builds) a
view whose element (0,1) is the parent's (0,2), which is outside the parent's band and whose address
is that of (1,0). -/
theorem band_subBand8_violated :
    let M := BView.ofStor 0 Stor.rm 5 5 1 1
    M.hasSubBand 0 4 0 4 1 1 2 2 = some true ∧
    ∃ V, M.subBand8 0 4 0 4 1 1 2 2 = some V ∧ V.In 0 1 ∧ ¬ M.In 0 2 ∧
      V.addr 0 1 = M.addr 0 2 ∧ V.addr 0 1 = M.addr 1 0 ∧ M.In 1 0 := by
  refine ⟨by decide, _, rfl, by decide, by decide, by decide, by decide, by decide⟩

/-- With unit steps it is `subBandMatrix` without steps. -/
theorem band_subBand8_one (M : BView) (hsd : M.sd = M.si + M.sj) (i1 i2 j1 j2 nl nh : Int) :
    M.subBand8 i1 i2 j1 j2 nl nh 1 1 = some (M.subBand6 i1 i2 j1 j2 nl nh) := by
  simp [BView.subBand8, BView.subBand6, hsd]

end TMV
