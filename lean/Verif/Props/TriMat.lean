import Verif.Spec.TriMat
import Verif.Lemmas.Region
import Verif.Props.Band
import Mathlib.Tactic.Linarith
import Mathlib.Tactic.Ring

/-! Triangular matrices: storage, structural zeros and ones, views (properties C39, C63). -/
namespace TMV
variable {K : Type _}

theorem TView.okij_iff (M : TView) (i j : Int) :
    M.okij i j = true ↔ (i < j ∨ (M.unit = false ∧ i = j)) := by
  unfold TView.okij
  cases M.unit <;> simp <;> omega

/-- 1 for an implicit unit diagonal. -/
def ub (b : Bool) : Int := if b then 1 else 0
theorem ub_range (b : Bool) : 0 ≤ ub b ∧ ub b ≤ 1 := by cases b <;> decide
theorem ub_false : ub false = 0 := rfl
theorem ub_true : ub true = 1 := rfl

theorem TView.in_iff (M : TView) (i j : Int) :
    M.In i j ↔ 0 ≤ i ∧ i < M.n ∧ 0 ≤ j ∧ j < M.n ∧ i + ub M.unit ≤ j := by
  unfold TView.In
  cases M.unit <;> simp [ub] <;> omega

theorem LView.in_iff (M : LView) (i j : Int) :
    M.In i j ↔ 0 ≤ i ∧ i < M.n ∧ 0 ≤ j ∧ j < M.n ∧ j + ub M.unit ≤ i := by
  unfold LView.In
  cases M.unit <;> simp [ub] <;> omega

theorem TView.okij_iff' (M : TView) (i j : Int) : M.okij i j = true ↔ i + ub M.unit ≤ j := by
  unfold TView.okij
  cases M.unit <;> simp [ub] <;> omega

theorem off_iff (b : Bool) (d : Int) : (0 < d ∨ (b = false ∧ d = 0)) ↔ ub b ≤ d := by
  cases b <;> simp [ub] <;> omega

/-! ### C39: elements -/

/-- **C39**: every element below the diagonal reads 0, whatever the memory contains. -/
theorem tri_cref_zero [Star K] [Zero K] [One K] (M : TView) (m : Mem K) (i j : Int) (h : j < i) :
    M.cref m i j = some 0 := by
  unfold TView.cref
  rw [if_neg (by omega), if_pos h]

/-- **C39**: every diagonal element of a unit-diagonal matrix reads 1. -/
theorem tri_cref_one [Star K] [Zero K] [One K] (M : TView) (m : Mem K) (i : Int) (h : M.unit = true) :
    M.cref m i i = some 1 := by
  unfold TView.cref
  rw [if_pos ⟨h, rfl⟩]

theorem tri_cref_in [Star K] [Zero K] [One K] (M : TView) (m : Mem K) (i j : Int) (h : M.In i j) :
    M.cref m i j = (m (M.addr i j)).map (cj M.conj) := by
  obtain ⟨_, _, _, _, h⟩ := h
  unfold TView.cref
  rw [if_neg, if_neg (by omega)]; · rfl
  rintro ⟨a, b⟩
  rcases h with h | h
  · omega
  · rw [h.1] at a; cases a

theorem tri_cref_mid [Star K] [Zero K] [One K] (M : TView) (m : Mem K) (i j : Int)
    (h : i + ub M.unit ≤ j) : M.cref m i j = (m (M.addr i j)).map (cj M.conj) := by
  have hu := ub_range M.unit
  unfold TView.cref
  rw [if_neg, if_neg (by omega)]; · rfl
  rintro ⟨a, b⟩
  rw [a] at h; simp only [ub_true] at h; omega

theorem lower_cref_zero [Star K] [Zero K] [One K] (M : LView) (m : Mem K) (i j : Int) (h : i < j) :
    M.cref m i j = some 0 := by
  unfold LView.cref
  rw [if_neg (by omega), if_pos h]

theorem lower_cref_one [Star K] [Zero K] [One K] (M : LView) (m : Mem K) (i : Int) (h : M.unit = true) :
    M.cref m i i = some 1 := by
  unfold LView.cref
  rw [if_pos ⟨h, rfl⟩]

theorem lower_cref_mid [Star K] [Zero K] [One K] (M : LView) (m : Mem K) (i j : Int)
    (h : j + ub M.unit ≤ i) : M.cref m i j = (m (M.addr i j)).map (cj M.conj) := by
  have hu := ub_range M.unit
  unfold LView.cref
  rw [if_neg, if_neg (by omega)]; · rfl
  rintro ⟨a, b⟩
  rw [a] at h; simp only [ub_true] at h; omega

/-- Every index pair is above, below, or on a unit diagonal. -/
theorem tri_cases3 (u : Bool) (i j : Int) : i + ub u ≤ j ∨ j < i ∨ (u = true ∧ i = j) := by
  cases u <;> simp [ub] <;> omega

/-- Every index pair is stored, or a structural 0, or an implicit 1. -/
theorem tri_cases (M : TView) (i j : Int) (hi : 0 ≤ i) (hi' : i < M.n) (hj : 0 ≤ j) (hj' : j < M.n) :
    M.In i j ∨ j < i ∨ (M.unit = true ∧ i = j) := by
  simp only [TView.In]
  cases M.unit <;> simp <;> omega

/-- **C39**: reading any element of a live triangular matrix is defined. -/
theorem tri_cref_total [Star K] [Zero K] [One K] (M : TView) (m : Mem K) (hl : M.Live m) (i j : Int)
    (hi : 0 ≤ i) (hi' : i < M.n) (hj : 0 ≤ j) (hj' : j < M.n) : (M.cref m i j).isSome := by
  rcases tri_cases M i j hi hi' hj hj' with h | h | ⟨h, rfl⟩
  · rw [tri_cref_in M m i j h]
    have := hl i j h
    revert this; cases m (M.addr i j) <;> simp
  · rw [tri_cref_zero M m i j h]; rfl
  · rw [tri_cref_one M m i h]; rfl

/-- **C39**: writing a stored element changes that element and nothing else. -/
theorem tri_write [InvolutiveStar K] [Zero K] [One K] (M : TView) (hW : M.Inj) (m : Mem K)
    (hl : M.Live m) (i j : Int) (h : M.In i j) (x : K) :
    ∃ m', M.setRef i j x m = some m' ∧ M.cref m' i j = some x ∧
      (∀ i' j' : Int, 0 ≤ i' → i' < M.n → 0 ≤ j' → j' < M.n → (i', j') ≠ (i, j) →
        M.cref m' i' j' = M.cref m i' j') ∧
      (∀ a, a ≠ M.addr i j → m' a = m a) := by
  have hne : ¬ (M.unit = true ∧ i = j) := by
    rintro ⟨a, b⟩
    rcases h.2.2.2.2 with h | h
    · omega
    · rw [h.1] at a; cases a
  unfold TView.setRef
  rw [if_neg hne]
  refine ⟨_, Mem.write_of_isSome _ (hl i j h), ?_, ?_, ?_⟩
  · rw [tri_cref_in M _ i j h]; simp [cj_cj]
  · intro i' j' h1 h2 h3 h4 hne
    rcases tri_cases M i' j' h1 h2 h3 h4 with hi | hi | ⟨hi, rfl⟩
    · rw [tri_cref_in M _ _ _ hi, tri_cref_in M _ _ _ hi]
      rw [if_neg]
      intro e
      obtain ⟨a, b⟩ := hW _ _ _ _ hi h e
      exact hne (by rw [a, b])
    · rw [tri_cref_zero M _ _ _ hi, tri_cref_zero M _ _ _ hi]
    · rw [tri_cref_one M _ _ hi, tri_cref_one M _ _ hi]
  · intro a ha; simp [ha]

/-- **C39**: writing to a diagonal element of a unit-diagonal matrix stores nothing. -/
theorem tri_write_unit [Star K] (M : TView) (m : Mem K) (i : Int) (h : M.unit = true) (x : K) :
    M.setRef i i x m = some m := by
  unfold TView.setRef
  rw [if_pos ⟨h, rfl⟩]

/-! ### C39: storage -/

/-- **C39**: every stored element of a new `UpperTriMatrix` is inside its array of `n*n` elements, and
distinct elements have distinct addresses. -/
theorem tri_storage (p : Int) (n : Nat) (rm unit : Bool) :
    (∀ i j, (TView.ofStor p n rm unit).In i j →
      p ≤ (TView.ofStor p n rm unit).addr i j ∧
      (TView.ofStor p n rm unit).addr i j < p + (n : Int) * n) ∧
    (TView.ofStor p n rm unit).WF := by
  refine ⟨?_, ?_, ?_, ?_⟩
  · rintro i j ⟨h1, h2, h3, h4, _⟩
    simp only [TView.ofStor] at h2 h4
    cases rm
    · simp only [TView.addr, TView.ofStor, Bool.false_eq_true, if_false]
      constructor <;> nlinarith
    · simp only [TView.addr, TView.ofStor, if_true]
      constructor <;> nlinarith
  · rintro i j i' j' ⟨h1, h2, h3, h4, _⟩ ⟨k1, k2, k3, k4, _⟩ e
    simp only [TView.ofStor] at h2 h4 k2 k4
    cases rm
    · simp only [TView.addr, TView.ofStor, Bool.false_eq_true, if_false] at e
      have : j = j' := by
        rcases lt_trichotomy j j' with h | h | h
        · nlinarith
        · exact h
        · nlinarith
      subst this
      exact ⟨by linarith, rfl⟩
    · simp only [TView.addr, TView.ofStor, if_true] at e
      have : i = i' := by
        rcases lt_trichotomy i i' with h | h | h
        · nlinarith
        · exact h
        · nlinarith
      subst this
      exact ⟨rfl, by linarith⟩
  · simp only [TView.ofStor]
    cases rm <;> simp <;> omega
  · simp only [TView.ofStor]
    cases rm <;> simp <;> omega

/-! ### C63: vector views -/

/-- **C63** `row(i,j1,j2)`. -/
theorem tri_row3 [Star K] [Zero K] [One K] (M : TView) (m : Mem K) (i j1 j2 : Int)
    (h : j1 = j2 ∨ (M.In i j1 ∧ j1 ≤ j2 ∧ j2 ≤ M.n)) :
    ((M.row3 i j1 j2).size : Int) = j2 - j1 ∧
    ∀ k : Nat, k < (M.row3 i j1 j2).size →
      M.In i (j1 + k) ∧ (M.row3 i j1 j2).addr k = M.addr i (j1 + k) ∧
      (M.row3 i j1 j2).cref m k = M.cref m i (j1 + k) := by
  have hu := ub_range M.unit
  simp only [TView.row3, TView.in_iff] at h ⊢
  refine ⟨by omega, ?_⟩
  intro k hk
  have hin : 0 ≤ i ∧ i < M.n ∧ 0 ≤ j1 + k ∧ j1 + k < M.n ∧ i + ub M.unit ≤ j1 + k := by omega
  have ea : M.ptr + i * M.si + j1 * M.sj + k * M.sj = M.addr i (j1 + k) := by
    simp only [TView.addr]; ring
  refine ⟨hin, ea, ?_⟩
  rw [tri_cref_in M m _ _ ((M.in_iff _ _).mpr hin), ← ea]; rfl

/-- **C63** `col(j,i1,i2)`. -/
theorem tri_col3 [Star K] [Zero K] [One K] (M : TView) (m : Mem K) (j i1 i2 : Int)
    (h : i1 = i2 ∨ (M.In (i2 - 1) j ∧ i1 ≤ i2 ∧ 0 ≤ i1)) :
    ((M.col3 j i1 i2).size : Int) = i2 - i1 ∧
    ∀ k : Nat, k < (M.col3 j i1 i2).size →
      M.In (i1 + k) j ∧ (M.col3 j i1 i2).addr k = M.addr (i1 + k) j ∧
      (M.col3 j i1 i2).cref m k = M.cref m (i1 + k) j := by
  have hu := ub_range M.unit
  simp only [TView.col3, TView.in_iff] at h ⊢
  refine ⟨by omega, ?_⟩
  intro k hk
  have hin : 0 ≤ i1 + k ∧ i1 + k < M.n ∧ 0 ≤ j ∧ j < M.n ∧ i1 + k + ub M.unit ≤ j := by omega
  have ea : M.ptr + i1 * M.si + j * M.sj + k * M.si = M.addr (i1 + k) j := by
    simp only [TView.addr]; ring
  refine ⟨hin, ea, ?_⟩
  rw [tri_cref_in M m _ _ ((M.in_iff _ _).mpr hin), ← ea]; rfl

/-- **C63** `diag(d,j1,j2)`. -/
theorem tri_diag3 [Star K] [Zero K] [One K] (M : TView) (m : Mem K)
    (d j1 j2 : Int) (hd : 0 < d ∨ (M.unit = false ∧ d = 0)) (h1 : 0 ≤ j1) (h12 : j1 ≤ j2)
    (h2 : j2 ≤ M.n - d) :
    ((M.diag3 d j1 j2).size : Int) = j2 - j1 ∧
    ∀ k : Nat, k < (M.diag3 d j1 j2).size →
      M.In (j1 + k) (d + j1 + k) ∧ (M.diag3 d j1 j2).addr k = M.addr (j1 + k) (d + j1 + k) ∧
      (M.diag3 d j1 j2).cref m k = M.cref m (j1 + k) (d + j1 + k) := by
  rw [off_iff] at hd
  have hu := ub_range M.unit
  simp only [TView.diag3]
  refine ⟨by omega, ?_⟩
  intro k hk
  have hin : M.In (j1 + k) (d + j1 + k) := by simp only [TView.in_iff]; omega
  have ea : M.ptr + d * M.sj + j1 * (M.si + M.sj) + k * (M.si + M.sj) = M.addr (j1 + k) (d + j1 + k) := by
    simp only [TView.addr]; ring
  refine ⟨hin, ea, ?_⟩
  rw [tri_cref_in M m _ _ hin, ← ea]; rfl

theorem TView.diagOff_eq (M : TView) (d : Int) : M.diagOff d = M.diag3 d 0 (M.n - d) := by
  simp [TView.diagOff, TView.diag3]
theorem TView.diag_eq (M : TView) : M.diag = M.diagOff 0 := by
  simp [TView.diag, TView.diagOff]

/-- **C63** `diag(d)`: all elements of the `d`-th diagonal. -/
theorem tri_diagOff [Star K] [Zero K] [One K] (M : TView) (m : Mem K) (d : Int)
    (hd : 0 < d ∨ (M.unit = false ∧ d = 0)) (hd' : d ≤ M.n) :
    ((M.diagOff d).size : Int) = M.n - d ∧
    ∀ k : Nat, k < (M.diagOff d).size →
      M.In k (d + k) ∧ (M.diagOff d).addr k = M.addr k (d + k) ∧
      (M.diagOff d).cref m k = M.cref m k (d + k) := by
  rw [TView.diagOff_eq]
  obtain ⟨a, b⟩ := tri_diag3 M m d 0 (M.n - d) hd le_rfl (by omega) le_rfl
  refine ⟨by rw [a]; ring, fun k hk => ?_⟩
  have := b k hk
  simpa using this

private theorem between {s : Int} {a n : Int} (h0 : 0 ≤ a) (h1 : a ≤ n) :
    min 0 (n * s) ≤ a * s ∧ a * s ≤ max 0 (n * s) := by
  rcases le_total 0 s with hs | hs
  · have a1 : a * s ≤ n * s := mul_le_mul_of_nonneg_right h1 hs
    have a2 : 0 ≤ a * s := mul_nonneg h0 hs
    omega
  · have a1 : n * s ≤ a * s := mul_le_mul_of_nonpos_right h1 hs
    have a2 : a * s ≤ 0 := mul_nonpos_of_nonneg_of_nonpos h0 hs
    omega

/-- **C63** `subVector(i,j,istep,jstep,size)`: an accepted vector consists of stored elements. -/
theorem tri_subVector [Star K] [Zero K] [One K] (M : TView) (m : Mem K) (i j istep jstep : Int) (s : Nat)
    (h : M.hasSubVector i j istep jstep s = true) (k : Nat) (hk : k < s) :
    M.In (i + k * istep) (j + k * jstep) ∧
    (M.subVector i j istep jstep s).addr k = M.addr (i + k * istep) (j + k * jstep) ∧
    (M.subVector i j istep jstep s).cref m k = M.cref m (i + k * istep) (j + k * jstep) := by
  have hin : M.In (i + k * istep) (j + k * jstep) := by
    unfold TView.hasSubVector at h
    rw [if_neg (by omega)] at h
    simp only [Bool.not_eq_true'] at h
    split at h
    · cases h
    split at h
    · cases h
    split at h
    · cases h
    split at h
    · cases h
    split at h
    · cases h
    split at h
    · cases h
    rename_i n6 n5 n4 n3 n2 n1
    have hu := ub_range M.unit
    simp only [Bool.not_eq_false, M.okij_iff'] at n6 n5
    have b1 := between (s := istep) (a := k) (n := (s : Int) - 1) (by omega) (by omega)
    have b2 := between (s := jstep) (a := k) (n := (s : Int) - 1) (by omega) (by omega)
    have b3 := between (s := jstep - istep) (a := k) (n := (s : Int) - 1) (by omega) (by omega)
    rw [mul_sub, mul_sub] at b3
    rw [mul_comm istep, mul_comm jstep] at *
    simp only [TView.in_iff]
    omega
  have ea : (M.subVector i j istep jstep s).addr k = M.addr (i + k * istep) (j + k * jstep) := by
    simp only [TView.subVector, VView.addr, TView.addr]; ring
  refine ⟨hin, ea, ?_⟩
  rw [tri_cref_in M m _ _ hin, ← ea]; rfl

/-- **C63** `subMatrix(i1,i2,j1,j2,istep,jstep)`: an accepted rectangle consists of stored elements,
for any nonzero steps. -/
theorem tri_subMatrix6 [Star K] [Zero K] [One K] (M : TView) (m : Mem K) (i1 i2 j1 j2 istep jstep : Int)
    (V : MView) (hV : M.subMatrix6 i1 i2 j1 j2 istep jstep = some V)
    (h : M.hasSubMatrix i1 i2 j1 j2 istep jstep = some true) (i j : Nat) (hi : i < V.cs)
    (hj : j < V.rs) :
    M.In (i1 + i * istep) (j1 + j * jstep) ∧
    V.addr i j = M.addr (i1 + i * istep) (j1 + j * jstep) ∧
    V.cref m i j = M.cref m (i1 + i * istep) (j1 + j * jstep) := by
  unfold TView.subMatrix6 at hV
  split at hV
  · cases hV
  rename_i h0
  rw [not_or] at h0
  simp only [Option.some.injEq] at hV
  subst hV
  simp only at hi hj
  have hne : ¬ (i1 = i2 ∨ j1 = j2) := by
    rintro (rfl | rfl)
    · simp at hi
    · simp at hj
  have hin : M.In (i1 + i * istep) (j1 + j * jstep) := by
    unfold TView.hasSubMatrix at h
    rw [if_neg hne] at h
    rw [not_or] at hne
    obtain ⟨a, ha, ha'⟩ := rangeCheck_iff M.n i1 i2 istep h0.1 hne.1
    obtain ⟨b, hb, hb'⟩ := rangeCheck_iff M.n j1 j2 jstep h0.2 hne.2
    simp only [ha, hb, Option.bind_eq_bind, Option.bind_some, Option.some.injEq, Bool.not_eq_true'] at h
    split at h
    · cases h
    split at h
    · cases h
    split at h
    · cases h
    split at h
    · cases h
    rename_i n4 n3 n2 n1
    have hu := ub_range M.unit
    simp only [Bool.not_eq_false, M.okij_iff'] at n1 n2 n3 n4
    simp only [Bool.and_eq_true] at h
    obtain ⟨ki, ei, ri⟩ := ha'.mp h.1
    obtain ⟨kj, ej, rj⟩ := hb'.mp h.2
    have si : (i2 - i1).tdiv istep = ki := by
      rw [ei, add_sub_cancel_left]; exact Int.mul_tdiv_cancel _ h0.1
    have sj : (j2 - j1).tdiv jstep = kj := by
      rw [ej, add_sub_cancel_left]; exact Int.mul_tdiv_cancel _ h0.2
    rw [si] at hi
    rw [sj] at hj
    have hi' : i < ki := by simpa using hi
    have hj' : j < kj := by simpa using hj
    have b1 := between (s := istep) (a := i) (n := (ki : Int) - 1) (by omega) (by omega)
    have b2 := between (s := jstep) (a := j) (n := (kj : Int) - 1) (by omega) (by omega)
    have e1 : i2 - istep = i1 + ((ki : Int) - 1) * istep := by rw [ei]; ring
    have e2 : j2 - jstep = j1 + ((kj : Int) - 1) * jstep := by rw [ej]; ring
    rw [e2] at n2
    rw [e1] at n3
    rw [e1, e2] at n4
    have c1 := ri i hi'
    have c2 := rj j hj'
    rw [TView.in_iff]
    refine ⟨c1.1, c1.2, c2.1, c2.2, ?_⟩
    omega
  have ea : M.ptr + i1 * M.si + j1 * M.sj + i * (istep * M.si) + j * (jstep * M.sj) =
      M.addr (i1 + i * istep) (j1 + j * jstep) := by simp only [TView.addr]; ring
  refine ⟨hin, ea, ?_⟩
  rw [tri_cref_in M m _ _ hin, ← ea]; rfl

/-! ### C63: triangular views -/

/-- **C63** `subTriMatrix(i1,i2)`: the same elements, including the zeros and ones. -/
theorem tri_subTri2 [Star K] [Zero K] [One K] (M : TView) (m : Mem K) (i1 i2 : Int) (h1 : 0 ≤ i1)
    (h2 : i2 ≤ M.n) (i j : Int) :
    ((M.subTri2 i1 i2).In i j → M.In (i1 + i) (i1 + j)) ∧
    (M.subTri2 i1 i2).addr i j = M.addr (i1 + i) (i1 + j) ∧
    (M.subTri2 i1 i2).cref m i j = M.cref m (i1 + i) (i1 + j) := by
  have ea : (M.subTri2 i1 i2).addr i j = M.addr (i1 + i) (i1 + j) := by
    simp only [TView.addr, TView.subTri2]; ring
  refine ⟨by simp only [TView.in_iff, TView.subTri2]; omega, ea, ?_⟩
  simp only [TView.cref]
  rw [ea]
  simp only [TView.subTri2, gt_iff_lt, add_right_inj, add_lt_add_iff_left]

/-- **C63** `subTriMatrix(i1,i2,istep)` (partial: positive step only, see
`tri_subTri_negative_violated`). -/
theorem tri_subTri3_partial [Star K] [Zero K] [One K] (M : TView) (m : Mem K) (i1 i2 istep : Int)
    (hs : 0 < istep) (V : TView) (hV : M.subTri3 i1 i2 istep = some V)
    (h : M.hasSubTri i1 i2 istep = some true) (i j : Int) :
    (V.In i j → M.In (i1 + i * istep) (i1 + j * istep)) ∧
    V.addr i j = M.addr (i1 + i * istep) (i1 + j * istep) ∧
    V.cref m i j = M.cref m (i1 + i * istep) (i1 + j * istep) := by
  unfold TView.subTri3 at hV
  rw [if_neg (by omega)] at hV
  simp only [Option.some.injEq] at hV
  subst hV
  have ea : M.ptr + i1 * (M.si + M.sj) + i * (istep * M.si) + j * (istep * M.sj) =
      M.addr (i1 + i * istep) (i1 + j * istep) := by simp only [TView.addr]; ring
  refine ⟨?_, ea, ?_⟩
  · rintro ⟨a1, a2, a3, a4, a5⟩
    simp only at a2 a4 a5
    unfold TView.hasSubTri at h
    have hne : i1 ≠ i2 := by
      rintro rfl
      simp at a2; omega
    rw [if_neg hne] at h
    obtain ⟨b, hb, hb'⟩ := rangeCheck_iff M.n i1 i2 istep (by omega) hne
    rw [hb] at h
    obtain ⟨k, ek, rk⟩ := hb'.mp (by simpa using h)
    have sk : (i2 - i1).tdiv istep = k := by
      rw [ek, add_sub_cancel_left]; exact Int.mul_tdiv_cancel _ (by omega)
    rw [sk] at a2 a4
    simp only [Int.toNat_natCast] at a2 a4
    have c1 := rk i.toNat (by omega)
    have c2 := rk j.toNat (by omega)
    rw [show ((i.toNat : Nat) : Int) = i by omega] at c1
    rw [show ((j.toNat : Nat) : Int) = j by omega] at c2
    refine ⟨c1.1, c1.2, c2.1, c2.2, ?_⟩
    rcases a5 with a5 | ⟨a5, rfl⟩
    · left
      have := mul_lt_mul_of_pos_right a5 hs
      omega
    · exact Or.inr ⟨a5, rfl⟩
  · simp only [TView.cref, TView.addr] at ea ⊢
    rw [ea]
    have e1 : (i1 + i * istep = i1 + j * istep) ↔ i = j := by
      constructor
      · intro e
        have : i * istep = j * istep := by omega
        exact mul_right_cancel₀ (by omega) this
      · rintro rfl; rfl
    have e2 : (i1 + i * istep > i1 + j * istep) ↔ i > j := by
      constructor
      · intro e
        have : j * istep < i * istep := by omega
        exact lt_of_mul_lt_mul_right this (by omega)
      · intro e
        have := mul_lt_mul_of_pos_right e hs
        omega
    simp only [e1, e2]

/-- **C63 is violated**: `hasSubTriMatrix` accepts a negative step, for which the view's element (0,1)
is the parent's element (1,0), below the parent's diagonal: not a stored element. -/
theorem tri_subTri_negative_violated :
    let M := TView.ofStor 0 3 true false
    M.hasSubTri 2 (-1) (-1) = some true ∧
    ∃ V, M.subTri3 2 (-1) (-1) = some V ∧ V.n = 3 ∧ V.In 1 2 ∧ ¬ M.In 1 0 ∧
      V.addr 1 2 = M.addr 1 0 ∧
      V.cref (fun a => if 0 ≤ a ∧ a < 9 then some (100 + a) else none) 1 2 = some 103 ∧
      M.cref (fun a => if 0 ≤ a ∧ a < 9 then some (100 + a) else none) 1 0 = some (0 : Int) := by
  refine ⟨by decide, _, rfl, by decide, by decide, by decide, by decide, by decide, by decide⟩

/-- **C63** `offDiag(noff)`: the elements on and above the `noff`-th diagonal; zeros below. -/
theorem tri_offDiag [Star K] [Zero K] [One K] (M : TView) (m : Mem K) (d : Int) (hd : 0 < d ∨ (M.unit = false ∧ d = 0))
    (i j : Int) :
    ((M.offDiag d).In i j ↔ M.In i (j + d) ∧ i + d ≤ j + d ∧ 0 ≤ j ∧ 0 ≤ i) ∧
    (M.offDiag d).addr i j = M.addr i (j + d) ∧
    (i ≤ j → (M.offDiag d).cref m i j = M.cref m i (j + d)) := by
  have ea : (M.offDiag d).addr i j = M.addr i (j + d) := by
    simp only [TView.addr, TView.offDiag]; ring
  refine ⟨?_, ea, ?_⟩
  · rw [off_iff] at hd
    have hu := ub_range M.unit
    simp only [TView.in_iff, TView.offDiag, ub_false]; omega
  · intro hij
    simp only [TView.cref]
    rw [ea]
    simp only [TView.offDiag, Bool.false_eq_true, false_and, if_false]
    rw [if_neg (by omega), if_neg, if_neg (by omega)]
    rintro ⟨a, b⟩
    rcases hd with hd | hd
    · omega
    · rw [hd.1] at a; cases a

/-- **C63** `viewAsUnitDiag()`: ones on the diagonal, the same elements elsewhere. -/
theorem tri_viewAsUnitDiag [Star K] [Zero K] [One K] (M : TView) (m : Mem K) (i j : Int) :
    M.viewAsUnitDiag.cref m i j = if i = j then some 1 else M.cref m i j := by
  simp only [TView.cref, TView.viewAsUnitDiag, true_and, TView.addr]
  by_cases h : i = j
  · rw [if_pos h, if_pos h]
  · rw [if_neg h, if_neg h, if_neg (show ¬ (M.unit = true ∧ i = j) from fun h' => h h'.2)]

/-- **C63** `transpose()`: a lower triangular matrix with the same elements. -/
theorem tri_transpose [Star K] [Zero K] [One K] (M : TView) (m : Mem K) (i j : Int) :
    (M.transpose.In i j ↔ M.In j i) ∧ M.transpose.addr i j = M.addr j i ∧
    M.transpose.cref m i j = M.cref m j i := by
  have ea : M.transpose.addr i j = M.addr j i := by
    simp only [LView.addr, TView.addr, TView.transpose]; ring
  refine ⟨by simp only [LView.in_iff, TView.in_iff, TView.transpose]; omega, ea, ?_⟩
  simp only [LView.cref, TView.cref, ea]
  simp only [TView.transpose, gt_iff_lt, eq_comm]

/-- The same the other way round. -/
theorem lower_transpose [Star K] [Zero K] [One K] (M : LView) (m : Mem K) (i j : Int) :
    (M.transpose.In i j ↔ M.In j i) ∧ M.transpose.addr i j = M.addr j i ∧
    M.transpose.cref m i j = M.cref m j i := by
  have ea : M.transpose.addr i j = M.addr j i := by
    simp only [LView.addr, TView.addr, LView.transpose]; ring
  refine ⟨by simp only [LView.in_iff, TView.in_iff, LView.transpose]; omega, ea, ?_⟩
  simp only [LView.cref, TView.cref, ea]
  simp only [LView.transpose, gt_iff_lt, eq_comm]

theorem LView.WF.transpose {M : LView} (h : M.WF) : M.transpose.WF := by
  obtain ⟨a, b, c⟩ := h
  refine ⟨?_, ?_, ?_⟩
  · intro i j i' j' h1 h2 e
    rw [(lower_transpose (K := Int) M (fun _ => none) i j).2.1,
      (lower_transpose (K := Int) M (fun _ => none) i' j').2.1] at e
    have := a _ _ _ _ ((lower_transpose (K := Int) M (fun _ => none) i j).1.mp h1)
      ((lower_transpose (K := Int) M (fun _ => none) i' j').1.mp h2) e
    exact ⟨this.2, this.1⟩
  · simp only [LView.transpose]; tauto
  · simp only [LView.transpose]; omega

theorem LView.Live.transpose {M : LView} {m : Mem K} (h : M.Live m) : M.transpose.Live m := by
  intro i j h1
  rw [(lower_transpose (K := Int) M (fun _ => none) i j).2.1]
  exact h _ _ ((lower_transpose (K := Int) M (fun _ => none) i j).1.mp h1)

theorem LView.transpose_covers (M : LView) (a : Int) : M.transpose.Covers a ↔ M.Covers a := by
  constructor
  · rintro ⟨i, j, h, e⟩
    exact ⟨j, i, (lower_transpose (K := Int) M (fun _ => none) i j).1.mp h,
      by rw [e, (lower_transpose (K := Int) M (fun _ => none) i j).2.1]⟩
  · rintro ⟨i, j, h, e⟩
    exact ⟨j, i, (lower_transpose (K := Int) M (fun _ => none) j i).1.mpr h,
      by rw [e, (lower_transpose (K := Int) M (fun _ => none) j i).2.1]⟩

/-- **C63** `conjugate()`. -/
theorem tri_conjugate [CommRing K] [StarRing K] (M : TView) (m : Mem K) (i j : Int) :
    M.conjugate.addr i j = M.addr i j ∧
    M.conjugate.cref m i j = (M.cref m i j).map star := by
  refine ⟨rfl, ?_⟩
  rcases tri_cases3 M.unit i j with h | h | ⟨h, rfl⟩
  · rw [tri_cref_mid M m i j h, tri_cref_mid M.conjugate m i j h]
    have : M.conjugate.addr i j = M.addr i j := rfl
    rw [this]
    cases m (M.addr i j) <;> cases hc : M.conj <;> simp [cj, TView.conjugate, hc]
  · rw [tri_cref_zero M m i j h, tri_cref_zero M.conjugate m i j h]; simp
  · rw [tri_cref_one M m i h, tri_cref_one M.conjugate m i h]; simp

/-- **C63** `adjoint()`. -/
theorem tri_adjoint [CommRing K] [StarRing K] (M : TView) (m : Mem K) (i j : Int) :
    M.adjoint.cref m i j = (M.cref m j i).map star := by
  have : M.adjoint = M.conjugate.transpose := rfl
  rw [this, (tri_transpose _ m i j).2.2, (tri_conjugate M m j i).2]

/-- **C63** `upperTri()` / `unitUpperTri()` of a full matrix: its elements on and above (above) the
diagonal, with zeros below (and ones on the diagonal). -/
theorem tri_ofMat [Star K] [Zero K] [One K] (M : MView) (unit : Bool) (m : Mem K) (i j : Int) :
    (M.upperTri unit).addr i j = M.addr i j ∧
    (M.upperTri unit).cref m i j =
      if i < j ∨ (unit = false ∧ i = j) then M.cref m i j else if i = j then some 1 else some 0 := by
  refine ⟨rfl, ?_⟩
  rcases tri_cases3 unit i j with h | h | ⟨h, rfl⟩
  · rw [tri_cref_mid (M.upperTri unit) m i j h, if_pos]; · rfl
    cases unit <;> simp [ub] at h ⊢ <;> omega
  · rw [tri_cref_zero (M.upperTri unit) m i j h, if_neg (by omega), if_neg (by omega)]
  · rw [tri_cref_one (M.upperTri unit) m i h, if_neg (by simp [h]), if_pos rfl]

/-- **C63** `lowerTri()` / `unitLowerTri()` of a full matrix. -/
theorem tri_ofMat_lower [Star K] [Zero K] [One K] (M : MView) (unit : Bool) (m : Mem K) (i j : Int) :
    (M.lowerTri unit).addr i j = M.addr i j ∧
    (M.lowerTri unit).cref m i j =
      if j < i ∨ (unit = false ∧ i = j) then M.cref m i j else if i = j then some 1 else some 0 := by
  refine ⟨rfl, ?_⟩
  rcases tri_cases3 unit j i with h | h | ⟨h, rfl⟩
  · rw [lower_cref_mid (M.lowerTri unit) m i j h, if_pos]; · rfl
    cases unit <;> simp [ub] at h ⊢ <;> omega
  · rw [lower_cref_zero (M.lowerTri unit) m i j h, if_neg (by omega), if_neg (by omega)]
  · rw [lower_cref_one (M.lowerTri unit) m j h, if_neg (by simp [h]), if_pos rfl]

/-- **C63** `diag(d)` of a lower triangular view (the non-const version). -/
theorem lower_diagOff [Star K] [Zero K] [One K] (M : LView) (m : Mem K) (d : Int)
    (hd : d < 0 ∨ (M.unit = false ∧ d = 0)) (hd' : -d ≤ M.n) :
    ((M.diagOff d).size : Int) = M.n + d ∧
    ∀ k : Nat, k < (M.diagOff d).size →
      M.In (-d + k) k ∧ (M.diagOff d).addr k = M.addr (-d + k) k := by
  have hd2 : ub M.unit ≤ -d := by
    rw [← off_iff]
    rcases hd with h | h
    · left; omega
    · exact Or.inr ⟨h.1, by omega⟩
  have hu := ub_range M.unit
  simp only [LView.diagOff]
  refine ⟨by omega, fun k hk => ⟨by simp only [LView.in_iff]; omega, ?_⟩⟩
  simp only [VView.addr, LView.addr]; ring

/-- **C63 is violated** by the const version: `L.diag(-1)` of a const 3x3 lower triangular view has four
elements instead of two, and the third and fourth are outside the matrix: element 3 is outside the
array. -/
theorem lower_diagOff_const_violated :
    let M := (TView.ofStor 0 3 true false).transpose
    (M.diagOffConst (-1)).size = 4 ∧ (M.diagOff (-1)).size = 2 ∧
    ¬ M.Covers ((M.diagOffConst (-1)).addr 2) ∧ (M.diagOffConst (-1)).addr 2 = 9 ∧
    (M.diagOffConst (-1)).cref (fun a => if 0 ≤ a ∧ a < 9 then some (100 + a) else none) 2 = none := by
  refine ⟨by decide, by decide, ?_, by decide, by decide⟩
  rintro ⟨i, j, h, e⟩
  simp only [LView.In, TView.transpose, TView.ofStor] at h
  simp [LView.diagOffConst, VView.addr, LView.addr, TView.transpose, TView.ofStor] at e
  omega

end TMV
