import Verif.Props.SymMat

/-! C66: the views of a symmetric or Hermitian matrix. -/
namespace TMV
variable {K : Type _}

/-- The memory location `a`, read with conjugation flag `c`, is the element `(i,j)` of `M`: the stored
element `(i,j)`, or the stored element `(j,i)` conjugated if the matrix is Hermitian. -/
def SView.Shows (M : SView) (a : Int) (c : Bool) (i j : Int) : Prop :=
  (M.In i j ∧ a = M.addr i j ∧ c = M.conj) ∨ (M.In j i ∧ a = M.addr j i ∧ c = M.oct)

theorem SView.Shows.covers {M : SView} {a : Int} {c : Bool} {i j : Int} (h : M.Shows a c i j) :
    M.Covers a := by
  rcases h with ⟨h, e, _⟩ | ⟨h, e, _⟩
  · exact ⟨_, _, h, e⟩
  · exact ⟨_, _, h, e⟩

theorem SView.Shows.range {M : SView} {a : Int} {c : Bool} {i j : Int} (h : M.Shows a c i j) :
    0 ≤ i ∧ i < M.n ∧ 0 ≤ j ∧ j < M.n := by
  rcases h with ⟨⟨h1, h2, h3, h4, _⟩, _⟩ | ⟨⟨h1, h2, h3, h4, _⟩, _⟩
  · exact ⟨h1, h2, h3, h4⟩
  · exact ⟨h3, h4, h1, h2⟩

/-- Reading through a location that shows `(i,j)` gives what the matrix gives for `(i,j)`. -/
theorem SView.Shows.cref [InvolutiveStar K] {M : SView} {a : Int} {c : Bool} {i j : Int}
    (h : M.Shows a c i j) (m : Mem K) (hH : M.HermOK m) :
    (m.read a).map (cj c) = M.cref m i j := by
  rcases h with ⟨h, rfl, rfl⟩ | ⟨h, rfl, rfl⟩
  · rw [sym_cref_in M m i j h]; rfl
  · by_cases hne : i = j
    · subst hne
      rw [sym_cref_in M m i i h]
      unfold Mem.read
      cases hm : m (M.addr i i) with
      | none => rfl
      | some y =>
        simp only [Option.map_some]
        unfold SView.oct
        cases hh : M.herm
        · rfl
        · have h1 := h.1
          have h2 := h.2.1
          have := hH hh i.toNat y (by omega) (by rw [show ((i.toNat : Nat) : Int) = i by omega]; exact hm)
          unfold cj
          cases M.conj <;> simp [this]
    · rw [sym_cref_mirror M m i j h hne]; rfl

/-- Writing through a location that shows `(i,j)` is the assignment to that element. -/
theorem SView.Shows.write [InvolutiveStar K] {M : SView} {a : Int} {c : Bool} {i j : Int}
    (h : M.Shows a c i j) (hne : i ≠ j) (x : K) (m : Mem K) :
    m.write a (cj c x) = M.setRef i j x m := by
  unfold SView.setRef
  rcases h with ⟨h, rfl, rfl⟩ | ⟨h, rfl, rfl⟩
  · rw [if_pos]
    unfold SView.stored
    cases hu : M.upper
    · rw [SView.in_lo hu] at h; simp [h.2.1]
    · rw [SView.in_up hu] at h; simp [h.2.1]
  · rw [if_neg]
    · congr 1
      unfold SView.oct cj
      cases M.herm <;> cases M.conj <;> rfl
    · unfold SView.stored
      cases hu : M.upper
      · rw [SView.in_lo hu] at h; simp; omega
      · rw [SView.in_up hu] at h; simp; omega

/-- `v` is the vector of the elements `(f k, g k)` of the symmetric matrix: same memory, same values. -/
def SView.VecOf (M : SView) (v : VView) (f g : Nat → Int) : Prop :=
  ∀ k : Nat, k < v.size → M.Shows (v.addr k) v.conj (f k) (g k)

theorem SView.VecOf.cref [InvolutiveStar K] {M : SView} {v : VView} {f g : Nat → Int} (h : M.VecOf v f g)
    (m : Mem K) (hH : M.HermOK m) (k : Nat) (hk : k < v.size) : v.cref m k = M.cref m (f k) (g k) :=
  (h k hk).cref m hH

theorem in_up' {M : SView} (h : M.upper = true) (i j : Int) :
    M.In i j ↔ 0 ≤ i ∧ i ≤ j ∧ j < M.n := by
  unfold SView.In; rw [if_pos h]; omega
theorem in_lo' {M : SView} (h : M.upper = false) (i j : Int) :
    M.In i j ↔ 0 ≤ j ∧ j ≤ i ∧ i < M.n := by
  unfold SView.In; rw [if_neg (by simp [h])]; omega

/-- **C66** `row(i,j1,j2)`, on one side of the diagonal (which may be included). -/
theorem sym_row3 (M : SView) (i j1 j2 : Int) (hi : 0 ≤ i) (hi' : i < M.n) (h1 : 0 ≤ j1) (h12 : j1 ≤ j2)
    (h2 : j2 ≤ M.n) (hs : i ≤ j1 ∨ j2 ≤ i + 1) :
    ((M.row3 i j1 j2).size : Int) = j2 - j1 ∧
    M.VecOf (M.row3 i j1 j2) (fun _ => i) (fun k => j1 + k) := by
  unfold SView.row3 SView.VecOf
  cases hu : M.upper <;> simp only [and_true, and_false, false_or, or_false, Bool.false_eq_true, Bool.true_eq_false] <;> split
  all_goals
    refine ⟨by simp only; omega, fun k hk => ?_⟩
    simp only at hk
    unfold SView.Shows
  · left; rw [in_lo' hu]
    exact ⟨by omega, by simp only [VView.addr, SView.addr]; ring, rfl⟩
  · right; rw [in_lo' hu]
    exact ⟨by omega, by simp only [VView.addr, SView.addr]; ring, rfl⟩
  · left; rw [in_up' hu]
    exact ⟨by omega, by simp only [VView.addr, SView.addr]; ring, rfl⟩
  · right; rw [in_up' hu]
    exact ⟨by omega, by simp only [VView.addr, SView.addr]; ring, rfl⟩

/-- **C66** `col(j,i1,i2)`, on one side of the diagonal. -/
theorem sym_col3 (M : SView) (j i1 i2 : Int) (hj : 0 ≤ j) (hj' : j < M.n) (h1 : 0 ≤ i1) (h12 : i1 ≤ i2)
    (h2 : i2 ≤ M.n) (hs : j ≤ i1 ∨ i2 ≤ j + 1) :
    ((M.col3 j i1 i2).size : Int) = i2 - i1 ∧
    M.VecOf (M.col3 j i1 i2) (fun k => i1 + k) (fun _ => j) := by
  unfold SView.col3 SView.VecOf
  cases hu : M.upper <;> simp only [and_true, and_false, false_or, or_false, Bool.false_eq_true, Bool.true_eq_false] <;> split
  all_goals
    refine ⟨by simp only; omega, fun k hk => ?_⟩
    simp only at hk
    unfold SView.Shows
  · left; rw [in_lo' hu]
    exact ⟨by omega, by simp only [VView.addr, SView.addr]; ring, rfl⟩
  · right; rw [in_lo' hu]
    exact ⟨by omega, by simp only [VView.addr, SView.addr]; ring, rfl⟩
  · left; rw [in_up' hu]
    exact ⟨by omega, by simp only [VView.addr, SView.addr]; ring, rfl⟩
  · right; rw [in_up' hu]
    exact ⟨by omega, by simp only [VView.addr, SView.addr]; ring, rfl⟩

/-- **C66** `diag(d,j1,j2)`: the elements `(k,k+d)` or, for negative `d`, `(k-d,k)`. -/
theorem sym_diag3 (M : SView) (d j1 j2 : Int) (h1 : 0 ≤ j1) (h12 : j1 ≤ j2) (h2 : j2 ≤ M.n - |d|) :
    ((M.diag3 d j1 j2).size : Int) = j2 - j1 ∧
    M.VecOf (M.diag3 d j1 j2) (fun k => j1 + k + max 0 (-d)) (fun k => j1 + k + max 0 d) := by
  unfold SView.diag3 SView.VecOf
  by_cases hd : d ≥ 0
  · rw [abs_of_nonneg hd] at h2
    rw [if_pos hd, max_eq_right hd, max_eq_left (by omega)]
    cases hu : M.upper <;> simp only [if_true, if_false, Bool.false_eq_true]
    all_goals
      refine ⟨by omega, fun k hk => ?_⟩
      unfold SView.Shows
    · right; rw [in_lo' hu]
      exact ⟨by omega, by simp only [VView.addr, SView.addr]; ring, rfl⟩
    · left; rw [in_up' hu]
      exact ⟨by omega, by simp only [VView.addr, SView.addr]; ring, rfl⟩
  · rw [abs_of_neg (by omega)] at h2
    rw [if_neg hd, max_eq_left (a := 0) (b := d) (by omega), max_eq_right (by omega)]
    cases hu : M.upper <;> simp only [if_true, if_false, Bool.false_eq_true]
    all_goals
      refine ⟨by omega, fun k hk => ?_⟩
      unfold SView.Shows
    · left; rw [in_lo' hu]
      exact ⟨by omega, by simp only [VView.addr, SView.addr]; ring, rfl⟩
    · right; rw [in_up' hu]
      exact ⟨by omega, by simp only [VView.addr, SView.addr]; ring, rfl⟩

theorem SView.diagOff_eq (M : SView) (d : Int) : M.diagOff d = M.diag3 d 0 (M.n - |d|) := by
  unfold SView.diagOff SView.diag3
  by_cases hd : d ≥ 0
  · rw [abs_of_nonneg hd, if_pos hd, if_pos hd]; simp
  · rw [abs_of_neg (by omega), if_neg hd, if_neg hd]; simp

/-- **C66** `diag(d)`. -/
theorem sym_diagOff (M : SView) (d : Int) (hd : |d| ≤ M.n) :
    ((M.diagOff d).size : Int) = M.n - |d| ∧
    M.VecOf (M.diagOff d) (fun k => k + max 0 (-d)) (fun k => k + max 0 d) := by
  rw [SView.diagOff_eq]
  obtain ⟨a, b⟩ := sym_diag3 M d 0 (M.n - |d|) le_rfl (by omega) le_rfl
  refine ⟨by omega, fun k hk => ?_⟩
  have := b k hk
  simpa using this

/-- **C66** `diag()`. -/
theorem sym_diag (M : SView) : M.diag.size = M.n ∧ M.VecOf M.diag (fun k => k) (fun k => k) := by
  refine ⟨rfl, fun k hk => Or.inl ⟨?_, ?_, rfl⟩⟩
  · simp only [SView.diag] at hk
    unfold SView.In
    dsimp only
    split <;> omega
  · simp only [SView.diag, VView.addr, SView.addr]; ring

theorem between_int {s : Int} {a n : Int} (h0 : 0 ≤ a) (h1 : a ≤ n) :
    min 0 (n * s) ≤ a * s ∧ a * s ≤ max 0 (n * s) := by
  rcases le_total 0 s with hs | hs
  · have a1 : a * s ≤ n * s := mul_le_mul_of_nonneg_right h1 hs
    have a2 : 0 ≤ a * s := mul_nonneg h0 hs
    omega
  · have a1 : n * s ≤ a * s := mul_le_mul_of_nonpos_right h1 hs
    have a2 : a * s ≤ 0 := mul_nonpos_of_nonneg_of_nonpos h0 hs
    omega

/-- **C66** `subVector(i,j,istep,jstep,size)` (partial).  An accepted vector that does not start on the
diagonal consists of elements of the matrix; one that starts on the diagonal does if its last element
is in the stored triangle (`sym_subVector_violated` is the other case). -/
theorem sym_subVector_partial (M : SView) (i j istep jstep : Int) (s : Nat)
    (h : M.hasSubVector i j istep jstep s = true)
    (hd : i = j → M.In (i + istep * ((s : Int) - 1)) (j + jstep * ((s : Int) - 1))) :
    M.VecOf (M.subVector i j istep jstep s) (fun k => i + k * istep) (fun k => j + k * jstep) := by
  intro k hk
  have hk' : k < s := by
    unfold SView.subVector at hk
    split at hk <;> simpa using hk
  unfold SView.hasSubVector at h
  rw [if_neg (by omega)] at h
  simp only at h
  split at h
  · cases h
  split at h
  · cases h
  split at h
  · cases h
  split at h
  · cases h
  split at h
  · cases h
  split at h
  · cases h
  rename_i n6 n5 n4 n3 n2 n1
  have b1 := between_int (s := istep) (a := k) (n := (s : Int) - 1) (by omega) (by omega)
  have b2 := between_int (s := jstep) (a := k) (n := (s : Int) - 1) (by omega) (by omega)
  have b3 := between_int (s := jstep - istep) (a := k) (n := (s : Int) - 1) (by omega) (by omega)
  rw [mul_sub, mul_sub] at b3
  rw [mul_comm istep, mul_comm jstep] at *
  unfold SView.subVector SView.Shows
  cases hu : M.upper <;> simp only [and_true, and_false, false_or, or_false, Bool.false_eq_true, Bool.true_eq_false]
  · rw [in_lo' hu] at hd
    split
    · left; rw [in_lo' hu]
      exact ⟨by omega, by simp only [VView.addr, SView.addr]; ring, rfl⟩
    · right; rw [in_lo' hu]
      exact ⟨by omega, by simp only [VView.addr, SView.addr]; ring, rfl⟩
  · rw [in_up' hu] at hd
    split
    · left; rw [in_up' hu]
      exact ⟨by omega, by simp only [VView.addr, SView.addr]; ring, rfl⟩
    · right; rw [in_up' hu]
      exact ⟨by omega, by simp only [VView.addr, SView.addr]; ring, rfl⟩

/-- Finding: on a matrix stored in the upper triangle, `subVector(0,0,1,0,2)` — the first column — is
accepted and shows the memory of the *unstored* triangle: it does not show element `(1,0)`. -/
theorem sym_subVector_violated :
    ∃ (M : SView) (i j istep jstep : Int) (s : Nat), M = SView.ofStor 0 2 true false true ∧
      M.hasSubVector i j istep jstep s = true ∧
      ¬ M.Covers ((M.subVector i j istep jstep s).addr 1) ∧
      ∀ m : Mem Int, M.Live m → ∃ m' : Mem Int, M.Live m' ∧ (∀ i j, M.cref m' i j = M.cref m i j ∨ i < 0 ∨ j < 0 ∨ 2 ≤ i ∨ 2 ≤ j) ∧
        (M.subVector i j istep jstep s).cref m' 1 ≠ M.cref m' (i + istep) (j + jstep) := by
  refine ⟨_, 0, 0, 1, 0, 2, rfl, by decide, ?_, ?_⟩
  · rintro ⟨i, j, h, e⟩
    rw [in_up' rfl] at h
    simp only [SView.ofStor, SView.subVector, SView.addr, VView.addr] at h e
    simp at h e
    omega
  · intro m hl
    obtain ⟨y, hy⟩ := Option.isSome_iff_exists.mp (hl 0 1 (by decide))
    refine ⟨fun a => if a = 2 then some (y + 1) else m a, ?_, ?_, ?_⟩
    · intro i j h
      have := hl i j h
      dsimp only
      split
      · rfl
      · exact this
    · intro i j
      by_cases hr : i < 0 ∨ j < 0 ∨ 2 ≤ i ∨ 2 ≤ j
      · exact Or.inr hr
      · left
        rcases sym_cases (SView.ofStor 0 2 true false true) i j (by omega) (by simp [SView.ofStor]; omega) (by omega)
          (by simp [SView.ofStor]; omega) with h | ⟨h, hne⟩
        · rw [sym_cref_in _ _ _ _ h, sym_cref_in _ _ _ _ h]
          rw [in_up' rfl] at h
          rw [if_neg]
          simp [SView.ofStor, SView.addr] at h ⊢
          omega
        · rw [sym_cref_mirror _ _ _ _ h hne, sym_cref_mirror _ _ _ _ h hne]
          rw [in_up' rfl] at h
          rw [if_neg]
          simp [SView.ofStor, SView.addr] at h ⊢
          omega
    · rw [sym_cref_mirror (SView.ofStor 0 2 true false true) _ _ _ (by decide) (by decide)]
      have e : (SView.ofStor 0 2 true false true).addr (0 + 0) (0 + 1) = 1 := by decide
      have e' : (SView.ofStor 0 2 true false true).addr 0 1 = 1 := by decide
      rw [e'] at hy
      rw [e]
      simp [VView.cref, SView.subVector, SView.ofStor, VView.addr, Mem.read, hy, cj, SView.oct]

/-- Finding: the Fortran-style check tests `i` twice and never that `j ≥ 1`, so `subVector(1,0,1,1,2)`
of a lower-stored 2 by 2 matrix, whose first element `(1,0)` does not exist, is accepted; the returned
vector starts outside the matrix. -/
theorem sym_subVectorF_violated :
    ∃ (M : SView) (i j istep jstep s : Int), M = SView.ofStor 0 2 true false false ∧ 0 < s ∧
      M.hasSubVectorF i j istep jstep s = true ∧ ¬ (1 ≤ j) ∧
      ¬ M.Covers ((M.subVectorF i j istep jstep s).addr 0) := by
  refine ⟨_, 1, 0, 1, 1, 2, rfl, by decide, by decide, by decide, ?_⟩
  rintro ⟨i, j, h, e⟩
  rw [in_lo' rfl] at h
  simp only [SView.ofStor, SView.subVectorF, SView.subVector, SView.addr, VView.addr] at h e
  simp at h e
  omega

/-- `V` consists of the elements `(f i, g j)` of the symmetric matrix. -/
def SView.MatOf (M : SView) (V : MView) (f g : Nat → Int) : Prop :=
  ∀ i j : Nat, i < V.cs → j < V.rs → M.Shows (V.addr i j) V.conj (f i) (g j)

theorem SView.MatOf.cref [InvolutiveStar K] {M : SView} {V : MView} {f g : Nat → Int} (h : M.MatOf V f g)
    (m : Mem K) (hH : M.HermOK m) (i j : Nat) (hi : i < V.cs) (hj : j < V.rs) :
    V.cref m i j = M.cref m (f i) (g j) := (h i j hi hj).cref m hH

/-- **C66** (checks).  With positive steps the check for a rectangle accepts exactly those that are empty in one direction, or
whose indices exist and all of whose elements lie on one side of the diagonal. -/
theorem sym_hasSubMatrix_iff (M : SView) (i1 j1 istep jstep : Int) (p q : Nat) (hs : 0 < istep) (ht : 0 < jstep) :
    M.hasSubMatrix i1 (i1 + p * istep) j1 (j1 + q * jstep) istep jstep = some true ↔
      (p = 0 ∨ q = 0 ∨ ((∀ a : Nat, a < p → 0 ≤ i1 + a * istep ∧ i1 + a * istep < M.n) ∧
        (∀ b : Nat, b < q → 0 ≤ j1 + b * jstep ∧ j1 + b * jstep < M.n) ∧
        ((∀ a b : Nat, a < p → b < q → i1 + a * istep ≤ j1 + b * jstep) ∨
         (∀ a b : Nat, a < p → b < q → j1 + b * jstep ≤ i1 + a * istep)))) := by
  by_cases hp : p = 0
  · subst hp; simp [SView.hasSubMatrix]
  by_cases hq : q = 0
  · subst hq; simp [SView.hasSubMatrix]
  have pp : 0 < (p:Int) * istep := mul_pos (by omega) hs
  have pq : 0 < (q:Int) * jstep := mul_pos (by omega) ht
  unfold SView.hasSubMatrix
  rw [if_neg (by omega)]
  obtain ⟨a, ha, ha'⟩ := rangeCheck_iff M.n i1 (i1 + p * istep) istep (by omega) (by omega)
  obtain ⟨b, hb, hb'⟩ := rangeCheck_iff M.n j1 (j1 + q * jstep) jstep (by omega) (by omega)
  have rA : RangeOK M.n i1 (i1 + p * istep) istep ↔ ∀ a : Nat, a < p → 0 ≤ i1 + a * istep ∧ i1 + a * istep < M.n := by
    constructor
    · rintro ⟨k, e, r⟩
      have : (k:Int) = p := by
        have : (p:Int) * istep = k * istep := by linarith
        exact (mul_right_cancel₀ (by omega) this).symm
      obtain rfl : k = p := by omega
      exact r
    · intro r; exact ⟨p, rfl, r⟩
  have rB : RangeOK M.n j1 (j1 + q * jstep) jstep ↔ ∀ b : Nat, b < q → 0 ≤ j1 + b * jstep ∧ j1 + b * jstep < M.n := by
    constructor
    · rintro ⟨k, e, r⟩
      have : (k:Int) = q := by
        have : (q:Int) * jstep = k * jstep := by linarith
        exact (mul_right_cancel₀ (by omega) this).symm
      obtain rfl : k = q := by omega
      exact r
    · intro r; exact ⟨q, rfl, r⟩
  rw [rA] at ha'; rw [rB] at hb'
  simp only [ha, hb, Option.bind_eq_bind, Option.bind_some, Option.some.injEq]
  have e1 : i1 + p * istep - istep = i1 + ((p-1:Nat):Int) * istep := by
    rw [Nat.cast_sub (by omega)]; push_cast; ring
  have e2 : j1 + q * jstep - jstep = j1 + ((q-1:Nat):Int) * jstep := by
    rw [Nat.cast_sub (by omega)]; push_cast; ring
  rw [e1, e2]
  have q1 : (0 : Int) ≤ ((p-1:Nat):Int) * istep := mul_nonneg (by omega) (by omega)
  have q2 : (0 : Int) ≤ ((q-1:Nat):Int) * jstep := mul_nonneg (by omega) (by omega)
  have hT : ((∀ a b : Nat, a < p → b < q → i1 + a * istep ≤ j1 + b * jstep) ∨
         (∀ a b : Nat, a < p → b < q → j1 + b * jstep ≤ i1 + a * istep)) ↔
      (i1 + ((p-1:Nat):Int) * istep ≤ j1 ∨ j1 + ((q-1:Nat):Int) * jstep ≤ i1) := by
    constructor
    · rintro (h | h)
      · left; have := h (p-1) 0 (by omega) (by omega); simpa using this
      · right; have := h 0 (q-1) (by omega) (by omega); simpa using this
    · rintro (h | h)
      · left; intro a b ha hb
        have h1 : (a:Int) * istep ≤ ((p-1:Nat):Int) * istep := mul_le_mul_of_nonneg_right (by omega) (by omega)
        have h2 : 0 ≤ (b:Int) * jstep := mul_nonneg (by omega) (by omega)
        omega
      · right; intro a b ha hb
        have h1 : (b:Int) * jstep ≤ ((q-1:Nat):Int) * jstep := mul_le_mul_of_nonneg_right (by omega) (by omega)
        have h2 : 0 ≤ (a:Int) * istep := mul_nonneg (by omega) (by omega)
        omega
  rw [hT, ← ha', ← hb']
  simp only [hp, hq, false_or]
  generalize ((p-1:Nat):Int) * istep = P at *
  generalize ((q-1:Nat):Int) * jstep = Q at *
  constructor
  · intro h
    split at h
    · cases h
    split at h
    · cases h
    simp only [Bool.and_eq_true] at h
    exact ⟨h.1, h.2, by omega⟩
  · rintro ⟨h1, h2, h3⟩
    rw [if_neg (by omega), if_neg (by omega), h1, h2]; rfl

/-- **C66** `subMatrix(i1,i2,j1,j2)`: a nonempty rectangle accepted by the library's check. -/
theorem sym_subMatrix4 (M : SView) (i1 i2 j1 j2 : Int)
    (h : M.hasSubMatrix i1 i2 j1 j2 1 1 = some true) :
    (i1 ≤ i2 → j1 ≤ j2 → (((M.subMatrix4 i1 i2 j1 j2).cs : Int) = i2 - i1 ∧
      ((M.subMatrix4 i1 i2 j1 j2).rs : Int) = j2 - j1)) ∧
    M.MatOf (M.subMatrix4 i1 i2 j1 j2) (fun i => i1 + i) (fun j => j1 + j) := by
  refine ⟨fun a b => by unfold SView.subMatrix4; split <;> simp <;> omega, ?_⟩
  intro i j hi hj
  have hi' : (i : Int) < i2 - i1 := by
    unfold SView.subMatrix4 at hi
    split at hi <;> simp at hi <;> omega
  have hj' : (j : Int) < j2 - j1 := by
    unfold SView.subMatrix4 at hj
    split at hj <;> simp at hj <;> omega
  unfold SView.hasSubMatrix at h
  rw [if_neg (by omega)] at h
  obtain ⟨a, ha, ha'⟩ := rangeCheck_iff M.n i1 i2 1 (by omega) (by omega)
  obtain ⟨b, hb, hb'⟩ := rangeCheck_iff M.n j1 j2 1 (by omega) (by omega)
  simp only [ha, hb, Option.bind_eq_bind, Option.bind_some, Option.some.injEq] at h
  split at h
  · cases h
  split at h
  · cases h
  rename_i n2 n1
  simp only [Bool.and_eq_true] at h
  obtain ⟨ki, ei, ri⟩ := ha'.mp h.1
  obtain ⟨kj, ej, rj⟩ := hb'.mp h.2
  have c1 := ri i (by omega)
  have c2 := rj j (by omega)
  have c3 := ri 0 (by omega)
  have c4 := rj 0 (by omega)
  have c5 := ri (ki - 1) (by omega)
  have c6 := rj (kj - 1) (by omega)
  unfold SView.subMatrix4 SView.Shows
  cases hu : M.upper <;> simp only [true_and, false_and, false_or, or_false, Bool.false_eq_true, Bool.true_eq_false]
  · split
    · left; rw [in_lo' hu]
      exact ⟨by omega, by simp only [MView.addr, SView.addr]; ring, rfl⟩
    · right; rw [in_lo' hu]
      exact ⟨by omega, by simp only [MView.addr, SView.addr]; ring, rfl⟩
  · split
    · left; rw [in_up' hu]
      exact ⟨by omega, by simp only [MView.addr, SView.addr]; ring, rfl⟩
    · right; rw [in_up' hu]
      exact ⟨by omega, by simp only [MView.addr, SView.addr]; ring, rfl⟩

/-- **C66** `subMatrix(i1,i2,j1,j2,istep,jstep)` (partial: positive steps, and for lower storage the
test that the code makes with `istep` instead of `jstep` must come out the same;
`sym_subMatrix_violated`). -/
theorem sym_subMatrix6_partial (M : SView) (i1 i2 j1 j2 istep jstep : Int) (hs : 0 < istep) (ht : 0 < jstep)
    (hlo : M.upper = false → (j2 - i1 ≤ istep ↔ j2 - i1 ≤ jstep))
    (V : MView) (hV : M.subMatrix6 i1 i2 j1 j2 istep jstep = some V)
    (h : M.hasSubMatrix i1 i2 j1 j2 istep jstep = some true) :
    ((i1 ≠ i2 ∧ j1 ≠ j2) → i1 + V.cs * istep = i2 ∧ j1 + V.rs * jstep = j2) ∧
    M.MatOf V (fun i => i1 + i * istep) (fun j => j1 + j * jstep) := by
  have hcs : V.cs = ((i2 - i1).tdiv istep).toNat ∧ V.rs = ((j2 - j1).tdiv jstep).toNat := by
    unfold SView.subMatrix6 at hV
    rw [if_neg (by omega)] at hV
    simp only [Option.some.injEq] at hV
    subst hV
    split <;> exact ⟨rfl, rfl⟩
  have key : (i1 ≠ i2 ∧ j1 ≠ j2) → (i2 - istep ≤ j1 ∨ j2 - jstep ≤ i1) ∧
      (i2 = i1 + V.cs * istep ∧ ∀ k : Nat, k < V.cs → 0 ≤ i1 + k * istep ∧ i1 + k * istep < M.n) ∧
      (j2 = j1 + V.rs * jstep ∧ ∀ k : Nat, k < V.rs → 0 ≤ j1 + k * jstep ∧ j1 + k * jstep < M.n) := by
    intro hne
    unfold SView.hasSubMatrix at h
    rw [if_neg (by omega)] at h
    obtain ⟨a, ha, ha'⟩ := rangeCheck_iff M.n i1 i2 istep (by omega) hne.1
    obtain ⟨b, hb, hb'⟩ := rangeCheck_iff M.n j1 j2 jstep (by omega) hne.2
    simp only [ha, hb, Option.bind_eq_bind, Option.bind_some, Option.some.injEq] at h
    split at h
    · cases h
    split at h
    · cases h
    rename_i n2 n1
    simp only [Bool.and_eq_true] at h
    obtain ⟨ki, ei, ri⟩ := ha'.mp h.1
    obtain ⟨kj, ej, rj⟩ := hb'.mp h.2
    have si : (i2 - i1).tdiv istep = ki := by
      rw [ei, add_sub_cancel_left]; exact Int.mul_tdiv_cancel _ (by omega)
    have sj : (j2 - j1).tdiv jstep = kj := by
      rw [ej, add_sub_cancel_left]; exact Int.mul_tdiv_cancel _ (by omega)
    rw [hcs.1, hcs.2, si, sj, Int.toNat_natCast, Int.toNat_natCast]
    exact ⟨by omega, ⟨ei, ri⟩, ⟨ej, rj⟩⟩
  refine ⟨fun hne => ⟨(key hne).2.1.1.symm, (key hne).2.2.1.symm⟩, ?_⟩
  intro i j hi hj
  have hne : i1 ≠ i2 ∧ j1 ≠ j2 := by
    refine ⟨?_, ?_⟩
    · rintro rfl
      rw [hcs.1] at hi; simp at hi
    · rintro rfl
      rw [hcs.2] at hj; simp at hj
  obtain ⟨n0, ⟨ei, ri⟩, ⟨ej, rj⟩⟩ := key hne
  have c1 := ri i hi
  have c2 := rj j hj
  have b1 := between_int (s := istep) (a := i) (n := (V.cs : Int) - 1) (by omega) (by omega)
  have b2 := between_int (s := jstep) (a := j) (n := (V.rs : Int) - 1) (by omega) (by omega)
  have e1 : i2 - istep = i1 + ((V.cs : Int) - 1) * istep := by rw [ei]; ring
  have e2 : j2 - jstep = j1 + ((V.rs : Int) - 1) * jstep := by rw [ej]; ring
  have q1 : (0 : Int) ≤ ((V.cs : Int) - 1) * istep := mul_nonneg (by omega) (by omega)
  have q2 : (0 : Int) ≤ ((V.rs : Int) - 1) * jstep := mul_nonneg (by omega) (by omega)
  have p1 : (0 : Int) ≤ i * istep := by positivity
  have p2 : (0 : Int) ≤ j * jstep := by positivity
  unfold SView.subMatrix6 at hV
  rw [if_neg (by omega)] at hV
  simp only [Option.some.injEq] at hV
  unfold SView.Shows
  dsimp only
  cases hu : M.upper <;> simp only [hu, true_and, false_and, false_or, or_false, Bool.false_eq_true, Bool.true_eq_false] at hV
  · have hl := hlo hu
    split at hV
    · left; rw [in_lo' hu]
      refine ⟨by omega, ?_, by rw [← hV]⟩
      rw [← hV]; simp only [MView.addr, SView.addr]; ring
    · right; rw [in_lo' hu]
      refine ⟨by omega, ?_, by rw [← hV]⟩
      rw [← hV]; simp only [MView.addr, SView.addr]; ring
  · split at hV
    · left; rw [in_up' hu]
      refine ⟨by omega, ?_, by rw [← hV]⟩
      rw [← hV]; simp only [MView.addr, SView.addr]; ring
    · right; rw [in_up' hu]
      refine ⟨by omega, ?_, by rw [← hV]⟩
      rw [← hV]; simp only [MView.addr, SView.addr]; ring

/-- Finding: on a matrix stored in the lower triangle `subMatrix(0,3,1,3,3,1)` (row 0, columns 1 and 2 of
a 3 by 3 matrix) is accepted and shows unstored memory, because the triangle is chosen by comparing with
`istep` instead of `jstep`; on one stored in the upper triangle `subMatrix(2,3,2,0,1,-1)` (row 2, columns 2 and 1) is accepted and
shows unstored memory, because the triangle is chosen as if the step were positive. -/
theorem sym_subMatrix_violated :
    (∃ V, (SView.ofStor 0 3 true false false).hasSubMatrix 0 3 1 3 3 1 = some true ∧
      (SView.ofStor 0 3 true false false).subMatrix6 0 3 1 3 3 1 = some V ∧ V.cs = 1 ∧ V.rs = 2 ∧
      ¬ (SView.ofStor 0 3 true false false).Covers (V.addr 0 0)) ∧
    (∃ V, (SView.ofStor 0 3 true false true).hasSubMatrix 2 3 2 0 1 (-1) = some true ∧
      (SView.ofStor 0 3 true false true).subMatrix6 2 3 2 0 1 (-1) = some V ∧ V.cs = 1 ∧ V.rs = 2 ∧
      ¬ (SView.ofStor 0 3 true false true).Covers (V.addr 0 1)) := by
  refine ⟨⟨_, by decide, rfl, by decide, by decide, ?_⟩, ⟨_, by decide, rfl, by decide, by decide, ?_⟩⟩
  · rintro ⟨i, j, h, e⟩
    rw [in_lo' rfl] at h
    simp [SView.ofStor, SView.addr, MView.addr] at h e
    omega
  · rintro ⟨i, j, h, e⟩
    rw [in_up' rfl] at h
    simp [SView.ofStor, SView.addr, MView.addr] at h e
    omega

/-! ### Symmetric views -/

/-- **C66** `subSymMatrix(i1,i2)`: the same elements, and the same memory. -/
theorem sym_subSym2 [Star K] (M : SView) (m : Mem K) (i1 i2 : Int) (h1 : 0 ≤ i1) (h2 : i2 ≤ M.n) (i j : Int) :
    (i1 ≤ i2 → ((M.subSym2 i1 i2).n : Int) = i2 - i1) ∧ (M.subSym2 i1 i2).herm = M.herm ∧
    ((M.subSym2 i1 i2).In i j → M.In (i1 + i) (i1 + j)) ∧
    (M.subSym2 i1 i2).addr i j = M.addr (i1 + i) (i1 + j) ∧
    (M.subSym2 i1 i2).cref m i j = M.cref m (i1 + i) (i1 + j) := by
  have ea : ∀ i j, (M.subSym2 i1 i2).addr i j = M.addr (i1 + i) (i1 + j) := by
    intro i j; simp only [SView.addr, SView.subSym2]; ring
  refine ⟨fun h => by simp only [SView.subSym2]; omega, rfl, ?_, ea i j, ?_⟩
  · intro h
    cases hu : M.upper
    · rw [in_lo' (M := M.subSym2 i1 i2) hu] at h
      rw [in_lo' hu]
      simp only [SView.subSym2] at h
      omega
    · rw [in_up' (M := M.subSym2 i1 i2) hu] at h
      rw [in_up' hu]
      simp only [SView.subSym2] at h
      omega
  · unfold SView.cref
    rw [ea, ea]
    simp only [SView.stored, SView.subSym2, ge_iff_le, add_le_add_iff_left]
    rfl

/-- **C66** `subSymMatrix(i1,i2,istep)` (partial: positive step; see `sym_subSym_negative_violated`). -/
theorem sym_subSym3_partial [Star K] (M : SView) (m : Mem K) (i1 i2 istep : Int)
    (hs : 0 < istep) (V : SView) (hV : M.subSym3 i1 i2 istep = some V)
    (h : M.hasSubSym i1 i2 istep = some true) (i j : Int) :
    V.herm = M.herm ∧ (i1 ≠ i2 → i1 + V.n * istep = i2) ∧
    (V.In i j → M.In (i1 + i * istep) (i1 + j * istep)) ∧
    V.addr i j = M.addr (i1 + i * istep) (i1 + j * istep) ∧
    V.cref m i j = M.cref m (i1 + i * istep) (i1 + j * istep) := by
  unfold SView.subSym3 at hV
  rw [if_neg (by omega)] at hV
  simp only [Option.some.injEq] at hV
  have ea : ∀ i j, V.addr i j = M.addr (i1 + i * istep) (i1 + j * istep) := by
    intro i j; rw [← hV]; simp only [SView.addr]; ring
  have hn : V.n = ((i2 - i1).tdiv istep).toNat := by rw [← hV]
  have hup : V.upper = M.upper := by rw [← hV]
  have key : i1 ≠ i2 → i2 = i1 + V.n * istep ∧
      ∀ k : Nat, k < V.n → 0 ≤ i1 + k * istep ∧ i1 + k * istep < M.n := by
    intro hne
    unfold SView.hasSubSym at h
    rw [if_neg hne] at h
    obtain ⟨b, hb, hb'⟩ := rangeCheck_iff M.n i1 i2 istep (by omega) hne
    rw [hb] at h
    obtain ⟨k, ek, rk⟩ := hb'.mp (by simpa using h)
    have sk : (i2 - i1).tdiv istep = k := by
      rw [ek, add_sub_cancel_left]; exact Int.mul_tdiv_cancel _ (by omega)
    rw [hn, sk, Int.toNat_natCast]
    exact ⟨ek, rk⟩
  have mono : ∀ a b : Int, i1 + a * istep ≤ i1 + b * istep ↔ a ≤ b := by
    intro a b
    constructor
    · intro e
      have : a * istep ≤ b * istep := by omega
      exact le_of_mul_le_mul_right this hs
    · intro e
      have := mul_le_mul_of_nonneg_right e (le_of_lt hs)
      omega
  refine ⟨by rw [← hV], fun hne => (key hne).1.symm, ?_, ea i j, ?_⟩
  · intro hin
    have hr : 0 ≤ i ∧ i < V.n ∧ 0 ≤ j ∧ j < V.n := ⟨hin.1, hin.2.1, hin.2.2.1, hin.2.2.2.1⟩
    have hne : i1 ≠ i2 := by
      rintro rfl
      simp at hn; omega
    have rk := (key hne).2
    have c1 := rk i.toNat (by omega)
    have c2 := rk j.toNat (by omega)
    rw [show ((i.toNat : Nat) : Int) = i by omega] at c1
    rw [show ((j.toNat : Nat) : Int) = j by omega] at c2
    have := hin.2.2.2.2
    rw [hup] at this
    refine ⟨c1.1, c1.2, c2.1, c2.2, ?_⟩
    rw [mono, mono]; exact this
  · unfold SView.cref
    rw [ea, ea]
    have e : V.stored i j = M.stored (i1 + i * istep) (i1 + j * istep) := by
      simp only [SView.stored, ge_iff_le, mono, hup]
    rw [e]
    rw [← hV]

/-- Finding: with a negative step the stored triangle of the accepted view is the unstored triangle of
the matrix. -/
theorem sym_subSym_negative_violated :
    ∃ V, (SView.ofStor 0 3 true false true).hasSubSym 2 (-1) (-1) = some true ∧
      (SView.ofStor 0 3 true false true).subSym3 2 (-1) (-1) = some V ∧ V.In 0 1 ∧
      ¬ (SView.ofStor 0 3 true false true).Covers (V.addr 0 1) := by
  refine ⟨_, by decide, rfl, by decide, ?_⟩
  rintro ⟨i, j, h, e⟩
  rw [in_up' rfl] at h
  simp [SView.ofStor, SView.addr] at h e
  omega

/-- **C66** `SymMatrixViewOf(m,uplo)` / `HermMatrixViewOf(m,uplo)` read the named triangle of the square
matrix, mirrored. -/
theorem sym_ofMat [InvolutiveStar K] (M : MView) (herm upper : Bool) (hsq : M.cs = M.rs) (m : Mem K) (i j : Nat)
    (hi : i < M.rs) (hj : j < M.rs) :
    (SView.ofMat M herm upper).n = M.cs ∧
    (SView.ofMat M herm upper).cref m i j =
      if (if upper = true then i ≤ j else j ≤ i) then M.cref m i j
      else (M.cref m j i).map (fun x => if herm then star x else x) := by
  refine ⟨hsq.symm, ?_⟩
  have key : ∀ (a b : Int), (SView.ofMat M herm upper).addr a b = M.addr a b := fun _ _ => rfl
  by_cases h : (if upper = true then i ≤ j else j ≤ i)
  · rw [if_pos h, sym_cref_in]
    · rfl
    · refine ⟨by omega, by simpa [SView.ofMat] using hi, by omega, by simpa [SView.ofMat] using hj, ?_⟩
      show if upper = true then _ else _
      split at h <;> rename_i hu
      · rw [if_pos hu]; omega
      · rw [if_neg hu]; omega
  · rw [if_neg h, sym_cref_mirror]
    · rw [key]
      unfold MView.cref
      rw [Option.map_map]
      congr 1
      funext x
      rw [cj_cj_oct]
      rfl
    · refine ⟨by omega, by simpa [SView.ofMat] using hj, by omega, by simpa [SView.ofMat] using hi, ?_⟩
      show if upper = true then _ else _
      split at h <;> rename_i hu
      · rw [if_pos hu]; omega
      · rw [if_neg hu]; omega
    · split at h <;> omega

/-- Non-trivial instances: a row across storage, a strided rectangle, a negative diagonal and a strided
symmetric submatrix of a 5 by 5 Hermitian matrix meet the hypotheses. -/
example : (0:Int) ≤ 3 ∧ (3:Int) < (SView.ofStor 0 5 true true false).n ∧ ((3:Int) ≤ 1 ∨ (4:Int) ≤ 3 + 1) ∧
    (SView.ofStor 0 5 true true false).hasSubMatrix 0 4 4 5 2 1 = some true ∧
    (SView.ofStor 0 5 true true false).hasSubVector 0 4 1 (-1) 2 = true ∧
    (SView.ofStor 0 5 true true false).hasSubSym 0 6 3 = some true ∧ |(-2 : Int)| ≤ (SView.ofStor 0 5 true true false).n := by
  decide

end TMV
