import Verif.Model.TriSum
import Verif.Props.TriOps
import Verif.Props.MatArith
import Verif.Props.MatArithEx

/-! Scaling and sums of triangular matrices (`Model/TriSum`).  Properties C120-C122. -/
set_option linter.unusedSectionVars false
set_option linter.unusedVariables false
namespace TMV
variable {K : Type _}

/-! ### Vocabulary -/

/-- After the operation the triangular matrix `M` reads as the matrix `y` (zeros below the diagonal included), and no memory outside its
stored elements has changed. -/
def TView.Becomes [Star K] [Zero K] [One K] (M : TView) (m m' : Mem K) (y : Nat → Nat → K) : Prop :=
  M.Holds m' y ∧ ∀ a, ¬ M.Covers a → m' a = m a

/-- No stored element is shared. -/
def TView.Sep (A B : TView) : Prop := ∀ a, A.Covers a → ¬ B.Covers a

/-- How an operand `A` may share memory with the result `C`: not at all; the same triangle (perhaps conjugated or with an implicit
diagonal); or only the diagonal, as the transposed other triangle of the same square matrix does. -/
def TView.AliasOK (A C : TView) : Prop :=
  A.Sep C ∨ (A.ptr = C.ptr ∧ A.si = C.si ∧ A.sj = C.sj) ∨ (A.ptr = C.ptr ∧ A.NoClash C ∧ (A.offDiag 1).Sep (C.offDiag 1))

/-! ### Stored elements -/

section
variable [Star K] [Zero K] [One K]

def TView.Has (M : TView) (m : Mem K) (y : Nat → Nat → K) : Prop := ∀ i j : Nat, M.In i j → M.cref m i j = some (y i j)
def TView.Gets (M : TView) (m m' : Mem K) (y : Nat → Nat → K) : Prop := M.Has m' y ∧ ∀ a, ¬ M.Covers a → m' a = m a

theorem TView.Holds.has {M : TView} {m : Mem K} {y : Nat → Nat → K} (h : M.Holds m y) : M.Has m y :=
  fun i j hij => h i j (by have := hij.2.1; omega) (by have := hij.2.2.2.1; omega)

theorem TView.Holds.low {M : TView} {m : Mem K} {y : Nat → Nat → K} (h : M.Holds m y) {i j : Nat} (hi : i < M.n) (hij : j < i) : y i j = 0 := by
  have := h i j hi (by omega)
  rw [tri_cref_zero M m _ _ (by omega)] at this
  exact (Option.some_inj.mp this).symm

theorem TView.Holds.diag1 {M : TView} {m : Mem K} {y : Nat → Nat → K} (h : M.Holds m y) (hu : M.unit = true) {i : Nat} (hi : i < M.n) : y i i = 1 := by
  have := h i i hi hi
  rw [tri_cref_one M m _ hu] at this
  exact (Option.some_inj.mp this).symm

theorem TView.Has.holds {M : TView} {m : Mem K} {y : Nat → Nat → K} (h : M.Has m y) (h0 : ∀ i j, i < M.n → j < i → y i j = 0)
    (h1 : M.unit = true → ∀ i, i < M.n → y i i = 1) : M.Holds m y := by
  intro i j hi hj
  rcases tri_cases M i j (by omega) (by omega) (by omega) (by omega) with h' | h' | ⟨h', e⟩
  · exact h i j h'
  · rw [tri_cref_zero M m _ _ h', h0 i j hi (by omega)]
  · obtain rfl : i = j := by omega
    rw [tri_cref_one M m _ h', h1 h' i hi]

theorem TView.Has.live {M : TView} {m : Mem K} {y : Nat → Nat → K} (h : M.Has m y) : M.Live m := by
  intro i j hij
  have h1 := h i.toNat j.toNat (by rw [Int.toNat_of_nonneg hij.1, Int.toNat_of_nonneg hij.2.2.1]; exact hij)
  rw [Int.toNat_of_nonneg hij.1, Int.toNat_of_nonneg hij.2.2.1, tri_cref_in M m _ _ hij] at h1
  obtain ⟨a, h2, -⟩ := Option.map_eq_some_iff.mp h1
  rw [h2]; rfl

theorem TView.Has.val {M : TView} {m : Mem K} {y : Nat → Nat → K} (h : M.Has m y) {i j : Int} (hij : M.In i j) :
    M.reg.val m i j = some (y i.toNat j.toNat) := by
  have h1 := h i.toNat j.toNat (by rw [Int.toNat_of_nonneg hij.1, Int.toNat_of_nonneg hij.2.2.1]; exact hij)
  rw [Int.toNat_of_nonneg hij.1, Int.toNat_of_nonneg hij.2.2.1] at h1
  rw [tri_val M m i j hij, h1]

theorem TView.Has.congr {M : TView} {m : Mem K} {y z : Nat → Nat → K} (h : M.Has m y) (e : ∀ i j : Nat, M.In i j → y i j = z i j) :
    M.Has m z := fun i j hij => by rw [h i j hij, e i j hij]

theorem TView.Has.frame {M : TView} {m m' : Mem K} {y : Nat → Nat → K} (h : M.Has m y) (e : ∀ a, M.Covers a → m' a = m a) : M.Has m' y := by
  intro i j hij
  rw [← h i j hij, tri_cref_in M _ _ _ hij, tri_cref_in M _ _ _ hij, e _ ⟨_, _, hij, rfl⟩]

theorem TView.Holds.frame {M : TView} {m m' : Mem K} {y : Nat → Nat → K} (h : M.Holds m y) (e : ∀ a, M.Covers a → m' a = m a) : M.Holds m' y :=
  (h.has.frame e).holds (fun _ _ hi hj => h.low hi hj) (fun hu _ hi => h.diag1 hu hi)

theorem TView.Live.exHolds {M : TView} {m : Mem K} (h : M.Live m) : ∃ y, M.Holds m y := by
  refine ⟨fun i j => (M.cref m i j).getD 0, fun i j hi hj => ?_⟩
  have := tri_cref_total M m h i j (by omega) (by omega) (by omega) (by omega)
  obtain ⟨z, hz⟩ := Option.isSome_iff_exists.mp this
  simp [hz]

theorem TView.Gets.trans {M : TView} {m m1 m2 : Mem K} {x y : Nat → Nat → K} (h : M.Gets m m1 x) (h' : M.Gets m1 m2 y) : M.Gets m m2 y :=
  ⟨h'.1, fun a ha => by rw [h'.2 a ha, h.2 a ha]⟩

theorem TView.Gets.congr {M : TView} {m m' : Mem K} {y z : Nat → Nat → K} (h : M.Gets m m' y) (e : ∀ i j : Nat, M.In i j → y i j = z i j) :
    M.Gets m m' z := ⟨h.1.congr e, h.2⟩

theorem TView.Gets.becomes {M : TView} {m m' : Mem K} {y : Nat → Nat → K} (h : M.Gets m m' y) (h0 : ∀ i j, i < M.n → j < i → y i j = 0)
    (h1 : M.unit = true → ∀ i, i < M.n → y i i = 1) : M.Becomes m m' y := ⟨h.1.holds h0 h1, h.2⟩

theorem TView.Becomes.gets {M : TView} {m m' : Mem K} {y : Nat → Nat → K} (h : M.Becomes m m' y) : M.Gets m m' y := ⟨h.1.has, h.2⟩

theorem TView.Gets.bdd {M : TView} {m m' : Mem K} {y : Nat → Nat → K} (h : M.Gets m m' y) (hl : M.Live m) (hb : m.Bdd) : m'.Bdd := by
  obtain ⟨b, hb⟩ := hb
  refine ⟨b, fun a ha => ?_⟩
  rw [h.2 a, hb a ha]
  rintro ⟨i, j, hij, rfl⟩
  have := hl i j hij
  rw [hb _ ha] at this; cases this

theorem TView.Live.after {A M : TView} {m m' : Mem K} {y : Nat → Nat → K} (h : M.Gets m m' y) (hl : A.Live m) : A.Live m' := by
  intro i j hij
  by_cases hc : M.Covers (A.addr i j)
  · obtain ⟨i', j', h', e⟩ := hc
    rw [e]; exact h.1.live i' j' h'
  · rw [h.2 _ hc]; exact hl i j hij
end

section
variable [CommRing K] [StarRing K]

theorem TView.Has.conjugate {M : TView} {m : Mem K} {y : Nat → Nat → K} : M.conjugate.Has m (fun i j => star (y i j)) ↔ M.Has m y := by
  have key : ∀ i j : Nat, M.In i j → (M.conjugate.cref m i j = some (star (y i j)) ↔ M.cref m i j = some (y i j)) := by
    intro i j hij
    rw [(tri_conjugate M m i j).2]
    cases M.cref m i j <;> simp
  exact ⟨fun h i j hij => (key i j hij).mp (h i j hij), fun h i j hij => (key i j hij).mpr (h i j hij)⟩

theorem TView.Gets.of_conjugate {M : TView} {m m' : Mem K} {y : Nat → Nat → K} (h : M.conjugate.Gets m m' (fun i j => star (y i j))) :
    M.Gets m m' y := ⟨TView.Has.conjugate.mp h.1, h.2⟩

theorem TView.Holds.conjugate {M : TView} {m : Mem K} {y : Nat → Nat → K} (h : M.Holds m y) : M.conjugate.Holds m (fun i j => star (y i j)) := by
  intro i j hi hj
  rw [(tri_conjugate M m i j).2, h i j hi hj]; rfl

theorem TView.Has.offDiag {M : TView} {m : Mem K} {y : Nat → Nat → K} (h : M.Has m y) : (M.offDiag 1).Has m (fun i j => y i (j+1)) := by
  intro i j hij
  have h1 := (tri_offDiag_in M i j).mp hij
  have := h i (j+1) (by push_cast; exact h1.1)
  rw [tri_cref_in _ m _ _ hij, tri_offDiag_addr]
  rw [tri_cref_in _ m _ _ (by push_cast; exact h1.1)] at this
  push_cast at this
  exact this

/-- Part by part. -/
theorem parts_spec {R : Region} {f : Nat → VView} {n : Nat} {at_ : Nat → Nat → Int × Int} (op : Nat → Mem K → Option (Mem K))
    (hI : R.Inj) (hP : R.Parts f n at_) (m : Mem K) (val : Nat → Nat → K)
    (h : ∀ k, k < n → ∀ m1 : Mem K, (∀ a, ¬ R.Covers a → m1 a = m a) → (∀ a, (f k).Covers a → m1 a = m a) →
      ∃ m2, op k m1 = some m2 ∧ (f k).Becomes m1 m2 (fun l => val (at_ k l).1.toNat (at_ k l).2.toNat)) :
    ∃ m', loopN op n 0 m = some m' ∧ (∀ i j, R.In i j → R.val m' i j = some (val i.toNat j.toNat)) ∧ ∀ a, ¬ R.Covers a → m' a = m a := by
  obtain ⟨m', e, v, fr⟩ := loopN_spec op f (fun k l => val (at_ k l).1.toNat (at_ k l).2.toNat) n 0 m
    (fun k k' _ h1 _ h2 hne => hP.disj hI (by omega) (by omega) hne)
    (fun k _ h2 m1 hm1 => by
      refine h k (by omega) m1 (fun a ha => hm1 a ?_) (fun a ha => hm1 a ?_)
      · intro k' _ h4 hc
        exact ha (hP.covers (by omega) hc)
      · intro k' _ h4 hc
        exact hP.disj hI (k := k) (k' := k') (by omega) (by omega) (by omega) a ha hc)
  refine ⟨m', e, fun i j hij => ?_, fun a ha => fr a fun k _ hk hc => ha (hP.covers (by omega) hc)⟩
  obtain ⟨k, l, hk, hl, e'⟩ := hP.cover i j hij
  have := v k (by omega) (by omega) l hl
  rw [hP.val m' hk hl] at this
  dsimp only at this
  rw [e'] at this
  exact this

theorem TView.gets_of {M : TView} {m m' : Mem K} {y : Nat → Nat → K} (h : ∀ i j, M.reg.In i j → M.reg.val m' i j = some (y i.toNat j.toNat))
    (hf : ∀ a, ¬ M.reg.Covers a → m' a = m a) : M.Gets m m' y := by
  refine ⟨fun i j hij => ?_, hf⟩
  have := h i j hij
  rw [tri_val M m' _ _ hij] at this
  simpa using this

theorem Parts.has {M : TView} {f : Nat → VView} {n : Nat} {at_ : Nat → Nat → Int × Int} (hP : M.reg.Parts f n at_) {m m1 : Mem K}
    {y : Nat → Nat → K} (h : M.Has m y) {k : Nat} (hk : k < n) (e : ∀ a, (f k).Covers a → m1 a = m a) :
    (f k).Holds m1 (fun l => y (at_ k l).1.toNat (at_ k l).2.toNat) := by
  intro l hl
  have h1 : (f k).cref m1 l = (f k).cref m l := by
    unfold VView.cref Mem.read; rw [e _ ⟨l, hl, rfl⟩]
  rw [h1, hP.val m hk hl]
  exact h.val (hP.mem k hk l hl).1

theorem Parts.rev {R : Region} {f : Nat → VView} {n : Nat} {at_ : Nat → Nat → Int × Int} (h : R.Parts f n at_) :
    R.Parts (fun k => f (n - 1 - k)) n (fun k l => at_ (n - 1 - k) l) := by
  constructor
  · intro k hk; exact h.conj _ (by omega)
  · intro k hk; exact h.wf _ (by omega)
  · intro k hk j hj; exact h.mem _ (by omega) j hj
  · intro i j hij
    obtain ⟨k, l, hk, hl, e⟩ := h.cover i j hij
    have : n - 1 - (n - 1 - k) = k := by omega
    exact ⟨n - 1 - k, l, by omega, by rw [this]; exact hl, by rw [this]; exact e⟩
  · intro k l k' l' hk hl hk' hl' e
    obtain ⟨h1, h2⟩ := h.inj _ l _ l' (by omega) hl (by omega) hl' e
    exact ⟨by omega, h2⟩

/-! ### C120: `A *= x`, `B = x*A` -/

variable [DecidableEq K]

omit [DecidableEq K] in
theorem loopMod_becomes (x : K) (v : VView) (m : Mem K) (y : Nat → K) (hw : v.WF) (hc : v.conj = false) (hv : v.Holds m y) :
    ∃ m', loopMod (· * x) v.step v.size v.ptr m = some m' ∧ v.Becomes m m' (fun i => x * y i) := by
  obtain ⟨m', e, c, fr⟩ := loopMod_spec (· * x) v.step v.size v.ptr m hw.inj hv.live
  refine ⟨m', e, VView.Holds.of_raw fun i hi => ?_, fun a ha => fr a fun i hi e => ha ⟨i, hi, e⟩⟩
  have h1 := hv.rawA i hi
  have h2 := c i hi
  rw [VView.addr] at h1 ⊢
  rw [h2, h1, hc]
  show some (y i * x) = some (x * y i)
  rw [mul_comm]

theorem tri_doMulX_spec (x : K) (A : TView) (m : Mem K) (y : Nat → Nat → K) (hW : A.WF) (hu : A.unit = false) (hc : A.conj = false)
    (hA : A.Has m y) : ∃ m', TView.doMulX x A m = some m' ∧ A.Gets m m' (fun i j => x * y i j) := by
  unfold TView.doMulX
  have hrow : ∀ i : Nat, A.rowU i = A.row3 i i A.n := fun i => by rw [TView.rowU_eq, hu, ub_false, add_zero]
  have hcol : ∀ j : Nat, A.colU j = A.col3 j 0 (j + 1) := fun j => by rw [TView.colU_eq, hu, ub_false, sub_zero]
  by_cases h0 : x = 0
  · rw [if_pos h0]
    obtain ⟨m', e, c, fr⟩ := tri_setZero_spec A hW m hA.live
    refine ⟨m', e, fun i j hij => ?_, fr⟩
    rw [c i j hij.1 hij.2.1 hij.2.2.1 hij.2.2.2.1, if_neg (by simp [hu])]
    simp [h0]
  rw [if_neg h0]
  by_cases h1 : A.isrm = true
  · rw [if_pos h1]
    have hsj : A.sj = 1 := by simpa [TView.isrm] using h1
    have hP := tri_rows_parts A hW
    obtain ⟨m', e, c, fr⟩ := parts_spec (fun i => loopMod (· * x) 1 (A.n - i) (A.ptr + i * (A.si + 1))) (R := A.reg) hW.1 hP m
      (fun i j => x * y i j) (fun k hk m1 hm1 hm2 => by
        obtain ⟨m2, e2, b2⟩ := loopMod_becomes x (A.rowU k) m1 _ (hP.wf k hk) (by rw [hP.conj k hk]; exact hc) (Parts.has hP hA hk hm2)
        refine ⟨m2, ?_, b2⟩
        rw [← e2, hrow]
        simp only [TView.row3, hsj]
        congr 1
        · omega
        · ring)
    exact ⟨m', e, TView.gets_of c fr⟩
  rw [if_neg h1]
  by_cases h2 : A.iscm = true
  · rw [if_pos h2]
    have hsi : A.si = 1 := by simpa [TView.iscm] using h2
    have hP := tri_cols_parts A hW
    obtain ⟨m', e, c, fr⟩ := parts_spec (fun j => loopMod (· * x) 1 (j + 1) (A.ptr + j * A.sj)) (R := A.reg) hW.1 hP m
      (fun i j => x * y i j) (fun k hk m1 hm1 hm2 => by
        obtain ⟨m2, e2, b2⟩ := loopMod_becomes x (A.colU k) m1 _ (hP.wf k hk) (by rw [hP.conj k hk]; exact hc) (Parts.has hP hA hk hm2)
        refine ⟨m2, ?_, b2⟩
        rw [← e2, hcol]
        simp only [TView.col3, hsi]
        congr 1
        ring)
    exact ⟨m', e, TView.gets_of c fr⟩
  rw [if_neg h2]
  have hP := tri_rows_parts A hW
  obtain ⟨m', e, c, fr⟩ := parts_spec (fun i => (A.row3 i i A.n).mulX x) (R := A.reg) hW.1 hP m
    (fun i j => x * y i j) (fun k hk m1 hm1 hm2 => by
      obtain ⟨m2, e2, b2⟩ := mulX_spec x (A.rowU k) m1 _ (hP.wf k hk) (Parts.has hP hA hk hm2)
      refine ⟨m2, ?_, b2⟩
      rw [← e2, hrow])
  exact ⟨m', e, TView.gets_of c fr⟩

theorem tri_mulX_has (x : K) (A : TView) (m : Mem K) (y : Nat → Nat → K) (hW : A.WF) (hu : A.unit = true → x = 1) (hA : A.Has m y) :
    ∃ m', TView.mulX x A m = some m' ∧ A.Gets m m' (fun i j => x * y i j) := by
  unfold TView.mulX
  by_cases h : A.n > 0 ∧ x ≠ 1
  · have hu' : A.unit = false := by
      cases hh : A.unit
      · rfl
      · exact absurd (hu hh) h.2
    rw [if_pos h]
    by_cases hc : A.conj = true
    · rw [if_pos hc]
      obtain ⟨m', e, b⟩ := tri_doMulX_spec (star x) A.conjugate m _ hW hu' (by simp [TView.conjugate, hc]) (TView.Has.conjugate.mpr hA)
      exact ⟨m', e, TView.Gets.of_conjugate (b.congr fun i j _ => by rw [star_mul'])⟩
    · rw [if_neg hc]
      exact tri_doMulX_spec x A m y hW hu' (by simpa using hc) hA
  · rw [if_neg h]
    refine ⟨m, rfl, hA.congr fun i j hij => ?_, fun _ _ => rfl⟩
    have : x = 1 := by
      by_contra h'; exact h ⟨by have := hij.1; have := hij.2.1; omega, h'⟩
    rw [this, one_mul]

/-- **C120** (`A *= x`).  Every element is multiplied by `x`, for every layout and conjugation; nothing else changes. -/
theorem tri_mulX_spec (x : K) (A : TView) (m : Mem K) (y : Nat → Nat → K) (hW : A.WF) (hu : A.unit = false) (hA : A.Holds m y) :
    ∃ m', TView.mulX x A m = some m' ∧ A.Becomes m m' (fun i j => x * y i j) := by
  obtain ⟨m', e, b⟩ := tri_mulX_has x A m y hW (fun h => by rw [hu] at h; cases h) hA.has
  exact ⟨m', e, b.becomes (fun i j hi hj => by rw [hA.low hi hj, mul_zero]) (fun h => by rw [hu] at h; cases h)⟩

theorem tri_assignMulX_gets (x : K) (A B : TView) (hn : A.n = B.n) (hA : A.WF) (hB : B.WF) (hub : B.unit = true → A.unit = true ∧ x = 1)
    (hc : A.NoClash B) (m : Mem K) (y : Nat → Nat → K) (hAy : A.Holds m y) (hlB : B.Live m) :
    ∃ m', TView.assignMulX x A B m = some m' ∧ B.Gets m m' (fun i j => x * y i j) := by
  unfold TView.assignMulX
  obtain ⟨m1, e1, c1, f1⟩ := tri_assign_spec A B hn hA hB (fun h => (hub h).1) hc m hAy.has.live hlB
  have h1 : B.Has m1 y := fun i j hij => by
    rw [c1 i j hij.1 hij.2.1 hij.2.2.1 hij.2.2.2.1]
    exact hAy i j (by have := hij.2.1; omega) (by have := hij.2.2.2.1; omega)
  obtain ⟨m2, e2, b2⟩ := tri_mulX_has x B m1 y hB (fun h => (hub h).2) h1
  exact ⟨m2, by rw [e1]; exact e2, b2.1, fun a ha => by rw [b2.2 a ha, f1 a ha]⟩

/-- **C120** (`B = x*A`).  The result is `x` times the old `A`, for every layout, conjugation and diagonal type, when `A` and `B` share
elements at most at equal indices; nothing else changes. -/
theorem tri_assignMulX_spec (x : K) (A B : TView) (hn : A.n = B.n) (hA : A.WF) (hB : B.WF) (hub : B.unit = false)
    (hc : A.NoClash B) (m : Mem K) (y : Nat → Nat → K) (hAy : A.Holds m y) (hlB : B.Live m) :
    ∃ m', TView.assignMulX x A B m = some m' ∧ B.Becomes m m' (fun i j => x * y i j) := by
  obtain ⟨m', e, b⟩ := tri_assignMulX_gets x A B hn hA hB (fun h => by rw [hub] at h; cases h) hc m y hAy hlB
  exact ⟨m', e, b.becomes (fun i j hi hj => by rw [hAy.low (by omega) hj, mul_zero]) (fun h => by rw [hub] at h; cases h)⟩

/-! ### C120: `B += x*A` -/

theorem loop2_plus (x : K) (v w : VView) (m : Mem K) (y z : Nat → K) (hn : v.size = w.size) (hw : w.WF) (hd : v.Disjoint w)
    (hc : w.conj = false) (hv : v.Holds m y) (hz : w.Holds m z) :
    ∃ m', loop2 (fun a b => if x = 1 then b + cj v.conj a else b + x * cj v.conj a) v.step w.step w.size v.ptr w.ptr m = some m' ∧
      w.Becomes m m' (fun i => z i + x * y i) := by
  obtain ⟨m', p, q, r⟩ := loop2_becomes (fun a b => if x = 1 then b + cj v.conj a else b + x * cj v.conj a) v w m y hn
    hw (Ahead.of_noClash hn (NoClash.of_disjoint hd)) hv hz.live
  refine ⟨m', p, VView.Holds.of_raw fun j hj => ?_, q⟩
  rw [r j hj _ (hz.rawA j hj)]
  show some (if x = 1 then cj w.conj (z j) + cj v.conj (cj v.conj (y j))
    else cj w.conj (z j) + x * cj v.conj (cj v.conj (y j))) = some (cj w.conj _)
  rw [cj_cj, hc]
  by_cases h : x = 1
  · simp [h, cj]
  · simp [h, cj]

theorem parts_add (x : K) {A B : TView} {f g : Nat → VView} {n : Nat} {at_ : Nat → Nat → Int × Int} (hf : A.reg.Parts f n at_)
    (hg : B.reg.Parts g n at_) (hs : ∀ k, k < n → (f k).size = (g k).size) (hI : B.Inj) (hc : B.conj = false) (hd : A.Sep B) (m : Mem K)
    (y z : Nat → Nat → K) (hA : A.Has m y) (hB : B.Has m z) (op : Nat → Mem K → Option (Mem K))
    (hop : ∀ k, k < n → ∀ m, op k m = loop2 (fun a b => if x = 1 then b + cj A.conj a else b + x * cj A.conj a) (f k).step (g k).step
      (g k).size (f k).ptr (g k).ptr m) :
    ∃ m', loopN op n 0 m = some m' ∧ B.Gets m m' (fun i j => z i j + x * y i j) := by
  obtain ⟨m', e, c, fr⟩ := parts_spec op (R := B.reg) hI hg m (fun i j => z i j + x * y i j) (fun k hk m1 hm1 hm2 => by
    have e1 : (f k).conj = A.conj := hf.conj k hk
    obtain ⟨m2, e2, b2⟩ := loop2_plus x (f k) (g k) m1 _ _ (hs k hk) (hg.wf k hk)
      (fun a h1 h2 => hd a (hf.covers hk h1) (hg.covers hk h2)) (by rw [hg.conj k hk]; exact hc)
      (Parts.has hf hA hk fun a ha => hm1 a fun h => hd a (hf.covers hk ha) h) (Parts.has hg hB hk hm2)
    rw [e1] at e2
    exact ⟨m2, by rw [hop k hk]; exact e2, b2⟩)
  exact ⟨m', e, TView.gets_of c fr⟩

theorem tri_addNonUnit_spec (x : K) (A B : TView) (hn : A.n = B.n) (hWA : A.WF) (hWB : B.WF) (hua : A.unit = false) (hub : B.unit = false)
    (hc : B.conj = false) (hd : A.Sep B) (m : Mem K) (y z : Nat → Nat → K) (hA : A.Has m y) (hB : B.Has m z) :
    ∃ m', TView.addNonUnit x A B m = some m' ∧ B.Gets m m' (fun i j => z i j + x * y i j) := by
  have rA : ∀ i : Nat, A.rowU i = A.row3 i i A.n := fun i => by rw [TView.rowU_eq, hua, ub_false, add_zero]
  have cA : ∀ j : Nat, A.colU j = A.col3 j 0 (j + 1) := fun j => by rw [TView.colU_eq, hua, ub_false, sub_zero]
  have rB : ∀ i : Nat, B.rowU i = B.row3 i i A.n := fun i => by rw [TView.rowU_eq, hub, ub_false, add_zero, hn]
  have cB : ∀ j : Nat, B.colU j = B.col3 j 0 (j + 1) := fun j => by rw [TView.colU_eq, hub, ub_false, sub_zero]
  have row : ∀ rm, (rm = true → A.sj = 1 ∧ B.sj = 1) →
      ∃ m', TView.rowAdd rm x A B m = some m' ∧ B.Gets m m' (fun i j => z i j + x * y i j) := by
    intro rm hr
    have e1 : (if rm = true then 1 else A.sj) = A.sj := by
      split
      · rename_i h; exact (hr h).1.symm
      · rfl
    have e2 : (if rm = true then 1 else B.sj) = B.sj := by
      split
      · rename_i h; exact (hr h).2.symm
      · rfl
    have pA := tri_rows_parts A hWA
    have pB := tri_rows_parts B hWB
    rw [hua] at pA
    rw [hub, ← hn] at pB
    unfold TView.rowAdd
    dsimp only
    rw [e1, e2]
    refine parts_add x pA pB (fun k _ => by rw [rA, rB]; rfl) hWB.1 hc hd m y z hA hB _ (fun k hk m => ?_)
    rw [rA, rB]
    simp only [TView.row3]
    congr 1
    · omega
    · ring
    · ring
  unfold TView.addNonUnit
  by_cases h1 : A.isrm ∧ B.isrm
  · rw [if_pos h1]
    exact row true (fun _ => by simpa [TView.isrm] using h1)
  rw [if_neg h1]
  by_cases h2 : A.iscm ∧ B.iscm
  · rw [if_pos h2]
    have hs : A.si = 1 ∧ B.si = 1 := by simpa [TView.iscm] using h2
    have pA := Parts.rev (tri_cols_parts A hWA)
    have pB := Parts.rev (hn ▸ tri_cols_parts B hWB : B.reg.Parts B.colU A.n _)
    unfold TView.colAdd
    refine parts_add x pA pB (fun k _ => by rw [cA, cB]; rfl) hWB.1 hc hd m y z hA hB _ (fun k hk m => ?_)
    rw [cA, cB]
    simp only [TView.col3, hs.1, hs.2]
    have : ((A.n - 1 - k : Nat) : Int) = A.n - 1 - k := by omega
    rw [this]
    congr 1
    · omega
    · ring
    · ring
  · rw [if_neg h2]
    exact row false (fun h => by cases h)

omit [CommRing K] [StarRing K] [DecidableEq K] in
theorem TView.Sep.offDiag {A B : TView} (h : A.Sep B) : (A.offDiag 1).Sep (B.offDiag 1) := by
  rintro a ⟨i, j, h1, e1⟩ ⟨i', j', h2, e2⟩
  rw [tri_offDiag_addr] at e1 e2
  exact h a ⟨_, _, ((tri_offDiag_in A i j).mp h1).1, e1⟩ ⟨_, _, ((tri_offDiag_in B i' j').mp h2).1, e2⟩

theorem offDiag_covers {B : TView} {a : Int} (h : (B.offDiag 1).Covers a) : B.Covers a := by
  obtain ⟨i, j, h, e⟩ := h
  exact ⟨i, j + 1, ((tri_offDiag_in B i j).mp h).1, by rw [e, tri_offDiag_addr]⟩

theorem diag_off {B : TView} (hW : B.WF) (hub : B.unit = false) {a : Int} (h : B.diag.Covers a) : ¬ (B.offDiag 1).Covers a := by
  obtain ⟨k, hk, e⟩ := h
  rintro ⟨i, j, h', e'⟩
  rw [tri_offDiag_addr] at e'
  rw [tri_diag_addr] at e
  have h'' := (tri_offDiag_in B i j).mp h'
  have := hW.1 _ _ _ _ (tri_diag_in B hub k hk) h''.1 (e.symm.trans e')
  omega

/-- The whole of `B` from its diagonal and the rest. -/
theorem tri_glue {B : TView} (hW : B.WF) (hub : B.unit = false) {m m' : Mem K} {y : Nat → Nat → K}
    (hd : ∀ k : Nat, k < B.n → B.cref m' k k = some (y k k)) (ho : (B.offDiag 1).Has m' (fun i j => y i (j+1)))
    (hf : ∀ a, ¬ B.Covers a → m' a = m a) : B.Gets m m' y := by
  refine ⟨fun i j hij => ?_, hf⟩
  have hij' := hij
  rw [TView.in_iff, hub, ub_false] at hij'
  by_cases h : i = j
  · subst h; exact hd i (by omega)
  · have hin : (B.offDiag 1).In i ((j - 1 : Nat) : Int) := by
      rw [tri_offDiag_in]
      have : (((j - 1 : Nat) : Int) + 1) = j := by omega
      rw [this]; exact ⟨hij, by omega, by omega⟩
    have h1 := ho i (j - 1) hin
    rw [tri_cref_in _ m' _ _ hin, tri_offDiag_addr, show (((j - 1 : Nat) : Int) + 1) = j by omega] at h1
    dsimp only at h1
    rw [show j - 1 + 1 = j by omega] at h1
    rw [tri_cref_in _ m' _ _ hij]; exact h1

theorem tri_doAdd_spec (x : K) (A B : TView) (hn : A.n = B.n) (hWA : A.WF) (hWB : B.WF) (hub : B.unit = false)
    (hc : B.conj = false) (hd : A.Sep B) (m : Mem K) (y z : Nat → Nat → K) (hA : A.Holds m y) (hB : B.Has m z) :
    ∃ m', TView.doAdd x A B m = some m' ∧ B.Gets m m' (fun i j => z i j + x * y i j) := by
  unfold TView.doAdd
  by_cases hua : A.unit = true
  swap
  · rw [if_neg hua]
    exact tri_addNonUnit_spec x A B hn hWA hWB (by simpa using hua) hub hc hd m y z hA.has hB
  rw [if_pos hua]
  obtain ⟨m1, e1, c1, f1⟩ := addToAll_spec_partial B.diag x m (tri_diag_wf B hWB) (tri_diag_live B hub hB.live) (Or.inr hc)
  rw [e1]
  simp only [Option.bind_some]
  have d1 : ∀ k : Nat, k < B.n → B.cref m1 k k = some (z k k + x * y k k) := by
    intro k hk
    have h1 := c1 k hk
    have h2 := hB k k (tri_diag_in B hub k hk)
    rw [hA.diag1 hua (by omega), mul_one]
    rw [tri_cref_in B _ _ _ (tri_diag_in B hub k hk)] at h2 ⊢
    rw [VView.cref, VView.cref, Mem.read, Mem.read, tri_diag_addr] at h1
    show Option.map (cj B.conj) _ = _
    rw [show B.diag.conj = B.conj from rfl] at h1
    rw [h1, h2]; rfl
  by_cases hn1 : A.n > 1
  · rw [if_pos hn1]
    obtain ⟨m2, e2, b2⟩ := tri_addNonUnit_spec x (A.offDiag 1) (B.offDiag 1) (by simp [TView.offDiag, hn]) (tri_offDiag_wf hWA)
      (tri_offDiag_wf hWB) rfl rfl hc hd.offDiag m1 _ _
      (hA.has.offDiag.frame fun a ha => f1 a fun h => hd a (offDiag_covers ha) (tri_diag_covers B hub h))
      (hB.offDiag.frame fun a ha => f1 a fun h => diag_off hWB hub h ha)
    refine ⟨m2, e2, tri_glue hWB hub (fun k hk => ?_) b2.1 (fun a ha => ?_)⟩
    · rw [← d1 k hk, tri_cref_in B _ _ _ (tri_diag_in B hub k hk), tri_cref_in B _ _ _ (tri_diag_in B hub k hk), b2.2]
      exact diag_off hWB hub ⟨k, hk, (tri_diag_addr B k).symm⟩
    · rw [b2.2 a fun h => ha (offDiag_covers h), f1 a fun h => ha (tri_diag_covers B hub h)]
  · rw [if_neg hn1]
    refine ⟨m1, rfl, tri_glue hWB hub d1 (fun i j hij => ?_) (fun a ha => f1 a fun h => ha (tri_diag_covers B hub h))⟩
    have := (tri_offDiag_in B i j).mp hij
    rw [TView.in_iff] at this
    omega

theorem withTempT {al : Alloc K} (hal : al.OK) (n : Nat) (f : Int → Mem K → Option (Mem K)) (m : Mem K) (hb : m.Bdd) (M : TView)
    (hl : M.Live m) (x : Nat → Nat → K)
    (h : ∀ t m0, Temp m m0 t n → ∃ m1, f t m0 = some m1 ∧ M.Has m1 x ∧ ∀ a, ¬ M.Covers a → ¬ (t ≤ a ∧ a < t + n) → m1 a = m0 a) :
    ∃ m', al.withTemp n f m = some m' ∧ M.Gets m m' x := by
  apply withTemp_spec hal n f m hb M.Covers _ (fun m => M.Has m x) _ h
  · rintro a ⟨i, j, hij, rfl⟩; exact hl i j hij
  · intro m1 m2 h1 h2
    exact h1.frame h2

/-- A triangular matrix in a temporary block. -/
theorem temp_tri {m m0 : Mem K} {t : Int} {n : Nat} (T : Temp m m0 t (n * n)) (rm unit : Bool) :
    (TView.ofStor t n rm unit).WF ∧ (TView.ofStor t n rm unit).Live m0 ∧ (∀ a, (TView.ofStor t n rm unit).Covers a → t ≤ a ∧ a < t + (n * n : Nat)) := by
  have cov : ∀ a, (TView.ofStor t n rm unit).Covers a → t ≤ a ∧ a < t + (n * n : Nat) := by
    rintro a ⟨i, j, hij, rfl⟩
    have h := hij
    simp only [TView.In, TView.ofStor] at h
    apply ofStor_in (cs := n) (rs := n) (rm := rm)
    refine ⟨i.toNat, j.toNat, ?_, ?_, ?_⟩
    · simp only [MView.ofStor]; omega
    · simp only [MView.ofStor]; omega
    · simp only [TView.ofStor, TView.addr, MView.ofStor, MView.addr]
      rw [Int.toNat_of_nonneg h.1, Int.toNat_of_nonneg h.2.2.1]
  refine ⟨(tri_storage t n rm unit).2, fun i j hij => ?_, cov⟩
  obtain ⟨h1, h2⟩ := cov _ ⟨i, j, hij, rfl⟩
  exact T.live _ h1 h2

theorem Temp.holdsT {m m0 : Mem K} {t : Int} {n : Nat} (T : Temp m m0 t n) {M : TView} {y : Nat → Nat → K} (h : M.Holds m y) : M.Holds m0 y :=
  h.frame fun a ⟨i, j, hij, e⟩ => T.off _ (T.nin (e ▸ h.has.live i j hij))

theorem Temp.hasT {m m0 : Mem K} {t : Int} {n : Nat} (T : Temp m m0 t n) {M : TView} {y : Nat → Nat → K} (h : M.Has m y) : M.Has m0 y :=
  h.frame fun a ⟨i, j, hij, e⟩ => T.off _ (T.nin (e ▸ h.live i j hij))

omit [CommRing K] [StarRing K] [DecidableEq K] in
theorem Temp.liveT {m m0 : Mem K} {t : Int} {n : Nat} (T : Temp m m0 t n) {M : TView} (h : M.Live m) : M.Live m0 :=
  fun i j hij => by rw [T.off _ (T.nin (h i j hij))]; exact h i j hij

omit [CommRing K] [StarRing K] [DecidableEq K] in
theorem Temp.sepT {m m0 : Mem K} {t : Int} {n : Nat} (T : Temp m m0 t n) {M N : TView} (h : M.Live m)
    (hN : ∀ a, N.Covers a → t ≤ a ∧ a < t + n) : N.Sep M := by
  rintro a h1 ⟨i, j, hij, rfl⟩
  exact T.nin (h i j hij) (hN _ h1)

omit [CommRing K] [StarRing K] [DecidableEq K] in
theorem TView.Sep.symm {A B : TView} (h : A.Sep B) : B.Sep A := fun a h1 h2 => h a h2 h1

omit [CommRing K] [StarRing K] [DecidableEq K] in
theorem TView.Sep.noClash {A B : TView} (h : A.Sep B) : A.NoClash B :=
  fun i j i' j' h1 h2 e => absurd ⟨i', j', h2, e⟩ (h _ ⟨i, j, h1, rfl⟩)

theorem Temp.after {m m0 m1 : Mem K} {t : Int} {n : Nat} (T : Temp m m0 t n) {N : TView} {y : Nat → Nat → K} (h : N.Gets m0 m1 y)
    (hN : ∀ a, N.Covers a → t ≤ a ∧ a < t + n) : Temp m m1 t n := by
  refine ⟨T.fresh, fun a ha => by rw [h.2 a fun h => ha (hN a h), T.off a ha], fun a h1 h2 => ?_, ?_⟩
  · by_cases hc : N.Covers a
    · obtain ⟨i, j, hij, rfl⟩ := hc; exact h.1.live i j hij
    · rw [h.2 a hc]; exact T.live a h1 h2
  · obtain ⟨b, hb⟩ := T.bdd
    refine ⟨max b (t + n), fun a ha => ?_⟩
    rw [h.2 a fun h => by have := hN a h; omega, hb a (by omega)]

theorem tri_addMMnc_spec {al : Alloc K} (hal : al.OK) (x : K) (A B : TView) (hn : A.n = B.n) (hWA : A.WF) (hWB : B.WF)
    (hub : B.unit = false) (hc : B.conj = false) (hd : A.Sep B ∨ A.ptr = B.ptr) (m : Mem K) (hb : m.Bdd) (y z : Nat → Nat → K)
    (hA : A.Holds m y) (hB : B.Has m z) :
    ∃ m', TView.addMMnc al x A B m = some m' ∧ B.Gets m m' (fun i j => z i j + x * y i j) := by
  unfold TView.addMMnc
  by_cases hs : A.sameStorage B = true
  · rw [if_pos hs]
    refine withTempT hal _ _ m hb B hB.live _ ?_
    intro t m0 T
    dsimp only
    obtain ⟨w, l, cov⟩ := temp_tri T B.isrm false
    obtain ⟨m1, e1, b1⟩ := tri_assignMulX_spec x A (TView.ofStor t A.n B.isrm false) rfl hWA w rfl
      (T.sepT hA.has.live cov).symm.noClash m0 y (T.holdsT hA) l
    have T1 := T.after b1.gets cov
    obtain ⟨m2, e2, b2⟩ := tri_doAdd_spec 1 (TView.ofStor t A.n B.isrm false) B hn w hWB hub hc (T.sepT hB.live cov) m1 _ z b1.1 (T1.hasT hB)
    refine ⟨m2, by rw [e1]; exact e2, b2.1.congr (fun i j _ => by rw [one_mul]), fun a ha ha' => ?_⟩
    rw [b2.2 a ha, T1.off a ha', T.off a ha']
  · rw [if_neg hs]
    refine tri_doAdd_spec x A B hn hWA hWB hub hc (hd.resolve_right ?_) m y z hA hB
    simpa [TView.sameStorage] using hs

theorem tri_addMM_gets {al : Alloc K} (hal : al.OK) (x : K) (A B : TView) (hn : A.n = B.n) (hWA : A.WF) (hWB : B.WF)
    (hub : B.unit = false) (hd : A.Sep B ∨ A.ptr = B.ptr) (m : Mem K) (hb : m.Bdd) (y z : Nat → Nat → K)
    (hA : A.Holds m y) (hB : B.Has m z) :
    ∃ m', TView.addMM al x A B m = some m' ∧ B.Gets m m' (fun i j => z i j + x * y i j) := by
  unfold TView.addMM
  by_cases h0 : A.n > 0
  · rw [if_pos h0]
    by_cases hc : B.conj = true
    · rw [if_pos hc]
      obtain ⟨m', e, b⟩ := tri_addMMnc_spec hal (star x) A.conjugate B.conjugate hn hWA hWB hub (by simp [TView.conjugate, hc]) hd m hb _ _
        hA.conjugate (TView.Has.conjugate.mpr hB)
      exact ⟨m', e, TView.Gets.of_conjugate (b.congr fun i j _ => by rw [star_add, star_mul'])⟩
    · rw [if_neg hc]
      exact tri_addMMnc_spec hal x A B hn hWA hWB hub (by simpa using hc) hd m hb y z hA hB
  · rw [if_neg h0]
    refine ⟨m, rfl, fun i j hij => ?_, fun _ _ => rfl⟩
    have := hij.1; have := hij.2.1; omega

/-- **C120** (`B += x*A`, `B -= x*A`).  The result is the old `B` plus `x` times the old `A`, for every layout, conjugation and diagonal
type of `A`, when `A` and `B` share no element or start at the same element; nothing else changes. -/
theorem tri_addMM_spec {al : Alloc K} (hal : al.OK) (x : K) (A B : TView) (hn : A.n = B.n) (hWA : A.WF) (hWB : B.WF)
    (hub : B.unit = false) (hd : A.Sep B ∨ A.ptr = B.ptr) (m : Mem K) (hb : m.Bdd) (y z : Nat → Nat → K)
    (hA : A.Holds m y) (hB : B.Holds m z) :
    ∃ m', TView.addMM al x A B m = some m' ∧ B.Becomes m m' (fun i j => z i j + x * y i j) := by
  obtain ⟨m', e, b⟩ := tri_addMM_gets hal x A B hn hWA hWB hub hd m hb y z hA hB.has
  exact ⟨m', e, b.becomes (fun i j hi hj => by rw [hA.low (by omega) hj, hB.low hi hj, mul_zero, add_zero])
    (fun h => by rw [hub] at h; cases h)⟩

end
end TMV
