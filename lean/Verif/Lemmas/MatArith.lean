import Verif.Model.MatArith
import Verif.Props.VecElem
import Verif.Props.MatReduce

/-! Vocabulary and tools for matrix arithmetic: results of matrix operations, temporaries, loops over rows. -/
namespace TMV
variable {K : Type _}

/-! ### Vocabulary -/

/-- After the operation `M` reads the values `val`, and nothing outside `M` changed. -/
def MView.Becomes [Star K] (M : MView) (m m' : Mem K) (val : Nat → Nat → K) : Prop :=
  M.Holds m' val ∧ M.Frame m m'

/-- There is unused memory. -/
def Mem.Bdd (m : Mem K) : Prop := ∃ b : Int, ∀ a, b ≤ a → m a = none

/-- The allocator returns unused memory (as long as there is any). -/
def Alloc.OK (al : Alloc K) : Prop := ∀ (m : Mem K) (n : Nat), m.Bdd → m.Fresh (al.addr m n) n

/-- Two matrices share no element, or have the same first element (what `SameStorage` tests). -/
def MView.AliasOK (A B : MView) : Prop := A.Disjoint B ∨ A.ptr = B.ptr

/-! ### Views -/

section
variable [InvolutiveStar K]

theorem MView.Holds.live {M : MView} {m : Mem K} {x : Nat → Nat → K} (h : M.Holds m x) : M.Live m := by
  intro i j hi hj
  have := h i j hi hj
  simp only [MView.cref, Mem.read, Option.map_eq_some_iff] at this
  obtain ⟨a, h1, -⟩ := this
  rw [h1]; rfl

theorem MView.Holds.rawA {M : MView} {m : Mem K} {x : Nat → Nat → K} (h : M.Holds m x) (i j : Nat)
    (hi : i < M.cs) (hj : j < M.rs) : m (M.addr i j) = some (cj M.conj (x i j)) := by
  have := h i j hi hj
  simp only [MView.cref, Mem.read, Option.map_eq_some_iff] at this
  obtain ⟨a, h1, h2⟩ := this
  rw [h1, ← h2, cj_cj]

theorem MView.Holds.of_raw {M : MView} {m : Mem K} {x : Nat → Nat → K}
    (h : ∀ i j : Nat, i < M.cs → j < M.rs → m (M.addr i j) = some (cj M.conj (x i j))) : M.Holds m x := by
  intro i j hi hj
  rw [MView.cref, Mem.read, h i j hi hj, Option.map_some, cj_cj]

theorem MView.Live.holds [Zero K] {M : MView} {m : Mem K} (h : M.Live m) : ∃ x, M.Holds m x := by
  refine ⟨fun i j => (M.cref m i j).getD 0, fun i j hi hj => ?_⟩
  obtain ⟨z, hz⟩ := Option.isSome_iff_exists.mp (h i j hi hj)
  simp [MView.cref, Mem.read, hz]

theorem VView.Live.holds [Zero K] {v : VView} {m : Mem K} (h : v.Live m) : ∃ x, v.Holds m x := by
  refine ⟨fun i => (v.cref m i).getD 0, fun i hi => ?_⟩
  obtain ⟨z, hz⟩ := Option.isSome_iff_exists.mp (h i hi)
  simp [VView.cref, Mem.read, hz]

theorem MView.Holds.congr {M : MView} {m : Mem K} {x y : Nat → Nat → K} (h : M.Holds m x)
    (e : ∀ i j, i < M.cs → j < M.rs → x i j = y i j) : M.Holds m y :=
  fun i j hi hj => by rw [h i j hi hj, e i j hi hj]

theorem MView.Becomes.congr {M : MView} {m m' : Mem K} {x y : Nat → Nat → K} (h : M.Becomes m m' x)
    (e : ∀ i j, i < M.cs → j < M.rs → x i j = y i j) : M.Becomes m m' y := ⟨h.1.congr e, h.2⟩

theorem MView.Becomes.refl {M : MView} {m : Mem K} {x : Nat → Nat → K} (h : M.Holds m x) :
    M.Becomes m m x := ⟨h, fun _ _ => rfl⟩

theorem MView.Becomes.trans {M : MView} {m m1 m2 : Mem K} {x y : Nat → Nat → K} (h : M.Becomes m m1 x)
    (h' : M.Becomes m1 m2 y) : M.Becomes m m2 y := ⟨h'.1, fun a ha => by rw [h'.2 a ha, h.2 a ha]⟩

theorem VView.Becomes.refl {v : VView} {m : Mem K} {x : Nat → K} (h : v.Holds m x) :
    v.Becomes m m x := ⟨h, fun _ _ => rfl⟩

theorem VView.Becomes.trans {v : VView} {m m1 m2 : Mem K} {x y : Nat → K} (h : v.Becomes m m1 x)
    (h' : v.Becomes m1 m2 y) : v.Becomes m m2 y := ⟨h'.1, fun a ha => by rw [h'.2 a ha, h.2 a ha]⟩

theorem MView.Holds.conjugate {M : MView} {m : Mem K} {x : Nat → Nat → K} :
    M.Holds m x ↔ M.conjugate.Holds m (fun i j => star (x i j)) := by
  constructor
  · intro h
    apply MView.Holds.of_raw
    intro i j hi hj
    show m (M.addr i j) = some (cj (!M.conj) _)
    rw [h.rawA i j hi hj]
    rcases Bool.eq_false_or_eq_true M.conj with h|h <;> simp [h, cj]
  · intro h
    apply MView.Holds.of_raw
    intro i j hi hj
    have := h.rawA i j hi hj
    have h' : m (M.addr i j) = some (cj (!M.conj) (star (x i j))) := this
    rw [h']
    rcases Bool.eq_false_or_eq_true M.conj with h|h <;> simp [h, cj]

theorem MView.Becomes.of_conjugate {M : MView} {m m' : Mem K} {x : Nat → Nat → K}
    (h : M.conjugate.Becomes m m' (fun i j => star (x i j))) : M.Becomes m m' x :=
  ⟨MView.Holds.conjugate.mpr h.1, h.2⟩

theorem MView.Holds.transpose {M : MView} {m : Mem K} {x : Nat → Nat → K} (h : M.Holds m x) :
    M.transpose.Holds m (fun i j => x j i) := by
  intro i j hi hj
  rw [M.transpose_cref]; exact h j i hj hi

theorem MView.Holds.of_transpose {M : MView} {m : Mem K} {x : Nat → Nat → K}
    (h : M.transpose.Holds m (fun i j => x j i)) : M.Holds m x := by
  intro i j hi hj
  have := h j i hj hi
  rwa [M.transpose_cref] at this

theorem MView.Becomes.of_transpose {M : MView} {m m' : Mem K} {x : Nat → Nat → K}
    (h : M.transpose.Becomes m m' (fun i j => x j i)) : M.Becomes m m' x :=
  ⟨h.1.of_transpose, fun a ha => h.2 a (by rwa [M.transpose_covers])⟩

theorem MView.Holds.frame {A M : MView} {m m' : Mem K} {x : Nat → Nat → K} (h : A.Holds m x)
    (hf : M.Frame m m') (hd : A.Disjoint M) : A.Holds m' x := by
  intro i j hi hj
  rw [← h i j hi hj, MView.cref, MView.cref, Mem.read, Mem.read, hf _ (hd _ ⟨i, j, hi, hj, rfl⟩)]

theorem MView.Live.after {A M : MView} {m m' : Mem K} {x : Nat → Nat → K} (h : M.Becomes m m' x)
    (hl : A.Live m) : A.Live m' := by
  intro i j hi hj
  by_cases hc : M.Covers (A.addr i j)
  · obtain ⟨i', j', h1, h2, e⟩ := hc
    rw [e]; exact h.1.live i' j' h1 h2
  · rw [h.2 _ hc]; exact hl i j hi hj

theorem VView.Live.after {v : VView} {M : MView} {m m' : Mem K} {x : Nat → Nat → K} (h : M.Becomes m m' x)
    (hl : v.Live m) : v.Live m' := by
  intro i hi
  by_cases hc : M.Covers (v.addr i)
  · obtain ⟨i', j', h1, h2, e⟩ := hc
    rw [e]; exact h.1.live i' j' h1 h2
  · rw [h.2 _ hc]; exact hl i hi

theorem MView.WF.conjugate {M : MView} (h : M.WF) : M.conjugate.WF := h
theorem MView.LSOK.conjugate {M : MView} (h : M.LSOK) : M.conjugate.LSOK := h
theorem MView.LSOK.transpose {M : MView} (h : M.LSOK) : M.transpose.LSOK := by
  rcases h with h | h | ⟨h, h'⟩
  · exact Or.inl h
  · exact Or.inr (Or.inl h)
  · refine Or.inr (Or.inr ⟨?_, h'.symm⟩)
    show M.ls = M.rs * M.cs
    rw [h, mul_comm]
theorem MView.AliasOK.transpose {A B : MView} (h : A.AliasOK B) : A.transpose.AliasOK B.transpose := by
  rcases h with h | h
  · exact Or.inl h.transpose
  · exact Or.inr h

/-! ### Unused memory -/

theorem MView.Becomes.bdd {M : MView} {m m' : Mem K} {x : Nat → Nat → K} (h : M.Becomes m m' x)
    (hl : M.Live m) (hb : m.Bdd) : m'.Bdd := by
  obtain ⟨b, hb⟩ := hb
  refine ⟨b, fun a ha => ?_⟩
  rw [h.2 a, hb a ha]
  rintro ⟨i, j, hi, hj, rfl⟩
  have := hl i j hi hj
  rw [hb _ ha] at this; cases this

theorem VView.Becomes.bdd {v : VView} {m m' : Mem K} {x : Nat → K} (h : v.Becomes m m' x)
    (hl : v.Live m) (hb : m.Bdd) : m'.Bdd := by
  obtain ⟨b, hb⟩ := hb
  refine ⟨b, fun a ha => ?_⟩
  rw [h.2 a, hb a ha]
  rintro ⟨i, hi, rfl⟩
  have := hl i hi
  rw [hb _ ha] at this; cases this

omit [InvolutiveStar K] in
theorem Mem.Bdd.alloc {m : Mem K} (h : m.Bdd) (t : Int) (n : Nat) (junk : Int → K) :
    (m.alloc t n junk).Bdd := by
  obtain ⟨b, hb⟩ := h
  refine ⟨max b (t + n), fun a ha => ?_⟩
  rw [Mem.alloc, if_neg (by omega), hb a (by omega)]

/-- A block of temporary storage: everything live stays as it was; the block is live. -/
structure Temp (m m0 : Mem K) (t : Int) (n : Nat) : Prop where
  fresh : m.Fresh t n
  off : ∀ a, ¬ (t ≤ a ∧ a < t + n) → m0 a = m a
  live : ∀ a, t ≤ a → a < t + n → (m0 a).isSome
  bdd : m0.Bdd

omit [InvolutiveStar K] in
theorem Temp.nin {m m0 : Mem K} {t : Int} {n : Nat} (T : Temp m m0 t n) {a : Int} (h : (m a).isSome) :
    ¬ (t ≤ a ∧ a < t + n) := by
  intro hh; rw [T.fresh a hh.1 hh.2] at h; cases h

theorem Temp.holdsM {m m0 : Mem K} {t : Int} {n : Nat} (T : Temp m m0 t n) {M : MView} {x : Nat → Nat → K}
    (h : M.Holds m x) : M.Holds m0 x := by
  intro i j hi hj
  rw [← h i j hi hj, MView.cref, MView.cref, Mem.read, Mem.read, T.off _ (T.nin (h.live i j hi hj))]

theorem Temp.holdsV {m m0 : Mem K} {t : Int} {n : Nat} (T : Temp m m0 t n) {v : VView} {x : Nat → K}
    (h : v.Holds m x) : v.Holds m0 x := by
  intro i hi
  rw [← h i hi, VView.cref, VView.cref, Mem.read, Mem.read, T.off _ (T.nin (h.live i hi))]

omit [InvolutiveStar K] in
theorem Temp.liveM {m m0 : Mem K} {t : Int} {n : Nat} (T : Temp m m0 t n) {M : MView}
    (h : M.Live m) : M.Live m0 := by
  intro i j hi hj
  rw [T.off _ (T.nin (h i j hi hj))]; exact h i j hi hj

omit [InvolutiveStar K] in
theorem Temp.liveV {m m0 : Mem K} {t : Int} {n : Nat} (T : Temp m m0 t n) {v : VView}
    (h : v.Live m) : v.Live m0 := by
  intro i hi
  rw [T.off _ (T.nin (h i hi))]; exact h i hi

omit [InvolutiveStar K] in
theorem ofStor_in {t : Int} {cs rs : Nat} {rm : Bool} {a : Int} (h : (MView.ofStor t cs rs rm).Covers a) :
    t ≤ a ∧ a < t + (cs * rs : Nat) := by
  obtain ⟨i, j, hi, hj, e⟩ := h
  have h1 : 0 < cs := by have : i < cs := hi; omega
  have h2 : 0 < rs := by have : j < rs := hj; omega
  exact (ofStor_covers t cs rs rm h1 h2 a).mp ⟨i, j, hi, hj, e⟩

omit [InvolutiveStar K] in
/-- A matrix in the temporary block is live, and disjoint from every live matrix. -/
theorem Temp.stor {m m0 : Mem K} {t : Int} {cs rs : Nat} (T : Temp m m0 t (cs * rs)) (rm : Bool) :
    (MView.ofStor t cs rs rm).Live m0 := by
  intro i j hi hj
  obtain ⟨h1, h2⟩ := ofStor_in (t := t) (cs := cs) (rs := rs) (rm := rm) ⟨i, j, hi, hj, rfl⟩
  exact T.live _ h1 h2

omit [InvolutiveStar K] in
theorem Temp.disjM {m m0 : Mem K} {t : Int} {cs rs : Nat} (T : Temp m m0 t (cs * rs)) (rm : Bool) {M : MView}
    (hl : M.Live m) : M.Disjoint (MView.ofStor t cs rs rm) := by
  rintro a ⟨i, j, hi, hj, rfl⟩ h
  exact T.nin (hl i j hi hj) (ofStor_in h)

omit [InvolutiveStar K] in
theorem Temp.vec {m m0 : Mem K} {t : Int} {n : Nat} (T : Temp m m0 t n) :
    (⟨t, n, 1, false⟩ : VView).Live m0 := by
  intro i hi
  have hi' : i < n := hi
  exact T.live _ (by simp only [VView.addr]; omega) (by simp only [VView.addr]; omega)

omit [InvolutiveStar K] in
theorem Temp.disjV {m m0 : Mem K} {t : Int} {n : Nat} (T : Temp m m0 t n) {v : VView}
    (hl : v.Live m) : v.Disjoint ⟨t, n, 1, false⟩ := T.fresh.disjoint hl

omit [InvolutiveStar K] in
theorem Temp.mk' {al : Alloc K} (hal : al.OK) {m : Mem K} (hb : m.Bdd) (n : Nat) :
    Temp m (m.alloc (al.addr m n) n al.junk) (al.addr m n) n := by
  refine ⟨hal m n hb, fun a ha => by rw [Mem.alloc, if_neg ha], fun a h1 h2 => ?_, hb.alloc _ _ _⟩
  rw [Mem.alloc, if_pos ⟨h1, h2⟩]; rfl

omit [InvolutiveStar K] in
/-- The scope of a temporary: `C` are the addresses the body may change. -/
theorem withTemp_spec {al : Alloc K} (hal : al.OK) (n : Nat) (f : Int → Mem K → Option (Mem K)) (m : Mem K)
    (hb : m.Bdd) (C : Int → Prop) (hC : ∀ a, C a → (m a).isSome) (Q : Mem K → Prop)
    (hQ : ∀ m1 m2 : Mem K, Q m1 → (∀ a, C a → m2 a = m1 a) → Q m2)
    (h : ∀ t m0, Temp m m0 t n → ∃ m1, f t m0 = some m1 ∧ Q m1 ∧
      ∀ a, ¬ C a → ¬ (t ≤ a ∧ a < t + n) → m1 a = m0 a) :
    ∃ m', al.withTemp n f m = some m' ∧ Q m' ∧ ∀ a, ¬ C a → m' a = m a := by
  have T := Temp.mk' hal hb n
  obtain ⟨m1, e, q, fr⟩ := h _ _ T
  unfold Alloc.withTemp
  dsimp only
  rw [e]
  refine ⟨_, rfl, hQ m1 _ q ?_, ?_⟩
  · intro a ha
    rw [Mem.free, if_neg (T.nin (hC a ha))]
  · intro a ha
    unfold Mem.free
    by_cases hh : al.addr m n ≤ a ∧ a < al.addr m n + n
    · rw [if_pos hh, T.fresh a hh.1 hh.2]
    · rw [if_neg hh, fr a ha hh, T.off a hh]

theorem withTempM {al : Alloc K} (hal : al.OK) (n : Nat) (f : Int → Mem K → Option (Mem K)) (m : Mem K)
    (hb : m.Bdd) (M : MView) (hl : M.Live m) (x : Nat → Nat → K)
    (h : ∀ t m0, Temp m m0 t n → ∃ m1, f t m0 = some m1 ∧ M.Holds m1 x ∧
      ∀ a, ¬ M.Covers a → ¬ (t ≤ a ∧ a < t + n) → m1 a = m0 a) :
    ∃ m', al.withTemp n f m = some m' ∧ M.Becomes m m' x := by
  apply withTemp_spec hal n f m hb M.Covers _ (fun m => M.Holds m x) _ h
  · rintro a ⟨i, j, hi, hj, rfl⟩; exact hl i j hi hj
  · intro m1 m2 h1 h2 i j hi hj
    rw [← h1 i j hi hj, MView.cref, MView.cref, Mem.read, Mem.read, h2 _ ⟨i, j, hi, hj, rfl⟩]

theorem withTempV {al : Alloc K} (hal : al.OK) (n : Nat) (f : Int → Mem K → Option (Mem K)) (m : Mem K)
    (hb : m.Bdd) (v : VView) (hl : v.Live m) (x : Nat → K)
    (h : ∀ t m0, Temp m m0 t n → ∃ m1, f t m0 = some m1 ∧ v.Holds m1 x ∧
      ∀ a, ¬ v.Covers a → ¬ (t ≤ a ∧ a < t + n) → m1 a = m0 a) :
    ∃ m', al.withTemp n f m = some m' ∧ v.Becomes m m' x := by
  apply withTemp_spec hal n f m hb v.Covers _ (fun m => v.Holds m x) _ h
  · rintro a ⟨i, hi, rfl⟩; exact hl i hi
  · intro m1 m2 h1 h2 i hi
    rw [← h1 i hi, VView.cref, VView.cref, Mem.read, Mem.read, h2 _ ⟨i, hi, rfl⟩]

/-! ### Assignment -/

theorem assign_spec {al : Alloc K} (hal : al.OK) (A B : MView) (hcs : A.cs = B.cs) (hrs : A.rs = B.rs)
    (hW : B.WF) (hLA : A.LSOK) (hLB : B.LSOK) (m : Mem K) (hb : m.Bdd) (x : Nat → Nat → K) (hA : A.Holds m x)
    (hlB : B.Live m) (hd : A.AliasOK B) :
    ∃ m', MView.assign al A B m = some m' ∧ B.Becomes m m' x := by
  obtain ⟨m', e, v, f⟩ := mat_copy_spec (al.addr m (A.cs * A.rs)) (al.junk 0) A B hcs hrs hW hLA hLB m hA.live hlB
    hd (hal m _ hb)
  exact ⟨m', e, fun i j hi hj => by rw [v i j hi hj]; exact hA i j (by omega) (by omega), f⟩

/-- A temporary copy. -/
theorem Temp.copyOf {al : Alloc K} (hal : al.OK) {m m0 : Mem K} {t : Int} {A : MView}
    (T : Temp m m0 t (A.cs * A.rs)) (rm : Bool) (h1 : 0 < A.cs) (h2 : 0 < A.rs)
    (hLA : A.LSOK) (x : Nat → Nat → K) (hA : A.Holds m x) :
    ∃ m1, MView.assign al A (MView.ofStor t A.cs A.rs rm) m0 = some m1 ∧
      (MView.ofStor t A.cs A.rs rm).Holds m1 x ∧ Temp m m1 t (A.cs * A.rs) := by
  obtain ⟨m1, e, b⟩ := assign_spec hal A (MView.ofStor t A.cs A.rs rm) rfl rfl
    (ofStor_wf t A.cs A.rs rm h1 h2) hLA (lsok_ofStor _ _ _ _) m0 T.bdd x (T.holdsM hA) (T.stor rm)
    (Or.inl (T.disjM rm hA.live))
  refine ⟨m1, e, b.1, T.fresh, fun a ha => ?_, fun a ha ha' => ?_, b.bdd (T.stor rm) T.bdd⟩
  · rw [b.2 a (fun h => ha (ofStor_in h)), T.off a ha]
  · by_cases hc : (MView.ofStor t A.cs A.rs rm).Covers a
    · obtain ⟨i, j, hi, hj, rfl⟩ := hc
      exact b.1.live i j hi hj
    · rw [b.2 a hc]; exact T.live a ha ha'

omit [InvolutiveStar K] in
theorem vtemp_in {t : Int} {n : Nat} {c : Int} (h : (⟨t, n, 1, false⟩ : VView).Covers c) : t ≤ c ∧ c < t + n := by
  obtain ⟨i, hi, e⟩ := h
  simp only [VView.addr] at e hi
  omega

/-- Writing into the temporary vector keeps the rest. -/
theorem Temp.afterV {m m0 m1 : Mem K} {t : Int} {n : Nat} {w : Nat → K} (T : Temp m m0 t n)
    (b : (⟨t, n, 1, false⟩ : VView).Becomes m0 m1 w) : Temp m m1 t n := by
  refine ⟨T.fresh, fun c hc => ?_, fun c h1 h2 => ?_, b.bdd T.vec T.bdd⟩
  · rw [b.2 c (fun h => hc (vtemp_in h)), T.off c hc]
  · refine b.1.live (c - t).toNat (by show _ < n; omega) |> fun h => ?_
    have : (⟨t, n, 1, false⟩ : VView).addr ((c - t).toNat : Int) = c := by simp only [VView.addr]; omega
    rwa [this] at h

/-- Writing into the temporary matrix keeps the rest. -/
theorem Temp.afterM {m m0 m1 : Mem K} {t : Int} {cs rs : Nat} {rm : Bool} {w : Nat → Nat → K}
    (T : Temp m m0 t (cs * rs)) (b : (MView.ofStor t cs rs rm).Becomes m0 m1 w) : Temp m m1 t (cs * rs) := by
  refine ⟨T.fresh, fun a ha => ?_, fun a ha ha' => ?_, b.bdd (T.stor rm) T.bdd⟩
  · rw [b.2 a (fun h => ha (ofStor_in h)), T.off a ha]
  · by_cases hc : (MView.ofStor t cs rs rm).Covers a
    · obtain ⟨i, j, hi, hj, rfl⟩ := hc
      exact b.1.live i j hi hj
    · rw [b.2 a hc]; exact T.live a ha ha'

/-- No element of the vector is an element of the matrix. -/
def VView.DisjointM (v : VView) (A : MView) : Prop := ∀ a, A.Covers a → ¬ v.Covers a

theorem VView.Holds.frameM {v : VView} {A : MView} {m m' : Mem K} {x : Nat → K} (h : v.Holds m x)
    (hf : A.Frame m m') (hd : v.DisjointM A) : v.Holds m' x := by
  intro i hi
  rw [← h i hi, VView.cref, VView.cref, Mem.read, Mem.read, hf _ (fun hc => hd _ hc ⟨i, hi, rfl⟩)]

/-! ### Loops over rows and columns -/

/-- A loop whose `k`-th step sets piece `g k` to the values `val k`. -/
theorem loopN_spec (op : Nat → Mem K → Option (Mem K)) (g : Nat → VView) (val : Nat → Nat → K) :
    ∀ (n i : Nat) (m : Mem K),
      (∀ k k', i ≤ k → k < i + n → i ≤ k' → k' < i + n → k ≠ k' → (g k).Disjoint (g k')) →
      (∀ k, i ≤ k → k < i + n → ∀ m1 : Mem K,
        (∀ a, (∀ k', i ≤ k' → k' < k → ¬ (g k').Covers a) → m1 a = m a) →
        ∃ m2, op k m1 = some m2 ∧ (g k).Becomes m1 m2 (val k)) →
      ∃ m', loopN op n i m = some m' ∧ (∀ k, i ≤ k → k < i + n → (g k).Holds m' (val k)) ∧
        (∀ a, (∀ k, i ≤ k → k < i + n → ¬ (g k).Covers a) → m' a = m a) := by
  intro n
  induction n with
  | zero => intro i m _ _; exact ⟨m, rfl, fun k h1 h2 => by omega, fun _ _ => rfl⟩
  | succ n ih =>
    intro i m hd h
    obtain ⟨m1, e1, b1⟩ := h i le_rfl (by omega) m (fun a _ => rfl)
    obtain ⟨m', e2, v2, f2⟩ := ih (i+1) m1
      (fun k k' h1 h2 h3 h4 => hd k k' (by omega) (by omega) (by omega) (by omega))
      (fun k h1 h2 m2 hm2 => h k (by omega) (by omega) m2 (fun a ha => by
        rw [hm2 a (fun k' h3 h4 => ha k' (by omega) h4), b1.2 a (ha i le_rfl (by omega))]))
    refine ⟨m', by rw [loopN, e1]; exact e2, ?_, ?_⟩
    · intro k h1 h2
      by_cases hk : k = i
      · subst hk
        intro j hj
        rw [← b1.1 j hj, VView.cref, VView.cref, Mem.read, Mem.read, f2]
        intro k' h3 h4
        exact hd k k' le_rfl h2 (by omega) (by omega) (by omega) _ ⟨j, hj, rfl⟩
      · exact v2 k (by omega) (by omega)
    · intro a ha
      rw [f2 a (fun k h1 h2 => ha k (by omega) (by omega)), b1.2 a (ha i le_rfl (by omega))]

/-- Row by row. -/
theorem rows_spec (op : Nat → Mem K → Option (Mem K)) (M : MView) (hI : M.Inj) (m : Mem K)
    (val : Nat → Nat → K)
    (h : ∀ i, i < M.cs → ∀ m1 : Mem K, (∀ a, ¬ M.Covers a → m1 a = m a) →
      (∀ i' j : Nat, i ≤ i' → i' < M.cs → j < M.rs → m1 (M.addr i' j) = m (M.addr i' j)) →
      ∃ m2, op i m1 = some m2 ∧ (M.row i).Becomes m1 m2 (val i)) :
    ∃ m', loopN op M.cs 0 m = some m' ∧ M.Becomes m m' val := by
  obtain ⟨m', e, v, f⟩ := loopN_spec op (fun i => M.row i) val M.cs 0 m
    (fun k k' _ h1 _ h2 hne => MView.row_disjoint hI (by omega) (by omega) hne)
    (fun k _ h2 m1 hm1 => by
      refine h k (by omega) m1 (fun a ha => hm1 a ?_) (fun i' j h3 h4 h5 => hm1 _ ?_)
      · rintro k' _ h4 ⟨j, hj, rfl⟩
        exact ha ⟨k', j, by omega, hj, rfl⟩
      · intro k' _ h7 hc
        exact MView.row_disjoint hI (i := i') (i' := k') (by omega) (by omega) (by omega) _ ⟨j, h5, rfl⟩ hc)
  refine ⟨m', e, fun i j hi hj => ?_, fun a ha => f a ?_⟩
  · exact v i (by omega) (by omega) j hj
  · rintro k _ h2 ⟨j, hj, rfl⟩
    exact ha ⟨k, j, by omega, hj, rfl⟩

/-- Column by column. -/
theorem cols_spec (op : Nat → Mem K → Option (Mem K)) (M : MView) (hI : M.Inj) (m : Mem K)
    (val : Nat → Nat → K)
    (h : ∀ j, j < M.rs → ∀ m1 : Mem K, (∀ a, ¬ M.Covers a → m1 a = m a) →
      (∀ i j' : Nat, j ≤ j' → j' < M.rs → i < M.cs → m1 (M.addr i j') = m (M.addr i j')) →
      ∃ m2, op j m1 = some m2 ∧ (M.col j).Becomes m1 m2 (fun i => val i j)) :
    ∃ m', loopN op M.rs 0 m = some m' ∧ M.Becomes m m' val := by
  obtain ⟨m', e, b⟩ := rows_spec op M.transpose (fun i j i' j' h1 h2 h3 h4 e => by
      rw [M.transpose_addr, M.transpose_addr] at e
      exact (hI j i j' i' h2 h1 h4 h3 e).symm) m (fun i j => val j i) (fun j hj m1 h1 h2 => by
        refine h j hj m1 (fun a ha => h1 a (by rwa [M.transpose_covers])) (fun i j' h3 h4 h5 => ?_)
        have := h2 j' i h3 h4 h5
        rwa [M.transpose_addr] at this)
  exact ⟨m', e, b.of_transpose⟩

/-- Through the linear view. -/
theorem MView.Becomes.of_linear {M : MView} (hM : M.LSOK) (hc : M.canLinearize = true) {m m' : Mem K}
    {z : Nat → K} (h : M.linearView.Becomes m m' z) : M.Becomes m m' (fun i j => z (M.linIdx i j)) := by
  obtain ⟨_, h2, _, h4⟩ := linearView_spec (K := K) M hM hc
  refine ⟨?_, ?_⟩
  · intro i j hi hj
    obtain ⟨a, _, c⟩ := h2 i j hi hj
    rw [← c m']; exact h.1 _ a
  · intro a ha
    apply h.2
    intro hh
    exact ha ((linearView_covers hM hc a).mp hh)

end
end TMV
