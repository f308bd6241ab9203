import Verif.Lemmas.ConcTerm
import Verif.Props.OmpCall
import Verif.Props.MatMat

/-! **C47** `OpenMPMultMM`: for any number of threads and any schedule, no two threads race and the result is the product. -/
namespace TMV
open Finset Function

/-! ### The division of the work -/

theorem ompRange_le {M T t : Nat} (ht : t < T) (h : (ompRange M T t).1 < M) :
    (ompRange M T t).1 ≤ (ompRange M T t).2 ∧ (ompRange M T t).2 ≤ M := by
  dsimp only [ompRange] at h ⊢
  generalize ompStep M T = s at *
  have : t * s ≤ (t + 1) * s := Nat.mul_le_mul_right _ (by omega)
  split_ifs <;> omega

theorem ompRange_disjoint {M T t u : Nat} (hu : u < T) (h : t < u) : (ompRange M T t).2 ≤ (ompRange M T u).1 := by
  dsimp only [ompRange]
  generalize ompStep M T = s at *
  have : (t + 1) * s ≤ u * s := Nat.mul_le_mul_right _ h
  split_ifs with hh <;> omega

theorem ompRange_cover {M T i : Nat} (hT : 0 < T) (hi : i < M) :
    ∃ t, t < T ∧ (ompRange M T t).1 ≤ i ∧ i < (ompRange M T t).2 := by
  dsimp only [ompRange]
  generalize ompStep M T = s at *
  by_cases hs : s = 0
  · exact ⟨T - 1, by omega, by subst hs; omega, by rw [if_pos (Or.inr rfl)]; exact hi⟩
  by_cases h : i / s < T - 1
  · refine ⟨i / s, by omega, Nat.div_mul_le_self _ _, ?_⟩
    have : i < (i / s + 1) * s := by
      have := Nat.lt_mul_div_succ i (Nat.pos_of_ne_zero hs)
      rwa [mul_comm] at this
    split_ifs <;> omega
  · refine ⟨T - 1, by omega, ?_, by rw [if_pos (Or.inr rfl)]; exact hi⟩
    have : (T - 1) * s ≤ i / s * s := Nat.mul_le_mul_right _ (by omega)
    exact this.trans (Nat.div_mul_le_self _ _)

/-- **C47** (division of the work) Every row (column) of C belongs to exactly one thread that has work to do. -/
theorem ompRange_partition {M T i : Nat} (hT : 0 < T) (hi : i < M) :
    ∃! t, t < T ∧ (ompRange M T t).1 < M ∧ (ompRange M T t).1 ≤ i ∧ i < (ompRange M T t).2 := by
  obtain ⟨t, ht, h1, h2⟩ := ompRange_cover hT hi
  refine ⟨t, ⟨ht, by omega, h1, h2⟩, fun u hu => ?_⟩
  obtain ⟨hu, -, h3, h4⟩ := hu
  rcases Nat.lt_trichotomy u t with h | h | h
  · have := ompRange_disjoint (M := M) ht h; omega
  · exact h
  · have := ompRange_disjoint (M := M) hu h; omega

/-- A', B', C' are rows `i0..` of A, columns `j0..` of B and the corresponding block of C. -/
structure IsPart (A B C A' B' C' : MView) (i0 j0 : Nat) : Prop where
  aA : ∀ i l : Nat, A'.addr i l = A.addr ((i0 + i : Nat) : Int) l
  aB : ∀ l j : Nat, B'.addr l j = B.addr l ((j0 + j : Nat) : Int)
  aC : ∀ i j : Nat, C'.addr i j = C.addr ((i0 + i : Nat) : Int) ((j0 + j : Nat) : Int)
  k : A'.rs = A.rs
  kB : B'.cs = B.cs
  cs : A'.cs = C'.cs
  rs : B'.rs = C'.rs
  i : i0 + C'.cs ≤ C.cs
  j : j0 + C'.rs ≤ C.rs
  cjA : A'.conj = A.conj
  cjB : B'.conj = B.conj
  cjC : C'.conj = C.conj

/-- What `ompPart` gives. -/
theorem ompPart_isPart {A B C : MView} (hcs : A.cs = C.cs) (hrs : B.rs = C.rs) {T t : Nat} (ht : t < T) {p : MView × MView × MView}
    (h : ompPart A B C T t = some p) : ∃ i0 j0, IsPart A B C p.1 p.2.1 p.2.2 i0 j0 := by
  unfold ompPart at h
  by_cases h1 : T = 1
  · rw [if_pos h1] at h
    cases h
    exact ⟨0, 0, by constructor <;> simp [hcs, hrs]⟩
  rw [if_neg h1] at h
  by_cases h2 : C.cs > C.rs
  · rw [if_pos h2] at h
    dsimp only at h
    by_cases h3 : (ompRange C.cs T t).1 < C.cs
    · rw [if_pos h3] at h
      cases h
      have := ompRange_le ht h3
      generalize ompRange C.cs T t = r at *
      refine ⟨r.1, 0, ?_⟩
      constructor <;> (try intro i j) <;> simp [MView.rowRange, MView.addr, hrs] <;> (try ring) <;> omega
    · rw [if_neg h3] at h; cases h
  · rw [if_neg h2] at h
    dsimp only at h
    by_cases h3 : (ompRange C.rs T t).1 < C.rs
    · rw [if_pos h3] at h
      cases h
      have := ompRange_le ht h3
      generalize ompRange C.rs T t = r at *
      refine ⟨0, r.1, ?_⟩
      constructor <;> (try intro i j) <;> simp [MView.colRange, MView.addr, hcs] <;> (try ring) <;> omega
    · rw [if_neg h3] at h; cases h

/-- The elements of C that a thread writes. -/
def ompOwn (A B C : MView) (T t : Nat) (a : Int) : Prop := ∃ p, ompPart A B C T t = some p ∧ p.2.2.Covers a

/-- The block of C of thread `t`. -/
theorem ompOwn_iff {A B C : MView} {T t : Nat} (ht : t < T) (a : Int) :
    ompOwn A B C T t a ↔ ∃ i j : Nat, i < C.cs ∧ j < C.rs ∧ a = C.addr i j ∧
      (T = 1 ∨ if C.cs > C.rs then (ompRange C.cs T t).1 ≤ i ∧ i < (ompRange C.cs T t).2
        else (ompRange C.rs T t).1 ≤ j ∧ j < (ompRange C.rs T t).2) := by
  unfold ompOwn ompPart
  by_cases h1 : T = 1
  · simp only [if_pos h1]
    constructor
    · rintro ⟨p, hp, i, j, hi, hj, e⟩
      cases hp
      exact ⟨i, j, hi, hj, e, Or.inl h1⟩
    · rintro ⟨i, j, hi, hj, e, -⟩
      exact ⟨_, rfl, i, j, hi, hj, e⟩
  simp only [if_neg h1]
  by_cases h2 : C.cs > C.rs
  · simp only [if_pos h2]
    have hle := ompRange_le (M := C.cs) ht
    generalize ompRange C.cs T t = r at *
    constructor
    · rintro ⟨p, hp, i, j, hi, hj, e⟩
      by_cases h3 : r.1 < C.cs
      · rw [if_pos h3] at hp
        cases hp
        have := hle h3
        simp only [MView.rowRange] at hi hj
        refine ⟨r.1 + i, j, by omega, hj, ?_, Or.inr (by omega)⟩
        rw [e]; simp only [MView.rowRange, MView.addr]; push_cast; ring
      · rw [if_neg h3] at hp; cases hp
    · rintro ⟨i, j, hi, hj, e, h | h⟩
      · exact absurd h h1
      · refine ⟨_, if_pos (by omega), i - r.1, j, ?_, hj, ?_⟩
        · simp only [MView.rowRange]; omega
        · rw [e]; simp only [MView.rowRange, MView.addr]; rw [Nat.cast_sub h.1]; ring
  · simp only [if_neg h2]
    have hle := ompRange_le (M := C.rs) ht
    generalize ompRange C.rs T t = r at *
    constructor
    · rintro ⟨p, hp, i, j, hi, hj, e⟩
      by_cases h3 : r.1 < C.rs
      · rw [if_pos h3] at hp
        cases hp
        have := hle h3
        simp only [MView.colRange] at hi hj
        refine ⟨i, r.1 + j, hi, by omega, ?_, Or.inr (by omega)⟩
        rw [e]; simp only [MView.colRange, MView.addr]; push_cast; ring
      · rw [if_neg h3] at hp; cases hp
    · rintro ⟨i, j, hi, hj, e, h | h⟩
      · exact absurd h h1
      · refine ⟨_, if_pos (by omega), i, j - r.1, hi, ?_, ?_⟩
        · simp only [MView.colRange]; omega
        · rw [e]; simp only [MView.colRange, MView.addr]; rw [Nat.cast_sub h.1]; ring

theorem ompOwn_disjoint {A B C : MView} (hI : C.Inj) {T t u : Nat} (ht : t < T) (hu : u < T) (h : t ≠ u) (a : Int) :
    ompOwn A B C T t a → ¬ ompOwn A B C T u a := by
  rw [ompOwn_iff ht, ompOwn_iff hu]
  rintro ⟨i, j, hi, hj, e, h1⟩ ⟨i', j', hi', hj', e', h2⟩
  obtain ⟨rfl, rfl⟩ := hI i j i' j' hi hj hi' hj' (e.symm.trans e')
  have hT : T ≠ 1 := by omega
  have h1 := h1.resolve_left hT
  have h2 := h2.resolve_left hT
  by_cases hc : C.cs > C.rs
  · rw [if_pos hc] at h1 h2
    exact h ((ompRange_partition (by omega) hi).unique ⟨ht, by omega, h1⟩ ⟨hu, by omega, h2⟩)
  · rw [if_neg hc] at h1 h2
    exact h ((ompRange_partition (by omega) hj).unique ⟨ht, by omega, h1⟩ ⟨hu, by omega, h2⟩)

theorem ompOwn_cover {A B C : MView} {T : Nat} (hT : 0 < T) {i j : Nat} (hi : i < C.cs) (hj : j < C.rs) :
    ∃ t, t < T ∧ ompOwn A B C T t (C.addr i j) := by
  by_cases hc : C.cs > C.rs
  · obtain ⟨t, ⟨ht, -, h⟩, -⟩ := ompRange_partition hT hi
    exact ⟨t, ht, (ompOwn_iff ht _).mpr ⟨i, j, hi, hj, rfl, Or.inr (by rw [if_pos hc]; exact h)⟩⟩
  · obtain ⟨t, ⟨ht, -, h⟩, -⟩ := ompRange_partition hT hj
    exact ⟨t, ht, (ompOwn_iff ht _).mpr ⟨i, j, hi, hj, rfl, Or.inr (by rw [if_neg hc]; exact h)⟩⟩

/-! ### The threads -/
section
variable {K : Type _} [CommRing K] [StarRing K] [DecidableEq K]

/-- What the calls of `DoBlockMultMM` make of the elements of C. -/
def valCalls (n : Nat) (a b : Nat → Nat → K) : List (Call K) → (Nat → Nat → K) → Nat → Nat → K
  | [], c => c
  | k :: ks, c => valCalls n a b ks fun i j => k.upd (c i j) (∑ l ∈ range n, k.packA (a i l) * k.packB (b l j))

theorem runCalls_spec {al : Alloc K} (hal : al.OK) {E : ElemTy K} (hE : E.OK) {A B C : MView} {a b : Nat → Nat → K} (ks : List (Call K))
    (hF : ∀ k ∈ ks, k.Fits A B) {c : Nat → Nat → K} {m : Mem K} (H : BlkArgs A B C a b c m) :
    ∃ m', runCalls E al A B C ks m = some m' ∧ C.Raw m' (valCalls A.rs a b ks c) := by
  induction ks generalizing c m with
  | nil => exact ⟨m, rfl, H.hC⟩
  | cons k ks ih =>
    obtain ⟨m1, e1, H1, -⟩ := blockPart_spec hal hE (k.ops_pa hal E (hF k (List.mem_cons_self ..))) (k.ops_pb hal E (hF k (List.mem_cons_self ..)))
      (k.ops_st hal E) H
    obtain ⟨m2, e2, r2⟩ := ih (fun k hk => hF k (List.mem_cons_of_mem _ hk)) H1
    refine ⟨m2, ?_, r2⟩
    have e1' : BlockOps.run (k.ops E al) al A B C m = some m1 := e1
    rw [runCalls, e1']
    exact e2

theorem blockMM_eq (E : ElemTy K) (al : Alloc K) (ca cb add : Bool) (x : K) (A B C : MView) (m : Mem K) :
    MView.blockMM E al ca cb add x A B C m = runCalls E al A B C (blockCalls E ca cb add x A B) m := by
  unfold MView.blockMM blockCalls
  cases ca <;> cases cb <;> dsimp only
  · unfold MView.blockMulMM
    simp [runCalls, Call.ops]
  · unfold MView.blockRC
    split_ifs <;> simp [runCalls, Call.ops, MView.blockPart]
  · unfold MView.blockCR
    split_ifs <;> simp [runCalls, Call.ops, MView.blockPart]
  · unfold MView.blockCC
    split_ifs <;> simp [runCalls, Call.ops, MView.blockPart]

theorem blockCalls_fits (E : ElemTy K) (ca cb add : Bool) (x : K) (A B : MView)
    (hca : ca = false → A.conj = false) (hcb : cb = false → B.conj = false) : ∀ k ∈ blockCalls E ca cb add x A B, k.Fits A B := by
  unfold blockCalls
  cases ca <;> cases cb <;> dsimp only <;> (try split_ifs) <;> simp_all [Call.Fits]

/-- What `BlockMultMM` makes of the elements of C. -/
theorem valCalls_eq {E : ElemTy K} (hE : E.OK) (ca cb : Bool) (hP : (ca = true ∨ cb = true) → E.Parts)
    (add : Bool) (x : K) (A B C : MView) (a b c : Nat → Nat → K) (m : Mem K) (H : BlkArgs A B C a b c m)
    (hca : ca = false → A.conj = false) (hcb : cb = false → B.conj = false)
    (hra : ca = false → cb = true → ∀ i j, i < A.cs → j < A.rs → star (a i j) = a i j)
    (hrb : cb = false → ca = true → ∀ i j, i < B.cs → j < B.rs → star (b i j) = b i j) (i j : Nat) (hi : i < C.cs) (hj : j < C.rs) :
    valCalls A.rs a b (blockCalls E ca cb add x A B) c i j =
      accVal add x c (matMul A.rs (fun i l => cj A.conj (a i l)) (fun l j => cj B.conj (b l j))) i j := by
  obtain ⟨m1, e1, r1, -⟩ := blockMM_spec Alloc.good_ok hE ca cb hP add x A B C a b c m H hca hcb hra hrb
  obtain ⟨m2, e2, r2⟩ := runCalls_spec Alloc.good_ok hE (blockCalls E ca cb add x A B) (blockCalls_fits E ca cb add x A B hca hcb) H
  rw [blockMM_eq, e2] at e1
  cases e1
  exact Option.some.inj ((r2 i j hi hj).symm.trans (r1 i j hi hj))

theorem blockProg_safe {E : ElemTy K} (hE : E.OK) {A B C : MView} {R : Int → Prop} {a b : Nat → Nat → K} (ks : List (Call K))
    (hF : ∀ k ∈ ks, k.Fits A B) {c : Nat → Nat → K} {m : Mem K} (H : BlkArgs A B C a b c m)
    (hl : ∀ x, m x ≠ none → R x ∨ C.Covers x) :
    (blockProg E hE A B C ks).Safe R (fun W m' => W = C.Covers ∧ C.Raw m' (valCalls A.rs a b ks c)) C.Covers m := by
  induction ks generalizing c m with
  | nil => exact ⟨rfl, H.hC⟩
  | cons k ks ih =>
    refine callProg_safe hE k (hF k (List.mem_cons_self ..)) H hl fun m' H' f => ?_
    refine ih (fun k hk => hF k (List.mem_cons_of_mem _ hk)) H' fun x hx => ?_
    by_cases hc : C.Covers x
    · exact Or.inr hc
    · rw [f x hc] at hx; exact hl x hx

/-- What thread `t` of `T` does (src/TMV_MultMM_OpenMP.cpp:40-64). -/
def ompProg (E : ElemTy K) (hE : E.OK) (ca cb add : Bool) (x : K) (A B C : MView) (T : Nat) (t : Fin T) : Prog K :=
  match ompPart A B C T t with
  | none => .done
  | some p => blockProg E hE p.1 p.2.1 p.2.2 (blockCalls E ca cb add x p.1 p.2.1)

/-- The invariant holds at the beginning. -/
theorem omp_init {E : ElemTy K} (hE : E.OK) (ca cb : Bool) (hP : (ca = true ∨ cb = true) → E.Parts)
    (add : Bool) (x : K) (A B C : MView) (a b c : Nat → Nat → K) (m : Mem K) (H : BlkArgs A B C a b c m)
    (hca : ca = false → A.conj = false) (hcb : cb = false → B.conj = false)
    (hra : ca = false → cb = true → ∀ i j, i < A.cs → j < A.rs → star (a i j) = a i j)
    (hrb : cb = false → ca = true → ∀ i j, i < B.cs → j < B.rs → star (b i j) = b i j) (T : Nat) :
    ConcInv (T := T) (fun x => A.Covers x ∨ B.Covers x)
      (fun t W m' => W = ompOwn A B C T t ∧ ∀ i j : Nat, i < C.cs → j < C.rs → ompOwn A B C T t (C.addr i j) →
        m' (C.addr i j) = some (accVal add x c (matMul A.rs (fun i l => cj A.conj (a i l)) (fun l j => cj B.conj (b l j))) i j))
      m (fun t => ompOwn A B C T t) (fun t => ompOwn A B C T t) m (ompProg E hE ca cb add x A B C T) := by
  have own_le : ∀ (t : Fin T) y, ompOwn A B C T t y → C.Covers y := fun t y h => by
    obtain ⟨i, j, hi, hj, e, -⟩ := (ompOwn_iff t.2 y).mp h
    exact ⟨i, j, hi, hj, e⟩
  have lvR : ∀ y, A.Covers y ∨ B.Covers y → m y ≠ none := fun y h => by
    rcases h with ⟨i, j, hi, hj, rfl⟩ | ⟨i, j, hi, hj, rfl⟩
    · rw [H.hA i j hi hj]; simp
    · rw [H.hB i j hi hj]; simp
  refine { safe := fun t => ?_, ro := ?_, own := fun t u h y => ompOwn_disjoint H.inj t.2 u.2 (fun h' => h (Fin.ext h')) y, live := ?_, frame := ?_, noleak := ?_, bdd := H.bdd }
  · unfold ompProg
    cases e : ompPart A B C T t with
    | none =>
      refine ⟨rfl, fun i j hi hj h => ?_⟩
      obtain ⟨p, hp, -⟩ := h
      rw [e] at hp; cases hp
    | some p =>
      obtain ⟨A', B', C'⟩ := p
      obtain ⟨i0, j0, P⟩ := ompPart_isPart H.cs H.rs t.2 e
      dsimp only at P ⊢
      have hW : ompOwn A B C T t = C'.Covers := by
        funext y
        refine propext ⟨fun ⟨p, hp, h⟩ => ?_, fun h => ⟨_, e, h⟩⟩
        rw [e] at hp; cases hp; exact h
      have cvA : ∀ y, A'.Covers y → A.Covers y := by
        rintro y ⟨i, l, hi, hl, rfl⟩
        exact ⟨i0 + i, l, by have := P.cs; have := P.i; have := H.cs; omega, by have := P.k; omega, P.aA i l⟩
      have cvB : ∀ y, B'.Covers y → B.Covers y := by
        rintro y ⟨l, j, hl, hj, rfl⟩
        exact ⟨l, j0 + j, by have := P.kB; omega, by have := P.rs; have := P.j; have := H.rs; omega, P.aB l j⟩
      have cvC : ∀ y, C'.Covers y → C.Covers y := by
        rintro y ⟨i, j, hi, hj, rfl⟩
        exact ⟨i0 + i, j0 + j, by have := P.i; omega, by have := P.j; omega, P.aC i j⟩
      have H' : BlkArgs A' B' C' (fun i l => a (i0 + i) l) (fun l j => b l (j0 + j)) (fun i j => c (i0 + i) (j0 + j))
          (m.restrict fun y => (A.Covers y ∨ B.Covers y) ∨ ompOwn A B C T t y) := by
        refine { cs := P.cs, k := by rw [P.k, P.kB, H.k], rs := P.rs, conj := by rw [P.cjC, H.conj], inj := ?_, dA := ?_, dB := ?_, bdd := ?_, hA := ?_, hB := ?_, hC := ?_ }
        · intro i j i' j' hi hj hi' hj' h
          rw [P.aC, P.aC] at h
          have := H.inj _ _ _ _ (by have := P.i; omega) (by have := P.j; omega) (by have := P.i; omega) (by have := P.j; omega) h
          omega
        · exact fun y h1 h2 => H.dA y (cvA y h1) (cvC y h2)
        · exact fun y h1 h2 => H.dB y (cvB y h1) (cvC y h2)
        · obtain ⟨N, hN⟩ := H.bdd
          refine ⟨N, fun y hy => ?_⟩
          unfold Mem.restrict
          split_ifs
          · exact hN y hy
          · rfl
        · intro i l hi hl
          rw [Mem.restrict_of (Or.inl (Or.inl (cvA _ ⟨i, l, hi, hl, rfl⟩))), P.aA]
          exact H.hA _ _ (by have := P.cs; have := P.i; have := H.cs; omega) (by have := P.k; omega)
        · intro l j hl hj
          rw [Mem.restrict_of (Or.inl (Or.inr (cvB _ ⟨l, j, hl, hj, rfl⟩))), P.aB]
          exact H.hB _ _ (by have := P.kB; omega) (by have := P.rs; have := P.j; have := H.rs; omega)
        · intro i j hi hj
          rw [Mem.restrict_of (Or.inr (hW ▸ ⟨i, j, hi, hj, rfl⟩)), P.aC]
          exact H.hC _ _ (by have := P.i; omega) (by have := P.j; omega)
      have hva := fun i j hi hj => valCalls_eq hE ca cb hP add x A' B' C' _ _ _ _ H' (fun h => by rw [P.cjA]; exact hca h) (fun h => by rw [P.cjB]; exact hcb h)
        (fun h h' i l hi hl => hra h h' _ _ (by have := P.cs; have := P.i; have := H.cs; omega) (by have := P.k; omega))
        (fun h h' l j hl hj => hrb h h' _ _ (by have := P.kB; omega) (by have := P.rs; have := P.j; have := H.rs; omega)) i j hi hj
      have hs := blockProg_safe hE (R := fun y => A.Covers y ∨ B.Covers y) (blockCalls E ca cb add x A' B')
        (blockCalls_fits E ca cb add x A' B' (fun h => by rw [P.cjA]; exact hca h) (fun h => by rw [P.cjB]; exact hcb h)) H'
        (fun y hy => by
          by_cases h : (A.Covers y ∨ B.Covers y) ∨ ompOwn A B C T t y
          · rw [hW] at h; exact h
          · rw [Mem.restrict_none h] at hy; exact absurd rfl hy)
      rw [← hW] at hs
      refine hs.imp fun W m' hq => ⟨hq.1, fun i j hi hj ho => ?_⟩
      rw [hW] at ho
      obtain ⟨i', j', hi', hj', ho⟩ := ho
      rw [P.aC] at ho
      obtain ⟨rfl, rfl⟩ := H.inj _ _ _ _ hi hj (by have := P.i; omega) (by have := P.j; omega) ho
      have h1 := hq.2 i' j' hi' hj'
      rw [hva i' j' hi' hj', P.aC] at h1
      rw [h1, P.k, P.cjA, P.cjB]
      rfl
  · intro t y hr ho
    have := own_le t y ho
    rcases hr with h | h
    · exact H.dA y h this
    · exact H.dB y h this
  · intro t y h
    rcases h with h | h
    · exact lvR y h
    · obtain ⟨i, j, hi, hj, rfl⟩ := own_le t y h
      rw [H.hC i j hi hj]; simp
  · exact fun y _ h => ⟨rfl, h⟩
  · exact fun y h _ => h

/-- **C47** `OpenMPMultMM<add>(x,A,B,C)` for any number of threads and any schedule of their memory accesses: no two threads race, no
thread gets stuck (undefined behaviour: a bad address), and when all threads have ended C is `(C +) x*A*B`, nothing else has changed
and all temporary memory has been given back.  (Every schedule ends: `step_terminates`.) -/
theorem omp_spec {E : ElemTy K} (hE : E.OK) (ca cb : Bool) (hP : (ca = true ∨ cb = true) → E.Parts)
    (add : Bool) (x : K) (A B C : MView) (m : Mem K) (hb : m.Bdd) (a b c : Nat → Nat → K)
    (hcs : A.cs = C.cs) (hk : A.rs = B.cs) (hrs : B.rs = C.rs)
    (hCc : C.conj = false) (hrA : RealOK ca A a) (hrB : RealOK cb B b) (hI : C.Inj)
    (hA : A.Holds m a) (hB : B.Holds m b) (hC : C.Holds m c) (dA : A.Disjoint C) (dB : B.Disjoint C)
    {T : Nat} (hT : 0 < T) (s : Mem K × (Fin T → Prog K)) (hs : Reach (m, ompProg E hE ca cb add x A B C T) s) :
    (∀ t u, t ≠ u → ¬ (s.2 t).Races (s.2 u)) ∧
    (∀ t, s.2 t ≠ .done → ∃ m' p', Step s (m', update s.2 t p')) ∧
    ((∀ t, s.2 t = .done) → C.Becomes m s.1
      (fun i j => if add then c i j + x * ∑ l ∈ range A.rs, a i l * b l j else x * ∑ l ∈ range A.rs, a i l * b l j)) := by
  have H : BlkArgs A B C (fun i j => cj A.conj (a i j)) (fun i j => cj B.conj (b i j)) c m :=
    { cs := hcs, k := hk, rs := hrs, inj := hI, conj := hCc, dA := dA, dB := dB, bdd := hb
      hA := fun i j hi hj => hA.rawA i j hi hj, hB := fun i j hi hj => hB.rawA i j hi hj
      hC := fun i j hi hj => by have := hC.rawA i j hi hj; rw [hCc] at this; exact this }
  have I0 := omp_init hE ca cb hP add x A B C _ _ c m H (fun h => (hrA h).1) (fun h => (hrB h).1)
    (fun h _ i j hi hj => by rw [(hrA h).1]; exact (hrA h).2 i j hi hj)
    (fun h _ i j hi hj => by rw [(hrB h).1]; exact (hrB h).2 i j hi hj) T
  obtain ⟨W, I⟩ := I0.reach hs
  obtain ⟨m', ps⟩ := s
  refine ⟨fun t u h => I.noRace t u h, fun t h => I.progress t h, fun hd => ?_⟩
  dsimp only at hd I ⊢
  have hQ : ∀ t, W t = ompOwn A B C T t ∧ _ := fun t => by have := I.safe t; rw [hd t] at this; exact this
  refine ⟨MView.Holds.of_raw fun i j hi hj => ?_, fun y hy => ?_⟩
  · obtain ⟨t, ht, ho⟩ := ompOwn_cover (A := A) (B := B) hT hi hj
    obtain ⟨hw, hv⟩ := hQ ⟨t, ht⟩
    have := hv i j hi hj ho
    rw [Mem.restrict_of (Or.inr (by rw [hw]; exact ho))] at this
    rw [this, hCc]
    simp only [cj_cj]
    rfl
  · have hno : ∀ t : Fin T, ¬ ompOwn A B C T t y := fun t h => by
      obtain ⟨i, j, hi, hj, e, -⟩ := (ompOwn_iff t.2 y).mp h
      exact hy ⟨i, j, hi, hj, e⟩
    by_cases hm : m y = none
    · rw [hm]
      exact I.noleak y hm fun t => by rw [(hQ t).1]; exact hno t
    · exact (I.frame y hm hno).1

/-- **C47** Every run can be continued until all threads have ended (and by `step_terminates` no run goes on for ever). -/
theorem omp_ends {E : ElemTy K} (hE : E.OK) (ca cb : Bool) (hP : (ca = true ∨ cb = true) → E.Parts)
    (add : Bool) (x : K) (A B C : MView) (m : Mem K) (hb : m.Bdd) (a b c : Nat → Nat → K)
    (hcs : A.cs = C.cs) (hk : A.rs = B.cs) (hrs : B.rs = C.rs)
    (hCc : C.conj = false) (hrA : RealOK ca A a) (hrB : RealOK cb B b) (hI : C.Inj)
    (hA : A.Holds m a) (hB : B.Holds m b) (hC : C.Holds m c) (dA : A.Disjoint C) (dB : B.Disjoint C)
    {T : Nat} (hT : 0 < T) (s : Mem K × (Fin T → Prog K)) (hs : Reach (m, ompProg E hE ca cb add x A B C T) s) :
    ∃ s', Reach s s' ∧ ∀ t, s'.2 t = .done := by
  induction s using step_terminates.induction with
  | _ s ih =>
    by_cases hd : ∀ t, s.2 t = .done
    · exact ⟨s, .refl, hd⟩
    · obtain ⟨t, ht⟩ := not_forall.mp hd
      obtain ⟨m', p', hst⟩ := (omp_spec hE ca cb hP add x A B C m hb a b c hcs hk hrs hCc hrA hrB hI hA hB hC dA dB hT s hs).2.1 t ht
      obtain ⟨s', h1, h2⟩ := ih _ hst (hs.step hst)
      exact ⟨s', h1.head hst, h2⟩

end
end TMV
