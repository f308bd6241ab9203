import Verif.Model.MatVec
import Verif.Props.MatArith

/-! Property C71: matrix-vector products. -/
namespace TMV
variable {K : Type _} [CommRing K] [StarRing K] [DecidableEq K]
open Finset

/-- The product of an `_ × n` matrix and a vector. -/
def matVec (n : Nat) (a : Nat → Nat → K) (x : Nat → K) (i : Nat) : K := ∑ j ∈ range n, a i j * x j

/-! ### Row algorithm -/

omit [DecidableEq K] in
theorem dotMV_spec (cx ca : Bool) (sj : Int) (m : Mem K) : ∀ (n : Nat) (pA px : Int) (r : K) (a x : Nat → K),
    (∀ j : Nat, j < n → m (px + j) = some (cj cx (x j))) →
    (∀ j : Nat, j < n → m (pA + j * sj) = some (cj ca (a j))) →
    dotMV cx ca sj m n pA px r = some (r + ∑ j ∈ range n, a j * x j) := by
  intro n
  induction n with
  | zero => intro pA px r a x _ _; simp [dotMV]
  | succ n ih =>
    intro pA px r a x hx ha
    have hx0 := hx 0 (by omega)
    have ha0 := ha 0 (by omega)
    simp only [Nat.cast_zero, add_zero, zero_mul] at hx0 ha0
    rw [dotMV, Mem.read, hx0, Option.bind_some, Mem.read, ha0, Option.bind_some, cj_cj, cj_cj,
      ih (pA + sj) (px + 1) _ (fun j => a (j+1)) (fun j => x (j+1))]
    · rw [sum_range_succ']; congr 1; ring
    · intro j hj
      have := hx (j+1) (by omega)
      push_cast at this
      rw [show px + 1 + (j : Int) = px + (j + 1) by ring]; exact this
    · intro j hj
      have := ha (j+1) (by omega)
      push_cast at this
      rw [show pA + sj + (j : Int) * sj = pA + (j + 1) * sj by ring]; exact this

/-- No element of `y` before the `i`-th lies in row `i` of `A`. -/
def RowSafe (A : MView) (y : VView) : Prop :=
  ∀ i i' j : Nat, i < i' → i' < A.cs → j < A.rs → A.addr i' j ≠ y.addr i

/-- The result of `y (+)= A*x`. -/
def mvVal (add : Bool) (n : Nat) (a : Nat → Nat → K) (x y : Nat → K) (i : Nat) : K :=
  if add then y i + matVec n a x i else matVec n a x i

omit [DecidableEq K] in
theorem rowMulMV_spec (add cx rm : Bool) (A : MView) (x y : VView) (m : Mem K) (a : Nat → Nat → K)
    (u v : Nat → K) (hrm : rm = true → A.sj = 1) (hx : x.size = A.rs) (hy : y.size = A.cs) (hxs : x.step = 1)
    (hys : y.step = 1) (hyc : y.conj = false) (hcx : x.conj = cx)
    (hA : A.Holds m a) (hX : x.Holds m u) (hY : y.Holds m v) (hd : x.Disjoint y) (hs : RowSafe A y) :
    ∃ m', MView.rowMulMV add cx rm A x y m = some m' ∧ y.Becomes m m' (mvVal add A.rs a u v) := by
  unfold MView.rowMulMV
  dsimp only
  have e1 : (if rm = true then 1 else A.sj) = A.sj := by
    split
    · rename_i h; exact (hrm h).symm
    · rfl
  rw [e1]
  have ya : ∀ i : Nat, y.addr i = y.ptr + i := fun i => by rw [VView.addr, hys, mul_one]
  obtain ⟨m', e, val, fr⟩ := loopN_spec (fun i m =>
    (dotMV cx A.conj A.sj m A.rs (A.ptr + i * A.si) x.ptr 0).bind fun temp =>
    if add then m.modify (y.ptr + i) (· + temp) else m.write (y.ptr + i) temp)
    (fun i => ⟨y.ptr + i, 1, 1, false⟩) (fun i _ => mvVal add A.rs a u v i) A.cs 0 m (by
      rintro k k' _ _ _ _ hne b ⟨p, hp, e⟩ ⟨q, hq, e'⟩
      simp only [VView.addr] at e e' hp hq
      omega) (by
      intro k _ hk m1 hm1
      have out : ∀ b, (∀ k' : Nat, k' < k → b ≠ y.addr k') → m1 b = m b := by
        intro b hb
        apply hm1
        rintro k' _ h2 ⟨p, hp, e⟩
        refine hb k' h2 ?_
        simp only [VView.addr] at e hp
        rw [ya]; omega
      rw [dotMV_spec cx A.conj A.sj m1 A.rs (A.ptr + k * A.si) x.ptr 0 (a k) u]
      · have yk : m1 (y.ptr + k) = some (v k) := by
          rw [out]
          · have := hY.rawA k (by omega)
            rw [ya, hyc] at this; exact this
          · intro k' h2; rw [ya]; omega
        have fin : ∀ w : K, w = mvVal add A.rs a u v k →
            (⟨y.ptr + k, 1, 1, false⟩ : VView).Becomes m1 (fun b => if b = y.ptr + k then some w else m1 b)
              (fun _ => mvVal add A.rs a u v k) := by
          intro w hw
          constructor
          · apply VView.Holds.of_raw
            intro i hi
            have hi' : i < 1 := hi
            have h0 : i = 0 := by omega
            subst h0
            show (if _ = _ then some w else _) = _
            rw [if_pos (by simp [VView.addr]), hw]; rfl
          · intro b hb
            show (if _ = _ then some w else _) = _
            rw [if_neg]
            intro h
            exact hb ⟨0, Nat.one_pos, by simp [VView.addr, h]⟩
        rw [Option.bind_some]
        cases add with
        | true =>
          refine ⟨_, ?_, fin (v k + (0 + ∑ j ∈ range A.rs, a k j * u j)) ?_⟩
          · rw [if_pos rfl]
            show Mem.modify m1 (y.ptr + (k : Int)) _ = _
            rw [Mem.modify_of_isSome _ (by rw [yk]; rfl), yk]; rfl
          · simp [mvVal, matVec]
        | false =>
          refine ⟨_, ?_, fin (0 + ∑ j ∈ range A.rs, a k j * u j) ?_⟩
          · rw [if_neg (by simp)]
            show Mem.write m1 (y.ptr + (k : Int)) _ = _
            rw [Mem.write_of_isSome _ (by rw [yk]; rfl)]
          · simp [mvVal, matVec]
      · intro j hj
        rw [out]
        · have := hX.rawA j (by omega)
          rwa [VView.addr, hxs, mul_one, hcx] at this
        · intro k' h2 e
          refine hd (x.addr j) ⟨j, by omega, rfl⟩ ⟨k', by omega, ?_⟩
          rw [← e, VView.addr, hxs, mul_one]
      · intro j hj
        rw [out]
        · exact hA.rawA k j (by omega) hj
        · intro k' h2
          exact hs k' k j h2 (by omega) hj)
  refine ⟨m', e, ?_, ?_⟩
  · apply VView.Holds.of_raw
    intro i hi
    have := (val i (by omega) (by omega)).rawA 0 (by show 0 < 1; omega)
    simp only [VView.addr] at this
    rw [ya, hyc]
    simpa using this
  · intro b hb
    apply fr
    rintro k _ hk ⟨p, hp, e⟩
    simp only [VView.addr] at e hp
    exact hb ⟨k, by omega, by rw [ya]; omega⟩

/-! ### Column algorithm -/

/-- Column `0` of `A` is `y` itself or disjoint from `y`, the others are disjoint from `y`. -/
def ColSafe (A : MView) (y : VView) : Prop :=
  SameOrDisjoint (A.col 0) y ∧ ∀ j : Nat, 0 < j → j < A.rs → (A.col j).Disjoint y

theorem colStep_spec (cx : Bool) (A : MView) (x y : VView) (m : Mem K) (j : Nat) (c v : Nat → K) (u : K)
    (hy : y.size = A.cs) (hys : y.step = 1) (hyc : y.conj = false)
    (hC : (A.col j).Holds m c) (hX : m (x.ptr + j) = some (cj cx u)) (hY : y.Holds m v)
    (hs : SameOrDisjoint (A.col j) y) :
    ∃ m', MView.colStep cx A.si A x y j m = some m' ∧ y.Becomes m m' (fun i => v i + c i * u) := by
  unfold MView.colStep
  rw [Mem.read, hX, Option.bind_some]
  by_cases h0 : cj cx u ≠ 0
  · rw [if_pos h0]
    have hw : y.WF := Or.inl (by rw [hys]; decide)
    have hn : (A.col j).size = y.size := hy.symm
    obtain ⟨m', p, q, r⟩ := loop2_becomes (fun a b => b + cj cx (cj cx u) * cj A.conj a) (A.col j) y m c hn hw
      (Ahead.of_noClash hn (hs.noClash hn hw)) hC hY.live
    rw [hys, hy] at p
    refine ⟨m', p, VView.Holds.of_raw fun i hi => ?_, q⟩
    rw [r i hi _ (hY.rawA i hi), hyc]
    show some (v i + cj cx (cj cx u) * cj A.conj (cj A.conj (c i))) = _
    rw [cj_cj, cj_cj, mul_comm]; rfl
  · rw [if_neg h0]
    have h0' : u = 0 := by
      rw [not_not] at h0
      rw [← cj_cj cx u, h0]; unfold cj; split <;> simp
    exact ⟨m, rfl, VView.Becomes.refl fun i hi => by rw [hY i hi, h0', mul_zero, add_zero]⟩

/-- Columns `j0 .. j0+n-1`. -/
theorem colLoop_spec (cx : Bool) (A : MView) (x y : VView) (a : Nat → Nat → K) (u : Nat → K)
    (hx : x.size = A.rs) (hy : y.size = A.cs) (hxs : x.step = 1)
    (hys : y.step = 1) (hyc : y.conj = false) (hcx : x.conj = cx) (hd : x.Disjoint y) (hs : ColSafe A y) :
    ∀ (n j0 : Nat) (m : Mem K) (v : Nat → K), j0 + n = A.rs →
      (∀ j, j0 ≤ j → j < A.rs → (A.col j).Holds m (fun i => a i j)) → x.Holds m u → y.Holds m v →
      ∃ m', loopN (MView.colStep cx A.si A x y) n j0 m = some m' ∧
        y.Becomes m m' (fun i => v i + ∑ j ∈ range n, a i (j0 + j) * u (j0 + j)) := by
  intro n
  induction n with
  | zero =>
    intro j0 m v _ _ _ hY
    exact ⟨m, rfl, VView.Becomes.refl fun i hi => by rw [hY i hi]; simp⟩
  | succ n ih =>
    intro j0 m v hj hA hX hY
    have hxj := hX.rawA j0 (by omega)
    rw [VView.addr, hxs, mul_one, hcx] at hxj
    obtain ⟨m1, e1, b1⟩ := colStep_spec cx A x y m j0 (fun i => a i j0) v (u j0) hy hys hyc
      (hA j0 le_rfl (by omega)) hxj hY (by
        by_cases h : j0 = 0
        · subst h; exact hs.1
        · exact Or.inl (hs.2 j0 (by omega) (by omega)))
    obtain ⟨m2, e2, b2⟩ := ih (j0+1) m1 _ (by omega)
      (fun j h1 h2 => (hA j (by omega) h2).frame b1.2 (hs.2 j (by omega) h2)) (hX.frame b1.2 hd) b1.1
    refine ⟨m2, by rw [loopN, e1]; exact e2, (b1.trans b2).congr ?_⟩
    intro i _
    rw [sum_range_succ', add_assoc, add_comm (∑ j ∈ range n, _) _, add_zero]
    congr 2
    apply sum_congr rfl
    intro j _
    rw [show j0 + 1 + j = j0 + (j + 1) by omega]

theorem colMulMV_spec (add cx cm : Bool) (A : MView) (x y : VView) (m : Mem K) (a : Nat → Nat → K)
    (u v : Nat → K) (hcm : cm = true → A.si = 1) (hx : x.size = A.rs) (hy : y.size = A.cs) (hxs : x.step = 1)
    (hys : y.step = 1) (hyc : y.conj = false) (hcx : x.conj = cx) (h0 : 0 < x.size)
    (hA : A.Holds m a) (hX : x.Holds m u) (hY : y.Holds m v) (hd : x.Disjoint y) (hs : ColSafe A y) :
    ∃ m', MView.colMulMV add cx cm A x y m = some m' ∧ y.Becomes m m' (mvVal add A.rs a u v) := by
  unfold MView.colMulMV
  dsimp only
  have e1 : (if cm = true then 1 else A.si) = A.si := by
    split
    · rename_i h; exact (hcm h).symm
    · rfl
  rw [e1]
  have hw : y.WF := Or.inl (by rw [hys]; decide)
  cases add with
  | true =>
    rw [if_pos rfl]
    obtain ⟨m', e, b⟩ := colLoop_spec cx A x y a u hx hy hxs hys hyc hcx hd hs A.rs 0 m v (by omega)
      (fun j _ hj => hA.col hj) hX hY
    refine ⟨m', e, b.congr fun i _ => ?_⟩
    simp [mvVal, matVec]
  | false =>
    rw [if_neg (by simp)]
    have hx0 := hX.rawA 0 (by omega)
    rw [VView.addr, Nat.cast_zero, zero_mul, add_zero, hcx] at hx0
    rw [Mem.read, hx0, Option.bind_some]
    have first : ∃ m1, (if cj cx (u 0) = 0 then y.setZero m
        else loop2 (fun a _ => cj cx (cj cx (u 0)) * cj A.conj a) A.si 1 A.cs A.ptr y.ptr m) = some m1 ∧
        y.Becomes m m1 (fun i => a i 0 * u 0) := by
      by_cases hz : cj cx (u 0) = 0
      · rw [if_pos hz]
        have hz' : u 0 = 0 := by rw [← cj_cj cx (u 0), hz]; unfold cj; split <;> simp
        obtain ⟨m1, p, q, r⟩ := setZero_spec y m hw hY.live
        exact ⟨m1, p, VView.Becomes.congr ⟨q, r⟩ fun i _ => by rw [hz', mul_zero]⟩
      · rw [if_neg hz]
        have hn : (A.col 0).size = y.size := hy.symm
        obtain ⟨m1, p, q, r⟩ := loop2_becomes (fun a _ => cj cx (cj cx (u 0)) * cj A.conj a) (A.col 0) y m
          (fun i => a i 0) hn hw (Ahead.of_noClash hn (hs.1.noClash hn hw)) (hA.col (j := 0) (by omega)) hY.live
        rw [hys, hy] at p
        have ep : (A.col 0).ptr = A.ptr := by simp [MView.col]
        rw [ep] at p
        refine ⟨m1, p, VView.Holds.of_raw fun i hi => ?_, q⟩
        rw [r i hi _ (hY.rawA i hi), hyc]
        show some (cj cx (cj cx (u 0)) * cj A.conj (cj A.conj (a i 0))) = _
        rw [cj_cj, cj_cj, mul_comm]; rfl
    obtain ⟨m1, e1, b1⟩ := first
    rw [e1, Option.bind_some]
    obtain ⟨m2, e2, b2⟩ := colLoop_spec cx A x y a u hx hy hxs hys hyc hcx hd hs (A.rs - 1) 1 m1 _ (by omega)
      (fun j h1 hj => (hA.col hj).frame b1.2 (hs.2 j (by omega) hj)) (hX.frame b1.2 hd) b1.1
    refine ⟨m2, e2, (b1.trans b2).congr fun i _ => ?_⟩
    simp only [mvVal, matVec, Bool.false_eq_true, if_false]
    rw [show A.rs = (A.rs - 1) + 1 by omega, sum_range_succ', add_comm, Nat.add_sub_cancel]
    congr 1
    apply sum_congr rfl
    intro j _
    rw [add_comm 1 j]

/-! ### Dispatch and trimming of zeros -/

/-- `y` may be overwritten while `A` is read: it shares no element with `A`, or it is the first column or
(part of) the first row of `A`. -/
def MVAlias (A : MView) (y : VView) : Prop :=
  (∀ a, A.Covers a → ¬ y.Covers a) ∨ (y.ptr = A.ptr ∧ y.step = A.si) ∨
    (y.ptr = A.ptr ∧ y.step = A.sj ∧ A.cs ≤ A.rs)

omit [CommRing K] [StarRing K] [DecidableEq K] in
theorem MVAlias.rowSafe {A : MView} {y : VView} (h : MVAlias A y) (hy : y.size = A.cs) (hW : A.WF) :
    RowSafe A y := by
  intro i i' j h1 h2 h3 e
  rcases h with h | ⟨h, h'⟩ | ⟨h, h', h''⟩
  · exact h _ ⟨i', j, h2, h3, rfl⟩ ⟨i, by omega, e⟩
  · have e' : A.addr i' j = A.addr i (0 : Nat) := by
      rw [e]; simp [VView.addr, MView.addr, h, h']
    have := (hW.1 i' j i 0 h2 h3 (by omega) (by omega) e').1
    omega
  · have e' : A.addr i' j = A.addr (0 : Nat) i := by
      rw [e]; simp [VView.addr, MView.addr, h, h']
    have := (hW.1 i' j 0 i h2 h3 (by omega) (by omega) e').1
    omega

omit [CommRing K] [StarRing K] [DecidableEq K] in
theorem MVAlias.colSafe {A : MView} {y : VView} (h : MVAlias A y) (hy : y.size = A.cs) (hW : A.WF)
    (h0 : 0 < A.rs) (hys : y.step = 1) (hnr : A.sj ≠ 1) : ColSafe A y := by
  have dis : (∀ a, A.Covers a → ¬ y.Covers a) → ∀ j : Nat, j < A.rs → (A.col j).Disjoint y := by
    rintro h j hj a ⟨i, hi, e⟩
    exact h a ⟨i, j, hi, hj, by rw [e, A.col_addr]⟩
  rcases h with h | ⟨h, h'⟩ | ⟨h, h', h''⟩
  · exact ⟨Or.inl (dis h 0 h0), fun j _ hj => dis h j hj⟩
  · refine ⟨Or.inr ⟨by simp [MView.col, h], h'.symm⟩, ?_⟩
    rintro j h1 h2 a ⟨i, hi, e⟩ ⟨i', hi', e'⟩
    have e2 : A.addr i j = A.addr i' (0 : Nat) := by
      rw [← A.col_addr, ← e, e']; simp [VView.addr, MView.addr, h, h']
    have := (hW.1 i j i' 0 hi h2 (by omega) h0 e2).2
    omega
  · exact absurd (h'.symm.trans hys) hnr

theorem unitMulMV1_spec (add cx : Bool) (A : MView) (x y : VView) (m : Mem K) (a : Nat → Nat → K)
    (u v : Nat → K) (hx : x.size = A.rs) (hy : y.size = A.cs) (hxs : x.step = 1)
    (hys : y.step = 1) (hyc : y.conj = false) (hcx : x.conj = cx) (h0 : 0 < x.size)
    (hA : A.Holds m a) (hX : x.Holds m u) (hY : y.Holds m v) (hd : x.Disjoint y)
    (hr : RowSafe A y) (hc : A.sj ≠ 1 → ColSafe A y) :
    ∃ m', MView.unitMulMV1 add cx A x y m = some m' ∧ y.Becomes m m' (mvVal add A.rs a u v) := by
  unfold MView.unitMulMV1
  by_cases h1 : A.isrm = true
  · rw [if_pos h1]
    exact rowMulMV_spec add cx true A x y m a u v (fun _ => by simpa [MView.isrm] using h1) hx hy hxs hys hyc hcx hA hX
      hY hd hr
  rw [if_neg h1]
  have hc' := hc (by simpa [MView.isrm] using h1)
  by_cases h2 : A.iscm = true
  · rw [if_pos h2]
    exact colMulMV_spec add cx true A x y m a u v (fun _ => by simpa [MView.iscm] using h2) hx hy hxs hys hyc hcx h0 hA
      hX hY hd hc'
  rw [if_neg h2]
  split
  · exact rowMulMV_spec add cx false A x y m a u v (fun h => by cases h) hx hy hxs hys hyc hcx hA hX hY hd hr
  · exact colMulMV_spec add cx false A x y m a u v (fun h => by cases h) hx hy hxs hys hyc hcx h0 hA hX hY hd hc'

theorem trimEnd_spec (p : Int) (m : Mem K) (u : Nat → K) : ∀ n : Nat,
    (∀ j : Nat, j < n → m (p + j) = some (u j)) →
    ∃ j2, MView.trimEnd p m n = some j2 ∧ j2 ≤ n ∧ (∀ j, j2 ≤ j → j < n → u j = 0) ∧ (0 < j2 → u (j2 - 1) ≠ 0) := by
  intro n
  induction n with
  | zero => intro _; exact ⟨0, rfl, le_rfl, fun j _ h => by omega, fun h => by omega⟩
  | succ n ih =>
    intro h
    rw [MView.trimEnd, Mem.read, h n (by omega), Option.bind_some]
    by_cases hz : u n = 0
    · rw [if_pos hz]
      obtain ⟨j2, e, h1, h2, h3⟩ := ih (fun j hj => h j (by omega))
      refine ⟨j2, e, by omega, fun j h4 h5 => ?_, h3⟩
      by_cases hj : j = n
      · subst hj; exact hz
      · exact h2 j h4 (by omega)
    · rw [if_neg hz]
      exact ⟨n+1, rfl, le_rfl, fun j _ h => by omega, fun _ => by simpa using hz⟩

theorem trimStart_spec (p : Int) (m : Mem K) (u : Nat → K) (n : Nat)
    (h : ∀ j : Nat, j < n → m (p + j) = some (u j)) (k : Nat) (hk : k < n) (hu : u k ≠ 0) :
    ∀ (fuel j : Nat), fuel + j = n → j ≤ k → (∀ l, l < j → u l = 0) →
      ∃ j1, MView.trimStart p m fuel j = some j1 ∧ j1 ≤ k ∧ ∀ l, l < j1 → u l = 0 := by
  intro fuel
  induction fuel with
  | zero => intro j h1 h2 _; omega
  | succ fuel ih =>
    intro j h1 h2 h3
    rw [MView.trimStart, Mem.read, h j (by omega), Option.bind_some]
    by_cases hz : u j = 0
    · rw [if_pos hz]
      have : j ≠ k := by rintro rfl; exact hu hz
      refine ih (j+1) (by omega) (by omega) (fun l hl => ?_)
      by_cases hl' : l = j
      · subst hl'; exact hz
      · exact h3 l (by omega)
    · rw [if_neg hz]; exact ⟨j, rfl, h2, h3⟩

theorem unitMulMV_spec (add cx : Bool) (A : MView) (x y : VView) (m : Mem K) (a : Nat → Nat → K)
    (u v : Nat → K) (hx : x.size = A.rs) (hy : y.size = A.cs) (hxs : x.step = 1)
    (hys : y.step = 1) (hyc : y.conj = false) (hcx : x.conj = cx) (hW : A.WF)
    (hA : A.Holds m a) (hX : x.Holds m u) (hY : y.Holds m v) (hd : x.Disjoint y)
    (hal : MVAlias A y) :
    ∃ m', MView.unitMulMV add cx A x y m = some m' ∧ y.Becomes m m' (mvVal add A.rs a u v) := by
  unfold MView.unitMulMV
  have raw : ∀ j : Nat, j < x.size → m (x.ptr + j) = some (cj cx (u j)) := by
    intro j hj
    have := hX.rawA j hj
    rwa [VView.addr, hxs, mul_one, hcx] at this
  have cz : ∀ c : K, cj cx c = 0 ↔ c = 0 := by
    intro c; unfold cj; split <;> simp
  obtain ⟨j2, e2, h2, h2', h2''⟩ := trimEnd_spec x.ptr m (fun j => cj cx (u j)) x.size raw
  rw [e2, Option.bind_some]
  by_cases hz : j2 = 0
  · rw [if_pos hz]
    have allz : ∀ i, matVec A.rs a u i = 0 := by
      intro i
      apply sum_eq_zero
      intro j hj
      rw [(cz (u j)).mp (h2' j (by omega) (by rw [hx]; exact mem_range.mp hj)), mul_zero]
    cases add with
    | true =>
      exact ⟨m, rfl, VView.Becomes.refl fun i hi => by rw [hY i hi]; simp [mvVal, allz]⟩
    | false =>
      obtain ⟨m1, p, q, r⟩ := setZero_spec y m (Or.inl (by rw [hys]; decide)) hY.live
      exact ⟨m1, p, VView.Becomes.congr ⟨q, r⟩ fun i _ => by simp [mvVal, allz]⟩
  rw [if_neg hz]
  obtain ⟨j1, e1, h1, h1'⟩ := trimStart_spec x.ptr m (fun j => cj cx (u j)) x.size raw (j2 - 1) (by omega)
    (h2'' (by omega)) x.size 0 rfl (by omega) (fun l hl => by omega)
  rw [e1, Option.bind_some]
  have rs := hal.rowSafe hy hW
  have csf : A.sj ≠ 1 → ColSafe A y := fun h => hal.colSafe hy hW (by omega) hys h
  by_cases hall : j1 = 0 ∧ j2 = x.size
  · rw [if_pos hall]
    exact unitMulMV1_spec add cx A x y m a u v hx hy hxs hys hyc hcx (by omega) hA hX hY hd rs csf
  rw [if_neg hall]
  have sz : (A.colRange j1 j2).rs = j2 - j1 := by
    simp only [MView.colRange]; omega
  have ra : ∀ i j : Int, (A.colRange j1 j2).addr i j = A.addr i (j1 + j) := fun i j => A.colRange_addr j1 j2 i j
  obtain ⟨m', e, b⟩ := unitMulMV1_spec add cx (A.colRange j1 j2) (x.subVector2 j1 j2) y m
    (fun i j => a i (j1 + j)) (fun j => u (j1 + j)) v (by rw [sz]; simp only [VView.subVector2]; omega) hy hxs hys hyc hcx
    (by simp only [VView.subVector2]; omega)
    (by
      intro i j hi hj
      rw [A.colRange_cref]
      have := hA i (j1 + j) hi (by rw [sz] at hj; omega)
      push_cast at this; exact this)
    (by
      intro j hj
      have hj' : j < j2 - j1 := by simp only [VView.subVector2] at hj; omega
      have := hX (j1 + j) (by omega)
      rw [← this, VView.cref, VView.cref]
      have : (x.subVector2 j1 j2).addr j = x.addr ((j1 + j : Nat) : Int) := by
        simp only [VView.subVector2, VView.addr]; push_cast; ring
      rw [this]; rfl)
    hY
    (by
      rintro b ⟨j, hj, e⟩ hb
      have hj' : j < j2 - j1 := by simp only [VView.subVector2] at hj; omega
      refine hd b ⟨j1 + j, by omega, ?_⟩ hb
      rw [e]; simp only [VView.subVector2, VView.addr]; push_cast; ring)
    (by
      intro i i' j p q r
      rw [sz] at r
      rw [ra]
      have := rs i i' (j1 + j) p q (by omega)
      push_cast at this; exact this)
    (by
      intro hsj
      have hcs := csf hsj
      have ce : ∀ j : Nat, (A.colRange j1 j2).col j = A.col ((j1 + j : Nat) : Int) := by
        intro j
        simp only [MView.colRange, MView.col]
        congr 1
        push_cast; ring
      refine ⟨?_, ?_⟩
      · have := ce 0
        simp only [Nat.cast_zero, add_zero] at this
        rw [this]
        by_cases hj : j1 = 0
        · subst hj; exact hcs.1
        · exact Or.inl (hcs.2 j1 (by omega) (by omega))
      · intro j p q
        rw [sz] at q
        rw [ce]
        exact hcs.2 (j1 + j) (by omega) (by omega))
  refine ⟨m', e, b.congr fun i _ => ?_⟩
  have : matVec (A.colRange j1 j2).rs (fun i j => a i (j1 + j)) (fun j => u (j1 + j)) i = matVec A.rs a u i := by
    unfold matVec
    rw [sz]
    have s1 : ∑ j ∈ range A.rs, a i j * u j = ∑ j ∈ range j2, a i j * u j := by
      symm
      apply sum_subset (by intro j hj; rw [mem_range] at *; omega)
      intro j hj hn
      rw [mem_range] at hj hn
      rw [(cz (u j)).mp (h2' j (by omega) (by omega)), mul_zero]
    rw [s1, show j2 = j1 + (j2 - j1) by omega, sum_range_add, Nat.add_sub_cancel_left]
    rw [sum_eq_zero (s := range j1), zero_add]
    intro j hj
    rw [(cz (u j)).mp (h1' j (mem_range.mp hj)), mul_zero]
  simp only [mvVal, this]

/-! ### The whole operation -/

omit [DecidableEq K] in
private theorem matVec_smul (n : Nat) (a : Nat → Nat → K) (u : Nat → K) (al : K) (i : Nat) :
    matVec n a (fun j => al * u j) i = al * matVec n a u i := by
  unfold matVec
  rw [mul_sum]
  exact sum_congr rfl fun j _ => by ring

private theorem nonBlas_spec {al : Alloc K} (hal : al.OK) (add : Bool) (alpha : K) (A : MView) (x y : VView) (m : Mem K)
    (hb : m.Bdd) (a : Nat → Nat → K) (u v : Nat → K) (hx : x.size = A.rs) (hy : y.size = A.cs)
    (hyc : y.conj = false) (hW : A.WF) (hWy : y.WF)
    (hA : A.Holds m a) (hX : x.Holds m u) (hY : y.Holds m v) (hd : x.Disjoint y ∨ x.ptr = y.ptr)
    (hAy : MVAlias A y) :
    ∃ m', MView.nonBlasMulMV al add alpha A x y m = some m' ∧
      y.Becomes m m' (fun i => if add then v i + alpha * matVec A.rs a u i else alpha * matVec A.rs a u i) := by
  unfold MView.nonBlasMulMV
  have tw : ∀ (t : Int) (n : Nat), (⟨t, n, 1, false⟩ : VView).WF := fun t n => Or.inl one_ne_zero
  have tcov : ∀ (t : Int) (n : Nat) (c : Int), (⟨t, n, 1, false⟩ : VView).Covers c → t ≤ c ∧ c < t + n := by
    rintro t n c ⟨i, hi, e⟩
    simp only [VView.addr] at e hi
    omega
  have after : ∀ {m m0 m1 : Mem K} {t : Int} {n : Nat} {w : Nat → K}, Temp m m0 t n →
      (⟨t, n, 1, false⟩ : VView).Becomes m0 m1 w → Temp m m1 t n := by
    intro m m0 m1 t n w T b
    refine ⟨T.fresh, fun c hc => ?_, fun c h1 h2 => ?_, b.bdd T.vec T.bdd⟩
    · rw [b.2 c (fun h => hc (tcov _ _ _ h)), T.off c hc]
    · refine b.1.live (c - t).toNat (by show _ < n; omega) |> fun h => ?_
      have : (⟨t, n, 1, false⟩ : VView).addr ((c - t).toNat : Int) = c := by simp only [VView.addr]; omega
      rwa [this] at h
  -- `yy = A*x; y (+)= be*yy` with a temporary `yy`
  have viaY : ∀ (m : Mem K), m.Bdd → ∀ (cx : Bool) (x : VView) (u : Nat → K) (be : K), x.size = A.rs → x.step = 1 → x.conj = cx →
      A.Holds m a → x.Holds m u → y.Holds m v → ∀ (fin : VView → VView → Mem K → Option (Mem K)),
      (∀ (yy : VView) (m : Mem K) (w v : Nat → K), yy.size = y.size → yy.Disjoint y → yy.Holds m w → y.Holds m v →
        ∃ m', fin yy y m = some m' ∧ y.Becomes m m' (fun i => if add then v i + be * w i else be * w i)) →
      ∃ m', al.withTemp y.size (fun ty m =>
        let yy : VView := ⟨ty, y.size, 1, false⟩
        (MView.unitMulMV false cx A x yy m).bind fun m => fin yy y m) m = some m' ∧
      y.Becomes m m' (fun i => if add then v i + be * matVec A.rs a u i else be * matVec A.rs a u i) := by
    intro m hb cx x u be hx hxs hcx hA hX hY fin hfin
    refine withTempV hal _ _ m hb y hY.live _ ?_
    intro t m0 T
    dsimp only
    obtain ⟨w0, hw0⟩ := VView.Live.holds T.vec
    obtain ⟨m1, e1, b1⟩ := unitMulMV_spec false cx A x ⟨t, y.size, 1, false⟩ m0 a u w0 hx hy hxs rfl rfl hcx hW
      (T.holdsM hA) (T.holdsV hX) hw0 (T.disjV hX.live)
      (Or.inl (by
        rintro c ⟨i, j, hi, hj, rfl⟩ hc
        exact T.nin (hA.live i j hi hj) (tcov _ _ _ hc)))
    have T1 := after T b1
    have dy : (⟨t, y.size, 1, false⟩ : VView).Disjoint y := fun c h1 h2 => T1.disjV hY.live c h2 h1
    obtain ⟨m2, e2, b2⟩ := hfin ⟨t, y.size, 1, false⟩ m1 _ v rfl dy b1.1 (T1.holdsV hY)
    refine ⟨m2, by rw [e1]; exact e2, ?_, fun c h1 h2 => ?_⟩
    · intro i hi
      rw [b2.1 i hi]; simp [mvVal]
    · rw [b2.2 c h1, T1.off c h2, T.off c h2]
  by_cases h1 : x.step ≠ 1 ∨ x.sameStorage y ∨ (alpha ≠ 1 ∧ y.step = 1 ∧ A.cs / 4 ≥ A.rs)
  · rw [if_pos h1]
    refine withTempV hal _ _ m hb y hY.live _ ?_
    intro t m0 T
    dsimp only
    obtain ⟨X, hXe⟩ : ∃ X : VView, X = ⟨t, x.size, 1, false⟩ := ⟨_, rfl⟩
    rw [← hXe]
    have dX : x.Disjoint X := by rw [hXe]; exact T.disjV hX.live
    have sX : x.size = X.size := by rw [hXe]
    obtain ⟨m1, e1, b1⟩ := mulXV_spec alpha x X m0 u sX (by rw [hXe]; exact tw _ _)
      (SafeOrder.of_noClash sX (NoClash.of_disjoint dX)) (T.holdsV hX) (by rw [hXe]; exact T.vec)
    rw [e1, Option.bind_some]
    have T1 : Temp m m1 t x.size := after T (by rw [hXe] at b1; exact b1)
    have Xs : X.size = A.rs := by rw [← sX, hx]
    have hXs : X.step = 1 := by rw [hXe]
    have hXc : X.conj = false := by rw [hXe]
    have cl : ∀ i, alpha * matVec A.rs a u i = 1 * matVec A.rs a (fun j => alpha * u j) i := by
      intro i; rw [matVec_smul, one_mul]
    by_cases h2 : y.step ≠ 1
    · rw [if_pos h2]
      obtain ⟨m2, e2, b2⟩ := viaY m1 T1.bdd false X _ 1 Xs hXs hXc (T1.holdsM hA) b1.1 (T1.holdsV hY)
        (fun yy y m => if add then VView.addVV 1 yy y m else VView.copy yy y m) (by
          intro yy m w v p q r s
          cases add with
          | true =>
            simp only [if_true]
            exact addVV_spec 1 yy y m w v p hWy (SafeOrder.of_noClash p (NoClash.of_disjoint q)) r s
          | false =>
            obtain ⟨m', e, b⟩ := copy_safe_spec yy y m w p hWy (SafeOrder.of_noClash p (NoClash.of_disjoint q)) r s.live
            exact ⟨m', by simpa using e, b.congr fun i _ => by simp⟩)
      refine ⟨m2, e2, ?_, fun c h3 h4 => ?_⟩
      · intro i hi; rw [b2.1 i hi]; dsimp only; rw [cl]
      · rw [b2.2 c h3, T1.off c h4, T.off c h4]
    · rw [if_neg h2]
      have h2' : y.step = 1 := by simpa using h2
      obtain ⟨m2, e2, b2⟩ := unitMulMV_spec add false A X y m1 a _ v Xs hy hXs h2' hyc hXc hW (T1.holdsM hA) b1.1
        (T1.holdsV hY) (by rw [hXe]; exact fun c p q => T1.disjV hY.live c q p) hAy
      refine ⟨m2, e2, ?_, fun c h3 h4 => ?_⟩
      · intro i hi; rw [b2.1 i hi]; dsimp only; rw [cl, one_mul]; rfl
      · rw [b2.2 c h3, T1.off c h4, T.off c h4]
  · rw [if_neg h1]
    push_neg at h1
    obtain ⟨hxs, hss, hal1⟩ := h1
    by_cases h2 : y.step ≠ 1 ∨ alpha ≠ 1
    · rw [if_pos h2]
      exact viaY m hb x.conj x u alpha hx hxs rfl hA hX hY
        (fun yy y m => if add then VView.addVV alpha yy y m else VView.mulXV alpha yy y m) (by
          intro yy m w v p q r s
          cases add with
          | true =>
            simp only [if_true]
            exact addVV_spec alpha yy y m w v p hWy (SafeOrder.of_noClash p (NoClash.of_disjoint q)) r s
          | false =>
            obtain ⟨m', e, b⟩ := mulXV_spec alpha yy y m w p hWy (SafeOrder.of_noClash p (NoClash.of_disjoint q)) r s.live
            exact ⟨m', by simpa using e, b.congr fun i _ => by simp⟩)
    · rw [if_neg h2]
      push_neg at h2
      have hd' : x.Disjoint y := hd.resolve_right (by simpa [VView.sameStorage] using hss)
      obtain ⟨m', e, b⟩ := unitMulMV_spec add x.conj A x y m a u v hx hy hxs h2.1 hyc rfl hW hA hX hY hd' hAy
      exact ⟨m', e, b.congr fun i _ => by simp [mvVal, h2.2]⟩

/-- **C71 / C41** (`y = alpha*A*x`, `y += alpha*A*x`).  For every size, layout, step and conjugation the result is the
mathematical product computed from the old values: `x` shares no element with `y` or starts at the first element of
`y` (`v = m*v`); `y` shares no element with `A` or is the first column or row of `A`.  Nothing outside `y` changes and
all temporaries are gone. -/
theorem mulMV_spec {al : Alloc K} (hal : al.OK) (add : Bool) (alpha : K) (A : MView) (x y : VView) (m : Mem K)
    (hb : m.Bdd) (a : Nat → Nat → K) (u v : Nat → K) (hx : x.size = A.rs) (hy : y.size = A.cs)
    (hW : A.WF) (hWy : y.WF)
    (hA : A.Holds m a) (hX : x.Holds m u) (hY : y.Holds m v) (hd : x.Disjoint y ∨ x.ptr = y.ptr)
    (hAy : MVAlias A y) :
    ∃ m', MView.mulMV al add alpha A x y m = some m' ∧
      y.Becomes m m' (fun i => if add then v i + alpha * matVec A.rs a u i else alpha * matVec A.rs a u i) := by
  unfold MView.mulMV
  by_cases h0 : y.size > 0
  swap
  · rw [if_neg h0]
    exact ⟨m, rfl, fun i hi => by omega, fun _ _ => rfl⟩
  rw [if_pos h0]
  by_cases h1 : x.size = 0 ∨ alpha = 0
  · rw [if_pos h1]
    have hz : ∀ i, alpha * matVec A.rs a u i = 0 := by
      intro i
      rcases h1 with h1 | h1
      · rw [← hx, h1]; simp [matVec]
      · rw [h1, zero_mul]
    cases add with
    | true => exact ⟨m, rfl, VView.Becomes.refl fun i hi => by rw [hY i hi]; simp [hz]⟩
    | false =>
      obtain ⟨m1, p, q, r⟩ := setZero_spec y m hWy hY.live
      exact ⟨m1, p, VView.Becomes.congr ⟨q, r⟩ fun i _ => by simp [hz]⟩
  rw [if_neg h1]
  by_cases hc : y.conj = true
  · rw [if_pos hc]
    obtain ⟨m', e, b⟩ := nonBlas_spec hal add (star alpha) A.conjugate x.conjugate y.conjugate m hb _ _ _ hx hy
      (by simp [VView.conjugate, hc]) hW hWy (MView.Holds.conjugate.mp hA) (VView.Holds.conjugate.mp hX)
      (VView.Holds.conjugate.mp hY) hd hAy
    refine ⟨m', e, VView.Becomes.of_conjugate (b.congr fun i _ => ?_)⟩
    have : matVec A.conjugate.rs (fun i j => star (a i j)) (fun j => star (u j)) i = star (matVec A.rs a u i) := by
      unfold matVec
      rw [star_sum]
      exact sum_congr rfl fun j _ => by rw [star_mul']
    rw [this]
    cases add <;> simp [mul_comm]
  · rw [if_neg hc]
    exact nonBlas_spec hal add alpha A x y m hb a u v hx hy (by simpa using hc) hW hWy hA hX hY hd hAy

end TMV
