import Verif.Model.TriDivAlias
import Mathlib.Tactic.Ring
import Mathlib.Tactic.FieldSimp
import Mathlib.Tactic.NormNum
import Mathlib.Tactic.SplitIfs
import Mathlib.Data.Rat.Init
import Mathlib.Algebra.BigOperators.Ring.Finset
import Mathlib.Algebra.BigOperators.Intervals
import Mathlib.Algebra.BigOperators.Fin

/-! Dividing a vector by a triangular matrix that may share its storage with the vectors (`Model/TriDivAlias`).  Property C135. -/
namespace TMV.TriDivAlias
variable {ι K : Type _} [DecidableEq ι] [Field K]

/-- The addresses of the first `N` elements of a vector are distinct. -/
def Distinct (N : Nat) (b : Nat → ι) : Prop := ∀ i j, i < N → j < N → b i = b j → i = j

theorem fsub_frame (unit : Bool) (a : Nat → Nat → ι) (b : Nat → ι) (M : ι → K) (x : ι) : ∀ n, (∀ i, i < n → x ≠ b i) → fsub unit a b M n x = M x
  | 0, _ => rfl
  | n + 1, h => by
    unfold fsub
    dsimp only
    rw [Function.update_of_ne (h n (by omega)), fsub_frame unit a b M x n fun i hi => h i (by omega)]

theorem fsub_solve (unit : Bool) (a : Nat → Nat → ι) (b : Nat → ι) (M : ι → K) (N : Nat) (hb : Distinct N b)
    (hd : ∀ i j k, j ≤ i → i < N → k < N → a i j ≠ b k) (hz : ∀ i, i < N → unit = false → M (a i i) ≠ 0) : ∀ n, n ≤ N → ∀ i, i < n →
      ∑ j ∈ Finset.range i, M (a i j) * fsub unit a b M n (b j) + (if unit then 1 else M (a i i)) * fsub unit a b M n (b i) = M (b i) := by
  intro n
  induction n with
  | zero => intro _ i hi; omega
  | succ n ih =>
    intro hn i hi
    have hfr : ∀ k, k < n → fsub unit a b M (n + 1) (b k) = fsub unit a b M n (b k) := by
      intro k hk
      rw [fsub]
      rw [Function.update_of_ne fun e => by have := hb k n (by omega) (by omega) e; omega]
    by_cases hin : i < n
    · rw [hfr i hin, ← ih (by omega) i hin]
      congr 1
      refine Finset.sum_congr rfl fun j hj => ?_
      rw [hfr j (by have := Finset.mem_range.mp hj; omega)]
    · have e : i = n := by omega
      subst e
      have hs : ∑ j ∈ Finset.range i, M (a i j) * fsub unit a b M (i + 1) (b j) = ∑ j ∈ Finset.range i, M (a i j) * fsub unit a b M i (b j) :=
        Finset.sum_congr rfl fun j hj => by rw [hfr j (Finset.mem_range.mp hj)]
      have ha : ∀ j, j ≤ i → fsub unit a b M i (a i j) = M (a i j) := fun j hj =>
        fsub_frame unit a b M _ i fun k hk => hd i j k hj (by omega) (by omega)
      have hbi : fsub unit a b M i (b i) = M (b i) :=
        fsub_frame unit a b M _ i fun k hk e => by have := hb i k (by omega) (by omega) e; omega
      have hs2 : ∑ j ∈ Finset.range i, fsub unit a b M i (a i j) * fsub unit a b M i (b j) =
          ∑ j ∈ Finset.range i, M (a i j) * fsub unit a b M i (b j) :=
        Finset.sum_congr rfl fun j hj => by rw [ha j (by have := Finset.mem_range.mp hj; omega)]
      rw [hs]
      have hv : fsub unit a b M (i + 1) (b i) =
          (M (b i) - ∑ j ∈ Finset.range i, M (a i j) * fsub unit a b M i (b j)) / (if unit then 1 else M (a i i)) := by
        rw [fsub]
        rw [Function.update_self, hs2, hbi, ha i le_rfl]
      rw [hv]
      have hne : (if unit then 1 else M (a i i)) ≠ 0 := by
        cases unit
        · simpa using hz i (by omega) rfl
        · simp
      rw [mul_div_cancel₀ _ hne]; ring

omit [Field K] in
theorem putV_frame (b : Nat → ι) (x : Nat → K) (M : ι → K) (y : ι) : ∀ n, (∀ i, i < n → y ≠ b i) → putV b x M n y = M y
  | 0, _ => rfl
  | n + 1, h => by
    unfold putV
    rw [Function.update_of_ne (h n (by omega)), putV_frame b x M y n fun i hi => h i (by omega)]

omit [Field K] in
theorem putV_val (b : Nat → ι) (x : Nat → K) (M : ι → K) (N : Nat) (hb : Distinct N b) : ∀ n, n ≤ N → ∀ i, i < n → putV b x M n (b i) = x i := by
  intro n
  induction n with
  | zero => intro _ i hi; omega
  | succ n ih =>
    intro hn i hi
    unfold putV
    by_cases e : i = n
    · subst e; rw [Function.update_self]
    · rw [Function.update_of_ne fun h => e (hb i n (by omega) (by omega) h), ih (by omega) i (by omega)]

/-- The element `(i,j)` of the lower triangular matrix kept at the addresses `a`. -/
def lowEl (unit : Bool) (a : Nat → Nat → ι) (M : ι → K) (i j : Nat) : K :=
  if i = j then (if unit then 1 else M (a i i)) else if j < i then M (a i j) else 0

/-- The element `(i,j)` of the upper triangular matrix kept at the addresses `a`. -/
def upEl (unit : Bool) (a : Nat → Nat → ι) (M : ι → K) (i j : Nat) : K :=
  if i = j then (if unit then 1 else M (a i i)) else if i < j then M (a i j) else 0

omit [DecidableEq ι] in
theorem low_sum (unit : Bool) (a : Nat → Nat → ι) (M : ι → K) (x : Nat → K) (N i : Nat) (hi : i < N) :
    ∑ j ∈ Finset.range N, lowEl unit a M i j * x j = ∑ j ∈ Finset.range i, M (a i j) * x j + (if unit then 1 else M (a i i)) * x i := by
  obtain ⟨d, rfl⟩ : ∃ d, N = i + 1 + d := ⟨N - (i + 1), by omega⟩
  rw [Finset.sum_range_add, Finset.sum_range_succ]
  have h1 : ∑ k ∈ Finset.range d, lowEl unit a M i (i + 1 + k) * x (i + 1 + k) = 0 :=
    Finset.sum_eq_zero fun k _ => by unfold lowEl; rw [if_neg (by omega), if_neg (by omega), zero_mul]
  rw [h1, add_zero]
  congr 1
  · refine Finset.sum_congr rfl fun j hj => ?_
    have := Finset.mem_range.mp hj
    unfold lowEl; rw [if_neg (by omega), if_pos this]
  · unfold lowEl; rw [if_pos rfl]

theorem fsub_spec (unit : Bool) (a : Nat → Nat → ι) (b : Nat → ι) (M : ι → K) (N : Nat) (hb : Distinct N b)
    (hd : ∀ i j k, j ≤ i → i < N → k < N → a i j ≠ b k) (hz : ∀ i, i < N → unit = false → M (a i i) ≠ 0) (i : Nat) (hi : i < N) :
    ∑ j ∈ Finset.range N, lowEl unit a M i j * fsub unit a b M N (b j) = M (b i) := by
  rw [low_sum unit a M (fun j => fsub unit a b M N (b j)) N i hi]
  exact fsub_solve unit a b M N hb hd hz N le_rfl i hi

theorem bsub_frame (unit : Bool) (a : Nat → Nat → ι) (b : Nat → ι) (M : ι → K) (N : Nat) (x : ι) (h : ∀ i, i < N → x ≠ b i) :
    bsub unit a b N M x = M x :=
  fsub_frame _ _ _ M x N fun i hi => h _ (by omega)

theorem bsub_spec (unit : Bool) (a : Nat → Nat → ι) (b : Nat → ι) (M : ι → K) (N : Nat) (hb : Distinct N b)
    (hd : ∀ i j k, i ≤ j → j < N → k < N → a i j ≠ b k) (hz : ∀ i, i < N → unit = false → M (a i i) ≠ 0) (i : Nat) (hi : i < N) :
    ∑ j ∈ Finset.range N, upEl unit a M i j * bsub unit a b N M (b j) = M (b i) := by
  have h := fsub_spec unit (fun i j => a (N - 1 - i) (N - 1 - j)) (fun i => b (N - 1 - i)) M N
    (fun i j hi hj e => by have := hb _ _ (by omega) (by omega) e; omega)
    (fun i j k h1 h2 h3 => hd _ _ _ (by omega) (by omega) (by omega)) (fun i hi => hz _ (by omega)) (N - 1 - i) (by omega)
  have hii : N - 1 - (N - 1 - i) = i := by omega
  rw [hii] at h
  rw [← h, ← Finset.sum_range_reflect]
  refine Finset.sum_congr rfl fun j hj => ?_
  have hj' := Finset.mem_range.mp hj
  congr 1
  unfold upEl lowEl
  by_cases e : i = N - 1 - j
  · have e' : N - 1 - i = j := by omega
    rw [if_pos e, if_pos e']
    dsimp only
    rw [hii]
  · have e' : ¬ N - 1 - i = j := by omega
    rw [if_neg e, if_neg e']
    by_cases e2 : i < N - 1 - j
    · have e3 : j < N - 1 - i := by omega
      rw [if_pos e2, if_pos e3]
      dsimp only
      rw [hii]
    · have e3 : ¬ j < N - 1 - i := by omega
      rw [if_neg e2, if_neg e3]

/-- The stored elements of the lower triangle are at other addresses than the vector. -/
def ApartL (N : Nat) (a : Nat → Nat → ι) (b : Nat → ι) : Prop := ∀ i j k, j ≤ i → i < N → k < N → a i j ≠ b k

/-- The stored elements of the upper triangle are at other addresses than the vector. -/
def ApartU (N : Nat) (a : Nat → Nat → ι) (b : Nat → ι) : Prop := ∀ i j k, i ≤ j → j < N → k < N → a i j ≠ b k

/-- **C135, lower.**  `v2 = v1/L`: wherever `v1` is, and for a `v2` that is apart from `L` or begins where `L` does (the first row, the first column,
the diagonal), afterwards `L*v2 = v1` with `L` and `v1` as they were before, and nothing but `v2` has changed. -/
theorem lDivL_spec (unit : Bool) (a : Nat → Nat → ι) (b1 b2 : Nat → ι) (N : Nat) (M : ι → K) (hb : Distinct N b2)
    (hs : ApartL N a b2 ∨ a 0 0 = b2 0) (hz : ∀ i, i < N → unit = false → M (a i i) ≠ 0) :
    (∀ i, i < N → ∑ j ∈ Finset.range N, lowEl unit a M i j * lDivL unit a b1 b2 N M (b2 j) = M (b1 i)) ∧
    ∀ x, (∀ i, i < N → x ≠ b2 i) → lDivL unit a b1 b2 N M x = M x := by
  unfold lDivL
  by_cases h0 : a 0 0 = b2 0
  · rw [if_pos h0]
    refine ⟨fun i hi => ?_, fun x hx => putV_frame _ _ M x N hx⟩
    have h := fsub_spec unit (fun i j => (Sum.inl (a i j) : ι ⊕ Nat)) Sum.inr (Sum.elim M fun i => M (b1 i)) N
      (fun i j _ _ e => Sum.inr.inj e) (fun i j k _ _ _ => by simp) (fun i hi hu => hz i hi hu) i hi
    rw [show M (b1 i) = Sum.elim M (fun i => M (b1 i)) (Sum.inr i : ι ⊕ Nat) from rfl, ← h]
    refine Finset.sum_congr rfl fun j hj => ?_
    rw [putV_val b2 _ M N hb N le_rfl j (Finset.mem_range.mp hj)]
    rfl
  · rw [if_neg h0]
    have hap : ApartL N a b2 := hs.resolve_right h0
    have hM : ∀ i j, j ≤ i → i < N → putV b2 (fun i => M (b1 i)) M N (a i j) = M (a i j) := fun i j hj hi =>
      putV_frame _ _ M _ N fun k hk => hap i j k hj hi hk
    refine ⟨fun i hi => ?_, fun x hx => ?_⟩
    · have h := fsub_spec unit a b2 (putV b2 (fun i => M (b1 i)) M N) N hb hap (fun i hi hu => by rw [hM i i le_rfl hi]; exact hz i hi hu) i hi
      rw [putV_val b2 _ M N hb N le_rfl i hi] at h
      rw [← h]
      refine Finset.sum_congr rfl fun j hj => ?_
      congr 1
      unfold lowEl
      rw [hM i i le_rfl hi]
      by_cases hji : j < i
      · rw [hM i j hji.le hi]
      · simp [hji]
    · rw [fsub_frame _ _ _ _ x N hx, putV_frame _ _ M x N hx]

/-- **C135, upper.**  `v2 = v1/U`: wherever `v1` is, and for a `v2` that is apart from `U`, or begins where `U` does *and so does `v1`*, afterwards
`U*v2 = v1` with `U` and `v1` as they were before, and nothing but `v2` has changed.  Missing, because the code is wrong there: a `v2` that begins
where `U` does while `v1` does not (`lDivU_diag_wrong`). -/
theorem lDivU_spec_partial (unit : Bool) (a : Nat → Nat → ι) (b1 b2 : Nat → ι) (N : Nat) (M : ι → K) (hb : Distinct N b2)
    (hs : ApartU N a b2 ∨ (a 0 0 = b2 0 ∧ a 0 0 = b1 0)) (hz : ∀ i, i < N → unit = false → M (a i i) ≠ 0) :
    (∀ i, i < N → ∑ j ∈ Finset.range N, upEl unit a M i j * lDivU unit a b1 b2 N M (b2 j) = M (b1 i)) ∧
    ∀ x, (∀ i, i < N → x ≠ b2 i) → lDivU unit a b1 b2 N M x = M x := by
  unfold lDivU
  by_cases h0 : a 0 0 = b1 0
  · rw [if_pos h0]
    refine ⟨fun i hi => ?_, fun x hx => putV_frame _ _ M x N hx⟩
    have h := bsub_spec unit (fun i j => (Sum.inl (a i j) : ι ⊕ Nat)) Sum.inr (Sum.elim M fun i => M (b1 i)) N
      (fun i j _ _ e => Sum.inr.inj e) (fun i j k _ _ _ => by simp) (fun i hi hu => hz i hi hu) i hi
    rw [show M (b1 i) = Sum.elim M (fun i => M (b1 i)) (Sum.inr i : ι ⊕ Nat) from rfl, ← h]
    refine Finset.sum_congr rfl fun j hj => ?_
    rw [putV_val b2 _ M N hb N le_rfl j (Finset.mem_range.mp hj)]
    rfl
  · rw [if_neg h0]
    have hap : ApartU N a b2 := hs.resolve_right fun e => h0 e.2
    have hM : ∀ i j, i ≤ j → j < N → putV b2 (fun i => M (b1 i)) M N (a i j) = M (a i j) := fun i j hj hi =>
      putV_frame _ _ M _ N fun k hk => hap i j k hj hi hk
    refine ⟨fun i hi => ?_, fun x hx => ?_⟩
    · have h := bsub_spec unit a b2 (putV b2 (fun i => M (b1 i)) M N) N hb hap (fun i hi hu => by rw [hM i i le_rfl hi]; exact hz i hi hu) i hi
      rw [putV_val b2 _ M N hb N le_rfl i hi] at h
      rw [← h]
      refine Finset.sum_congr rfl fun j hj => ?_
      congr 1
      unfold upEl
      rw [hM i i le_rfl hi]
      by_cases hji : i < j
      · rw [hM i j hji.le (Finset.mem_range.mp hj)]
      · simp [hji]
    · rw [bsub_frame _ _ _ _ N x hx, putV_frame _ _ M x N hx]

/-- **C135, violated.**  `U.diag() = v1/U` for a `v1` apart from `U`, any size and any numbers: the last element becomes `v1(N-1)/v1(N-1)`, i.e. 1 (or
`0/0`), instead of `v1(N-1)/U(N-1,N-1)`. -/
theorem lDivU_diag_wrong (a : Nat → Nat → ι) (b1 b2 : Nat → ι) (n : Nat) (M : ι → K) (hb : Distinct (n + 1) b2)
    (hdiag : ∀ i, i < n + 1 → b2 i = a i i) (h1 : a 0 0 ≠ b1 0) :
    lDivU false a b1 b2 (n + 1) M (b2 n) = M (b1 n) / M (b1 n) := by
  unfold lDivU
  rw [if_neg h1]
  set P := putV b2 (fun i => M (b1 i)) M (n + 1) with hP
  have hv : P (b2 n) = M (b1 n) := putV_val b2 _ M (n + 1) hb (n + 1) le_rfl n (by omega)
  have key : ∀ m, m ≤ n → fsub false (fun i j => a (n + 1 - 1 - i) (n + 1 - 1 - j)) (fun i => b2 (n + 1 - 1 - i)) P (m + 1) (b2 n) =
      M (b1 n) / M (b1 n) := by
    intro m
    induction m with
    | zero =>
      intro _
      simp only [fsub, Nat.add_sub_cancel, Nat.sub_zero, Finset.range_zero, Finset.sum_empty, sub_zero, Bool.false_eq_true, if_false,
        Function.update_self]
      rw [← hdiag n (by omega), hv]
    | succ m ih =>
      intro hm
      rw [fsub]
      rw [Function.update_of_ne fun e => by have := hb _ _ (by omega) (by omega) e; omega]
      exact ih (by omega)
  exact key n le_rfl

/-! ### Cases that meet the hypotheses -/

/-- A 2 by 2 matrix in the addresses 0 to 3, stored by rows; `v1` in 10, 11. -/
example : lDivU (K := ℚ) false (fun i j => 2 * i + j) (fun i => 10 + i) (fun i => 3 * i) 2 (fun x => x + 2) 3 = 1 := by
  have h := lDivU_diag_wrong (K := ℚ) (fun i j => 2 * i + j) (fun i => 10 + i) (fun i => 3 * i) 1 (fun x => x + 2)
    (fun i j _ _ e => by dsimp only at e; omega) (fun i _ => by omega) (by norm_num)
  simp only [Nat.mul_one] at h
  rw [h]; norm_num

/-- The quotient that was asked for is `13/5`: `L.diag() = v1/L` with the same numbers gets its last element right. -/
example : ∑ j ∈ Finset.range 2, lowEl (K := ℚ) false (fun i j => 2 * i + j) (fun x => x + 2) 1 j *
    lDivL false (fun i j => 2 * i + j) (fun i => 10 + i) (fun i => 3 * i) 2 (fun x : Nat => (x : ℚ) + 2) (3 * j) = 13 := by
  have h := (lDivL_spec (K := ℚ) false (fun i j => 2 * i + j) (fun i => 10 + i) (fun i => 3 * i) 2 (fun x => x + 2)
    (fun i j _ _ e => by dsimp only at e; omega) (Or.inr (by norm_num)) (fun i _ _ => by positivity)).1 1 (by norm_num)
  rw [h]; norm_num

/-- `v2` apart from `U`, `v1` the first row of `U`. -/
example : ∑ j ∈ Finset.range 2, upEl (K := ℚ) false (fun i j => 2 * i + j) (fun x => x + 2) 1 j *
    lDivU false (fun i j => 2 * i + j) (fun i => i) (fun i => 20 + i) 2 (fun x : Nat => (x : ℚ) + 2) (20 + j) = 3 := by
  have h := (lDivU_spec_partial (K := ℚ) false (fun i j => 2 * i + j) (fun i => i) (fun i => 20 + i) 2 (fun x => x + 2)
    (fun i j _ _ e => by dsimp only at e; omega) (Or.inl fun i j k _ _ _ => by dsimp only; omega) (fun i _ _ => by positivity)).1 1 (by norm_num)
  rw [h]; norm_num

end TMV.TriDivAlias
