import Verif.Model.SmallProd
import Verif.Props.SmallFlat

/-! Lemmas for C116-C119: what the loops of `SmallProd` leave in an array. -/
namespace TMV.SmallProd
noncomputable section
open TMV.SmallDiv Finset

variable {K : Type} [RCLike K]

/-- A loop that changes each of the elements `f 0, f 1, ...` once. -/
theorem up_mod (f : Nat → Nat) (g : Nat → K → K) (n : Nat) (hf : ∀ i j, i < n → j < n → f i = f j → i = j) (w : Nat → K) :
    (∀ i, i < n → up (fun i w => Function.update w (f i) (g i (w (f i)))) n 0 w (f i) = g i (w (f i))) ∧
    (∀ k, (∀ i, i < n → k ≠ f i) → up (fun i w => Function.update w (f i) (g i (w (f i)))) n 0 w k = w k) := by
  have := up_inv (fun i w => Function.update w (f i) (g i (w (f i)))) (fun m s => m ≤ n ∧ (∀ i, i < m → s (f i) = g i (w (f i))) ∧
    (∀ k, (∀ i, i < m → k ≠ f i) → s k = w k)) n 0 w ⟨by omega, by intro i hi; omega, by intro k _; rfl⟩ (by
    rintro i s _ hi ⟨h0, h1, h2⟩
    refine ⟨by omega, fun i' hi' => ?_, fun k hk => ?_⟩
    · by_cases he : i' = i
      · subst he
        rw [Function.update_self, h2 _ (fun j hj h => by have := hf _ _ (by omega) (by omega) h; omega)]
      · rw [Function.update_of_ne (fun h => he (hf _ _ (by omega) (by omega) h)), h1 _ (by omega)]
    · rw [Function.update_of_ne (hk i (by omega)), h2 k (fun j hj => hk j (by omega))])
  rw [Nat.zero_add] at this
  exact this.2

/-- The same for a loop over the first `n` elements. -/
theorem up_mod1 (g : Nat → K → K) (n : Nat) (w : Nat → K) :
    up (fun i w => Function.update w i (g i (w i))) n 0 w = fun k => if k < n then g k (w k) else w k := by
  obtain ⟨h1, h2⟩ := up_mod (fun i => i) g n (fun _ _ _ _ h => h) w
  funext k
  by_cases hk : k < n
  · rw [if_pos hk]; exact h1 k hk
  · rw [if_neg hk]; exact h2 k (fun i hi => by omega)

/-- A loop over rows and columns that changes each element of a matrix once. -/
theorem up_modM (s : Bool) (M N : Nat) (g : Nat → Nat → K → K) {c0 c : Nat → K} {C : Nat → Nat → K} (h : Rel s M N c0 c C) :
    Rel s M N c0 (up (fun i c => up (fun j c => Function.update c (idx s M N i j) (g i j (c (idx s M N i j)))) N 0 c) M 0 c)
      fun i j => g i j (C i j) := by
  have := up_inv (fun i c => up (fun j c => Function.update c (idx s M N i j) (g i j (c (idx s M N i j)))) N 0 c)
    (fun m c => m ≤ M ∧ Rel s M N c0 c fun i j => if i < m then g i j (C i j) else C i j) M 0 c ⟨by omega, h.congr fun i j _ _ => by simp⟩ (by
    rintro i c' _ hi ⟨_, hc⟩
    refine ⟨by omega, fun i' j' hi' hj' => ?_, fun k hk => ?_⟩
    · obtain ⟨h1, h2⟩ := up_mod (fun j => idx s M N i j) (fun j => g i j) N
        (fun j1 j2 h1 h2 h3 => ((idx_inj (by omega) h1 (by omega) h2).mp h3).2) c'
      by_cases he : i' = i
      · subst he
        rw [h1 j' hj', hc.1 _ _ hi' hj']
        dsimp only
        rw [if_neg (by omega), if_pos (by omega)]
      · rw [h2 _ (fun j hj h => he ((idx_inj hi' hj' (by omega) hj).mp h).1), hc.1 _ _ hi' hj']
        dsimp only
        by_cases h3 : i' < i
        · rw [if_pos h3, if_pos (by omega)]
        · rw [if_neg h3, if_neg (by omega)]
    · obtain ⟨_, h2⟩ := up_mod (fun j => idx s M N i j) (fun j => g i j) N
        (fun j1 j2 h1 h2 h3 => ((idx_inj (by omega) h1 (by omega) h2).mp h3).2) c'
      rw [h2 _ (fun j hj h => by have := idx_lt (rm := s) (i := i) (j := j) (by omega : i < M) hj; omega), hc.2 k hk])
  rw [Nat.zero_add] at this
  exact this.2.congr fun i j hi hj => by rw [if_pos hi]

theorem multVVacc_eq (n : Nat) (r : K) (v : Nat → K) (o : Nat) (w : Nat → K) :
    multVVacc n r v o w = r + ∑ i ∈ range n, v (o+i) * w i := by
  unfold multVVacc
  have := up_inv (fun i r => r + v (o+i) * w i) (fun m s => s = r + ∑ i ∈ range m, v (o+i) * w i) n 0 r (by simp) (by
    intro i s _ _ hs
    rw [hs, sum_range_succ, add_assoc])
  rwa [Nat.zero_add] at this

theorem inner_eq (M N L : Nat) (sa sb : Bool) (A B : Nat → K) (i j : Nat) :
    inner M N L sa sb A B i j = ∑ k ∈ range L, A (idx sa M L i k) * B (idx sb L N k j) := by
  unfold inner
  have := up_inv (fun k c => c + A (idx sa M L i k) * B (idx sb L N k j)) (fun m s => s = ∑ k ∈ range m, A (idx sa M L i k) * B (idx sb L N k j))
    L 0 0 (by simp) (by
    intro i s _ _ hs
    rw [hs, sum_range_succ])
  rwa [Nat.zero_add] at this

theorem zero_eq (n : Nat) (y : Nat → K) : zero n y = fun k => if k < n then 0 else y k := up_mod1 (fun _ _ => 0) n y

theorem addVV_eq (n : Nat) (x : K) (v : Nat → K) (o1 : Nat) (w : Nat → K) (o2 : Nat) :
    addVV n x v o1 w o2 = fun k => if o2 ≤ k ∧ k < o2 + n then w k + x * v (o1 + (k-o2)) else w k := by
  obtain ⟨h1, h2⟩ := up_mod (fun i => o2+i) (fun i o => o + x * v (o1+i)) n (fun _ _ _ _ h => by omega) w
  funext k
  by_cases hk : o2 ≤ k ∧ k < o2 + n
  · rw [if_pos hk]
    have := h1 (k-o2) (by omega)
    rw [show o2 + (k-o2) = k by omega] at this
    exact this
  · rw [if_neg hk]; exact h2 k (fun i hi => by omega)

theorem multXV2_eq (n : Nat) (x : K) (v : Nat → K) (o : Nat) (w : Nat → K) :
    multXV2 n x v o w = fun k => if o ≤ k ∧ k < o + n then x * v (k-o) else w k := by
  obtain ⟨h1, h2⟩ := up_mod (fun i => o+i) (fun i _ => x * v i) n (fun _ _ _ _ h => by omega) w
  funext k
  by_cases hk : o ≤ k ∧ k < o + n
  · rw [if_pos hk]
    have := h1 (k-o) (by omega)
    rw [show o + (k-o) = k by omega] at this
    exact this
  · rw [if_neg hk]; exact h2 k (fun i hi => by omega)

/-- Accumulating multiples of arrays into `y`. -/
theorem up_addVV (M N : Nat) (f : Nat → K) (A : Nat → K) (o : Nat → Nat) (y : Nat → K) :
    up (fun j y => addVV M (f j) A (o j) y 0) N 0 y = fun k => if k < M then y k + ∑ j ∈ range N, f j * A (o j + k) else y k := by
  have := up_inv (fun j y => addVV M (f j) A (o j) y 0) (fun m s => s = fun k => if k < M then y k + ∑ j ∈ range m, f j * A (o j + k) else y k)
    N 0 y (by funext k; simp) (by
    intro j s _ _ hs
    rw [addVV_eq, hs]
    funext k
    dsimp only
    by_cases hk : k < M
    · rw [if_pos ⟨by omega, by omega⟩, if_pos hk, if_pos hk, sum_range_succ, add_assoc, Nat.sub_zero]
    · rw [if_neg (by omega), if_neg hk, if_neg hk])
  rwa [Nat.zero_add] at this

/-- `C.col(j) += x*v`. -/
theorem addCol_rel {M N : Nat} {c0 c : Nat → K} {C : Nat → Nat → K} (h : Rel false M N c0 c C) {j : Nat} (hj : j < N) (x : K) (v : Nat → K) (o : Nat) :
    Rel false M N c0 (addVV M x v o c (j*M)) fun a b => if b = j then C a b + x * v (o+a) else C a b := by
  rw [addVV_eq]
  refine ⟨fun a b ha hb => ?_, fun k hk => ?_⟩
  · have hi := h.1 a b ha hb
    simp only [idx, Bool.false_eq_true, if_false] at hi ⊢
    by_cases he : b = j
    · subst he
      rw [if_pos ⟨by omega, by omega⟩, if_pos rfl, hi, Nat.add_sub_cancel_left]
    · rw [if_neg he, if_neg, hi]
      rintro ⟨h1, h2⟩
      rcases Nat.lt_or_gt_of_ne he with h3 | h3
      · have h4 := Nat.mul_le_mul_right M (show b+1 ≤ j from h3)
        rw [Nat.succ_mul] at h4
        omega
      · have h4 := Nat.mul_le_mul_right M (show j+1 ≤ b from h3)
        rw [Nat.succ_mul] at h4
        omega
  · dsimp only
    rw [if_neg, h.2 k hk]
    rintro ⟨h1, h2⟩
    have h4 := Nat.mul_le_mul_right M (show j+1 ≤ N from hj)
    rw [Nat.succ_mul] at h4
    have h5 := Nat.mul_comm M N
    omega

/-- `C.row(i) += x*v`. -/
theorem addRow_rel {M N : Nat} {c0 c : Nat → K} {C : Nat → Nat → K} (h : Rel true M N c0 c C) {i : Nat} (hi : i < M) (x : K) (v : Nat → K) (o : Nat) :
    Rel true M N c0 (addVV N x v o c (i*N)) fun a b => if a = i then C a b + x * v (o+b) else C a b :=
  (addCol_rel h.tr hi x v o).tr

/-- `C.col(j) = x*v`. -/
theorem setCol_rel {M N : Nat} {c0 c : Nat → K} {C : Nat → Nat → K} (h : Rel false M N c0 c C) {j : Nat} (hj : j < N) (x : K) (v : Nat → K) :
    Rel false M N c0 (multXV2 M x v (j*M) c) fun a b => if b = j then x * v a else C a b := by
  rw [multXV2_eq]
  refine ⟨fun a b ha hb => ?_, fun k hk => ?_⟩
  · have hi := h.1 a b ha hb
    simp only [idx, Bool.false_eq_true, if_false] at hi ⊢
    by_cases he : b = j
    · subst he
      rw [if_pos ⟨by omega, by omega⟩, if_pos rfl, Nat.add_sub_cancel_left]
    · rw [if_neg he, if_neg, hi]
      rintro ⟨h1, h2⟩
      rcases Nat.lt_or_gt_of_ne he with h3 | h3
      · have h4 := Nat.mul_le_mul_right M (show b+1 ≤ j from h3)
        rw [Nat.succ_mul] at h4
        omega
      · have h4 := Nat.mul_le_mul_right M (show j+1 ≤ b from h3)
        rw [Nat.succ_mul] at h4
        omega
  · dsimp only
    rw [if_neg, h.2 k hk]
    rintro ⟨h1, h2⟩
    have h4 := Nat.mul_le_mul_right M (show j+1 ≤ N from hj)
    rw [Nat.succ_mul] at h4
    have h5 := Nat.mul_comm M N
    omega

/-- The loop over columns. -/
theorem cols_rel {s : Bool} {M N : Nat} {c0 c : Nat → K} {C D : Nat → Nat → K} {f : Nat → (Nat → K) → Nat → K} (h : Rel s M N c0 c C)
    (hf : ∀ j c C, j < N → Rel s M N c0 c C → Rel s M N c0 (f j c) fun a b => if b = j then D a b + C a b else C a b) :
    Rel s M N c0 (up f N 0 c) fun a b => D a b + C a b := by
  have := up_inv f (fun m c => m ≤ N ∧ Rel s M N c0 c fun a b => if b < m then D a b + C a b else C a b) N 0 c ⟨by omega, h.congr fun i j _ _ => by simp⟩ (by
    rintro j c' _ hj ⟨_, hc⟩
    refine ⟨by omega, (hf j c' _ (by omega) hc).congr fun a b _ _ => ?_⟩
    try dsimp only
    rcases Nat.lt_trichotomy b j with h3 | h3 | h3
    · rw [if_neg (by omega), if_pos h3, if_pos (by omega)]
    · rw [if_pos h3, if_neg (by omega), if_pos (by omega)]
    · rw [if_neg (by omega), if_neg (by omega), if_neg (by omega)])
  rw [Nat.zero_add] at this
  exact this.2.congr fun i j hi hj => by rw [if_pos hj]

/-- The loop over columns, for an assignment. -/
theorem colsSet_rel {s : Bool} {M N : Nat} {c0 c : Nat → K} {C D : Nat → Nat → K} {f : Nat → (Nat → K) → Nat → K} (h : Rel s M N c0 c C)
    (hf : ∀ j c C, j < N → Rel s M N c0 c C → Rel s M N c0 (f j c) fun a b => if b = j then D a b else C a b) :
    Rel s M N c0 (up f N 0 c) D := by
  have := up_inv f (fun m c => m ≤ N ∧ Rel s M N c0 c fun a b => if b < m then D a b else C a b) N 0 c ⟨by omega, h.congr fun i j _ _ => by simp⟩ (by
    rintro j c' _ hj ⟨_, hc⟩
    refine ⟨by omega, (hf j c' _ (by omega) hc).congr fun a b _ _ => ?_⟩
    try dsimp only
    rcases Nat.lt_trichotomy b j with h3 | h3 | h3
    · rw [if_neg (by omega), if_pos h3, if_pos (by omega)]
    · rw [if_pos h3, if_pos (by omega)]
    · rw [if_neg (by omega), if_neg (by omega), if_neg (by omega)])
  rw [Nat.zero_add] at this
  exact this.2.congr fun i j hi hj => by rw [if_pos hj]

theorem colLoops_rel {M N L : Nat} (sb : Bool) (f : K → K) (A B : Nat → K) {c0 c : Nat → K} {C : Nat → Nat → K} (h : Rel false M N c0 c C) :
    Rel false M N c0 (colLoops M N L sb f A B c) fun i j => (∑ k ∈ range L, f (B (idx sb L N k j)) * A (idx false M L i k)) + C i j := by
  unfold colLoops
  refine cols_rel h fun j c C hj hc => ?_
  have := up_inv (fun k C => addVV M (f (B (idx sb L N k j))) A (k*M) C (j*M)) (fun m c => Rel false M N c0 c fun a b =>
    if b = j then (∑ k ∈ range m, f (B (idx sb L N k b)) * A (idx false M L a k)) + C a b else C a b) L 0 c
    (hc.congr fun a b _ _ => by simp) (by
    intro k c' _ hk hc'
    refine (addCol_rel hc' hj _ A (k*M)).congr fun a b _ _ => ?_
    try dsimp only
    by_cases hb : b = j
    · subst hb
      rw [if_pos rfl, if_pos rfl, if_pos rfl, sum_range_succ]
      simp only [idx, Bool.false_eq_true, if_false]
      ring
    · rw [if_neg hb, if_neg hb, if_neg hb])
  rw [Nat.zero_add] at this
  exact this

theorem rowLoops_eq (M N L : Nat) (sa : Bool) (f : K → K) (A B C : Nat → K) : rowLoops M N L sa f A B C = colLoops N M L (!sa) f B A C := by
  unfold rowLoops colLoops
  simp only [idx_not]

theorem rowLoops_rel {M N L : Nat} (sa : Bool) (f : K → K) (A B : Nat → K) {c0 c : Nat → K} {C : Nat → Nat → K} (h : Rel true M N c0 c C) :
    Rel true M N c0 (rowLoops M N L sa f A B c) fun i j => (∑ k ∈ range L, f (A (idx sa M L i k)) * B (idx true L N k j)) + C i j := by
  rw [rowLoops_eq]
  refine (colLoops_rel (!sa) f B A h.tr).tr.congr fun i j _ _ => ?_
  simp only [idx_not]
  rfl

theorem zero_rel (s : Bool) (M N : Nat) (c : Nat → K) : Rel s M N c (zero (M*N) c) fun _ _ => 0 := by
  rw [zero_eq]
  exact ⟨fun i j hi hj => if_pos (idx_lt hi hj), fun k hk => if_neg (by omega)⟩

/-- The five products share this: `f` is what multiplies an element, `g` what stores the sum. -/
theorem prod_rel {M N L : Nat} (sa sb sc : Bool) (f : K → K) (A B : Nat → K) {c0 c : Nat → K} {C : Nat → Nat → K} (h : Rel sc M N c0 c C)
    (hf : ∀ x y, f (x*y) = f x * y) (g : K → K → K) (hfa : ∀ x y, f (x + y) = f x + f y) (hg : ∀ o x, g o x = f x + o) :
    Rel sc M N c0 (if !sa ∧ !sc then colLoops M N L sb f A B c else if sb ∧ sc then rowLoops M N L sa f A B c
      else innerLoops M N L sa sb sc g A B c) fun i j => f (∑ k ∈ range L, A (idx sa M L i k) * B (idx sb L N k j)) + C i j := by
  have hf0 : f 0 = 0 := by have := hf 0 0; simpa using this
  have hs : ∀ (t : Nat → K) n, f (∑ k ∈ range n, t k) = ∑ k ∈ range n, f (t k) := by
    intro t n
    induction n with
    | zero => simpa using hf0
    | succ n ih => rw [sum_range_succ, sum_range_succ, hfa, ih]
  by_cases h1 : !sa ∧ !sc
  · rw [if_pos h1]
    simp only [Bool.not_eq_true'] at h1
    obtain ⟨rfl, rfl⟩ := h1
    refine (colLoops_rel sb f A B h).congr fun i j _ _ => ?_
    rw [hs]
    congr 1
    refine sum_congr rfl fun k _ => ?_
    rw [← hf, mul_comm]
  · rw [if_neg h1]
    by_cases h2 : sb ∧ sc
    · rw [if_pos h2]
      obtain ⟨rfl, rfl⟩ := h2
      refine (rowLoops_rel sa f A B h).congr fun i j _ _ => ?_
      rw [hs]
      congr 1
      refine sum_congr rfl fun k _ => ?_
      rw [← hf]
    · rw [if_neg h2]
      unfold innerLoops
      refine (up_modM sc M N (fun i j o => g o (inner M N L sa sb A B i j)) h).congr fun i j _ _ => ?_
      rw [hg, inner_eq]

end
end TMV.SmallProd
