import Verif.Props.SymTwo

/-! C68: reductions of symmetric matrices, and conversion to a full matrix (C67). -/
namespace TMV
variable {K : Type _}

theorem sum_sym_aux {β : Type _} [AddCommMonoid β] (F : Nat → Nat → β) (n : Nat) :
    ∑ i ∈ Finset.range n, ∑ j ∈ Finset.range n, F i j =
    (∑ k ∈ Finset.range n, F k k) +
      ∑ i ∈ Finset.range n, ∑ j ∈ Finset.range n, if i < j then F i j + F j i else 0 := by
  induction n with
  | zero => simp
  | succ n ih =>
    have e1 : ∀ i, ∑ j ∈ Finset.range (n+1), F i j = (∑ j ∈ Finset.range n, F i j) + F i n := fun i =>
      Finset.sum_range_succ _ _
    rw [Finset.sum_range_succ, Finset.sum_congr rfl (fun i _ => e1 i), Finset.sum_add_distrib, ih, e1 n,
      Finset.sum_range_succ]
    rw [Finset.sum_range_succ (fun i => ∑ j ∈ Finset.range (n+1), if i < j then F i j + F j i else 0)]
    have e2 : ∑ j ∈ Finset.range (n+1), (if n < j then F n j + F j n else 0) = 0 := by
      apply Finset.sum_eq_zero
      intro j hj
      rw [if_neg (by simp at hj; omega)]
    have e3 : ∑ i ∈ Finset.range n, ∑ j ∈ Finset.range (n+1), (if i < j then F i j + F j i else 0) =
        (∑ i ∈ Finset.range n, ∑ j ∈ Finset.range n, if i < j then F i j + F j i else 0) +
          ((∑ i ∈ Finset.range n, F i n) + ∑ i ∈ Finset.range n, F n i) := by
      rw [← Finset.sum_add_distrib, ← Finset.sum_add_distrib]
      apply Finset.sum_congr rfl
      intro i hi
      rw [Finset.sum_range_succ, if_pos (by simpa using hi)]
    rw [e2, e3]
    abel

theorem sum_shift_aux {β : Type _} [AddCommMonoid β] (G : Nat → Nat → β) (n : Nat) :
    ∑ i ∈ Finset.range (n+1), ∑ j ∈ Finset.range (n+1), (if i < j then G i j else 0) =
    ∑ i ∈ Finset.range n, ∑ j ∈ Finset.range n, if i ≤ j then G i (j+1) else 0 := by
  have e1 : ∀ i, ∑ j ∈ Finset.range (n+1), (if i < j then G i j else 0) =
      ∑ j ∈ Finset.range n, if i ≤ j then G i (j+1) else 0 := by
    intro i
    rw [Finset.sum_range_succ', if_neg (by omega), add_zero]
    apply Finset.sum_congr rfl
    intro j _
    by_cases h : i ≤ j
    · rw [if_pos (by omega), if_pos h]
    · rw [if_neg (by omega), if_neg h]
  rw [Finset.sum_congr rfl (fun i _ => e1 i), Finset.sum_range_succ]
  have : ∑ j ∈ Finset.range n, (if n ≤ j then G n (j+1) else 0) = 0 := by
    apply Finset.sum_eq_zero
    intro j hj
    rw [if_neg (by simp at hj; omega)]
  rw [this, add_zero]

/-- Sum of all elements = diagonal + both triangles. -/
theorem sum_sym {β : Type _} [AddCommMonoid β] (F : Nat → Nat → β) (n : Nat) :
    ∑ i ∈ Finset.range n, ∑ j ∈ Finset.range n, F i j =
    (∑ k ∈ Finset.range n, F k k) +
      ∑ i ∈ Finset.range (n-1), ∑ j ∈ Finset.range (n-1), if i ≤ j then F i (j+1) + F (j+1) i else 0 := by
  rw [sum_sym_aux]
  cases n with
  | zero => simp
  | succ n => rw [sum_shift_aux (fun i j => F i j + F j i)]; rfl

theorem sym_diag_holds [InvolutiveStar K] {M : SView} {m : Mem K} {z : Nat → Nat → K} (hz : M.Holds m z)
    (hH : M.HermOK m) : M.diag.Holds m (fun k => z k k) := by
  intro k hk
  rw [(sym_diag M).2.cref m hH k hk]
  exact hz k k hk hk

theorem sym_off_holds [CommRing K] [StarRing K] {M : SView} {m : Mem K} {z : Nat → Nat → K} (hz : M.Holds m z)
    (hH : M.HermOK m) :
    ((M.upperTri false).offDiag 1).n = M.n - 1 ∧
    ((M.upperTri false).offDiag 1).Holds m (fun i j => if i ≤ j then z i (j+1) else 0) := by
  have hn : ((M.upperTri false).offDiag 1).n = M.n - 1 := by
    simp only [TView.offDiag, sym_upperTri_n]; omega
  refine ⟨hn, ?_⟩
  intro i j hi hj
  rw [hn] at hi hj
  show _ = some (if i ≤ j then z i (j+1) else 0)
  by_cases h : i ≤ j
  · rw [if_pos h, ← hz.tri hH i (j+1) (by omega) (by omega)]
    rw [tri_cref_mid _ m i j (by show (i : Int) + ub false ≤ j; rw [ub_false]; omega),
      tri_cref_mid _ m i ((j+1 : Nat) : Int) (by rw [sym_upperTri_unit, ub_false]; omega), tri_offDiag_addr]
    rfl
  · rw [if_neg h]; exact tri_cref_zero _ m i j (by omega)

/-- **C68** `m.sumElements()`: the sum of all `n²` elements.  `re2 t` is `2*real(t) = t + conj(t)`. -/
theorem sym_sumElements_spec [CommRing K] [StarRing K] (re2 : K → K) (hre : ∀ t, re2 t = t + star t)
    (M : SView) (hW : M.WF) (m : Mem K) (hH : M.HermOK m) (z : Nat → Nat → K) (hz : M.Holds m z) :
    M.sumElements re2 m = some (∑ i ∈ Finset.range M.n, ∑ j ∈ Finset.range M.n, z i j) := by
  have hs := sym_holds_symOf hz hH
  unfold SView.sumElements
  rw [sumElements_spec_partial M.diag m _ (sym_diag_holds hz hH) (Or.inl hW.2.2) (Or.inl hW.2.2)]
  simp only [Option.bind_eq_bind, Option.bind_some]
  rw [sum_sym]
  by_cases hn : M.n > 1
  · rw [if_pos hn]
    obtain ⟨on, oh⟩ := sym_off_holds hz hH
    rw [tri_sumElements_spec _ (tri_offDiag_wf hW.upperTri) m _ oh, on]
    simp only [Option.bind_some]
    have key : ∀ (s t : K), (if M.herm = true then some (s + re2 t) else some (s + 2 * t)) =
        some (s + (t + cj M.herm t)) := by
      intro s t
      cases M.herm
      · rw [if_neg (by simp), two_mul]; rfl
      · rw [if_pos rfl, hre]; rfl
    have key' : ∀ (s t : K), (if M.herm = true then s + re2 t else s + 2 * t) =
        (s + (t + cj M.herm t)) := by
      intro s t
      cases M.herm
      · rw [if_neg (by simp), two_mul]; rfl
      · rw [if_pos rfl, hre]; rfl
    simp only [key']
    congr 2
    have hadd : ∀ (f : Nat → K) (n : Nat), cj M.herm (∑ i ∈ Finset.range n, f i) =
        ∑ i ∈ Finset.range n, cj M.herm (f i) := by
      intro f n
      cases M.herm
      · rfl
      · exact star_sum _ _
    rw [hadd, ← Finset.sum_add_distrib]
    apply Finset.sum_congr rfl
    intro i hi
    rw [hadd, ← Finset.sum_add_distrib]
    apply Finset.sum_congr rfl
    intro j hj
    simp only [Finset.mem_range] at hi hj
    by_cases hij : i ≤ j
    · simp only [if_pos hij]
      rw [hs (j+1) i (by omega) (by omega)]; rfl
    · simp only [if_neg hij]
      cases M.herm <;> simp [cj]
  · rw [if_neg hn]
    have : M.n - 1 = 0 := by omega
    rw [this]; simp [SView.diag]

/-- Sum of a function of the elements that does not see conjugation. -/
theorem sym_sum_abs [CommRing K] [StarRing K] {R : Type _} [CommRing R] (ab : K → R)
    (hab : ∀ y, ab (star y) = ab y) (h0 : ab 0 = 0) {herm : Bool} {n : Nat} {z : Nat → Nat → K}
    (hs : SymOf herm n z) :
    ∑ i ∈ Finset.range n, ∑ j ∈ Finset.range n, ab (z i j) = (∑ k ∈ Finset.range n, ab (z k k)) +
      2 * ∑ i ∈ Finset.range (n-1), ∑ j ∈ Finset.range (n-1), ab (if i ≤ j then z i (j+1) else 0) := by
  rw [sum_sym]
  congr 1
  rw [Finset.mul_sum]
  apply Finset.sum_congr rfl
  intro i hi
  rw [Finset.mul_sum]
  apply Finset.sum_congr rfl
  intro j hj
  simp only [Finset.mem_range] at hi hj
  by_cases hij : i ≤ j
  · rw [if_pos hij, if_pos hij, hs (j+1) i (by omega) (by omega)]
    cases herm
    · simp; ring
    · simp [hab]; ring
  · rw [if_neg hij, if_neg hij, h0]; simp

/-- **C68** `m.sumAbsElements()`, `m.sumAbs2Elements()`. -/
theorem sym_sumAbs_spec {R : Type _} [CommRing R] [CommRing K] [StarRing K] (ab : K → R)
    (hab : ∀ y, ab (star y) = ab y) (h0 : ab 0 = 0) (h1 : ab 1 = 1) (M : SView) (hW : M.WF) (m : Mem K)
    (hH : M.HermOK m) (z : Nat → Nat → K) (hz : M.Holds m z) :
    M.sumAbs ab m = some (∑ i ∈ Finset.range M.n, ∑ j ∈ Finset.range M.n, ab (z i j)) := by
  unfold SView.sumAbs
  rw [sumAbs_spec ab hab M.diag m _ (sym_diag_holds hz hH) (Or.inl hW.2.2), sym_sum_abs ab hab h0 (sym_holds_symOf hz hH)]
  simp only [Option.bind_eq_bind, Option.bind_some]
  by_cases hn : M.n > 1
  · rw [if_pos hn]
    obtain ⟨on, oh⟩ := sym_off_holds hz hH
    rw [tri_sumAbs_spec ab hab h0 h1 _ (tri_offDiag_wf hW.upperTri) m _ oh, on]
    rfl
  · rw [if_neg hn]
    have : M.n - 1 = 0 := by omega
    rw [this]; simp [SView.diag]

/-- **C68** `m.normSq(scale)`. -/
theorem sym_normSq_spec {R : Type _} [CommRing R] [DecidableEq R] [CommRing K] [StarRing K]
    (nrm : K → R) (scal : R → K → K) (hn : ∀ y, nrm (star y) = nrm y) (h0 : nrm 0 = 0) (h1 : nrm 1 = 1)
    (hsc : ∀ c y, nrm (scal c y) = c ^ 2 * nrm y) (scale : R) (M : SView) (hW : M.WF) (m : Mem K)
    (hH : M.HermOK m) (z : Nat → Nat → K) (hz : M.Holds m z) :
    M.normSq nrm scal scale m =
      some (∑ i ∈ Finset.range M.n, ∑ j ∈ Finset.range M.n, scale ^ 2 * nrm (z i j)) := by
  unfold SView.normSq
  rw [normSq_spec nrm scal hn hsc scale M.diag m _ (sym_diag_holds hz hH) (Or.inl hW.2.2),
    sym_sum_abs (fun y => scale ^ 2 * nrm y) (fun y => by rw [hn]) (by simp [h0]) (sym_holds_symOf hz hH)]
  simp only [Option.bind_eq_bind, Option.bind_some]
  by_cases hn1 : M.n > 1
  · rw [if_pos hn1]
    obtain ⟨on, oh⟩ := sym_off_holds hz hH
    rw [tri_normSq_spec nrm scal hn h0 h1 hsc scale _ (tri_offDiag_wf hW.upperTri) m _ oh, on]
    rfl
  · rw [if_neg hn1]
    have : M.n - 1 = 0 := by omega
    rw [this]; simp [SView.diag]

/-- **C68** `m.maxAbsElement()`, `m.maxAbs2Element()`: the largest absolute value in the whole matrix. -/
theorem sym_maxAbs_spec {R : Type _} [LinearOrder R] [CommRing R] [CommRing K] [StarRing K]
    (ab : K → R) (hab : ∀ y, ab (star y) = ab y) (hpos : ∀ y, 0 ≤ ab y) (h0 : ab 0 = 0) (h1 : ab 1 = 1)
    (M : SView) (hW : M.WF) (m : Mem K) (hH : M.HermOK m) (z : Nat → Nat → K) (hz : M.Holds m z)
    (hn : 0 < M.n) :
    ∃ r, M.maxAbs ab m = some r ∧ (∀ i j, i < M.n → j < M.n → ab (z i j) ≤ r) ∧
      (∃ i j, i < M.n ∧ j < M.n ∧ r = ab (z i j)) := by
  obtain ⟨r, e, h2, i, j, hi, hj, h3⟩ := tri_maxAbs_spec_partial ab hab hpos h0 h1 (M.upperTri false) hW.upperTri m _
    (hz.triH hH) (by rw [sym_upperTri_n]; exact hn)
  rw [sym_upperTri_n] at h2 hi hj
  have hs := sym_holds_symOf hz hH
  have up : ∀ i j, i ≤ j → i < M.n → j < M.n → ab (z i j) ≤ r := by
    intro i j hij hi hj
    have := h2 i j hi hj
    rwa [if_pos hij] at this
  refine ⟨r, e, ?_, ?_⟩
  · intro i j hi hj
    by_cases hij : i ≤ j
    · exact up i j hij hi hj
    · have := up j i (by omega) hj hi
      rw [hs i j hi hj]
      cases M.herm
      · simpa using this
      · simpa [hab] using this
  · by_cases hij : i ≤ j
    · rw [if_pos hij] at h3; exact ⟨i, j, hi, hj, h3⟩
    · rw [if_neg hij, h0] at h3
      have := up i i le_rfl hi hi
      rw [h3] at this
      exact ⟨i, i, hi, hi, by rw [h3]; exact le_antisymm (hpos _) this⟩

/-- **C68** `m.norm1()`, `m.normInf()`: the largest absolute column (= row) sum. -/
theorem sym_norm1_spec {R : Type _} [LinearOrder R] [CommRing R] [CommRing K] [StarRing K]
    (ab : K → R) (hab : ∀ y, ab (star y) = ab y)
    (M : SView) (hW : M.WF) (m : Mem K) (hH : M.HermOK m) (z : Nat → Nat → K) (hz : M.Holds m z) :
    ∃ r, M.norm1 ab m = some r ∧ 0 ≤ r ∧
      (∀ j, j < M.n → ∑ i ∈ Finset.range M.n, ab (z i j) ≤ r) ∧
      (r = 0 ∨ ∃ j, j < M.n ∧ r = ∑ i ∈ Finset.range M.n, ab (z i j)) := by
  have colsum : ∀ j : Nat, j < M.n → ∃ a b, (M.col3 j 0 j).sumAbs ab m = some a ∧
      (M.col3 j j M.n).sumAbs ab m = some b ∧ a + b = ∑ i ∈ Finset.range M.n, ab (z i j) := by
    intro j hj
    have hs := hW.2.1.resolve_left (by omega)
    have wf : ∀ a b : Int, (M.col3 j a b).WF := by
      intro a b; left; unfold SView.col3; split
      · exact hs.1
      · exact hs.2
    obtain ⟨s1, v1⟩ := sym_col3 M j 0 j (by omega) (by omega) le_rfl (by omega) (by omega) (by omega)
    obtain ⟨s2, v2⟩ := sym_col3 M j j M.n (by omega) (by omega) (by omega) (by omega) le_rfl (by omega)
    refine ⟨_, _, sumAbs_spec ab hab _ m (fun k => z k j) ?_ (wf _ _),
      sumAbs_spec ab hab _ m (fun k => z (j + k) j) ?_ (wf _ _), ?_⟩
    · intro k hk
      rw [v1.cref m hH k hk]
      have := hz k j (by omega) hj
      simpa using this
    · intro k hk
      rw [v2.cref m hH k hk]
      have := hz (j + k) j (by omega) hj
      simpa using this
    · have e1 : (M.col3 j 0 j).size = j := by omega
      have e2 : (M.col3 j j M.n).size = M.n - j := by omega
      rw [e1, e2, ← Finset.sum_range_add (fun i => ab (z i j)) j (M.n - j)]
      congr 2; omega
  have loop : ∀ (k j : Nat) (mx : R), j + k ≤ M.n →
      SView.norm1Loop ab M m k j mx = some ((List.range' j k).foldl
        (fun c i => if ∑ l ∈ Finset.range M.n, ab (z l i) > c then ∑ l ∈ Finset.range M.n, ab (z l i) else c) mx) := by
    intro k
    induction k with
    | zero => intro j mx _; rfl
    | succ k ih =>
      intro j mx hjk
      obtain ⟨a, b, ea, eb, es⟩ := colsum j (by omega)
      simp only [SView.norm1Loop, ea, eb, Option.bind_eq_bind, Option.bind_some, es, List.range'_succ,
        List.foldl_cons]
      exact ih (j+1) _ (by omega)
  unfold SView.norm1
  rw [loop M.n 0 0 (by omega)]
  obtain ⟨g1, g2, g3⟩ := foldl_max_spec (fun j => ∑ i ∈ Finset.range M.n, ab (z i j)) M.n 0 (0 : R)
  refine ⟨_, rfl, g1, fun j hj => g2 j (by omega) (by omega), ?_⟩
  rcases g3 with g3 | ⟨k, _, hb, hc⟩
  · exact Or.inl g3
  · exact Or.inr ⟨k, by omega, hc⟩

end TMV
