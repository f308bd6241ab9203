import Verif.Props.SVLoop
import Verif.Props.VecSort
import Verif.Props.LU
import Verif.Spec.SVal

/-! The singular value decomposition of a bidiagonal matrix. -/
namespace TMV.SVQR
open Matrix
variable {K : Type} [RCLike K]
variable {c : Cfg} {M N : Nat}

theorem sortPerm_spec {srt : List (ℝ × Nat) → List (ℝ × Nat)} (hsrt : StdSortContract (fun a b => decide (a.1 < b.1)) srt) (N : Nat) (D : Nat → ℝ) :
    (∀ k, k < N → k ≤ sortPerm srt N D k ∧ sortPerm srt N D k < N) ∧
    (∀ i j, i < j → j < N → D (swapProd (sortPerm srt N D) N 0 j) ≤ D (swapProd (sortPerm srt N D) N 0 i)) := by
  rw [sortPerm]
  set l := (List.range N).map (fun k => (-D k, k)) with hl
  obtain ⟨hperm, hpair⟩ := hsrt l
  set s := srt l with hs
  set idx := s.map Prod.snd with hidx
  have hidxp : idx.Perm (List.range N) := by
    have := hperm.map Prod.snd
    rw [hl, List.map_map] at this
    simpa [hidx, Function.comp_def] using this
  have hlen : idx.length = N := by rw [hidxp.length_eq]; simp
  have hslen : s.length = N := by rw [hperm.length_eq, hl]; simp
  have hnd : idx.Nodup := hidxp.nodup_iff.mpr List.nodup_range
  set f : Nat → Nat := fun i => idx.getD i 0 with hf
  have hfget : ∀ k (hk : k < N), f k = idx[k]'(by omega) := by
    intro k hk; simp [hf, List.getD_eq_getElem?_getD, List.getElem?_eq_getElem (show k < idx.length by omega)]
  have hflt : ∀ k, k < N → f k < N := by
    intro k hk
    rw [hfget k hk]
    have : idx[k]'(by omega) ∈ idx := List.getElem_mem _
    have := hidxp.mem_iff.mp this
    simpa using this
  have hfinj : ∀ k j, k < N → j < N → f k = f j → k = j := by
    intro k j hk hj h
    rw [hfget k hk, hfget j hj] at h
    exact (List.Nodup.getElem_inj_iff hnd).mp h
  obtain ⟨hP1, hP2⟩ := convertIndexToPermute_spec N f hflt hfinj
  refine ⟨hP1, fun i j hij hj => ?_⟩
  have hkey : ∀ k (hk : k < N), (s[k]'(by omega)) = (-D (f k), f k) := by
    intro k hk
    have hmem : s[k]'(by omega) ∈ s := List.getElem_mem _
    have := hperm.mem_iff.mp hmem
    rw [hl, List.mem_map] at this
    obtain ⟨j, _, hj⟩ := this
    have h2' : f k = (s[k]'(by omega)).2 := by
      rw [hfget k hk]; simp [hidx]
    rw [h2', ← hj]
  have hi : i < N := by omega
  have hlt := List.pairwise_iff_getElem.mp hpair i j (by omega) (by omega) hij
  rw [hkey i hi, hkey j hj] at hlt
  simp only [decide_eq_false_iff_not, not_lt] at hlt
  rw [hP2 i hi, hP2 j hj]
  linarith

/-- The interchanges as a permutation of the indices. -/
theorem perm_fin (P : Nat → Nat) (N : Nat) (hP : ∀ k, k < N → k ≤ P k ∧ P k < N) : ∃ σ : Equiv.Perm (Fin N), ∀ k : Fin N, (σ k : Nat) = swapProd P N 0 k := by
  have hlt : ∀ k, k < N → swapProd P N 0 k < N := fun k hk => TMV.swapProd_lt P N 0 N (by omega) (fun k _ h => (hP k (by omega)).2) k hk
  let g : Fin N → Fin N := fun k => ⟨swapProd P N 0 k, hlt k k.2⟩
  have hg : Function.Injective g := by
    intro a b hab
    simp only [g, Fin.mk.injEq] at hab
    exact Fin.ext ((swapProd P N 0).injective hab)
  exact ⟨Equiv.ofBijective g (Finite.injective_iff_bijective.mp hg), fun k => rfl⟩

theorem fro_smul {m n : Type} [Fintype m] [Fintype n] (x : ℝ) (F : Matrix m n K) : fro (((x : ℝ) : K) • F) = |x| * fro F := by
  rw [fro, fro, ← Real.sqrt_sq_eq_abs, ← Real.sqrt_mul (sq_nonneg x), Finset.mul_sum]
  congr 1
  refine Finset.sum_congr rfl fun i _ => ?_
  rw [Finset.mul_sum]
  refine Finset.sum_congr rfl fun j _ => ?_
  rw [Matrix.smul_apply, norm_smul, mul_pow, RCLike.norm_ofReal, sq_abs]

/-- The largest element and zero. -/
theorem maxAbsEl_spec (n : Nat) (v : Nat → ℝ) : 0 ≤ maxAbsEl n v ∧ (∀ k, k < n → |v k| ≤ maxAbsEl n v) ∧ (maxAbsEl n v = 0 ∨ ∃ k, k < n ∧ |v k| = maxAbsEl n v) := by
  rcases Nat.eq_zero_or_pos n with h | h
  · subst h
    exact ⟨le_of_eq (by simp [maxAbsEl, LU.maxAbs, LU.maxAbsLoop]), fun k hk => by omega, Or.inl (by simp [maxAbsEl, LU.maxAbs, LU.maxAbsLoop])⟩
  · obtain ⟨h1, h2, h3⟩ := LU.maxAbs_spec (AbsoluteValue.abs : AbsoluteValue ℝ ℝ) v n h
    refine ⟨?_, h3, Or.inr ⟨_, h1, h2.symm⟩⟩
    have := h3 0 h
    exact (abs_nonneg (v 0)).trans this

/-- What one dropped element may change, for a matrix of norm `a`. -/
noncomputable def tol (c : Cfg) (a : ℝ) : ℝ := max (max (2 * c.eps) (Real.sqrt c.tiny) * a) c.tiny

/-- The parameters: `eps` is not negative, the smallest number lies between 0 and 1. -/
structure CfgOk (c : Cfg) (M N : Nat) : Prop where
  ge : c.ge = 0
  mU : c.hU = true → c.m = M
  mV : c.hV = true → c.n = N
  ep : 0 ≤ c.eps
  t0 : 0 < c.tiny
  t1 : c.tiny ≤ 1

/-- What is assumed of the divide and conquer part, for the problems it is called with. -/
def DCOk (K : Type) [RCLike K] (c : Cfg) (M N : Nat) (dc : Nat → Nat → St K → Option (St K)) : Prop :=
  ∀ (A : Matrix (Fin M) (Fin N) K) (τ β : ℝ), Tau c τ β → SolvesDC c M N A τ β dc

theorem DCOk.none (h : N ≤ c.dcl ∨ c.hU = false ∧ c.hV = false) (dc : Nat → Nat → St K → Option (St K)) : DCOk K c M N dc := by
  intro A τ β _ lo hi s s' h1 h2 h3 h4
  rcases h with h | h
  · omega
  · simp [h.1, h.2] at h2

theorem zeroLoopD_spec {A : Matrix (Fin M) (Fin N) K} {τ β : ℝ} {s : St K} (h : BInv c M N A τ β s) (hx : ∀ i, i < N → |s.D i| ≤ τ) (k : Nat) (hk : k ≤ N) :
    BInv c M N A τ β (up zeroD k 0 s) ∧ (up zeroD k 0 s).E = s.E ∧ ∀ i, (up zeroD k 0 s).D i = if i < k then 0 else s.D i := by
  have := Bidiag.up_succ (zeroD (K := K)) (fun j x => BInv c M N A τ β x ∧ x.E = s.E ∧ ∀ i, x.D i = if i < j then 0 else s.D i) k 0 s ⟨h, rfl, fun i => by simp⟩
    (by
      rintro j x _ h2 ⟨a1, a2, a3⟩
      refine ⟨a1.zeroD (by omega) ?_, a2, fun i => ?_⟩
      · rw [a3, if_neg (by omega)]; exact hx j (by omega)
      · simp only [SVQR.zeroD, upd, a3]; grind)
  simpa using this

theorem zeroLoopE_spec {A : Matrix (Fin M) (Fin N) K} {τ β : ℝ} {s : St K} (h : BInv c M N A τ β s) (hx : ∀ i, i + 1 < N → |s.E i| ≤ τ) (k : Nat) (hk : k ≤ N - 1) :
    BInv c M N A τ β (up zeroE k 0 s) ∧ (up zeroE k 0 s).D = s.D ∧ ∀ i, (up zeroE k 0 s).E i = if i < k then 0 else s.E i := by
  have := Bidiag.up_succ (zeroE (K := K)) (fun j x => BInv c M N A τ β x ∧ x.D = s.D ∧ ∀ i, x.E i = if i < j then 0 else s.E i) k 0 s ⟨h, rfl, fun i => by simp⟩
    (by
      rintro j x _ h2 ⟨a1, a2, a3⟩
      refine ⟨a1.zeroE (by omega) ?_, a2, fun i => ?_⟩
      · rw [a3, if_neg (by omega)]; exact hx j (by omega)
      · simp only [SVQR.zeroE, upd, a3]; grind)
  simpa using this

theorem mr_diag {D E : Nat → ℝ} (hE : ∀ i, i + 1 < N → E i = 0) : (mr N (bR D E) : Matrix (Fin N) (Fin N) K) = diagonal fun i : Fin N => ((D i : ℝ) : K) := by
  ext i j
  simp only [mr, bR, of_apply, diagonal_apply, Fin.ext_iff]
  split_ifs with h1 h2
  · rfl
  · rw [hE i (by omega)]; simp
  · simp

/-- **C103**  The main part: `A = U0 B V0`, `B` bidiagonal; the result is a decomposition of `A` up to `tol` for every nonzero element that was
dropped as negligible. -/
theorem fromBidiag_spec_partial (hc : CfgOk c M N) {dc : Nat → Nat → St K → Option (St K)} (hdc : DCOk K c M N dc)
    {srt : List (ℝ × Nat) → List (ℝ × Nat)} (hsrt : StdSortContract (fun a b => decide (a.1 < b.1)) srt) {f : Nat} {s s' : St K} (h0 : s.cnt = 0)
    {U0 : Matrix (Fin M) (Fin N) K} {V0 : Matrix (Fin N) (Fin N) K} (hU : U0ᴴ * U0 = 1) (hV : V0 * V0ᴴ = 1)
    (hsU : c.hU = true → matOf M N s.U = U0) (hsV : c.hV = true → matOf N N s.V = V0)
    (h : fromBidiag c dc srt f N false s = some s') :
    ∃ (U : Matrix (Fin M) (Fin N) K) (V : Matrix (Fin N) (Fin N) K),
      NearSVD (U0 * (bidiag N s.D s.E : Matrix (Fin N) (Fin N) K) * V0) (s'.cnt * tol c (fro (bidiag N s.D s.E : Matrix (Fin N) (Fin N) K))) U s'.D V ∧
      (c.hU = true → matOf M N s'.U = U) ∧ (c.hV = true → matOf N N s'.V = V) := by
  set A := U0 * (bidiag N s.D s.E : Matrix (Fin N) (Fin N) K) * V0 with hA
  have hfA : fro A = fro (bidiag N s.D s.E : Matrix (Fin N) (Fin N) K) := by rw [hA, fro_iso' hV, fro_iso hU]
  rw [← hfA]
  rw [fromBidiag] at h
  simp only [cond_false] at h
  split_ifs at h with hN hund
  · -- everything underflows
    cases h
    obtain ⟨e1, e2, -⟩ := maxAbsEl_spec N s.D
    obtain ⟨e3, e4, -⟩ := maxAbsEl_spec (N-1) s.E
    have hsc : max (maxAbsEl N s.D) (maxAbsEl (N-1) s.E) < c.tiny := lt_of_le_of_lt (le_abs_self _) hund
    have hD : ∀ i, i < N → |s.D i| ≤ c.tiny := fun i hi => ((e2 i hi).trans (le_max_left _ _)).trans hsc.le
    have hE : ∀ i, i + 1 < N → |s.E i| ≤ c.tiny := fun i hi => ((e4 i (by omega)).trans (le_max_right _ _)).trans hsc.le
    have i0 : BInv c M N A c.tiny (fro A) s := ⟨by rw [hfA, bidiag_eq], U0, V0, 0, hU, hV, by rw [fro_zero, h0]; simp, by rw [add_zero, hA, bidiag_eq], hsU, hsV⟩
    obtain ⟨a1, a2, a3⟩ := zeroLoopD_spec i0 hD N le_rfl
    obtain ⟨b1, b2, b3⟩ := zeroLoopE_spec a1 (fun i hi => by rw [a2]; exact hE i hi) (N-1) le_rfl
    obtain ⟨-, U, V, F, g1, g2, g3, g4, g5, g6⟩ := b1
    have hz : ∀ i, i < N → (up zeroE (N-1) 0 (up zeroD N 0 s)).D i = 0 := fun i hi => by rw [b2, a3, if_pos hi]
    refine ⟨U, V, ⟨g1, g2, fun i hi => (hz i hi).ge, fun i j hij hj => by rw [hz i (by omega), hz j hj], ?_⟩, g5, g6⟩
    rw [mr_diag (fun i hi => by rw [b3, if_pos (by omega)])] at g4
    rw [← g4, add_sub_cancel_left]
    exact g3.trans (mul_le_mul_of_nonneg_left (le_max_right _ _) (Nat.cast_nonneg _))
  · obtain ⟨e1, e2, e2'⟩ := maxAbsEl_spec N s.D
    obtain ⟨e3, e4, e4'⟩ := maxAbsEl_spec (N-1) s.E
    obtain ⟨s1, g1, rfl⟩ := Option.map_eq_some_iff.mp h
    set sc := max (maxAbsEl N s.D) (maxAbsEl (N-1) s.E) with hsc
    have hsc0 : 0 < sc := by
      have h1 : 0 ≤ sc := e1.trans (le_max_left _ _)
      rw [underflow, abs_of_nonneg h1, not_lt] at hund
      exact lt_of_lt_of_le hc.t0 hund
    have hscA : sc ≤ fro A := by
      rw [hfA, hsc]
      refine max_le ?_ ?_
      · rcases e2' with u | ⟨k, hk, u⟩
        · rw [u]; exact Real.sqrt_nonneg _
        · rw [← u]
          have := norm_le_fro (bidiag N s.D s.E : Matrix (Fin N) (Fin N) K) ⟨k, hk⟩ ⟨k, hk⟩
          simpa [bidiag] using this
      · rcases e4' with u | ⟨k, hk, u⟩
        · rw [u]; exact Real.sqrt_nonneg _
        · rw [← u]
          have := norm_le_fro (bidiag N s.D s.E : Matrix (Fin N) (Fin N) K) ⟨k, by omega⟩ ⟨k+1, by omega⟩
          simpa [bidiag] using this
    set sS : St K := unscale N sc s with hsS
    have hB : (mr N (bR sS.D sS.E) : Matrix (Fin N) (Fin N) K) = ((sc⁻¹ : ℝ) : K) • bidiag N s.D s.E := by
      rw [bidiag_eq]
      ext i j
      simp only [mr, bR, hsS, unscale, of_apply, Matrix.smul_apply, smul_eq_mul]
      split_ifs with u1 u2 u3 u4 <;> first | (exfalso; omega) | simp [div_eq_inv_mul]
    set A' : Matrix (Fin M) (Fin N) K := ((sc⁻¹ : ℝ) : K) • A with hA'
    set β := fro A' with hβ
    set τ := max (2 * c.eps * β) (Real.sqrt c.tiny) with hτd
    have hτ : Tau c τ β := ⟨hc.ep, hc.t0, hc.t1, le_max_left _ _, le_max_right _ _⟩
    have hA2 : A' = U0 * mr N (bR sS.D sS.E) * V0 := by rw [hB, hA', hA, Matrix.mul_smul, Matrix.smul_mul]
    have i0 : BInv c M N A' τ β sS := by
      refine ⟨?_, U0, V0, 0, hU, hV, by rw [fro_zero, show sS.cnt = 0 from h0]; simp, by rw [add_zero, hA2], hsU, hsV⟩
      rw [hβ, hA2, fro_iso' hV, fro_iso hU]
    have dn := dec_spec hc.ge hc.mU hc.mV hτ (hdc A' τ β hτ) f 0 (N-1) sS s1 (by omega) (by omega) i0 (fun u => by omega) (fun u => by omega) g1
    obtain ⟨p1, p2, p3⟩ := posLoop_spec hc.mV (p := 0) (q := N-1) dn.inv (fun u => by omega) (fun i _ hi => dn.z i (by omega) hi) N (by omega)
    generalize up (posStep c) N 0 s1 = s2 at *
    obtain ⟨q1, q2⟩ := sortPerm_spec hsrt N s2.D
    rw [finish]
    generalize sortPerm srt N s2.D = P at *
    obtain ⟨σ, hσ⟩ := perm_fin P N q1
    obtain ⟨-, U, V, F, g1', g2', g3', g4', g5', g6'⟩ := p1
    rw [mr_diag (fun i hi => by rw [p2]; exact dn.z i (by omega) (by omega))] at g4'
    have hS0 : ∀ i, i < N → 0 ≤ s2.D i := fun i hi => by rw [p3, if_pos (by omega)]; exact abs_nonneg _
    have hlt : ∀ k, k < N → swapProd P N 0 k < N := fun k hk => TMV.swapProd_lt P N 0 N (by omega) (fun k _ h => (q1 k (by omega)).2) k hk
    refine ⟨U.submatrix id σ, V.submatrix σ id, ⟨?_, ?_, fun i hi => ?_, fun i j hij hj => ?_, ?_⟩, fun u => ?_, fun v => ?_⟩
    · rw [conjTranspose_submatrix, ← Matrix.submatrix_mul _ _ _ id _ Function.bijective_id, g1']
      exact Matrix.submatrix_one_equiv σ
    · rw [conjTranspose_submatrix, ← Matrix.submatrix_mul _ _ _ id _ Function.bijective_id, g2']
      exact Matrix.submatrix_one_equiv σ
    · simp only [if_pos hi]
      rw [LU.permuteRows_eq _ _ _ _ _ _ _ (by omega)]
      exact mul_nonneg hsc0.le (hS0 _ (hlt i hi))
    · simp only [if_pos hj, if_pos (show i < N by omega)]
      rw [LU.permuteRows_eq _ _ _ _ _ _ _ (by omega), LU.permuteRows_eq _ _ _ _ _ _ _ (by omega)]
      rcases Nat.eq_or_lt_of_le hij with u | u
      · subst u; exact le_rfl
      · exact mul_le_mul_of_nonneg_left (q2 i j u hj) hsc0.le
    · have hd : (diagonal fun i : Fin N => (((if (i:Nat) < N then sc * LU.permuteRows 1 P N 0 (fun a _ => s2.D a) i 0 else s2.D i : ℝ)) : K)) =
          ((sc : ℝ) : K) • ((diagonal fun i : Fin N => ((s2.D i : ℝ) : K)).submatrix σ σ) := by
        ext i j
        simp only [diagonal_apply, Matrix.smul_apply, submatrix_apply, if_pos i.2, smul_eq_mul, EmbeddingLike.apply_eq_iff_eq]
        rw [LU.permuteRows_eq _ _ _ _ _ _ _ (by omega), hσ]
        split_ifs <;> simp
      simp only
      rw [hd, Matrix.mul_smul, Matrix.smul_mul, Matrix.submatrix_mul_equiv, Matrix.submatrix_mul_equiv, Matrix.submatrix_id_id, ← g4', hA', smul_add, smul_smul,
        ← RCLike.ofReal_mul, mul_inv_cancel₀ hsc0.ne', RCLike.ofReal_one, one_smul, add_sub_cancel_left, fro_smul, abs_of_pos hsc0]
      have hsτ : sc * τ ≤ tol c (fro A) := by
        have hb : sc * β = fro A := by
          rw [hβ, hA', fro_smul, abs_of_pos (inv_pos.mpr hsc0), ← mul_assoc, mul_inv_cancel₀ hsc0.ne', one_mul]
        have hn : 0 ≤ fro A := Real.sqrt_nonneg _
        refine le_trans ?_ (le_max_left _ _)
        rw [hτd, mul_max_of_nonneg _ _ hsc0.le]
        refine max_le ?_ ?_
        · rw [show sc * (2 * c.eps * β) = 2 * c.eps * (sc * β) by ring, hb]
          exact mul_le_mul_of_nonneg_right (le_max_left _ _) hn
        · rw [mul_comm]
          exact mul_le_mul (le_max_right _ _) hscA hsc0.le (le_trans (Real.sqrt_nonneg _) (le_max_right _ _))
      calc sc * fro F ≤ sc * (s2.cnt * τ) := mul_le_mul_of_nonneg_left g3' hsc0.le
        _ = s2.cnt * (sc * τ) := by ring
        _ ≤ _ := mul_le_mul_of_nonneg_left hsτ (Nat.cast_nonneg _)
    · rw [← g5' u]
      ext a b
      simp only [matOf, of_apply, submatrix_apply, id, u, if_true]
      rw [LU.permuteRows_eq _ _ _ _ _ _ _ (by rw [hc.mU u]; exact a.2), hσ]
    · rw [← g6' v]
      ext a b
      simp only [matOf, of_apply, submatrix_apply, id, v, if_true]
      rw [LU.permuteRows_eq _ _ _ _ _ _ _ (by rw [hc.mV v]; exact b.2), hσ]
  · obtain rfl : N = 0 := by omega
    cases h
    refine ⟨U0, V0, ⟨hU, hV, fun i hi => by omega, fun i j _ hj => by omega, ?_⟩, hsU, hsV⟩
    have : U0 * (diagonal fun i : Fin 0 => ((s.D i : ℝ) : K)) * V0 - A = 0 := by ext i j; exact j.elim0
    rw [this, fro_zero, h0]; simp

/-- **C103**  With `setUV` (`U` and `Vt` are set to the identity first): the decomposition of the bidiagonal matrix itself. -/
theorem fromBidiag_setUV_partial (hc : CfgOk c N N) (hhU : c.hU = true) (hhV : c.hV = true) {dc : Nat → Nat → St K → Option (St K)} (hdc : DCOk K c N N dc)
    {srt : List (ℝ × Nat) → List (ℝ × Nat)} (hsrt : StdSortContract (fun a b => decide (a.1 < b.1)) srt) {f : Nat} {s s' : St K} (h0 : s.cnt = 0)
    (h : fromBidiag c dc srt f N true s = some s') :
    NearSVD (bidiag N s.D s.E : Matrix (Fin N) (Fin N) K) (s'.cnt * tol c (fro (bidiag N s.D s.E : Matrix (Fin N) (Fin N) K)))
      (matOf N N s'.U) s'.D (matOf N N s'.V) := by
  have e : fromBidiag c dc srt f N true s = fromBidiag c dc srt f N false (if N > 0 then setI c N s else s) := by
    rw [fromBidiag, fromBidiag]
    split_ifs <;> rfl
  rw [e] at h
  have h1 : (if N > 0 then setI c N s else s).cnt = 0 := by split_ifs <;> exact h0
  have h2 : (if N > 0 then setI c N s else s).D = s.D := by split_ifs <;> rfl
  have h3 : (if N > 0 then setI c N s else s).E = s.E := by split_ifs <;> rfl
  obtain ⟨U, V, g1, g2, g3⟩ := fromBidiag_spec_partial hc hdc hsrt h1 (U0 := 1) (V0 := 1) (by simp) (by simp)
    (fun u => by
      ext i j
      have : N > 0 := by have := i.2; omega
      simp only [if_pos this, setI, matOf, of_apply, hc.mU u, one_apply, Fin.ext_iff, i.2, j.2, and_self, if_true])
    (fun u => by
      ext i j
      have : N > 0 := by have := i.2; omega
      simp only [if_pos this, setI, matOf, of_apply, hc.mV u, one_apply, Fin.ext_iff, i.2, j.2, and_self, if_true]) h
  rw [g2 hhU, g3 hhV]
  rw [h2, h3, one_mul, mul_one] at g1
  exact g1

/-- **C103**  The singular values alone, with no assumption on the divide and conquer part (it is not used): they are those of a matrix near
the bidiagonal one. -/
theorem fromBidiag_values (hc : CfgOk c N N) (hhU : c.hU = false) (hhV : c.hV = false) {dc : Nat → Nat → St K → Option (St K)}
    {srt : List (ℝ × Nat) → List (ℝ × Nat)} (hsrt : StdSortContract (fun a b => decide (a.1 < b.1)) srt) {f : Nat} {s s' : St K} (h0 : s.cnt = 0)
    (h : fromBidiag c dc srt f N false s = some s') :
    ∃ U V, NearSVD (bidiag N s.D s.E : Matrix (Fin N) (Fin N) K) (s'.cnt * tol c (fro (bidiag N s.D s.E : Matrix (Fin N) (Fin N) K))) U s'.D V := by
  obtain ⟨U, V, g1, -, -⟩ := fromBidiag_spec_partial hc (DCOk.none (Or.inr ⟨hhU, hhV⟩) dc) hsrt h0 (U0 := 1) (V0 := 1) (by simp) (by simp) (by simp [hhU]) (by simp [hhV]) h
  rw [one_mul, mul_one] at g1
  exact ⟨U, V, g1⟩

/-- **C103**  Up to `DC_LIMIT` columns, with no assumption on the divide and conquer part. -/
theorem fromBidiag_small (hc : CfgOk c M N) (hN : N ≤ c.dcl) {dc : Nat → Nat → St K → Option (St K)}
    {srt : List (ℝ × Nat) → List (ℝ × Nat)} (hsrt : StdSortContract (fun a b => decide (a.1 < b.1)) srt) {f : Nat} {s s' : St K} (h0 : s.cnt = 0)
    (hhU : c.hU = true) (hhV : c.hV = true) (hU : (matOf M N s.U)ᴴ * matOf M N s.U = 1) (hV : matOf N N s.V * (matOf N N s.V)ᴴ = 1)
    (h : fromBidiag c dc srt f N false s = some s') :
    NearSVD (matOf M N s.U * (bidiag N s.D s.E : Matrix (Fin N) (Fin N) K) * matOf N N s.V)
      (s'.cnt * tol c (fro (bidiag N s.D s.E : Matrix (Fin N) (Fin N) K))) (matOf M N s'.U) s'.D (matOf N N s'.V) := by
  obtain ⟨U, V, g1, g2, g3⟩ := fromBidiag_spec_partial hc (DCOk.none (Or.inl hN) dc) hsrt h0 hU hV (fun _ => rfl) (fun _ => rfl) h
  rw [g2 hhU, g3 hhV]
  exact g1

/-- The contract of the divide and conquer part can be met: `SmallProblem` itself meets it. -/
theorem DCOk.small (hc : CfgOk c M N) (f : Nat) : DCOk K c M N (SVQR.small c f (dec c (fun _ _ _ => Option.none) f)) := by
  intro A τ β hτ lo hi s s' _ _ h1 h2 h3 h4 h5 h6 h
  refine small_spec hc.ge hc.mU hc.mV hτ (dec_spec hc.ge hc.mU hc.mV hτ ?_ f) f lo hi s s' h1 h2 h3 h4 h5 h6 h
  intro lo hi s s' _ _ _ _ _ _ _ _ h
  simp at h

end TMV.SVQR
