import Verif.Model.SVDec
import Verif.Props.SVEx
import Verif.Props.Bidiag
import Verif.Props.QRQ
import Verif.Props.LUDiv

/-! `SV_Decompose`. -/
namespace TMV.SVDec
open Matrix QR
open SVQR (Cfg CfgOk DCOk tol)
variable {K : Type} [RCLike K]

/-- What is assumed of the parameters. -/
structure EnvOk (e : Env K) (storeU hV : Bool) (M N : Nat) : Prop where
  t0 : 0 < e.tiny
  t1 : e.tiny ≤ 1
  ep : 0 ≤ e.eps
  nb : 0 < e.nb
  qb : 0 < e.qb
  srt : StdSortContract (fun a b => decide (a.1 < b.1)) e.srt
  dc : DCOk K (cfg e storeU hV M N) M N (e.dc (cfg e storeU hV M N))

/-- What one dropped element may change, for a matrix of norm `a`: `max(max(2 eps, √tiny) a, tiny)`. -/
noncomputable def drop (e : Env K) (a : ℝ) : ℝ := max (max (2 * e.eps) (Real.sqrt e.tiny) * a) e.tiny

theorem drop_mono (e : Env K) (hp : 0 ≤ e.eps) {a b : ℝ} (h : a ≤ b) : drop e a ≤ drop e b :=
  max_le_max (mul_le_mul_of_nonneg_left h (le_max_of_le_left (by positivity))) le_rfl

/-- The bound for a vector taken as zero, `w` if there was one. -/
noncomputable def under (p : Prop) (w : ℝ) : ℝ := open Classical in if p then w else 0

theorem under_nonneg {p : Prop} {w : ℝ} (h : 0 ≤ w) : 0 ≤ under p w := by rw [under]; split_ifs <;> simp [h]

theorem bidiag_det (N : Nat) (D E : Nat → ℝ) : (bidiag N D E : Matrix (Fin N) (Fin N) K).det = ∏ k ∈ Finset.range N, ((D k : ℝ) : K) := by
  rw [det_of_upperTriangular, ← Fin.prod_univ_eq_prod_range (fun k => ((D k : ℝ) : K))]
  · refine Finset.prod_congr rfl fun k _ => ?_
    simp [bidiag]
  · intro i j h
    simp only [id] at h
    have : (j : Nat) < i := h
    simp only [bidiag, of_apply]
    rw [if_neg (by omega), if_neg (by omega)]

theorem addDet_spec (N : Nat) (D : Nat → ℝ) (ld : ℝ) (sd : K) : (addDet N D ld sd).2 * ((Real.exp (addDet N D ld sd).1 : ℝ) : K) =
    sd * ((Real.exp ld : ℝ) : K) * ∏ k ∈ Finset.range N, ((D k : ℝ) : K) := by
  rw [addDet]
  by_cases h : sd = 0
  · simp [h]
  · rw [if_pos h]
    simp only
    obtain ⟨h1, h2⟩ := LU.logDetLoop_spec D N 0 (0, 1)
    by_cases hz : ∃ k < N, D k = 0
    · obtain ⟨k, hk, hz⟩ := hz
      rw [h1.mpr (Or.inr ⟨k, hk, by rw [zero_add]; exact hz⟩), Finset.prod_eq_zero (Finset.mem_range.mpr hk) (by rw [hz]; simp)]
      simp
    · push Not at hz
      have := h2 (fun k hk => by rw [zero_add]; exact hz k hk)
      simp only [Real.exp_zero, zero_add, RCLike.ofReal_real_eq_id, id, one_mul] at this
      rw [Real.exp_add, RCLike.ofReal_mul]
      have h3 := congrArg (fun x : ℝ => (x : K)) this
      simp only [RCLike.ofReal_mul, RCLike.ofReal_prod] at h3
      rw [← h3]; ring

/-- The result describes a decomposition of `A`. -/
structure Ok {M N : Nat} (A : Matrix (Fin M) (Fin N) K) (δ : ℝ) (storeU hV : Bool) (o : Out K) : Prop where
  ex : ∃ U V, NearSVD A δ U o.S V ∧ (storeU = true → matOf M N o.U = U) ∧ (hV = true → matOf N N o.Vt = V)

theorem body_spec (e : Env K) {storeU hV : Bool} {M N : Nat} (he : EnvOk e storeU hV M N) (hN : 0 < N) (hM : N ≤ M) (U : Nat → Nat → K) (S : Nat → ℝ)
    (Vt : Nat → Nat → K) (ld : ℝ) (sd : K) (o : Out K) (h : body e storeU hV M N U S Vt ld sd = some o) :
    ∃ F : Matrix (Fin M) (Fin N) K, fro F ≤ under o.low (2 * N * Real.sqrt M * e.tiny) ∧
      Ok (matOf M N U + F) (o.cnt * drop e (fro (matOf M N U + F))) storeU hV o ∧
      (∀ hMN : M = N, o.signdet * ((Real.exp o.logdet : ℝ) : K) = sd * ((Real.exp ld : ℝ) : K) * ((matOf M N U + F).submatrix (Fin.cast hMN.symm) id).det) := by
  rw [body] at h
  obtain ⟨r, g1, rfl⟩ := Option.map_eq_some_iff.mp h
  generalize ht : Bidiag.bidiagonalize e.tiny e.nb M N e.Z e.W ⟨U, e.b0, e.b0, S, e.E0, sd⟩ = t at *
  obtain ⟨b1, b2, ⟨F, f1, f2, f3⟩, b4⟩ := Bidiag.bidiagonalize_spec he.t0 he.nb he.qb hN hM e.Z e.W e.Zu e.Zv Vt _ t ht _ _ rfl rfl
  simp only at f3 b4
  generalize hU0 : getQ e.qb M N t.ub e.Zu t.A = Uq at *
  generalize hV0 : Bidiag.makeVt e.qb N t.vb e.Zv t.A Vt = Vq at *
  have b2' : matOf N N Vq * (matOf N N Vq)ᴴ = 1 := mul_eq_one_comm.mp b2
  have hc : CfgOk (cfg e storeU hV M N) M N := ⟨rfl, fun _ => rfl, fun _ => rfl, he.ep, he.t0, he.t1⟩
  obtain ⟨U1, V1, n1, n2, n3⟩ := SVQR.fromBidiag_spec_partial hc he.dc he.srt (s := ⟨if storeU = true then Uq else t.A, t.D, t.E, if hV = true then Vq else Vt, 0⟩) rfl b1 b2'
    (fun u => by
      have u' : storeU = true := u
      simp only [u', if_true]) (fun u => by
      have u' : hV = true := u
      simp only [u', if_true]) g1
  simp only at n1
  rw [← f3] at n1
  have hB : fro (bidiag N t.D t.E : Matrix (Fin N) (Fin N) K) = fro (matOf M N U + F) := by rw [f3, fro_iso' b2', fro_iso b1]
  rw [hB] at n1
  refine ⟨F, ?_, ⟨U1, V1, n1, n2, n3⟩, ?_⟩
  · rw [under]
    split_ifs with hl
    · exact f1
    · have hl : ¬ ((∃ k, k < N ∧ t.D k = 0) ∨ (∃ k, k + 1 < N ∧ t.E k = 0)) := hl
      push Not at hl
      rw [f2 hl.1 hl.2, fro_zero]
  · rintro rfl
    simp only
    have : (matOf M M U + F).submatrix (Fin.cast rfl) id = matOf M M Uq * bidiag M t.D t.E * matOf M M Vq := by
      rw [← f3]
      rfl
    rw [addDet_spec, b4 rfl, ← bidiag_det M t.D t.E, this, det_mul, det_mul]
    ring

theorem NearSVD.mono {M N : Nat} {A A' : Matrix (Fin M) (Fin N) K} {δ δ' : ℝ} {U : Matrix (Fin M) (Fin N) K} {S : Nat → ℝ} {V : Matrix (Fin N) (Fin N) K}
    (h : NearSVD (A + A') δ U S V) (h' : fro A' + δ ≤ δ') : NearSVD A δ' U S V := by
  refine ⟨h.uu, h.vv, h.nonneg, h.desc, ?_⟩
  have : U * diagonal (fun i : Fin N => ((S i : ℝ) : K)) * V - A = (U * diagonal (fun i : Fin N => ((S i : ℝ) : K)) * V - (A + A')) + A' := by abel
  rw [this]
  refine (fro_add _ _).trans ?_
  have := h.prod
  linarith

/-- The total error: vectors taken as zero because their elements underflow, and elements dropped in the iterations. -/
noncomputable def err (e : Env K) (M N : Nat) (a : ℝ) (o : Out K) : ℝ :=
  under o.low (4 * N * Real.sqrt M * e.tiny) + o.cnt * drop e (a + under o.low (4 * N * Real.sqrt M * e.tiny))

theorem fro_of_cols {M N : Nat} {E : Nat → Nat → K} {w : ℝ} (hw : 0 ≤ w) (h : ∀ c, c < N → ∑ i ∈ Finset.range M, ‖E i c‖ ^ 2 ≤ M * w ^ 2) :
    fro (matOf M N E) ≤ N * Real.sqrt M * w := by
  rw [fro, Finset.sum_comm]
  refine Real.sqrt_le_iff.mpr ⟨by positivity, ?_⟩
  have h1 : ∀ c : Fin N, ∑ i : Fin M, ‖matOf M N E i c‖ ^ 2 ≤ M * w ^ 2 := by
    intro c
    simp only [matOf, of_apply]
    rw [Fin.sum_univ_eq_sum_range (fun i => ‖E i c‖ ^ 2)]
    exact h c c.2
  refine (Finset.sum_le_sum fun c _ => h1 c).trans ?_
  rw [Finset.sum_const, Finset.card_univ, Fintype.card_fin, nsmul_eq_mul, mul_pow, mul_pow, Real.sq_sqrt (Nat.cast_nonneg M)]
  rcases Nat.eq_zero_or_pos N with hN | hN
  · subst hN; simp
  · have : (1:ℝ) ≤ N := by exact_mod_cast hN
    have h2 : (0:ℝ) ≤ M * w^2 := by positivity
    have h3 : (N:ℝ) ≤ N^2 := by nlinarith
    rw [mul_assoc]
    exact mul_le_mul_of_nonneg_right h3 h2

theorem Q_iso {M N : Nat} {Q : Nat → Nat → K} (h : ∀ k l, k < N → l < N → ∑ p ∈ Finset.range M, star (Q p k) * Q p l = if k = l then 1 else 0) :
    (matOf M N Q)ᴴ * matOf M N Q = 1 := by
  ext k l
  rw [Matrix.mul_apply, one_apply]
  simp only [conjTranspose_apply, matOf, of_apply]
  rw [Fin.sum_univ_eq_sum_range (fun p => star (Q p k) * Q p l), h k l k.2 l.2]
  simp [Fin.ext_iff]

theorem svDecompose_spec_partial (e : Env K) {storeU hV : Bool} {M N : Nat} (he : EnvOk e storeU hV M N) (he' : EnvOk e storeU hV N N) (hM : N ≤ M)
    (U : Nat → Nat → K) (S : Nat → ℝ) (Vt : Nat → Nat → K) (ld : ℝ) (sd : K) (hN : 0 < N) (o : Out K)
    (h : svDecompose e storeU hV M N U S Vt ld sd = some o) :
    Ok (matOf M N U) (err e M N (fro (matOf M N U)) o) storeU hV o := by
  have fin : ∀ (F G : Matrix (Fin M) (Fin N) K) (p : Prop) (o : Out K), (p → o.low) → fro F ≤ under p (2 * N * Real.sqrt M * e.tiny) → fro G ≤ under o.low (N * Real.sqrt M * e.tiny) →
      Ok (matOf M N U + (F + G)) (o.cnt * drop e (fro (matOf M N U + (F + G)))) storeU hV o → Ok (matOf M N U) (err e M N (fro (matOf M N U)) o) storeU hV o := by
    rintro F G p o hp hF hG ⟨U1, V1, n1, n2, n3⟩
    have hw : 0 ≤ N * Real.sqrt M * e.tiny := mul_nonneg (by positivity) he.t0.le
    have hFG : fro (F + G) ≤ under o.low (4 * N * Real.sqrt M * e.tiny) := by
      refine (fro_add F G).trans ?_
      by_cases hl : o.low
      · rw [under, if_pos hl] at hG ⊢
        by_cases hq : p
        · rw [under, if_pos hq] at hF; linarith
        · rw [under, if_neg hq] at hF; linarith
      · rw [under, if_neg hl] at hG ⊢
        rw [under, if_neg fun u => hl (hp u)] at hF; linarith
    refine ⟨U1, V1, NearSVD.mono n1 ?_, n2, n3⟩
    rw [err]
    refine add_le_add hFG (mul_le_mul_of_nonneg_left (drop_mono e he.ep ?_) (Nat.cast_nonneg _))
    exact (fro_add _ _).trans (by linarith)
  rw [svDecompose, if_neg (by omega)] at h
  split_ifs at h with h53 hst
  · -- QR decomposition first, with Q
    simp only at h
    obtain ⟨Q, R, d, q0, q1, q2, ⟨E, q3, q4, q5⟩, q6⟩ := qr_decompose e.tiny he.t0 e.qb M N he.qb hM U e.Z e.Zu e.b0 sd
    rw [q0] at h
    obtain ⟨o1, g1, rfl⟩ := Option.map_eq_some_iff.mp h
    simp only at g1
    obtain ⟨F, f1, ⟨U1, V1, n1, n2, n3⟩, -⟩ := body_spec e he' hN le_rfl R S Vt ld d o1 (hst ▸ g1)
    have hQ := Q_iso q1
    have hprod : matOf M N U + matOf M N E = matOf M N Q * matOf N N R := by
      ext i j
      rw [Matrix.mul_apply]
      simp only [Matrix.add_apply, matOf, of_apply]
      rw [q3 i j i.2 j.2, Fin.sum_univ_eq_sum_range (fun k => Q i k * R k j)]
    refine fin (matOf M N Q * F) (matOf M N E) o1.low _ (fun u => Or.inl u) ?_ ?_ ⟨matOf M N Q * U1, V1, ⟨?_, n1.vv, n1.nonneg, n1.desc, ?_⟩, fun _ => ?_, n3⟩
    · rw [fro_iso hQ]
      refine f1.trans ?_
      rw [under, under]
      split_ifs
      · gcongr
        exact he.t0.le
      · exact le_rfl
    · rw [under]
      split_ifs with hl
      · exact fro_of_cols he.t0.le q5
      · have hl : ¬ (o1.low ∨ ∃ k, k < N ∧ R k k = 0) := hl
        push Not at hl
        have : matOf M N E = 0 := by
          ext i j
          exact q4 j j.2 (hl.2 j j.2) i i.2
        rw [this, fro_zero]
    · rw [conjTranspose_mul, Matrix.mul_assoc, ← Matrix.mul_assoc _ (matOf M N Q) U1, hQ, one_mul, n1.uu]
    · have e1 : matOf M N U + (matOf M N Q * F + matOf M N E) = matOf M N Q * (matOf N N R + F) := by
        rw [Matrix.mul_add, ← hprod]; abel
      rw [e1, Matrix.mul_assoc, Matrix.mul_assoc, ← Matrix.mul_sub, fro_iso hQ, fro_iso hQ, ← Matrix.mul_assoc]
      exact n1.prod
    · rw [← n2 hst]
      ext i j
      rw [Matrix.mul_apply]
      simp only [matOf, of_apply, i.2, j.2, and_self, if_true]
      rw [Fin.sum_univ_eq_sum_range (fun k => Q i k * o1.U k j)]
  · -- without Q
    simp only at h
    obtain ⟨Q, R, d, q0, q1, q2, ⟨E, q3, q4, q5⟩, q6⟩ := qr_decompose e.tiny he.t0 e.qb M N he.qb hM U e.Z e.Zu e.b0 sd
    obtain ⟨o1, g1, rfl⟩ := Option.map_eq_some_iff.mp h
    have hst' : storeU = false := by simpa using hst
    obtain ⟨F, f1, ⟨U1, V1, n1, n2, n3⟩, -⟩ := body_spec e he' hN le_rfl _ S Vt ld _ o1 (hst' ▸ g1)
    have hR : ∀ i j, i < N → j < N → (if j < i ∧ i < N then 0 else (decompose e.tiny e.qb M N U e.Z e.b0 sd).1.A i j) = R i j := by
      intro i j hi hj
      rw [unpacked] at q0
      have := congrArg (fun x => x.2.1 i j) q0
      simp only at this
      rw [← this]
      by_cases hij : i ≤ j
      · rw [if_neg (by omega), if_pos hij]
      · rw [if_pos ⟨by omega, hi⟩, if_neg hij]
    have hR' : matOf N N (fun i j => if j < i ∧ i < N then 0 else (decompose e.tiny e.qb M N U e.Z e.b0 sd).1.A i j) = matOf N N R := by
      ext i j; exact hR i j i.2 j.2
    rw [hR'] at n1
    have hQ := Q_iso q1
    have hprod : matOf M N U + matOf M N E = matOf M N Q * matOf N N R := by
      ext i j
      rw [Matrix.mul_apply]
      simp only [Matrix.add_apply, matOf, of_apply]
      rw [q3 i j i.2 j.2, Fin.sum_univ_eq_sum_range (fun k => Q i k * R k j)]
    refine fin (matOf M N Q * F) (matOf M N E) o1.low _ (fun u => Or.inl u) ?_ ?_ ⟨matOf M N Q * U1, V1, ⟨?_, n1.vv, n1.nonneg, n1.desc, ?_⟩, fun u => absurd u hst, n3⟩
    · rw [fro_iso hQ]
      refine f1.trans ?_
      rw [under, under]
      split_ifs
      · gcongr
        exact he.t0.le
      · exact le_rfl
    · rw [under]
      split_ifs with hl
      · exact fro_of_cols he.t0.le q5
      · have hl : ¬ (o1.low ∨ ∃ k, k < N ∧ (if k < k ∧ k < N then 0 else (decompose e.tiny e.qb M N U e.Z e.b0 sd).1.A k k) = 0) := hl
        push Not at hl
        have : matOf M N E = 0 := by
          ext i j
          refine q4 j j.2 ?_ i i.2
          have := hl.2 j j.2
          rwa [hR j j j.2 j.2] at this
        rw [this, fro_zero]
    · rw [conjTranspose_mul, Matrix.mul_assoc, ← Matrix.mul_assoc _ (matOf M N Q) U1, hQ, one_mul, n1.uu]
    · have e1 : matOf M N U + (matOf M N Q * F + matOf M N E) = matOf M N Q * (matOf N N R + F) := by
        rw [Matrix.mul_add, ← hprod]; abel
      rw [e1, Matrix.mul_assoc, Matrix.mul_assoc, ← Matrix.mul_sub, fro_iso hQ, fro_iso hQ, ← Matrix.mul_assoc]
      exact n1.prod
  · obtain ⟨F, f1, n1, -⟩ := body_spec e he hN hM U S Vt ld sd o h
    refine fin F 0 o.low o id f1 ?_ (by rwa [add_zero])
    rw [fro_zero]
    exact under_nonneg (mul_nonneg (by positivity) he.t0.le)

/-! ## The user functions -/

theorem fro_star {m n : Type} [Fintype m] [Fintype n] (F : Matrix m n K) : fro (F.map star) = fro F := by
  simp [fro, Matrix.map_apply, norm_star]

theorem fro_eq_zero {m n : Type} [Fintype m] [Fintype n] {F : Matrix m n K} (h : fro F ≤ 0) : F = 0 := by
  rw [fro, Real.sqrt_le_left le_rfl] at h
  have h1 : ∑ i, ∑ j, ‖F i j‖ ^ 2 = 0 := le_antisymm (by simpa using h) (Finset.sum_nonneg fun i _ => Finset.sum_nonneg fun j _ => by positivity)
  rw [Finset.sum_eq_zero_iff_of_nonneg fun i _ => Finset.sum_nonneg fun j _ => by positivity] at h1
  ext i j
  have h2 := h1 i (Finset.mem_univ i)
  rw [Finset.sum_eq_zero_iff_of_nonneg fun j _ => by positivity] at h2
  simpa using h2 j (Finset.mem_univ j)

theorem NearSVD.conj {M N : Nat} {A : Matrix (Fin M) (Fin N) K} {δ : ℝ} {U : Matrix (Fin M) (Fin N) K} {S : Nat → ℝ} {V : Matrix (Fin N) (Fin N) K}
    (h : NearSVD A δ U S V) : NearSVD (A.map star) δ (U.map star) S (V.map star) := by
  have cm : ∀ {m n p : Nat} (X : Matrix (Fin m) (Fin n) K) (Y : Matrix (Fin n) (Fin p) K), X.map star * Y.map star = (X * Y).map star := by
    intro m n p X Y
    ext i j
    simp [Matrix.mul_apply, Matrix.map_apply, star_sum, star_mul']
  have ch : ∀ {m n : Nat} (X : Matrix (Fin m) (Fin n) K), (X.map star)ᴴ = (Xᴴ).map star := by
    intro m n X; ext i j; simp
  have c1 : ∀ {n : Nat}, (1 : Matrix (Fin n) (Fin n) K).map star = 1 := by
    intro n; ext i j; simp [Matrix.one_apply, apply_ite star]
  refine ⟨by rw [ch, cm, h.uu, c1], by rw [ch, cm, h.vv, c1], h.nonneg, h.desc, ?_⟩
  have e1 : U.map star * diagonal (fun i : Fin N => ((S i : ℝ) : K)) * V.map star - A.map star =
      (U * diagonal (fun i : Fin N => ((S i : ℝ) : K)) * V - A).map star := by
    have : diagonal (fun i : Fin N => ((S i : ℝ) : K)) = (diagonal (fun i : Fin N => ((S i : ℝ) : K))).map star := by
      ext i j; simp only [diagonal_apply, map_apply]; split_ifs <;> simp
    have e2 : U.map star * diagonal (fun i : Fin N => ((S i : ℝ) : K)) * V.map star = (U * diagonal (fun i : Fin N => ((S i : ℝ) : K)) * V).map star := by
      rw [← cm, ← cm, ← this]
    rw [e2]
    ext i j
    simp only [Matrix.sub_apply, map_apply, star_sub]
  rw [e1, fro_star]
  exact h.prod

theorem matOf_view (cj : Bool) (M N : Nat) (A : Nat → Nat → K) : matOf M N (view cj A) = if cj = true then (matOf M N A).map star else matOf M N A := by
  cases cj
  · rfl
  · rfl

theorem matOf_conjSelf (N : Nat) (A : Nat → Nat → K) : matOf N N (conjSelf N A) = (matOf N N A).map star := by
  ext i j
  simp [matOf, conjSelf]

/-- **C105**  `SV_Decompose(U,S,Vt,logdet,signdet,StoreU)` of an `M × N` matrix with `N ≤ M`: when the iterations stop, `S` is nonnegative and in descending
order and there are `U` with orthonormal columns and `V` with orthonormal rows, the ones that are returned if they were asked for, so that `U S V` is the matrix
up to `err`. -/
theorem svDecompose_all_partial (e : Env K) {storeU hV : Bool} {M N : Nat} (he : EnvOk e storeU hV M N) (he' : EnvOk e storeU hV N N) (hM : N ≤ M)
    (U : Nat → Nat → K) (S : Nat → ℝ) (Vt : Nat → Nat → K) (ld : ℝ) (sd : K) (o : Out K)
    (h : svDecompose e storeU hV M N U S Vt ld sd = some o) :
    Ok (matOf M N U) (err e M N (fro (matOf M N U)) o) storeU hV o := by
  rcases Nat.eq_zero_or_pos N with hN | hN
  · subst hN
    rw [svDecompose, if_pos rfl] at h
    cases h
    refine ⟨_, _, ⟨Subsingleton.elim _ _, Subsingleton.elim _ _, fun i hi => by omega, fun i j _ hj => by omega, ?_⟩, fun _ => rfl, fun _ => rfl⟩
    rw [err]
    simp [under, fro]
  · exact svDecompose_spec_partial e he he' hM U S Vt ld sd hN o h

/-- **C105** for `SV_Decompose(U,S,Vt,StoreU)`, `U` and `Vt` being conjugated views or not. -/
theorem svUser_spec_partial (e : Env K) {storeU : Bool} (uc vc : Bool) {M N : Nat} (he : EnvOk e storeU true M N) (he' : EnvOk e storeU true N N) (hM : N ≤ M)
    (U : Nat → Nat → K) (S : Nat → ℝ) (Vt : Nat → Nat → K) (o : Out K) (h : svUser e storeU uc vc M N U S Vt = some o) :
    ∃ U' : Matrix (Fin M) (Fin N) K, NearSVD (matOf M N (view uc U)) (err e M N (fro (matOf M N (view uc U))) o) U' o.S (matOf N N (view vc o.Vt)) ∧
      (storeU = true → matOf M N (view uc o.U) = U') := by
  have key := fun o h => svDecompose_all_partial e he he' hM U S Vt 0 0 o h
  have fs : fro ((matOf M N U).map star) = fro (matOf M N U) := fro_star _
  have mm : ∀ X : Matrix (Fin N) (Fin N) K, (X.map star).map star = X := fun X => by ext i j; simp
  rw [svUser] at h
  cases uc <;> cases vc <;> simp only [if_true, Bool.false_eq_true, if_false] at h
  · obtain ⟨U1, V1, n1, n2, n3⟩ := key o h
    rw [← n3 rfl] at n1
    exact ⟨U1, n1, n2⟩
  · obtain ⟨o1, h1, rfl⟩ := Option.map_eq_some_iff.mp h
    obtain ⟨U1, V1, n1, n2, n3⟩ := key o1 h1
    rw [← n3 rfl] at n1
    refine ⟨U1, ?_, n2⟩
    rw [matOf_view true, if_pos rfl, matOf_conjSelf, mm]
    exact n1
  · obtain ⟨o1, h1, rfl⟩ := Option.map_eq_some_iff.mp h
    obtain ⟨U1, V1, n1, n2, n3⟩ := key o1 h1
    rw [← n3 rfl] at n1
    refine ⟨U1.map star, ?_, fun u => ?_⟩
    · rw [matOf_view true, if_pos rfl, fs, matOf_view false, if_neg (by simp), matOf_conjSelf]
      exact NearSVD.conj n1
    · rw [matOf_view, if_pos rfl, ← n2 u]
  · obtain ⟨U1, V1, n1, n2, n3⟩ := key o h
    rw [← n3 rfl] at n1
    refine ⟨U1.map star, ?_, fun u => ?_⟩
    · rw [matOf_view true, if_pos rfl, fs, matOf_view true, if_pos rfl]
      exact NearSVD.conj n1
    · rw [matOf_view, if_pos rfl, ← n2 u]

/-- **C105** for `SV_Decompose(U,S,StoreU)`. -/
theorem svUserS_spec_partial (e : Env K) {storeU : Bool} (uc : Bool) {M N : Nat} (he : EnvOk e storeU false M N) (he' : EnvOk e storeU false N N) (hM : N ≤ M)
    (U : Nat → Nat → K) (S : Nat → ℝ) (o : Out K) (h : svUserS e storeU M N U S = some o) :
    ∃ (U' : Matrix (Fin M) (Fin N) K) (V : Matrix (Fin N) (Fin N) K), NearSVD (matOf M N (view uc U)) (err e M N (fro (matOf M N (view uc U))) o) U' o.S V ∧
      (storeU = true → matOf M N (view uc o.U) = U') := by
  obtain ⟨U1, V1, n1, n2, -⟩ := svDecompose_all_partial e he he' hM U S _ 0 0 o h
  cases uc
  · exact ⟨U1, V1, n1, n2⟩
  · refine ⟨U1.map star, V1.map star, ?_, fun u => ?_⟩
    · rw [matOf_view true, if_pos rfl, fro_star]
      exact NearSVD.conj n1
    · rw [matOf_view, if_pos rfl, ← n2 u]

/-- **C105** for the singular values alone of a matrix of any size: nothing is assumed of the divide and conquer part, which is not used. -/
theorem svUserS_values (e : Env K) (ht0 : 0 < e.tiny) (ht1 : e.tiny ≤ 1) (hep : 0 ≤ e.eps) (hnb : 0 < e.nb) (hqb : 0 < e.qb)
    (hsrt : StdSortContract (fun a b => decide (a.1 < b.1)) e.srt) (uc : Bool) {M N : Nat} (hM : N ≤ M)
    (U : Nat → Nat → K) (S : Nat → ℝ) (o : Out K) (h : svUserS e false M N U S = some o) :
    ∃ (U' : Matrix (Fin M) (Fin N) K) (V : Matrix (Fin N) (Fin N) K), NearSVD (matOf M N (view uc U)) (err e M N (fro (matOf M N (view uc U))) o) U' o.S V := by
  have ok : ∀ m, EnvOk e false false m N := fun m => ⟨ht0, ht1, hep, hnb, hqb, hsrt, DCOk.none (Or.inr ⟨rfl, rfl⟩) _⟩
  obtain ⟨U1, V1, n1, -⟩ := svUserS_spec_partial e uc (ok M) (ok N) hM U S o h
  exact ⟨U1, V1, n1⟩

/-- If nothing underflowed and nothing was dropped, the decomposition is exact. -/
theorem svUser_exact (e : Env K) (uc vc : Bool) {M N : Nat} (he : EnvOk e true true M N) (he' : EnvOk e true true N N) (hM : N ≤ M)
    (U : Nat → Nat → K) (S : Nat → ℝ) (Vt : Nat → Nat → K) (o : Out K) (h : svUser e true uc vc M N U S Vt = some o) (hl : ¬ o.low) (hc : o.cnt = 0) :
    IsSVD M N (view uc U) (view uc o.U) o.S (view vc o.Vt) := by
  obtain ⟨U', n1, n2⟩ := svUser_spec_partial e uc vc he he' hM U S Vt o h
  rw [← n2 rfl, err, under, if_neg hl, hc] at n1
  refine ⟨⟨n1.uu, n1.vv, ?_⟩, n1.nonneg, n1.desc⟩
  have := n1.prod
  simp only [Nat.cast_zero, zero_mul, add_zero] at this
  exact (sub_eq_zero.mp (fro_eq_zero this)).symm

/-- The determinant of a square matrix (`signdet` one, `logdet` zero at the start): `signdet·exp(logdet)` is the determinant of the matrix, up to the vectors taken
as zero. -/
theorem svDecompose_det (e : Env K) {storeU hV : Bool} {N : Nat} (he : EnvOk e storeU hV N N) (hN : 0 < N)
    (U : Nat → Nat → K) (S : Nat → ℝ) (Vt : Nat → Nat → K) (o : Out K) (h : svDecompose e storeU hV N N U S Vt 0 1 = some o) :
    ∃ F : Matrix (Fin N) (Fin N) K, fro F ≤ under o.low (2 * N * Real.sqrt N * e.tiny) ∧ o.signdet * ((Real.exp o.logdet : ℝ) : K) = (matOf N N U + F).det := by
  rw [svDecompose, if_neg (by omega), if_neg (by omega)] at h
  obtain ⟨F, f1, -, f3⟩ := body_spec e he hN le_rfl U S Vt 0 1 o h
  refine ⟨F, f1, ?_⟩
  rw [f3 rfl]
  simp only [Real.exp_zero, RCLike.ofReal_one, mul_one, one_mul]
  rfl

/-- The assumptions hold for matrices of up to `DC_LIMIT` columns, whatever stands for the divide and conquer part. -/
theorem EnvOk.small (e : Env K) (ht0 : 0 < e.tiny) (ht1 : e.tiny ≤ 1) (hep : 0 ≤ e.eps) (hnb : 0 < e.nb) (hqb : 0 < e.qb)
    (hsrt : StdSortContract (fun a b => decide (a.1 < b.1)) e.srt) (storeU hV : Bool) {M N : Nat} (hN : N ≤ e.dcl) : EnvOk e storeU hV M N :=
  ⟨ht0, ht1, hep, hnb, hqb, hsrt, DCOk.none (Or.inl hN) _⟩

theorem body_runs (e : Env K) (hf : 0 < e.fuel) (storeU hV : Bool) (M : Nat) (U : Nat → Nat → K) (S : Nat → ℝ) (Vt : Nat → Nat → K) (ld : ℝ) (sd : K) :
    ∃ o, body e storeU hV M 1 U S Vt ld sd = some o := by
  rw [body]
  suffices h : ∀ s : SVQR.St K, ∃ r, SVQR.fromBidiag (cfg e storeU hV M 1) (e.dc (cfg e storeU hV M 1)) e.srt e.fuel 1 false s = some r by
    obtain ⟨r, hr⟩ := h _
    rw [hr]
    exact ⟨_, rfl⟩
  intro s
  obtain ⟨f, hf⟩ : ∃ f, e.fuel = f + 1 := ⟨e.fuel - 1, by omega⟩
  rw [SVQR.fromBidiag, hf, if_pos one_pos]
  simp only [cond_false]
  split_ifs
  · exact ⟨_, rfl⟩
  · rw [SVQR.dec, SVQR.doLoop, if_neg (by omega)]
    exact ⟨_, rfl⟩

/-- The hypotheses are met: the function ends for every matrix with one column (whatever stands for the divide and conquer part). -/
theorem svUser_runs (e : Env K) (hf : 0 < e.fuel) (storeU uc vc : Bool) (M : Nat) (U : Nat → Nat → K) (S : Nat → ℝ) (Vt : Nat → Nat → K) :
    ∃ o, svUser e storeU uc vc M 1 U S Vt = some o := by
  have : ∃ o, svDecompose e storeU true M 1 U S Vt 0 0 = some o := by
    rw [svDecompose, if_neg one_ne_zero]
    split_ifs
    · obtain ⟨o, ho⟩ := body_runs e hf true true 1 (unpacked e.tiny e.qb M 1 U e.Z e.Zu e.b0 0).2.1 S Vt 0 (unpacked e.tiny e.qb M 1 U e.Z e.Zu e.b0 0).2.2
      simp only [ho]
      exact ⟨_, rfl⟩
    · obtain ⟨o, ho⟩ := body_runs e hf false true 1 (fun i j => if j < i ∧ i < 1 then 0 else (decompose e.tiny e.qb M 1 U e.Z e.b0 0).1.A i j) S Vt 0
        (decompose e.tiny e.qb M 1 U e.Z e.b0 0).1.det
      simp only [ho]
      exact ⟨_, rfl⟩
    · exact body_runs e hf storeU true M U S Vt 0 0
  obtain ⟨o, ho⟩ := this
  rw [svUser]
  split_ifs <;> rw [ho] <;> exact ⟨_, rfl⟩

end TMV.SVDec
