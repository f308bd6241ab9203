import Verif.Model.Bidiag
import Verif.Props.QRSolve
import Verif.Lemmas.Fro

/-! Sequences of reflections from the left and from the right (for C102). -/
namespace TMV.Bidiag
noncomputable section
open Classical Matrix TMV.QR
variable {K : Type} [RCLike K]

/-- The product `H_0ᴴ ... H_{j-1}ᴴ` of the reflectors stored in the columns of `V`. -/
def Qm (M : Nat) (V : Nat → Nat → K) (β : Nat → K) (j : Nat) : Matrix (Fin M) (Fin M) K := Matrix.of fun p k => hsA M V β 0 j (ev k) p

/-- The reflector in column `j`. -/
def Hm (M : Nat) (V : Nat → Nat → K) (j : Nat) (b : K) : Matrix (Fin M) (Fin M) K := Matrix.of fun p k => H M V j b (ev k) p

theorem vec_ev {M : Nat} (x : Nat → K) (q : Nat) (hq : q < M) : x q = ∑ k ∈ Finset.range M, ev k q * x k := by
  rw [Finset.sum_eq_single q]
  · simp [ev]
  · intro k _ hk; rw [ev_zero (Ne.symm hk), zero_mul]
  · intro hn; exact absurd (Finset.mem_range.mpr hq) hn

theorem hsA_lin (M : Nat) (V : Nat → Nat → K) (β : Nat → K) (j : Nat) (x : Nat → K) (p : Nat) (hp : p < M) :
    hsA M V β 0 j x p = ∑ k ∈ Finset.range M, hsA M V β 0 j (ev k) p * x k := by
  rw [hsA_ext j (fun q hq => vec_ev (M := M) x q hq) p hp, hsA_sum]
  simp only [hsA_smul]

theorem Qm_mul (M N : Nat) (V : Nat → Nat → K) (β : Nat → K) (j : Nat) (X : Nat → Nat → K) (i : Fin M) (p : Fin N) :
    (Qm M V β j * matOf M N X) i p = hsA M V β 0 j (fun q => X q p) i := by
  rw [hsA_lin M V β j _ i i.2, Matrix.mul_apply, ← Fin.sum_univ_eq_sum_range (fun k => hsA M V β 0 j (ev k) i * X k p) M]
  rfl

theorem H_lin' (M : Nat) (V : Nat → Nat → K) (j : Nat) (b : K) (x : Nat → K) (p : Nat) (hp : p < M) :
    H M V j b x p = ∑ k ∈ Finset.range M, H M V j b (ev k) p * x k := by
  have h := hsA_lin M V (fun _ => star b) (j+1) x p hp
  have e1 : ∀ x, H M V j b x = hs M V (fun _ => b) j 1 x := fun x => rfl
  rw [H_ext (fun q hq => vec_ev (M := M) x q hq) p hp]
  have : ∀ (N : Nat), H M V j b (fun q => ∑ k ∈ Finset.range N, ev k q * x k) p = ∑ k ∈ Finset.range N, H M V j b (ev k) p * x k := by
    intro N
    induction N with
    | zero => simp [H, ip]
    | succ N ih =>
      simp only [Finset.sum_range_succ]
      rw [H_add, H_smul]
      simp only
      rw [ih]
  exact this M

theorem Hm_mul (M N : Nat) (V : Nat → Nat → K) (j : Nat) (b : K) (X : Nat → Nat → K) (i : Fin M) (p : Fin N) :
    (Hm M V j b * matOf M N X) i p = H M V j b (fun q => X q p) i := by
  rw [H_lin' M V j b _ i i.2, Matrix.mul_apply, ← Fin.sum_univ_eq_sum_range (fun k => H M V j b (ev k) i * X k p) M]
  rfl

theorem Qm_zero (M : Nat) (V : Nat → Nat → K) (β : Nat → K) : Qm M V β 0 = 1 := by
  ext i k
  show ev k.1 i.1 = _
  rw [Matrix.one_apply]
  unfold ev
  simp only [Fin.ext_iff]

theorem Qm_succ (M : Nat) (V : Nat → Nat → K) (β : Nat → K) (j : Nat) : Qm M V β (j+1) = Qm M V β j * Hm M V j (star (β j)) := by
  ext i k
  have := Qm_mul M M V β j (fun p k => H M V j (star (β j)) (ev k) p) i k
  show hsA M V β 0 (j+1) (ev k) i = _
  rw [hsA, Nat.zero_add]
  exact this.symm

theorem Hm_adj (M : Nat) (V : Nat → Nat → K) (j : Nat) (b : K) : (Hm M V j b)ᴴ = Hm M V j (star b) := by
  ext i k
  show star (H M V j b (ev i) k) = H M V j (star b) (ev k) i
  rw [← ip_ev' (H M V j b (ev i)) k.2, H_ip, ip_ev _ i.2]

theorem Hm_unit {M : Nat} {V : Nat → Nat → K} {j : Nat} {b : K} (h : Valid M V j b) : Hm M V j (star b) * Hm M V j b = 1 := by
  ext i k
  have := Hm_mul M M V j (star b) (fun p k => H M V j b (ev k) p) i k
  refine this.trans ?_
  show H M V j (star b) (H M V j b (ev k)) i = _
  rw [H_star_H h, Matrix.one_apply]
  unfold ev
  simp only [Fin.ext_iff]

theorem Qm_unit {M : Nat} {V : Nat → Nat → K} {β : Nat → K} : ∀ {j : Nat}, (∀ k, k < j → Valid M V k (β k)) → (Qm M V β j)ᴴ * Qm M V β j = 1
  | 0, _ => by rw [Qm_zero, conjTranspose_one, Matrix.one_mul]
  | j+1, h => by
    have ih := Qm_unit (j := j) fun k hk => h k (by omega)
    rw [Qm_succ, conjTranspose_mul, Hm_adj, star_star]
    calc Hm M V j (β j) * (Qm M V β j)ᴴ * (Qm M V β j * Hm M V j (star (β j)))
        = Hm M V j (β j) * ((Qm M V β j)ᴴ * Qm M V β j) * Hm M V j (star (β j)) := by simp only [Matrix.mul_assoc]
      _ = 1 := by
        rw [ih, Matrix.mul_one]
        have := Hm_unit (h j (by omega)).star
        rwa [star_star] at this

theorem Qm_congr {M : Nat} {V V' : Nat → Nat → K} {β β' : Nat → K} {j : Nat} (h : ∀ p k, k < j → k < p → p < M → V p k = V' p k)
    (hb : ∀ k, k < j → β k = β' k) : Qm M V β j = Qm M V' β' j := by
  unfold Qm
  rw [hsA_congr (V := V) (V' := V') (β := β) (β' := β') j (fun p k _ h1 h2 h3 => h p k (by omega) h2 h3) (fun k _ h1 => hb k (by omega))]

/-- `[[1,0],[0,P]]`. -/
def emb {n : Nat} (P : Matrix (Fin n) (Fin n) K) : Matrix (Fin (n+1)) (Fin (n+1)) K :=
  Matrix.of fun i j => Fin.cases (Fin.cases 1 (fun _ => 0) j) (fun i => Fin.cases 0 (fun j => P i j) j) i

theorem emb_mul {n : Nat} (P Q : Matrix (Fin n) (Fin n) K) : emb P * emb Q = emb (P * Q) := by
  ext i j
  rw [Matrix.mul_apply, Fin.sum_univ_succ]
  refine Fin.cases ?_ (fun i => ?_) i <;> refine Fin.cases ?_ (fun j => ?_) j <;> simp [emb, Matrix.mul_apply]

theorem emb_one {n : Nat} : emb (1 : Matrix (Fin n) (Fin n) K) = 1 := by
  ext i j
  refine Fin.cases ?_ (fun i => ?_) i <;> refine Fin.cases ?_ (fun j => ?_) j <;> simp [emb, Matrix.one_apply, Fin.ext_iff]

theorem emb_adj {n : Nat} (P : Matrix (Fin n) (Fin n) K) : (emb P)ᴴ = emb Pᴴ := by
  ext i j
  refine Fin.cases ?_ (fun i => ?_) i <;> refine Fin.cases ?_ (fun j => ?_) j <;> simp [emb]

theorem emb_det {n : Nat} (P : Matrix (Fin n) (Fin n) K) : (emb P).det = P.det := by
  rw [Matrix.det_succ_row_zero, Fin.sum_univ_succ]
  have : ∀ x : Fin n, emb P 0 x.succ = 0 := fun x => by simp [emb]
  simp only [this]
  simp [emb]
  rfl

theorem emb_mul_zero {n N : Nat} (P : Matrix (Fin n) (Fin n) K) (X : Matrix (Fin (n+1)) (Fin N) K) (p : Fin N) : (emb P * X) 0 p = X 0 p := by
  rw [Matrix.mul_apply, Fin.sum_univ_succ]
  simp [emb]

theorem emb_mul_succ {n N : Nat} (P : Matrix (Fin n) (Fin n) K) (X : Matrix (Fin (n+1)) (Fin N) K) (i : Fin n) (p : Fin N) :
    (emb P * X) i.succ p = ∑ k : Fin n, P i k * X k.succ p := by
  rw [Matrix.mul_apply, Fin.sum_univ_succ]
  simp [emb]

/-- What has been achieved after `jc` reflections from the left and `jr` from the right: but for the elements `C` that are left, the
reflectors are in the columns of `V` and `V'`.  `F` collects the elements below the underflow threshold that have been dropped. -/
structure Inv (tiny : ℝ) (M n jc jr : Nat) (A0 C V V' : Nat → Nat → K) (β γ : Nat → K) (d e : Nat → K) : Prop where
  valid : ∀ k, k < jc → Valid M V k (β k)
  valid' : ∀ k, k < jr → Valid n V' k (γ k)
  bz : ∀ k, k < jc → β k = 0 → ∀ p, k < p → p < M → V p k = 0
  bz' : ∀ k, k < jr → γ k = 0 → ∀ p, k < p → p < n → V' p k = 0
  ex : ∃ F : Matrix (Fin M) (Fin (n+1)) K, fro F ≤ (jc * Real.sqrt M + jr * Real.sqrt n) * tiny ∧
    ((∀ k, k < jc → d k ≠ 0) → (∀ k, k < jr → e k ≠ 0) → F = 0) ∧
    matOf M (n+1) A0 + F = Qm M V β jc * matOf M (n+1) C * (emb (Qm n V' γ jr))ᵀ

theorem Inv.zero (tiny : ℝ) (M n : Nat) (A0 V V' : Nat → Nat → K) (β γ d e : Nat → K) : Inv tiny M n 0 0 A0 A0 V V' β γ d e where
  valid := fun _ h => by omega
  valid' := fun _ h => by omega
  bz := fun _ h => by omega
  bz' := fun _ h => by omega
  ex := ⟨0, by rw [fro_zero]; simp, fun _ _ => rfl, by rw [Qm_zero, Qm_zero, emb_one, transpose_one, Matrix.mul_one, Matrix.one_mul, add_zero]⟩

/-- The remaining elements and the reflectors may be replaced by equal ones. -/
theorem Inv.congr {tiny : ℝ} {M n jc jr : Nat} {A0 C C1 V V1 V' V1' : Nat → Nat → K} {β β1 γ γ1 d d1 e e1 : Nat → K}
    (h : Inv tiny M n jc jr A0 C V V' β γ d e) (hC : ∀ i p, i < M → p < n+1 → C i p = C1 i p)
    (hV : ∀ p k, k < jc → k < p → p < M → V p k = V1 p k) (hV' : ∀ p k, k < jr → k < p → p < n → V' p k = V1' p k)
    (hβ : ∀ k, k < jc → β k = β1 k) (hγ : ∀ k, k < jr → γ k = γ1 k) (hd : ∀ k, k < jc → d k = d1 k) (he : ∀ k, k < jr → e k = e1 k) :
    Inv tiny M n jc jr A0 C1 V1 V1' β1 γ1 d1 e1 where
  valid := fun k hk => by rw [← hβ k hk]; exact (h.valid k hk).congr fun p h1 h2 => hV p k hk h1 h2
  valid' := fun k hk => by rw [← hγ k hk]; exact (h.valid' k hk).congr fun p h1 h2 => hV' p k hk h1 h2
  bz := fun k hk h0 p h1 h2 => by rw [← hV p k hk h1 h2]; exact h.bz k hk (by rw [hβ k hk]; exact h0) p h1 h2
  bz' := fun k hk h0 p h1 h2 => by rw [← hV' p k hk h1 h2]; exact h.bz' k hk (by rw [hγ k hk]; exact h0) p h1 h2
  ex := by
    obtain ⟨F, f1, f2, f3⟩ := h.ex
    refine ⟨F, f1, fun a b => f2 (fun k hk => by rw [hd k hk]; exact a k hk) (fun k hk => by rw [he k hk]; exact b k hk), ?_⟩
    rw [f3, Qm_congr hV hβ, Qm_congr hV' hγ]
    congr 2
    ext i p
    exact hC i p i.2 p.2

theorem fro_col {M N : Nat} (ε : Nat → K) (j : Nat) (hj : j < N) :
    fro (matOf M N fun i p => if p = j then ε i else 0) = Real.sqrt (nsq M ε) := by
  rw [fro_cols]
  congr 1
  rw [Finset.sum_eq_single (⟨j, hj⟩ : Fin N)]
  · unfold norm2sq nsq matOf
    rw [← Fin.sum_univ_eq_sum_range (fun p => RCLike.normSq (ε p)) M]
    refine Finset.sum_congr rfl fun i _ => ?_
    simp [RCLike.normSq_eq_def']
  · intro b _ hb
    unfold norm2sq matOf
    refine Finset.sum_eq_zero fun i _ => ?_
    have : ¬ (b.1 = j) := fun h => hb (Fin.ext h)
    simp [this]
  · intro h; exact absurd (Finset.mem_univ _) h

theorem fro_row {M N : Nat} (ε : Nat → K) (j : Nat) (hj : j < M) :
    fro (matOf M (N+1) fun i p => if i = j ∧ p ≠ 0 then ε (p-1) else 0) = Real.sqrt (nsq N ε) := by
  rw [← fro_transpose, fro_cols]
  congr 1
  rw [Finset.sum_eq_single (⟨j, hj⟩ : Fin M)]
  · unfold norm2sq nsq matOf
    rw [← Fin.sum_univ_eq_sum_range (fun p => RCLike.normSq (ε p)) N, Fin.sum_univ_succ]
    have h0 : ‖(Matrix.of fun (i : Fin M) (p : Fin (N+1)) => if i.1 = j ∧ p.1 ≠ 0 then ε (p.1-1) else 0)ᵀ 0 ⟨j, hj⟩‖ ^ 2 = 0 := by
      simp
    rw [h0, zero_add]
    refine Finset.sum_congr rfl fun i _ => ?_
    rw [RCLike.normSq_eq_def']
    simp
  · intro b _ hb
    unfold norm2sq matOf
    refine Finset.sum_eq_zero fun i _ => ?_
    have : ¬ (b.1 = j) := fun h => hb (Fin.ext h)
    simp [this]
  · intro h; exact absurd (Finset.mem_univ _) h

/-- A reflection from the left. -/
theorem Inv.col {tiny : ℝ} {M n jc jr : Nat} {A0 C C1 V V' : Nat → Nat → K} {β γ d e : Nat → K}
    (h : Inv tiny M n jc jr A0 C V V' β γ d e) (ht : 0 < tiny) (hj : jc < n+1) (hval : Valid M V jc (β jc))
    (hbz : β jc = 0 → ∀ p, jc < p → p < M → V p jc = 0) (ε : Nat → K) (hε : nsq M ε ≤ M * tiny ^ 2) (hε0 : d jc ≠ 0 → ε = fun _ => 0)
    (hC : ∀ i p, i < M → p < n+1 → H M V jc (β jc) (fun i => C i p + if p = jc then ε i else 0) i = C1 i p) :
    Inv tiny M n (jc+1) jr A0 C1 V V' β γ d e where
  valid := fun k hk => by
    rcases Nat.lt_succ_iff_lt_or_eq.mp hk with h1 | h1
    · exact h.valid k h1
    · rw [h1]; exact hval
  valid' := h.valid'
  bz := fun k hk => by
    rcases Nat.lt_succ_iff_lt_or_eq.mp hk with h1 | h1
    · exact h.bz k h1
    · rw [h1]; exact hbz
  bz' := h.bz'
  ex := by
    obtain ⟨F, f1, f2, f3⟩ := h.ex
    set G := matOf M (n+1) fun i p => if p = jc then ε i else 0 with hG
    have hq := Qm_unit h.valid
    have hq' := Qm_unit h.valid'
    have he' : (emb (Qm n V' γ jr))ᵀ * ((emb (Qm n V' γ jr))ᵀ)ᴴ = 1 := by
      have : (emb (Qm n V' γ jr))ᴴ * emb (Qm n V' γ jr) = 1 := by rw [emb_adj, emb_mul, hq', emb_one]
      have := congrArg transpose this
      rw [transpose_mul, transpose_one] at this
      exact this
    have key : matOf M (n+1) C + G = Hm M V jc (star (β jc)) * matOf M (n+1) C1 := by
      have e : matOf M (n+1) C1 = Hm M V jc (β jc) * (matOf M (n+1) C + G) := by
        ext i p
        have := Hm_mul M (n+1) V jc (β jc) (fun i p => C i p + if p = jc then ε i else 0) i p
        rw [hC i p i.2 p.2] at this
        exact this.symm
      rw [e, ← Matrix.mul_assoc, Hm_unit hval, Matrix.one_mul]
    refine ⟨F + Qm M V β jc * G * (emb (Qm n V' γ jr))ᵀ, ?_, ?_, ?_⟩
    · refine (fro_add _ _).trans ?_
      rw [fro_iso' he', fro_iso hq, hG, fro_col ε jc hj]
      have : Real.sqrt (nsq M ε) ≤ Real.sqrt M * tiny := by
        calc Real.sqrt (nsq M ε) ≤ Real.sqrt (M * tiny ^ 2) := Real.sqrt_le_sqrt hε
          _ = Real.sqrt M * tiny := by rw [Real.sqrt_mul (Nat.cast_nonneg M), Real.sqrt_sq ht.le]
      push_cast
      linarith
    · intro hd he
      rw [f2 (fun k hk => hd k (by omega)) he, zero_add, hG]
      have : (matOf M (n+1) fun i p => if p = jc then ε i else 0) = 0 := by
        ext i p
        rw [hε0 (hd jc (by omega))]
        simp [matOf]
      rw [this, Matrix.mul_zero, Matrix.zero_mul]
    · rw [← add_assoc, f3, ← Matrix.add_mul, ← Matrix.mul_add, key, Qm_succ]
      simp only [Matrix.mul_assoc]

/-- A reflection from the right. -/
theorem Inv.row {tiny : ℝ} {M n jc jr : Nat} {A0 C C1 V V' : Nat → Nat → K} {β γ d e : Nat → K}
    (h : Inv tiny M n jc jr A0 C V V' β γ d e) (ht : 0 < tiny) (hj : jr < M) (hval : Valid n V' jr (γ jr))
    (hbz : γ jr = 0 → ∀ p, jr < p → p < n → V' p jr = 0) (ε : Nat → K) (hε : nsq n ε ≤ n * tiny ^ 2) (hε0 : e jr ≠ 0 → ε = fun _ => 0)
    (hC0 : ∀ i, i < M → C1 i 0 = C i 0)
    (hC : ∀ i p, i < M → p < n → H n V' jr (γ jr) (fun p => C i (p+1) + if i = jr then ε p else 0) p = C1 i (p+1)) :
    Inv tiny M n jc (jr+1) A0 C1 V V' β γ d e where
  valid := h.valid
  valid' := fun k hk => by
    rcases Nat.lt_succ_iff_lt_or_eq.mp hk with h1 | h1
    · exact h.valid' k h1
    · rw [h1]; exact hval
  bz := h.bz
  bz' := fun k hk => by
    rcases Nat.lt_succ_iff_lt_or_eq.mp hk with h1 | h1
    · exact h.bz' k h1
    · rw [h1]; exact hbz
  ex := by
    obtain ⟨F, f1, f2, f3⟩ := h.ex
    set G := matOf M (n+1) fun i p => if i = jr ∧ p ≠ 0 then ε (p-1) else 0 with hG
    have hq := Qm_unit h.valid
    have hq' := Qm_unit h.valid'
    have he' : (emb (Qm n V' γ jr))ᵀ * ((emb (Qm n V' γ jr))ᵀ)ᴴ = 1 := by
      have : (emb (Qm n V' γ jr))ᴴ * emb (Qm n V' γ jr) = 1 := by rw [emb_adj, emb_mul, hq', emb_one]
      have := congrArg transpose this
      rw [transpose_mul, transpose_one] at this
      exact this
    have key : matOf M (n+1) C + G = matOf M (n+1) C1 * (emb (Hm n V' jr (star (γ jr))))ᵀ := by
      have e : (matOf M (n+1) C1)ᵀ = emb (Hm n V' jr (γ jr)) * (matOf M (n+1) C + G)ᵀ := by
        ext p i
        refine Fin.cases ?_ (fun p => ?_) p
        · rw [emb_mul_zero]
          show C1 i 0 = C i 0 + if i.1 = jr ∧ (0 : Nat) ≠ 0 then _ else _
          rw [if_neg (fun h => h.2 rfl), add_zero, hC0 i i.2]
        · rw [emb_mul_succ]
          have := Hm_mul n M V' jr (γ jr) (fun p i => C i (p+1) + if i = jr then ε p else 0) p i
          rw [hC i p i.2 p.2, Matrix.mul_apply] at this
          show C1 i (p+1) = _
          rw [← this]
          refine Finset.sum_congr rfl fun k _ => ?_
          congr 1
          show C i (k+1) + _ = C i (k+1) + if i.1 = jr ∧ (k.1+1) ≠ 0 then ε (k.1+1-1) else 0
          congr 1
          by_cases hi : i.1 = jr
          · rw [if_pos hi, if_pos ⟨hi, by omega⟩, Nat.add_sub_cancel]
          · rw [if_neg hi, if_neg (fun h => hi h.1)]
      have e2 : emb (Hm n V' jr (star (γ jr))) * (matOf M (n+1) C1)ᵀ = (matOf M (n+1) C + G)ᵀ := by
        rw [e, ← Matrix.mul_assoc, emb_mul, Hm_unit hval, emb_one, Matrix.one_mul]
      have := congrArg transpose e2
      rw [transpose_mul, transpose_transpose, transpose_transpose] at this
      exact this.symm
    refine ⟨F + Qm M V β jc * G * (emb (Qm n V' γ jr))ᵀ, ?_, ?_, ?_⟩
    · refine (fro_add _ _).trans ?_
      rw [fro_iso' he', fro_iso hq, hG, fro_row ε jr hj]
      have : Real.sqrt (nsq n ε) ≤ Real.sqrt n * tiny := by
        calc Real.sqrt (nsq n ε) ≤ Real.sqrt (n * tiny ^ 2) := Real.sqrt_le_sqrt hε
          _ = Real.sqrt n * tiny := by rw [Real.sqrt_mul (Nat.cast_nonneg n), Real.sqrt_sq ht.le]
      push_cast
      linarith
    · intro hd he
      rw [f2 hd (fun k hk => he k (by omega)), zero_add, hG]
      have : (matOf M (n+1) fun i p => if i = jr ∧ p ≠ 0 then ε (p-1) else 0) = 0 := by
        ext i p
        rw [hε0 (he jr (by omega))]
        simp [matOf]
      rw [this, Matrix.mul_zero, Matrix.zero_mul]
    · rw [← add_assoc, f3, ← Matrix.add_mul, ← Matrix.mul_add, key, Qm_succ, ← emb_mul, transpose_mul]
      simp only [Matrix.mul_assoc]

/-! ### One step, with the elements that are left in `X` -/

theorem H_low {M j : Nat} {V : Nat → Nat → K} {b : K} (x : Nat → K) {i : Nat} (h : i < j) : H M V j b x i = x i := by
  rw [H, hv, if_pos h]; ring

theorem ip_tail {M j : Nat} {V : Nat → Nat → K} {x y : Nat → K} (h : ∀ q, j ≤ q → q < M → x q = y q) :
    ip M (hv M V j) x = ip M (hv M V j) y := by
  refine Finset.sum_congr rfl fun q hq => ?_
  rw [Finset.mem_range] at hq
  by_cases hqj : q < j
  · rw [hv, if_pos hqj]; simp
  · rw [h q (by omega) hq]

theorem H_tail {M j : Nat} {V : Nat → Nat → K} {b : K} {x y : Nat → K} (h : ∀ q, j ≤ q → q < M → x q = y q) {i : Nat} (h1 : j ≤ i) (h2 : i < M) :
    H M V j b x i = H M V j b y i := by
  rw [H, H, ip_tail h, h i h1 h2]

theorem H_fix {M j : Nat} {V : Nat → Nat → K} {b : K} {x : Nat → K} (h : ∀ q, j ≤ q → q < M → x q = 0) (i : Nat) :
    H M V j b x i = x i := by
  have : ip M (hv M V j) x = ip M (hv M V j) (fun _ => 0) := ip_tail h
  rw [H, this]
  simp [ip]

/-- The bidiagonal part. -/
def bi (d e : Nat → K) (i p : Nat) : K := if i = p then d i else if i + 1 = p then e i else 0

/-- The elements left before the reflections `j`. -/
def Ck (j : Nat) (X : Nat → Nat → K) (d e : Nat → K) (i p : Nat) : K := if j ≤ i ∧ j ≤ p then X i p else bi d e i p

/-- The elements left between the reflection `j` from the left and the one from the right. -/
def Cc (j : Nat) (X : Nat → Nat → K) (d e : Nat → K) (i p : Nat) : K := if j ≤ i ∧ j < p then X i p else bi d e i p

theorem bi_zero {d e : Nat → K} {i p : Nat} (h1 : i ≠ p) (h2 : i + 1 ≠ p) : bi d e i p = 0 := by rw [bi, if_neg h1, if_neg h2]

theorem Ck_pos {j : Nat} {X : Nat → Nat → K} {d e : Nat → K} {i p : Nat} (h : j ≤ i ∧ j ≤ p) : Ck j X d e i p = X i p := by rw [Ck, if_pos h]
theorem Ck_neg {j : Nat} {X : Nat → Nat → K} {d e : Nat → K} {i p : Nat} (h : ¬ (j ≤ i ∧ j ≤ p)) : Ck j X d e i p = bi d e i p := by rw [Ck, if_neg h]

theorem Cc_pos {j : Nat} {X : Nat → Nat → K} {d e : Nat → K} {i p : Nat} (h : j ≤ i ∧ j < p) : Cc j X d e i p = X i p := by rw [Cc, if_pos h]
theorem Cc_neg {j : Nat} {X : Nat → Nat → K} {d e : Nat → K} {i p : Nat} (h : ¬ (j ≤ i ∧ j < p)) : Cc j X d e i p = bi d e i p := by rw [Cc, if_neg h]

theorem step_col {tiny : ℝ} {M n j jr : Nat} {A0 X X1 V V' : Nat → Nat → K} {β γ d e : Nat → K}
    (h : Inv tiny M n j jr A0 (Ck j X d e) V V' β γ d e) (ht : 0 < tiny) (hj : j < n+1) (hval : Valid M V j (β j))
    (hbz : β j = 0 → ∀ p, j < p → p < M → V p j = 0) (ε : Nat → K) (hεl : ∀ p, p < j → ε p = 0) (hε : nsq M ε ≤ M * tiny ^ 2)
    (hε0 : d j ≠ 0 → ε = fun _ => 0)
    (hcol : ∀ p, j ≤ p → p < M → H M V j (β j) (fun i => X i j + ε i) p = if j < p then 0 else d j)
    (hX : ∀ i p, j ≤ i → i < M → j < p → p < n+1 → X1 i p = H M V j (β j) (fun i => X i p) i) :
    Inv tiny M n (j+1) jr A0 (Cc j X1 d e) V V' β γ d e := by
  refine h.col ht hj hval hbz ε hε hε0 fun i p hi hp => ?_
  by_cases hij : i < j
  · rw [H_low _ hij, Ck_neg (by omega), Cc_neg (by omega)]
    split
    · rw [hεl i hij, add_zero]
    · rw [add_zero]
  · by_cases hpj : p = j
    · subst hpj
      have := hcol i (by omega) hi
      rw [H_tail (y := fun i => X i p + ε i) (fun q h1 h2 => by rw [if_pos rfl, Ck_pos ⟨h1, le_rfl⟩]) (by omega) hi, this, Cc_neg (by omega)]
      by_cases h1 : p < i
      · rw [if_pos h1, bi_zero (by omega) (by omega)]
      · have : i = p := by omega
        subst this
        rw [if_neg h1, bi, if_pos rfl]
    · by_cases hp2 : p < j
      · rw [H_fix, if_neg hpj, add_zero, Ck_neg (by omega), Cc_neg (by omega)]
        intro q h1 h2
        rw [if_neg hpj, add_zero, Ck_neg (by omega), bi_zero (by omega) (by omega)]
      · rw [Cc_pos (by omega), hX i p (by omega) hi (by omega) hp]
        refine H_tail (fun q h1 h2 => ?_) (by omega) hi
        rw [if_neg hpj, add_zero, Ck_pos (by omega)]

theorem step_row {tiny : ℝ} {M n j : Nat} {A0 X X1 V V' : Nat → Nat → K} {β γ d e : Nat → K}
    (h : Inv tiny M n (j+1) j A0 (Cc j X d e) V V' β γ d e) (ht : 0 < tiny) (hj : j < M) (hval : Valid n V' j (γ j))
    (hbz : γ j = 0 → ∀ p, j < p → p < n → V' p j = 0) (ε : Nat → K) (hεl : ∀ p, p < j → ε p = 0) (hε : nsq n ε ≤ n * tiny ^ 2)
    (hε0 : e j ≠ 0 → ε = fun _ => 0)
    (hrow : ∀ p, j ≤ p → p < n → H n V' j (γ j) (fun p => X j (p+1) + ε p) p = if j < p then 0 else e j)
    (hX : ∀ i p, j < i → i < M → j ≤ p → p < n → X1 i (p+1) = H n V' j (γ j) (fun p => X i (p+1)) p) :
    Inv tiny M n (j+1) (j+1) A0 (Ck (j+1) X1 d e) V V' β γ d e := by
  refine h.row ht hj hval hbz ε hε hε0 (fun i hi => by rw [Ck_neg (by omega), Cc_neg (by omega)]) fun i p hi hp => ?_
  by_cases hpj : p < j
  · rw [H_low _ hpj, Cc_neg (by omega), Ck_neg (by omega)]
    split
    · rw [hεl p hpj, add_zero]
    · rw [add_zero]
  · by_cases hij : i = j
    · subst hij
      have := hrow p (by omega) hp
      rw [H_tail (y := fun p => X i (p+1) + ε p) (fun q h1 h2 => by rw [if_pos rfl, Cc_pos (by omega)]) (by omega) hp, this, Ck_neg (by omega)]
      by_cases h1 : i < p
      · rw [if_pos h1, bi_zero (by omega) (by omega)]
      · have : i = p := by omega
        subst this
        rw [if_neg h1, bi, if_neg (by omega), if_pos rfl]
    · by_cases hi2 : i < j
      · rw [H_fix, if_neg hij, add_zero, Cc_neg (by omega), Ck_neg (by omega)]
        intro q h1 h2
        rw [if_neg hij, add_zero, Cc_neg (by omega), bi_zero (by omega) (by omega)]
      · rw [Ck_pos (by omega), hX i p (by omega) hi (by omega) hp]
        refine H_tail (fun q h1 h2 => ?_) (by omega) hp
        rw [if_neg hij, add_zero, Cc_pos (by omega)]

end
end TMV.Bidiag
