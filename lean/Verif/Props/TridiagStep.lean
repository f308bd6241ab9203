import Verif.Model.Tridiag
import Verif.Props.Bidiag
import Verif.Props.LDLInv

/-! Reflections from both sides (for C107). -/
namespace TMV.Tridiag
noncomputable section
open Classical Matrix TMV.QR
open Bidiag (Qm Hm emb emb_mul emb_one emb_adj emb_det emb_mul_zero emb_mul_succ Hm_mul Hm_unit Hm_adj Qm_unit Qm_zero Qm_succ Qm_congr fro_row Rc reflectCol_rc H_tail)
open LDL (cj_add cj_sub cj_mul cj_neg cj_one cj_zero cj_inv norm_cj cj_sum)
variable {K : Type} [RCLike K]

/-- The adjoint (`h`) or the transpose. -/
def ad (h : Bool) {m n : Type} (A : Matrix m n K) : Matrix n m K := Matrix.of fun i j => cj h (A j i)

theorem ad_true {m n : Type} (A : Matrix m n K) : ad true A = Aᴴ := by ext i j; simp [ad, cj]
theorem ad_false {m n : Type} (A : Matrix m n K) : ad false A = Aᵀ := by ext i j; simp [ad, cj]

theorem ad_mul (h : Bool) {l m n : Type} [Fintype m] (A : Matrix l m K) (B : Matrix m n K) : ad h (A * B) = ad h B * ad h A := by
  cases h
  · simp only [ad_false, transpose_mul]
  · simp only [ad_true, conjTranspose_mul]

theorem ad_one (h : Bool) {n : Type} [DecidableEq n] : ad h (1 : Matrix n n K) = 1 := by
  cases h
  · simp only [ad_false, transpose_one]
  · simp only [ad_true, conjTranspose_one]

theorem ad_unit (h : Bool) {n : Type} [Fintype n] [DecidableEq n] {U : Matrix n n K} (hu : Uᴴ * U = 1) : ad h U * (ad h U)ᴴ = 1 := by
  cases h
  · rw [ad_false]
    have := congrArg transpose hu
    rwa [transpose_mul, transpose_one] at this
  · rw [ad_true, conjTranspose_conjTranspose, hu]

theorem fro_cj (h : Bool) {m n : Type} [Fintype m] [Fintype n] (F : Matrix m n K) : fro (ad h F) = fro F := by
  rw [← fro_transpose, fro, fro]
  simp only [transpose_apply, ad, of_apply, norm_cj]

/-- The Householder vector of the reflection `j` in the rows of the whole matrix. -/
def vf (n : Nat) (V : Nat → Nat → K) (j q : Nat) : K := if q = 0 then 0 else hv n V j (q-1)

theorem vf_low {n j q : Nat} {V : Nat → Nat → K} (h : q ≤ j) : vf n V j q = 0 := by
  rw [vf]
  split
  · rfl
  · rw [hv, if_pos (by omega)]

theorem embH_mul {n N : Nat} (V : Nat → Nat → K) (j : Nat) (b : K) (X : Nat → Nat → K) (i : Fin (n+1)) (p : Fin N) :
    (emb (Hm n V j b) * matOf (n+1) N X) i p = X i p - vf n V j i * (b * ∑ q ∈ Finset.range (n+1), star (vf n V j q) * X q p) := by
  refine Fin.cases ?_ (fun i => ?_) i
  · rw [emb_mul_zero]
    show X 0 p = X 0 p - vf n V j 0 * _
    rw [vf_low (by omega), zero_mul, sub_zero]
  · rw [emb_mul_succ]
    have := Hm_mul n N V j b (fun q p => X (q+1) p) i p
    rw [Matrix.mul_apply] at this
    refine (show _ = _ from this).trans ?_
    rw [H, Finset.sum_range_succ']
    have e0 : star (vf n V j 0) * X 0 p = 0 := by rw [vf_low (by omega)]; simp
    rw [e0, add_zero]
    simp only [Fin.val_succ, vf, Nat.add_sub_cancel, ip, Nat.succ_ne_zero, if_false]

/-- `m - b v (mu)† - b† (mu) v† + b b† (u† m u) v v†`. -/
def lr (h : Bool) (N : Nat) (b : K) (v : Nat → K) (S : Nat → Nat → K) (i p : Nat) : K :=
  S i p - b * v i * cj h (∑ q ∈ Finset.range N, S p q * cj h (star (v q))) - cj h b * (∑ q ∈ Finset.range N, S i q * cj h (star (v q))) * cj h (v p)
    + b * cj h b * (∑ r ∈ Finset.range N, star (v r) * ∑ q ∈ Finset.range N, S r q * cj h (star (v q))) * (v i * cj h (v p))

theorem sym_kappa {h : Bool} {N : Nat} {v : Nat → K} {S : Nat → Nat → K} (hS : ∀ i p, i < N → p < N → S i p = cj h (S p i)) :
    cj h (∑ r ∈ Finset.range N, star (v r) * ∑ q ∈ Finset.range N, S r q * cj h (star (v q))) =
      ∑ r ∈ Finset.range N, star (v r) * ∑ q ∈ Finset.range N, S r q * cj h (star (v q)) := by
  rw [cj_sum]
  simp only [cj_mul, cj_sum, cj_inv, Finset.mul_sum]
  rw [Finset.sum_comm]
  refine Finset.sum_congr rfl fun r hr => Finset.sum_congr rfl fun q hq => ?_
  rw [Finset.mem_range] at hr hq
  rw [← hS r q hr hq]
  ring

theorem lr_sym {h : Bool} {N : Nat} {b : K} {v : Nat → K} {S : Nat → Nat → K} (hS : ∀ i p, i < N → p < N → S i p = cj h (S p i)) {i p : Nat} (hi : i < N) (hp : p < N) :
    lr h N b v S i p = cj h (lr h N b v S p i) := by
  have hk := sym_kappa (v := v) hS
  simp only [lr, cj_add, cj_sub, cj_mul, cj_inv] at hk ⊢
  rw [hk, ← hS i p hi hp]
  ring

theorem embH_both {h : Bool} {n : Nat} (V : Nat → Nat → K) (j : Nat) (b : K) {S : Nat → Nat → K} (hS : ∀ i p, i < n+1 → p < n+1 → S i p = cj h (S p i)) :
    emb (Hm n V j b) * matOf (n+1) (n+1) S * ad h (emb (Hm n V j b)) = matOf (n+1) (n+1) (lr h (n+1) b (vf n V j) S) := by
  set v := vf n V j with hv
  have e1 : emb (Hm n V j b) * matOf (n+1) (n+1) S = matOf (n+1) (n+1) fun i p => S i p - v i * (b * cj h (∑ q ∈ Finset.range (n+1), S p q * cj h (star (v q)))) := by
    ext i p
    rw [embH_mul]
    show _ = S i p - v i * (b * _)
    congr 3
    rw [cj_sum]
    refine Finset.sum_congr rfl fun q hq => ?_
    rw [Finset.mem_range] at hq
    rw [cj_mul, cj_inv, ← hS q p hq p.2, mul_comm]
  rw [e1]
  have e2 : ∀ Y : Nat → Nat → K, matOf (n+1) (n+1) Y * ad h (emb (Hm n V j b)) = ad h (emb (Hm n V j b) * matOf (n+1) (n+1) fun i p => cj h (Y p i)) := by
    intro Y
    rw [ad_mul]
    congr 1
    ext i p
    simp [ad, matOf]
  rw [e2]
  ext i p
  rw [ad, of_apply, embH_mul]
  show _ = lr h (n+1) b v S i p
  have e3 : ∑ q ∈ Finset.range (n+1), star (v q) * cj h (S i q - v i * (b * cj h (∑ r ∈ Finset.range (n+1), S q r * cj h (star (v r))))) =
      cj h ((∑ q ∈ Finset.range (n+1), S i q * cj h (star (v q))) - v i * b * cj h (∑ r ∈ Finset.range (n+1), star (v r) * ∑ q ∈ Finset.range (n+1), S r q * cj h (star (v q)))) := by
    rw [cj_sub, cj_sum, cj_mul, cj_inv, Finset.mul_sum, ← Finset.sum_sub_distrib]
    refine Finset.sum_congr rfl fun q _ => ?_
    simp only [cj_sub, cj_mul, cj_inv]
    ring
  rw [← hv, e3, sym_kappa hS]
  simp only [cj_sub, cj_mul, cj_inv, lr]
  ring

/-- The dropped elements of column and row `j`. -/
def Gf (h : Bool) (j : Nat) (ε : Nat → K) (i p : Nat) : K := (if p = j ∧ i ≠ 0 then ε (i-1) else 0) + if i = j ∧ p ≠ 0 then cj h (ε (p-1)) else 0

theorem Gf_sym (h : Bool) (j : Nat) (ε : Nat → K) (i p : Nat) : Gf h j ε i p = cj h (Gf h j ε p i) := by
  unfold Gf
  rw [cj_add, add_comm]
  congr 1 <;> split <;> simp

theorem fro_Gf {h : Bool} {n j : Nat} (hj : j < n+1) (ε : Nat → K) : fro (matOf (n+1) (n+1) (Gf h j ε)) ≤ 2 * Real.sqrt (nsq n ε) := by
  have e : matOf (n+1) (n+1) (Gf h j ε) = (matOf (n+1) (n+1) fun i p => if i = j ∧ p ≠ 0 then ε (p-1) else 0)ᵀ +
      matOf (n+1) (n+1) fun i p => if i = j ∧ p ≠ 0 then cj h (ε (p-1)) else 0 := by
    ext i p
    rfl
  rw [e]
  refine (fro_add _ _).trans (le_of_eq ?_)
  rw [fro_transpose, fro_row ε j hj, fro_row (fun p => cj h (ε p)) j hj]
  have : nsq n (fun p => cj h (ε p)) = nsq n ε := by
    unfold nsq
    refine Finset.sum_congr rfl fun p _ => ?_
    rw [RCLike.normSq_eq_def', RCLike.normSq_eq_def', norm_cj]
  rw [this]; ring

/-- What has been achieved after `j` reflections: but for the matrix `C` that is left, the reflectors are in the columns of `V`.  `F` collects the elements
below the underflow threshold that have been dropped. -/
structure Inv (h : Bool) (tiny : ℝ) (n j : Nat) (A0 C V : Nat → Nat → K) (β : Nat → K) (e : Nat → K) : Prop where
  valid : ∀ k, k < j → Valid n V k (β k)
  bz : ∀ k, k < j → β k = 0 → ∀ p, k < p → p < n → V p k = 0
  sym : ∀ i p, i < n+1 → p < n+1 → C i p = cj h (C p i)
  ex : ∃ F : Matrix (Fin (n+1)) (Fin (n+1)) K, fro F ≤ 2 * j * Real.sqrt n * tiny ∧ ((∀ k, k < j → e k ≠ 0) → F = 0) ∧
    matOf (n+1) (n+1) A0 + F = emb (Qm n V β j) * matOf (n+1) (n+1) C * ad h (emb (Qm n V β j))

variable {h : Bool} {tiny : ℝ} {n j : Nat}

theorem Inv.zero (A0 V : Nat → Nat → K) (β e : Nat → K) (hs : ∀ i p, i < n+1 → p < n+1 → A0 i p = cj h (A0 p i)) : Inv h tiny n 0 A0 A0 V β e where
  valid := fun _ h => by omega
  bz := fun _ h => by omega
  sym := hs
  ex := ⟨0, by rw [fro_zero]; simp, fun _ => rfl, by rw [Qm_zero, emb_one, ad_one, Matrix.mul_one, Matrix.one_mul, add_zero]⟩

theorem Inv.congr {A0 C C1 V V1 : Nat → Nat → K} {β β1 e e1 : Nat → K} (hI : Inv h tiny n j A0 C V β e)
    (hC : ∀ i p, i < n+1 → p < n+1 → C i p = C1 i p) (hV : ∀ p k, k < j → k < p → p < n → V p k = V1 p k)
    (hβ : ∀ k, k < j → β k = β1 k) (he : ∀ k, k < j → e k = e1 k) : Inv h tiny n j A0 C1 V1 β1 e1 where
  valid := fun k hk => by rw [← hβ k hk]; exact (hI.valid k hk).congr fun p h1 h2 => hV p k hk h1 h2
  bz := fun k hk h0 p h1 h2 => by rw [← hV p k hk h1 h2]; exact hI.bz k hk (by rw [hβ k hk]; exact h0) p h1 h2
  sym := fun i p hi hp => by rw [← hC i p hi hp, ← hC p i hp hi]; exact hI.sym i p hi hp
  ex := by
    obtain ⟨F, f1, f2, f3⟩ := hI.ex
    refine ⟨F, f1, fun a => f2 fun k hk => by rw [he k hk]; exact a k hk, ?_⟩
    rw [f3, Qm_congr hV hβ]
    congr 2
    ext i p
    exact hC i p i.2 p.2

/-- A reflection from both sides. -/
theorem Inv.step {A0 C C1 V : Nat → Nat → K} {β e : Nat → K} (hI : Inv h tiny n j A0 C V β e) (ht : 0 < tiny) (hj : j < n)
    (hval : Valid n V j (β j)) (hbz : β j = 0 → ∀ p, j < p → p < n → V p j = 0) (ε : Nat → K) (hε : nsq n ε ≤ n * tiny ^ 2)
    (hε0 : e j ≠ 0 → ε = fun _ => 0)
    (hC : ∀ i p, i < n+1 → p < n+1 → lr h (n+1) (β j) (vf n V j) (fun i p => C i p + Gf h j ε i p) i p = C1 i p) :
    Inv h tiny n (j+1) A0 C1 V β e := by
  have hS : ∀ i p, i < n+1 → p < n+1 → C i p + Gf h j ε i p = cj h (C p i + Gf h j ε p i) := fun i p hi hp => by
    rw [cj_add, ← hI.sym i p hi hp, ← Gf_sym]
  refine ⟨fun k hk => ?_, fun k hk => ?_, fun i p hi hp => ?_, ?_⟩
  · rcases Nat.lt_succ_iff_lt_or_eq.mp hk with h1 | h1
    · exact hI.valid k h1
    · rw [h1]; exact hval
  · rcases Nat.lt_succ_iff_lt_or_eq.mp hk with h1 | h1
    · exact hI.bz k h1
    · rw [h1]; exact hbz
  · rw [← hC i p hi hp, ← hC p i hp hi]
    exact lr_sym hS hi hp
  · obtain ⟨F, f1, f2, f3⟩ := hI.ex
    set G := matOf (n+1) (n+1) (Gf h j ε) with hG
    have hq : (emb (Qm n V β j))ᴴ * emb (Qm n V β j) = 1 := by rw [emb_adj, emb_mul, Qm_unit hI.valid, emb_one]
    have hq' := ad_unit h hq
    have key : matOf (n+1) (n+1) C + G = emb (Hm n V j (star (β j))) * matOf (n+1) (n+1) C1 * ad h (emb (Hm n V j (star (β j)))) := by
      have e1 : matOf (n+1) (n+1) C1 = emb (Hm n V j (β j)) * (matOf (n+1) (n+1) C + G) * ad h (emb (Hm n V j (β j))) := by
        have : matOf (n+1) (n+1) C + G = matOf (n+1) (n+1) fun i p => C i p + Gf h j ε i p := rfl
        rw [this, embH_both V j (β j) hS]
        ext i p
        exact (hC i p i.2 p.2).symm
      have e2 : emb (Hm n V j (star (β j))) * emb (Hm n V j (β j)) = 1 := by rw [emb_mul, Hm_unit hval, emb_one]
      have e3 : ad h (emb (Hm n V j (β j))) * ad h (emb (Hm n V j (star (β j)))) = 1 := by rw [← ad_mul, e2, ad_one]
      rw [e1]
      calc matOf (n+1) (n+1) C + G
          = emb (Hm n V j (star (β j))) * emb (Hm n V j (β j)) * (matOf (n+1) (n+1) C + G) * (ad h (emb (Hm n V j (β j))) * ad h (emb (Hm n V j (star (β j))))) := by
            rw [e2, e3, Matrix.one_mul, Matrix.mul_one]
        _ = _ := by simp only [Matrix.mul_assoc]
    refine ⟨F + emb (Qm n V β j) * G * ad h (emb (Qm n V β j)), ?_, ?_, ?_⟩
    · refine (fro_add _ _).trans ?_
      rw [fro_iso' hq', fro_iso hq]
      have h1 := fro_Gf (h := h) (show j < n+1 by omega) ε
      have h2 : Real.sqrt (nsq n ε) ≤ Real.sqrt n * tiny := by
        calc Real.sqrt (nsq n ε) ≤ Real.sqrt (n * tiny ^ 2) := Real.sqrt_le_sqrt hε
          _ = Real.sqrt n * tiny := by rw [Real.sqrt_mul (Nat.cast_nonneg n), Real.sqrt_sq ht.le]
      push_cast
      linarith
    · intro he
      rw [f2 (fun k hk => he k (by omega)), zero_add, hG]
      have : matOf (n+1) (n+1) (Gf h j ε) = 0 := by
        ext i p
        rw [hε0 (he j (by omega))]
        simp [matOf, Gf]
      rw [this, Matrix.mul_zero, Matrix.zero_mul]
    · rw [← add_assoc, f3, ← Matrix.add_mul, ← Matrix.mul_add, key, Qm_succ, ← emb_mul, ad_mul]
      simp only [Matrix.mul_assoc]

/-! ### One step, with the elements that are left in `X` -/

/-- The tridiagonal part. -/
def tri (d e : Nat → K) (i p : Nat) : K := if i = p then d i else if i + 1 = p then e i else if p + 1 = i then e p else 0

/-- The elements left before the reflection `j`. -/
def Ck (j : Nat) (X : Nat → Nat → K) (d e : Nat → K) (i p : Nat) : K := if j ≤ i ∧ j ≤ p then X i p else tri d e i p

theorem tri_zero {d e : Nat → K} {i p : Nat} (h1 : i ≠ p) (h2 : i + 1 ≠ p) (h3 : p + 1 ≠ i) : tri d e i p = 0 := by rw [tri, if_neg h1, if_neg h2, if_neg h3]
theorem Ck_pos {X : Nat → Nat → K} {d e : Nat → K} {i p : Nat} (h : j ≤ i ∧ j ≤ p) : Ck j X d e i p = X i p := by rw [Ck, if_pos h]
theorem Ck_neg {X : Nat → Nat → K} {d e : Nat → K} {i p : Nat} (h : ¬ (j ≤ i ∧ j ≤ p)) : Ck j X d e i p = tri d e i p := by rw [Ck, if_neg h]

/-- The sum over the part of a row right of `j`. -/
theorem sum_vf {N : Nat} {V : Nat → Nat → K} (f : Nat → K) (g : Nat → K) (hf : ∀ q, q ≤ j → g q = 0) (hN : j < N) :
    ∑ q ∈ Finset.range N, f q * g q = ∑ q ∈ Finset.Ico (j+1) N, f q * g q := by
  rw [Finset.range_eq_Ico, ← Finset.sum_Ico_consecutive _ (Nat.zero_le (j+1)) (by omega : j+1 ≤ N)]
  have : ∑ q ∈ Finset.Ico 0 (j+1), f q * g q = 0 := Finset.sum_eq_zero fun q hq => by
    rw [Finset.mem_Ico] at hq
    rw [hf q (by omega), mul_zero]
  rw [this, zero_add]

/-- The two-sided product on the rows and columns `lo..N`. -/
def lrI (h : Bool) (lo N : Nat) (b : K) (v : Nat → K) (X : Nat → Nat → K) (i p : Nat) : K :=
  X i p - b * v i * cj h (∑ q ∈ Finset.Ico lo N, X p q * cj h (star (v q))) - cj h b * (∑ q ∈ Finset.Ico lo N, X i q * cj h (star (v q))) * cj h (v p)
    + b * cj h b * (∑ r ∈ Finset.Ico lo N, star (v r) * ∑ q ∈ Finset.Ico lo N, X r q * cj h (star (v q))) * (v i * cj h (v p))

theorem step_both {A0 X X1 V : Nat → Nat → K} {β d e : Nat → K}
    (hI : Inv h tiny n j A0 (Ck j X d e) V β e) (ht : 0 < tiny) (hj : j < n) (hval : Valid n V j (β j))
    (hbz : β j = 0 → ∀ p, j < p → p < n → V p j = 0) (ε : Nat → K) (hεl : ∀ p, p < j → ε p = 0) (hε : nsq n ε ≤ n * tiny ^ 2)
    (hε0 : e j ≠ 0 → ε = fun _ => 0) (hd : d j = X j j) (he : cj h (e j) = e j)
    (hcol : ∀ p, j ≤ p → p < n → H n V j (β j) (fun p => X (p+1) j + ε p) p = if j < p then 0 else e j)
    (hX : ∀ i p, j < i → i < n+1 → j < p → p < n+1 → X1 i p = lrI h (j+1) (n+1) (β j) (vf n V j) X i p) :
    Inv h tiny n (j+1) A0 (Ck (j+1) X1 d e) V β e := by
  set v := vf n V j with hvd
  have v0 : ∀ q, q ≤ j → v q = 0 := fun q hq => vf_low hq
  have v0' : ∀ q, q ≤ j → cj h (star (v q)) = 0 := fun q hq => by rw [v0 q hq]; simp
  have gz : ∀ i p, i ≠ j → p ≠ j → Gf h j ε i p = 0 := fun i p hi hp => by
    rw [Gf, if_neg (by simp [hp]), if_neg (by simp [hi]), add_zero]
  have gl : ∀ i, i ≤ j → Gf h j ε i j = 0 := fun i hi => by
    rw [Gf]
    have h1 : (if j = j ∧ i ≠ 0 then ε (i-1) else 0) = 0 := by
      split
      · rw [hεl _ (by omega)]
      · rfl
    have h2 : (if i = j ∧ j ≠ 0 then cj h (ε (j-1)) else 0) = 0 := by
      split
      · rw [hεl _ (by omega)]; simp
      · rfl
    rw [h1, h2, add_zero]
  have gu : ∀ i, j < i → Gf h j ε i j = ε (i-1) := fun i hi => by rw [Gf, if_pos ⟨rfl, by omega⟩, if_neg (by omega), add_zero]
  set S : Nat → Nat → K := fun i p => Ck j X d e i p + Gf h j ε i p with hSd
  have hS : ∀ i p, i < n+1 → p < n+1 → S i p = cj h (S p i) := fun i p hi hp => by
    simp only [hSd]
    rw [cj_add, ← hI.sym i p hi hp, ← Gf_sym]
  have hm : ∀ i, ∑ q ∈ Finset.range (n+1), S i q * cj h (star (v q)) = ∑ q ∈ Finset.Ico (j+1) (n+1), S i q * cj h (star (v q)) :=
    fun i => sum_vf (V := V) _ _ v0' (by omega)
  have hmX : ∀ i, j < i → i < n+1 → ∑ q ∈ Finset.range (n+1), S i q * cj h (star (v q)) = ∑ q ∈ Finset.Ico (j+1) (n+1), X i q * cj h (star (v q)) := by
    intro i h1 h2
    rw [hm]
    refine Finset.sum_congr rfl fun q hq => ?_
    rw [Finset.mem_Ico] at hq
    simp only [hSd]
    rw [Ck_pos (by omega), gz i q (by omega) (by omega), add_zero]
  -- column `j`
  have hc : ∀ i, j < i → i < n+1 → S i j - v i * (β j * cj h (∑ q ∈ Finset.range (n+1), S j q * cj h (star (v q)))) = if i = j+1 then e j else 0 := by
    intro i h1 h2
    have := hcol (i-1) (by omega) (by omega)
    have e1 : (if j < i - 1 then 0 else e j) = if i = j+1 then e j else 0 := by
      by_cases hh : i = j+1
      · rw [if_pos hh, if_neg (by omega)]
      · rw [if_neg hh, if_pos (by omega)]
    rw [e1] at this
    rw [← this, H]
    have e2 : ∀ p, j ≤ p → X (p+1) j + ε p = S (p+1) j := fun p hp => by
      simp only [hSd]
      rw [Ck_pos (by omega), gu _ (by omega), Nat.add_sub_cancel]
    have e3 : hv n V j (i-1) = v i := by rw [hvd, vf, if_neg (by omega)]
    have e4 : ip n (hv n V j) (fun p => X (p+1) j + ε p) = cj h (∑ q ∈ Finset.range (n+1), S j q * cj h (star (v q))) := by
      rw [cj_sum, Finset.sum_range_succ', v0' 0 (by omega), mul_zero, cj_zero, add_zero, ip]
      refine Finset.sum_congr rfl fun p hp => ?_
      rw [Finset.mem_range] at hp
      rw [cj_mul, cj_inv, ← hS (p+1) j (by omega) (by omega)]
      have : v (p+1) = hv n V j p := by rw [hvd, vf, if_neg (by omega), Nat.add_sub_cancel]
      rw [this]
      by_cases hpj : j ≤ p
      · rw [e2 p hpj, mul_comm]
      · rw [hv, if_pos (by omega)]; simp
    rw [e3, e4]
    have := e2 (i-1) (by omega)
    rw [show i - 1 + 1 = i by omega] at this
    rw [← this]
    rw [show i - 1 + 1 = i by omega]
  refine hI.step ht hj hval hbz ε hε hε0 fun i p hi hp => ?_
  change lr h (n+1) (β j) v S i p = _
  -- rows and columns below `j`
  have hlow : ∀ i p, i < j → p < n+1 → S i p = tri d e i p := by
    intro i p h1 h2
    simp only [hSd]
    rw [Ck_neg (by omega)]
    by_cases hp : p = j
    · rw [hp, gl i (by omega), add_zero]
    · rw [gz i p (by omega) hp, add_zero]
  have hm0 : ∀ i, i < j → ∑ q ∈ Finset.range (n+1), S i q * cj h (star (v q)) = 0 := by
    intro i h1
    rw [hm]
    refine Finset.sum_eq_zero fun q hq => ?_
    rw [Finset.mem_Ico] at hq
    rw [hlow i q h1 (by omega), tri_zero (by omega) (by omega) (by omega), zero_mul]
  -- upper left part: symmetry lets us take `p ≤ i`
  have main : ∀ i p, i < n+1 → p ≤ i → lr h (n+1) (β j) v S i p = Ck (j+1) X1 d e i p := by
    intro i p hi hp
    by_cases hpj : p < j
    · -- nothing changes left of column `j`
      rw [lr, hm0 p hpj, v0 p (by omega), cj_zero, Ck_neg (by omega), hS i p hi (by omega), hlow p i hpj hi]
      simp only [mul_zero, sub_zero, add_zero]
      by_cases hip : i = p
      · rw [hip]
        have := hS p p (by omega) (by omega)
        rw [hlow p p hpj (by omega)] at this
        exact this.symm
      · by_cases hi1 : p + 1 = i
        · have h1 : tri d e p i = e p := by rw [tri, if_neg (by omega), if_pos hi1]
          have h2 : tri d e i p = e p := by rw [tri, if_neg hip, if_neg (by omega), if_pos hi1]
          rw [h1, h2]
          have := hI.sym i p hi (by omega)
          rw [Ck_neg (by omega), Ck_neg (by omega), h1, h2] at this
          exact this.symm
        · rw [tri_zero (by omega) (by omega) (by omega), tri_zero (by omega) (by omega) (by omega), cj_zero]
    · by_cases hpj' : p = j
      · subst hpj'
        rw [Ck_neg (by omega), lr, v0 p le_rfl, cj_zero, mul_zero, mul_zero, mul_zero, sub_zero, add_zero]
        by_cases hip : i = p
        · rw [hip, v0 p le_rfl, mul_zero, zero_mul, sub_zero, tri, if_pos rfl, hd]
          simp only [hSd]
          rw [Ck_pos (by omega), gl p le_rfl, add_zero]
        · have := hc i (by omega) hi
          have ht : tri d e i p = if i = p+1 then e p else 0 := by
            by_cases h1 : i = p + 1
            · rw [tri, if_neg hip, if_neg (by omega), if_pos h1.symm, if_pos h1]
            · rw [tri, if_neg hip, if_neg (by omega), if_neg (fun hh => h1 hh.symm), if_neg h1]
          rw [ht, ← this]
          ring
      · rw [Ck_pos (by omega), hX i p (by omega) hi (by omega) (by omega), lr, lrI, hmX i (by omega) hi, hmX p (by omega) (by omega)]
        have e1 : S i p = X i p := by
          simp only [hSd]
          rw [Ck_pos (by omega), gz i p (by omega) (by omega), add_zero]
        have e2 : ∑ r ∈ Finset.range (n+1), star (v r) * ∑ q ∈ Finset.range (n+1), S r q * cj h (star (v q)) =
            ∑ r ∈ Finset.Ico (j+1) (n+1), star (v r) * ∑ q ∈ Finset.Ico (j+1) (n+1), X r q * cj h (star (v q)) := by
          simp only [mul_comm (star (v _))]
          rw [sum_vf (V := V) _ (fun r => star (v r)) (fun q hq => by rw [v0 q hq]; simp) (by omega : j < n+1)]
          refine Finset.sum_congr rfl fun r hr => ?_
          rw [Finset.mem_Ico] at hr
          rw [hmX r (by omega) (by omega)]
        rw [e1, e2]
  rcases Nat.le_total p i with hpi | hpi
  · exact main i p hi hpi
  · rw [lr_sym hS hi hp, main p i hp hpi]
    -- the result is symmetric
    by_cases hip : i = p
    · subst hip
      rw [← main i i hi le_rfl]
      exact (lr_sym hS hi hi).symm
    · by_cases hj' : j < i
      · rw [Ck_pos (by omega), Ck_pos (by omega), hX p i (by omega) hp hj' hi, hX i p hj' hi (by omega) hp]
        have := lr_sym (b := β j) (v := v) hS hi hp
        have k1 : lr h (n+1) (β j) v S i p = lrI h (j+1) (n+1) (β j) v X i p := by
          rw [lr, lrI, hmX i (by omega) hi, hmX p (by omega) (by omega)]
          have e1 : S i p = X i p := by
            simp only [hSd]
            rw [Ck_pos (by omega), gz i p (by omega) (by omega), add_zero]
          have e2 : ∑ r ∈ Finset.range (n+1), star (v r) * ∑ q ∈ Finset.range (n+1), S r q * cj h (star (v q)) =
              ∑ r ∈ Finset.Ico (j+1) (n+1), star (v r) * ∑ q ∈ Finset.Ico (j+1) (n+1), X r q * cj h (star (v q)) := by
            simp only [mul_comm (star (v _))]
            rw [sum_vf (V := V) _ (fun r => star (v r)) (fun q hq => by rw [v0 q hq]; simp) (by omega : j < n+1)]
            refine Finset.sum_congr rfl fun r hr => ?_
            rw [Finset.mem_Ico] at hr
            rw [hmX r (by omega) (by omega)]
          rw [e1, e2]
        have k2 := main p i hp hpi
        rw [Ck_pos (by omega), hX p i (by omega) hp hj' hi] at k2
        rw [← k1, ← k2]
        exact this.symm
      · rw [Ck_neg (by omega), Ck_neg (by omega)]
        by_cases h1 : i + 1 = p
        · have a1 : tri d e i p = e i := by rw [tri, if_neg (by omega), if_pos h1]
          have a2 : tri d e p i = e i := by rw [tri, if_neg (by omega), if_neg (by omega), if_pos h1]
          rw [a1, a2]
          by_cases hij : i = j
          · rw [hij]; exact he
          · have := hI.sym i p hi hp
            rw [Ck_neg (by omega), Ck_neg (by omega), a1, a2] at this
            exact this.symm
        · rw [tri_zero (by omega) (by omega) (by omega), tri_zero (by omega) (by omega) (by omega), cj_zero]

end
end TMV.Tridiag
