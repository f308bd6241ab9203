import Verif.Model.EigQR
import Verif.Props.SVMain

/-! The QR iteration on a Hermitian tridiagonal matrix. -/
namespace TMV.EigQR
open Matrix
open SVQR (mr mr_congr Rm Rm_inv Rm_inv' Rm_adj Rm_one mul_RmT Orth upd upd_same upd_ne rowRot colRot fro_mono norm_le_fro underflow scan scan_spec)
variable {K : Type} [RCLike K]

/-- Elements of a symmetric tridiagonal matrix. -/
def tR (D E : Nat → ℝ) (a b : Nat) : ℝ := if a = b then D a else if a + 1 = b then E a else if b + 1 = a then E b else 0

theorem rotate_spec {c : Cfg} (hge : c.ge = 0) (x y : ℝ) : (rotate c x y).2.1 = 0 ∧ Orth (rotate c x y).2.2 ∧
    (rotate c x y).2.2.c * x + (rotate c x y).2.2.s * y = (rotate c x y).1 ∧ (rotate c x y).2.2.c * y - (rotate c x y).2.2.s * x = 0 :=
  SVQR.rotate_spec (c := ⟨false, false, 0, 0, 0, c.ge, 0, 0⟩) hge x y

/-- `A`, up to an error not larger than `τ` for every nonzero element that was dropped and `τ3` for those dropped by the third test, is `U T U†` with unitary `U`; the
code's `U` is this, where it has one; the norm of `T` has not grown over `β`. -/
def Inv (c : Cfg) (N : Nat) (A : Matrix (Fin N) (Fin N) K) (τ τ3 β : ℝ) (s : St K) (T : Matrix (Fin N) (Fin N) K) : Prop :=
  fro T ≤ β ∧ ∃ (U F : Matrix (Fin N) (Fin N) K),
    Uᴴ * U = 1 ∧ fro F ≤ s.cnt * τ + s.cnt3 * τ3 ∧ A + F = U * T * Uᴴ ∧ (c.hU = true → matOf N N s.U = U)

variable {c : Cfg} {N : Nat} {A : Matrix (Fin N) (Fin N) K} {τ τ3 β : ℝ}

theorem Inv.congr {s s' : St K} {T : Matrix (Fin N) (Fin N) K} (h : Inv c N A τ τ3 β s T) (h1 : s'.U = s.U) (h3 : s'.cnt = s.cnt) (h4 : s'.cnt3 = s.cnt3) :
    Inv c N A τ τ3 β s' T := by
  rw [Inv, h1, h3, h4]; exact h

theorem rotU_D (g : Givens ℝ) (i k : Nat) (s : St K) : (rotU c g i k s).D = s.D := by rw [rotU]; split_ifs <;> rfl
theorem rotU_E (g : Givens ℝ) (i k : Nat) (s : St K) : (rotU c g i k s).E = s.E := by rw [rotU]; split_ifs <;> rfl

theorem Inv.rotU {s : St K} {T T' : Matrix (Fin N) (Fin N) K} (h : Inv c N A τ τ3 β s T) (hm : c.hU = true → c.m = N) {g : Givens ℝ} (hg : Orth g)
    {i k : Nat} (hi : i < N) (hk : k < N) (hik : i ≠ k) (hB : Rm ⟨i, hi⟩ ⟨k, hk⟩ g.c g.s * T * (Rm ⟨i, hi⟩ ⟨k, hk⟩ g.c g.s)ᵀ = T') :
    Inv c N A τ τ3 β (rotU c g i k s) T' := by
  obtain ⟨hb, U, F, h1, h3, h4, h5⟩ := h
  have hne : (⟨i, hi⟩ : Fin N) ≠ ⟨k, hk⟩ := by simpa [Fin.ext_iff] using hik
  have e2 : (EigQR.rotU c g i k s).cnt = s.cnt := by rw [EigQR.rotU]; split_ifs <;> rfl
  have e3 : (EigQR.rotU c g i k s).cnt3 = s.cnt3 := by rw [EigQR.rotU]; split_ifs <;> rfl
  set R : Matrix (Fin N) (Fin N) K := Rm ⟨i, hi⟩ ⟨k, hk⟩ g.c g.s with hR
  have r1 : Rᵀ * R = 1 := Rm_inv hne hg.one
  have r2 : R * Rᵀ = 1 := Rm_inv' hne hg.one
  have r3 : Rᴴ = Rᵀ := Rm_adj _ _ _ _
  have r4 : Rᵀᴴ = R := by rw [← r3, conjTranspose_conjTranspose]
  refine ⟨?_, U * Rᵀ, F, ?_, by rw [e2, e3]; exact h3, ?_, fun hu => ?_⟩
  · rw [← hB, fro_iso' (by rw [r4, r1]), fro_iso (by rw [r3, r1])]; exact hb
  · rw [conjTranspose_mul, r4, Matrix.mul_assoc, ← Matrix.mul_assoc Uᴴ, h1, one_mul, r2]
  · rw [← hB, h4, conjTranspose_mul, r4]
    calc U * T * Uᴴ = U * (Rᵀ * R) * T * (Rᵀ * R) * Uᴴ := by rw [r1]; simp
      _ = _ := by simp only [Matrix.mul_assoc]
  · rw [EigQR.rotU]
    by_cases hs : g.s = 0
    · rw [if_neg (by simp [hs]), h5 hu]
      have : R = 1 := by rw [hR, hs, hg.zero hs, Rm_one]
      rw [this]; simp
    · rw [if_pos ⟨hu, hs⟩]
      ext a b
      rw [mul_RmT hne, ← h5 hu]
      simp only [matOf, of_apply, hm hu, a.2, if_true, Fin.ext_iff]

/-- Dropping a symmetric pair of elements, or one on the diagonal. -/
theorem Inv.drop {s s' : St K} {T T' : Matrix (Fin N) (Fin N) K} (h : Inv c N A τ τ3 β s T) (h1 : s'.U = s.U) {k k3 : Nat}
    (h3 : s'.cnt = s.cnt + k) (h4 : s'.cnt3 = s.cnt3 + k3) (hB : fro (T' - T) ≤ k * τ + k3 * τ3) (hb : fro T' ≤ fro T) : Inv c N A τ τ3 β s' T' := by
  obtain ⟨g0, U, F, g1, g3, g4, g5⟩ := h
  refine ⟨hb.trans g0, U, F + U * (T' - T) * Uᴴ, g1, ?_, ?_, fun u => h1 ▸ g5 u⟩
  · refine (fro_add _ _).trans ?_
    rw [fro_iso' (by rw [conjTranspose_conjTranspose, g1]), fro_iso g1, h3, h4]; push_cast; linarith
  · rw [← add_assoc, g4, Matrix.mul_sub, Matrix.sub_mul]; abel

theorem fro_two {F : Matrix (Fin N) (Fin N) K} {i j : Fin N} (hij : i ≠ j) {x : ℝ} (hx : 0 ≤ x) (h1 : ‖F i j‖ ≤ x) (h2 : ‖F j i‖ ≤ x)
    (h : ∀ a b, ¬ (a = i ∧ b = j) → ¬ (a = j ∧ b = i) → F a b = 0) : fro F ≤ Real.sqrt 2 * x := by
  rw [fro]
  refine Real.sqrt_le_iff.mpr ⟨by positivity, ?_⟩
  rw [mul_pow, Real.sq_sqrt (by norm_num)]
  have e : ∀ a, ∑ b, ‖F a b‖ ^ 2 = if a = i then ‖F i j‖ ^ 2 else if a = j then ‖F j i‖ ^ 2 else 0 := by
    intro a
    split_ifs with u v
    · subst u
      rw [Finset.sum_eq_single j]
      · intro b _ hb; rw [h a b (fun w => hb w.2) (fun w => hij w.1)]; simp
      · simp
    · subst v
      rw [Finset.sum_eq_single i]
      · intro b _ hb; rw [h a b (fun w => u w.1) (fun w => hb w.2)]; simp
      · simp
    · refine Finset.sum_eq_zero fun b _ => ?_
      rw [h a b (fun w => u w.1) (fun w => v w.1)]; simp
  rw [Finset.sum_congr rfl fun a _ => e a]
  have : ∑ a, (if a = i then ‖F i j‖ ^ 2 else if a = j then ‖F j i‖ ^ 2 else 0) = ‖F i j‖ ^ 2 + ‖F j i‖ ^ 2 := by
    have e : ∀ a, (if a = i then ‖F i j‖ ^ 2 else if a = j then ‖F j i‖ ^ 2 else 0) = (if a = i then ‖F i j‖ ^ 2 else 0) + (if a = j then ‖F j i‖ ^ 2 else 0) := by
      intro a
      by_cases u : a = i
      · subst u; simp [hij]
      · simp [u]
    rw [Finset.sum_congr rfl fun a _ => e a, Finset.sum_add_distrib]
    simp
  rw [this]
  have := pow_le_pow_left₀ (norm_nonneg _) h1 2
  have := pow_le_pow_left₀ (norm_nonneg _) h2 2
  linarith

/-- The matrix for the state `s`. -/
abbrev TInv (c : Cfg) (N : Nat) (A : Matrix (Fin N) (Fin N) K) (τ τ3 β : ℝ) (s : St K) : Prop := Inv c N A τ τ3 β s (mr N (tR s.D s.E))

theorem TInv.absD {s : St K} (h : TInv c N A τ τ3 β s) {i : Nat} (hi : i < N) : |s.D i| ≤ β := by
  have := (norm_le_fro (mr N (tR s.D s.E) : Matrix (Fin N) (Fin N) K) ⟨i, hi⟩ ⟨i, hi⟩).trans h.1
  simpa [mr, tR] using this

theorem TInv.zeroD {s s' : St K} (h : TInv c N A τ τ3 β s) {i : Nat} (hi : i < N) (h1 : s'.U = s.U) (hD : s'.D = upd s.D i 0) (hE : s'.E = s.E)
    (hc : s'.cnt = s.cnt + if s.D i = 0 then 0 else 1) (hc3 : s'.cnt3 = s.cnt3) (hx : |s.D i| ≤ τ) : TInv c N A τ τ3 β s' := by
  refine Inv.drop h h1 hc (k3 := 0) (by simpa using hc3) ?_ (fro_mono fun a b => ?_)
  · refine (SVQR.fro_one (i := ⟨i, hi⟩) (j := ⟨i, hi⟩) fun a b hab => ?_).trans ?_
    · simp only [Matrix.sub_apply, mr, of_apply, hD, hE, tR, upd]
      have : ¬ ((a : Nat) = i ∧ (b : Nat) = i) := by simpa [Fin.ext_iff] using hab
      rw [sub_eq_zero]
      congr 1
      grind
    · simp only [Matrix.sub_apply, mr, of_apply, hD, hE, tR, upd, if_true]
      split_ifs with u
      · simp [u]
      · simpa using hx
  · simp only [mr, of_apply, hD, hE, tR, upd]
    by_cases u : (a : Nat) = b
    · simp only [u, if_true]
      split_ifs
      · simp
      · exact le_rfl
    · simp only [u, if_false]; exact le_rfl

theorem TInv.zeroE {s s' : St K} (h : TInv c N A τ τ3 β s) {i : Nat} (hi : i + 1 < N) (h1 : s'.U = s.U) (hD : s'.D = s.D) (hE : s'.E = upd s.E i 0) {k k3 : Nat}
    (hc : s'.cnt = s.cnt + k) (hc3 : s'.cnt3 = s.cnt3 + k3) (hx : Real.sqrt 2 * |s.E i| ≤ k * τ + k3 * τ3) : TInv c N A τ τ3 β s' := by
  refine Inv.drop h h1 hc hc3 ?_ (fro_mono fun a b => ?_)
  · refine (fro_two (i := ⟨i, by omega⟩) (j := ⟨i+1, hi⟩) (by simp [Fin.ext_iff]) (abs_nonneg (s.E i)) ?_ ?_ fun a b hab hab' => ?_).trans hx
    · simp [Matrix.sub_apply, mr, of_apply, hD, hE, tR, upd]
    · have : ¬ i + 1 + 1 = i := by omega
      simp [Matrix.sub_apply, mr, of_apply, hD, hE, tR, upd, this]
    · simp only [Matrix.sub_apply, mr, of_apply, hD, hE, tR, upd]
      have : ¬ ((a : Nat) = i ∧ (b : Nat) = i+1) := by simpa [Fin.ext_iff] using hab
      have : ¬ ((a : Nat) = i+1 ∧ (b : Nat) = i) := by simpa [Fin.ext_iff] using hab'
      rw [sub_eq_zero]
      congr 1
      grind
  · simp only [mr, of_apply, hD, hE, tR, upd, RCLike.norm_ofReal]
    split_ifs <;> simp

/-- Nothing outside the rows `p..q` changes. -/
structure Fr (p q : Nat) (s s' : St K) : Prop where
  d : ∀ i, i < p ∨ q < i → s'.D i = s.D i
  e : ∀ i, i < p ∨ q ≤ i → s'.E i = s.E i

theorem Fr.refl {p q : Nat} (s : St K) : Fr p q s s := ⟨fun _ _ => rfl, fun _ _ => rfl⟩
theorem Fr.trans {p q : Nat} {s s' s'' : St K} (h : Fr p q s s') (h' : Fr p q s' s'') : Fr p q s s'' :=
  ⟨fun i hi => (h'.d i hi).trans (h.d i hi), fun i hi => (h'.e i hi).trans (h.e i hi)⟩
theorem Fr.widen {p q lo hi : Nat} {s s' : St K} (h : Fr p q s s') (h1 : lo ≤ p) (h2 : q ≤ hi) : Fr lo hi s s' :=
  ⟨fun i hi' => h.d i (by omega), fun i hi' => h.e i (by omega)⟩

/-- What the tests for negligible elements mean together: `β` bounds the elements. -/
structure Tau (c : Cfg) (τ τ3 β : ℝ) : Prop where
  ep : 0 ≤ c.eps
  t0 : 0 < c.tiny
  le1 : Real.sqrt 2 * (2 * c.eps * β) ≤ τ
  le2 : Real.sqrt 2 * c.tiny ≤ τ
  le3 : Real.sqrt 2 * (2 * Real.sqrt c.eps * β) ≤ τ3

theorem one_le_sqrt2 : (1:ℝ) ≤ Real.sqrt 2 := by rw [Real.one_le_sqrt]; norm_num

theorem chopD_spec (hτ : Tau c τ τ3 β) {i : Nat} (hi : i < N) {s : St K} (h : TInv c N A τ τ3 β s) :
    TInv c N A τ τ3 β (chopD c i s) ∧ (∀ k, k ≠ i → (chopD c i s).D k = s.D k) ∧ (chopD c i s).E = s.E := by
  rw [chopD]
  by_cases hu : underflow c.tiny (s.D i)
  · rw [if_pos hu]
    refine ⟨h.zeroD hi rfl rfl rfl rfl rfl ?_, fun k hk => upd_ne _ hk, rfl⟩
    have := hτ.le2; have := one_le_sqrt2; have := hτ.t0
    have : |s.D i| < c.tiny := hu
    nlinarith
  · rw [if_neg hu]
    exact ⟨h, fun _ _ => rfl, rfl⟩

theorem chopE_spec (hτ : Tau c τ τ3 β) {i : Nat} (hi : i + 1 < N) {s : St K} (h : TInv c N A τ τ3 β s) :
    TInv c N A τ τ3 β (chopE c i s) ∧ (chopE c i s).D = s.D ∧ (∀ k, k ≠ i → (chopE c i s).E k = s.E k) := by
  rw [chopE]
  by_cases hu : ¬ (|s.E i| > c.eps * (|s.D (i+1)| + |s.D i|)) ∨ underflow c.tiny (s.E i)
  · rw [if_pos hu]
    refine ⟨h.zeroE hi rfl rfl rfl rfl (k3 := 0) rfl ?_, rfl, fun k hk => upd_ne _ hk⟩
    have hb : Real.sqrt 2 * |s.E i| ≤ τ := by
      rcases hu with u | u
      · push Not at u
        have h1 := h.absD (i := i) (by omega); have h2 := h.absD (i := i+1) hi
        have := hτ.ep
        refine le_trans (mul_le_mul_of_nonneg_left ?_ (Real.sqrt_nonneg 2)) hτ.le1
        calc |s.E i| ≤ c.eps * (|s.D (i+1)| + |s.D i|) := u
          _ ≤ c.eps * (β + β) := by gcongr
          _ = 2 * c.eps * β := by ring
      · have u' : |s.E i| < c.tiny := u
        exact le_trans (mul_le_mul_of_nonneg_left u'.le (Real.sqrt_nonneg 2)) hτ.le2
    split_ifs with z
    · simp [z]
    · simpa using hb
  · rw [if_neg hu]
    exact ⟨h, rfl, fun _ _ => rfl⟩

theorem chopE3_spec (hτ : Tau c τ τ3 β) {i : Nat} (hi : i + 1 < N) {s : St K} (h : TInv c N A τ τ3 β s) :
    TInv c N A τ τ3 β (chopE3 c i s) ∧ (chopE3 c i s).D = s.D ∧ (∀ k, k ≠ i → (chopE3 c i s).E k = s.E k) := by
  rw [chopE3]
  by_cases hu : |s.E i| < Real.sqrt c.eps * (|s.D (i+1)| + |s.D i|) ∧ (s.D (i+1) + s.D i ≠ 0 ∧ underflow c.tiny (s.E i * ((s.D (i+1) - s.D i) / (s.D (i+1) + s.D i))))
  · rw [if_pos hu]
    refine ⟨h.zeroE hi rfl rfl rfl (k := 0) rfl rfl ?_, rfl, fun k hk => upd_ne _ hk⟩
    have hb : Real.sqrt 2 * |s.E i| ≤ τ3 := by
      have h1 := h.absD (i := i) (by omega); have h2 := h.absD (i := i+1) hi
      refine le_trans (mul_le_mul_of_nonneg_left ?_ (Real.sqrt_nonneg 2)) hτ.le3
      calc |s.E i| ≤ Real.sqrt c.eps * (|s.D (i+1)| + |s.D i|) := hu.1.le
        _ ≤ Real.sqrt c.eps * (β + β) := by gcongr
        _ = 2 * Real.sqrt c.eps * β := by ring
    split_ifs with z
    · simp [z]
    · simpa using hb
  · rw [if_neg hu]
    exact ⟨h, rfl, fun _ _ => rfl⟩

theorem chop_spec (hτ : Tau c τ τ3 β) {p q : Nat} (hpq : p ≤ q) (hq : q < N) {s : St K} (h : TInv c N A τ τ3 β s) :
    TInv c N A τ τ3 β (chop c p q s) ∧ Fr p q s (chop c p q s) := by
  have key := Bidiag.up_succ (chopStep c) (fun _ x => TInv c N A τ τ3 β x ∧ Fr p q s x) (q-p) p (chopD c p s)
    (by
      obtain ⟨h1, h2, h3⟩ := chopD_spec hτ (i := p) (by omega) h
      exact ⟨h1, fun i hi => h2 i (by omega), fun i _ => by rw [h3]⟩)
    (by
      intro j x hj1 hj2 ⟨h1, h2⟩
      obtain ⟨a1, a2, a3⟩ := chopD_spec hτ (i := j+1) (by omega) h1
      obtain ⟨b1, b2, b3⟩ := chopE_spec hτ (i := j) (by omega) a1
      obtain ⟨c1, c2, c3⟩ := chopE3_spec hτ (i := j) (by omega) b1
      rw [chopStep]
      refine ⟨c1, h2.trans ⟨fun i hi => ?_, fun i hi => ?_⟩⟩
      · rw [c2, b2, a2 i (by omega)]
      · rw [c3 i (by omega), b3 i (by omega), a3])
  exact key

/-! ### One sweep -/

/-- Before pass `j` of the sweep: the rotation `g` of the rows and columns `j`, `j+1` is still to be done; `E(j-1)` is already what it will be then. -/
structure Pend (c : Cfg) (N : Nat) (A : Matrix (Fin N) (Fin N) K) (τ τ3 β : ℝ) (p q : Nat) (s0 : St K) (j : Nat) (a : St K × ℝ × Givens ℝ) : Prop where
  x : a.2.1 = 0 ∨ j + 1 = q
  o : Orth a.2.2
  fr : Fr p q s0 a.1
  inv : ∃ e0 x0 : ℝ, (0 < j → a.1.E (j-1) = a.2.2.c * e0 + a.2.2.s * x0 ∧ a.2.2.c * x0 - a.2.2.s * e0 = 0) ∧
    Inv c N A τ τ3 β a.1 (mr N fun a' b => if a' + 1 = j ∧ b = j ∨ b + 1 = j ∧ a' = j then e0 else if a' + 1 = j ∧ b = j + 1 ∨ b + 1 = j ∧ a' = j + 1 then x0 else tR a.1.D a.1.E a' b)

theorem rotTwo {i k : Nat} (hi : i < N) (hk : k < N) (hik : i ≠ k) {c s : ℝ} {f g h : Nat → Nat → ℝ}
    (h1 : ∀ b, b < N → g i b = c * f i b + s * f k b) (h2 : ∀ b, b < N → g k b = c * f k b - s * f i b)
    (h3 : ∀ a b, a < N → b < N → a ≠ i → a ≠ k → g a b = f a b)
    (k1 : ∀ a, a < N → h a i = c * g a i + s * g a k) (k2 : ∀ a, a < N → h a k = c * g a k - s * g a i)
    (k3 : ∀ a b, a < N → b < N → b ≠ i → b ≠ k → h a b = g a b) :
    (Rm ⟨i, hi⟩ ⟨k, hk⟩ c s : Matrix (Fin N) (Fin N) K) * mr N f * (Rm ⟨i, hi⟩ ⟨k, hk⟩ c s)ᵀ = mr N h := by
  rw [rowRot hi hk hik h1 h2 h3, colRot hi hk hik k1 k2 k3]

theorem symRot {j : Nat} (hj : j + 1 < N) {c s : ℝ} (ho : c ^ 2 + s ^ 2 = 1) {D E : Nat → ℝ} {e0 x0 d0 d1 e : ℝ}
    (hE : 0 < j → E (j-1) = c * e0 + s * x0 ∧ c * x0 - s * e0 = 0)
    (hd0 : d0 = D j + (2 * c * (s * E j) + s * (D (j+1) - D j) * s)) (hd1 : d1 = D (j+1) - (2 * c * (s * E j) + s * (D (j+1) - D j) * s))
    (he : e = E j + s * (c * (D (j+1) - D j) - 2 * (s * E j))) :
    (Rm ⟨j, by omega⟩ ⟨j+1, hj⟩ c s : Matrix (Fin N) (Fin N) K) *
      mr N (fun a' b => if a' + 1 = j ∧ b = j ∨ b + 1 = j ∧ a' = j then e0 else if a' + 1 = j ∧ b = j + 1 ∨ b + 1 = j ∧ a' = j + 1 then x0 else tR D E a' b) *
      (Rm ⟨j, by omega⟩ ⟨j+1, hj⟩ c s)ᵀ =
    mr N (fun a b => if a = j ∧ b = j + 2 ∨ b = j ∧ a = j + 2 then s * E (j+1) else if a = j+1 ∧ b = j + 2 ∨ b = j+1 ∧ a = j + 2 then c * E (j+1) else
        tR (upd (upd D j d0) (j+1) d1) (upd E j e) a b) := by
  refine rotTwo (by omega) (by omega) (by omega)
        (g := fun a b => if a = j then (if b = j then c * D j + s * E j else if b = j + 1 then c * E j + s * D (j+1) else if b + 1 = j then E (j-1)
            else if b = j + 2 then s * E (j+1) else 0)
          else if a = j + 1 then (if b = j then c * E j - s * D j else if b = j + 1 then c * D (j+1) - s * E j else if b = j + 2 then c * E (j+1) else 0)
          else if a + 1 = j ∧ b = j then e0 else if a + 1 = j ∧ b = j + 1 then x0 else tR D E a b) ?_ ?_ ?_ ?_ ?_ ?_
  · intro b hb
    simp only [tR]
    grind
  · intro b hb
    simp only [tR]
    grind
  · intro a b ha hb h3 h4
    simp only [tR]
    grind
  · intro a ha
    simp only [tR, upd]
    grind
  · intro a ha
    simp only [tR, upd]
    grind
  · intro a b ha hb h3 h4
    simp only [tR, upd]
    grind

theorem redStep_spec (hge : c.ge = 0) (hm : c.hU = true → c.m = N) {p q j : Nat} (hj1 : p ≤ j) (hj2 : j < q) (hq : q < N)
    {s0 : St K} (hE : q + 1 < N → s0.E q = 0) {a : St K × ℝ × Givens ℝ} (h : Pend c N A τ τ3 β p q s0 j a) :
    (j + 1 < q → Pend c N A τ τ3 β p q s0 (j+1) (redStep c q j a)) ∧
    (j + 1 = q → TInv c N A τ τ3 β (redStep c q j a).1 ∧ Fr p q s0 (redStep c q j a).1) := by
  obtain ⟨hx, ho, hf, e0, x0, hj, hi⟩ := h
  obtain ⟨s, x, g⟩ := a
  simp only at hx ho hf hj hi
  have ho1 := ho.one
  simp only [redStep, Givens.mult, givensMult, givensSymMult, star_trivial, RCLike.ofReal_real_eq_id, id, rotU_D, rotU_E, if_true]
  obtain ⟨d0, hd0⟩ : ∃ d0, d0 = s.D j + (2 * g.c * (g.s * s.E j) + g.s * (s.D (j+1) - s.D j) * g.s) := ⟨_, rfl⟩
  obtain ⟨d1, hd1⟩ : ∃ d1, d1 = s.D (j+1) - (2 * g.c * (g.s * s.E j) + g.s * (s.D (j+1) - s.D j) * g.s) := ⟨_, rfl⟩
  obtain ⟨e, he⟩ : ∃ e, e = s.E j + g.s * (g.c * (s.D (j+1) - s.D j) - 2 * (g.s * s.E j)) := ⟨_, rfl⟩
  rw [← hd0, ← hd1, ← he]
  have i1 : ∀ D' E' : Nat → ℝ, Inv c N A τ τ3 β (EigQR.rotU c g j (j+1) { s with D := D', E := E' })
      (mr N fun a b => if a = j ∧ b = j + 2 ∨ b = j ∧ a = j + 2 then g.s * s.E (j+1) else if a = j+1 ∧ b = j + 2 ∨ b = j+1 ∧ a = j + 2 then g.c * s.E (j+1) else
        tR (upd (upd s.D j d0) (j+1) d1) (upd s.E j e) a b) := by
    intro D' E'
    have hr := symRot (K := K) (N := N) (j := j) (by omega) ho1 hj hd0 hd1 he
    have h0 := Inv.congr (s' := { s with D := D', E := E' }) hi rfl rfl rfl
    exact Inv.rotU h0 hm ho (by omega) (by omega) (by omega) hr
  by_cases hlast : j + 1 < q
  · refine ⟨fun _ => ?_, fun u => by omega⟩
    simp only [if_neg (show ¬ j + 1 = q by omega)]
    have hx0 : x = 0 := hx.resolve_right (by omega)
    simp (disch := omega) only [upd_same, upd_ne, hx0, mul_zero, zero_add, sub_zero]
    obtain ⟨t1, t2, t3, t4⟩ := rotate_spec hge e (g.s * s.E (j+1))
    generalize rotate c _ _ = t at *
    refine ⟨Or.inl t1, t2, hf.trans ⟨fun k hk => ?_, fun k hk => ?_⟩, e, g.s * s.E (j+1), fun _ => ⟨?_, t4⟩, ?_⟩
    · grind [upd, rotU_D]
    · grind [upd, rotU_E]
    · simp only [Nat.add_sub_cancel, upd_same]; exact t3.symm
    · refine Inv.congr (s := EigQR.rotU c g j (j+1) { s with D := _, E := _ }) ?_ rfl rfl rfl
      convert i1 _ _ using 1
      simp only [rotU_D, rotU_E]
      refine mr_congr fun a b ha hb => ?_
      simp only [tR, upd]
      grind
  · refine ⟨fun u => by omega, fun hl => ?_⟩
    simp only [if_pos hl]
    refine ⟨?_, hf.trans ⟨fun k hk => ?_, fun k hk => ?_⟩⟩
    · convert i1 _ _ using 1
      simp only [rotU_D, rotU_E]
      refine mr_congr fun a b ha hb => ?_
      have := hE
      have := hf.e q (by omega)
      simp only [tR, upd]
      grind
    · simp only [rotU_D, upd]; grind
    · simp only [rotU_E, upd]; grind

theorem reduce_spec (hge : c.ge = 0) (hm : c.hU = true → c.m = N) {p q : Nat} (hpq : p < q) (hq : q < N)
    {s : St K} (hE : q + 1 < N → s.E q = 0) (hp : 0 < p → s.E (p-1) = 0) (h : TInv c N A τ τ3 β s) :
    TInv c N A τ τ3 β (reduce c p q s) ∧ Fr p q s (reduce c p q s) := by
  rw [reduce, if_neg (by omega)]
  simp only
  obtain ⟨r1, r2, -, -⟩ := rotate_spec hge (s.D p - trailing q s.D s.E) (s.E p)
  generalize rotate c (s.D p - trailing q s.D s.E) (s.E p) = r at *
  have key := Bidiag.up_succ (redStep c q) (fun j a => (j < q → Pend c N A τ τ3 β p q s j a) ∧ (j = q → TInv c N A τ τ3 β a.1 ∧ Fr p q s a.1)) (q-p) p
    (s, r.2.1, r.2.2)
    ⟨fun _ => ⟨Or.inl r1, r2, Fr.refl s, 0, 0, fun h0 => ⟨by simpa using hp h0, by simp⟩, by
      convert h using 1
      refine mr_congr fun a b ha hb => ?_
      simp only [tR]
      grind⟩, fun u => by omega⟩
    (fun j a h1 h2 h3 => redStep_spec hge hm h1 (by omega) hq hE (h3.1 (by omega)))
  rw [show p + (q - p) = q by omega] at key
  exact key.2 rfl

/-- What a step that finishes the rows `lo..hi` does: `E` is zero there, nothing outside changes. -/
structure Done (c : Cfg) (N : Nat) (A : Matrix (Fin N) (Fin N) K) (τ τ3 β : ℝ) (lo hi : Nat) (s s' : St K) : Prop where
  inv : TInv c N A τ τ3 β s'
  fr : Fr lo hi s s'
  z : ∀ i, lo ≤ i → i < hi → s'.E i = 0

theorem qrLoop_spec (hge : c.ge = 0) (hm : c.hU = true → c.m = N) (hτ : Tau c τ τ3 β) {lo hi : Nat} (hhi : hi < N) {s0 : St K} :
    ∀ (f q : Nat) (s s' : St K), lo ≤ q → q ≤ hi → TInv c N A τ τ3 β s → Fr lo hi s0 s → (q + 1 < N → s.E q = 0) → (0 < lo → s.E (lo-1) = 0) →
      (∀ i, q ≤ i → i < hi → s.E i = 0) → qrLoop c lo f q s = some s' → Done c N A τ τ3 β lo hi s0 s'
  | 0, q, s, s', _, _, _, _, _, _, _, h => by simp [qrLoop] at h
  | f+1, q, s, s', h1, h2, hi', hf, hE, hp, hz, h => by
    rw [qrLoop] at h
    split_ifs at h with hq hEq
    · exact qrLoop_spec hge hm hτ hhi f (q-1) s s' (by omega) (by omega) hi' hf (fun _ => hEq) hp (fun i k1 k2 => by
          rcases Nat.lt_or_ge i q with u | u
          · obtain rfl : i = q - 1 := by omega
            exact hEq
          · exact hz i u k2) h
    · simp only at h
      obtain ⟨p1, p2, p3, p4⟩ := scan_spec (fun p => s.E (p-1) ≠ 0) lo (q-1) (by omega)
      generalize hpe : scan (fun p => s.E (p-1) ≠ 0) lo (q-1) = p at *
      have hEp : 0 < p → s.E (p-1) = 0 := by
        intro h0
        rcases p3 with u | u
        · subst u; exact hp h0
        · simpa using u
      obtain ⟨a1, a2⟩ := reduce_spec hge hm (by omega : p < q) (by omega) hE hEp hi'
      obtain ⟨b1, b2⟩ := chop_spec hτ (by omega : p ≤ q) (by omega) a1
      have fr := a2.trans b2
      refine qrLoop_spec hge hm hτ hhi f q _ s' h1 h2 b1 (hf.trans (fr.widen p1 h2)) (fun u => by rw [fr.e q (by omega)]; exact hE u) (fun u => ?_) (fun i k1 k2 => ?_) h
      · rw [fr.e _ (by omega)]; exact hp u
      · rw [fr.e i (by omega)]; exact hz i k1 k2
    · obtain rfl : lo = q := by omega
      cases h
      exact ⟨hi', hf, fun i k1 k2 => hz i k1 k2⟩

/-- What is expected of the divide and conquer part, on the problems it is called for. -/
def SolvesDC (c : Cfg) (N : Nat) (A : Matrix (Fin N) (Fin N) K) (τ τ3 β : ℝ) (dc : Nat → Nat → St K → Option (St K)) : Prop :=
  ∀ lo hi s s', c.dcl < hi - lo + 1 → lo ≤ hi → hi < N → TInv c N A τ τ3 β s → (hi + 1 < N → s.E hi = 0) →
    (0 < lo → s.E (lo-1) = 0) → (∀ i, lo ≤ i → i < hi → s.E i ≠ 0) → dc lo hi s = some s' → Done c N A τ τ3 β lo hi s s'

theorem doLoop_spec (hge : c.ge = 0) (hm : c.hU = true → c.m = N) (hτ : Tau c τ τ3 β) {dc : Nat → Nat → St K → Option (St K)} (hdc : SolvesDC c N A τ τ3 β dc)
    {fz hi : Nat} (hhi : hi < N) {s0 : St K} :
    ∀ (f q : Nat) (s s' : St K), q ≤ hi → TInv c N A τ τ3 β s → Fr 0 hi s0 s → (q + 1 < N → s.E q = 0) →
      (∀ i, q ≤ i → i < hi → s.E i = 0) → doLoop c (nz c dc fz) f q s = some s' → Done c N A τ τ3 β 0 hi s0 s'
  | 0, q, s, s', _, _, _, _, _, h => by simp [doLoop] at h
  | f+1, q, s, s', h2, hi', hf, hE, hz, h => by
    rw [doLoop] at h
    split_ifs at h with hq hEq
    · exact doLoop_spec hge hm hτ hdc hhi f (q-1) s s' (by omega) hi' hf (fun _ => hEq) (fun i k1 k2 => by
          rcases Nat.lt_or_ge i q with u | u
          · obtain rfl : i = q - 1 := by omega
            exact hEq
          · exact hz i u k2) h
    · simp only at h
      obtain ⟨p1, p2, p3, p4⟩ := scan_spec (fun p => s.E (p-1) ≠ 0) 0 (q-1) (by omega)
      generalize hpe : scan (fun p => s.E (p-1) ≠ 0) 0 (q-1) = p at *
      have hEp : 0 < p → s.E (p-1) = 0 := by
        intro h0
        rcases p3 with u | u
        · omega
        · simpa using u
      obtain ⟨s1, g1, g2⟩ := Option.bind_eq_some_iff.mp h
      have dn : Done c N A τ τ3 β p q s s1 := by
        rw [nz] at g1
        split_ifs at g1 with hs hs2
        · exact qrLoop_spec hge hm hτ (by omega) fz q s s1 (by omega) le_rfl hi' (Fr.refl s) hE hEp (fun i k1 k2 => by omega) g1
        · omega
        · refine hdc p q s s1 (by omega) (by omega) (by omega) hi' hE hEp (fun i k1 k2 => ?_) g1
          rcases Nat.lt_or_ge i (q-1) with u | u
          · exact p4 (i+1) (by omega) (by omega)
          · obtain rfl : i = q-1 := by omega
            exact hEq
      refine doLoop_spec hge hm hτ hdc hhi f p s1 s' (by omega) dn.inv (hf.trans (dn.fr.widen p1 h2)) (fun _ => dn.z p le_rfl (by omega)) (fun i k1 k2 => ?_) g2
      rcases Nat.lt_or_ge i q with u | u
      · exact dn.z i k1 u
      · rw [dn.fr.e i (by omega)]; exact hz i u k2
    · obtain rfl : q = 0 := by omega
      cases h
      exact ⟨hi', hf, fun i k1 k2 => hz i k1 k2⟩

theorem dec_spec (hge : c.ge = 0) (hm : c.hU = true → c.m = N) (hτ : Tau c τ τ3 β) {dc : Nat → Nat → St K → Option (St K)} (hdc : SolvesDC c N A τ τ3 β dc)
    (hN : 0 < N) {f : Nat} {s s' : St K} (hi : TInv c N A τ τ3 β s) (h : dec c dc f N s = some s') : Done c N A τ τ3 β 0 (N-1) s s' := by
  rw [dec] at h
  obtain ⟨a1, a2⟩ := chop_spec hτ (p := 0) (q := N-1) (by omega) (by omega) hi
  exact doLoop_spec hge hm hτ hdc (by omega) f (N-1) _ s' le_rfl a1 a2 (fun u => by omega) (fun i k1 k2 => by omega) h

end TMV.EigQR
