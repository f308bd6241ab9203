import Verif.Props.SVChop

/-! Zeros on the diagonal of the bidiagonal matrix. -/
namespace TMV.SVQR
open Matrix
variable {K : Type} [RCLike K]
variable {c : Cfg} {M N : Nat} {A : Matrix (Fin M) (Fin N) K} {τ β : ℝ}

/-- A bidiagonal matrix with one more element. -/
def bx (D E : Nat → ℝ) (x : ℝ) (r t a b : Nat) : ℝ := if a = r ∧ b = t then x else bR D E a b

theorem Inv.de {s : St K} {B : Matrix (Fin N) (Fin N) K} (h : Inv c M N A τ β s B) (D E : Nat → ℝ) : Inv c M N A τ β { s with D := D, E := E } B :=
  h.congr rfl rfl rfl

theorem rotU_D (c : Cfg) (g : Givens ℝ) (i k : Nat) (s : St K) : (rotU c g i k s).D = s.D := by rw [rotU]; split_ifs <;> rfl
theorem rotU_E (c : Cfg) (g : Givens ℝ) (i k : Nat) (s : St K) : (rotU c g i k s).E = s.E := by rw [rotU]; split_ifs <;> rfl
theorem rotV_D (c : Cfg) (g : Givens ℝ) (i k : Nat) (s : St K) : (rotV c g i k s).D = s.D := by rw [rotV]; split_ifs <;> rfl
theorem rotV_E (c : Cfg) (g : Givens ℝ) (i k : Nat) (s : St K) : (rotV c g i k s).E = s.E := by rw [rotV]; split_ifs <;> rfl

theorem rotate_ne {hge : c.ge = 0} {x y : ℝ} (hx : x ≠ 0) : (rotate c x y).1 ≠ 0 := by
  obtain ⟨-, h1, h2, h3⟩ := rotate_spec hge x y
  intro h0
  rw [h0] at h2
  have := h1.one
  apply hx
  have : x = (rotate c x y).2.2.c * ((rotate c x y).2.2.c * x + (rotate c x y).2.2.s * y) -
      (rotate c x y).2.2.s * ((rotate c x y).2.2.c * y - (rotate c x y).2.2.s * x) := by linear_combination (-x) * this
  rw [this, h2, h3]; ring

theorem zfr_spec (hge : c.ge = 0) (hm : c.hU = true → c.m = M) {p q : Nat} (hpq : p < q) (hq : q < N) {s : St K} (h : BInv c M N A τ β s)
    (hD : s.D p = 0) (hE : q + 1 < N → s.E q = 0) :
    BInv c M N A τ β (zeroFirstRow c p q s) ∧ Fr p q s (zeroFirstRow c p q s) ∧ (zeroFirstRow c p q s).D p = 0 ∧ (zeroFirstRow c p q s).E p = 0 ∧
      ∀ i, p < i → i ≤ q → s.D i ≠ 0 → (zeroFirstRow c p q s).D i ≠ 0 := by
  rw [zeroFirstRow]
  split_ifs with hx
  swap
  · rw [not_not] at hx
    exact ⟨h, Fr.refl s, hD, hx, fun i _ _ hi => hi⟩
  have key := Bidiag.up_succ (zfrStep c p) (fun i a => Inv c M N A τ β a.1 (mr N (bx a.1.D a.1.E a.2 p i)) ∧ (∀ k, i ≤ k → a.1.D k = s.D k ∧ a.1.E k = s.E k) ∧
      Fr p q s a.1 ∧ a.1.D p = 0 ∧ a.1.E p = 0 ∧ (i = q + 1 → s.E q = 0 → a.2 = 0) ∧ ∀ k, p < k → k < i → s.D k ≠ 0 → a.1.D k ≠ 0) (q-p) (p+1)
    ({ s with E := upd s.E p 0 }, s.E p) ?_ ?_
  · rw [show p + 1 + (q - p) = q + 1 by omega] at key
    obtain ⟨k1, k2, k3, k4, k5, k6, k7⟩ := key
    refine ⟨?_, k3, k4, k5, fun i h1 h2 => k7 i h1 (by omega)⟩
    convert k1 using 1
    refine mr_congr fun a b ha hb => ?_
    rw [bx]
    split_ifs with hab
    · have := k6 rfl (hE (by omega))
      rw [this, hab.1, hab.2, bR, if_neg (by omega), if_neg (by omega)]
    · rfl
  · refine ⟨?_, fun k hk => ⟨rfl, upd_ne _ (by omega)⟩, ⟨fun _ _ => rfl, fun i hi => upd_ne _ (by omega), fun hz => ?_⟩, hD, upd_same _ _ _,
      fun u => by omega, fun k h1 h2 => by omega⟩
    · convert h.congr (s' := { s with E := upd s.E p 0 }) rfl rfl rfl using 1
      refine mr_congr fun a b ha hb => ?_
      simp only [bx, bR, upd]
      grind
    · exact (upd_ne _ (by omega)).trans hz
  · rintro j ⟨s', x⟩ hj1 hj2 ⟨h1, h2, h3, h4, h5, -, h7⟩
    simp only at h1 h2 h3 h4 h5 h7
    obtain ⟨r1, r2, r3, r4⟩ := rotate_spec hge (s'.D j) x
    have hne := fun hz => rotate_ne (hge := hge) (x := s'.D j) (y := x) hz
    simp only [zfrStep, Givens.mult, givensMult, star_trivial, RCLike.ofReal_real_eq_id, id]
    generalize rotate c (s'.D j) x = r at *
    rw [r1, rotU_D, rotU_E]
    simp only
    refine ⟨?_, fun k hk => ⟨?_, ?_⟩, ⟨fun i hi => ?_, fun i hi => ?_, fun hz => ?_⟩, ?_, ?_, fun hj hz => ?_, fun k k1 k2 k3 => ?_⟩
    · refine Inv.rotU (h1.de _ _) hm r2 (i := j) (k := p) (by omega) (by omega) (by omega) (rowRot (by omega) (by omega) (by omega) ?_ ?_ ?_)
      · intro b hb
        simp only [bx, bR, upd]
        grind
      · intro b hb
        simp only [bx, bR, upd]
        grind
      · intro a b ha hb
        simp only [bx, bR, upd]
        grind
    · rw [upd_ne _ (by omega)]; exact (h2 k (by omega)).1
    · rw [upd_ne _ (by omega)]; exact (h2 k (by omega)).2
    · rw [rotU_D]; exact (upd_ne _ (by omega)).trans (h3.d i hi)
    · rw [rotU_E]; exact (upd_ne _ (by omega)).trans (h3.e i hi)
    · rw [rotU_E]
      simp only [upd]
      split_ifs with u
      · subst u; rw [h3.z hz]; simp
      · exact h3.z hz
    · rw [upd_ne _ (by omega)]; exact h4
    · rw [upd_ne _ (by omega)]; exact h5
    · obtain rfl : j = q := by omega
      rw [h3.z hz]; simp
    · rw [upd]
      split_ifs with u
      · subst u
        exact hne (by rw [(h2 k le_rfl).1]; exact k3)
      · exact h7 k k1 (by omega) k3

theorem zlcLoop_spec (hge : c.ge = 0) (hm : c.hV = true → c.n = N) {p q : Nat} (hpq : p < q) (hq : q < N) {s0 : St K} : ∀ (i : Nat) (s : St K) (x : ℝ), p + i ≤ q →
    Inv c M N A τ β s (mr N fun a b => if a + 1 = p + i ∧ b = q then x else bR s.D s.E a b) → (i = 0 → x = 0) → Fr p q s0 s → s.E (q-1) = 0 →
    (0 < p → s.E (p-1) = 0) → s.D q = 0 → s.E q = s0.E q →
    BInv c M N A τ β (zlcLoop c p q i (s, x)).1 ∧ Fr p q s0 (zlcLoop c p q i (s, x)).1 ∧ (zlcLoop c p q i (s, x)).1.D q = 0 ∧
      (zlcLoop c p q i (s, x)).1.E (q-1) = 0 ∧ (zlcLoop c p q i (s, x)).1.E q = s0.E q
  | 0, s, x, _, h, hx, hf, he, hp, hd, hE => by
    refine ⟨?_, hf, hd, he, hE⟩
    rw [zlcLoop]
    convert h using 1
    refine mr_congr fun a b ha hb => ?_
    split_ifs with hab
    · rw [hx rfl, hab.2, bR, if_neg (by omega), if_neg (by omega)]
    · rfl
  | i+1, s, x, hi, h, _, hf, he, hp, hd, hE => by
    obtain ⟨r1, r2, r3, r4⟩ := rotate_spec hge (s.D (p+i)) x
    simp only [zlcLoop, Givens.mult, givensMult, star_trivial, RCLike.ofReal_real_eq_id, id]
    generalize rotate c (s.D (p+i)) x = r at *
    rw [r1]
    by_cases h0 : i > 0
    · simp only [if_pos h0]
      refine zlcLoop_spec hge hm hpq hq i _ _ (by omega) ?_ (fun u => by omega) ⟨fun k hk => ?_, fun k hk => ?_, fun hz => ?_⟩ ?_ ?_ ?_ ?_
      · refine Inv.rotV (h.de _ _) hm r2 (i := p+i) (k := q) (by omega) (by omega) (by omega) (colRot (by omega) (by omega) (by omega) ?_ ?_ ?_)
        · intro a ha
          simp only [rotV_D, rotV_E, bR, upd]
          grind
        · intro a ha
          simp only [rotV_D, rotV_E, bR, upd]
          grind
        · intro a b ha hb
          simp only [rotV_D, rotV_E, bR, upd]
          grind
      · rw [rotV_D]; exact (upd_ne _ (by omega)).trans (hf.d k hk)
      · rw [rotV_E]; exact (upd_ne _ (by omega)).trans (hf.e k hk)
      · rw [rotV_E]; exact (upd_ne _ (by omega)).trans (hE.trans hz)
      · rw [rotV_E]; exact (upd_ne _ (by omega)).trans he
      · intro h1; rw [rotV_E]; exact (upd_ne _ (by omega)).trans (hp h1)
      · rw [rotV_D]; exact (upd_ne _ (by omega)).trans hd
      · rw [rotV_E]; exact (upd_ne _ (by omega)).trans hE
    · obtain rfl : i = 0 := by omega
      simp only [if_neg h0]
      refine zlcLoop_spec hge hm hpq hq 0 _ _ (by omega) ?_ (fun u => rfl) ⟨fun k hk => ?_, fun k hk => ?_, fun hz => ?_⟩ ?_ ?_ ?_ ?_
      · refine Inv.rotV (h.de _ _) hm r2 (i := p) (k := q) (by omega) (by omega) (by omega) (colRot (by omega) (by omega) (by omega) ?_ ?_ ?_)
        · intro a ha
          simp only [rotV_D, rotV_E, bR, upd]
          grind
        · intro a ha
          simp only [rotV_D, rotV_E, bR, upd]
          grind
        · intro a b ha hb
          simp only [rotV_D, rotV_E, bR, upd]
          grind
      · rw [rotV_D]; exact (upd_ne _ (by omega)).trans (hf.d k hk)
      · rw [rotV_E]; exact hf.e k hk
      · rw [rotV_E]; exact hE.trans hz
      · rw [rotV_E]; exact he
      · intro h1; rw [rotV_E]; exact hp h1
      · rw [rotV_D]; exact (upd_ne _ (by omega)).trans hd
      · rw [rotV_E]; exact hE

theorem zlc_spec (hge : c.ge = 0) (hm : c.hV = true → c.n = N) {p q : Nat} (hpq : p < q) (hq : q < N) {s : St K} (h : BInv c M N A τ β s)
    (hD : s.D q = 0) (hE : 0 < p → s.E (p-1) = 0) :
    BInv c M N A τ β (zeroLastCol c p q s) ∧ Fr p q s (zeroLastCol c p q s) ∧ (zeroLastCol c p q s).D q = 0 ∧ (zeroLastCol c p q s).E (q-1) = 0 ∧
      (zeroLastCol c p q s).E q = s.E q := by
  rw [zeroLastCol]
  split_ifs with hx
  swap
  · rw [not_not] at hx
    exact ⟨h, Fr.refl s, hD, hx, rfl⟩
  refine zlcLoop_spec hge hm hpq hq (q-p) _ _ (by omega) ?_ (fun u => by omega) ⟨fun _ _ => rfl, fun k hk => upd_ne _ (by omega), fun hz => ?_⟩
    (upd_same _ _ _) (fun h0 => ?_) hD (upd_ne _ (by omega))
  · convert h.congr (s' := { s with E := upd s.E (q-1) 0 }) rfl rfl rfl using 1
    refine mr_congr fun a b ha hb => ?_
    simp only [bR, upd]
    grind
  · exact (upd_ne _ (by omega)).trans hz
  · exact (upd_ne _ (by omega)).trans (hE h0)

end TMV.SVQR
