import Verif.Props.SVZero

/-! One QR sweep over the bidiagonal matrix. -/
namespace TMV.SVQR
open Matrix
variable {K : Type} [RCLike K]
variable {c : Cfg} {M N : Nat} {A : Matrix (Fin M) (Fin N) K} {τ β : ℝ}

/-- Before pass `j` of the sweep: the rotation `g` of the columns `j`, `j+1` is still to be done; `E(j-1)` is already what it will be then. -/
structure Pend (c : Cfg) (M N : Nat) (A : Matrix (Fin M) (Fin N) K) (τ β : ℝ) (p q : Nat) (s0 : St K) (j : Nat) (a : St K × ℝ × Givens ℝ) : Prop where
  x : a.2.1 = 0
  o : Orth a.2.2
  fr : Fr p q s0 a.1
  inv : ∃ e0 x0 : ℝ, (0 < j → a.1.E (j-1) = a.2.2.c * e0 + a.2.2.s * x0 ∧ a.2.2.c * x0 - a.2.2.s * e0 = 0) ∧
    Inv c M N A τ β a.1 (mr N fun a' b => if a' + 1 = j ∧ b = j then e0 else if a' + 1 = j ∧ b = j + 1 then x0 else bR a.1.D a.1.E a' b)

theorem redStep_spec (hge : c.ge = 0) (hmU : c.hU = true → c.m = M) (hmV : c.hV = true → c.n = N) {p q j : Nat} (hj1 : p ≤ j) (hj2 : j < q) (hq : q < N)
    {s0 : St K} (hE : q + 1 < N → s0.E q = 0) {a : St K × ℝ × Givens ℝ} (h : Pend c M N A τ β p q s0 j a) :
    (j + 1 < q → Pend c M N A τ β p q s0 (j+1) (redStep c q j a)) ∧
    (j + 1 = q → BInv c M N A τ β (redStep c q j a).1 ∧ Fr p q s0 (redStep c q j a).1) := by
  obtain ⟨hx, ho, hf, e0, x0, hj, hi⟩ := h
  obtain ⟨s, x, g⟩ := a
  simp only at hx ho hf hj hi
  subst hx
  simp only [redStep, Givens.mult, givensMult, star_trivial, RCLike.ofReal_real_eq_id, id, rotV_D, rotV_E, rotU_D, rotU_E, mul_zero, zero_add, sub_zero]
  have hjj : (upd (upd s.D j (g.c * s.D j + g.s * s.E j)) (j + 1) (g.c * upd s.D j (g.c * s.D j + g.s * s.E j) (j + 1))) j = g.c * s.D j + g.s * s.E j := by
    simp [upd]
  have hj1' : upd s.D j (g.c * s.D j + g.s * s.E j) (j + 1) = s.D (j+1) := by simp [upd]
  rw [hjj, hj1']
  obtain ⟨r1, r2, r3, r4⟩ := rotate_spec hge (g.c * s.D j + g.s * s.E j) (g.s * s.D (j+1))
  generalize rotate c (g.c * s.D j + g.s * s.E j) (g.s * s.D (j+1)) = r at *
  have i1 : Inv c M N A τ β (rotV c g j (j+1) { s with D := upd s.D j (g.c * s.D j + g.s * s.E j), E := upd s.E j (g.c * s.E j - g.s * s.D j) })
      (mr N fun a b => if a = j + 1 ∧ b = j then g.s * s.D (j+1) else
        bR (upd (upd s.D j (g.c * s.D j + g.s * s.E j)) (j+1) (g.c * s.D (j+1))) (upd s.E j (g.c * s.E j - g.s * s.D j)) a b) := by
    refine Inv.rotV (hi.de _ _) hmV ho (i := j) (k := j+1) (by omega) (by omega) (by omega) (colRot (by omega) (by omega) (by omega) ?_ ?_ ?_)
    · intro a ha
      simp only [bR, upd]
      grind
    · intro a ha
      simp only [bR, upd]
      grind
    · intro a b ha hb
      simp only [bR, upd]
      grind
  generalize rotV c g j (j+1) { s with D := upd s.D j (g.c * s.D j + g.s * s.E j), E := upd s.E j (g.c * s.E j - g.s * s.D j) } = s1 at *
  have i2 : ∀ D' E' : Nat → ℝ, Inv c M N A τ β (rotU c r.2.2 j (j+1) { s1 with D := D', E := E' })
      (mr N fun a b => if a = j ∧ b = j + 2 then r.2.2.s * s.E (j+1) else if a = j + 1 ∧ b = j + 2 then r.2.2.c * s.E (j+1) else
        bR (upd (upd s.D j r.1) (j+1) (r.2.2.c * (g.c * s.D (j+1)) - r.2.2.s * (g.c * s.E j - g.s * s.D j)))
          (upd s.E j (r.2.2.c * (g.c * s.E j - g.s * s.D j) + r.2.2.s * (g.c * s.D (j+1)))) a b) := by
    intro D' E'
    refine Inv.rotU (i1.de _ _) hmU r2 (i := j) (k := j+1) (by omega) (by omega) (by omega) (rowRot (by omega) (by omega) (by omega) ?_ ?_ ?_)
    · intro b hb
      simp only [bR, upd]
      grind
    · intro b hb
      simp only [bR, upd]
      grind
    · intro a b ha hb
      simp only [bR, upd]
      grind
  have frd : ∀ (D' E' : Nat → ℝ) (s' : St K), s'.D = D' → s'.E = E' → (∀ k, k ≠ j → k ≠ j+1 → D' k = s.D k) → (∀ k, k < p ∨ q ≤ k → E' k = s.E k) → Fr p q s0 s' := by
    intro D' E' s' u1 u2 u3 u4
    refine hf.trans ⟨fun k hk => ?_, fun k hk => ?_, fun hz => ?_⟩
    · rw [u1, u3 k (by omega) (by omega)]
    · rw [u2, u4 k (by omega)]
    · rw [u2, u4 q (by omega)]; exact hz
  by_cases hlast : j + 1 < q
  · refine ⟨fun _ => ?_, fun u => by omega⟩
    simp only [if_pos hlast]
    rw [r1]
    obtain ⟨t1, t2, t3, t4⟩ := rotate_spec hge (r.2.2.c * (g.c * s.E j - g.s * s.D j) + r.2.2.s * (g.c * s.D (j+1))) (r.2.2.s * s.E (j+1))
    simp (disch := omega) only [upd_same, upd_ne, mul_zero, zero_add, sub_zero]
    generalize rotate c _ _ = t at *
    refine ⟨t1, t2, frd _ _ _ rfl rfl (fun k k1 k2 => ?_) (fun k hk => ?_), r.2.2.c * (g.c * s.E j - g.s * s.D j) + r.2.2.s * (g.c * s.D (j+1)), r.2.2.s * s.E (j+1), fun _ => ⟨?_, t4⟩, ?_⟩
    · grind [upd]
    · grind [upd]
    · simp only [Nat.add_sub_cancel, upd_same]; exact t3.symm
    · refine Inv.congr (s := rotU c r.2.2 j (j+1) { s1 with D := _, E := _ }) ?_ rfl rfl rfl
      convert i2 _ _ using 1
      simp only [rotU_D, rotU_E]
      refine mr_congr fun a b ha hb => ?_
      simp only [bR, upd]
      grind
  · refine ⟨fun u => by omega, fun hl => ?_⟩
    simp only [if_neg hlast]
    refine ⟨?_, frd _ _ _ (by rw [rotU_D]) (by rw [rotU_E]) (fun k k1 k2 => ?_) (fun k hk => ?_)⟩
    · convert i2 _ _ using 1
      simp only [rotU_D, rotU_E]
      refine mr_congr fun a b ha hb => ?_
      have := hE
      have := hf.z
      simp only [bR, upd]
      grind
    · grind [upd]
    · grind [upd]

theorem sweep_spec (hge : c.ge = 0) (hmU : c.hU = true → c.m = M) (hmV : c.hV = true → c.n = N) {p q : Nat} (hpq : p < q) (hq : q < N)
    {s : St K} (hE : q + 1 < N → s.E q = 0) (hp : 0 < p → s.E (p-1) = 0) (h : BInv c M N A τ β s) (x y : ℝ) :
    BInv c M N A τ β (up (redStep c q) (q-p) p (s, (rotate c x y).2.1, (rotate c x y).2.2)).1 ∧
      Fr p q s (up (redStep c q) (q-p) p (s, (rotate c x y).2.1, (rotate c x y).2.2)).1 := by
  obtain ⟨r1, r2, -, -⟩ := rotate_spec hge x y
  have key := Bidiag.up_succ (redStep c q) (fun j a => (j < q → Pend c M N A τ β p q s j a) ∧ (j = q → BInv c M N A τ β a.1 ∧ Fr p q s a.1)) (q-p) p
    (s, (rotate c x y).2.1, (rotate c x y).2.2)
    ⟨fun _ => ⟨r1, r2, Fr.refl s, 0, 0, fun h0 => ⟨by simpa using hp h0, by simp⟩, by
      convert h using 1
      refine mr_congr fun a b ha hb => ?_
      simp only [bR]
      grind⟩, fun u => by omega⟩
    (fun j a h1 h2 h3 => redStep_spec hge hmU hmV h1 (by omega) hq hE (h3.1 (by omega)))
  rw [show p + (q - p) = q by omega] at key
  exact key.2 rfl

end TMV.SVQR
