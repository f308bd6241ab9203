import Verif.Props.SV22

/-! The QR iteration on a bidiagonal matrix. -/
namespace TMV.SVQR
open Matrix
variable {K : Type} [RCLike K]
variable {c : Cfg} {M N : Nat} {A : Matrix (Fin M) (Fin N) K} {τ β : ℝ}

theorem reduce22_spec (hmU : c.hU = true → c.m = M) (hmV : c.hV = true → c.n = N) {p : Nat} (hq : p + 1 < N)
    {s : St K} (hE : p + 2 < N → s.E (p+1) = 0) (hp : 0 < p → s.E (p-1) = 0) (h : BInv c M N A τ β s) (h0 : s.D p ≠ 0) (h1 : s.D (p+1) ≠ 0) (h2 : s.E p ≠ 0) :
    BInv c M N A τ β (reduce22 c p s) ∧ Fr p (p+1) s (reduce22 c p s) := by
  obtain ⟨o1, o2, ll, ex⟩ := rot22_spec h0 h1 h2
  rw [reduce22]
  simp only
  generalize rot22 (s.D p) (s.D (p+1)) (s.E p) = r at *
  obtain ⟨b, c1, s1, c2, s2⟩ := r
  simp only at o1 o2 ll ex ⊢
  have i1 : ∀ D' E' : Nat → ℝ, Inv c M N A τ β (rotU c ⟨c1, s1⟩ p (p+1) { s with D := D', E := E' })
      (mr N fun a b => if a = p ∧ b = p then c1 * s.D p else if a = p ∧ b = p+1 then c1 * s.E p + s1 * s.D (p+1) else
        if a = p + 1 ∧ b = p then -(s1 * s.D p) else if a = p + 1 ∧ b = p+1 then c1 * s.D (p+1) - s1 * s.E p else bR s.D s.E a b) := by
    intro D' E'
    refine Inv.rotU (h.de _ _) hmU o1 (i := p) (k := p+1) (by omega) (by omega) (by omega) (rowRot (by omega) (by omega) (by omega) ?_ ?_ ?_)
    · intro b hb
      simp only [bR]
      grind
    · intro b hb
      simp only [bR]
      grind
    · intro a b ha hb
      simp only [bR]
      grind
  have i2 : ∀ D' E' : Nat → ℝ, D' p = c1*c2*s.D p - c1*s2*s.E p - s1*s2*s.D (p+1) → D' (p+1) = -s1*s2*s.D p - s1*c2*s.E p + c1*c2*s.D (p+1) →
      E' p = c1*s2*s.D p + c1*c2*s.E p + s1*c2*s.D (p+1) → (∀ k, k ≠ p → k ≠ p+1 → D' k = s.D k) → (∀ k, k ≠ p → E' k = s.E k) →
      BInv c M N A τ β (rotV c ⟨c2, -s2⟩ p (p+1) (rotU c ⟨c1, s1⟩ p (p+1) { s with D := D', E := E' })) := by
    intro D' E' e1 e2 e3 e4 e5
    refine Inv.rotV (i1 D' E') hmV o2 (i := p) (k := p+1) (by omega) (by omega) (by omega) (colRot (by omega) (by omega) (by omega) ?_ ?_ ?_)
    · intro a ha
      simp only [rotV_D, rotV_E, rotU_D, rotU_E, bR]
      grind
    · intro a ha
      simp only [rotV_D, rotV_E, rotU_D, rotU_E, bR]
      grind
    · intro a b ha hb
      simp only [rotV_D, rotV_E, rotU_D, rotU_E, bR]
      grind
  have o2' := o2.one
  have o1' := o1.one
  simp only at o1' o2'
  split_ifs with hb
  · obtain ⟨n1, n2, n3⟩ := ex hb
    refine ⟨i2 _ _ ?_ ?_ ?_ (fun k k1 k2 => ?_) (fun k k1 => ?_), ⟨fun k hk => ?_, fun k hk => ?_, fun hz => ?_⟩⟩
    · rw [upd_ne _ (by omega), upd_same]
      field_simp
      linear_combination c1 * s.D p * (1 - o2') + s2 * n3
    · rw [upd_same]
      field_simp
      linear_combination c2 * s.D (p+1) * (1 - o1') + s1 * n3
    · rw [upd_same]; linear_combination -n3
    · rw [upd_ne _ k2, upd_ne _ k1]
    · rw [upd_ne _ k1]
    · rw [rotV_D, rotU_D]; simp only; rw [upd_ne _ (by omega), upd_ne _ (by omega)]
    · rw [rotV_E, rotU_E]; simp only; rw [upd_ne _ (by omega)]
    · rw [rotV_E, rotU_E]; simp only; rw [upd_ne _ (by omega)]; exact hz
  · refine ⟨i2 _ _ ?_ ?_ ?_ (fun k k1 k2 => ?_) (fun k k1 => ?_), ⟨fun k hk => ?_, fun k hk => ?_, fun hz => ?_⟩⟩
    · rw [upd_ne _ (by omega), upd_same]
    · rw [upd_same]
    · rw [upd_same]
    · rw [upd_ne _ k2, upd_ne _ k1]
    · rw [upd_ne _ k1]
    · rw [rotV_D, rotU_D]; simp only; rw [upd_ne _ (by omega), upd_ne _ (by omega)]
    · rw [rotV_E, rotU_E]; simp only; rw [upd_ne _ (by omega)]
    · rw [rotV_E, rotU_E]; simp only; rw [upd_ne _ (by omega)]; exact hz

theorem reduce_spec (hge : c.ge = 0) (hmU : c.hU = true → c.m = M) (hmV : c.hV = true → c.n = N) {p q : Nat} (hpq : p < q) (hq : q < N)
    {s : St K} (hE : q + 1 < N → s.E q = 0) (hp : 0 < p → s.E (p-1) = 0) (h : BInv c M N A τ β s) (hD : ∀ i, p ≤ i → i ≤ q → s.D i ≠ 0) (hEp : s.E (q-1) ≠ 0) :
    BInv c M N A τ β (reduce c p q s) ∧ Fr p q s (reduce c p q s) := by
  rw [reduce, if_neg (by omega)]
  split_ifs with h2
  · obtain rfl : q = p + 1 := by omega
    exact reduce22_spec hmU hmV hq hE hp h (hD _ (by omega) (by omega)) (hD _ (by omega) (by omega)) hEp
  · exact sweep_spec hge hmU hmV hpq hq hE hp h _ _

theorem scan_spec (cond : Nat → Prop) (lo : Nat) : ∀ p, lo ≤ p → lo ≤ scan cond lo p ∧ scan cond lo p ≤ p ∧ (scan cond lo p = lo ∨ ¬ cond (scan cond lo p)) ∧
    ∀ i, scan cond lo p < i → i ≤ p → cond i
  | 0, h => ⟨h, Nat.le_refl _, Or.inl (by rw [scan]; omega), fun i h1 h2 => by rw [scan] at h1; omega⟩
  | p+1, h => by
    rw [scan]
    split_ifs with hc
    · obtain ⟨h1, h2, h3, h4⟩ := scan_spec cond lo p (by omega)
      refine ⟨h1, by omega, h3, fun i k1 k2 => ?_⟩
      rcases Nat.lt_or_ge p i with u | u
      · obtain rfl : i = p+1 := by omega
        exact hc.2
      · exact h4 i k1 u
    · refine ⟨h, Nat.le_refl _, ?_, fun i h1 h2 => by omega⟩
      by_cases u : lo < p+1
      · right; exact fun v => hc ⟨u, v⟩
      · left; omega

/-- What a step that finishes the rows `lo..hi` does: `E` is zero there, nothing outside changes. -/
structure Done (c : Cfg) (M N : Nat) (A : Matrix (Fin M) (Fin N) K) (τ β : ℝ) (lo hi : Nat) (s s' : St K) : Prop where
  inv : BInv c M N A τ β s'
  fr : Fr lo hi s s'
  z : ∀ i, lo ≤ i → i < hi → s'.E i = 0

/-- What is expected of a step that is to finish the rows `lo..hi`. -/
def Solves (c : Cfg) (M N : Nat) (A : Matrix (Fin M) (Fin N) K) (τ β : ℝ) (dec : Nat → Nat → St K → Option (St K)) : Prop :=
  ∀ lo hi s s', lo ≤ hi → hi < N → BInv c M N A τ β s → (hi + 1 < N → s.E hi = 0) → (0 < lo → s.E (lo-1) = 0) → dec lo hi s = some s' →
    Done c M N A τ β lo hi s s'

/-- The same where no element of `D` is zero. -/
def SolvesNZ (c : Cfg) (M N : Nat) (A : Matrix (Fin M) (Fin N) K) (τ β : ℝ) (dec : Nat → Nat → St K → Option (St K)) : Prop :=
  ∀ lo hi s s', lo ≤ hi → hi < N → BInv c M N A τ β s → (hi + 1 < N → s.E hi = 0) → (0 < lo → s.E (lo-1) = 0) → (∀ i, lo ≤ i → i ≤ hi → s.D i ≠ 0) →
    dec lo hi s = some s' → Done c M N A τ β lo hi s s'

/-- A step inside the rows `lo..hi`, on the rows `p..q`. -/
theorem Fr.widen {p q lo hi : Nat} {s s' : St K} (h : Fr p q s s') (h1 : lo ≤ p) (h2 : q ≤ hi) (h3 : q < hi ∨ q = hi) : Fr lo hi s s' := by
  refine ⟨fun i hi' => h.d i (by omega), fun i hi' => h.e i (by omega), fun hz => ?_⟩
  rcases h3 with u | u
  · rw [h.e hi (by omega)]; exact hz
  · subst u; exact h.z hz

theorem qrLoop_spec (hge : c.ge = 0) (hmU : c.hU = true → c.m = M) (hmV : c.hV = true → c.n = N) (hτ : Tau c τ β)
    {dec : Nat → Nat → St K → Option (St K)} (hdec : Solves c M N A τ β dec) {lo hi : Nat} (hhi : hi < N) {s0 : St K} :
    ∀ (f q : Nat) (s s' : St K), lo ≤ q → q ≤ hi → BInv c M N A τ β s → Fr lo hi s0 s → (q + 1 < N → s.E q = 0) → (0 < lo → s.E (lo-1) = 0) →
      (∀ i, lo ≤ i → i < q → s.D i ≠ 0) → (lo < q → s.E (q-1) ≠ 0 → s.D q ≠ 0) → (∀ i, q ≤ i → i < hi → s.E i = 0) → qrLoop c dec lo f q s = some s' → Done c M N A τ β lo hi s0 s'
  | 0, q, s, s', _, _, _, _, _, _, _, _, _, h => by simp [qrLoop] at h
  | f+1, q, s, s', h1, h2, hi', hf, hE, hp, hD, hDq, hz, h => by
    rw [qrLoop] at h
    split_ifs at h with hq hEq
    · exact qrLoop_spec hge hmU hmV hτ hdec hhi f (q-1) s s' (by omega) (by omega) hi' hf (fun _ => hEq) hp (fun i k1 k2 => hD i k1 (by omega))
        (fun u _ => hD (q-1) (by omega) (by omega)) (fun i k1 k2 => by
          rcases Nat.lt_or_ge i q with u | u
          · obtain rfl : i = q - 1 := by omega
            exact hEq
          · exact hz i u k2) h
    · simp only at h
      obtain ⟨p1, p2, p3, p4⟩ := scan_spec (fun p => s.E (p-1) ≠ 0) lo (q-1) (by omega)
      generalize hpe : scan (fun p => s.E (p-1) ≠ 0) lo (q-1) = p at *
      have hEp : 0 < p → s.E (p-1) = 0 := by
        intro h0
        rcases p3 with u | u
        · subst u; exact hp h0
        · simpa using u
      obtain ⟨a1, a2⟩ := reduce_spec hge hmU hmV (by omega : p < q) (by omega) hE hEp hi' (fun i k1 k2 => by
        rcases Nat.lt_or_ge i q with u | u
        · exact hD i (by omega) u
        · obtain rfl : i = q := by omega
          exact hDq hq hEq) hEq
      obtain ⟨b1, b2, b3⟩ := chop_spec hτ (by omega : p ≤ q) (by omega) a1
      have fr := a2.trans b2
      generalize chop c p q (reduce c p q s) = x at *
      obtain ⟨s1, zd⟩ := x
      simp only at h b1 b2 b3 fr
      have wid : ∀ s2 : St K, Fr p q s s2 → Fr lo hi s0 s2 := fun s2 u => hf.trans (u.widen p1 h2 (by omega))
      have zz : ∀ s2 : St K, Fr p q s s2 → ∀ i, q ≤ i → i < hi → s2.E i = 0 := by
        intro s2 u i k1 k2
        rcases Nat.lt_or_ge q i with v | v
        · rw [u.e i (by omega)]; exact hz i k1 k2
        · obtain rfl : i = q := by omega
          exact u.z (hz i k1 k2)
      cases zd with
      | true =>
        simp only [if_true] at h
        obtain ⟨s2, g1, g2⟩ := Option.bind_eq_some_iff.mp h
        have dn := hdec p q s1 s2 (by omega) (by omega) b1 (fun u => fr.z (hE u)) (fun u => by rw [fr.e _ (by omega)]; exact hEp u) g1
        have fr2 := fr.trans dn.fr
        refine qrLoop_spec hge hmU hmV hτ hdec hhi f p s2 s' p1 (by omega) dn.inv (wid s2 fr2) (fun _ => dn.z p (by omega) (by omega))
          (fun u => ?_) (fun i k1 k2 => ?_) (fun u v => ?_) (fun i k1 k2 => ?_) g2
        · rw [fr2.e _ (by omega)]; exact hp u
        · rw [fr2.d i (by omega)]; exact hD i k1 (by omega)
        · rw [fr2.e _ (by omega)] at v
          exact absurd (hEp (by omega)) v
        · rcases Nat.lt_or_ge i q with v | v
          · exact dn.z i k1 v
          · exact zz s2 fr2 i v k2
      | false =>
        simp only [Bool.false_eq_true, if_false] at h
        refine qrLoop_spec hge hmU hmV hτ hdec hhi f q s1 s' h1 h2 b1 (wid s1 fr) (fun u => fr.z (hE u)) (fun u => ?_) (fun i k1 k2 => ?_) (fun _ _ => b3 rfl q (by omega) (by omega)) (zz s1 fr) h
        · rw [fr.e _ (by omega)]; exact hp u
        · by_cases v : p ≤ i
          · exact b3 rfl i v (by omega)
          · rw [fr.d i (by omega)]; exact hD i k1 k2
    · obtain rfl : lo = q := by omega
      cases h
      exact ⟨hi', hf, fun i k1 k2 => hz i k1 k2⟩

/-- `Vt` with the row `i` negated. -/
theorem Inv.neg {s s' : St K} {f f' : Nat → Nat → ℝ} (h : Inv c M N A τ β s (mr N f)) {i : Nat} (hU : s'.U = s.U) (hc : s'.cnt = s.cnt)
    (hV : c.hV = true → ∀ a b, a < N → b < N → s'.V a b = if a = i then -s.V a b else s.V a b)
    (hf : ∀ a b, a < N → b < N → f' a b = if b = i then -f a b else f a b) : Inv c M N A τ β s' (mr N f') := by
  obtain ⟨g0, U, V, F, g1, g2, g3, g4, g5, g6⟩ := h
  set J : Matrix (Fin N) (Fin N) K := Matrix.diagonal fun a => if (a : Nat) = i then -1 else 1 with hJ
  have j1 : J * J = 1 := by
    rw [hJ, Matrix.diagonal_mul_diagonal, ← Matrix.diagonal_one]
    congr 1; ext a; split_ifs <;> simp
  have j2 : Jᴴ = J := by
    rw [hJ, Matrix.diagonal_conjTranspose]
    congr 1; ext a; simp only [Pi.star_apply]; split_ifs <;> simp
  have hB : (mr N f' : Matrix (Fin N) (Fin N) K) = mr N f * J := by
    ext a b
    rw [hJ, Matrix.mul_diagonal]
    simp only [mr, of_apply, hf a b a.2 b.2]
    split_ifs <;> simp
  refine ⟨?_, U, J * V, F, g1, ?_, hc ▸ g3, ?_, fun u => hU ▸ g5 u, fun v => ?_⟩
  · rw [hB, ← j2, fro_iso' (by rw [conjTranspose_conjTranspose, j2, j1])]; exact g0
  · rw [conjTranspose_mul, j2, mul_assoc, ← mul_assoc V, g2, one_mul, j1]
  · rw [g4, hB, Matrix.mul_assoc U, Matrix.mul_assoc U, Matrix.mul_assoc (mr N f), ← Matrix.mul_assoc J J V, j1, one_mul]
  · ext a b
    rw [hJ, Matrix.diagonal_mul, ← g6 v]
    simp only [matOf, of_apply, hV v a b a.2 b.2]
    split_ifs <;> simp

theorem posStep_spec (hmV : c.hV = true → c.n = N) {i : Nat} {s : St K} (h : BInv c M N A τ β s) (hE : 0 < i → s.E (i-1) = 0) :
    BInv c M N A τ β (posStep c i s) ∧ (posStep c i s).E = s.E ∧ (posStep c i s).D = upd s.D i |s.D i| := by
  rw [posStep]
  by_cases hd : s.D i < 0
  · rw [if_pos hd]
    simp only
    rw [abs_of_neg hd]
    refine ⟨?_, by split_ifs <;> rfl, by split_ifs <;> rfl⟩
    refine Inv.neg (i := i) h (by split_ifs <;> rfl) (by split_ifs <;> rfl) (fun hv a b ha hb => ?_) fun a b ha hb => ?_
    · rw [if_pos hv]; simp only [hmV hv, hb, and_true]
    · have e1 : ∀ x y : St K, (if c.hV = true then x else y).D = if c.hV = true then x.D else y.D := fun x y => by split_ifs <;> rfl
      have e2 : ∀ x y : St K, (if c.hV = true then x else y).E = if c.hV = true then x.E else y.E := fun x y => by split_ifs <;> rfl
      rw [e1, e2]
      simp only [ite_self, bR, upd]
      grind
  · rw [if_neg hd, abs_of_nonneg (by linarith)]
    exact ⟨h, rfl, by ext k; rw [upd]; split_ifs with u <;> simp [u]⟩

theorem posLoop_spec (hmV : c.hV = true → c.n = N) {p q : Nat} {s : St K} (h : BInv c M N A τ β s) (hp : 0 < p → s.E (p-1) = 0)
    (hE : ∀ i, p ≤ i → i < q → s.E i = 0) (k : Nat) (hk : p + k ≤ q + 1) :
    BInv c M N A τ β (up (posStep c) k p s) ∧ (up (posStep c) k p s).E = s.E ∧ (∀ i, (up (posStep c) k p s).D i = if p ≤ i ∧ i < p + k then |s.D i| else s.D i) := by
  refine Bidiag.up_succ (posStep c) (fun j x => BInv c M N A τ β x ∧ x.E = s.E ∧ ∀ i, x.D i = if p ≤ i ∧ i < j then |s.D i| else s.D i) k p s
    ⟨h, rfl, fun i => by rw [if_neg (by omega)]⟩ ?_
  rintro j x h1 h2 ⟨a1, a2, a3⟩
  obtain ⟨b1, b2, b3⟩ := posStep_spec hmV (i := j) a1 (fun h0 => by
    rw [a2]
    rcases Nat.eq_or_lt_of_le h1 with u | u
    · subst u; exact hp h0
    · exact hE (j-1) (by omega) (by omega))
  refine ⟨b1, b2.trans a2, fun i => ?_⟩
  rw [b3, upd, a3, a3]
  grind

theorem small_spec (hge : c.ge = 0) (hmU : c.hU = true → c.m = M) (hmV : c.hV = true → c.n = N) (hτ : Tau c τ β)
    {dec : Nat → Nat → St K → Option (St K)} (hdec : Solves c M N A τ β dec) (f : Nat) : SolvesNZ c M N A τ β (small c f dec) := by
  intro lo hi s s' h1 h2 h3 h4 h5 h6 h
  rw [small] at h
  obtain ⟨s1, g1, g2⟩ := Option.map_eq_some_iff.mp h
  have dn : Done c M N A τ β lo hi s s1 := by
    split_ifs at g1 with hlt
    · exact qrLoop_spec hge hmU hmV hτ hdec h2 f hi s s1 h1 le_rfl h3 (Fr.refl s) h4 h5 (fun i k1 k2 => h6 i k1 (by omega))
        (fun _ _ => h6 hi h1 le_rfl) (fun i k1 k2 => by omega) g1
    · cases g1
      exact ⟨h3, Fr.refl _, fun i k1 k2 => by omega⟩
  obtain ⟨a1, a2, a3⟩ := posLoop_spec hmV (q := hi) dn.inv (fun u => by rw [dn.fr.e _ (by omega)]; exact h5 u) dn.z (hi-lo+1) (by omega)
  rw [g2] at a1 a2 a3
  refine ⟨a1, ⟨fun i hi' => ?_, fun i hi' => ?_, fun hz => ?_⟩, fun i k1 k2 => ?_⟩
  · rw [a3, if_neg (by omega)]; exact dn.fr.d i hi'
  · rw [a2]; exact dn.fr.e i hi'
  · rw [a2]; exact dn.fr.z hz
  · rw [a2]; exact dn.z i k1 k2

/-- What is expected of the divide and conquer part: the same, on the problems it is called for. -/
def SolvesDC (c : Cfg) (M N : Nat) (A : Matrix (Fin M) (Fin N) K) (τ β : ℝ) (dc : Nat → Nat → St K → Option (St K)) : Prop :=
  ∀ lo hi s s', c.dcl < hi - lo + 1 → c.hU = true ∨ c.hV = true → lo ≤ hi → hi < N → BInv c M N A τ β s → (hi + 1 < N → s.E hi = 0) →
    (0 < lo → s.E (lo-1) = 0) → (∀ i, lo ≤ i → i ≤ hi → s.D i ≠ 0) → dc lo hi s = some s' → Done c M N A τ β lo hi s s'

theorem nz_spec (hge : c.ge = 0) (hmU : c.hU = true → c.m = M) (hmV : c.hV = true → c.n = N) (hτ : Tau c τ β)
    {dc dec : Nat → Nat → St K → Option (St K)} (hdc : SolvesDC c M N A τ β dc) (hdec : Solves c M N A τ β dec) (f : Nat) :
    SolvesNZ c M N A τ β (nz c dc f dec) := by
  intro lo hi s s' h1 h2 h3 h4 h5 h6 h
  rw [nz] at h
  split_ifs at h
  · exact small_spec hge hmU hmV hτ hdec f lo hi s s' h1 h2 h3 h4 h5 h6 h
  · exact hdc lo hi s s' (by omega) (by assumption) h1 h2 h3 h4 h5 h6 h
  · exact small_spec hge hmU hmV hτ hdec f lo hi s s' h1 h2 h3 h4 h5 h6 h

theorem doLoop_spec (hge : c.ge = 0) (hmU : c.hU = true → c.m = M) (hmV : c.hV = true → c.n = N)
    {nz : Nat → Nat → St K → Option (St K)} (hnz : SolvesNZ c M N A τ β nz) {lo hi : Nat} (hhi : hi < N) {s0 : St K} :
    ∀ (f q : Nat) (s s' : St K), lo ≤ q → q ≤ hi → BInv c M N A τ β s → Fr lo hi s0 s → (q + 1 < N → s.E q = 0) → (0 < lo → s.E (lo-1) = 0) →
      (∀ i, q ≤ i → i < hi → s.E i = 0) → doLoop c nz lo f q s = some s' → Done c M N A τ β lo hi s0 s'
  | 0, q, s, s', _, _, _, _, _, _, _, h => by simp [doLoop] at h
  | f+1, q, s, s', h1, h2, hi', hf, hE, hp, hz, h => by
    rw [doLoop] at h
    split_ifs at h with hq hEq hDq
    · exact doLoop_spec hge hmU hmV hnz hhi f (q-1) s s' (by omega) (by omega) hi' hf (fun _ => hEq) hp (fun i k1 k2 => by
          rcases Nat.lt_or_ge i q with u | u
          · obtain rfl : i = q - 1 := by omega
            exact hEq
          · exact hz i u k2) h
    · simp only at h
      obtain ⟨p1, p2, p3, p4⟩ := scan_spec (fun p => ¬ s.E (p-1) = 0) lo (q-1) (by omega)
      generalize hpe : scan (fun p => ¬ s.E (p-1) = 0) lo (q-1) = p at *
      have hEp : 0 < p → s.E (p-1) = 0 := by
        intro h0
        rcases p3 with u | u
        · subst u; exact hp h0
        · simpa using u
      obtain ⟨a1, a2, a3, a4, a5⟩ := zlc_spec hge hmV (by omega : p < q) (by omega) hi' hDq hEp
      refine doLoop_spec hge hmU hmV hnz hhi f (q-1) _ s' (by omega) (by omega) a1 (hf.trans (a2.widen p1 h2 (by omega))) (fun _ => a4)
        (fun u => by rw [a2.e _ (by omega)]; exact hp u) (fun i k1 k2 => ?_) h
      rcases Nat.lt_trichotomy i q with u | u | u
      · obtain rfl : i = q - 1 := by omega
        exact a4
      · subst u; exact a2.z (hz i (by omega) k2)
      · rw [a2.e i (by omega)]; exact hz i (by omega) k2
    · obtain ⟨p1, p2, p3, p4⟩ := scan_spec (fun p => ¬ s.E (p-1) = 0 ∧ ¬ s.D p = 0) lo (q-1) (by omega)
      simp only at h
      generalize hpe : scan (fun p => ¬ s.E (p-1) = 0 ∧ ¬ s.D p = 0) lo (q-1) = p at *
      -- the state and the row the decomposition starts from
      obtain ⟨p', s1, hps, b1, b2, b3, b4, b5, b6, b7⟩ : ∃ p' s1, (if s.D p = 0 then (p+1, zeroFirstRow c p q s) else (p, s)) = (p', s1) ∧
          BInv c M N A τ β s1 ∧ Fr lo hi s0 s1 ∧ lo ≤ p' ∧ p' ≤ q ∧ (0 < p' → s1.E (p'-1) = 0) ∧ (∀ i, p' ≤ i → i ≤ q → s1.D i ≠ 0) ∧
          ((∀ i, q ≤ i → i < hi → s1.E i = 0) ∧ (q + 1 < N → s1.E q = 0) ∧ (0 < lo → s1.E (lo-1) = 0)) := by
        by_cases hdp : s.D p = 0
        · obtain ⟨a1, a2, a3, a4, a5⟩ := zfr_spec hge hmU (by omega : p < q) (by omega) hi' hdp hE
          refine ⟨p+1, _, if_pos hdp, a1, hf.trans (a2.widen p1 h2 (by omega)), by omega, by omega, fun _ => a4, fun i k1 k2 => a5 i (by omega) k2 ?_, fun i k1 k2 => ?_, fun u => a2.z (hE u),
            fun u => by rw [a2.e _ (by omega)]; exact hp u⟩
          · rcases Nat.lt_or_ge i q with u | u
            · exact (p4 i (by omega) (by omega)).2
            · obtain rfl : i = q := by omega
              exact hDq
          · rcases Nat.lt_or_ge q i with u | u
            · rw [a2.e i (by omega)]; exact hz i k1 k2
            · obtain rfl : i = q := by omega
              exact a2.z (hz i k1 k2)
        · refine ⟨p, s, if_neg hdp, hi', hf, p1, by omega, fun h0 => ?_, fun i k1 k2 => ?_, hz, hE, hp⟩
          · rcases p3 with u | u
            · subst u; exact hp h0
            · simp only [hdp, not_false_eq_true, and_true, not_not] at u; exact u
          · rcases Nat.lt_or_ge i q with u | u
            · rcases Nat.eq_or_lt_of_le k1 with v | v
              · subst v; exact hdp
              · exact (p4 i v (by omega)).2
            · obtain rfl : i = q := by omega
              exact hDq
      rw [hps] at h
      simp only at h
      split_ifs at h with hgt
      · obtain ⟨s2, g1, g2⟩ := Option.bind_eq_some_iff.mp h
        have dn := hnz p' q s1 s2 (by omega) (by omega) b1 b7.2.1 b5 b6 g1
        refine doLoop_spec hge hmU hmV hnz hhi f p' s2 s' b3 (by omega) dn.inv (b2.trans (dn.fr.widen b3 h2 (by omega))) (fun _ => dn.z p' le_rfl hgt)
          (fun u => by rw [dn.fr.e _ (by omega)]; exact b7.2.2 u) (fun i k1 k2 => ?_) g2
        rcases Nat.lt_trichotomy i q with u | u | u
        · exact dn.z i k1 u
        · subst u; exact dn.fr.z (b7.1 i le_rfl k2)
        · rw [dn.fr.e i (by omega)]; exact b7.1 i (by omega) k2
      · obtain rfl : p' = q := by omega
        exact doLoop_spec hge hmU hmV hnz hhi f p' s1 s' b3 h2 b1 b2 b7.2.1 b7.2.2 b7.1 h
    · obtain rfl : lo = q := by omega
      cases h
      exact ⟨hi', hf, fun i k1 k2 => hz i k1 k2⟩

theorem dec_spec (hge : c.ge = 0) (hmU : c.hU = true → c.m = M) (hmV : c.hV = true → c.n = N) (hτ : Tau c τ β)
    {dc : Nat → Nat → St K → Option (St K)} (hdc : SolvesDC c M N A τ β dc) : ∀ f, Solves c M N A τ β (dec c dc f)
  | 0 => fun lo hi s s' _ _ _ _ _ h => by simp [dec] at h
  | f+1 => fun lo hi s s' h1 h2 h3 h4 h5 h => by
    rw [dec] at h
    obtain ⟨b1, b2, -⟩ := chop_spec hτ h1 h2 h3
    exact doLoop_spec hge hmU hmV (nz_spec hge hmU hmV hτ hdc (dec_spec hge hmU hmV hτ hdc f) f) h2 (f+1) hi _ s' h1 le_rfl b1 b2
      (fun u => b2.z (h4 u)) (fun u => by rw [b2.e _ (by omega)]; exact h5 u) (fun i k1 k2 => by omega) h

end TMV.SVQR
