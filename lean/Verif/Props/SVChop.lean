import Verif.Props.SVRot
import Verif.Props.BidiagRun

/-! Dropping negligible elements. -/
namespace TMV.SVQR
open Matrix
variable {K : Type} [RCLike K]
variable {c : Cfg} {M N : Nat} {A : Matrix (Fin M) (Fin N) K} {τ β : ℝ}

theorem fro_mono {m n : Type} [Fintype m] [Fintype n] {F G : Matrix m n K} (h : ∀ i j, ‖F i j‖ ≤ ‖G i j‖) : fro F ≤ fro G := by
  rw [fro, fro]
  exact Real.sqrt_le_sqrt (Finset.sum_le_sum fun i _ => Finset.sum_le_sum fun j _ => pow_le_pow_left₀ (norm_nonneg _) (h i j) 2)

theorem norm_le_fro {m n : Type} [Fintype m] [Fintype n] (F : Matrix m n K) (i : m) (j : n) : ‖F i j‖ ≤ fro F := by
  rw [fro]
  refine Real.le_sqrt_of_sq_le ?_
  calc ‖F i j‖ ^ 2 ≤ ∑ j, ‖F i j‖ ^ 2 := Finset.single_le_sum (f := fun j => ‖F i j‖ ^ 2) (fun _ _ => sq_nonneg _) (Finset.mem_univ j)
    _ ≤ _ := Finset.single_le_sum (f := fun i => ∑ j, ‖F i j‖ ^ 2) (fun _ _ => Finset.sum_nonneg fun _ _ => sq_nonneg _) (Finset.mem_univ i)

theorem fro_one {m n : Type} [Fintype m] [Fintype n] {F : Matrix m n K} {i : m} {j : n} (h : ∀ a b, ¬ (a = i ∧ b = j) → F a b = 0) :
    fro F ≤ ‖F i j‖ := by
  rw [fro]
  refine Real.sqrt_le_iff.mpr ⟨norm_nonneg _, le_of_eq ?_⟩
  rw [Finset.sum_eq_single i, Finset.sum_eq_single j]
  · intro b _ hb; rw [h i b (fun u => hb u.2)]; simp
  · simp
  · intro a _ ha
    refine Finset.sum_eq_zero fun b _ => ?_
    rw [h a b (fun u => ha u.1)]; simp
  · simp

theorem Inv.drop {s s' : St K} {B B' : Matrix (Fin N) (Fin N) K} (h : Inv c M N A τ β s B) (h1 : s'.U = s.U) (h2 : s'.V = s.V) {k : Nat}
    (h3 : s'.cnt = s.cnt + k) (hB : fro (B' - B) ≤ k * τ) (hb : fro B' ≤ fro B) : Inv c M N A τ β s' B' := by
  obtain ⟨g0, U, V, F, g1, g2, g3, g4, g5, g6⟩ := h
  refine ⟨hb.trans g0, U, V, F + U * (B' - B) * V, g1, g2, ?_, ?_, fun u => h1 ▸ g5 u, fun v => h2 ▸ g6 v⟩
  · refine (fro_add _ _).trans ?_
    rw [fro_iso' g2, fro_iso g1, h3]; push_cast; linarith
  · rw [← add_assoc, g4, Matrix.mul_sub, Matrix.sub_mul]; abel

/-- One element of the matrix set to zero. -/
theorem Inv.zero {s s' : St K} {f f' : Nat → Nat → ℝ} (h : Inv c M N A τ β s (mr N f)) (h1 : s'.U = s.U) (h2 : s'.V = s.V) {r t : Nat} {x : ℝ}
    (h3 : s'.cnt = s.cnt + if x = 0 then 0 else 1) (hr : r < N) (ht : t < N) (hx : f r t = x) (hxt : x = 0 ∨ |x| ≤ τ)
    (hf : ∀ a b, a < N → b < N → f' a b = if a = r ∧ b = t then 0 else f a b) : Inv c M N A τ β s' (mr N f') := by
  refine h.drop h1 h2 h3 ?_ ?_
  · refine (fro_one (i := ⟨r, hr⟩) (j := ⟨t, ht⟩) fun a b hab => ?_).trans ?_
    · simp only [Matrix.sub_apply, mr, of_apply, hf a b a.2 b.2]
      rw [if_neg (by simpa [Fin.ext_iff] using hab), sub_self]
    · simp only [Matrix.sub_apply, mr, of_apply, hf r t hr ht]
      simp only [and_self, if_true, hx, RCLike.ofReal_zero, zero_sub, norm_neg, RCLike.norm_ofReal]
      rcases hxt with u | u
      · simp [u]
      · by_cases hz : x = 0
        · simp [hz]
        · simpa [hz] using u
  · refine fro_mono fun a b => ?_
    simp only [mr, of_apply, hf a b a.2 b.2]
    split_ifs with u
    · simp
    · exact le_refl _

/-- Nothing outside the rows `p..q` changes. -/
structure Fr (p q : Nat) (s s' : St K) : Prop where
  d : ∀ i, i < p ∨ q < i → s'.D i = s.D i
  e : ∀ i, i < p ∨ q < i → s'.E i = s.E i
  z : s.E q = 0 → s'.E q = 0

theorem Fr.refl {p q : Nat} (s : St K) : Fr p q s s := ⟨fun _ _ => rfl, fun _ _ => rfl, id⟩

theorem Fr.trans {p q : Nat} {s s' s'' : St K} (h : Fr p q s s') (h' : Fr p q s' s'') : Fr p q s s'' :=
  ⟨fun i hi => (h'.d i hi).trans (h.d i hi), fun i hi => (h'.e i hi).trans (h.e i hi), fun hz => h'.z (h.z hz)⟩

theorem upd_same (v : Nat → ℝ) (i : Nat) (x : ℝ) : upd v i x i = x := if_pos rfl
theorem upd_ne {v : Nat → ℝ} {i k : Nat} (x : ℝ) (h : k ≠ i) : upd v i x k = v k := if_neg h

/-- What the tests for negligible elements mean together: `β` bounds the elements. -/
structure Tau (c : Cfg) (τ β : ℝ) : Prop where
  ep : 0 ≤ c.eps
  t0 : 0 < c.tiny
  t1 : c.tiny ≤ 1
  le1 : 2 * c.eps * β ≤ τ
  le2 : Real.sqrt c.tiny ≤ τ

theorem Tau.sq {c : Cfg} (h : Tau c τ β) {x : ℝ} (hx : x ^ 2 < c.tiny) : |x| ≤ τ :=
  (Real.abs_le_sqrt hx.le).trans h.le2

theorem Tau.lt {c : Cfg} (h : Tau c τ β) {x : ℝ} (hx : |x| < c.tiny) : |x| ≤ τ := by
  refine h.sq ?_
  have := h.t1; have := abs_nonneg x
  rw [← sq_abs]; nlinarith

theorem Inv.zeroD {s : St K} (h : Inv c M N A τ β s (mr N (bR s.D s.E))) {i : Nat} (hi : i < N) (hx : |s.D i| ≤ τ) :
    Inv c M N A τ β (zeroD i s) (mr N (bR (zeroD i s).D (zeroD i s).E)) := by
  refine h.zero (x := s.D i) (r := i) (t := i) rfl rfl rfl hi hi (by simp [bR]) (Or.inr hx) fun a b _ _ => ?_
  simp only [SVQR.zeroD, bR, upd]
  grind

theorem Inv.zeroE {s : St K} (h : Inv c M N A τ β s (mr N (bR s.D s.E))) {i : Nat} (hi : i + 1 < N) (hx : |s.E i| ≤ τ) :
    Inv c M N A τ β (zeroE i s) (mr N (bR (zeroE i s).D (zeroE i s).E)) := by
  refine h.zero (x := s.E i) (r := i) (t := i+1) rfl rfl rfl (by omega) hi (by simp [bR]) (Or.inr hx) fun a b _ _ => ?_
  simp only [SVQR.zeroE, bR, upd]
  grind

theorem Inv.absD {s : St K} (h : Inv c M N A τ β s (mr N (bR s.D s.E))) {i : Nat} (hi : i < N) : |s.D i| ≤ β := by
  have := (norm_le_fro (mr N (bR s.D s.E) : Matrix (Fin N) (Fin N) K) ⟨i, hi⟩ ⟨i, hi⟩).trans h.1
  simpa [mr, bR] using this

/-- `B`, for the state `s`. -/
abbrev BInv (c : Cfg) (M N : Nat) (A : Matrix (Fin M) (Fin N) K) (τ β : ℝ) (s : St K) : Prop := Inv c M N A τ β s (mr N (bR s.D s.E))

/-- No element of `D` in the rows `p..k` is negligible, unless that was noted. -/
def Big (c : Cfg) (p k : Nat) (x : St K × Bool) : Prop := x.2 = false → ∀ i, p ≤ i → i ≤ k → ¬ underflow c.tiny (x.1.D i ^ 2)

theorem chopD_spec (hτ : Tau c τ β) {i : Nat} (hi : i < N) {x : St K × Bool} (h : BInv c M N A τ β x.1) :
    BInv c M N A τ β (chopD c i x).1 ∧ (∀ k, k ≠ i → (chopD c i x).1.D k = x.1.D k) ∧ (chopD c i x).1.E = x.1.E ∧
      ((chopD c i x).2 = false → x.2 = false ∧ (chopD c i x).1.D = x.1.D ∧ ¬ underflow c.tiny (x.1.D i ^ 2)) := by
  rw [chopD]
  split_ifs with hu
  · refine ⟨h.zeroD hi (hτ.sq ?_), fun k hk => upd_ne _ hk, rfl, fun u => by simp at u⟩
    rw [underflow, abs_of_nonneg (sq_nonneg _)] at hu; exact hu
  · exact ⟨h, fun _ _ => rfl, rfl, fun u => ⟨u, rfl, hu⟩⟩

theorem chopE_spec (hτ : Tau c τ β) {i : Nat} (hi : i + 1 < N) {s : St K} (h : BInv c M N A τ β s) :
    BInv c M N A τ β (chopE c i s) ∧ (chopE c i s).D = s.D ∧ (∀ k, k ≠ i → (chopE c i s).E k = s.E k) := by
  rw [chopE]
  split_ifs with hu
  · refine ⟨h.zeroE hi ?_, rfl, fun k hk => upd_ne _ hk⟩
    rcases hu with u | u
    · push Not at u
      have h1 := h.absD (i := i) (by omega); have h2 := h.absD (i := i+1) hi
      have := hτ.ep; have := hτ.le1
      calc |s.E i| ≤ c.eps * (|s.D (i+1)| + |s.D i|) := u
        _ ≤ c.eps * (β + β) := by gcongr
        _ ≤ τ := by linarith
    · exact hτ.lt u
  · exact ⟨h, rfl, fun _ _ => rfl⟩

theorem chopP_spec (hτ : Tau c τ β) {i k : Nat} (hi : i + 1 < N) (hk : k < N) {s : St K} (h : BInv c M N A τ β s) :
    BInv c M N A τ β (chopP c i k s) ∧ (∀ a, a ≠ k → (chopP c i k s).D a = s.D a) ∧ (∀ a, a ≠ i → (chopP c i k s).E a = s.E a) ∧
      (¬ underflow c.tiny (s.D k ^ 2) → (chopP c i k s).D = s.D) := by
  rw [chopP]
  split_ifs with hu hv
  · refine ⟨h.zeroE hi (hτ.sq ?_), fun _ _ => rfl, fun a ha => upd_ne _ ha, fun _ => rfl⟩
    have := hu.1; rw [underflow, abs_mul] at this
    rw [← sq_abs]; nlinarith [abs_nonneg (s.E i), abs_nonneg (s.D k)]
  · have key : s.D k ^ 2 < c.tiny := by
      have := hu.1; rw [underflow, abs_mul] at this
      rw [← sq_abs]; nlinarith [abs_nonneg (s.E i), abs_nonneg (s.D k)]
    refine ⟨h.zeroD hk (hτ.sq key), fun a ha => upd_ne _ ha, fun _ _ => rfl, fun hn => ?_⟩
    exact absurd (by rw [underflow, abs_of_nonneg (sq_nonneg _)]; exact key) hn
  · exact ⟨h, fun _ _ => rfl, fun _ _ => rfl, fun _ => rfl⟩

theorem chop_spec (hτ : Tau c τ β) {p q : Nat} (hpq : p ≤ q) (hq : q < N) {s : St K} (h : BInv c M N A τ β s) :
    BInv c M N A τ β (chop c p q s).1 ∧ Fr p q s (chop c p q s).1 ∧
      ((chop c p q s).2 = false → ∀ i, p ≤ i → i ≤ q → (chop c p q s).1.D i ≠ 0) := by
  have key := Bidiag.up_succ (chopStep c) (fun k x => BInv c M N A τ β x.1 ∧ Fr p q s x.1 ∧ Big c p k x) (q-p) p (chopD c p (s, false))
    (by
      obtain ⟨h1, h2, h3, h4⟩ := chopD_spec hτ (i := p) (by omega) (x := (s, false)) h
      refine ⟨h1, ⟨fun i hi => h2 i (by omega), fun i _ => by rw [h3], fun hz => by rw [h3]; exact hz⟩, fun hx i h5 h6 => ?_⟩
      obtain rfl : i = p := by omega
      rw [(h4 hx).2.1]; exact (h4 hx).2.2)
    (by
      intro j x hj1 hj2 ⟨h1, h2, h3⟩
      obtain ⟨a1, a2, a3, a4⟩ := chopD_spec hτ (i := j+1) (by omega) h1
      obtain ⟨b1, b2, b3⟩ := chopE_spec hτ (i := j) (by omega) a1
      obtain ⟨c1, c2, c3, c4⟩ := chopP_spec hτ (i := j) (k := j+1) (by omega) (by omega) b1
      obtain ⟨d1, d2, d3, d4⟩ := chopP_spec hτ (i := j) (k := j) (by omega) (by omega) c1
      have e : chopStep c j x = (chopP c j j (chopP c j (j+1) (chopE c j (chopD c (j+1) x).1)), (chopD c (j+1) x).2) := rfl
      rw [e]
      refine ⟨d1, h2.trans ⟨fun i hi => ?_, fun i hi => ?_, fun hz => ?_⟩, fun hx i h5 h6 => ?_⟩
      · rw [d2 i (by omega), c2 i (by omega), b2, a2 i (by omega)]
      · rw [d3 i (by omega), c3 i (by omega), b3 i (by omega), a3]
      · rw [d3 q (by omega), c3 q (by omega), b3 q (by omega), a3]; exact hz
      · obtain ⟨x1, x2, x3⟩ := a4 hx
        have y : ∀ i, p ≤ i → i ≤ j + 1 → ¬ underflow c.tiny (x.1.D i ^ 2) := by
          intro i h7 h8
          rcases Nat.lt_or_ge i (j+1) with u | u
          · exact h3 x1 i h7 (by omega)
          · obtain rfl : i = j+1 := by omega
            exact x3
        have z1 : (chopE c j (chopD c (j+1) x).1).D = x.1.D := by rw [b2, x2]
        have z2 := c4 (by rw [z1]; exact x3)
        have z3 := d4 (by rw [z2, z1]; exact y j (by omega) (by omega))
        simp only []
        rw [z3, z2, z1]
        exact y i h5 h6)
  rw [show p + (q - p) = q by omega] at key
  refine ⟨key.1, key.2.1, fun hx i h5 h6 hz => key.2.2 hx i h5 h6 ?_⟩
  show |(chop c p q s).1.D i ^ 2| < c.tiny
  rw [hz]; simpa using hτ.t0

end TMV.SVQR
