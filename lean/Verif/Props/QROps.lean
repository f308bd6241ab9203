import Verif.Props.Householder

/-! Products of Householder reflectors and their block form, as operators on vectors (lemmas for C34). -/
namespace TMV.QR
noncomputable section
open Classical

variable {K : Type} [RCLike K]

/-! ### Linear operators touching only rows below `M` -/

theorem H_add (M : Nat) (V : Nat → Nat → K) (j : Nat) (b : K) (x y : Nat → K) :
    H M V j b (fun i => x i + y i) = fun i => H M V j b x i + H M V j b y i := by
  funext i; simp only [H, ip_add]; ring

theorem H_smul (M : Nat) (V : Nat → Nat → K) (j : Nat) (b : K) (x : Nat → K) (c : K) :
    H M V j b (fun i => x i * c) = fun i => H M V j b x i * c := by
  funext i; simp only [H, ip_mul]; ring

theorem H_ext {M : Nat} {V : Nat → Nat → K} {j : Nat} {b : K} {x y : Nat → K} (h : ∀ p, p < M → x p = y p) (p : Nat)
    (hp : p < M) : H M V j b x p = H M V j b y p := by
  simp only [H, ip_congr (fun _ _ => rfl) h, h p hp]

/-- `H_{a+n-1} ... H_{a+1} H_a x`. -/
def hs (M : Nat) (V : Nat → Nat → K) (β : Nat → K) (a : Nat) : Nat → (Nat → K) → Nat → K
  | 0, x => x
  | n+1, x => H M V (a+n) (β (a+n)) (hs M V β a n x)

/-- `H_aᴴ H_{a+1}ᴴ ... H_{a+n-1}ᴴ x`. -/
def hsA (M : Nat) (V : Nat → Nat → K) (β : Nat → K) (a : Nat) : Nat → (Nat → K) → Nat → K
  | 0, x => x
  | n+1, x => hsA M V β a n (H M V (a+n) (star (β (a+n))) x)

theorem hs_add (M : Nat) (V : Nat → Nat → K) (β : Nat → K) (a n : Nat) (x y : Nat → K) :
    hs M V β a n (fun i => x i + y i) = fun i => hs M V β a n x i + hs M V β a n y i := by
  induction n with
  | zero => rfl
  | succ n ih => rw [hs, ih, H_add]; rfl

theorem hsA_add (M : Nat) (V : Nat → Nat → K) (β : Nat → K) (a n : Nat) (x y : Nat → K) :
    hsA M V β a n (fun i => x i + y i) = fun i => hsA M V β a n x i + hsA M V β a n y i := by
  induction n generalizing x y with
  | zero => rfl
  | succ n ih => rw [hsA, H_add, ih]; rfl

theorem hsA_smul (M : Nat) (V : Nat → Nat → K) (β : Nat → K) (a n : Nat) (x : Nat → K) (c : K) :
    hsA M V β a n (fun i => x i * c) = fun i => hsA M V β a n x i * c := by
  induction n generalizing x with
  | zero => rfl
  | succ n ih => rw [hsA, H_smul, ih]; rfl

theorem hsA_zero (M : Nat) (V : Nat → Nat → K) (β : Nat → K) (a n : Nat) : hsA M V β a n (fun _ => 0) = fun _ => 0 := by
  have := hsA_smul M V β a n (fun _ => 0) 0
  simpa using this

theorem hsA_sum (M : Nat) (V : Nat → Nat → K) (β : Nat → K) (a n : Nat) (f : Nat → Nat → K) (N : Nat) :
    hsA M V β a n (fun i => ∑ k ∈ Finset.range N, f k i) = fun i => ∑ k ∈ Finset.range N, hsA M V β a n (f k) i := by
  induction N with
  | zero => simp [hsA_zero]
  | succ N ih => simp only [Finset.sum_range_succ]; rw [hsA_add, ih]

theorem hs_ext {M : Nat} {V : Nat → Nat → K} {β : Nat → K} {a : Nat} (n : Nat) {x y : Nat → K} (h : ∀ p, p < M → x p = y p) :
    ∀ p, p < M → hs M V β a n x p = hs M V β a n y p := by
  induction n with
  | zero => exact h
  | succ n ih => exact H_ext ih

theorem hsA_ext {M : Nat} {V : Nat → Nat → K} {β : Nat → K} {a : Nat} (n : Nat) {x y : Nat → K} (h : ∀ p, p < M → x p = y p) :
    ∀ p, p < M → hsA M V β a n x p = hsA M V β a n y p := by
  induction n generalizing x y with
  | zero => exact h
  | succ n ih => exact ih (H_ext h)

theorem hs_out {M : Nat} {V : Nat → Nat → K} {β : Nat → K} {a : Nat} (n : Nat) {x : Nat → K} {i : Nat} (h : i < a ∨ M ≤ i) :
    hs M V β a n x i = x i := by
  induction n with
  | zero => rfl
  | succ n ih => rw [hs, H_out (by omega), ih]

theorem hsA_out {M : Nat} {V : Nat → Nat → K} {β : Nat → K} {a : Nat} (n : Nat) {x : Nat → K} {i : Nat} (h : i < a ∨ M ≤ i) :
    hsA M V β a n x i = x i := by
  induction n generalizing x with
  | zero => rfl
  | succ n ih => rw [hsA, ih, H_out (by omega)]

theorem hs_fix {M : Nat} {V : Nat → Nat → K} {β : Nat → K} {a : Nat} (n : Nat) {x : Nat → K}
    (h : ∀ p, a ≤ p → p < M → x p = 0) : hs M V β a n x = x := by
  induction n with
  | zero => rfl
  | succ n ih => rw [hs, ih, H_fix fun p hp hm => h p (by omega) hm]

theorem hsA_fix {M : Nat} {V : Nat → Nat → K} {β : Nat → K} {a : Nat} (n : Nat) {x : Nat → K}
    (h : ∀ p, a ≤ p → p < M → x p = 0) : hsA M V β a n x = x := by
  induction n with
  | zero => rfl
  | succ n ih => rw [hsA, H_fix fun p hp hm => h p (by omega) hm, ih]

theorem hs_congr {M : Nat} {V V' : Nat → Nat → K} {β β' : Nat → K} {a : Nat} (n : Nat)
    (h : ∀ p j, a ≤ j → j < a+n → j < p → p < M → V p j = V' p j) (hb : ∀ j, a ≤ j → j < a+n → β j = β' j) :
    hs M V β a n = hs M V' β' a n := by
  induction n with
  | zero => rfl
  | succ n ih =>
    funext x
    rw [hs, hs, ih (fun p j h1 h2 h3 h4 => h p j h1 (by omega) h3 h4) (fun j h1 h2 => hb j h1 (by omega)),
      hb (a+n) (by omega) (by omega), H_congr fun p h1 h2 => h p (a+n) (by omega) (by omega) h1 h2]

theorem hsA_congr {M : Nat} {V V' : Nat → Nat → K} {β β' : Nat → K} {a : Nat} (n : Nat)
    (h : ∀ p j, a ≤ j → j < a+n → j < p → p < M → V p j = V' p j) (hb : ∀ j, a ≤ j → j < a+n → β j = β' j) :
    hsA M V β a n = hsA M V' β' a n := by
  induction n with
  | zero => rfl
  | succ n ih =>
    funext x
    rw [hsA, hsA, ih (fun p j h1 h2 h3 h4 => h p j h1 (by omega) h3 h4) (fun j h1 h2 => hb j h1 (by omega)),
      hb (a+n) (by omega) (by omega), H_congr fun p h1 h2 => h p (a+n) (by omega) (by omega) h1 h2]

theorem hs_concat (M : Nat) (V : Nat → Nat → K) (β : Nat → K) (a n m : Nat) (x : Nat → K) :
    hs M V β a (n+m) x = hs M V β (a+n) m (hs M V β a n x) := by
  induction m with
  | zero => rfl
  | succ m ih => rw [← Nat.add_assoc, hs, hs, ih, Nat.add_assoc]

theorem hsA_concat (M : Nat) (V : Nat → Nat → K) (β : Nat → K) (a n m : Nat) (x : Nat → K) :
    hsA M V β a (n+m) x = hsA M V β a n (hsA M V β (a+n) m x) := by
  induction m generalizing x with
  | zero => rfl
  | succ m ih => rw [← Nat.add_assoc, hsA, hsA, ih, Nat.add_assoc]

theorem hsA_hs {M : Nat} {V : Nat → Nat → K} {β : Nat → K} {a : Nat} (n : Nat)
    (h : ∀ j, a ≤ j → j < a+n → Valid M V j (β j)) (x : Nat → K) : hsA M V β a n (hs M V β a n x) = x := by
  induction n with
  | zero => rfl
  | succ n ih =>
    rw [hsA, hs, H_star_H (h (a+n) (by omega) (by omega)), ih fun j h1 h2 => h j h1 (by omega)]

theorem hs_hsA {M : Nat} {V : Nat → Nat → K} {β : Nat → K} {a : Nat} (n : Nat)
    (h : ∀ j, a ≤ j → j < a+n → Valid M V j (β j)) (x : Nat → K) : hs M V β a n (hsA M V β a n x) = x := by
  induction n generalizing x with
  | zero => rfl
  | succ n ih =>
    rw [hsA, hs, ih fun j h1 h2 => h j h1 (by omega)]
    exact H_H_star (h (a+n) (by omega) (by omega)) x

theorem hs_ip {M : Nat} {V : Nat → Nat → K} {β : Nat → K} {a : Nat} (n : Nat) (x y : Nat → K) :
    ip M (hs M V β a n x) y = ip M x (hsA M V β a n y) := by
  induction n generalizing y with
  | zero => rfl
  | succ n ih => rw [hs, H_ip, ih]; rfl

theorem hsA_ip {M : Nat} {V : Nat → Nat → K} {β : Nat → K} {a : Nat} (n : Nat) (x y : Nat → K) :
    ip M (hsA M V β a n x) y = ip M x (hs M V β a n y) := by
  rw [← ip_star, ← hs_ip, ip_star]

theorem hs_unitary {M : Nat} {V : Nat → Nat → K} {β : Nat → K} {a : Nat} (n : Nat)
    (h : ∀ j, a ≤ j → j < a+n → Valid M V j (β j)) (x y : Nat → K) :
    ip M (hs M V β a n x) (hs M V β a n y) = ip M x y := by
  rw [hs_ip, hsA_hs n h]

theorem hsA_unitary {M : Nat} {V : Nat → Nat → K} {β : Nat → K} {a : Nat} (n : Nat)
    (h : ∀ j, a ≤ j → j < a+n → Valid M V j (β j)) (x y : Nat → K) :
    ip M (hsA M V β a n x) (hsA M V β a n y) = ip M x y := by
  rw [hsA_ip, hs_hsA n h]

/-- Unit vector. -/
def ev (c : Nat) : Nat → K := fun p => if p = c then 1 else 0

theorem ip_ev {M : Nat} (x : Nat → K) {c : Nat} (hc : c < M) : ip M (ev c) x = x c := by
  unfold ip ev
  rw [Finset.sum_eq_single c]
  · simp
  · intro p _ hp; simp [hp]
  · intro h; exact absurd (Finset.mem_range.mpr hc) h

theorem ip_ev' {M : Nat} (x : Nat → K) {c : Nat} (hc : c < M) : ip M x (ev c) = star (x c) := by
  rw [← ip_star, ip_ev x hc]

theorem ip_sum (M : Nat) (x : Nat → K) (s : Finset Nat) (f : Nat → Nat → K) :
    ip M x (fun i => ∑ k ∈ s, f k i) = ∑ k ∈ s, ip M x (f k) := by
  simp only [ip, Finset.mul_sum]
  exact Finset.sum_comm

theorem ip_smul_left (M : Nat) (x y : Nat → K) (c : K) : ip M x (fun i => c * y i) = c * ip M x y := by
  simp only [ip, Finset.mul_sum]
  exact Finset.sum_congr rfl fun i _ => by ring

/-! ### Block form -/

/-- `(I - Y Z Yᴴ) x`, `Z` upper triangular. -/
def blk (M : Nat) (V Z : Nat → Nat → K) (a b : Nat) (x : Nat → K) : Nat → K :=
  fun i => x i - ∑ k ∈ Finset.Ico a b, hv M V k i * ∑ l ∈ Finset.Ico k b, Z k l * ip M (hv M V l) x

/-- `(I - Y Zᴴ Yᴴ) x`. -/
def blkA (M : Nat) (V Z : Nat → Nat → K) (a b : Nat) (x : Nat → K) : Nat → K :=
  fun i => x i - ∑ k ∈ Finset.Ico a b, hv M V k i * ∑ l ∈ Finset.Ico a (k+1), star (Z l k) * ip M (hv M V l) x

theorem ip_blkA (M : Nat) (V Z : Nat → Nat → K) (a b : Nat) (x y : Nat → K) :
    ip M x (blkA M V Z a b y) = ip M x y - ∑ k ∈ Finset.Ico a b, ∑ l ∈ Finset.Ico a (k+1),
      ip M x (hv M V k) * (star (Z l k) * ip M (hv M V l) y) := by
  unfold blkA
  rw [ip_sub, ip_sum]
  congr 1
  refine Finset.sum_congr rfl fun k _ => ?_
  rw [ip_mul, Finset.mul_sum]

theorem blk_ip (M : Nat) (V Z : Nat → Nat → K) (a b : Nat) (x y : Nat → K) :
    ip M (blk M V Z a b x) y = ip M x (blkA M V Z a b y) := by
  rw [← ip_star, ip_blkA]
  unfold blk
  rw [ip_sub, ip_sum, star_sub, ip_star]
  congr 1
  rw [star_sum]
  rw [Finset.sum_congr rfl (g := fun k => ∑ l ∈ Finset.Ico k b, star (ip M y (hv M V k) * (Z k l * ip M (hv M V l) x)))
    (fun k _ => by rw [ip_mul, Finset.mul_sum, star_sum])]
  rw [Finset.sum_comm' (t' := Finset.Ico a b) (s' := fun l => Finset.Ico a (l+1))]
  · refine Finset.sum_congr rfl fun l _ => Finset.sum_congr rfl fun k _ => ?_
    rw [star_mul', star_mul', ip_star, ip_star]; ring
  · intro k l; simp only [Finset.mem_Ico]; omega

/-- `Z` turns the reflectors `[a,b)` into one block reflector. -/
def ZOK (M : Nat) (V : Nat → Nat → K) (β : Nat → K) (Z : Nat → Nat → K) (a b : Nat) : Prop :=
  ∀ x, blk M V Z a b x = hsA M V β a (b-a) x

theorem ZOK.blkA {M : Nat} {V : Nat → Nat → K} {β : Nat → K} {Z : Nat → Nat → K} {a b : Nat} (h : ZOK M V β Z a b)
    (x : Nat → K) : blkA M V Z a b x = hs M V β a (b-a) x := by
  funext p
  by_cases hp : p < M
  · have h1 := blk_ip M V Z a b (ev p) x
    rw [h (ev p), hsA_ip, ip_ev _ hp, ip_ev _ hp] at h1
    exact h1.symm
  · rw [hs_out _ (Or.inr (by omega))]
    simp only [QR.blkA, hv_out (K := K) (Or.inr (not_lt.mp hp)), zero_mul, Finset.sum_const_zero, sub_zero]

theorem blk_congr {M : Nat} {V V' Z Z' : Nat → Nat → K} {a b : Nat}
    (h : ∀ p j, a ≤ j → j < b → j < p → p < M → V p j = V' p j) (hz : ∀ k l, a ≤ k → k ≤ l → l < b → Z k l = Z' k l) :
    blk M V Z a b = blk M V' Z' a b := by
  funext x i
  unfold blk
  congr 1
  refine Finset.sum_congr rfl fun k hk => ?_
  rw [Finset.mem_Ico] at hk
  rw [hv_congr fun p h1 h2 => h p k hk.1 hk.2 h1 h2]
  congr 1
  refine Finset.sum_congr rfl fun l hl => ?_
  rw [Finset.mem_Ico] at hl
  rw [hv_congr fun p h1 h2 => h p l (by omega) hl.2 h1 h2, hz k l hk.1 hl.1 hl.2]

theorem ZOK.congr {M : Nat} {V V' : Nat → Nat → K} {β β' : Nat → K} {Z Z' : Nat → Nat → K} {a b : Nat} (hzok : ZOK M V β Z a b)
    (hab : a ≤ b)
    (h : ∀ p j, a ≤ j → j < b → j < p → p < M → V p j = V' p j) (hz : ∀ k l, a ≤ k → k ≤ l → l < b → Z k l = Z' k l)
    (hb : ∀ j, a ≤ j → j < b → β j = β' j) : ZOK M V' β' Z' a b := by
  intro x
  rw [← blk_congr h hz, hzok x, hsA_congr (b-a) (V' := V') (β' := β')]
  · intro p j h1 h2 h3 h4; exact h p j h1 (by omega) h3 h4
  · intro j h1 h2; exact hb j h1 (by omega)

theorem ZOK.one (M : Nat) (V : Nat → Nat → K) (β : Nat → K) (Z : Nat → Nat → K) (a : Nat) (h : Z a a = star (β a)) :
    ZOK M V β Z a (a+1) := by
  intro x
  have : a + 1 - a = 0 + 1 := by omega
  rw [this]
  funext i
  simp only [blk, hsA, H, Nat.Ico_succ_singleton, Finset.sum_singleton, h, Nat.add_zero]

/-- Two adjacent blocks, joined by the off-diagonal block of `Z`. -/
theorem ZOK.join {M : Nat} {V : Nat → Nat → K} {β : Nat → K} {Z : Nat → Nat → K} {a c b : Nat} (hac : a ≤ c) (hcb : c ≤ b)
    (h1 : ZOK M V β Z a c) (h2 : ZOK M V β Z c b)
    (hz : ∀ k l, a ≤ k → k < c → c ≤ l → l < b → Z k l = ∑ r ∈ Finset.Ico c (l+1),
      -(∑ q ∈ Finset.Ico k c, Z k q * ip M (hv M V q) (hv M V r)) * Z r l) : ZOK M V β Z a b := by
  intro x
  have e : b - a = (c - a) + (b - c) := by omega
  have hca : a + (c - a) = c := by omega
  rw [e, hsA_concat, hca, ← h2, ← h1]
  funext i
  obtain ⟨g, hg⟩ : ∃ g : Nat → K, g = fun l => ip M (hv M V l) x := ⟨_, rfl⟩
  have hgl : ∀ l, ip M (hv M V l) x = g l := fun l => by rw [hg]
  -- inner products with the second block applied
  have hip : ∀ q, ip M (hv M V q) (blk M V Z c b x) = g q - ∑ r ∈ Finset.Ico c b,
      ip M (hv M V q) (hv M V r) * ∑ l ∈ Finset.Ico r b, Z r l * g l := by
    intro q
    unfold blk
    rw [ip_sub, ip_sum, hgl]
    congr 1
    refine Finset.sum_congr rfl fun r _ => ?_
    rw [ip_mul]
    simp only [hgl]
  have hkey : ∀ k, a ≤ k → k < c → ∑ l ∈ Finset.Ico c b, Z k l * g l = -∑ q ∈ Finset.Ico k c, Z k q * ∑ r ∈ Finset.Ico c b,
      ip M (hv M V q) (hv M V r) * ∑ l ∈ Finset.Ico r b, Z r l * g l := by
    intro k hk hkc
    have step : ∀ l ∈ Finset.Ico c b, Z k l * g l = ∑ r ∈ Finset.Ico c (l+1),
        -(∑ q ∈ Finset.Ico k c, Z k q * ip M (hv M V q) (hv M V r)) * (Z r l * g l) := by
      intro l hl
      rw [Finset.mem_Ico] at hl
      rw [hz k l hk hkc hl.1 hl.2, Finset.sum_mul]
      exact Finset.sum_congr rfl fun r _ => by ring
    rw [Finset.sum_congr rfl step]
    rw [Finset.sum_comm' (t' := Finset.Ico c b) (s' := fun r => Finset.Ico r b)
      (by intro l r; simp only [Finset.mem_Ico]; omega)]
    simp only [Finset.mul_sum, Finset.sum_mul, neg_mul, Finset.sum_neg_distrib]
    rw [neg_inj]
    rw [Finset.sum_comm' (t' := Finset.Ico k c) (s' := fun _ => Finset.Ico c b)
      (f := fun r q => ∑ l ∈ Finset.Ico r b, Z k q * (ip M (hv M V q) (hv M V r) * (Z r l * g l))) (by tauto) |>.symm]
    refine Finset.sum_congr rfl fun r _ => ?_
    rw [Finset.sum_comm]
    refine Finset.sum_congr rfl fun q _ => Finset.sum_congr rfl fun l _ => by ring
  have hL : blk M V Z a c (blk M V Z c b x) i = blk M V Z c b x i
      - ∑ k ∈ Finset.Ico a c, hv M V k i * ∑ l ∈ Finset.Ico k c, Z k l * ip M (hv M V l) (blk M V Z c b x) := rfl
  rw [hL]
  simp only [hip]
  unfold blk
  simp only [hgl]
  rw [← Finset.sum_Ico_consecutive _ hac hcb]
  have h3 : ∀ k ∈ Finset.Ico a c, hv M V k i * ∑ l ∈ Finset.Ico k b, Z k l * g l
      = hv M V k i * ∑ l ∈ Finset.Ico k c, Z k l * (g l - ∑ r ∈ Finset.Ico c b,
          ip M (hv M V l) (hv M V r) * ∑ l ∈ Finset.Ico r b, Z r l * g l) := by
    intro k hk
    rw [Finset.mem_Ico] at hk
    rw [← Finset.sum_Ico_consecutive _ (show k ≤ c by omega) hcb, hkey k hk.1 hk.2]
    simp only [mul_sub, Finset.sum_sub_distrib]
    ring
  rw [Finset.sum_congr rfl h3]
  ring

/-! ### The block routines of the model -/

theorem hv_eq_ul {M : Nat} {V : Nat → Nat → K} {k p : Nat} (hp : p < M) : hv M V k p = ul V p k := by
  unfold hv ul
  by_cases h : p < k
  · rw [if_pos h, if_pos h]
  · rw [if_neg h, if_neg h, if_pos hp]

theorem ip_hv (M a : Nat) (V : Nat → Nat → K) (k : Nat) (hak : a ≤ k) (haM : a ≤ M) (x : Nat → K) :
    ip M (hv M V k) x = ∑ p ∈ Finset.Ico a M, star (ul V p k) * x p := by
  unfold ip
  rw [Finset.range_eq_Ico, ← Finset.sum_Ico_consecutive _ (Nat.zero_le a) haM]
  rw [Finset.sum_eq_zero, zero_add]
  · refine Finset.sum_congr rfl fun p hp => ?_
    rw [Finset.mem_Ico] at hp
    rw [hv_eq_ul hp.2]
  · intro p hp
    rw [Finset.mem_Ico] at hp
    rw [hv_out (Or.inl (by omega))]; simp

theorem ytm_eq (M a b : Nat) (V m : Nat → Nat → K) (k c : Nat) (hak : a ≤ k) (hkb : k < b) (hbM : b ≤ M) :
    ytm M a b V m k c = ip M (hv M V k) (fun p => m p c) := by
  rw [ip_hv M a V k hak (by omega), ytm, ← Finset.sum_Ico_consecutive _ (show a ≤ b by omega) hbM]
  congr 1
  refine Finset.sum_congr rfl fun p hp => ?_
  rw [Finset.mem_Ico] at hp
  rw [ul, if_neg (by omega), if_neg (by omega)]

theorem subYW_eq (M a b c0 c1 : Nat) (V W m : Nat → Nat → K) (hbM : b ≤ M) (p c : Nat) :
    subYW M a b c0 c1 V W m p c = if c0 ≤ c ∧ c < c1 then m p c - ∑ k ∈ Finset.Ico a b, hv M V k p * W k c else m p c := by
  unfold subYW
  by_cases hc : c0 ≤ c ∧ c < c1
  · rw [if_pos hc, if_pos hc]
    by_cases h1 : a ≤ p ∧ p < b
    · rw [if_pos h1]
      congr 1
      exact Finset.sum_congr rfl fun k _ => by rw [hv_eq_ul (by omega)]
    · rw [if_neg h1]
      by_cases h2 : b ≤ p ∧ p < M
      · rw [if_pos h2]
        congr 1
        refine Finset.sum_congr rfl fun k hk => ?_
        rw [Finset.mem_Ico] at hk
        rw [hv_eq_ul h2.2, ul, if_neg (by omega), if_neg (by omega)]
      · rw [if_neg h2, Finset.sum_eq_zero, sub_zero]
        intro k hk
        rw [Finset.mem_Ico] at hk
        rw [hv_out (by omega), zero_mul]
  · rw [if_neg hc, if_neg hc]

theorem blockLMult_eq (M a b c0 c1 : Nat) (V Z m : Nat → Nat → K) (hbM : b ≤ M) (p c : Nat) :
    blockLMult M a b c0 c1 V Z m p c = if c0 ≤ c ∧ c < c1 then blk M V Z a b (fun p => m p c) p else m p c := by
  rw [blockLMult, subYW_eq _ _ _ _ _ _ _ _ hbM]
  by_cases hc : c0 ≤ c ∧ c < c1
  · rw [if_pos hc, if_pos hc, blk]
    congr 1
    refine Finset.sum_congr rfl fun k hk => ?_
    rw [Finset.mem_Ico] at hk
    congr 1
    refine Finset.sum_congr rfl fun l hl => ?_
    rw [Finset.mem_Ico] at hl
    rw [ytm_eq _ _ _ _ _ _ _ (by omega) hl.2 hbM]
  · rw [if_neg hc, if_neg hc]

theorem blockLDiv_eq (M a b c0 c1 : Nat) (V Z m : Nat → Nat → K) (hbM : b ≤ M) (p c : Nat) :
    blockLDiv M a b c0 c1 V Z m p c = if c0 ≤ c ∧ c < c1 then blkA M V Z a b (fun p => m p c) p else m p c := by
  rw [blockLDiv, subYW_eq _ _ _ _ _ _ _ _ hbM]
  by_cases hc : c0 ≤ c ∧ c < c1
  · rw [if_pos hc, if_pos hc, blkA]
    congr 1
    refine Finset.sum_congr rfl fun k hk => ?_
    rw [Finset.mem_Ico] at hk
    congr 1
    refine Finset.sum_congr rfl fun l hl => ?_
    rw [Finset.mem_Ico] at hl
    rw [ytm_eq _ _ _ _ _ _ _ hl.1 (by omega) hbM]
  · rw [if_neg hc, if_neg hc]

theorem lmult_eq (M j c0 c1 : Nat) (V : Nat → Nat → K) (beta : K) (m : Nat → Nat → K) (hj : j < M) (p c : Nat) :
    lmult M j c0 c1 V beta m p c = if c0 ≤ c ∧ c < c1 then H M V j beta (fun p => m p c) p else m p c := by
  unfold lmult
  by_cases h0 : c1 - c0 = 0
  · rw [if_pos h0, if_neg (by omega)]
  rw [if_neg h0]
  by_cases hb : beta ≠ 0
  · rw [if_pos hb]
    by_cases hc : c0 ≤ c ∧ c < c1
    · simp only
      rw [if_pos hc, if_pos hc]
      have hip : ip M (hv M V j) (fun p => m p c) = (∑ p ∈ Finset.Ico (j+1) M, star (V p j) * m p c) + m j c := by
        rw [ip_hv M j V j le_rfl hj.le, Finset.sum_eq_sum_Ico_succ_bot hj, ul, if_neg (by omega), if_pos rfl, star_one, one_mul,
          add_comm]
        congr 1
        refine Finset.sum_congr rfl fun p hp => ?_
        rw [Finset.mem_Ico] at hp
        rw [ul, if_neg (by omega), if_neg (by omega)]
      rw [H, hip]
      by_cases h1 : p = j
      · rw [if_pos h1, hv_eq_ul (by omega), ul, if_neg (by omega), if_pos h1]; ring
      · rw [if_neg h1]
        by_cases h2 : j < p ∧ p < M
        · rw [if_pos h2, hv_eq_ul (by omega), ul, if_neg (by omega), if_neg h1]; ring
        · rw [if_neg h2, hv_out (by omega)]; ring
    · simp only
      rw [if_neg hc, if_neg hc]
  · rw [if_neg hb]
    simp only [not_not] at hb
    rw [hb]
    simp [H]

theorem z3_eq (M a c b : Nat) (V Z : Nat → Nat → K) (hcb : c ≤ b) (hbM : b ≤ M) (l k : Nat) (h : a ≤ l ∧ l < c ∧ c ≤ k ∧ k < b) :
    z3 M a c b V Z l k = ∑ r ∈ Finset.Ico c (k+1),
      -(∑ q ∈ Finset.Ico l c, Z l q * ip M (hv M V q) (hv M V r)) * Z r k := by
  unfold z3
  simp only
  rw [if_pos h]
  refine Finset.sum_congr rfl fun r hr => ?_
  rw [Finset.mem_Ico] at hr
  congr 2
  refine Finset.sum_congr rfl fun q hq => ?_
  rw [Finset.mem_Ico] at hq
  congr 1
  have hrev : ip M (hv M V q) (hv M V r) = ∑ p ∈ Finset.Ico c M, star (V p q) * ul V p r := by
    rw [← ip_star, ip_hv M c V r hr.1 (by omega), star_sum]
    refine Finset.sum_congr rfl fun p hp => ?_
    rw [Finset.mem_Ico] at hp
    rw [star_mul', star_star, hv_eq_ul hp.2, ul, ul, if_neg (show ¬ p < q by omega), if_neg (show ¬ p = q by omega)]
    ring
  rw [hrev, ← Finset.sum_Ico_consecutive _ hcb hbM]
  congr 1
  refine Finset.sum_congr rfl fun p hp => ?_
  rw [Finset.mem_Ico] at hp
  rw [ul, if_neg (by omega), if_neg (by omega)]

theorem z3_out (M a c b : Nat) (V Z : Nat → Nat → K) (l k : Nat) (h : ¬ (a ≤ l ∧ l < c ∧ c ≤ k ∧ k < b)) :
    z3 M a c b V Z l k = Z l k := by
  unfold z3; simp only; rw [if_neg h]

theorem ZOK.z3 {M : Nat} {V : Nat → Nat → K} {β : Nat → K} {Z : Nat → Nat → K} {a c b : Nat} (hac : a ≤ c) (hcb : c ≤ b)
    (hbM : b ≤ M) (h1 : ZOK M V β Z a c) (h2 : ZOK M V β Z c b) : ZOK M V β (z3 M a c b V Z) a b := by
  have ho := z3_out M a c b V Z
  refine ZOK.join hac hcb (h1.congr hac (fun _ _ _ _ _ _ => rfl) (fun k l _ _ _ => (ho k l (by omega)).symm) fun _ _ _ => rfl)
    (h2.congr hcb (fun _ _ _ _ _ _ => rfl) (fun k l _ _ _ => (ho k l (by omega)).symm) fun _ _ _ => rfl) ?_
  intro k l hk hkc hcl hlb
  rw [z3_eq M a c b V Z hcb hbM k l ⟨hk, hkc, hcl, hlb⟩]
  refine Finset.sum_congr rfl fun r hr => ?_
  rw [Finset.mem_Ico] at hr
  rw [ho r l (by omega)]
  congr 2
  refine Finset.sum_congr rfl fun q hq => ?_
  rw [Finset.mem_Ico] at hq
  rw [ho k q (by omega)]

/-- Two reflectors. -/
theorem ZOK.two {M : Nat} {V : Nat → Nat → K} {β : Nat → K} {Z : Nat → Nat → K} {a : Nat} (haM : a + 2 ≤ M)
    (h0 : Z a a = star (β a)) (h1 : Z (a+1) (a+1) = star (β (a+1)))
    (h01 : Z a (a+1) = -star (β a) * star (β (a+1)) *
      ((∑ p ∈ Finset.Ico (a+2) M, star (V p a) * V p (a+1)) + star (V (a+1) a))) : ZOK M V β Z a (a+2) := by
  refine ZOK.join (c := a+1) (by omega) (by omega) (ZOK.one M V β Z a h0) (ZOK.one M V β Z (a+1) h1) ?_
  intro k l hk hkc hcl hlb
  obtain rfl : k = a := by omega
  obtain rfl : l = k+1 := by omega
  rw [Nat.Ico_succ_singleton, Nat.Ico_succ_singleton, Finset.sum_singleton, Finset.sum_singleton, h0, h1, h01]
  have hrev : ip M (hv M V k) (hv M V (k+1)) = (∑ p ∈ Finset.Ico (k+2) M, star (V p k) * V p (k+1)) + star (V (k+1) k) := by
    rw [← ip_star, ip_hv M (k+1) V (k+1) le_rfl (by omega), Finset.sum_eq_sum_Ico_succ_bot (show k+1 < M by omega), star_add,
      add_comm, star_sum]
    congr 1
    · refine Finset.sum_congr rfl fun p hp => ?_
      rw [Finset.mem_Ico] at hp
      rw [star_mul', star_star, hv_eq_ul hp.2, ul, ul, if_neg (by omega), if_neg (by omega), if_neg (by omega), if_neg (by omega)]
      ring
    · rw [hv_eq_ul (by omega)]
      simp [ul]
  rw [hrev]
  ring

theorem setE_ne {A : Nat → Nat → K} {i j : Nat} {x : K} {p c : Nat} (h : ¬ (p = i ∧ c = j)) : setE A i j x p c = A p c := by
  unfold setE; rw [if_neg h]

theorem setE_eq {A : Nat → Nat → K} {i j : Nat} {x : K} : setE A i j x i j = x := by
  unfold setE; rw [if_pos ⟨rfl, rfl⟩]

/-- `BlockHouseholderMakeZ` builds the block form. -/
theorem makeZ_spec (M : Nat) (V : Nat → Nat → K) (β : Nat → K) (N : Nat) : ∀ (a : Nat) (Z : Nat → Nat → K), a + N ≤ M → 0 < N →
    ZOK M V β (makeZ M V β a N Z) a (a+N) ∧
    ∀ k l, ¬ (a ≤ k ∧ k < a+N ∧ a ≤ l ∧ l < a+N) → makeZ M V β a N Z k l = Z k l := by
  induction N using Nat.strong_induction_on with
  | _ N ih =>
    intro a Z haM hN
    unfold makeZ
    rw [dif_neg (by omega)]
    by_cases h1 : N = 1
    · subst h1
      rw [dif_pos rfl]
      exact ⟨ZOK.one _ _ _ _ _ setE_eq, fun k l h => setE_ne (by omega)⟩
    rw [dif_neg h1]
    by_cases h2 : N = 2
    · subst h2
      rw [dif_pos rfl]
      dsimp only
      refine ⟨ZOK.two haM ?_ ?_ ?_, fun k l h => ?_⟩
      · rw [setE_ne (by omega), setE_ne (by omega), setE_eq]
      · rw [setE_ne (by omega), setE_eq]
      · rw [setE_eq]
      · rw [setE_ne (by omega), setE_ne (by omega), setE_ne (by omega)]
    rw [dif_neg h2]
    dsimp only
    obtain ⟨j1, hj1⟩ : ∃ j1, j1 = (N+1)/2 := ⟨_, rfl⟩
    rw [← hj1]
    obtain ⟨a1, a2⟩ := ih j1 (by omega) a Z (by omega) (by omega)
    obtain ⟨b1, b2⟩ := ih (N-j1) (by omega) (a+j1) (makeZ M V β a j1 Z) (by omega) (by omega)
    have e : a + j1 + (N - j1) = a + N := by omega
    rw [e] at b1 b2
    refine ⟨ZOK.z3 (by omega) (by omega) haM ?_ b1, fun k l h => ?_⟩
    · exact a1.congr (by omega) (fun _ _ _ _ _ _ => rfl) (fun k l _ _ _ => (b2 k l (by omega)).symm) fun _ _ _ => rfl
    · rw [z3_out _ _ _ _ _ _ _ _ (by omega), b2 _ _ (by omega), a2 _ _ (by omega)]

end
end TMV.QR
