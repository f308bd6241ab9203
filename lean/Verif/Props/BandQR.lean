import Verif.Model.BandQR
import Verif.Props.QRQ

/-! QR decomposition of a band matrix: the band algorithm does what the dense one does (lemmas for C95). -/
namespace TMV.BandQR
noncomputable section
open Classical TMV.Tri TMV.QR

variable {K : Type} [RCLike K]

/-! ### Trailing zeros do not matter -/

theorem abs2_zero : abs2 (0 : K) = 0 := by simp [abs2]

theorem abs2_nonneg (z : K) : 0 ≤ abs2 z := by unfold abs2; positivity

theorem maxAbs2_nonneg (x : Nat → K) : ∀ n, 0 ≤ maxAbs2 x n
  | 0 => le_rfl
  | n+1 => le_max_of_le_left (maxAbs2_nonneg x n)

theorem maxAbs2_trim (x : Nat → K) {n : Nat} : ∀ {n' : Nat}, n ≤ n' → (∀ i, n ≤ i → i < n' → x i = 0) → maxAbs2 x n' = maxAbs2 x n := by
  intro n'
  induction n' with
  | zero => intro h _; rw [show n = 0 by omega]
  | succ k ih =>
    intro h hz
    by_cases hk : n ≤ k
    · rw [maxAbs2, ih hk (fun i h1 h2 => hz i h1 (by omega)), hz k hk (by omega), abs2_zero, max_eq_left (maxAbs2_nonneg x n)]
    · obtain rfl : n = k+1 := by omega
      rfl

theorem sum_trim {R : Type _} [AddCommMonoid R] (f : Nat → R) {n n' : Nat} (h : n ≤ n') (hz : ∀ i, n ≤ i → i < n' → f i = 0) :
    ∑ i ∈ Finset.range n', f i = ∑ i ∈ Finset.range n, f i := by
  rw [Finset.range_eq_Ico, ← Finset.sum_Ico_consecutive f (Nat.zero_le n) h, ← Finset.range_eq_Ico,
    Finset.sum_eq_zero (s := Finset.Ico n n'), add_zero]
  intro i hi
  rw [Finset.mem_Ico] at hi
  exact hz i hi.1 hi.2

/-- The body of `HouseholderReflect` in terms of the maximum and the sum of squares of `x`. -/
def reflG (tiny scale0 : ℝ) (sum : ℝ → ℝ) (n : Nat) (x0 : K) (x : Nat → K) (det : K) : Refl K :=
  let scale := if ‖x0‖ > scale0 then ‖x0‖ else scale0
  if |scale| < tiny then ⟨0, fun i => if i < n then 0 else x i, 0, det⟩
  else
    let invscale := 1 / scale
    let normsqx := sum invscale
    if normsqx = 0 ∧ RCLike.im x0 = 0 then ⟨x0, fun i => if i < n then 0 else x i, 0, det⟩
    else
      let absx0 := ‖x0‖ * invscale
      let x0 := x0 * (invscale : K)
      let normsqx := normsqx + absx0 * absx0
      let normx := Real.sqrt normsqx
      let y := if RCLike.re x0 > 0 then -normx else normx
      let v0 := x0 - (y : K)
      let beta := ((RCLike.normSq v0 : ℝ) : K) / ((normsqx : K) - (y : K) * x0)
      let invv0 := 1 / v0
      let scaled := invv0 * (invscale : K)
      let x := if (RCLike.re invv0 ≠ 0 ∧ |RCLike.re scaled| < tiny) ∨ (RCLike.im invv0 ≠ 0 ∧ |RCLike.im scaled| < tiny)
        then fun i => if i < n then (x i * (invscale : K)) * invv0 else x i
        else fun i => if i < n then x i * scaled else x i
      ⟨((y * scale : ℝ) : K), x, beta, updDet beta det⟩

theorem reflect_eq (tiny : ℝ) (n : Nat) (x0 : K) (x : Nat → K) (det : K) :
    reflect tiny n x0 x det = reflG tiny (maxAbs2 x n) (fun s : ℝ => ∑ i ∈ Finset.range n, RCLike.normSq ((s : K) * x i)) n x0 x det := rfl

/-- Everything but the new `x` does not depend on `x` otherwise; the new `x` is a multiple of `x`. -/
theorem reflG_form (tiny scale0 : ℝ) (sum : ℝ → ℝ) (x0 det : K) : ∃ (a b d : K) (g : K → K), g 0 = 0 ∧
    ∀ n (x : Nat → K), reflG tiny scale0 sum n x0 x det = ⟨a, fun i => if i < n then g (x i) else x i, b, d⟩ := by
  unfold reflG
  dsimp only
  generalize (if ‖x0‖ > scale0 then ‖x0‖ else scale0) = scale
  by_cases h1 : |scale| < tiny
  · simp only [if_pos h1]
    exact ⟨0, 0, det, fun _ => 0, rfl, fun _ _ => rfl⟩
  · simp only [if_neg h1]
    by_cases h2 : sum (1/scale) = 0 ∧ RCLike.im x0 = 0
    · simp only [if_pos h2]
      exact ⟨x0, 0, det, fun _ => 0, rfl, fun _ _ => rfl⟩
    · simp only [if_neg h2]
      generalize (if RCLike.re (x0 * ((1/scale : ℝ) : K)) > 0 then _ else _ : ℝ) = y
      generalize 1 / (x0 * ((1/scale : ℝ) : K) - (y : K)) = v
      split
      · exact ⟨_, _, _, fun z => z * ((1/scale : ℝ) : K) * v, by simp, fun _ _ => rfl⟩
      · exact ⟨_, _, _, fun z => z * (v * ((1/scale : ℝ) : K)), by simp, fun _ _ => rfl⟩

theorem reflect_trim (tiny : ℝ) {n n' : Nat} (h : n ≤ n') (x0 : K) (x : Nat → K) (det : K) (hz : ∀ i, n ≤ i → i < n' → x i = 0) :
    reflect tiny n' x0 x det = reflect tiny n x0 x det := by
  rw [reflect_eq, reflect_eq, maxAbs2_trim x h hz]
  have hs : (fun s : ℝ => ∑ i ∈ Finset.range n', RCLike.normSq ((s : K) * x i)) = fun s : ℝ => ∑ i ∈ Finset.range n, RCLike.normSq ((s : K) * x i) :=
    funext fun s => sum_trim _ h fun i h1 h2 => by rw [hz i h1 h2, mul_zero, map_zero]
  rw [hs]
  obtain ⟨a, b, d, g, hg, hr⟩ := reflG_form tiny (maxAbs2 x n) (fun s : ℝ => ∑ i ∈ Finset.range n, RCLike.normSq ((s : K) * x i)) x0 det
  rw [hr, hr]
  congr 1
  funext i
  by_cases h1 : i < n
  · rw [if_pos h1, if_pos (by omega)]
  · rw [if_neg h1]
    by_cases h2 : i < n'
    · rw [if_pos h2, hz i (by omega) h2, hg]
    · rw [if_neg h2]

theorem reflect_out (tiny : ℝ) (n : Nat) (x0 : K) (x : Nat → K) (det : K) (i : Nat) (h : n ≤ i) : (reflect tiny n x0 x det).x i = x i := by
  rw [reflect_eq]
  obtain ⟨a, b, d, g, hg, hr⟩ := reflG_form tiny (maxAbs2 x n) (fun s : ℝ => ∑ i ∈ Finset.range n, RCLike.normSq ((s : K) * x i)) x0 det
  rw [hr]
  exact if_neg (by omega)

theorem reflect_congr (tiny : ℝ) (n : Nat) (x0 : K) (x y : Nat → K) (det : K) (hxy : ∀ i, i < n → x i = y i) :
    (reflect tiny n x0 x det).x0 = (reflect tiny n x0 y det).x0 ∧ (reflect tiny n x0 x det).beta = (reflect tiny n x0 y det).beta ∧
    (reflect tiny n x0 x det).det = (reflect tiny n x0 y det).det ∧
    ∀ i, i < n → (reflect tiny n x0 x det).x i = (reflect tiny n x0 y det).x i := by
  have hm : ∀ k, k ≤ n → maxAbs2 x k = maxAbs2 y k := by
    intro k
    induction k with
    | zero => intro _; rfl
    | succ k ih => intro hk; rw [maxAbs2, maxAbs2, ih (by omega), hxy k (by omega)]
  have hsum : (fun s : ℝ => ∑ i ∈ Finset.range n, RCLike.normSq ((s : K) * x i)) = fun s : ℝ => ∑ i ∈ Finset.range n, RCLike.normSq ((s : K) * y i) :=
    funext fun s => Finset.sum_congr rfl fun i hi => by rw [hxy i (Finset.mem_range.mp hi)]
  rw [reflect_eq, reflect_eq, hm n le_rfl, hsum]
  obtain ⟨a, b, d, g, hg, hr⟩ := reflG_form tiny (maxAbs2 y n) (fun s : ℝ => ∑ i ∈ Finset.range n, RCLike.normSq ((s : K) * y i)) x0 det
  rw [hr, hr]
  exact ⟨rfl, rfl, rfl, fun i hi => by dsimp only; rw [if_pos hi, if_pos hi, hxy i hi]⟩

theorem reflectCol_trim (tiny : ℝ) {E M j : Nat} (hj : j < E) (hE : E ≤ M) (A : Nat → Nat → K) (det : K)
    (hz : ∀ p, E ≤ p → p < M → A p j = 0) : reflectCol tiny M j A det = reflectCol tiny E j A det := by
  unfold reflectCol
  have hr := reflect_trim tiny (n := E-(j+1)) (n' := M-(j+1)) (by omega) (A j j) (fun i => A (j+1+i) j) det
    (fun i h1 h2 => hz _ (by omega) (by omega))
  rw [hr]
  have hx : ∀ a, E ≤ a → a < M → (reflect tiny (E-(j+1)) (A j j) (fun i => A (j+1+i) j) det).x (a-(j+1)) = A a j := by
    intro a h1 h2
    rw [reflect_out _ _ _ _ _ _ (by omega), show j+1+(a-(j+1)) = a by omega]
  refine Prod.ext ?_ rfl
  funext a b
  dsimp only
  by_cases hb : b = j
  · subst hb
    by_cases h1 : a = b
    · simp [h1]
    · by_cases h2 : b < a ∧ a < M
      · by_cases h3 : a < E
        · rw [if_neg (by omega), if_pos ⟨rfl, h2⟩, if_neg (by omega), if_pos ⟨rfl, h2.1, h3⟩]
        · rw [if_neg (by omega), if_pos ⟨rfl, h2⟩, if_neg (by omega), if_neg (by omega), hx a (by omega) h2.2]
      · rw [if_neg (by omega), if_neg (by omega), if_neg (by omega), if_neg (by omega)]
  · rw [if_neg (by omega), if_neg (by omega), if_neg (by omega), if_neg (by omega)]

/-- Rows where the reflector is zero and columns where the block is zero need not be looked at. -/
theorem lmult_trim {E M j c0 c1 c2 : Nat} (hj : j < E) (hE : E ≤ M) (h01 : c0 ≤ c1) (hc : c1 ≤ c2) (V : Nat → Nat → K) (beta : K) (m : Nat → Nat → K)
    (hV : ∀ p, E ≤ p → p < M → V p j = 0) (hm : ∀ p c, j ≤ p → p < M → c1 ≤ c → c < c2 → m p c = 0 ∨ E ≤ p) :
    lmult M j c0 c2 V beta m = lmult E j c0 c1 V beta m := by
  have hsum : ∀ c, ∑ p ∈ Finset.Ico (j+1) M, star (V p j) * m p c = ∑ p ∈ Finset.Ico (j+1) E, star (V p j) * m p c := by
    intro c
    rw [← Finset.sum_Ico_consecutive _ (show j+1 ≤ E by omega) hE, Finset.sum_eq_zero (s := Finset.Ico E M), add_zero]
    intro p hp
    rw [Finset.mem_Ico] at hp
    rw [hV p hp.1 hp.2, star_zero, zero_mul]
  have hzero : ∀ c, c1 ≤ c → c < c2 → (∑ p ∈ Finset.Ico (j+1) E, star (V p j) * m p c) + m j c = 0 := by
    intro c h1 h2
    rw [Finset.sum_eq_zero, zero_add]
    · rcases hm j c le_rfl (by omega) h1 h2 with h | h
      · exact h
      · omega
    · intro p hp
      rw [Finset.mem_Ico] at hp
      rcases hm p c (by omega) (by omega) h1 h2 with h | h
      · rw [h, mul_zero]
      · omega
  unfold lmult
  by_cases hb : beta ≠ 0
  · have hne : (c2 - c0 = 0 → c1 - c0 = 0) := by omega
    by_cases h2 : c2 - c0 = 0
    · rw [if_pos h2, if_pos (hne h2)]
    · rw [if_neg h2, if_pos hb]
      dsimp only
      have key : (fun a c => if c0 ≤ c ∧ c < c2 then
          if a = j then m a c - ((∑ p ∈ Finset.Ico (j+1) M, star (V p j) * m p c) + m j c) * beta
          else if j < a ∧ a < M then m a c - V a j * (((∑ p ∈ Finset.Ico (j+1) M, star (V p j) * m p c) + m j c) * beta) else m a c
        else m a c) = fun a c => if c0 ≤ c ∧ c < c1 then
          if a = j then m a c - ((∑ p ∈ Finset.Ico (j+1) E, star (V p j) * m p c) + m j c) * beta
          else if j < a ∧ a < E then m a c - V a j * (((∑ p ∈ Finset.Ico (j+1) E, star (V p j) * m p c) + m j c) * beta) else m a c
        else m a c := by
        funext a c
        rw [hsum]
        by_cases h3 : c0 ≤ c ∧ c < c1
        · rw [if_pos (show c0 ≤ c ∧ c < c2 by omega), if_pos h3]
          by_cases h4 : a = j
          · rw [if_pos h4, if_pos h4]
          · rw [if_neg h4, if_neg h4]
            by_cases h5 : j < a ∧ a < M
            · rw [if_pos h5]
              by_cases h6 : a < E
              · rw [if_pos ⟨h5.1, h6⟩]
              · rw [if_neg (by omega), hV a (by omega) h5.2, zero_mul, sub_zero]
            · rw [if_neg h5, if_neg (by omega)]
        · rw [if_neg h3]
          by_cases h4 : c0 ≤ c ∧ c < c2
          · rw [if_pos h4, hzero c (by omega) h4.2]
            simp
          · rw [if_neg h4]
      by_cases h1 : c1 - c0 = 0
      · rw [if_pos h1, key]
        funext a c
        rw [if_neg (by omega)]
      · rw [if_neg h1, if_pos hb, key]
  · simp only [if_neg hb, ite_self]

/-- One step of the band algorithm is one step of the dense algorithm, if what lies outside the block is zero. -/
theorem reflectMat_trim (tiny : ℝ) {E M F N j : Nat} (hj : j < E) (hE : E ≤ M) (hF0 : j+1 ≤ F) (hF : F ≤ N) (A : Nat → Nat → K) (det : K)
    (hz : ∀ p, E ≤ p → p < M → A p j = 0) (hr : ∀ p c, j ≤ p → p < E → F ≤ c → c < N → A p c = 0) :
    reflectMat tiny M N j A det = reflectMat tiny E F j A det := by
  unfold reflectMat
  rw [reflectCol_trim tiny hj hE A det hz]
  have hfr : ∀ p c, c ≠ j ∨ E ≤ p → (reflectCol tiny E j A det).1 p c = A p c := by
    intro p c h
    unfold reflectCol
    dsimp only
    rw [if_neg (by omega), if_neg (by omega)]
  generalize hR : reflectCol tiny E j A det = R at hfr
  obtain ⟨A1, b, d⟩ := R
  dsimp only at hfr ⊢
  rw [lmult_trim hj hE hF0 hF A1 b A1 (fun p h1 h2 => by rw [hfr p j (by omega)]; exact hz p h1 h2) ?_]
  intro p c h1 h2 h3 h4
  by_cases h5 : E ≤ p
  · exact .inr h5
  · left
    rw [hfr p c (by omega)]
    exact hr p c h1 (by omega) h3 h4

/-! ### Only the block is looked at -/

theorem reflectMat_frame (tiny : ℝ) (E F j : Nat) (A : Nat → Nat → K) (det : K) (p c : Nat)
    (h : p < j ∨ E ≤ p ∨ c < j ∨ F ≤ c) (hj : j < E) (hF : j+1 ≤ F) : (reflectMat tiny E F j A det).1 p c = A p c := by
  have hfr : (reflectCol tiny E j A det).1 p c = A p c := by
    unfold reflectCol
    dsimp only
    rw [if_neg (by omega), if_neg (by omega)]
  unfold reflectMat
  generalize reflectCol tiny E j A det = R at hfr
  obtain ⟨A1, b, d⟩ := R
  dsimp only at hfr ⊢
  split
  · unfold lmult
    split
    · exact hfr
    · dsimp only
      split
      · rw [if_neg (by omega), if_neg (by omega)]; exact hfr
      · exact hfr
  · exact hfr

theorem reflectMat_congr (tiny : ℝ) {E F j : Nat} (hj : j < E) (hF : j+1 ≤ F) {A B : Nat → Nat → K} (det : K)
    (h : ∀ p c, j ≤ p → p < E → j ≤ c → c < F → A p c = B p c) :
    (∀ p c, j ≤ p → p < E → j ≤ c → c < F → (reflectMat tiny E F j A det).1 p c = (reflectMat tiny E F j B det).1 p c) ∧
    (reflectMat tiny E F j A det).2 = (reflectMat tiny E F j B det).2 := by
  have h0 : A j j = B j j := h j j le_rfl hj le_rfl hF
  obtain ⟨r1, r2, r3, r4⟩ := reflect_congr tiny (E-(j+1)) (A j j) (fun i => A (j+1+i) j) (fun i => B (j+1+i) j) det
    (fun i hi => h _ j (by omega) (by omega) le_rfl hF)
  have hA1 : ∀ p c, j ≤ p → p < E → j ≤ c → c < F → (reflectCol tiny E j A det).1 p c = (reflectCol tiny E j B det).1 p c := by
    intro p c h1 h2 h3 h4
    unfold reflectCol
    dsimp only
    rw [← h0]
    by_cases hc : c = j
    · by_cases hp : p = j
      · rw [if_pos ⟨hc, hp⟩, if_pos ⟨hc, hp⟩, r1]
      · rw [if_neg (by omega), if_pos (by omega), if_neg (by omega), if_pos (by omega), r4 _ (by omega)]
    · rw [if_neg (by omega), if_neg (by omega), if_neg (by omega), if_neg (by omega), h p c h1 h2 h3 h4]
  have hbd : (reflectCol tiny E j A det).2 = (reflectCol tiny E j B det).2 := by
    unfold reflectCol
    dsimp only
    rw [← h0, r2, r3]
  unfold reflectMat
  generalize reflectCol tiny E j A det = RA at *
  generalize reflectCol tiny E j B det = RB at *
  obtain ⟨A1, b, d⟩ := RA
  obtain ⟨B1, b', d'⟩ := RB
  obtain ⟨rfl, rfl⟩ := Prod.mk.inj hbd
  dsimp only at hA1 ⊢
  refine ⟨?_, rfl⟩
  intro p c h1 h2 h3 h4
  split
  · unfold lmult
    split
    · exact hA1 p c h1 h2 h3 h4
    · · dsimp only
        by_cases hc : j+1 ≤ c ∧ c < F
        · rw [if_pos hc, if_pos hc]
          have ht : (∑ q ∈ Finset.Ico (j+1) E, star (A1 q j) * A1 q c) + A1 j c = (∑ q ∈ Finset.Ico (j+1) E, star (B1 q j) * B1 q c) + B1 j c := by
            rw [hA1 j c le_rfl hj h3 h4]
            congr 1
            refine Finset.sum_congr rfl fun q hq => ?_
            rw [Finset.mem_Ico] at hq
            rw [hA1 q j (by omega) hq.2 le_rfl hF, hA1 q c (by omega) hq.2 h3 h4]
          rw [ht, hA1 p c h1 h2 h3 h4, hA1 p j h1 h2 le_rfl hF]
        · rw [if_neg hc, if_neg hc]; exact hA1 p c h1 h2 h3 h4
  · exact hA1 p c h1 h2 h3 h4

/-! ### The decomposition -/

/-- What the matrix looks like before column `j`: zero below the band, and zero to the right of what can be filled. -/
structure Shape (M N lo hi ahi j : Nat) (B : Nat → Nat → K) : Prop where
  low : ∀ p c, p < M → c < N → c + lo < p → B p c = 0
  top : ∀ p c, p < M → c < N → p + hi < c → B p c = 0
  mid : ∀ p c, p < M → c < N → j + lo ≤ p → p + ahi < c → B p c = 0
  fil : ∀ p c, p < M → c < N → j ≤ p → p < j + lo → j + hi < c → B p c = 0

theorem Shape.next {M N lo hi ahi j : Nat} {B B' : Nat → Nat → K} (h : Shape M N lo hi ahi j B) (hhi : lo + ahi ≤ hi ∨ hi + 1 = N)
    (hfr : ∀ p c, p < j ∨ min (lo+1+j) M ≤ p ∨ c < j ∨ min (hi+1+j) N ≤ c → B' p c = B p c) : Shape M N lo hi ahi (j+1) B' where
  low := fun p c h1 h2 h3 => by
    rw [hfr p c (by omega)]; exact h.low p c h1 h2 h3
  top := fun p c h1 h2 h3 => by
    by_cases hp : p < j
    · rw [hfr p c (by omega)]; exact h.top p c h1 h2 h3
    · rw [hfr p c (by omega)]; exact h.top p c h1 h2 h3
  mid := fun p c h1 h2 h3 h4 => by
    rw [hfr p c (by omega)]; exact h.mid p c h1 h2 (by omega) h4
  fil := fun p c h1 h2 h3 h4 h5 => by
    rw [hfr p c (by omega)]
    by_cases hp : p < j + lo
    · exact h.fil p c h1 h2 (by omega) hp (by omega)
    · exact h.mid p c h1 h2 (by omega) (by omega)

theorem decLoop_eq (tiny : ℝ) {M N lo hi ahi : Nat} (hNM : N ≤ M) (hlo : 0 < lo) (hhi : lo + ahi ≤ hi ∨ hi + 1 = N) :
    ∀ (n j : Nat) (A B : Nat → Nat → K) (β : Nat → K) (det : K), j + n = N →
      Shape M N lo hi ahi j B → (∀ p c, p < M → c < N → p ≤ c + lo → c ≤ p + hi → A p c = B p c) →
      let r := decLoop tiny M N n j (min (lo+1+j) M) (min (hi+1+j) N) A β det
      let s := nonBlock tiny M N n j B β det
      r.2 = s.2 ∧ (∀ p c, p < M → c < N → p ≤ c + lo → c ≤ p + hi → r.1 p c = s.1 p c) ∧
      (∀ p c, ¬ (p < M ∧ c < N ∧ p ≤ c + lo ∧ c ≤ p + hi) → r.1 p c = A p c ∧ s.1 p c = B p c) := by
  intro n
  induction n with
  | zero => intro j A B β det _ _ hAB; exact ⟨rfl, hAB, fun _ _ _ => ⟨rfl, rfl⟩⟩
  | succ n ih =>
    intro j A B β det hj hS hAB
    have hE : j < min (lo+1+j) M := by omega
    have hF : j + 1 ≤ min (hi+1+j) N := by omega
    have ht : reflectMat tiny M N j B det = reflectMat tiny (min (lo+1+j) M) (min (hi+1+j) N) j B det :=
      reflectMat_trim tiny hE (by omega) hF (by omega) B det
        (fun p h1 h2 => hS.low p j h2 (by omega) (by omega))
        (fun p c h1 h2 h3 h4 => by
          by_cases hp : p < j + lo
          · exact hS.fil p c (by omega) h4 h1 hp (by omega)
          · exact hS.mid p c (by omega) h4 (by omega) (by omega))
    have hfrB : ∀ p c, p < j ∨ min (lo+1+j) M ≤ p ∨ c < j ∨ min (hi+1+j) N ≤ c → (reflectMat tiny M N j B det).1 p c = B p c := by
      intro p c h; rw [ht]; exact reflectMat_frame tiny _ _ j B det p c h hE hF
    have hfrA : ∀ p c, p < j ∨ min (lo+1+j) M ≤ p ∨ c < j ∨ min (hi+1+j) N ≤ c →
        (reflectMat tiny (min (lo+1+j) M) (min (hi+1+j) N) j A det).1 p c = A p c :=
      fun p c h => reflectMat_frame tiny _ _ j A det p c h hE hF
    obtain ⟨c1, c2⟩ := reflectMat_congr tiny hE hF (A := A) (B := B) det
      (fun p c h1 h2 h3 h4 => hAB p c (by omega) (by omega) (by omega) (by omega))
    rw [← ht] at c1 c2
    have hec : (if min (lo+1+j) M < M then min (lo+1+j) M + 1 else min (lo+1+j) M) = min (lo+1+(j+1)) M := by
      split <;> omega
    have her : (if min (hi+1+j) N < N then min (hi+1+j) N + 1 else min (hi+1+j) N) = min (hi+1+(j+1)) N := by
      split <;> omega
    intro r s
    have hS' := hS.next hhi hfrB
    have hAB' : ∀ p c, p < M → c < N → p ≤ c + lo → c ≤ p + hi →
        (reflectMat tiny (min (lo+1+j) M) (min (hi+1+j) N) j A det).1 p c = (reflectMat tiny M N j B det).1 p c := by
      intro p c h1 h2 h3 h4
      by_cases hin : j ≤ p ∧ p < min (lo+1+j) M ∧ j ≤ c ∧ c < min (hi+1+j) N
      · exact c1 p c hin.1 hin.2.1 hin.2.2.1 hin.2.2.2
      · rw [hfrA p c (by omega), hfrB p c (by omega)]; exact hAB p c h1 h2 h3 h4
    obtain ⟨i1, i2, i3⟩ := ih (j+1) _ _ (fun k => if k = j then (reflectMat tiny M N j B det).2.1 else β k)
      (reflectMat tiny M N j B det).2.2 (by omega) hS' hAB'
    have hr : r = decLoop tiny M N n (j+1) (min (lo+1+(j+1)) M) (min (hi+1+(j+1)) N)
        (reflectMat tiny (min (lo+1+j) M) (min (hi+1+j) N) j A det).1
        (fun k => if k = j then (reflectMat tiny M N j B det).2.1 else β k) (reflectMat tiny M N j B det).2.2 := by
      rw [← c2, ← hec, ← her]; rfl
    have hs : s = nonBlock tiny M N n (j+1) (reflectMat tiny M N j B det).1
        (fun k => if k = j then (reflectMat tiny M N j B det).2.1 else β k) (reflectMat tiny M N j B det).2.2 := rfl
    rw [hr, hs]
    refine ⟨i1, i2, fun p c h => ?_⟩
    obtain ⟨k1, k2⟩ := i3 p c h
    rw [k1, k2]
    by_cases hpc : p < M ∧ c < N
    · by_cases hb : c + lo < p
      · exact ⟨hfrA p c (by omega), hfrB p c (by omega)⟩
      · exact ⟨hfrA p c (by omega), hfrB p c (by omega)⟩
    · exact ⟨hfrA p c (by omega), hfrB p c (by omega)⟩

end
end TMV.BandQR
