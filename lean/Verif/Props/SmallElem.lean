import Verif.Model.SmallDiv
import Verif.Props.LUDiv
import Verif.Props.QRSolve

/-! The kernels of the `SmallMatrix` division on element functions (lemmas for C112-C114). -/
namespace TMV.SmallDiv
noncomputable section
open Classical

variable {K : Type} [RCLike K]

/-- A loop whose iteration `i` changes only the elements with `key = i`, and these independently of the earlier iterations. -/
theorem up_key (key : Nat → Nat → Nat) {f : Nat → (Nat → Nat → K) → Nat → Nat → K} {m : Nat → Nat → K} {lo n : Nat}
    (hf : ∀ i A, lo ≤ i → i < lo + n → (∀ a b, ¬ (lo ≤ key a b ∧ key a b < i) → A a b = m a b) →
      ∀ a b, f i A a b = if key a b = i then f i m a b else A a b) :
    up f n lo m = fun a b => if lo ≤ key a b ∧ key a b < lo + n then f (key a b) m a b else m a b := by
  refine up_inv f (fun i A => A = fun a b => if lo ≤ key a b ∧ key a b < i then f (key a b) m a b else m a b) n lo m ?_ ?_
  · funext a b; rw [if_neg (by omega)]
  · intro i A h1 h2 hA
    funext a b
    rw [hf i A h1 h2 (fun a b h => by rw [hA]; dsimp only; rw [if_neg h])]
    by_cases hk : key a b = i
    · rw [if_pos hk, if_pos (by omega), hk]
    · rw [if_neg hk, hA]
      dsimp only
      by_cases h3 : lo ≤ key a b ∧ key a b < i
      · rw [if_pos h3, if_pos (by omega)]
      · rw [if_neg h3, if_neg (by omega)]

/-- The same for a downward loop. -/
theorem downFrom_key (key : Nat → Nat → Nat) {f : Nat → (Nat → Nat → K) → Nat → Nat → K} {m : Nat → Nat → K} {lo hi : Nat}
    (hf : ∀ i A, lo ≤ i → i < hi → (∀ a b, ¬ (i < key a b ∧ key a b < hi) → A a b = m a b) →
      ∀ a b, f i A a b = if key a b = i then f i m a b else A a b) :
    downFrom f lo hi m = fun a b => if lo ≤ key a b ∧ key a b < hi then f (key a b) m a b else m a b := by
  unfold downFrom
  have := down_inv (fun i => f (lo+i)) (fun i A => A = fun a b => if lo + i ≤ key a b ∧ key a b < hi then f (key a b) m a b else m a b)
    (hi-lo) m ?_ ?_
  · simpa using this
  · funext a b; rw [if_neg (by omega)]
  · intro i A h2 hA
    funext a b
    rw [hf (lo+i) A (by omega) (by omega) (fun a b h => by rw [hA]; dsimp only; rw [if_neg (by omega)])]
    by_cases hk : key a b = lo+i
    · rw [if_pos hk, if_pos (by omega), hk]
    · rw [if_neg hk, hA]
      dsimp only
      by_cases h3 : lo+(i+1) ≤ key a b ∧ key a b < hi
      · rw [if_pos h3, if_pos (by omega)]
      · rw [if_neg h3, if_neg (by omega)]

theorem forDown_none {S : Type} {f : Nat → S → Option S} {N i : Nat} (hi : i < N) (h : ∀ s, f i s = none) : ∀ s, forDown f N s = none := by
  induction N with
  | zero => omega
  | succ n ih =>
    intro s
    rw [forDown]
    by_cases hn : i = n
    · subst hn; rw [h]; rfl
    · cases f n s with
      | none => rfl
      | some t => exact ih (by omega) t

theorem forRange_none {S : Type} {f : Nat → S → Option S} {N lo i : Nat} (h1 : lo ≤ i) (hi : i < lo + N) (h : ∀ s, f i s = none) :
    ∀ s, forRange f N lo s = none := by
  induction N generalizing lo with
  | zero => omega
  | succ n ih =>
    intro s
    rw [forRange]
    by_cases hn : i = lo
    · subst hn; rw [h]; rfl
    · cases f lo s with
      | none => rfl
      | some t => exact ih (by omega) (by omega) t

/-! ### Triangular divisions -/

theorem lDivEqL_step (N nc j : Nat) (L m : Nat → Nat → K) :
    up (fun k m => up (fun i m => elem.set m i k (elem.get m i k - elem.get m j k * L i j)) (N-(j+1)) (j+1) m) nc 0 m =
    fun a b => if b < nc ∧ j < a ∧ a < N then m a b - m j b * L a j else m a b := by
  simp only [elem]
  have hin : ∀ k (m : Nat → Nat → K), up (fun i m => setE m i k (m i k - m j k * L i j)) (N-(j+1)) (j+1) m =
      fun a b => if b = k ∧ j < a ∧ a < N then m a b - m j b * L a j else m a b := by
    intro k m
    rw [up_key (fun a _ => a)]
    · funext a b
      simp only [setE]
      grind
    · intro i A h1 h2 hA a b
      simp only [setE]
      have e1 := hA i k (by omega)
      have e2 := hA j k (by omega)
      have e3 := hA a b
      grind
  simp only [hin]
  rw [up_key (fun _ b => b)]
  · funext a b; grind
  · intro i A h1 h2 hA a b
    have e3 := hA a b
    have e4 := hA j b
    grind

theorem lDivEqL_spec (N nc : Nat) (L B : Nat → Nat → K) : SolM N nc (lowerMat true L) (lDivEqL elem N nc L B) B := by
  unfold lDivEqL
  simp only [lDivEqL_step]
  have key := up_inv (fun j (m : Nat → Nat → K) => fun a b => if b < nc ∧ j < a ∧ a < N then m a b - m j b * L a j else m a b)
    (fun j A => ∀ a b, A a b = if a < N ∧ b < nc then B a b - ∑ l ∈ Finset.range (min j a), A l b * L a l else B a b) N 0 B
    (by intro a b; simp) (by
      intro j A _ hj hA a b
      have hlow : ∀ a b, a ≤ j → (if b < nc ∧ j < a ∧ a < N then A a b - A j b * L a j else A a b) = A a b := fun a b h => by
        rw [if_neg (by omega)]
      have hsum : ∀ n, n ≤ j+1 → ∑ l ∈ Finset.range n, (if b < nc ∧ j < l ∧ l < N then A l b - A j b * L l j else A l b) * L a l =
          ∑ l ∈ Finset.range n, A l b * L a l := fun n hn => Finset.sum_congr rfl fun l hl => by
        rw [Finset.mem_range] at hl
        rw [hlow l b (by omega)]
      dsimp only
      by_cases hab : a < N ∧ b < nc
      · rw [if_pos hab]
        by_cases hja : j < a
        · rw [if_pos ⟨hab.2, hja, hab.1⟩, hA a b, if_pos hab, show min (j+1) a = j+1 by omega, show min j a = j by omega,
            hsum _ le_rfl, Finset.sum_range_succ]
          ring
        · rw [if_neg (by omega), show min (j+1) a = a by omega]
          rw [hA a b, if_pos hab, show min j a = a by omega]
          rw [hsum _ (by omega)]
      · rw [if_neg hab, if_neg (by omega), hA a b, if_neg hab])
  rw [Nat.zero_add] at key
  generalize up _ N 0 B = X at key ⊢
  refine ⟨fun i c hi hc => ?_, fun i c h => by rw [key, if_neg h]⟩
  rw [← Finset.sum_subset (Finset.range_subset_range.mpr (show i+1 ≤ N by omega)), Finset.sum_range_succ]
  · have := key i c
    rw [if_pos ⟨hi, hc⟩, show min N i = i by omega] at this
    rw [Finset.sum_congr rfl (g := fun l => X l c * L i l) fun l hl => by
      rw [Finset.mem_range] at hl
      rw [lowerMat, if_pos hl]; ring]
    rw [lowerMat, if_neg (by omega), if_pos rfl, if_pos rfl, this]
    ring
  · intro k _ hk
    rw [Finset.mem_range] at hk
    rw [lowerMat, if_neg (by omega), if_neg (by omega), zero_mul]

theorem lDivEqU_step (nc j : Nat) (U m : Nat → Nat → K) :
    up (fun k m =>
      let m := elem.set m j k (elem.get m j k / U j j)
      up (fun i m => elem.set m i k (elem.get m i k - elem.get m j k * U i j)) j 0 m) nc 0 m =
    fun a b => if b < nc then if a = j then m j b / U j j else if a < j then m a b - m j b / U j j * U a j else m a b else m a b := by
  simp only [elem]
  have hin : ∀ k (m : Nat → Nat → K), up (fun i m => setE m i k (m i k - m j k * U i j)) j 0 m =
      fun a b => if b = k ∧ a < j then m a b - m j b * U a j else m a b := by
    intro k m
    rw [up_key (fun a _ => a)]
    · funext a b
      simp only [setE]
      grind
    · intro i A h1 h2 hA a b
      simp only [setE]
      have e1 := hA i k (by omega)
      have e2 := hA j k (by omega)
      have e3 := hA a b
      grind
  simp only [hin]
  rw [up_key (fun _ b => b)]
  · funext a b; simp only [setE]; grind
  · intro i A h1 h2 hA a b
    have e3 := hA a b
    have e4 := hA j b
    simp only [setE]
    grind

theorem lDivEqU_spec (N nc : Nat) (U B : Nat → Nat → K) (hU : ∀ i, i < N → U i i ≠ 0) :
    ∃ X, lDivEqU elem N nc U B = some X ∧ SolM N nc (upperMat false U) X B := by
  unfold lDivEqU
  simp only [lDivEqU_step]
  have key : ∃ X, forDown (fun j (m : Nat → Nat → K) => if U j j = 0 then none else some fun a b => if b < nc then if a = j then m j b / U j j
      else if a < j then m a b - m j b / U j j * U a j else m a b else m a b) N B = some X ∧
      ∀ a b, (a < N ∧ b < nc → (if 0 ≤ a then U a a * X a b else X a b) = B a b - ∑ l ∈ Finset.Ico (max 0 (a+1)) N, X l b * U a l) ∧
        (¬ (a < N ∧ b < nc) → X a b = B a b) := by
    refine forDown_inv _ (fun j A => ∀ a b, (a < N ∧ b < nc → (if j ≤ a then U a a * A a b else A a b) =
      B a b - ∑ l ∈ Finset.Ico (max j (a+1)) N, A l b * U a l) ∧ (¬ (a < N ∧ b < nc) → A a b = B a b)) N B ?_ ?_
    · intro a b
      refine ⟨fun h => ?_, fun _ => rfl⟩
      rw [if_neg (by omega), Finset.Ico_eq_empty (by omega), Finset.sum_empty, sub_zero]
    · intro j A hj hA
      rw [if_neg (hU j hj)]
      refine ⟨_, rfl, fun a b => ⟨fun h => ?_, fun h => ?_⟩⟩
      · simp only [if_pos h.2]
        have hj1 := (hA j b).1 ⟨hj, h.2⟩
        rw [if_neg (by omega), show max (j+1) (j+1) = j+1 by omega] at hj1
        have hsum : ∀ s, j < s → ∀ c, ∑ l ∈ Finset.Ico s N, (if l = j then A j b / U j j else if l < j then A l b - A j b / U j j * U l j
            else A l b) * U c l = ∑ l ∈ Finset.Ico s N, A l b * U c l := by
          intro s hs c
          refine Finset.sum_congr rfl fun l hl => ?_
          rw [Finset.mem_Ico] at hl
          rw [if_neg (by omega), if_neg (by omega)]
        by_cases haj : a = j
        · subst haj
          rw [if_pos le_rfl, if_pos rfl, show max a (a+1) = a+1 by omega, hsum _ (by omega), mul_div_cancel₀ _ (hU a hj), hj1]
        · by_cases hlt : a < j
          · rw [if_neg (by omega), if_neg haj, if_pos hlt, show max j (a+1) = j by omega, Finset.sum_eq_sum_Ico_succ_bot hj, hsum _ (by omega)]
            have := (hA a b).1 h
            rw [if_neg (by omega), show max (j+1) (a+1) = j+1 by omega] at this
            rw [if_pos rfl, this]
            ring
          · rw [if_pos (by omega), if_neg haj, if_neg hlt, show max j (a+1) = a+1 by omega, hsum _ (by omega)]
            have := (hA a b).1 h
            rw [if_pos (by omega), show max (j+1) (a+1) = a+1 by omega] at this
            exact this
      · have := (hA a b).2 h
        by_cases hb : b < nc
        · rw [if_pos hb, if_neg (by omega), if_neg (by omega), this]
        · rw [if_neg hb, this]
  obtain ⟨X, h1, h2⟩ := key
  refine ⟨X, h1, fun i c hi hc => ?_, fun i c h => (h2 i c).2 h⟩
  have := (h2 i c).1 ⟨hi, hc⟩
  rw [if_pos (by omega), show max 0 (i+1) = i+1 by omega] at this
  rw [Finset.range_eq_Ico, ← Finset.sum_Ico_consecutive _ (Nat.zero_le i) hi.le, Finset.sum_eq_sum_Ico_succ_bot hi,
    Finset.sum_eq_zero (s := Finset.Ico 0 i), zero_add]
  · rw [Finset.sum_congr rfl (g := fun l => X l c * U i l) fun l hl => by
      rw [Finset.mem_Ico] at hl
      rw [upperMat, if_pos (by omega)]; ring]
    rw [upperMat, if_neg (by omega), if_pos rfl, if_neg (by simp), this]
    ring
  · intro l hl
    rw [Finset.mem_Ico] at hl
    rw [upperMat, if_neg (by omega), if_neg (by omega), zero_mul]

theorem lDivEqU_none {σ : Type} (a : Acc σ K) (N nc : Nat) (U : Nat → Nat → K) (B : σ) {i : Nat} (hi : i < N) (hU : U i i = 0) :
    lDivEqU a N nc U B = none := forDown_none hi (fun s => by rw [if_pos hU]) B

/-- `X U = B`. -/
def SolR (N nr : Nat) (T X B : Nat → Nat → K) : Prop :=
  (∀ a c, a < nr → c < N → ∑ k ∈ Finset.range N, X a k * T k c = B a c) ∧ ∀ a c, ¬ (a < nr ∧ c < N) → X a c = B a c

theorem rDivEqU_step (nr i : Nat) (U m : Nat → Nat → K) :
    up (fun k m =>
      let m := up (fun j m => elem.set m k i (elem.get m k i - elem.get m k j * U j i)) i 0 m
      elem.set m k i (elem.get m k i / U i i)) nr 0 m =
    fun a b => if a < nr ∧ b = i then (m a i - ∑ l ∈ Finset.range i, m a l * U l i) / U i i else m a b := by
  simp only [elem]
  have hin : ∀ k (m : Nat → Nat → K), up (fun j m => setE m k i (m k i - m k j * U j i)) i 0 m =
      fun a b => if a = k ∧ b = i then m k i - ∑ l ∈ Finset.range i, m k l * U l i else m a b := by
    intro k m
    have := up_inv (fun j m => setE m k i (m k i - m k j * U j i)) (fun j A => A = fun a b => if a = k ∧ b = i then
      m k i - ∑ l ∈ Finset.range j, m k l * U l i else m a b) i 0 m (by funext a b; simp; grind) (by
        intro j A _ hj hA
        funext a b
        rw [setE, hA]
        dsimp only
        rw [Finset.sum_range_succ, if_pos (show k = k ∧ i = i from ⟨rfl, rfl⟩), if_neg (show ¬ (k = k ∧ j = i) by omega)]
        by_cases h : a = k ∧ b = i
        · rw [if_pos h, if_pos h]; ring
        · rw [if_neg h, if_neg h, if_neg h])
    rw [Nat.zero_add] at this
    exact this
  simp only [hin]
  rw [up_key (fun a _ => a)]
  · funext a b; simp only [setE]; grind
  · intro k A h1 h2 hA a b
    have hs : ∑ l ∈ Finset.range i, A k l * U l i = ∑ l ∈ Finset.range i, m k l * U l i :=
      Finset.sum_congr rfl fun l _ => by rw [hA k l (by omega)]
    have e3 := hA a b
    have e4 := hA k i (by omega)
    simp only [setE]
    grind

theorem rDivEqU_spec (N nr : Nat) (U B : Nat → Nat → K) (hU : ∀ i, i < N → U i i ≠ 0) :
    ∃ X, rDivEqU elem N nr U B = some X ∧ SolR N nr (upperMat false U) X B := by
  unfold rDivEqU
  simp only [rDivEqU_step]
  have key : ∃ X, forRange (fun i (m : Nat → Nat → K) => if U i i = 0 then none else some fun a b => if a < nr ∧ b = i then
      (m a i - ∑ l ∈ Finset.range i, m a l * U l i) / U i i else m a b) N 0 B = some X ∧
      ∀ a b, (a < nr ∧ b < 0 + N → ∑ l ∈ Finset.range b, X a l * U l b + X a b * U b b = B a b) ∧
        (¬ (a < nr ∧ b < 0 + N) → X a b = B a b) := by
    refine forRange_inv _ (fun j A => ∀ a b, (a < nr ∧ b < j → ∑ l ∈ Finset.range b, A a l * U l b + A a b * U b b = B a b) ∧
        (¬ (a < nr ∧ b < j) → A a b = B a b)) N 0 B ?_ ?_
    · intro a b; exact ⟨fun h => by omega, fun _ => rfl⟩
    · intro i A _ hi hA
      rw [if_neg (hU i (by omega))]
      refine ⟨_, rfl, fun a b => ⟨fun h => ?_, fun h => ?_⟩⟩
      · have hs : ∑ l ∈ Finset.range b, (if a < nr ∧ l = i then (A a i - ∑ l ∈ Finset.range i, A a l * U l i) / U i i else A a l) * U l b =
            ∑ l ∈ Finset.range b, A a l * U l b := Finset.sum_congr rfl fun l hl => by
          rw [Finset.mem_range] at hl
          rw [if_neg (by omega)]
        rw [hs]
        by_cases hb : b = i
        · subst hb
          rw [if_pos ⟨h.1, rfl⟩, div_mul_cancel₀ _ (hU b (by omega)), (hA a b).2 (by omega)]
          ring
        · rw [if_neg (by omega), (hA a b).1 (by omega)]
      · rw [if_neg (by omega), (hA a b).2 (by omega)]
  obtain ⟨X, h1, h2⟩ := key
  rw [Nat.zero_add] at h2
  refine ⟨X, h1, fun a c ha hc => ?_, fun a c h => (h2 a c).2 (by omega)⟩
  have := (h2 a c).1 ⟨ha, hc⟩
  rw [← Finset.sum_subset (Finset.range_subset_range.mpr (show c+1 ≤ N by omega)), Finset.sum_range_succ]
  · rw [← this, upperMat, if_neg (by omega), if_pos rfl, if_neg (by simp)]
    congr 1
    refine Finset.sum_congr rfl fun l hl => ?_
    rw [Finset.mem_range] at hl
    rw [upperMat, if_pos hl]
  · intro k _ hk
    rw [Finset.mem_range] at hk
    rw [upperMat, if_neg (by omega), if_neg (by omega), mul_zero]

theorem rDivEqU_none {σ : Type} (a : Acc σ K) (N nr : Nat) (U : Nat → Nat → K) (B : σ) {i : Nat} (hi : i < N) (hU : U i i = 0) :
    rDivEqU a N nr U B = none := forRange_none (Nat.zero_le i) (by omega) (fun s => by rw [if_pos hU]) B

/-! ### Triangular inverses -/

theorem invertU_step (j : Nat) (U : Nat → Nat → K) :
    up (fun k U =>
      let U := up (fun i U => setE U i j (U i j + U k j * U i k)) k 0 U
      setE U k j (U k j * U k k)) j 0 U =
    fun a b => if b = j ∧ a < j then ∑ l ∈ Finset.Ico a j, U a l * U l j else U a b := by
  have hin : ∀ k (m : Nat → Nat → K), k < j → up (fun i U => setE U i j (U i j + U k j * U i k)) k 0 m =
      fun a b => if b = j ∧ a < k then m a b + m k b * m a k else m a b := by
    intro k m hk
    rw [up_key (fun a _ => a)]
    · funext a b
      simp only [setE]
      grind
    · intro i A h1 h2 hA a b
      simp only [setE]
      have e1 := hA i j (by omega)
      have e2 := hA k j (by omega)
      have e3 := hA a b
      have e4 := hA i k (by omega)
      grind
  have := up_inv (fun k U =>
      let U := up (fun i U => setE U i j (U i j + U k j * U i k)) k 0 U
      setE U k j (U k j * U k k)) (fun k A => A = fun a b => if b = j ∧ a < k then ∑ l ∈ Finset.Ico a k, U a l * U l j else U a b) j 0 U
    (by funext a b; rw [if_neg (by omega)]) (by
      intro k A _ hk hA
      dsimp only
      rw [hin k A (by omega)]
      funext a b
      rw [setE]
      by_cases h1 : a = k ∧ b = j
      · obtain ⟨rfl, rfl⟩ := h1
        rw [if_pos ⟨rfl, rfl⟩, if_pos (by omega), hA]
        dsimp only
        rw [if_neg (by omega), if_neg (by omega), if_neg (by omega), if_neg (by omega), Finset.sum_Ico_succ_top le_rfl, Finset.Ico_self, Finset.sum_empty]
        ring
      · rw [if_neg h1]
        by_cases h2 : b = j ∧ a < k
        · obtain ⟨rfl, h2⟩ := h2
          rw [if_pos ⟨rfl, h2⟩, if_pos (by omega), hA]
          dsimp only
          rw [if_pos ⟨rfl, h2⟩, if_neg (by omega), if_neg (by omega), Finset.sum_Ico_succ_top (by omega)]
          ring
        · rw [if_neg h2, if_neg (by omega), hA]
          dsimp only
          rw [if_neg h2])
  rw [Nat.zero_add] at this
  exact this

theorem invertU_col (j : Nat) (U : Nat → Nat → K) :
    (let U := setE U j j (1 / U j j)
    let U := up (fun k U =>
      let U := up (fun i U => setE U i j (U i j + U k j * U i k)) k 0 U
      setE U k j (U k j * U k k)) j 0 U
    up (fun i U => setE U i j (U i j * -U j j)) j 0 U) =
    fun a b => if b = j ∧ a < j then (∑ l ∈ Finset.Ico a j, U a l * U l j) * -(1 / U j j) else if a = j ∧ b = j then 1 / U j j else U a b := by
  have hin : ∀ (m : Nat → Nat → K), up (fun i U => setE U i j (U i j * -U j j)) j 0 m =
      fun a b => if b = j ∧ a < j then m a b * -m j j else m a b := by
    intro m
    rw [up_key (fun a _ => a)]
    · funext a b
      simp only [setE]
      grind
    · intro i A h1 h2 hA a b
      simp only [setE]
      have e1 := hA i j (by omega)
      have e2 := hA j j (by omega)
      have e3 := hA a b
      grind
  dsimp only
  rw [invertU_step, hin]
  funext a b
  have hs : ∑ l ∈ Finset.Ico a j, setE U j j (1 / U j j) a l * setE U j j (1 / U j j) l j = ∑ l ∈ Finset.Ico a j, U a l * U l j :=
    Finset.sum_congr rfl fun l hl => by
      rw [Finset.mem_Ico] at hl
      rw [setE, setE, if_neg (by omega), if_neg (by omega)]
  rw [hs]
  by_cases h : b = j ∧ a < j
  · rw [if_pos h, if_pos h, if_pos h, if_neg (by omega), setE, if_pos ⟨rfl, rfl⟩]
  · rw [if_neg h, if_neg h, if_neg h, setE]

theorem invertU_spec (N : Nat) (U : Nat → Nat → K) (hU : ∀ i, i < N → U i i ≠ 0) : ∃ W, invertU N U = some W ∧
    (∀ i c, i < N → c < N → ∑ k ∈ Finset.range N, upperMat false W i k * upperMat false U k c = if i = c then 1 else 0) ∧
    ∀ a b, ¬ (a ≤ b ∧ b < N) → W a b = U a b := by
  unfold invertU
  have key : ∃ W, forRange (fun j U => if U j j = 0 then none else
    let U := setE U j j (1 / U j j)
    let U := up (fun k U =>
      let U := up (fun i U => setE U i j (U i j + U k j * U i k)) k 0 U
      setE U k j (U k j * U k k)) j 0 U
    some (up (fun i U => setE U i j (U i j * -U j j)) j 0 U)) N 0 U = some W ∧
      (∀ i c, i ≤ c → c < 0 + N → ∑ k ∈ Finset.Ico i (c+1), W i k * U k c = if i = c then 1 else 0) ∧
      ∀ a b, ¬ (a ≤ b ∧ b < 0 + N) → W a b = U a b := by
    refine forRange_inv _ (fun j A => (∀ i c, i ≤ c → c < j → ∑ k ∈ Finset.Ico i (c+1), A i k * U k c = if i = c then 1 else 0) ∧
      ∀ a b, ¬ (a ≤ b ∧ b < j) → A a b = U a b) N 0 U ⟨fun i c _ h => by omega, fun _ _ _ => rfl⟩ ?_
    intro j A _ hj ⟨hA1, hA2⟩
    have hd : A j j = U j j := hA2 j j (by omega)
    rw [hd, if_neg (hU j (by omega))]
    have hc := invertU_col j A
    dsimp only at hc ⊢
    rw [hd] at hc
    rw [hc]
    refine ⟨_, rfl, ?_, ?_⟩
    · intro i c hic hcj
      by_cases hc' : c = j
      · subst hc'
        rw [Finset.sum_Ico_succ_top hic]
        have hs : ∑ k ∈ Finset.Ico i c, (if k = c ∧ i < c then (∑ l ∈ Finset.Ico i c, A i l * A l c) * -(1 / U c c) else if i = c ∧ k = c then 1 / U c c
            else A i k) * U k c = ∑ l ∈ Finset.Ico i c, A i l * A l c := Finset.sum_congr rfl fun k hk => by
          rw [Finset.mem_Ico] at hk
          rw [if_neg (by omega), if_neg (by omega), hA2 k c (by omega)]
        rw [hs]
        have hu := hU c (by omega)
        by_cases h : i = c
        · subst h
          rw [if_neg (by omega), if_pos ⟨rfl, rfl⟩, if_pos rfl, Finset.Ico_self, Finset.sum_empty, zero_add, one_div, inv_mul_cancel₀ hu]
        · rw [if_pos ⟨rfl, by omega⟩, if_neg h]
          field_simp
          ring
      · rw [← hA1 i c hic (by omega)]
        refine Finset.sum_congr rfl fun k hk => ?_
        rw [Finset.mem_Ico] at hk
        rw [if_neg (by omega), if_neg (by omega)]
    · intro a b h
      rw [if_neg (by omega), if_neg (by omega), hA2 a b (by omega)]
  obtain ⟨W, h1, h2, h3⟩ := key
  rw [Nat.zero_add] at h2 h3
  refine ⟨W, h1, fun i c hi hc => ?_, h3⟩
  by_cases hic : i ≤ c
  · rw [← h2 i c hic hc]
    symm
    rw [← Finset.sum_subset (s₁ := Finset.Ico i (c+1)) (s₂ := Finset.range N)]
    · refine Finset.sum_congr rfl fun k hk => ?_
      rw [Finset.mem_Ico] at hk
      unfold upperMat
      grind
    · intro k hk
      rw [Finset.mem_Ico] at hk
      rw [Finset.mem_range]; omega
    · intro k _ hk
      rw [Finset.mem_Ico] at hk
      unfold upperMat
      grind
  · rw [if_neg (by omega), Finset.sum_eq_zero]
    intro k _
    unfold upperMat
    grind

theorem invertU_none (N : Nat) (U : Nat → Nat → K) {i : Nat} (hi : i < N) (hU : U i i = 0) : invertU N U = none := by
  by_contra hne
  obtain ⟨W, hW⟩ := Option.ne_none_iff_exists'.mp hne
  -- the diagonal element is still the original one when column `i` is reached
  have : ∀ n j (A : Nat → Nat → K), j + n = N → j ≤ i → (∀ a b, j ≤ b → A a b = U a b) → forRange (fun j U => if U j j = 0 then none else
    let U := setE U j j (1 / U j j)
    let U := up (fun k U =>
      let U := up (fun i U => setE U i j (U i j + U k j * U i k)) k 0 U
      setE U k j (U k j * U k k)) j 0 U
    some (up (fun i U => setE U i j (U i j * -U j j)) j 0 U)) n j A = none := by
    intro n
    induction n with
    | zero => intro j A h1 h2; omega
    | succ n ih =>
      intro j A h1 h2 h3
      rw [forRange]
      by_cases hz : A j j = 0
      · rw [if_pos hz]; rfl
      · rw [if_neg hz]
        have hji : j ≠ i := by rintro rfl; exact hz (by rw [h3 _ _ le_rfl, hU])
        have hc := invertU_col j A
        dsimp only at hc ⊢
        rw [hc]
        refine ih (j+1) _ (by omega) (by omega) fun a b hb => ?_
        rw [if_neg (by omega), if_neg (by omega), h3 a b (by omega)]
  exact hne (this N 0 U (by omega) (by omega) fun _ _ _ => rfl)

theorem invertL_col (N j : Nat) (L : Nat → Nat → K) :
    (let L := downFrom (fun k L => downFrom (fun i L => setE L i j (L i j + L k j * L i k)) (k+1) N L) (j+1) N L
    downFrom (fun i L => setE L i j (-L i j)) (j+1) N L) =
    fun a b => if b = j ∧ j < a ∧ a < N then -(L a j + ∑ l ∈ Finset.Ico (j+1) a, L a l * L l j) else L a b := by
  have hin : ∀ k (m : Nat → Nat → K), j < k → downFrom (fun i L => setE L i j (L i j + L k j * L i k)) (k+1) N m =
      fun a b => if b = j ∧ k < a ∧ a < N then m a b + m k b * m a k else m a b := by
    intro k m hk
    rw [downFrom_key (fun a _ => a)]
    · funext a b
      simp only [setE]
      grind
    · intro i A h1 h2 hA a b
      simp only [setE]
      have e1 := hA i j (by omega)
      have e2 := hA k j (by omega)
      have e3 := hA a b
      have e4 := hA i k (by omega)
      grind
  have hneg : ∀ (m : Nat → Nat → K), downFrom (fun i L => setE L i j (-L i j)) (j+1) N m =
      fun a b => if b = j ∧ j < a ∧ a < N then -m a b else m a b := by
    intro m
    rw [downFrom_key (fun a _ => a)]
    · funext a b
      simp only [setE]
      grind
    · intro i A h1 h2 hA a b
      simp only [setE]
      have e1 := hA i j (by omega)
      have e3 := hA a b
      grind
  have hmid : downFrom (fun k L => downFrom (fun i L => setE L i j (L i j + L k j * L i k)) (k+1) N L) (j+1) N L =
      fun a b => if b = j ∧ j < a ∧ a < N then L a j + ∑ l ∈ Finset.Ico (j+1) a, L a l * L l j else L a b := by
    rw [show downFrom (fun k L => downFrom (fun i L => setE L i j (L i j + L k j * L i k)) (k+1) N L) (j+1) N L =
      down (fun k L => downFrom (fun i L => setE L i j (L i j + L (j+1+k) j * L i (j+1+k))) (j+1+k+1) N L) (N-(j+1)) L from rfl]
    have := down_inv (fun k L => downFrom (fun i L => setE L i j (L i j + L (j+1+k) j * L i (j+1+k))) (j+1+k+1) N L)
      (fun k A => A = fun a b => if b = j ∧ j < a ∧ a < N then L a j + ∑ l ∈ Finset.Ico (min a (j+1+k)) a, L a l * L l j else L a b)
      (N-(j+1)) L (by
        funext a b
        by_cases h : b = j ∧ j < a ∧ a < N
        · rw [if_pos h, Finset.Ico_eq_empty (by omega), Finset.sum_empty, add_zero, h.1]
        · rw [if_neg h]) (by
        intro k A hk hA
        rw [hin (j+1+k) A (by omega)]
        funext a b
        by_cases h : b = j ∧ j+1+k < a ∧ a < N
        · obtain ⟨rfl, h1, h2⟩ := h
          rw [if_pos ⟨rfl, h1, h2⟩, if_pos (by omega), hA]
          dsimp only
          rw [if_pos (by omega), if_pos (by omega), if_neg (by omega), Finset.Ico_eq_empty (a := min (b+1+k) (b+1+(k+1))) (by omega),
            Finset.sum_empty, show min a (b+1+(k+1)) = b+1+k+1 by omega, show min a (b+1+k) = b+1+k by omega,
            Finset.sum_eq_sum_Ico_succ_bot h1]
          ring
        · rw [if_neg h, hA]
          dsimp only
          by_cases h' : b = j ∧ j < a ∧ a < N
          · rw [if_pos h', if_pos h', show min a (j+1+(k+1)) = min a (j+1+k) by omega]
          · rw [if_neg h', if_neg h'])
    rw [this]
    funext a b
    by_cases h' : b = j ∧ j < a ∧ a < N
    · rw [if_pos h', if_pos h', show min a (j+1+0) = j+1 by omega]
    · rw [if_neg h', if_neg h']
  dsimp only
  rw [hmid, hneg]
  funext a b
  by_cases h' : b = j ∧ j < a ∧ a < N
  · rw [if_pos h', if_pos h', if_pos h']
  · rw [if_neg h', if_neg h', if_neg h']

theorem invertL_spec (N : Nat) (L : Nat → Nat → K) :
    (∀ i c, i < N → c < N → ∑ k ∈ Finset.range N, lowerMat true (invertL N L) i k * lowerMat true L k c = if i = c then 1 else 0) ∧
    ∀ a b, ¬ (b < a ∧ a < N) → invertL N L a b = L a b := by
  have key : (∀ i c, 0 ≤ c → c < i → i < N → ∑ k ∈ Finset.Ico (c+1) i, invertL N L i k * L k c + L i c + invertL N L i c = 0) ∧
      ∀ a b, ¬ (b < a ∧ 0 ≤ b ∧ a < N) → invertL N L a b = L a b := by
    unfold invertL
    refine down_inv _ (fun j A => (∀ i c, j ≤ c → c < i → i < N → ∑ k ∈ Finset.Ico (c+1) i, A i k * L k c + L i c + A i c = 0) ∧
      ∀ a b, ¬ (b < a ∧ j ≤ b ∧ a < N) → A a b = L a b) N L ⟨fun i c _ _ _ => by omega, fun _ _ _ => rfl⟩ ?_
    intro j A hj ⟨h1, h2⟩
    rw [invertL_col]
    refine ⟨fun i c hjc hci hi => ?_, fun a b h => ?_⟩ <;> dsimp only
    · by_cases hc : c = j
      · subst hc
        have hs : ∑ k ∈ Finset.Ico (c+1) i, (if k = c ∧ c < i ∧ i < N then -(A i c + ∑ l ∈ Finset.Ico (c+1) i, A i l * A l c) else A i k) * L k c =
            ∑ l ∈ Finset.Ico (c+1) i, A i l * A l c := Finset.sum_congr rfl fun k hk => by
          rw [Finset.mem_Ico] at hk
          rw [if_neg (by omega), h2 k c (by omega)]
        rw [hs, if_pos (by omega), h2 i c (by omega)]
        ring
      · rw [← h1 i c (by omega) hci hi, if_neg (by omega)]
        congr 2
        refine Finset.sum_congr rfl fun k hk => ?_
        rw [Finset.mem_Ico] at hk
        rw [if_neg (by omega)]
    · rw [if_neg (by omega), h2 a b (by omega)]
  refine ⟨fun i c hi hc => ?_, fun a b h => key.2 a b (by omega)⟩
  generalize invertL N L = W at key ⊢
  by_cases hic : i < c
  · rw [if_neg (by omega), Finset.sum_eq_zero]
    intro k _
    unfold lowerMat
    grind
  · by_cases he : i = c
    · subst he
      rw [Finset.sum_eq_single i]
      · simp [lowerMat]
      · intro k _ hk
        unfold lowerMat
        grind
      · intro h; exact absurd (Finset.mem_range.mpr hi) h
    · rw [if_neg he]
      have hk := key.1 i c (by omega) (by omega) hi
      rw [← hk, ← Finset.sum_subset (s₁ := Finset.Ico c (i+1)) (s₂ := Finset.range N)]
      · rw [Finset.sum_eq_sum_Ico_succ_bot (by omega), Finset.sum_Ico_succ_top (by omega)]
        have hs : ∑ k ∈ Finset.Ico (c+1) i, lowerMat true W i k * lowerMat true L k c = ∑ k ∈ Finset.Ico (c+1) i, W i k * L k c :=
          Finset.sum_congr rfl fun k hk => by
            rw [Finset.mem_Ico] at hk
            rw [lowerMat, lowerMat, if_pos (by omega), if_pos (by omega)]
        rw [hs]
        simp only [lowerMat]
        rw [if_pos (show c < i by omega), if_neg (show ¬ c < c by omega), if_neg (show ¬ i < i by omega)]
        simp [show c < i by omega]
        ring
      · intro k hk
        rw [Finset.mem_Ico] at hk
        rw [Finset.mem_range]; omega
      · intro k _ hk
        rw [Finset.mem_Ico] at hk
        unfold lowerMat
        grind

end
end TMV.SmallDiv
