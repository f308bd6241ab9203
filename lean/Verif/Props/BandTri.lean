import Verif.Model.BandTri
import Verif.Spec.BandLin
import Verif.Props.Tri

/-! Solving with triangular band matrices gives what solving with the full triangular matrix meant by the band gives. -/
set_option linter.unusedSectionVars false
namespace TMV

section loops
variable {S C : Type _}

/-- A loop whose counters are functions of the loop index. -/
theorem forDown_proj (body : Nat → S × C → Option (S × C)) (body' : Nat → S → Option S) (c : Nat → C) :
    ∀ (n : Nat) (s : S), (∀ i s, i < n → body i (s, c (i+1)) = (body' i s).map fun t => (t, c i)) →
      forDown body n (s, c n) = (forDown body' n s).map fun t => (t, c 0) := by
  intro n
  induction n with
  | zero => intro s _; rfl
  | succ n ih =>
    intro s h
    simp only [forDown]
    rw [h n s (by omega)]
    cases body' n s with
    | none => rfl
    | some t => exact ih t (fun i s hi => h i s (by omega))

theorem forRange_proj (body : Nat → S × C → Option (S × C)) (body' : Nat → S → Option S) (c : Nat → C) :
    ∀ (n lo : Nat) (s : S), (∀ i s, lo ≤ i → i < lo + n → body i (s, c i) = (body' i s).map fun t => (t, c (i+1))) →
      forRange body n lo (s, c lo) = (forRange body' n lo s).map fun t => (t, c (lo+n)) := by
  intro n
  induction n with
  | zero => intro lo s _; rfl
  | succ n ih =>
    intro lo s h
    simp only [forRange]
    rw [h lo s (by omega) (by omega)]
    cases body' lo s with
    | none => rfl
    | some t =>
      have := ih (lo+1) t (fun i s h1 h2 => h i s (by omega) (by omega))
      rw [show lo + 1 + n = lo + (n+1) by omega] at this
      exact this

theorem map_fst {S C : Type _} (x : Option S) (c : C) : (x.map fun t => (t, c)).map (fun s => s.1) = x := by
  cases x <;> rfl

end loops

variable {K : Type _} [Field K]

theorem bandMat_diag (lo hi : Nat) (A : Nat → Nat → K) (i : Nat) : bandMat lo hi A i i = A i i := by
  simp [bandMat]

/-- The triangular matrix with the band taken out. -/
theorem dg_band (ua : Bool) (lo hi : Nat) (A : Nat → Nat → K) (i : Nat) : dg ua (bandMat lo hi A) i = dg ua A i := by
  simp [dg, bandMat_diag]

namespace BandTri
open TMV.Tri
variable [DecidableEq K]

theorem diagDiv_band (ua : Bool) (lo hi : Nat) (A : Nat → Nat → K) (i : Nat) (b : Nat → K) :
    diagDiv ua (bandMat lo hi A) i b = diagDiv ua A i b := by
  simp [diagDiv, bandMat_diag]

theorem diagDivM_band (ua : Bool) (lo hi : Nat) (A : Nat → Nat → K) (i nc : Nat) (B : Nat → Nat → K) :
    diagDivM ua (bandMat lo hi A) i nc B = diagDivM ua A i nc B := by
  simp [diagDivM, bandMat_diag]

theorem sum_Ico_mono (f g : Nat → K) {a b c d : Nat} (h1 : a ≤ c) (h2 : d ≤ b) (h : ∀ k, c ≤ k → k < d → f k = g k)
    (h0 : ∀ k, a ≤ k → k < b → ¬ (c ≤ k ∧ k < d) → f k = 0) : ∑ k ∈ Finset.Ico a b, f k = ∑ k ∈ Finset.Ico c d, g k := by
  have e : ∑ k ∈ Finset.Ico c d, g k = ∑ k ∈ Finset.Ico c d, f k :=
    Finset.sum_congr rfl fun k hk => (h k (Finset.mem_Ico.mp hk).1 (Finset.mem_Ico.mp hk).2).symm
  rw [e]
  symm
  refine Finset.sum_subset ?_ ?_
  · intro k hk; rw [Finset.mem_Ico] at hk ⊢; omega
  · intro k hk hk'; rw [Finset.mem_Ico] at hk hk'; exact h0 k hk.1 hk.2 hk'

theorem subRow_upper (hi : Nat) (A : Nat → Nat → K) (i n m : Nat) (b : Nat → K) (hm : m = min hi n) :
    subRow A i (i+1) m b = subRow (bandMat 0 hi A) i (i+1) n b := by
  rw [subRow_eq _ _ _ _ _ (by omega), subRow_eq _ _ _ _ _ (by omega)]
  congr 3
  refine (sum_Ico_mono _ _ le_rfl (by omega) ?_ ?_).symm
  · intro k h1 h2; simp only [bandMat]; rw [if_pos (by omega)]
  · intro k h1 h2 h3; simp only [bandMat]; rw [if_neg (by omega), zero_mul]

theorem subRow_lower (lo : Nat) (A : Nat → Nat → K) (i j1 m : Nat) (b : Nat → K) (h1 : j1 + m = i) (h2 : m = min lo i) :
    subRow A i j1 m b = subRow (bandMat lo 0 A) i 0 i b := by
  rw [subRow_eq _ _ _ _ _ (by omega), subRow_eq _ _ _ _ _ (by omega)]
  congr 3
  refine (sum_Ico_mono _ _ (by omega) (by omega) ?_ ?_).symm
  · intro k h1 h2; simp only [bandMat]; rw [if_pos (by omega)]
  · intro k h1 h2 h3; simp only [bandMat]; rw [if_neg (by omega), zero_mul]

theorem subCol_upper (hi : Nat) (A : Nat → Nat → K) (j i1 len : Nat) (b : Nat → K) (h1 : i1 = j - hi) (h2 : i1 + len = j) :
    subCol A j i1 len b = subCol (bandMat 0 hi A) j 0 j b := by
  rw [subCol_eq _ _ _ _ _ (by omega), subCol_eq _ _ _ _ _ (by omega)]
  congr 1
  funext i
  by_cases h : i < j
  · rw [if_pos (show 0 ≤ i ∧ i < 0 + j by omega)]
    by_cases h' : i1 ≤ i
    · rw [if_pos (by omega)]; simp only [bandMat]; rw [if_pos (by omega)]
    · rw [if_neg (by omega)]; simp only [bandMat]; rw [if_neg (by omega)]; ring
  · rw [if_neg (by omega), if_neg (by omega)]

theorem subCol_lower (lo N : Nat) (A : Nat → Nat → K) (j len : Nat) (b : Nat → K) (h : j + 1 + len = min (j+lo+1) N) :
    subCol A j (j+1) len b = subCol (bandMat lo 0 A) j (j+1) (N-1-j) b := by
  rw [subCol_eq _ _ _ _ _ (by omega), subCol_eq _ _ _ _ _ (by omega)]
  congr 1
  funext i
  by_cases h1 : j+1 ≤ i ∧ i < j+1+len
  · rw [if_pos h1, if_pos (by omega)]; simp only [bandMat]; rw [if_pos (by omega)]
  · rw [if_neg h1]
    by_cases h2 : j+1 ≤ i ∧ i < j+1+(N-1-j)
    · rw [if_pos h2]; simp only [bandMat]; rw [if_neg (by omega)]; ring
    · rw [if_neg h2]

theorem rowUpper_eq (ua : Bool) (N hi : Nat) (hN : 0 < N) (hhi : 0 < hi) (A : Nat → Nat → K) (b : Nat → K) :
    rowUpper ua N hi A b = Tri.rowUpper ua N (bandMat 0 hi A) b := by
  unfold rowUpper Tri.rowUpper
  simp only [Option.bind_eq_bind, diagDiv_band]
  congr 1
  funext b
  by_cases h1 : N = 1
  · rw [if_pos h1, if_pos h1]
  · rw [if_neg h1, if_neg h1]
    have := forDown_proj (fun i (s : (Nat → K) × Nat × Nat) =>
      (subRow A i (i+1) s.2.2 s.1).bind fun b => (diagDiv ua A i b).map fun b =>
        (b, if s.2.1 > 0 then (s.2.1 - 1, s.2.2 + 1) else s.2))
      (fun r b => (subRow (bandMat 0 hi A) r (r+1) (N-1-r) b).bind (diagDiv ua A r))
      (fun n => (hi - 1 - (N-1-n), min hi (N-n))) (N-1) b (by
        intro i s hi'
        dsimp only
        rw [subRow_upper hi A i (N-1-i) _ s (by omega)]
        cases subRow (bandMat 0 hi A) i (i+1) (N-1-i) s with
        | none => rfl
        | some t =>
          simp only [Option.bind_some]
          congr 1
          funext t
          by_cases h : hi - 1 - (N - 1 - (i+1)) > 0
          · rw [if_pos h]; congr 2 <;> omega
          · rw [if_neg h]; congr 2 <;> omega)
    rw [show hi - 1 - (N - 1 - (N - 1)) = hi - 1 by omega, show min hi (N - (N-1)) = 1 by omega] at this
    rw [this, map_fst]

theorem colUpperLoop_eq (ua : Bool) (hi : Nat) (hhi : 0 < hi) (A : Nat → Nat → K) : ∀ (j fuel i1 len : Nat) (b : Nat → K),
    j < fuel → i1 = j - hi → i1 + len = j → colUpperLoop ua A fuel j i1 len b =
      (forDown (fun r b => if b (r+1) ≠ 0 then (diagDiv ua (bandMat 0 hi A) (r+1) b).bind
        (subCol (bandMat 0 hi A) (r+1) 0 (r+1)) else some b) j b).map fun b => (b, 0) := by
  intro j
  induction j with
  | zero =>
    intro fuel i1 len b hf h1 h2
    obtain ⟨fuel, rfl⟩ : ∃ f, fuel = f+1 := ⟨fuel-1, by omega⟩
    simp only [colUpperLoop, forDown]
    rw [if_neg (by omega)]; rfl
  | succ j ih =>
    intro fuel i1 len b hf h1 h2
    obtain ⟨fuel, rfl⟩ : ∃ f, fuel = f+1 := ⟨fuel-1, by omega⟩
    simp only [colUpperLoop, forDown]
    rw [if_pos (show len > 0 by omega)]
    have e : (if b (j+1) ≠ 0 then (diagDiv ua A (j+1) b).bind (subCol A (j+1) i1 len) else some b) =
        if b (j+1) ≠ 0 then (diagDiv ua (bandMat 0 hi A) (j+1) b).bind (subCol (bandMat 0 hi A) (j+1) 0 (j+1)) else some b := by
      rw [diagDiv_band]
      by_cases h : b (j+1) ≠ 0
      · rw [if_pos h, if_pos h]
        congr 1
        funext t
        exact subCol_upper hi A (j+1) i1 len t h1 h2
      · rw [if_neg h, if_neg h]
    rw [e]
    generalize (if b (j+1) ≠ 0 then (diagDiv ua (bandMat 0 hi A) (j+1) b).bind (subCol (bandMat 0 hi A) (j+1) 0 (j+1)) else some b) = x
    cases x with
    | none => rfl
    | some t =>
      simp only [Option.bind_some]
      by_cases h : i1 > 0
      · rw [if_pos h]; exact ih fuel _ _ t (by omega) (by omega) (by omega)
      · rw [if_neg h]; exact ih fuel _ _ t (by omega) (by omega) (by omega)

theorem colUpper_eq (ua : Bool) (N hi : Nat) (hN : 0 < N) (hhi : 0 < hi) (A : Nat → Nat → K) (b : Nat → K) :
    colUpper ua N hi A b = Tri.colUpper ua N (bandMat 0 hi A) b := by
  unfold colUpper Tri.colUpper
  simp only [Option.bind_eq_bind]
  have hi1 : (if N-1 > hi then N-1-hi else 0) = N-1-hi := by split_ifs <;> omega
  rw [hi1, colUpperLoop_eq ua hi hhi A (N-1) N _ _ b (by omega) rfl (by omega)]
  cases forDown (fun r b => if b (r+1) ≠ 0 then (diagDiv ua (bandMat 0 hi A) (r+1) b).bind
        (subCol (bandMat 0 hi A) (r+1) 0 (r+1)) else some b) (N-1) b with
  | none => rfl
  | some t => simp [diagDiv_band]

theorem rowLower_eq (ua : Bool) (N lo : Nat) (hlo : 0 < lo) (A : Nat → Nat → K) (b : Nat → K) :
    rowLower ua N lo A b = Tri.rowLower ua N (bandMat lo 0 A) b := by
  unfold rowLower Tri.rowLower
  simp only [Option.bind_eq_bind, diagDiv_band]
  congr 1
  funext b
  have := forRange_proj (fun i (s : (Nat → K) × Nat × Nat × Nat) =>
      (subRow A i s.2.1 s.2.2.2 s.1).bind fun b =>
      (if ua then some b else (divBy (b i) (A i (s.2.1 + s.2.2.2))).map (Function.update b i)).map fun b =>
        (b, if s.2.2.1 > 0 then (s.2.1, s.2.2.1 - 1, s.2.2.2 + 1) else (s.2.1 + 1, s.2.2.1, s.2.2.2)))
    (fun i b => (subRow (bandMat lo 0 A) i 0 i b).bind (diagDiv ua A i))
    (fun i => (i - lo, lo - i, min lo i)) (N-1) 1 b (by
      intro i s h1 h2
      dsimp only
      rw [subRow_lower lo A i (i-lo) _ s (by omega) rfl, show i - lo + min lo i = i by omega]
      cases subRow (bandMat lo 0 A) i 0 i s with
      | none => rfl
      | some t =>
        simp only [Option.bind_some, diagDiv]
        congr 1
        funext t
        by_cases h : lo - i > 0
        · rw [if_pos h]; congr 2; omega; congr 1 <;> omega
        · rw [if_neg h]; congr 2; omega; congr 1 <;> omega)
  rw [show 1 - lo = 0 by omega, show min lo 1 = 1 by omega] at this
  rw [this, map_fst]

theorem colLowerLoop_eq (ua : Bool) (N lo : Nat) (hlo : 0 < lo) (A : Nat → Nat → K) : ∀ (n j fuel i2 len : Nat) (b : Nat → K),
    j + n + 1 = N → n < fuel → i2 = min (j+lo+1) N → j + 1 + len = i2 → colLowerLoop ua N A fuel j i2 len b =
      (forRange (fun j b => if b j ≠ 0 then (diagDiv ua (bandMat lo 0 A) j b).bind
        (subCol (bandMat lo 0 A) j (j+1) (N-1-j)) else some b) n j b).map fun b => (b, N-1) := by
  intro n
  induction n with
  | zero =>
    intro j fuel i2 len b hj hf h1 h2
    obtain ⟨fuel, rfl⟩ : ∃ f, fuel = f+1 := ⟨fuel-1, by omega⟩
    simp only [colLowerLoop, forRange]
    rw [if_neg (by omega), show N-1 = j by omega]; rfl
  | succ n ih =>
    intro j fuel i2 len b hj hf h1 h2
    obtain ⟨fuel, rfl⟩ : ∃ f, fuel = f+1 := ⟨fuel-1, by omega⟩
    simp only [colLowerLoop, forRange]
    rw [if_pos (show len > 0 by omega)]
    have e : (if b j ≠ 0 then (diagDiv ua A j b).bind (subCol A j (j+1) len) else some b) =
        if b j ≠ 0 then (diagDiv ua (bandMat lo 0 A) j b).bind (subCol (bandMat lo 0 A) j (j+1) (N-1-j)) else some b := by
      rw [diagDiv_band]
      by_cases h : b j ≠ 0
      · rw [if_pos h, if_pos h]
        congr 1
        funext t
        exact subCol_lower lo N A j len t (by omega)
      · rw [if_neg h, if_neg h]
    rw [e]
    generalize (if b j ≠ 0 then (diagDiv ua (bandMat lo 0 A) j b).bind (subCol (bandMat lo 0 A) j (j+1) (N-1-j)) else some b) = x
    cases x with
    | none => rfl
    | some t =>
      simp only [Option.bind_some]
      by_cases h : i2 < N
      · rw [if_pos h]; exact ih (j+1) fuel _ _ t (by omega) (by omega) (by omega) (by omega)
      · rw [if_neg h]; exact ih (j+1) fuel _ _ t (by omega) (by omega) (by omega) (by omega)

theorem colLower_eq (ua : Bool) (N lo : Nat) (hN : 0 < N) (hlo : 0 < lo) (A : Nat → Nat → K) (b : Nat → K) :
    colLower ua N lo A b = Tri.colLower ua N (bandMat lo 0 A) b := by
  unfold colLower Tri.colLower
  simp only [Option.bind_eq_bind]
  rw [colLowerLoop_eq ua N lo hlo A (N-1) 0 N _ _ b (by omega) (by omega) (by omega) (by omega)]
  cases forRange (fun j b => if b j ≠ 0 then (diagDiv ua (bandMat lo 0 A) j b).bind
        (subCol (bandMat lo 0 A) j (j+1) (N-1-j)) else some b) (N-1) 0 b with
  | none => rfl
  | some t => simp [diagDiv_band]

theorem diagV_sound (N : Nat) (A : Nat → Nat → K) (b x : Nat → K) (h : diagV N A b = some x) :
    (∀ i, i < N → A i i * x i = b i) ∧ ∀ i, N ≤ i → x i = b i := by
  have := forRange_post (fun i b => diagDiv false A i b)
    (fun i c => (∀ k, k < i → A k k * c k = b k) ∧ ∀ k, i ≤ k → c k = b k) N 0 b x
    ⟨fun k h => by omega, fun _ _ => rfl⟩ (by
      rintro i s s' - - ⟨h1, h2⟩ e
      obtain ⟨d1, d2⟩ := diagDiv_some e
      refine ⟨fun k hk => ?_, fun k hk => ?_⟩
      · by_cases hki : k = i
        · subst hki; simpa [dg, h2 k le_rfl] using d1
        · rw [d2 k hki]; exact h1 k (by omega)
      · rw [d2 k (by omega)]; exact h2 k (by omega)) h
  simpa using this

theorem upper_diag (ua : Bool) (A : Nat → Nat → K) (i : Nat) (k : Nat) :
    upperMat ua (bandMat 0 0 A) i k = if i = k then dg ua A i else 0 := by
  simp only [upperMat, bandMat, dg]
  by_cases h : i = k
  · subst h; simp
  · by_cases h' : i < k
    · rw [if_pos h', if_neg (by omega), if_neg h]
    · rw [if_neg h', if_neg h, if_neg h]

theorem lower_diag (ua : Bool) (A : Nat → Nat → K) (i : Nat) (k : Nat) :
    lowerMat ua (bandMat 0 0 A) i k = if i = k then dg ua A i else 0 := by
  simp only [lowerMat, bandMat, dg]
  by_cases h : i = k
  · subst h; simp
  · by_cases h' : k < i
    · rw [if_pos h', if_neg (by omega), if_neg h]
    · rw [if_neg h', if_neg h, if_neg h]

theorem diag_sol (ua : Bool) (N : Nat) (A T : Nat → Nat → K) (b x : Nat → K)
    (hT : ∀ i k, T i k = if i = k then dg ua A i else 0)
    (h : (if ua then some b else diagV N A b) = some x) : SolV N T x b := by
  have key : (∀ i, i < N → dg ua A i * x i = b i) ∧ ∀ i, N ≤ i → x i = b i := by
    cases ua
    · obtain ⟨h1, h2⟩ := diagV_sound N A b x (by simpa using h)
      exact ⟨fun i hi => by simpa [dg] using h1 i hi, h2⟩
    · simp only [if_true, Option.some.injEq] at h; subst h; simp [dg]
  refine ⟨fun i hi => ?_, key.2⟩
  rw [Finset.sum_eq_single i (fun k _ hk => by rw [hT, if_neg (Ne.symm hk), zero_mul])
    (fun hh => absurd (Finset.mem_range.mpr hi) hh), hT, if_pos rfl]
  exact key.1 i hi

theorem diag_isSome (ua : Bool) (N : Nat) (A : Nat → Nat → K) (b : Nat → K) (hd : ∀ i, i < N → dg ua A i ≠ 0) :
    (if ua then some b else diagV N A b).isSome := by
  cases ua
  · simp only [Bool.false_eq_true, if_false]
    exact forRange_isSome _ _ _ _ fun i s _ hi => diagDiv_isSome (hd i (by omega))
  · rfl

theorem doUpper_sound (o : Ord) (ua : Bool) (N hi : Nat) (hN : 0 < N) (A : Nat → Nat → K) (b x : Nat → K)
    (h : doUpper o ua N hi A b = some x) : SolV N (upperMat ua (bandMat 0 hi A)) x b := by
  unfold doUpper at h
  by_cases h0 : hi = 0
  · rw [if_pos h0] at h
    subst h0
    exact diag_sol ua N A _ b x (upper_diag ua A) h
  · rw [if_neg h0] at h
    cases o with
    | rm => rw [rowUpper_eq _ _ _ hN (by omega)] at h; exact rowUpper_sound ua N hN _ b x h
    | cm => rw [colUpper_eq _ _ _ hN (by omega)] at h; exact colUpper_sound ua N hN _ b x h
    | no => rw [rowUpper_eq _ _ _ hN (by omega)] at h; exact rowUpper_sound ua N hN _ b x h

theorem doLower_sound (o : Ord) (ua : Bool) (N lo : Nat) (hN : 0 < N) (A : Nat → Nat → K) (b x : Nat → K)
    (h : doLower o ua N lo A b = some x) : SolV N (lowerMat ua (bandMat lo 0 A)) x b := by
  unfold doLower at h
  by_cases h0 : lo = 0
  · rw [if_pos h0] at h
    subst h0
    exact diag_sol ua N A _ b x (lower_diag ua A) h
  · rw [if_neg h0] at h
    cases o with
    | rm => rw [rowLower_eq _ _ _ (by omega)] at h; exact rowLower_sound ua N hN _ b x h
    | cm => rw [colLower_eq _ _ _ hN (by omega)] at h; exact colLower_sound ua N hN _ b x h
    | no => rw [rowLower_eq _ _ _ (by omega)] at h; exact rowLower_sound ua N hN _ b x h

theorem doUpper_isSome (o : Ord) (ua : Bool) (N hi : Nat) (hN : 0 < N) (A : Nat → Nat → K) (b : Nat → K)
    (hd : ∀ i, i < N → dg ua A i ≠ 0) : (doUpper o ua N hi A b).isSome := by
  unfold doUpper
  have hd' : ∀ i, i < N → dg ua (bandMat 0 hi A) i ≠ 0 := fun i h => by rw [dg_band]; exact hd i h
  by_cases h0 : hi = 0
  · rw [if_pos h0]; exact diag_isSome ua N A b hd
  · rw [if_neg h0]
    cases o with
    | rm => rw [rowUpper_eq _ _ _ hN (by omega)]; exact rowUpper_isSome ua N _ b hN hd'
    | cm => rw [colUpper_eq _ _ _ hN (by omega)]; exact colUpper_isSome ua N _ b hN hd'
    | no => rw [rowUpper_eq _ _ _ hN (by omega)]; exact rowUpper_isSome ua N _ b hN hd'

theorem doLower_isSome (o : Ord) (ua : Bool) (N lo : Nat) (hN : 0 < N) (A : Nat → Nat → K) (b : Nat → K)
    (hd : ∀ i, i < N → dg ua A i ≠ 0) : (doLower o ua N lo A b).isSome := by
  unfold doLower
  have hd' : ∀ i, i < N → dg ua (bandMat lo 0 A) i ≠ 0 := fun i h => by rw [dg_band]; exact hd i h
  by_cases h0 : lo = 0
  · rw [if_pos h0]; exact diag_isSome ua N A b hd
  · rw [if_neg h0]
    cases o with
    | rm => rw [rowLower_eq _ _ _ (by omega)]; exact rowLower_isSome ua N _ b hN hd'
    | cm => rw [colLower_eq _ _ _ hN (by omega)]; exact colLower_isSome ua N _ b hN hd'
    | no => rw [rowLower_eq _ _ _ (by omega)]; exact rowLower_isSome ua N _ b hN hd'

theorem solV_trimHi {ua : Bool} {T : Nat → Nat → K} {N i2 : Nat} {b y : Nat → K} (h2 : i2 ≤ N)
    (hz : ∀ k, i2 ≤ k → k < N → b k = 0) (hs : SolV i2 (upperMat ua T) y b) : SolV N (upperMat ua T) y b := by
  obtain ⟨s1, s2⟩ := hs
  have hz' : ∀ k, i2 ≤ k → k < N → y k = 0 := fun k a c => by rw [s2 k a, hz k a c]
  refine ⟨fun i hi => ?_, fun i hi => s2 i (by omega)⟩
  by_cases hii : i < i2
  · rw [← s1 i hii]
    refine (Finset.sum_subset (by intro k; simp only [Finset.mem_range]; omega) ?_).symm
    intro k a c
    simp only [Finset.mem_range] at a c
    rw [hz' k (by omega) a, mul_zero]
  · rw [hz i (by omega) hi]
    refine Finset.sum_eq_zero fun k hk => ?_
    simp only [Finset.mem_range] at hk
    by_cases hki : i2 ≤ k
    · rw [hz' k hki hk, mul_zero]
    · simp [upperMat, show ¬ i < k by omega, show ¬ i = k by omega]

theorem solV_congr {N : Nat} {T T' : Nat → Nat → K} {x b : Nat → K} (h : ∀ i k, i < N → k < N → T i k = T' i k)
    (hs : SolV N T x b) : SolV N T' x b :=
  ⟨fun i hi => by
    rw [← hs.1 i hi]
    exact Finset.sum_congr rfl fun k hk => by rw [h i k hi (Finset.mem_range.mp hk)], hs.2⟩

/-- **C88** (vector, upper): whenever `b /= U` returns, the result solves `U x = b`, `U` the matrix meant by the band. -/
theorem upperV_sound (o : Ord) (ua : Bool) (N hi : Nat) (A : Nat → Nat → K) (b x : Nat → K)
    (h : upperV o ua N hi A b = some x) : SolV N (upperMat ua (bandMat 0 hi A)) x b := by
  unfold upperV at h
  dsimp only at h
  obtain ⟨t1, t2⟩ := trimHi_spec b N
  generalize hi2 : trimHi b N = i2 at *
  by_cases h0 : i2 = 0
  · rw [if_pos h0] at h
    cases h
    subst h0
    exact solV_trimHi t1 t2 ⟨fun i hi => by omega, fun _ _ => rfl⟩
  · rw [if_neg h0] at h
    apply solV_trimHi t1 t2
    by_cases h1 : i2 = N
    · rw [if_pos h1] at h; rw [h1]; exact doUpper_sound o ua N hi (by omega) A b x h
    · rw [if_neg h1] at h
      by_cases h3 : hi < i2
      · rw [if_pos h3] at h; exact doUpper_sound o ua i2 hi (by omega) A b x h
      · rw [if_neg h3] at h
        refine solV_congr (fun i k hi' hk => ?_) (doUpper_sound o ua i2 (i2-1) (by omega) A b x h)
        simp only [upperMat, bandMat_diag]
        by_cases hik : i < k
        · rw [if_pos hik, if_pos hik]; simp only [bandMat]; rw [if_pos (by omega), if_pos (by omega)]
        · rw [if_neg hik, if_neg hik]

theorem upperV_isSome (o : Ord) (ua : Bool) (N hi : Nat) (A : Nat → Nat → K) (b : Nat → K)
    (hd : ∀ i, i < N → dg ua A i ≠ 0) : (upperV o ua N hi A b).isSome := by
  unfold upperV
  dsimp only
  have t := (trimHi_spec b N).1
  have hd' : ∀ i, i < trimHi b N → dg ua A i ≠ 0 := fun i hi => hd i (by omega)
  split_ifs
  · rfl
  · exact doUpper_isSome _ _ _ _ (by omega) _ _ hd
  · exact doUpper_isSome _ _ _ _ (by omega) _ _ hd'
  · exact doUpper_isSome _ _ _ _ (by omega) _ _ hd'

/-- **C88** (vector, lower). -/
theorem lowerV_sound (o : Ord) (ua : Bool) (N lo : Nat) (A : Nat → Nat → K) (b x : Nat → K)
    (h : lowerV o ua N lo A b = some x) : SolV N (lowerMat ua (bandMat lo 0 A)) x b := by
  unfold lowerV at h
  dsimp only at h
  obtain ⟨_, t1, t2⟩ := trimLo_spec b N 0
  rw [zero_add] at t1
  generalize hi1 : trimLo b N 0 = i1 at *
  have t3 : ∀ k, k < i1 → b k = 0 := fun k hk => t2 k (Nat.zero_le _) hk
  by_cases h0 : i1 = N
  · rw [if_pos h0] at h
    cases h
    subst h0
    refine ⟨fun i hi => ?_, fun _ _ => rfl⟩
    rw [t3 i hi]
    refine Finset.sum_eq_zero fun k hk => ?_
    rw [t3 k (by simpa using hk), mul_zero]
  rw [if_neg h0] at h
  by_cases h1 : i1 = 0
  · rw [if_pos h1] at h; exact doLower_sound o ua N lo (by omega) A b x h
  rw [if_neg h1] at h
  have key : ∃ c, SolV (N-i1) (lowerMat ua (bandMat lo 0 fun i j => A (i1+i) (i1+j))) c (fun i => b (i1+i)) ∧
      x = fun i => if i < i1 then b i else c (i-i1) := by
    by_cases h2 : lo < N - i1
    · rw [if_pos h2, Option.map_eq_some_iff] at h
      obtain ⟨c, hc, rfl⟩ := h
      exact ⟨c, doLower_sound o ua _ _ (by omega) _ _ c hc, rfl⟩
    · rw [if_neg h2, Option.map_eq_some_iff] at h
      obtain ⟨c, hc, rfl⟩ := h
      refine ⟨c, solV_congr (fun i k hi' hk => ?_) (doLower_sound o ua _ _ (by omega) _ _ c hc), rfl⟩
      simp only [lowerMat, bandMat_diag]
      by_cases hik : k < i
      · rw [if_pos hik, if_pos hik]; simp only [bandMat]; rw [if_pos (by omega), if_pos (by omega)]
      · rw [if_neg hik, if_neg hik]
  obtain ⟨c, ⟨s1, s2⟩, rfl⟩ := key
  have hsh : ∀ i k, lowerMat ua (bandMat lo 0 fun i j => A (i1+i) (i1+j)) i k = lowerMat ua (bandMat lo 0 A) (i1+i) (i1+k) := by
    intro i k
    simp only [lowerMat, bandMat_diag, Nat.add_lt_add_iff_left, Nat.add_left_cancel_iff]
    congr 1
    simp only [bandMat]
    by_cases hc : i ≤ k + lo ∧ k ≤ i + 0
    · rw [if_pos hc, if_pos (by omega)]
    · rw [if_neg hc, if_neg (by omega)]
  refine ⟨fun i hi => ?_, fun i hi => ?_⟩
  · by_cases hii : i < i1
    · rw [t3 i hii]
      refine Finset.sum_eq_zero fun k hk => ?_
      by_cases hk1 : k < i1
      · simp only [if_pos hk1, t3 k hk1, mul_zero]
      · simp [lowerMat, show ¬ k < i by omega, show ¬ i = k by omega]
    · have := s1 (i-i1) (by omega)
      beta_reduce at this
      rw [show i1 + (i - i1) = i by omega] at this
      rw [← this, sum_split _ (show i1 ≤ N by omega), Finset.sum_eq_zero, zero_add]
      · refine Finset.sum_congr rfl fun k hk => ?_
        beta_reduce
        rw [hsh, show i1 + (i - i1) = i by omega, if_neg (by omega), show i1 + k - i1 = k by omega]
      · intro k hk
        have hk' : k < i1 := by simpa using hk
        beta_reduce
        rw [if_pos hk', t3 k hk', mul_zero]
  · beta_reduce
    rw [if_neg (by omega), s2 (i-i1) (by omega)]
    beta_reduce
    rw [show i1 + (i - i1) = i by omega]

theorem lowerV_isSome (o : Ord) (ua : Bool) (N lo : Nat) (A : Nat → Nat → K) (b : Nat → K)
    (hd : ∀ i, i < N → dg ua A i ≠ 0) : (lowerV o ua N lo A b).isSome := by
  unfold lowerV
  dsimp only
  have t := (trimLo_spec b N 0).2.1
  have hd' : ∀ i, i < N - trimLo b N 0 → dg ua (fun i j => A (trimLo b N 0 + i) (trimLo b N 0 + j)) i ≠ 0 :=
    fun i hi => hd _ (by omega)
  split_ifs
  · rfl
  · exact doLower_isSome _ _ _ _ (by omega) _ _ hd
  · rw [Option.isSome_map]; exact doLower_isSome _ _ _ _ (by omega) _ _ hd'
  · rw [Option.isSome_map]; exact doLower_isSome _ _ _ _ (by omega) _ _ hd'

/-! ### Matrices -/

theorem sum_range_mono (f g : Nat → K) {n m : Nat} (r : Nat) (h1 : r + m ≤ n) (h : ∀ k, k < m → f (r+k) = g k)
    (h0 : ∀ k, k < n → ¬ (r ≤ k ∧ k < r+m) → f k = 0) : ∑ k ∈ Finset.range n, f k = ∑ k ∈ Finset.range m, g k := by
  have e : ∑ k ∈ Finset.range m, g k = ∑ k ∈ Finset.Ico r (r+m), f k := by
    rw [Finset.sum_Ico_eq_sum_range, Nat.add_sub_cancel_left]
    exact Finset.sum_congr rfl fun k hk => (h k (Finset.mem_range.mp hk)).symm
  rw [e, Finset.range_eq_Ico]
  exact sum_Ico_mono f f (by omega) h1 (fun _ _ _ => rfl) (fun k _ h2 h3 => h0 k h2 h3)

theorem subRowM_upper (hi : Nat) (A : Nat → Nat → K) (i n m nc : Nat) (B : Nat → Nat → K) (hm : m = min hi n) :
    subRowM A i (i+1) m nc B = subRowM (bandMat 0 hi A) i (i+1) n nc B := by
  funext a c
  simp only [subRowM]
  congr 1
  congr 1
  refine (sum_range_mono _ _ 0 (by omega) ?_ ?_).symm
  · intro k h1; simp only [bandMat, Nat.zero_add]; rw [if_pos (by omega)]
  · intro k h1 h2; simp only [bandMat]; rw [if_neg (by omega), zero_mul]

theorem subRowM_lower (lo : Nat) (A : Nat → Nat → K) (i nc : Nat) (B : Nat → Nat → K) :
    subRowM A i (i-lo) (i-(i-lo)) nc B = subRowM (bandMat lo 0 A) i 0 i nc B := by
  funext a c
  simp only [subRowM]
  congr 1
  congr 1
  refine (sum_range_mono _ _ (i-lo) (by omega) ?_ ?_).symm
  · intro k h1; simp only [bandMat, Nat.zero_add]; rw [if_pos (by omega)]
  · intro k h1 h2; simp only [bandMat]; rw [if_neg (by omega), zero_mul]

theorem subOuterM_upper (hi : Nat) (A : Nat → Nat → K) (j nc : Nat) (B : Nat → Nat → K) :
    subOuterM A j (j-hi) (j-(j-hi)) nc B = subOuterM (bandMat 0 hi A) j 0 j nc B := by
  funext a c
  simp only [subOuterM]
  by_cases h : a < j ∧ c < nc
  · rw [if_pos (show 0 ≤ a ∧ a < 0 + j ∧ c < nc by omega)]
    by_cases h' : j - hi ≤ a
    · rw [if_pos (by omega)]; simp only [bandMat]; rw [if_pos (by omega)]
    · rw [if_neg (by omega)]; simp only [bandMat]; rw [if_neg (by omega)]; ring
  · rw [if_neg (by omega), if_neg (by omega)]

theorem subOuterM_lower (lo N : Nat) (A : Nat → Nat → K) (j nc : Nat) (B : Nat → Nat → K) :
    subOuterM A j (j+1) (min N (j+lo+1) - (j+1)) nc B = subOuterM (bandMat lo 0 A) j (j+1) (N-1-j) nc B := by
  funext a c
  simp only [subOuterM]
  by_cases h : j+1 ≤ a ∧ a < j+1+(N-1-j) ∧ c < nc
  · rw [if_pos h]
    by_cases h' : a ≤ j + lo
    · rw [if_pos (by omega)]; simp only [bandMat]; rw [if_pos (by omega)]
    · rw [if_neg (by omega)]; simp only [bandMat]; rw [if_neg (by omega)]; ring
  · rw [if_neg (by omega), if_neg (by omega)]

theorem rowUpperM_eq (ua : Bool) (N hi nc : Nat) (A B : Nat → Nat → K) :
    rowUpperM ua N hi nc A B = Tri.rowUpperM ua N nc (bandMat 0 hi A) B := by
  unfold rowUpperM Tri.rowUpperM
  have := forDown_proj (fun i (s : (Nat → Nat → K) × Nat × Nat) =>
      (diagDivM ua A i nc (subRowM A i (i+1) (s.2.2 - (i+1)) nc s.1)).map fun B =>
        (B, if s.2.1 > 0 then (s.2.1 - 1, s.2.2) else (s.2.1, s.2.2 - 1)))
    (fun i B => diagDivM ua (bandMat 0 hi A) i nc (subRowM (bandMat 0 hi A) i (i+1) (N-1-i) nc B))
    (fun n => (hi - (N-n), min N (n+hi))) N B (by
      intro i s hi'
      dsimp only
      rw [subRowM_upper hi A i (N-1-i) _ nc s (by omega), diagDivM_band]
      congr 1
      funext t
      by_cases h : hi - (N - (i+1)) > 0
      · rw [if_pos h]; congr 2 <;> omega
      · rw [if_neg h]; congr 2 <;> omega)
  rw [show hi - (N - N) = hi by omega, show min N (N + hi) = N by omega] at this
  rw [this, map_fst]

theorem colUpperM_eq (ua : Bool) (N hi nc : Nat) (A B : Nat → Nat → K) :
    colUpperM ua N hi nc A B = Tri.colUpperM ua N nc (bandMat 0 hi A) B := by
  unfold colUpperM Tri.colUpperM
  have hdec : ∀ i1 : Nat, (if i1 > 0 then i1 - 1 else i1) = i1 - 1 := fun i1 => by split_ifs <;> omega
  cases ua
  · simp only [Bool.false_eq_true, if_false]
    have := forDown_proj (fun j (s : (Nat → Nat → K) × Nat) =>
        (diagDivM false A j nc s.1).map fun B => (subOuterM A j s.2 (j-s.2) nc B, if s.2 > 0 then s.2 - 1 else s.2))
      (fun j B => (diagDivM false (bandMat 0 hi A) j nc B).map (subOuterM (bandMat 0 hi A) j 0 j nc))
      (fun n => n-1-hi) N B (by
        intro i s hi'
        dsimp only
        rw [diagDivM_band, hdec, Option.map_map, show i + 1 - 1 - hi = i - hi by omega]
        congr 1
        funext t
        simp only [Function.comp]
        rw [subOuterM_upper, show i - hi - 1 = i - 1 - hi by omega])
    rw [this, map_fst]
  · simp only [if_true]
    have := forDown_proj (fun r (s : (Nat → Nat → K) × Nat) =>
        some (subOuterM A (r+1) s.2 (r+1-s.2) nc s.1, if s.2 > 0 then s.2 - 1 else s.2))
      (fun r B => some (subOuterM (bandMat 0 hi A) (r+1) 0 (r+1) nc B))
      (fun n => n-hi) (N-1) B (by
        intro i s hi'
        dsimp only [Option.map_some]
        rw [hdec, subOuterM_upper, show i + 1 - hi - 1 = i - hi by omega])
    rw [this, map_fst]

theorem rowLowerM_eq (ua : Bool) (N lo nc : Nat) (A B : Nat → Nat → K) :
    rowLowerM ua N lo nc A B = Tri.rowLowerM ua N nc (bandMat lo 0 A) B := by
  unfold rowLowerM Tri.rowLowerM
  have := forRange_proj (fun i (s : (Nat → Nat → K) × Nat × Nat) =>
      (diagDivM ua A i nc (subRowM A i s.2.1 (i - s.2.1) nc s.1)).map fun B =>
        (B, if s.2.2 > 0 then (s.2.1, s.2.2 - 1) else (s.2.1 + 1, s.2.2)))
    (fun i B => diagDivM ua (bandMat lo 0 A) i nc (subRowM (bandMat lo 0 A) i 0 i nc B))
    (fun i => (i - lo, lo - i)) N 0 B (by
      intro i s _ _
      dsimp only
      rw [subRowM_lower, diagDivM_band]
      congr 1
      funext t
      by_cases h : lo - i > 0
      · rw [if_pos h]; congr 2 <;> omega
      · rw [if_neg h]; congr 2 <;> omega)
  rw [show 0 - lo = 0 by omega, show lo - 0 = lo by omega] at this
  rw [this, map_fst]

theorem colLowerM_eq (ua : Bool) (N lo nc : Nat) (hlo : lo < N) (A B : Nat → Nat → K) :
    colLowerM ua N lo nc A B = Tri.colLowerM ua N nc (bandMat lo 0 A) B := by
  unfold colLowerM Tri.colLowerM
  have := forRange_proj (fun j (s : (Nat → Nat → K) × Nat) =>
      (diagDivM ua A j nc s.1).map fun B =>
        (subOuterM A j (j+1) (s.2 - (j+1)) nc B, if s.2 < N then s.2 + 1 else s.2))
    (fun j B => (diagDivM ua (bandMat lo 0 A) j nc B).map (subOuterM (bandMat lo 0 A) j (j+1) (N-1-j) nc))
    (fun j => min N (j+lo+1)) N 0 B (by
      intro j s _ hj
      dsimp only
      rw [diagDivM_band, Option.map_map]
      congr 1
      funext t
      simp only [Function.comp]
      rw [subOuterM_lower]
      congr 1
      split_ifs <;> omega)
  rw [show min N (0 + lo + 1) = lo + 1 by omega] at this
  rw [this, map_fst]

/-- **C88** (matrix, upper): whenever `B /= U` returns, the result solves `U X = B` and nothing else was written. -/
theorem upperM_sound (o : Ord) (brm ua : Bool) (N hi nc : Nat) (A B X : Nat → Nat → K)
    (h : upperM o brm ua N hi nc A B = some X) : SolM N nc (upperMat ua (bandMat 0 hi A)) X B := by
  unfold upperM at h
  by_cases h0 : nc = 0
  · rw [if_pos h0] at h; cases h
    exact ⟨fun i c _ hc => by omega, fun _ _ _ => rfl⟩
  rw [if_neg h0] at h
  by_cases h1 : nc = 1
  · rw [if_pos h1] at h; subst h1
    exact colsM_sound _ _ _ _ _ _ (upperV_sound o ua N hi A) h
  rw [if_neg h1] at h
  by_cases hN : N = 0
  · subst hN
    have : X = B := by
      cases brm
      · simp only [Bool.false_eq_true, if_false, colsM] at h
        have e : (fun j (B : Nat → Nat → K) => (upperV o ua 0 hi A fun i => B i j).map
            fun x a c => if c = j ∧ a < 0 then x a else B a c) = fun j B => some B := by
          funext j B
          simp [upperV, trimHi]
        rw [e] at h
        have : ∀ n lo (B : Nat → Nat → K), forRange (fun _ B => some B) n lo B = some B := by
          intro n; induction n with
          | zero => intro _ _; rfl
          | succ n ih => intro lo B; simpa [forRange] using ih (lo+1) B
        rw [this] at h; exact (Option.some.inj h).symm
      · cases o <;> cases ua <;> simp_all [rowUpperM, colUpperM, forDown]
    subst this
    exact ⟨fun i c hi _ => by omega, fun _ _ _ => rfl⟩
  cases brm
  · exact colsM_sound _ _ _ _ _ _ (upperV_sound o ua N hi A) h
  · rw [if_pos rfl] at h
    cases o with
    | rm => rw [rowUpperM_eq] at h; exact rowUpperM_sound _ _ _ _ _ _ h
    | cm => rw [colUpperM_eq] at h; exact colUpperM_sound _ _ _ (by omega) _ _ _ h
    | no => rw [rowUpperM_eq] at h; exact rowUpperM_sound _ _ _ _ _ _ h

/-- **C88** (matrix, lower). -/
theorem lowerM_sound (o : Ord) (brm ua : Bool) (N lo nc : Nat) (hlo : lo < N) (A B X : Nat → Nat → K)
    (h : lowerM o brm ua N lo nc A B = some X) : SolM N nc (lowerMat ua (bandMat lo 0 A)) X B := by
  unfold lowerM at h
  by_cases h0 : nc = 0
  · rw [if_pos h0] at h; cases h
    exact ⟨fun i c _ hc => by omega, fun _ _ _ => rfl⟩
  rw [if_neg h0] at h
  by_cases h1 : nc = 1
  · rw [if_pos h1] at h; subst h1
    exact colsM_sound _ _ _ _ _ _ (lowerV_sound o ua N lo A) h
  rw [if_neg h1] at h
  cases brm
  · exact colsM_sound _ _ _ _ _ _ (lowerV_sound o ua N lo A) h
  · rw [if_pos rfl] at h
    cases o with
    | rm => rw [rowLowerM_eq] at h; exact rowLowerM_sound _ _ _ _ _ _ h
    | cm => rw [colLowerM_eq _ _ _ _ hlo] at h; exact colLowerM_sound _ _ _ _ _ _ h
    | no => rw [rowLowerM_eq] at h; exact rowLowerM_sound _ _ _ _ _ _ h

theorem upperM_isSome (o : Ord) (brm ua : Bool) (N hi nc : Nat) (A B : Nat → Nat → K)
    (hd : ∀ i, i < N → dg ua A i ≠ 0) : (upperM o brm ua N hi nc A B).isSome := by
  have hr : (rowUpperM ua N hi nc A B).isSome := by
    rw [rowUpperM_eq]
    exact forDown_isSome _ _ _ fun i s hi' => diagDivM_isSome (by rw [dg_band]; exact hd i hi')
  have hc : (colUpperM ua N hi nc A B).isSome := by
    rw [colUpperM_eq]
    unfold Tri.colUpperM
    cases ua
    · simp only [Bool.false_eq_true, if_false]
      exact forDown_isSome _ _ _ fun i s hi' => by
        rw [Option.isSome_map]; exact diagDivM_isSome (by rw [dg_band]; exact hd i hi')
    · exact forDown_isSome _ _ _ fun i s hi' => rfl
  unfold upperM
  split_ifs
  · rfl
  · exact colsM_isSome _ _ _ _ (fun b => upperV_isSome o ua N hi A b hd)
  · cases o
    · exact hr
    · exact hc
    · exact hr
  · exact colsM_isSome _ _ _ _ (fun b => upperV_isSome o ua N hi A b hd)

theorem lowerM_isSome (o : Ord) (brm ua : Bool) (N lo nc : Nat) (hlo : lo < N) (A B : Nat → Nat → K)
    (hd : ∀ i, i < N → dg ua A i ≠ 0) : (lowerM o brm ua N lo nc A B).isSome := by
  have hr : (rowLowerM ua N lo nc A B).isSome := by
    rw [rowLowerM_eq]
    exact forRange_isSome _ _ _ _ fun i s _ hi' => diagDivM_isSome (by rw [dg_band]; exact hd i (by omega))
  have hc : (colLowerM ua N lo nc A B).isSome := by
    rw [colLowerM_eq _ _ _ _ hlo]
    exact forRange_isSome _ _ _ _ fun i s _ hi' => by
      rw [Option.isSome_map]; exact diagDivM_isSome (by rw [dg_band]; exact hd i (by omega))
  unfold lowerM
  split_ifs
  · rfl
  · exact colsM_isSome _ _ _ _ (fun b => lowerV_isSome o ua N lo A b hd)
  · cases o
    · exact hr
    · exact hc
    · exact hr
  · exact colsM_isSome _ _ _ _ (fun b => lowerV_isSome o ua N lo A b hd)

theorem upper_zero_lo (ua : Bool) (A : Nat → Nat → K) (N : Nat) :
    upperMat ua (bandMat 0 0 A) = lowerMat ua (bandMat 0 0 A) := by
  funext i k; rw [upper_diag, lower_diag]

/-- **C88**: for every triangular band matrix `A` (`lo` sub-, `hi` superdiagonals, one of them 0; `ua`: `UnitDiag`),
storage order and right-hand side with `nc` columns: if `B /= A` returns, `B` holds the solution of `A X = B` and
nothing else was written; it always returns if no diagonal element is 0; it never returns if there is no solution. -/
theorem triM_spec (o : Ord) (brm ua : Bool) (N lo hi nc : Nat) (hlh : lo = 0 ∨ hi = 0) (hlo : lo < N) (hhi : hi < N)
    (A B : Nat → Nat → K) :
    let T := fun i k => if i = k ∧ ua = true then 1 else bandMat lo hi A i k
    (∀ X, triM o brm ua N lo hi nc A B = some X → SolM N nc T X B) ∧
    ((∀ i, i < N → T i i ≠ 0) → ∃ X, triM o brm ua N lo hi nc A B = some X) ∧
    ((¬ ∃ X : Nat → Nat → K, ∀ i c, i < N → c < nc → ∑ k ∈ Finset.range N, T i k * X k c = B i c) →
      triM o brm ua N lo hi nc A B = none) := by
  intro T
  have hTu : lo = 0 → upperMat ua (bandMat 0 hi A) = T := by
    intro h
    subst h
    funext i k
    simp only [upperMat, T, bandMat_diag]
    by_cases hik : i = k
    · subst hik; cases ua <;> simp [bandMat_diag]
    · by_cases h : i < k
      · rw [if_pos h, if_neg (by simp [hik])]
      · rw [if_neg h, if_neg hik, if_neg (by simp [hik])]; simp only [bandMat]; rw [if_neg (by omega)]
  have hTl : hi = 0 → lowerMat ua (bandMat lo 0 A) = T := by
    intro h
    subst h
    funext i k
    simp only [lowerMat, T, bandMat_diag]
    by_cases hik : i = k
    · subst hik; cases ua <;> simp [bandMat_diag]
    · by_cases h : k < i
      · rw [if_pos h, if_neg (by simp [hik])]
      · rw [if_neg h, if_neg hik, if_neg (by simp [hik])]; simp only [bandMat]; rw [if_neg (by omega)]
  have hTd : ∀ i, T i i = dg ua A i := by
    intro i; simp only [T, dg, bandMat_diag]; cases ua <;> simp
  have snd : ∀ X, triM o brm ua N lo hi nc A B = some X → SolM N nc T X B := by
    intro X h
    unfold triM at h
    by_cases h0 : lo = 0
    · rw [if_pos h0] at h; rw [← hTu h0]; exact upperM_sound o brm ua N hi nc A B X h
    · rw [if_neg h0] at h; rw [← hTl (by omega)]; exact lowerM_sound o brm ua N lo nc hlo A B X h
  refine ⟨snd, fun hd => ?_, fun hns => ?_⟩
  · have hd' : ∀ i, i < N → dg ua A i ≠ 0 := fun i h => by rw [← hTd]; exact hd i h
    unfold triM
    by_cases h0 : lo = 0
    · rw [if_pos h0]; exact Option.isSome_iff_exists.mp (upperM_isSome o brm ua N hi nc A B hd')
    · rw [if_neg h0]; exact Option.isSome_iff_exists.mp (lowerM_isSome o brm ua N lo nc hlo A B hd')
  · cases e : triM o brm ua N lo hi nc A B with
    | none => rfl
    | some X => exact absurd ⟨X, (snd X e).1⟩ hns

/-- Non-vacuity: an upper bidiagonal 3×3 system with rubbish outside the band, two right-hand sides. -/
example : (triM .cm true false 3 0 1 2 (fun i j => if i = j then (2:ℚ) else if j = i+1 then 1 else 77)
    (fun i c => if c = 0 then 4 else (i : ℚ))).map (fun X => (X 0 0, X 1 0, X 2 0, X 2 1)) = some (3/2, 1, 2, 1) := by
  decide +kernel

end BandTri
end TMV
