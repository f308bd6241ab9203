import Verif.Lemmas.Acc
import Verif.Props.MatArith

/-! The small-size kernels of the matrix product. -/
namespace TMV
open Finset
variable {K : Type _}

section
variable [Ring K] {R W : Int → Prop} {val : Int → K}

theorem loop2_acc (f : K → K) (sj : Int) : ∀ (n : Nat) (pA pC : Int), (∀ i : Nat, i < n → R (pA + i)) →
    (∀ i : Nat, i < n → W (pC + i)) →
    Acc R W val (loop2 (fun a c => c + f a) 1 1 n pA pC) (rect pC 1 sj n 1 (fun i _ => f (val (pA + i)))) := by
  intro n
  induction n with
  | zero => intro pA pC _ _; exact Acc.nil.congr (fun m => rfl) (fun x => by simp [rect])
  | succ n ih =>
    intro pA pC hR hW
    have h1 := Acc.one' (R := R) (W := W) (val := val) pA pC f (by simpa using hR 0 (by omega)) (by simpa using hW 0 (by omega))
    have h2 := ih (pA + 1) (pC + 1) (fun i hi => by have := hR (i+1) (by omega); push_cast at this; rwa [add_assoc, add_comm 1])
      (fun i hi => by have := hW (i+1) (by omega); push_cast at this; rwa [add_assoc, add_comm 1])
    refine (h1.seq h2).congr (fun m => rfl) (fun x => ?_)
    have := rect_rows (K := K) pC 1 sj 1 n 1 (fun i _ => f (val (pA + i))) x
    rw [add_comm n 1, ← this]
    congr 1
    · simp [rect]
    · simp only [Nat.cast_one, one_mul]
      refine rect_congr (fun i j _ _ => ?_) x
      push_cast; rw [add_assoc]

end

section
variable [Ring K] [Star K] {R W : Int → Prop} {val : Int → K}

theorem colMult8_acc (ca : Bool) (b : K) (sj : Int) : ∀ (n : Nat) (pA pC : Int), (∀ i : Nat, i < 8 * n → R (pA + i)) →
    (∀ i : Nat, i < 8 * n → W (pC + i)) →
    Acc R W val (colMult8 ca b n pA pC) (rect pC 1 sj (8 * n) 1 (fun i _ => cj ca (val (pA + i)) * b)) := by
  intro n
  induction n with
  | zero => intro pA pC _ _; exact Acc.nil.congr (fun m => rfl) (fun x => by simp [rect])
  | succ n ih =>
    intro pA pC hR hW
    have h1 := loop2_acc (R := R) (W := W) (val := val) (fun a => cj ca a * b) sj 8 pA pC (fun i hi => hR i (by omega))
      (fun i hi => hW i (by omega))
    have h2 := ih (pA + 8) (pC + 8) (fun i hi => by have := hR (8+i) (by omega); push_cast at this; rwa [← add_assoc] at this)
      (fun i hi => by have := hW (8+i) (by omega); push_cast at this; rwa [← add_assoc] at this)
    refine (h1.seq h2).congr (fun m => rfl) (fun x => ?_)
    have := rect_rows (K := K) pC 1 sj 8 (8 * n) 1 (fun i _ => cj ca (val (pA + i)) * b) x
    rw [show 8 * (n + 1) = 8 + 8 * n by ring, ← this]
    congr 1
    simp only [Nat.cast_ofNat, mul_one]
    refine rect_congr (fun i j _ _ => ?_) x
    push_cast; rw [add_assoc]

/-- An optional piece of the loop. -/
theorem opt_acc (f : K → K) (sj : Int) (n : Nat) (c : Prop) [Decidable c] (pA pC : Int)
    (hR : ∀ i : Nat, i < (if c then n else 0) → R (pA + i)) (hW : ∀ i : Nat, i < (if c then n else 0) → W (pC + i)) :
    Acc R W val (fun m => if c then loop2 (fun a c => c + f a) 1 1 n pA pC m else some m)
      (rect pC 1 sj (if c then n else 0) 1 (fun i _ => f (val (pA + i)))) := by
  by_cases h : c
  · simp only [if_pos h] at *
    exact loop2_acc f sj n pA pC hR hW
  · simp only [if_neg h] at *
    exact Acc.nil.congr (fun m => rfl) (fun x => by simp [rect])

/-- Two consecutive pieces. -/
theorem piece (f : Int → K) (sj pA pC : Int) (n1 n2 : Nat) (x : Int) :
    rect pC 1 sj n1 1 (fun i _ => f (pA + i)) x + rect (pC + n1) 1 sj n2 1 (fun i _ => f (pA + n1 + i)) x =
      rect pC 1 sj (n1 + n2) 1 (fun i _ => f (pA + i)) x := by
  have := rect_rows (K := K) pC 1 sj n1 n2 1 (fun i _ => f (pA + i)) x
  rw [← this]
  congr 1
  simp only [mul_one]
  refine rect_congr (fun i j _ _ => ?_) x
  push_cast; rw [add_assoc]

theorem colMult_acc (ca : Bool) (M : Nat) (b : K) (sj pA pC : Int) (hR : ∀ i : Nat, i < M → R (pA + i))
    (hW : ∀ i : Nat, i < M → W (pC + i)) :
    Acc R W val (colMult ca M b pA pC) (rect pC 1 sj M 1 (fun i _ => cj ca (val (pA + i)) * b)) := by
  have key : ∀ (q n : Nat), q + n ≤ M → (∀ i : Nat, i < n → R (pA + q + i)) ∧ (∀ i : Nat, i < n → W (pC + q + i)) := by
    intro q n h
    refine ⟨fun i hi => ?_, fun i hi => ?_⟩
    · have := hR (q + i) (by omega); push_cast at this; rwa [← add_assoc] at this
    · have := hW (q + i) (by omega); push_cast at this; rwa [← add_assoc] at this
  have h0 := colMult8_acc (R := R) (W := W) (val := val) ca b sj (M / 8) pA pC (fun i hi => hR i (by omega)) (fun i hi => hW i (by omega))
  let f : K → K := fun a => cj ca a * b
  by_cases hM : M % 8 ≠ 0
  · obtain ⟨d4, e4⟩ : ∃ d, d = if M % 8 ≥ 4 then 4 else 0 := ⟨_, rfl⟩
    obtain ⟨d2, e2⟩ : ∃ d, d = if M % 8 - d4 ≥ 2 then 2 else 0 := ⟨_, rfl⟩
    obtain ⟨d1, e1⟩ : ∃ d, d = if M % 8 - d4 - d2 ≠ 0 then 1 else 0 := ⟨_, rfl⟩
    have hs : 8 * (M / 8) + d4 + d2 + d1 = M := by
      split_ifs at e4 e2 e1 <;> omega
    have k1 := key (8 * (M/8)) d4 (by omega)
    have k2 := key (8 * (M/8) + d4) d2 (by omega)
    have k3 := key (8 * (M/8) + d4 + d2) d1 (by omega)
    have a1 := opt_acc (R := R) (W := W) (val := val) f sj 4 (M % 8 ≥ 4) (pA + (8 * (M/8) : Nat)) (pC + (8 * (M/8) : Nat))
      (by rw [← e4]; exact k1.1) (by rw [← e4]; exact k1.2)
    have a2 := opt_acc (R := R) (W := W) (val := val) f sj 2 (M % 8 - d4 ≥ 2) (pA + (8 * (M/8) + d4 : Nat)) (pC + (8 * (M/8) + d4 : Nat))
      (by rw [← e2]; exact k2.1) (by rw [← e2]; exact k2.2)
    have a3 := opt_acc (R := R) (W := W) (val := val) f sj 1 (M % 8 - d4 - d2 ≠ 0) (pA + (8 * (M/8) + d4 + d2 : Nat)) (pC + (8 * (M/8) + d4 + d2: Nat))
      (by rw [← e1]; exact k3.1) (by rw [← e1]; exact k3.2)
    refine (h0.seq (a1.seq (a2.seq a3))).congr (fun m => ?_) (fun x => ?_)
    · unfold colMult
      dsimp only
      simp only [if_pos hM, ← e4, ← e2]
      push_cast
      simp only [← add_assoc]
      rfl
    · rw [← e4, ← e2, ← e1]
      have p1 := piece (fun a => f (val a)) sj pA pC (8 * (M/8) + d4 + d2) d1 x
      have p2 := piece (fun a => f (val a)) sj pA pC (8 * (M/8) + d4) d2 x
      have p3 := piece (fun a => f (val a)) sj pA pC (8 * (M/8)) d4 x
      rw [hs, ← p2, ← p3] at p1
      rw [← add_assoc, ← add_assoc]
      exact p1
  · have hs : 8 * (M / 8) = M := by omega
    refine h0.congr (fun m => ?_) (fun x => ?_)
    · unfold colMult
      dsimp only
      simp only [if_neg hM]
      cases colMult8 ca b (M/8) pA pC m <;> rfl
    · rw [hs]

/-- `CCC` and `CRC`. -/
theorem recCC_acc (ca cb : Bool) (Ask Bsk Bsj Csj : Int) : ∀ (fuel M N k : Nat) (A B C : Int), 0 < N → 0 < k →
    N + k ≤ fuel → (∀ i l : Nat, i < M → l < k → R (A + i + l * Ask)) →
    (∀ l j : Nat, l < k → j < N → R (B + l * Bsk + j * Bsj)) → (∀ i j : Nat, i < M → j < N → W (C + i + j * Csj)) →
    Acc R W val (recCC ca cb Ask Bsk Bsj Csj fuel M N k A B C)
      (rect C 1 Csj M N (fun i j => ∑ l ∈ range k, cj ca (val (A + i + l * Ask)) * cj cb (val (B + l * Bsk + j * Bsj)))) := by
  intro fuel
  induction fuel with
  | zero => intro M N k A B C h1 h2 h3; omega
  | succ fuel ih =>
    intro M N k A B C hN hk hf hA hB hC
    by_cases h1 : k > N
    · have a1 := ih M N (k/2) A B C hN (by omega) (by omega) (fun i l hi hl => hA i l hi (by omega))
        (fun l j hl hj => hB l j (by omega) hj) hC
      have a2 := ih M N (k - k/2) (A + (k/2 : Nat) * Ask) (B + (k/2 : Nat) * Bsk) C hN (by omega) (by omega)
        (fun i l hi hl => by
          have := hA i (k/2 + l) hi (by omega)
          rwa [show A + i + ((k/2 + l : Nat) : Int) * Ask = A + (k/2 : Nat) * Ask + i + l * Ask by push_cast; ring] at this)
        (fun l j hl hj => by
          have := hB (k/2 + l) j (by omega) hj
          rwa [show B + ((k/2 + l : Nat) : Int) * Bsk + j * Bsj = B + (k/2 : Nat) * Bsk + l * Bsk + j * Bsj by push_cast; ring] at this)
        hC
      refine (a1.seq a2).congr (fun m => ?_) (fun x => ?_)
      · rw [recCC, if_pos h1]
      · rw [rect_add]
        refine rect_congr (fun i j _ _ => ?_) x
        conv_rhs => rw [show k = k/2 + (k - k/2) by omega, sum_range_add]
        congr 1
        refine sum_congr rfl fun l _ => ?_
        congr 3
        · push_cast; ring
        · push_cast; ring
    · by_cases h2 : N > 1
      · have a1 := ih M (N/2) k A B C (by omega) hk (by omega) hA
          (fun l j hl hj => hB l j hl (by omega)) (fun i j hi hj => hC i j hi (by omega))
        have a2 := ih M (N - N/2) k A (B + (N/2 : Nat) * Bsj) (C + (N/2 : Nat) * Csj) (by omega) hk (by omega) hA
          (fun l j hl hj => by
            have := hB l (N/2 + j) hl (by omega)
            rwa [show B + l * Bsk + ((N/2 + j : Nat) : Int) * Bsj = B + (N/2 : Nat) * Bsj + l * Bsk + j * Bsj by push_cast; ring] at this)
          (fun i j hi hj => by
            have := hC i (N/2 + j) hi (by omega)
            rwa [show C + i + ((N/2 + j : Nat) : Int) * Csj = C + (N/2 : Nat) * Csj + i + j * Csj by push_cast; ring] at this)
        refine (a1.seq a2).congr (fun m => ?_) (fun x => ?_)
        · rw [recCC, if_neg h1, if_pos h2]
        · conv_rhs => rw [show N = N/2 + (N - N/2) by omega, ← rect_cols]
          congr 1
          refine rect_congr (fun i j _ _ => sum_congr rfl fun l _ => ?_) x
          congr 3
          push_cast; ring
      · have hN1 : N = 1 := by omega
        have hk1 : k = 1 := by omega
        subst hN1 hk1
        have hB0 : R B := by simpa using hB 0 0 (by omega) (by omega)
        have a1 := colMult_acc (R := R) (W := W) (val := val) ca M (cj cb (val B)) Csj A C (fun i hi => by simpa using hA i 0 hi (by omega))
          (fun i hi => by simpa using hC i 0 hi (by omega))
        refine ⟨?_, fun m E => ?_⟩
        · intro x hx
          have := a1.1 x hx
          rw [← this]
          refine rect_congr (fun i j _ hj => ?_) x
          have : j = 0 := by omega
          simp [this]
        · obtain ⟨m', e, a⟩ := a1.2 m E
          refine ⟨m', ?_, fun x => ?_⟩
          · rw [recCC, if_neg h1, if_neg h2, Mem.read, E.rd B hB0]; exact e
          · rw [a x]
            congr 2; funext z; congr 1
            refine rect_congr (fun i j _ hj => ?_) x
            have : j = 0 := by omega
            simp [this]

/-! ### RCC -/

theorem dotRCC_val (ca cb : Bool) (m : Mem K) (E : Env R W val m) (pA pB : Int) : ∀ (k : Nat) (c : K),
    (∀ l : Nat, l < k → R (pA + l)) → (∀ l : Nat, l < k → R (pB + l)) →
    dotRCC ca cb m pA pB k c = some (c + ∑ l ∈ range k, cj ca (val (pA + l)) * cj cb (val (pB + l))) := by
  intro k
  induction k with
  | zero => intro c _ _; simp [dotRCC]
  | succ k ih =>
    intro c h1 h2
    rw [dotRCC, Mem.read, Mem.read, E.rd _ (h1 k (by omega)), E.rd _ (h2 k (by omega))]
    simp only [Option.bind_some]
    rw [ih _ (fun l hl => h1 l (by omega)) (fun l hl => h2 l (by omega)), sum_range_succ]
    congr 1
    rw [add_assoc, add_comm (cj ca _ * _)]

/-- The entry of the product at `(i,j)`. -/
def dotAt (ca cb : Bool) (val : Int → K) (k : Nat) (A B Asi Bsj : Int) (i j : Nat) : K :=
  ∑ l ∈ range k, cj ca (val (A + i * Asi + l)) * cj cb (val (B + j * Bsj + l))

omit [Star K] in
theorem tileDots_val (dot : Mem K → Int → Int → Option K) (g : Nat × Nat → K) (m : Mem K) (A B Asi Bsj : Int) :
    ∀ (ps : List (Nat × Nat)), (∀ p ∈ ps, dot m (A + p.1 * Asi) (B + p.2 * Bsj) = some (g p)) →
    tileDots dot A B Asi Bsj m ps = some (ps.map g) := by
  intro ps
  induction ps with
  | nil => intro _; rfl
  | cons p ps ih =>
    intro h
    rw [tileDots, h p (by simp), Option.bind_some, ih (fun q hq => h q (by simp [hq]))]
    simp

omit [Star K] in
theorem tileAdd_acc (C Csj : Int) (g : Nat × Nat → K) : ∀ (ps : List (Nat × Nat)), (∀ p ∈ ps, W (C + p.1 + p.2 * Csj)) →
    Acc R W val (tileAdd C Csj ps (ps.map g)) (fun x => (ps.map fun p => if x = C + p.1 + p.2 * Csj then g p else 0).sum) := by
  intro ps
  induction ps with
  | nil => intro _; exact Acc.nil.congr (fun m => rfl) (fun x => by simp)
  | cons p ps ih =>
    intro h
    refine ((Acc.one (R := R) (val := val) (C + p.1 + p.2 * Csj) (g p) (h p (by simp))).seq
      (ih (fun q hq => h q (by simp [hq])))).congr (fun m => ?_) (fun x => ?_)
    · rfl
    · simp

omit [Star K] in
theorem runTiles_acc (dot : Mem K → Int → Int → Option K) (g : Nat × Nat → K) (A B C Asi Bsj Csj : Int) :
    ∀ (ts : List (List Nat × List Nat)),
    (∀ t ∈ ts, ∀ p ∈ tilePairs t.1 t.2, W (C + p.1 + p.2 * Csj) ∧
      ∀ m, Env R W val m → dot m (A + p.1 * Asi) (B + p.2 * Bsj) = some (g p)) →
    Acc R W val (runTiles dot A B C Asi Bsj Csj ts) (fun x =>
      ((ts.flatMap fun t => tilePairs t.1 t.2).map fun p =>
        if x = C + p.1 + p.2 * Csj then g p else 0).sum) := by
  intro ts
  induction ts with
  | nil => intro _; exact Acc.nil.congr (fun m => rfl) (fun x => by simp)
  | cons t ts ih =>
    intro h
    have a1 := tileAdd_acc (R := R) (W := W) (val := val) C Csj g
      (tilePairs t.1 t.2) (fun p hp => (h t (by simp) p hp).1)
    have a2 := ih (fun t' ht' => h t' (by simp [ht']))
    have a := a1.seq a2
    refine ⟨fun x hx => ?_, fun m E => ?_⟩
    · have := a.1 x hx
      refine Eq.trans ?_ this; simp only [List.flatMap_cons, List.map_append, List.sum_append]
    · obtain ⟨m', e, ad⟩ := a.2 m E
      refine ⟨m', ?_, fun x => ?_⟩
      · rw [runTiles, tileDots_val dot g m A B Asi Bsj _ (fun p hp => (h t (by simp) p hp).2 m E)]
        exact e
      · rw [ad x]; simp only [List.flatMap_cons, List.map_append, List.sum_append]

/-- The tiles of every kernel cover every element of the block exactly once. -/
theorem rccTiles_perm (M N : Nat) (h1 : 0 < M) (h2 : M ≤ 4) (h3 : 0 < N) (h4 : N ≤ 4) :
    ((rccTiles M N).flatMap fun t => tilePairs t.1 t.2).Perm ((List.range M).flatMap fun i => (List.range N).map fun j => (i, j)) := by
  have : ∀ M ∈ [1,2,3,4], ∀ N ∈ [1,2,3,4],
      ((rccTiles M N).flatMap fun t => tilePairs t.1 t.2).Perm ((List.range M).flatMap fun i => (List.range N).map fun j => (i, j)) := by
    decide
  exact this M (by simp; omega) N (by simp; omega)

omit [Star K] in
theorem rect_list (C Csj : Int) (M N : Nat) (f : Nat → Nat → K) (x : Int) :
    (((List.range M).flatMap fun i => (List.range N).map fun j => (i, j)).map fun p : Nat × Nat =>
      if x = C + p.1 + p.2 * Csj then f p.1 p.2 else 0).sum = rect C 1 Csj M N f x := by
  unfold rect
  induction M with
  | zero => simp
  | succ M ih =>
    rw [List.range_succ, List.flatMap_append, List.map_append, List.sum_append, ih, sum_range_succ]
    congr 1
    simp only [List.flatMap_cons, List.flatMap_nil, List.append_nil, List.map_map, mul_one]
    clear ih
    induction N with
    | zero => simp
    | succ N ih2 =>
      rw [List.range_succ, List.map_append, List.sum_append, ih2, sum_range_succ]
      simp

/-- `RCC`. -/
theorem recRCC_acc (ca cb : Bool) (Asi Bsj Csj : Int) : ∀ (fuel M N k : Nat) (A B C : Int), 0 < M → 0 < N →
    M + N ≤ fuel → (∀ i l : Nat, i < M → l < k → R (A + i * Asi + l)) →
    (∀ l j : Nat, l < k → j < N → R (B + j * Bsj + l)) → (∀ i j : Nat, i < M → j < N → W (C + i + j * Csj)) →
    Acc R W val (recRCC ca cb Asi Bsj Csj fuel M N k A B C)
      (rect C 1 Csj M N (dotAt ca cb val k A B Asi Bsj)) := by
  intro fuel
  induction fuel with
  | zero => intro M N k A B C h1 h2 h3; omega
  | succ fuel ih =>
    intro M N k A B C hM hN hf hA hB hC
    by_cases h1 : M > N ∧ M > 4
    · have a1 := ih (M/2) N k A B C (by omega) hN (by omega) (fun i l hi hl => hA i l (by omega) hl)
        hB (fun i j hi hj => hC i j (by omega) hj)
      have a2 := ih (M - M/2) N k (A + (M/2 : Nat) * Asi) B (C + (M/2 : Nat)) (by omega) hN (by omega)
        (fun i l hi hl => by
          have := hA (M/2 + i) l (by omega) hl
          rwa [show A + ((M/2 + i : Nat) : Int) * Asi + l = A + (M/2 : Nat) * Asi + i * Asi + l by push_cast; ring] at this)
        hB
        (fun i j hi hj => by
          have := hC (M/2 + i) j (by omega) hj
          rwa [show C + ((M/2 + i : Nat) : Int) + j * Csj = C + (M/2 : Nat) + i + j * Csj by push_cast; ring] at this)
      refine (a1.seq a2).congr (fun m => ?_) (fun x => ?_)
      · rw [recRCC, if_pos h1]
      · conv_rhs => rw [show M = M/2 + (M - M/2) by omega, ← rect_rows]
        rw [mul_one]
        congr 1
        refine rect_congr (fun i j _ _ => sum_congr rfl fun l _ => ?_) x
        congr 3
        push_cast; ring
    · by_cases h2 : N > 4
      · have a1 := ih M (N/2) k A B C hM (by omega) (by omega) hA
          (fun l j hl hj => hB l j hl (by omega)) (fun i j hi hj => hC i j hi (by omega))
        have a2 := ih M (N - N/2) k A (B + (N/2 : Nat) * Bsj) (C + (N/2 : Nat) * Csj) hM (by omega) (by omega) hA
          (fun l j hl hj => by
            have := hB l (N/2 + j) hl (by omega)
            rwa [show B + ((N/2 + j : Nat) : Int) * Bsj + l = B + (N/2 : Nat) * Bsj + j * Bsj + l by push_cast; ring] at this)
          (fun i j hi hj => by
            have := hC i (N/2 + j) hi (by omega)
            rwa [show C + i + ((N/2 + j : Nat) : Int) * Csj = C + (N/2 : Nat) * Csj + i + j * Csj by push_cast; ring] at this)
        refine (a1.seq a2).congr (fun m => ?_) (fun x => ?_)
        · rw [recRCC, if_neg h1, if_pos h2]
        · conv_rhs => rw [show N = N/2 + (N - N/2) by omega, ← rect_cols]
          congr 1
          refine rect_congr (fun i j _ _ => sum_congr rfl fun l _ => ?_) x
          congr 3
          push_cast; ring
      · have hp := rccTiles_perm M N hM (by omega) hN (by omega)
        have a := runTiles_acc (R := R) (W := W) (val := val) (fun m a b => dotRCC ca cb m a b k 0)
          (fun p => dotAt ca cb val k A B Asi Bsj p.1 p.2) A B C Asi Bsj Csj (rccTiles M N) (fun t ht p hp' => by
          have hm : p ∈ (rccTiles M N).flatMap fun t => tilePairs t.1 t.2 := List.mem_flatMap.mpr ⟨t, ht, hp'⟩
          rw [hp.mem_iff] at hm
          simp only [List.mem_flatMap, List.mem_range, List.mem_map] at hm
          obtain ⟨i, hi, j, hj, rfl⟩ := hm
          exact ⟨hC i j hi hj, fun m E => by
            rw [dotRCC_val ca cb m E _ _ k 0 (fun l hl => hA i l hi hl) (fun l hl => hB l j hl hj), zero_add]; rfl⟩)
        refine a.congr (fun m => ?_) (fun x => ?_)
        · rw [recRCC, if_neg h1, if_neg h2]
        · rw [(hp.map _).sum_eq, rect_list C Csj M N (dotAt ca cb val k A B Asi Bsj) x]

end
end TMV
