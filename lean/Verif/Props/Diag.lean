import Verif.Model.Diag
import Verif.Props.LUDiv
import Verif.Spec.MulAdd

/-! **C83** Diagonal matrices. -/
namespace TMV.Diag
noncomputable section
open Classical
variable {K : Type} [RCLike K]

/-- The matrix with the elements `e` on its diagonal. -/
def diagMat (e : Nat → K) : Nat → Nat → K := fun i j => if i = j then e i else 0

theorem diag_sum (e : Nat → K) (M : Nat) (B : Nat → Nat → K) (i c : Nat) (hi : i < M) :
    ∑ k ∈ Finset.range M, diagMat e i k * B k c = e i * B i c := by
  rw [Finset.sum_eq_single i]
  · simp [diagMat]
  · intro k _ hk; simp [diagMat, Ne.symm hk]
  · intro h; simp at h; omega

theorem rowLoop (M N : Nat) (F : Nat → Nat → K → K) (B : Nat → Nat → K) (a c : Nat) :
    up (fun i B => fun a c => if a = i ∧ c < N then F a c (B a c) else B a c) M 0 B a c = if a < M ∧ c < N then F a c (B a c) else B a c := by
  have := up_inv (fun i (B : Nat → Nat → K) => fun a c => if a = i ∧ c < N then F a c (B a c) else B a c)
    (fun r X => ∀ a c, X a c = if a < r ∧ c < N then F a c (B a c) else B a c) M 0 B (by intro a c; rw [if_neg (by omega)]) (by
      intro r X _ _ hX a c
      dsimp only
      by_cases h : a = r ∧ c < N
      · rw [if_pos h, if_pos (by omega), hX, if_neg (by omega)]
      · rw [if_neg h, hX]
        by_cases h2 : a < r ∧ c < N
        · rw [if_pos h2, if_pos (by omega)]
        · rw [if_neg h2, if_neg (by omega)])
  rw [Nat.zero_add] at this
  exact this a c

theorem colLoop (M N : Nat) (F : Nat → Nat → K → K) (B : Nat → Nat → K) (a c : Nat) :
    up (fun j B => up (fun i B => fun a c => if a = i ∧ c = j then F a c (B a c) else B a c) M 0 B) N 0 B a c =
      if a < M ∧ c < N then F a c (B a c) else B a c := by
  have inner : ∀ (j : Nat) (B : Nat → Nat → K) (a c : Nat),
      up (fun i B => fun a c => if a = i ∧ c = j then F a c (B a c) else B a c) M 0 B a c = if a < M ∧ c = j then F a c (B a c) else B a c := by
    intro j B a c
    have := up_inv (fun i (B : Nat → Nat → K) => fun a c => if a = i ∧ c = j then F a c (B a c) else B a c)
      (fun r X => ∀ a c, X a c = if a < r ∧ c = j then F a c (B a c) else B a c) M 0 B (by intro a c; rw [if_neg (by omega)]) (by
        intro r X _ _ hX a c
        dsimp only
        by_cases h : a = r ∧ c = j
        · rw [if_pos h, if_pos (by omega), hX, if_neg (by omega)]
        · rw [if_neg h, hX]
          by_cases h2 : a < r ∧ c = j
          · rw [if_pos h2, if_pos (by omega)]
          · rw [if_neg h2, if_neg (by omega)])
    rw [Nat.zero_add] at this
    exact this a c
  have := up_inv (fun j (B : Nat → Nat → K) => up (fun i B => fun a c => if a = i ∧ c = j then F a c (B a c) else B a c) M 0 B)
    (fun r X => ∀ a c, X a c = if a < M ∧ c < r then F a c (B a c) else B a c) N 0 B (by intro a c; rw [if_neg (by omega)]) (by
      intro r X _ _ hX a c
      rw [inner]
      by_cases h : a < M ∧ c = r
      · rw [if_pos h, if_pos (by omega), hX, if_neg (by omega)]
      · rw [if_neg h, hX]
        by_cases h2 : a < M ∧ c < r
        · rw [if_pos h2, if_pos (by omega)]
        · rw [if_neg h2, if_neg (by omega)])
  rw [Nat.zero_add] at this
  exact this a c

theorem real_cj {z : K} (ca : Bool) (h : RCLike.im z = 0) : ((RCLike.re z : ℝ) : K) = cj ca z := by
  have hz : ((RCLike.re z : ℝ) : K) = z := by
    conv_rhs => rw [← RCLike.re_add_im z]
    rw [h]; simp
  cases ca
  · exact hz
  · have : (starRingEnd K) z = z := RCLike.conj_eq_iff_im.mpr h
    rw [hz]
    exact this.symm

theorem rowMultEq_spec (ca : Bool) (M N : Nat) (A : DV K) (B : Nat → Nat → K) (a c : Nat) :
    rowMultEq ca M N A B a c = if a < M ∧ c < N then cj ca (A.d a) * B a c else B a c := by
  have e : (fun i (B : Nat → Nat → K) => fun a c => if a = i ∧ c < N then
    (if A.d i = 0 then 0
     else if RCLike.im (A.d i) = 0 then B a c * ((RCLike.re (A.d i) : ℝ) : K)
     else B a c * TMV.cj ca (A.d i)) else B a c) = fun i B => fun a c => if a = i ∧ c < N then (fun a _ x => cj ca (A.d a) * x) a c (B a c) else B a c := by
    funext i B a c
    by_cases h : a = i ∧ c < N
    · rw [if_pos h, if_pos h]
      obtain ⟨rfl, -⟩ := h
      by_cases h0 : A.d a = 0
      · rw [if_pos h0]; dsimp only; rw [h0]; cases ca <;> simp [cj]
      · rw [if_neg h0]
        by_cases h1 : RCLike.im (A.d a) = 0
        · rw [if_pos h1, real_cj ca h1, mul_comm]
        · rw [if_neg h1, mul_comm]
    · rw [if_neg h, if_neg h]
  unfold rowMultEq
  rw [e, rowLoop]

theorem doColMultEq_spec (ca : Bool) (M N : Nat) (A : DV K) (B : Nat → Nat → K) (a c : Nat) :
    doColMultEq ca M N A B a c = if a < M ∧ c < N then cj ca (A.d a) * B a c else B a c := by
  have e : (fun j (B : Nat → Nat → K) => up (fun i B => fun a c => if a = i ∧ c = j then B a c * TMV.cj ca (A.d i) else B a c) M 0 B) =
      fun j B => up (fun i B => fun a c => if a = i ∧ c = j then (fun a _ x => cj ca (A.d a) * x) a c (B a c) else B a c) M 0 B := by
    funext j B
    congr 1
    funext i B a c
    by_cases h : a = i ∧ c = j
    · rw [if_pos h, if_pos h, h.1, mul_comm]
    · rw [if_neg h, if_neg h]
  unfold doColMultEq
  rw [e, colLoop]

theorem rowAdd_spec (ca : Bool) (M N : Nat) (A : DV K) (B C : Nat → Nat → K) (a c : Nat) :
    rowAdd ca M N A B C a c = if a < M ∧ c < N then C a c + cj ca (A.d a) * B a c else C a c := by
  have e : (fun i (C : Nat → Nat → K) => fun a c => if a = i ∧ c < N then
    (if RCLike.im (A.d i) = 0 then
      (if RCLike.re (A.d i) ≠ 0 then C a c + ((RCLike.re (A.d i) : ℝ) : K) * B a c else C a c)
     else C a c + TMV.cj ca (A.d i) * B a c) else C a c) =
      fun i C => fun a c => if a = i ∧ c < N then (fun a c x => x + cj ca (A.d a) * B a c) a c (C a c) else C a c := by
    funext i C a c
    by_cases h : a = i ∧ c < N
    · rw [if_pos h, if_pos h]
      obtain ⟨rfl, -⟩ := h
      by_cases h1 : RCLike.im (A.d a) = 0
      · rw [if_pos h1, real_cj ca h1]
        by_cases h2 : RCLike.re (A.d a) ≠ 0
        · rw [if_pos h2]
        · rw [if_neg h2]; dsimp only; rw [← real_cj ca h1]
          rw [not_not] at h2
          rw [h2]; simp
      · rw [if_neg h1]
    · rw [if_neg h, if_neg h]
  unfold rowAdd
  rw [e]
  exact rowLoop M N (fun a c x => x + cj ca (A.d a) * B a c) C a c

theorem doColAdd_spec (ca : Bool) (M N : Nat) (A : DV K) (B C : Nat → Nat → K) (a c : Nat) :
    doColAdd ca M N A B C a c = if a < M ∧ c < N then C a c + cj ca (A.d a) * B a c else C a c := by
  have e : (fun j (C : Nat → Nat → K) => up (fun i C => fun a c => if a = i ∧ c = j then C a c + TMV.cj ca (A.d i) * B a c else C a c) M 0 C) =
      fun j C => up (fun i C => fun a c => if a = i ∧ c = j then (fun a c x => x + cj ca (A.d a) * B a c) a c (C a c) else C a c) M 0 C := by
    funext j C
    congr 1
    funext i C a c
    by_cases h : a = i ∧ c = j
    · rw [if_pos h, if_pos h, h.1]
    · rw [if_neg h, if_neg h]
  unfold doColAdd
  rw [e]
  exact colLoop M N (fun a c x => x + cj ca (A.d a) * B a c) C a c

theorem multEq_spec (l : Lay) (α : K) (M N : Nat) (A : DV K) (B : Nat → Nat → K) (a c : Nat) :
    multEq l α M N A B a c = if a < M ∧ c < N then α * A.el a * B a c else B a c := by
  unfold multEq
  by_cases h : M > 0 ∧ N > 0
  · rw [if_pos h]
    by_cases h1 : α ≠ 1
    · rw [if_pos h1]
      split_ifs <;> simp_all [rowMultEq_spec, doColMultEq_spec, DV.new, cj]
    · rw [if_neg h1]
      rw [not_not] at h1
      unfold colMultEq
      split_ifs <;> simp_all [rowMultEq_spec, doColMultEq_spec, DV.new, cj, DV.el]
  · rw [if_neg h, if_neg (by omega)]

/-- What the addition does, for every diagonal matrix; `x` is the element used. -/
theorem addMult_val (lb lc : Lay) (α : K) (M N : Nat) (A : DV K) (B C : Nat → Nat → K) (a c : Nat)
    (hok : α ≠ 1 ∨ A.cj = false ∨ A.unit = true ∨ (lb.rm = true ∧ lc.rm = true) ∨ (¬ (lb.cm = true ∧ lc.cm = true) ∧ M ≤ N)) :
    addMult lb lc α M N A B C a c = if a < M ∧ c < N then C a c + α * A.el a * B a c else C a c := by
  unfold addMult
  by_cases h : M > 0 ∧ N > 0
  · rw [if_pos h]
    by_cases h1 : α ≠ 1
    · rw [if_pos h1]
      unfold colAdd
      split_ifs <;> simp_all [rowAdd_spec, doColAdd_spec, DV.new, cj]
    · rw [if_neg h1]
      rw [not_not] at h1
      have hrow : rowAdd A.cj M N A B C a c = if a < M ∧ c < N then C a c + α * A.el a * B a c else C a c := by
        rw [rowAdd_spec, h1, one_mul]; rfl
      have hcol : (A.cj = false ∨ A.unit = true) → colAdd A.cj M N A B C a c = if a < M ∧ c < N then C a c + α * A.el a * B a c else C a c := by
        intro hh
        unfold colAdd
        rw [h1, one_mul]
        by_cases hu : A.unit = true
        · rw [if_pos hu, doColAdd_spec]; rfl
        · rw [if_neg hu, doColAdd_spec]
          have hc : A.cj = false := by tauto
          simp [hc, cj, DV.new]
      by_cases c1 : lb.rm = true ∧ lc.rm = true
      · rw [if_pos c1]; exact hrow
      · rw [if_neg c1]
        by_cases c2 : lb.cm = true ∧ lc.cm = true
        · rw [if_pos c2]; exact hcol (by tauto)
        · rw [if_neg c2]
          by_cases c3 : M > N
          · rw [if_pos c3]; exact hcol (by rcases hok with h | h | h | h | h <;> first | tauto | omega)
          · rw [if_neg c3]; exact hrow
  · rw [if_neg h, if_neg (by omega)]

/-- **C83** `C = alpha*D*B` and `C += alpha*D*B`.  Missing: `C += D*B` for a conjugated `D` whose diagonal has a step and matrices
that are not row major; see `mulM_violated`. -/
theorem mulM_partial (add ac bc : Bool) (lb lc : Lay) (α : K) (M N : Nat) (A : DV K) (B C : Nat → Nat → K)
    (hok : add = false ∨ ac = true ∨ bc = true ∨ α ≠ 1 ∨ A.cj = false ∨ A.unit = true ∨ (lb.rm = true ∧ lc.rm = true) ∨
      (¬ (lb.cm = true ∧ lc.cm = true) ∧ M ≤ N)) :
    MulAddM add α M N (diagMat A.el) B C (mulM add ac bc lb lc α M N A B C) := by
  intro a c
  by_cases hac : a < M ∧ c < N
  swap
  · rw [if_neg hac]
    have body : ∀ A : DV K, (if (!add) = true then multEq lc α M N A (fun i j => if i < M ∧ j < N then B i j else C i j)
        else if bc = true then (fun i j => if i < M ∧ j < N then C i j + multEq ⟨lb.rm, !lb.rm⟩ α M N A B i j else C i j)
        else addMult lb lc α M N A B C) a c = C a c := by
      intro A
      by_cases h1 : (!add) = true
      · rw [if_pos h1, multEq_spec, if_neg hac, if_neg hac]
      · rw [if_neg h1]
        by_cases h2 : bc = true
        · rw [if_pos h2, if_neg hac]
        · rw [if_neg h2]
          have hr : ∀ ca A, rowAdd ca M N A B C a c = C a c := fun ca A => by rw [rowAdd_spec, if_neg hac]
          have hc : ∀ ca A, colAdd ca M N A B C a c = C a c := fun ca A => by
            unfold colAdd; split_ifs <;> rw [doColAdd_spec, if_neg hac]
          unfold addMult
          split_ifs <;> first | exact hr _ _ | exact hc _ _ | rfl
    unfold mulM
    by_cases h : M > 0 ∧ N > 0
    · rw [if_pos h]
      by_cases h0 : α = 0
      · rw [if_pos h0]
        cases add <;> simp [hac]
      · rw [if_neg h0]
        by_cases h1 : ac = true
        · rw [if_pos h1]; exact body _
        · rw [if_neg h1]; exact body _
    · rw [if_neg h]
  · rw [if_pos hac, diag_sum _ _ _ _ _ hac.1]
    have body : ∀ A : DV K, (add = false ∨ bc = true ∨ α ≠ 1 ∨ A.cj = false ∨ A.unit = true ∨ (lb.rm = true ∧ lc.rm = true) ∨
        (¬ (lb.cm = true ∧ lc.cm = true) ∧ M ≤ N)) → (if (!add) = true then multEq lc α M N A (fun i j => if i < M ∧ j < N then B i j else C i j)
        else if bc = true then (fun i j => if i < M ∧ j < N then C i j + multEq ⟨lb.rm, !lb.rm⟩ α M N A B i j else C i j)
        else addMult lb lc α M N A B C) a c = (if add then C a c else 0) + α * (A.el a * B a c) := by
      intro A hh
      by_cases h1 : (!add) = true
      · rw [if_pos h1, multEq_spec, if_pos hac, if_pos hac, if_neg (by simpa using h1), zero_add, mul_assoc]
      · have ha : add = true := by simpa using h1
        rw [if_neg h1, if_pos ha]
        by_cases h2 : bc = true
        · rw [if_pos h2, if_pos hac, multEq_spec, if_pos hac, mul_assoc]
        · rw [if_neg h2, addMult_val lb lc α M N A B C a c (by
            rcases hh with h | h | h | h | h | h | h
            · rw [ha] at h; cases h
            · exact absurd h h2
            · exact Or.inl h
            · exact Or.inr (Or.inl h)
            · exact Or.inr (Or.inr (Or.inl h))
            · exact Or.inr (Or.inr (Or.inr (Or.inl h)))
            · exact Or.inr (Or.inr (Or.inr (Or.inr h)))), if_pos hac, mul_assoc]
    unfold mulM
    rw [if_pos (by omega)]
    by_cases h0 : α = 0
    · rw [if_pos h0, h0]
      cases add <;> simp [hac]
    · rw [if_neg h0]
      by_cases h1 : ac = true
      · rw [if_pos h1]
        exact body (DV.new A.el) (Or.inr (Or.inr (Or.inr (Or.inl rfl))))
      · rw [if_neg h1]
        exact body A (by tauto)

/-- **C83** fails for `C += D.conjugate()*B` when the diagonal has a step and the matrices are column major: `C` gets `D*B`. -/
theorem mulM_violated (M N : Nat) (d : Nat → K) (B C : Nat → Nat → K) :
    MulAddM true 1 M N (diagMat d) B C (mulM true false false ⟨false, true⟩ ⟨false, true⟩ 1 M N ⟨d, true, false⟩ B C) := by
  intro a c
  unfold mulM
  by_cases h : M > 0 ∧ N > 0
  · rw [if_pos h, if_neg one_ne_zero]
    have e : addMult ⟨false, true⟩ ⟨false, true⟩ 1 M N ⟨d, true, false⟩ B C a c = if a < M ∧ c < N then C a c + d a * B a c else C a c := by
      unfold addMult
      rw [if_pos h, if_neg (by simp), if_neg (by simp), if_pos (by simp)]
      unfold colAdd
      rw [if_neg (by simp), doColAdd_spec]
      simp [DV.new, DV.el, cj]
    refine (show _ = _ from e).trans ?_
    by_cases hac : a < M ∧ c < N
    · rw [if_pos hac, if_pos hac, diag_sum _ _ _ _ _ hac.1]; simp
    · rw [if_neg hac, if_neg hac]
  · rw [if_neg h, if_neg (by omega)]

/-- **C83** (violated, an instance): with `D = (i)` the sum `C += D.conjugate()*B` is not what the library computes. -/
theorem mulM_violated_ex : ¬ MulAddM true (1:ℂ) 1 1 (diagMat (DV.el ⟨fun _ => Complex.I, true, false⟩)) (fun _ _ => 1) (fun _ _ => 0)
    (mulM true false false ⟨false, true⟩ ⟨false, true⟩ 1 1 1 ⟨fun _ => Complex.I, true, false⟩ (fun _ _ => 1) (fun _ _ => 0)) := by
  intro h
  have h1 := h 0 0
  have h2 := mulM_violated (K := ℂ) 1 1 (fun _ => Complex.I) (fun _ _ => 1) (fun _ _ => 0) 0 0
  rw [h1] at h2
  simp [diagMat, DV.el, cj] at h2
  have := congrArg Complex.im h2
  norm_num at this

/-! ### Division -/

theorem singLoop {S : Type} (d : Nat → K) (step : Nat → S → S) : ∀ (n i : Nat) (s : S),
    forRange (fun i s => if d i = 0 then none else some (step i s)) n i s =
      if ∃ k < n, d (i + k) = 0 then none else some (up step n i s) := by
  intro n
  induction n with
  | zero => intro i s; simp [forRange, up]
  | succ n ih =>
    intro i s
    rw [forRange]
    by_cases h : d i = 0
    · rw [if_pos h, if_pos ⟨0, by omega, by simpa using h⟩]; rfl
    · rw [if_neg h]
      show forRange _ n (i+1) (step i s) = _
      rw [ih, up]
      by_cases h2 : ∃ k < n, d (i + 1 + k) = 0
      · rw [if_pos h2]
        obtain ⟨k, hk, e⟩ := h2
        rw [if_pos ⟨k+1, by omega, by rw [← e]; congr 1; omega⟩]
      · rw [if_neg h2, if_neg]
        rintro ⟨k, hk, e⟩
        cases k with
        | zero => exact h (by simpa using e)
        | succ k => exact h2 ⟨k, by omega, by rw [← e]; congr 1; omega⟩

theorem vecLoop (n : Nat) (F : Nat → K → K) (v : Nat → K) (a : Nat) :
    up (fun i v => fun a => if a = i then F a (v a) else v a) n 0 v a = if a < n then F a (v a) else v a := by
  have := up_inv (fun i (v : Nat → K) => fun a => if a = i then F a (v a) else v a)
    (fun r X => ∀ a, X a = if a < r then F a (v a) else v a) n 0 v (by intro a; rw [if_neg (by omega)]) (by
      intro r X _ _ hX a
      dsimp only
      by_cases h : a = r
      · rw [if_pos h, if_pos (by omega), hX, if_neg (by omega)]
      · rw [if_neg h, hX]
        by_cases h2 : a < r
        · rw [if_pos h2, if_pos (by omega)]
        · rw [if_neg h2, if_neg (by omega)])
  rw [Nat.zero_add] at this
  exact this a

theorem cj_eq_zero (c : Bool) (z : K) : cj c z = 0 ↔ z = 0 := by cases c <;> simp [cj]

theorem el_zero (n : Nat) (D : DV K) : (∃ k < n, D.d (0 + k) = 0) ↔ ∃ k < n, D.el k = 0 := by
  simp [DV.el, cj_eq_zero]

theorem divV_spec (n : Nat) (D : DV K) (v : Nat → K) :
    divV n D v = if ∃ k < n, D.el k = 0 then none else some fun a => if a < n then v a / D.el a else v a := by
  unfold divV
  rw [singLoop D.d (fun i (v : Nat → K) => fun a => if a = i then v a / TMV.cj D.cj (D.d i) else v a)]
  simp only [el_zero]
  have e : (fun i (v : Nat → K) => fun a => if a = i then v a / TMV.cj D.cj (D.d i) else v a) =
      fun i v => fun a => if a = i then (fun a x => x / D.el a) a (v a) else v a := by
    funext i v a
    by_cases h : a = i
    · rw [if_pos h, if_pos h, h]; rfl
    · rw [if_neg h, if_neg h]
  rw [e]
  congr 2
  funext a
  exact vecLoop n (fun a x => x / D.el a) v a

theorem rowDiv_spec (M N : Nat) (D : DV K) (m : Nat → Nat → K) :
    rowDiv M N D m = if ∃ k < M, D.el k = 0 then none else some fun a c => if a < M ∧ c < N then m a c / D.el a else m a c := by
  unfold rowDiv
  rw [singLoop D.d (fun i (m : Nat → Nat → K) => fun a c => if a = i ∧ c < N then m a c * (TMV.cj D.cj (D.d i))⁻¹ else m a c)]
  simp only [el_zero]
  have e : (fun i (m : Nat → Nat → K) => fun a c => if a = i ∧ c < N then m a c * (TMV.cj D.cj (D.d i))⁻¹ else m a c) =
      fun i m => fun a c => if a = i ∧ c < N then (fun a _ x => x / D.el a) a c (m a c) else m a c := by
    funext i m a c
    by_cases h : a = i ∧ c < N
    · rw [if_pos h, if_pos h, h.1, ← div_eq_mul_inv]; rfl
    · rw [if_neg h, if_neg h]
  rw [e]
  congr 2
  funext a c
  exact rowLoop M N (fun a _ x => x / D.el a) m a c

theorem colDiv_spec (l : Lay) (g : Nat → K) (M N : Nat) (D : DV K) (m : Nat → Nat → K) :
    colDiv l g M N D m = if ∃ k < M, D.el k = 0 then none else some fun a c => if a < M ∧ c < N then m a c / D.el a else m a c := by
  unfold colDiv
  rw [singLoop D.d (fun i (inv : Nat → K) => fun a => if a = i then (TMV.cj D.cj (D.d i))⁻¹ else inv a)]
  simp only [el_zero]
  by_cases hs : ∃ k < M, D.el k = 0
  · rw [if_pos hs, if_pos hs]; rfl
  · rw [if_neg hs, if_neg hs, Option.map_some]
    congr 1
    have e : (fun i (inv : Nat → K) => fun a => if a = i then (TMV.cj D.cj (D.d i))⁻¹ else inv a) =
        fun i inv => fun a => if a = i then (fun a _ => (D.el a)⁻¹) a (inv a) else inv a := by
      funext i v a
      by_cases h : a = i
      · rw [if_pos h, if_pos h, h]; rfl
      · rw [if_neg h, if_neg h]
    rw [e]
    funext a c
    rw [mulM_partial false false true l l 1 M N _ m m (Or.inl rfl) a c]
    by_cases hac : a < M ∧ c < N
    · rw [if_pos hac, if_pos hac, diag_sum _ _ _ _ _ hac.1]
      have := vecLoop M (fun a _ => (D.el a)⁻¹) g a
      rw [if_pos hac.1] at this
      simp only [DV.new, DV.el, cj] at this ⊢
      rw [this]
      simp [div_eq_inv_mul]
    · rw [if_neg hac, if_neg hac]

/-- **C83** (division by a diagonal matrix, all layouts): `SingularDiagMatrix` is thrown exactly when an element of the diagonal is zero (and
there is something to do); otherwise the `M`×`N` block becomes the solution of `D*x = m`. -/
theorem divM_spec (l : Lay) (g : Nat → K) (M N : Nat) (D : DV K) (m : Nat → Nat → K) :
    (divM l g M N D m = none ↔ 0 < N ∧ ∃ k < M, D.el k = 0) ∧
    ∀ x, divM l g M N D m = some x →
      (∀ i j, i < M → j < N → ∑ k ∈ Finset.range M, diagMat D.el i k * x k j = m i j) ∧
      ∀ i j, ¬ (i < M ∧ j < N) → x i j = m i j := by
  have key : divM l g M N D m = if 0 < N ∧ ∃ k < M, D.el k = 0 then none else
      some fun a c => if a < M ∧ c < N then m a c / D.el a else m a c := by
    unfold divM
    by_cases h : M > 0 ∧ N > 0
    · rw [if_pos h]
      simp only [h.2, true_and]
      by_cases h1 : N = 1
      · rw [if_pos h1, divV_spec]
        by_cases hs : ∃ k < M, D.el k = 0
        · rw [if_pos hs, if_pos hs]; rfl
        · rw [if_neg hs, if_neg hs, Option.map_some]
          congr 1
          funext a c
          by_cases hac : c = 0 ∧ a < M
          · rw [if_pos hac]; dsimp only; rw [if_pos hac.2, if_pos (by omega), hac.1]
          · rw [if_neg hac, if_neg (by omega)]
      · rw [if_neg h1]
        split_ifs <;> first | (rw [rowDiv_spec, if_pos (by assumption)]) | (rw [rowDiv_spec, if_neg (by assumption)]) | (rw [colDiv_spec, if_pos (by assumption)]) | (rw [colDiv_spec, if_neg (by assumption)])
    · rw [if_neg h, if_neg]
      · congr 1; funext a c; rw [if_neg (by omega)]
      · rintro ⟨h1, k, h2, -⟩; omega
  rw [key]
  by_cases hs : 0 < N ∧ ∃ k < M, D.el k = 0
  · rw [if_pos hs]
    exact ⟨by simpa using hs, fun x hx => by cases hx⟩
  · rw [if_neg hs]
    refine ⟨by simpa using hs, fun x hx => ?_⟩
    cases hx
    refine ⟨fun i j hi hj => ?_, fun i j h => by simp only [if_neg h]⟩
    rw [diag_sum D.el M (fun a c => if a < M ∧ c < N then m a c / D.el a else m a c) i j hi, if_pos ⟨hi, hj⟩]
    have : D.el i ≠ 0 := fun h => hs ⟨by omega, i, hi, h⟩
    field_simp

/-- **C83** (`v /= D`). -/
theorem divV_solves (n : Nat) (D : DV K) (v : Nat → K) :
    (divV n D v = none ↔ ∃ k < n, D.el k = 0) ∧
    ∀ x, divV n D v = some x → (∀ i < n, ∑ k ∈ Finset.range n, diagMat D.el i k * x k = v i) ∧ ∀ i, n ≤ i → x i = v i := by
  rw [divV_spec]
  by_cases hs : ∃ k < n, D.el k = 0
  · rw [if_pos hs]
    exact ⟨by simpa using hs, fun x hx => by cases hx⟩
  · rw [if_neg hs]
    refine ⟨by simpa using hs, fun x hx => ?_⟩
    cases hx
    refine ⟨fun i hi => ?_, fun i h => by simp only [if_neg (show ¬ i < n by omega)]⟩
    rw [diag_sum D.el n (fun k _ => if k < n then v k / D.el k else v k) i 0 hi, if_pos hi]
    have : D.el i ≠ 0 := fun h => hs ⟨i, hi, h⟩
    field_simp

/-! ### Inverse -/

theorem invertSelf_aux : ∀ (n i : Nat) (d : Nat → K),
    forRange (fun i d => if d i = 0 then none else some fun a => if a = i then (d i)⁻¹ else d a) n i d =
      if ∃ k < n, d (i + k) = 0 then none else some fun a => if i ≤ a ∧ a < i + n then (d a)⁻¹ else d a := by
  intro n
  induction n with
  | zero => intro i d; simp [forRange]; funext a; rw [if_neg (by omega)]
  | succ n ih =>
    intro i d
    rw [forRange]
    by_cases h : d i = 0
    · rw [if_pos h, if_pos ⟨0, by omega, by simpa using h⟩]; rfl
    · rw [if_neg h]
      show forRange _ n (i+1) (fun a => if a = i then (d i)⁻¹ else d a) = _
      rw [ih]
      have e : ∀ k, (if i + 1 + k = i then (d i)⁻¹ else d (i + 1 + k)) = d (i + (k+1)) := fun k => by
        rw [if_neg (by omega)]; congr 1; omega
      simp only [e]
      by_cases h2 : ∃ k < n, d (i + (k+1)) = 0
      · rw [if_pos h2]
        obtain ⟨k, hk, e⟩ := h2
        rw [if_pos ⟨k+1, by omega, e⟩]
      · rw [if_neg h2, if_neg]
        · congr 1
          funext a
          by_cases ha : a = i
          · subst ha
            rw [if_neg (by omega), if_pos rfl, if_pos (by omega)]
          · simp only [if_neg ha]
            by_cases hb : i + 1 ≤ a ∧ a < i + 1 + n
            · rw [if_pos hb, if_pos (by omega)]
            · rw [if_neg hb, if_neg (by omega)]
        · rintro ⟨k, hk, e⟩
          cases k with
          | zero => exact h (by simpa using e)
          | succ k => exact h2 ⟨k, by omega, e⟩

theorem invertSelf_spec (n : Nat) (d : Nat → K) :
    invertSelf n d = if ∃ k < n, d k = 0 then none else some fun a => if a < n then (d a)⁻¹ else d a := by
  unfold invertSelf
  rw [invertSelf_aux]
  simp

/-- The `n`×`n` block of `X` is the inverse of `A`. -/
def IsInv (n : Nat) (A X : Nat → Nat → K) : Prop :=
  ∀ i j, i < n → j < n → ∑ k ∈ Finset.range n, A i k * X k j = (if i = j then 1 else 0) ∧
    ∑ k ∈ Finset.range n, X i k * A k j = (if i = j then 1 else 0)

theorem sum_diag (e : Nat → K) (n : Nat) (B : Nat → Nat → K) (i c : Nat) (hc : c < n) :
    ∑ k ∈ Finset.range n, B i k * diagMat e k c = B i c * e c := by
  rw [Finset.sum_eq_single c]
  · simp [diagMat]
  · intro k _ hk; simp [diagMat, hk]
  · intro h; simp at h; omega

/-- **C83** (`invertSelf`): throws exactly when an element is zero, otherwise the diagonal holds the inverse. -/
theorem invertSelf_inv (n : Nat) (d : Nat → K) :
    (invertSelf n d = none ↔ ∃ k < n, d k = 0) ∧
    ∀ x, invertSelf n d = some x → IsInv n (diagMat d) (diagMat x) ∧ ∀ i, n ≤ i → x i = d i := by
  rw [invertSelf_spec]
  by_cases hs : ∃ k < n, d k = 0
  · rw [if_pos hs]
    exact ⟨by simpa using hs, fun x hx => by cases hx⟩
  · rw [if_neg hs]
    refine ⟨by simpa using hs, fun x hx => ?_⟩
    cases hx
    refine ⟨fun i j hi hj => ?_, fun i h => by simp only [if_neg (show ¬ i < n by omega)]⟩
    rw [diag_sum _ _ _ _ _ hi, sum_diag _ _ _ _ _ hj]
    have h1 : d i ≠ 0 := fun h => hs ⟨i, hi, h⟩
    unfold diagMat
    by_cases e : i = j
    · subst e; simp [hi, h1]
    · simp [e]

/-- **C83** (`makeInverse` into a matrix, also one that holds the diagonal itself). -/
theorem makeInverse_inv (ss : Bool) (n : Nat) (A : DV K) (minv : Nat → Nat → K) :
    (makeInverse ss n A minv = none ↔ ∃ k < n, A.el k = 0) ∧
    ∀ x, makeInverse ss n A minv = some x → IsInv n (diagMat A.el) x ∧ ∀ i j, ¬ (i < n ∧ j < n) → x i j = minv i j := by
  unfold makeInverse
  dsimp only
  rw [invertSelf_spec]
  by_cases hs : ∃ k < n, A.el k = 0
  · rw [if_pos hs]
    exact ⟨by simpa using hs, fun x hx => by cases hx⟩
  · rw [if_neg hs, Option.map_some]
    refine ⟨by simpa using hs, fun x hx => ?_⟩
    have hx' := Option.some.inj hx
    have v : ∀ i j, x i j = if i < n ∧ j < n then diagMat (fun a => (A.el a)⁻¹) i j else minv i j := by
      intro i j
      rw [← hx']
      unfold diagMat
      by_cases h1 : i < n ∧ j < n
      · rw [if_pos h1]
        by_cases h2 : i = j
        · subst h2
          cases ss <;> simp [h1.1] <;> split_ifs <;> simp [h1.1]
        · cases ss <;> simp [h1, h2]
          rw [if_pos (by omega)]
          simp [h1, h2]
      · rw [if_neg h1]
        have h2 : ¬ (i = j ∧ i < n) := by omega
        have h3 : ¬ (i ≠ j ∧ i < n ∧ j < n) := by omega
        cases ss
        · simp [h1, h2]
        · by_cases h4 : n > 1
          · simp only [h4, and_self, if_true]
            rw [if_neg h3, if_neg h2]; rfl
          · simp only [h4, and_false, if_false]
            rw [if_neg h2]; rfl
    refine ⟨fun i j hi hj => ?_, fun i j h => by rw [v, if_neg h]⟩
    rw [diag_sum _ _ _ _ _ hi, sum_diag _ _ _ _ _ hj, v, if_pos ⟨hi, hj⟩]
    have h1 : A.el i ≠ 0 := fun h => hs ⟨i, hi, h⟩
    unfold diagMat
    by_cases e : i = j
    · subst e; simp [h1]
    · simp [e]

/-- **C83** (`makeInverseATA`): the block of `ata` becomes the inverse of `D†D`. -/
theorem makeInverseATA_inv (n : Nat) (A : DV K) (ata : Nat → Nat → K) :
    (makeInverseATA n A ata = none ↔ ∃ k < n, A.el k = 0) ∧
    ∀ x, makeInverseATA n A ata = some x →
      IsInv n (fun i j => ∑ k ∈ Finset.range n, (starRingEnd K) (diagMat A.el k i) * diagMat A.el k j) x ∧
      ∀ i j, ¬ (i < n ∧ j < n) → x i j = ata i j := by
  unfold makeInverseATA
  rw [invertSelf_spec]
  by_cases hs : ∃ k < n, A.el k = 0
  · rw [if_pos hs]
    exact ⟨by simpa using hs, fun x hx => by cases hx⟩
  · rw [if_neg hs, Option.map_some]
    refine ⟨by simpa using hs, fun x hx => ?_⟩
    have hx' := Option.some.inj hx
    have v : ∀ i j, i < n → j < n → x i j = diagMat (fun a => ((RCLike.normSq ((A.el a)⁻¹) : ℝ) : K)) i j := by
      intro i j hi hj
      rw [← hx']
      unfold diagMat
      dsimp only
      rw [if_pos (show i < n ∧ j < n from ⟨hi, hj⟩), if_pos hi]
    have w : ∀ i j, j < n → ∑ k ∈ Finset.range n, (starRingEnd K) (diagMat A.el k i) * diagMat A.el k j =
        diagMat (fun a => ((RCLike.normSq (A.el a) : ℝ) : K)) i j := by
      intro i j hj
      rw [sum_diag _ _ (fun i k => (starRingEnd K) (diagMat A.el k i)) _ _ hj]
      unfold diagMat
      by_cases e : i = j
      · subst e; simp [← RCLike.conj_mul, RCLike.normSq_eq_def']
      · simp [e, Ne.symm e]
    refine ⟨fun i j hi hj => ?_, fun i j h => by rw [← hx']; simp only [if_neg h]⟩
    have h1 : A.el i ≠ 0 := fun h => hs ⟨i, hi, h⟩
    have w1 : ∑ k ∈ Finset.range n, (∑ l ∈ Finset.range n, (starRingEnd K) (diagMat A.el l i) * diagMat A.el l k) * x k j =
        ((RCLike.normSq (A.el i) : ℝ) : K) * x i j := by
      rw [← diag_sum (fun a => ((RCLike.normSq (A.el a) : ℝ) : K)) n x i j hi]
      exact Finset.sum_congr rfl fun k hk => by rw [w i k (Finset.mem_range.mp hk)]
    have w2 : ∑ k ∈ Finset.range n, x i k * (∑ l ∈ Finset.range n, (starRingEnd K) (diagMat A.el l k) * diagMat A.el l j) =
        x i j * ((RCLike.normSq (A.el j) : ℝ) : K) := by
      rw [← sum_diag (fun a => ((RCLike.normSq (A.el a) : ℝ) : K)) n x i j hj]
      exact Finset.sum_congr rfl fun k hk => by rw [w k j hj]
    rw [w1, w2, v i j hi hj]
    unfold diagMat
    by_cases e : i = j
    · subst e
      simp [map_inv₀, h1]
    · simp [e]

/-- **C83** (violated): when the diagonal is that of `ata` itself, `makeInverseATA` throws `SingularDiagMatrix` for every matrix. -/
theorem makeInverseATA_violated (n : Nat) (hn : 0 < n) (ata : Nat → Nat → K) : makeInverseATASelf n ata = none := by
  unfold makeInverseATASelf
  rw [(makeInverseATA_inv n _ _).1]
  exact ⟨0, hn, by simp [DV.new, DV.el, cj, hn]⟩

/-! ### Determinant -/

/-- **C83** (`det`, `logDet`): the determinant is the product of the elements; the sign is zero exactly when an element is, otherwise it has
modulus one and `sign * exp(log)` is the determinant. -/
theorem det_spec (n : Nat) (A : DV K) :
    det n A = ∏ k ∈ Finset.range n, A.el k ∧
    ((logDet n A).2 = 0 ↔ ∃ k < n, A.el k = 0) ∧
    ((∀ k < n, A.el k ≠ 0) → ‖(logDet n A).2‖ = 1 ∧ (logDet n A).2 * ((Real.exp (logDet n A).1 : ℝ) : K) = ∏ k ∈ Finset.range n, A.el k) := by
  obtain ⟨h1, h2⟩ := LU.logDetLoop_spec A.d n 0 (0, 1)
  have z : (logDet n A).2 = 0 ↔ ∃ k < n, A.el k = 0 := by
    unfold logDet
    rw [cj_eq_zero, h1, ← el_zero]
    simp
  have p : (∀ k < n, A.el k ≠ 0) → (logDet n A).2 * ((Real.exp (logDet n A).1 : ℝ) : K) = ∏ k ∈ Finset.range n, A.el k := by
    intro hne
    have h3 := h2 (fun k hk => by rw [Nat.zero_add]; intro h; exact hne k hk (by rw [DV.el, h]; cases A.cj <;> simp [cj]))
    have h4 := congrArg (cj A.cj) h3
    have m : ∀ x y : K, cj A.cj (x * y) = cj A.cj x * cj A.cj y := by intro x y; cases A.cj <;> simp [cj]
    have q : ∀ r : ℝ, cj A.cj (r : K) = r := by intro r; cases A.cj <;> simp [cj]
    have pr : cj A.cj (∏ k ∈ Finset.range n, A.d k) = ∏ k ∈ Finset.range n, A.el k := by
      unfold DV.el
      cases A.cj
      · rfl
      · simp only [cj, if_true]; exact map_prod (starRingEnd K) _ _
    rw [m, q, m, m, q] at h4
    simp only [Nat.zero_add] at h4
    rw [pr] at h4
    unfold logDet
    refine h4.trans ?_
    cases A.cj <;> simp [cj]
  refine ⟨?_, z, fun hne => ⟨?_, p hne⟩⟩
  · unfold det
    dsimp only
    by_cases h : (logDet n A).2 = 0
    · rw [if_pos h]
      obtain ⟨k, hk, e⟩ := z.mp h
      exact (Finset.prod_eq_zero (Finset.mem_range.mpr hk) e).symm
    · rw [if_neg h]
      exact p fun k hk e => h (z.mpr ⟨k, hk, e⟩)
  · unfold logDet
    have h5 := LU.logDetLoop_norm A.d n 0 (0, 1) (fun k hk => by
      rw [Nat.zero_add]; intro h; exact hne k hk (by rw [DV.el, h]; cases A.cj <;> simp [cj]))
    cases A.cj <;> simpa [cj] using h5

/-- The hypotheses are met: a complex diagonal without zeros, and one with. -/
example : (∀ k < 2, (DV.new fun i : Nat => (i : ℂ) + 1).el k ≠ 0) := by
  intro k _ h
  simp only [DV.new, DV.el, cj] at h
  have := congrArg Complex.re h
  simp at this
  have h0 : (0:ℝ) ≤ k := Nat.cast_nonneg k
  linarith

end
end TMV.Diag
