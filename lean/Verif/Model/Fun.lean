import Mathlib.Logic.Function.Basic

/-! Loops and element-indexed arrays for the exact-arithmetic layer.  A matrix is its element function
`Nat → Nat → R` (row, column); storage order and strides are the business of the memory layer. -/
namespace TMV

/-- `for(i=lo; i<lo+n; ++i) s = body(i,s)`; `none` = the body failed (exception, undefined). -/
def forRange {S : Type _} (body : Nat → S → Option S) : Nat → Nat → S → Option S
  | 0, _, s => some s
  | n+1, lo, s => (body lo s).bind fun s => forRange body n (lo+1) s

/-- `for(i=n-1; i>=0; --i) s = body(i,s)`. -/
def forDown {S : Type _} (body : Nat → S → Option S) : Nat → S → Option S
  | 0, s => some s
  | n+1, s => (body n s).bind fun s => forDown body n s

/-- `A.ref(i,j) = x`. -/
def setE {R : Type _} (A : Nat → Nat → R) (i j : Nat) (x : R) : Nat → Nat → R :=
  fun a b => if a = i ∧ b = j then x else A a b

/-- Loop rule: an invariant kept by every iteration holds at the end. -/
theorem forRange_inv {S : Type _} (body : Nat → S → Option S) (I : Nat → S → Prop) :
    ∀ (n lo : Nat) (s : S), I lo s →
      (∀ i s, lo ≤ i → i < lo + n → I i s → ∃ s', body i s = some s' ∧ I (i+1) s') →
      ∃ s', forRange body n lo s = some s' ∧ I (lo + n) s' := by
  intro n
  induction n with
  | zero => intro lo s h _; exact ⟨s, rfl, h⟩
  | succ n ih =>
    intro lo s h hb
    obtain ⟨s1, a, b⟩ := hb lo s (Nat.le_refl _) (by omega) h
    obtain ⟨s2, c, d⟩ := ih (lo+1) s1 b (fun i s h1 h2 h3 => hb i s (by omega) (by omega) h3)
    exact ⟨s2, by simp [forRange, a, c], by rwa [show lo + (n+1) = lo + 1 + n by omega]⟩

/-- Loop rule for a loop running down: `I k` is the invariant with `k` iterations left. -/
theorem forDown_inv {S : Type _} (body : Nat → S → Option S) (I : Nat → S → Prop) :
    ∀ (n : Nat) (s : S), I n s →
      (∀ i s, i < n → I (i+1) s → ∃ s', body i s = some s' ∧ I i s') →
      ∃ s', forDown body n s = some s' ∧ I 0 s' := by
  intro n
  induction n with
  | zero => intro s h _; exact ⟨s, rfl, h⟩
  | succ n ih =>
    intro s h hb
    obtain ⟨s1, a, b⟩ := hb n s (by omega) h
    obtain ⟨s2, c, d⟩ := ih s1 b (fun i s h1 h3 => hb i s (by omega) h3)
    exact ⟨s2, by simp [forDown, a, c], d⟩

@[simp] theorem setE_self {R : Type _} (A : Nat → Nat → R) (i j : Nat) (x : R) : setE A i j x i j = x := by
  simp [setE]

theorem setE_ne {R : Type _} (A : Nat → Nat → R) (i j : Nat) (x : R) {a b : Nat} (h : ¬ (a = i ∧ b = j)) :
    setE A i j x a b = A a b := by
  simp [setE, h]

/-- In-place elementwise update of the block `[r0,r0+nr) × [c0,c0+nc)`, columns outside
(`for j … for i … A.ref(i,j) = f(A,i,j)`), where the new element is computed from the current array. -/
def updBlock {R : Type _} (f : (Nat → Nat → R) → Nat → Nat → Option R) (r0 nr c0 nc : Nat)
    (A : Nat → Nat → R) : Option (Nat → Nat → R) :=
  forRange (fun j A => forRange (fun i A => (f A i j).map (setE A i j)) nr r0 A) nc c0 A

/-- If `f A i j` only looks at `A i j` and at elements outside the block, the in-place update is
simultaneous. -/
theorem updBlock_spec {R : Type _} (f : (Nat → Nat → R) → Nat → Nat → Option R) (r0 nr c0 nc : Nat)
    (A : Nat → Nat → R) (g : Nat → Nat → R)
    (hf : ∀ B i j, r0 ≤ i → i < r0 + nr → c0 ≤ j → j < c0 + nc → B i j = A i j →
      (∀ a b, ¬ (r0 ≤ a ∧ a < r0 + nr ∧ c0 ≤ b ∧ b < c0 + nc) → B a b = A a b) → f B i j = some (g i j)) :
    updBlock f r0 nr c0 nc A = some (fun a b =>
      if r0 ≤ a ∧ a < r0 + nr ∧ c0 ≤ b ∧ b < c0 + nc then g a b else A a b) := by
  obtain ⟨B, h1, h2⟩ := forRange_inv
    (fun j A => forRange (fun i A => (f A i j).map (setE A i j)) nr r0 A)
    (fun j B => ∀ a b, B a b = if r0 ≤ a ∧ a < r0 + nr ∧ c0 ≤ b ∧ b < j then g a b else A a b) nc c0 A
    (by intro a b; rw [if_neg (by omega)])
    (by
      intro j B hj1 hj2 hB
      obtain ⟨C, c1, c2⟩ := forRange_inv (fun i A => (f A i j).map (setE A i j))
        (fun i C => ∀ a b, C a b = if (r0 ≤ a ∧ a < r0 + nr ∧ c0 ≤ b ∧ b < j) ∨ (r0 ≤ a ∧ a < i ∧ b = j)
          then g a b else A a b) nr r0 B
        (by
          intro a b
          rw [hB a b]
          by_cases h : r0 ≤ a ∧ a < r0 + nr ∧ c0 ≤ b ∧ b < j
          · rw [if_pos h, if_pos (Or.inl h)]
          · rw [if_neg h, if_neg (by rintro (h' | h'); exact h h'; omega)])
        (by
          intro i C hi1 hi2 hC
          have hfi := hf C i j hi1 hi2 hj1 hj2
            (by rw [hC]; rw [if_neg (by omega)])
            (by intro a b hab; rw [hC]; rw [if_neg (by rintro (h' | h') <;> omega)])
          refine ⟨_, by rw [hfi, Option.map_some], ?_⟩
          intro a b
          by_cases hab : a = i ∧ b = j
          · obtain ⟨rfl, rfl⟩ := hab
            rw [setE_self, if_pos (by omega)]
          · rw [setE_ne _ _ _ _ hab, hC a b]
            by_cases h : (r0 ≤ a ∧ a < r0 + nr ∧ c0 ≤ b ∧ b < j) ∨ (r0 ≤ a ∧ a < i ∧ b = j)
            · rw [if_pos h, if_pos (by omega)]
            · rw [if_neg h, if_neg (by omega)])
      refine ⟨C, c1, ?_⟩
      intro a b
      rw [c2 a b]
      by_cases h : r0 ≤ a ∧ a < r0 + nr ∧ c0 ≤ b ∧ b < j + 1
      · rw [if_pos h, if_pos (by omega)]
      · rw [if_neg h, if_neg (by omega)])
  rw [updBlock, h1]
  congr 1
  funext a b
  exact h2 a b

end TMV
