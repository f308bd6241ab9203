import Mathlib.Logic.Function.Basic

/-! Loops whose body cannot fail. -/
namespace TMV

/-- `for(i=lo; i<lo+n; ++i) s = f(i,s)`. -/
def up {S : Type _} (f : Nat → S → S) : Nat → Nat → S → S
  | 0, _, s => s
  | n+1, lo, s => up f n (lo+1) (f lo s)

/-- `for(i=n-1; i>=0; --i) s = f(i,s)`. -/
def down {S : Type _} (f : Nat → S → S) : Nat → S → S
  | 0, s => s
  | n+1, s => down f n (f n s)

/-- Loop rule for `up`. -/
theorem up_inv {S : Type _} (f : Nat → S → S) (I : Nat → S → Prop) : ∀ (n lo : Nat) (s : S), I lo s →
    (∀ i s, lo ≤ i → i < lo + n → I i s → I (i+1) (f i s)) → I (lo + n) (up f n lo s) := by
  intro n
  induction n with
  | zero => intro lo s h _; exact h
  | succ n ih =>
    intro lo s h hb
    rw [show lo + (n+1) = lo + 1 + n by omega]
    exact ih (lo+1) _ (hb lo s (Nat.le_refl _) (by omega) h) (fun i s h1 h2 h3 => hb i s (by omega) (by omega) h3)

/-- Loop rule for `down`: `I k` holds when the indices `≥ k` are done. -/
theorem down_inv {S : Type _} (f : Nat → S → S) (I : Nat → S → Prop) : ∀ (n : Nat) (s : S), I n s →
    (∀ i s, i < n → I (i+1) s → I i (f i s)) → I 0 (down f n s) := by
  intro n
  induction n with
  | zero => intro s h _; exact h
  | succ n ih =>
    intro s h hb
    exact ih _ (hb n s (by omega) h) (fun i s h1 h3 => hb i s (by omega) h3)

end TMV
