import Verif.Model.VecArith
import Verif.Props.VecTwo

/-! Helper lemmas for vector arithmetic (properties C41, C69). -/
namespace TMV
variable {K : Type _}

private theorem stepEq (p s : Int) (i : Nat) : p + ((i + 1 : Nat) : Int) * s = p + s + i * s := by
  push_cast; ring

theorem step2_of {f : K → K → K} {p1 p2 : Int} {m : Mem K} {x y : K} (h1 : m p1 = some x)
    (h2 : m p2 = some y) : step2 f p1 p2 m = some (fun b => if b = p2 then some (f x y) else m b) := by
  simp only [step2, Mem.read, h1, h2, Option.bind_some]
  exact Mem.write_of_isSome _ (by rw [h2]; rfl)

/-- The loop never reads an element of the first vector that it has already overwritten. -/
def AheadP (n : Nat) (p1 s1 p2 s2 : Int) : Prop :=
  ∀ i j : Nat, i < j → j < n → p1 + j * s1 ≠ p2 + i * s2

theorem loop2_spec (f : K → K → K) (s1 s2 : Int) :
    ∀ (n : Nat) (p1 p2 : Int) (m : Mem K), (s2 ≠ 0 ∨ n ≤ 1) → AheadP n p1 s1 p2 s2 →
      (∀ i : Nat, i < n → (m (p1 + i * s1)).isSome) →
      (∀ i : Nat, i < n → (m (p2 + i * s2)).isSome) →
      ∃ m', loop2 f s1 s2 n p1 p2 m = some m' ∧
        (∀ i : Nat, i < n → ∀ x y, m (p1 + i * s1) = some x → m (p2 + i * s2) = some y →
          m' (p2 + i * s2) = some (f x y)) ∧
        (∀ a, (∀ i : Nat, i < n → a ≠ p2 + i * s2) → m' a = m a) := by
  intro n
  induction n with
  | zero => intro p1 p2 m _ _ _ _; exact ⟨m, rfl, by intro i hi; omega, fun _ _ => rfl⟩
  | succ n ih =>
    intro p1 p2 m hs hA hl1 hl2
    obtain ⟨x0, hx⟩ := Option.isSome_iff_exists.mp (by simpa using hl1 0 (by omega))
    obtain ⟨y0, hy⟩ := Option.isSome_iff_exists.mp (by simpa using hl2 0 (by omega))
    have e2 : ∀ i : Nat, i < n → p2 + s2 + i * s2 ≠ p2 := by
      intro i hi h
      rcases hs with hs | hs
      · have : ((i : Int) + 1) * s2 = 0 := by linarith [h]
        rcases mul_eq_zero.mp this with h | h
        · omega
        · exact hs h
      · omega
    have e1 : ∀ i : Nat, i < n → p1 + s1 + i * s1 ≠ p2 := by
      intro i hi
      have := hA 0 (i+1) (by omega) (by omega)
      rw [stepEq] at this; simpa using this
    obtain ⟨m', a, b, c⟩ := ih (p1 + s1) (p2 + s2) (fun b => if b = p2 then some (f x0 y0) else m b)
      (by rcases hs with h | h; exact Or.inl h; right; omega)
      (by
        intro i j hij hj
        have := hA (i+1) (j+1) (by omega) (by omega)
        rwa [stepEq, stepEq] at this)
      (by
        intro i hi
        have := hl1 (i+1) (by omega); rw [stepEq] at this
        simpa [e1 i hi] using this)
      (by
        intro i hi
        have := hl2 (i+1) (by omega); rw [stepEq] at this
        simpa [e2 i hi] using this)
    refine ⟨m', by simp only [loop2, step2_of hx hy, Option.bind_some]; exact a, ?_, ?_⟩
    · intro i hi x y h1 h2
      cases i with
      | zero =>
        have q1 : x0 = x := by simpa [hx] using h1
        have q2 : y0 = y := by simpa [hy] using h2
        subst q1; subst q2
        have := c p2 (fun i hi => (e2 i hi).symm)
        simpa using this
      | succ i =>
        rw [stepEq] at h1 h2 ⊢
        exact b i (by omega) x y (by simpa [e1 i (by omega)] using h1) (by simpa [e2 i (by omega)] using h2)
    · intro z hz
      rw [c z]
      · have a2 : z ≠ p2 := by simpa using hz 0 (by omega)
        simp [a2]
      · intro i hi; have := hz (i+1) (by omega); rwa [stepEq] at this

theorem loop2_add (f : K → K → K) (s1 s2 : Int) : ∀ (a b : Nat) (p1 p2 : Int) (m : Mem K),
    loop2 f s1 s2 (a + b) p1 p2 m =
      (loop2 f s1 s2 a p1 p2 m).bind fun m => loop2 f s1 s2 b (p1 + a * s1) (p2 + a * s2) m := by
  intro a
  induction a with
  | zero => intro b p1 p2 m; simp [loop2]
  | succ a ih =>
    intro b p1 p2 m
    rw [show a + 1 + b = (a + b) + 1 by omega]
    simp only [loop2]
    cases h : step2 f p1 p2 m with
    | none => rfl
    | some m1 =>
      simp only [Option.bind_some]
      rw [ih, stepEq, stepEq]

theorem loop2x4_eq (f : K → K → K) : ∀ (n : Nat) (p1 p2 : Int) (m : Mem K),
    loop2x4 f n p1 p2 m = loop2 f 1 1 (4 * n) p1 p2 m := by
  intro n
  induction n with
  | zero => intro p1 p2 m; rfl
  | succ n ih =>
    intro p1 p2 m
    rw [show 4 * (n + 1) = 4 * n + 1 + 1 + 1 + 1 by omega]
    simp only [loop2x4, loop2, ih]
    simp only [show ∀ p : Int, p + 1 + 1 = p + 2 by intro p; ring, show ∀ p : Int, p + 2 + 1 = p + 3 by intro p; ring,
      show ∀ p : Int, p + 3 + 1 = p + 4 by intro p; ring]

theorem unit2_eq (f : K → K → K) (N : Nat) (p1 p2 : Int) (m : Mem K) :
    unit2 f N p1 p2 m = loop2 f 1 1 N p1 p2 m := by
  have h1 : ∀ n p1 p2, (if n ≠ 0 then loop2x4 f n p1 p2 m else some m) = loop2x4 f n p1 p2 m := by
    intro n p1 p2
    by_cases h : n = 0
    · subst h; rfl
    · rw [if_pos h]
  have h2 : ∀ n p1 p2 (m : Mem K), (if n ≠ 0 then loop2 f 1 1 n p1 p2 m else some m) = loop2 f 1 1 n p1 p2 m := by
    intro n p1 p2 m
    by_cases h : n = 0
    · subst h; rfl
    · rw [if_pos h]
  dsimp only [unit2]
  rw [h1, loop2x4_eq]
  simp only [h2]
  conv_rhs => rw [show N = 4 * (N / 4) + (N - 4 * (N / 4)) by omega, loop2_add]
  congr 1; funext m
  push_cast
  simp only [mul_one]

theorem loopMod_add (f : K → K) (s : Int) : ∀ (a b : Nat) (p : Int) (m : Mem K),
    loopMod f s (a + b) p m = (loopMod f s a p m).bind fun m => loopMod f s b (p + a * s) m := by
  intro a
  induction a with
  | zero => intro b p m; simp [loopMod]
  | succ a ih =>
    intro b p m
    rw [show a + 1 + b = (a + b) + 1 by omega]
    simp only [loopMod]
    cases h : m.modify p f with
    | none => rfl
    | some m1 =>
      simp only [Option.bind_eq_bind, Option.bind_some]
      rw [ih, stepEq]

theorem loopMod4_eq (f : K → K) : ∀ (n : Nat) (p : Int) (m : Mem K),
    loopMod4 f n p m = loopMod f 1 (4 * n) p m := by
  intro n
  induction n with
  | zero => intro p m; rfl
  | succ n ih =>
    intro p m
    rw [show 4 * (n + 1) = 4 * n + 1 + 1 + 1 + 1 by omega]
    simp only [loopMod4, loopMod, ih, Option.bind_eq_bind]
    simp only [show ∀ p : Int, p + 1 + 1 = p + 2 by intro p; ring, show ∀ p : Int, p + 2 + 1 = p + 3 by intro p; ring,
      show ∀ p : Int, p + 3 + 1 = p + 4 by intro p; ring]

theorem doMulX_eq [Mul K] (x : K) (v : VView) (m : Mem K) :
    VView.doMulX x v m = loopMod (· * x) v.step v.size v.ptr m := by
  by_cases h : v.step = 1
  · dsimp only [VView.doMulX]
    rw [if_pos h, h]
    have h1 : ∀ n p, (if n ≠ 0 then loopMod4 (· * x) n p m else some m) = loopMod4 (· * x) n p m := by
      intro n p
      by_cases h : n = 0
      · subst h; rfl
      · rw [if_pos h]
    have h2 : ∀ n p (m : Mem K), (if n ≠ 0 then loopMod (· * x) 1 n p m else some m) = loopMod (· * x) 1 n p m := by
      intro n p m
      by_cases h : n = 0
      · subst h; rfl
      · rw [if_pos h]
    rw [h1, loopMod4_eq]
    simp only [h2]
    conv_rhs => rw [show v.size = 4 * (v.size / 4) + (v.size - 4 * (v.size / 4)) by omega, loopMod_add]
    congr 1; funext m
    push_cast
    simp only [mul_one]
  · dsimp only [VView.doMulX]; rw [if_neg h]

end TMV
