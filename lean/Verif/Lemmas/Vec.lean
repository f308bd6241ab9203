import Verif.Model.Vec
import Verif.Spec.Vec
import Mathlib.Tactic.Ring
import Mathlib.Tactic.Linarith
import Mathlib.Algebra.BigOperators.Group.Finset.Basic
import Mathlib.Algebra.Order.Group.Unbundled.Int
import Mathlib.Algebra.BigOperators.Ring.Finset
import Mathlib.Algebra.Star.BigOperators

/-! Helper lemmas about the memory loops. -/
namespace TMV
variable {K : Type _}

theorem Mem.write_of_isSome {m : Mem K} {a : Int} (x : K) (h : (m a).isSome) :
    m.write a x = some (fun b => if b = a then some x else m b) := by
  obtain ⟨y, hy⟩ := Option.isSome_iff_exists.mp h
  simp [Mem.write, hy]

theorem Mem.modify_of_isSome {m : Mem K} {a : Int} (f : K → K) (h : (m a).isSome) :
    m.modify a f = some (fun b => if b = a then (m a).map f else m b) := by
  obtain ⟨y, hy⟩ := Option.isSome_iff_exists.mp h
  simp [Mem.modify, Mem.read, Mem.write, hy]

theorem Mem.swap_of_isSome {m : Mem K} {a b : Int} (ha : (m a).isSome) (hb : (m b).isSome) :
    m.swap a b = some (fun c => if c = b then m a else if c = a then m b else m c) := by
  obtain ⟨x, hx⟩ := Option.isSome_iff_exists.mp ha
  obtain ⟨y, hy⟩ := Option.isSome_iff_exists.mp hb
  by_cases hab : a = b
  · subst hab
    simp only [Mem.swap, Mem.read, Mem.write, hx, Option.bind_eq_bind, Option.bind_some, if_true]
  · simp only [Mem.swap, Mem.read, Mem.write, hx, hy, Option.bind_eq_bind, Option.bind_some]
    rw [if_neg (Ne.symm hab)]

theorem loopMod_spec (f : K → K) (s : Int) :
    ∀ (n : Nat) (p : Int) (m : Mem K), (s ≠ 0 ∨ n ≤ 1) →
      (∀ i : Nat, i < n → (m (p + i * s)).isSome) →
      ∃ m', loopMod f s n p m = some m' ∧
        (∀ i : Nat, i < n → m' (p + i * s) = (m (p + i * s)).map f) ∧
        (∀ a, (∀ i : Nat, i < n → a ≠ p + i * s) → m' a = m a) := by
  intro n
  induction n with
  | zero => intro p m _ _; exact ⟨m, rfl, by intro i hi; omega, fun _ _ => rfl⟩
  | succ n ih =>
    intro p m hs hal
    have h0 : (m p).isSome := by simpa using hal 0 (by omega)
    have hne : ∀ i : Nat, i < n → p + s + i * s ≠ p := by
      intro i hi h
      rcases hs with hs | hs
      · have : ((i : Int) + 1) * s = 0 := by linarith [h]
        rcases mul_eq_zero.mp this with h | h
        · omega
        · exact hs h
      · omega
    obtain ⟨m', hm', hv, hf⟩ := ih (p + s) (fun b => if b = p then (m p).map f else m b)
      (by rcases hs with hs | hs; exact Or.inl hs; right; omega)
      (by
        intro i hi
        rw [if_neg (hne i hi)]
        have := hal (i+1) (by omega)
        have e : p + ((i + 1 : Nat) : Int) * s = p + s + i * s := by push_cast; ring
        rwa [e] at this)
    refine ⟨m', ?_, ?_, ?_⟩
    · simp only [loopMod, Mem.modify_of_isSome f h0, Option.bind_eq_bind, Option.bind_some]
      exact hm'
    · intro i hi
      cases i with
      | zero =>
        have := hf p (fun i hi h => hne i hi h.symm)
        simp [this]
      | succ i =>
        have e : p + ((i + 1 : Nat) : Int) * s = p + s + i * s := by push_cast; ring
        rw [e, hv i (by omega), if_neg (hne i (by omega))]
    · intro a ha
      have hap : a ≠ p := by simpa using ha 0 (by omega)
      rw [hf a, if_neg hap]
      intro i hi
      have := ha (i+1) (by omega)
      have e : p + ((i + 1 : Nat) : Int) * s = p + s + i * s := by push_cast; ring
      rwa [e] at this

theorem loopFill_eq_loopMod (x : K) (s : Int) :
    ∀ (n : Nat) (p : Int) (m : Mem K), (s ≠ 0 ∨ n ≤ 1) →
      (∀ i : Nat, i < n → (m (p + i * s)).isSome) →
      loopFill x s n p m = loopMod (fun _ => x) s n p m := by
  intro n
  induction n with
  | zero => intros; rfl
  | succ n ih =>
    intro p m hs hal
    have h0 : (m p).isSome := by simpa using hal 0 (by omega)
    simp only [loopFill, loopMod, Mem.modify_of_isSome _ h0, Mem.write_of_isSome _ h0,
      Option.bind_eq_bind, Option.bind_some]
    obtain ⟨y, hy⟩ := Option.isSome_iff_exists.mp h0
    have hfun : (fun b => if b = p then some x else m b) =
        (fun b => if b = p then (m p).map (fun _ => x) else m b) := by
      funext b; simp [hy]
    rw [hfun]
    apply ih
    · rcases hs with hs | hs
      · exact Or.inl hs
      · right; omega
    · intro i hi
      have := hal (i+1) (by omega)
      have e : p + ((i + 1 : Nat) : Int) * s = p + s + i * s := by push_cast; ring
      rw [e] at this
      split
      · simp [hy]
      · exact this

theorem loopFold_spec {β : Type _} (g : β → K → β) (s : Int) :
    ∀ (n : Nat) (p : Int) (m : Mem K) (b : β) (x : Nat → K),
      (∀ i : Nat, i < n → m (p + i * s) = some (x i)) →
      loopFold g s n p m b = some ((List.range n).foldl (fun b i => g b (x i)) b) := by
  intro n
  induction n with
  | zero => intros; rfl
  | succ n ih =>
    intro p m b x hx
    have h0 : m p = some (x 0) := by simpa using hx 0 (by omega)
    simp only [loopFold, Mem.read, h0, Option.bind_eq_bind, Option.bind_some]
    rw [ih (p + s) m (g b (x 0)) (fun i => x (i+1))]
    · rw [List.range_succ_eq_map, List.foldl_cons, List.foldl_map]
    · intro i hi
      have := hx (i+1) (by omega)
      have e : p + ((i + 1 : Nat) : Int) * s = p + s + i * s := by push_cast; ring
      rwa [e] at this

theorem foldl_range_sum {R : Type _} [AddCommMonoid R] (x : Nat → R) (n : Nat) (b : R) :
    (List.range n).foldl (fun b i => b + x i) b = b + ∑ i ∈ Finset.range n, x i := by
  induction n with
  | zero => simp
  | succ n ih => rw [List.range_succ, List.foldl_append, ih, Finset.sum_range_succ]; simp [add_assoc]

/-! ### Views -/

theorem VView.reverse_addr (v : VView) (i : Nat) (hi : i < v.size) :
    v.reverse.addr i = v.addr ((v.size - 1 - i : Nat) : Int) := by
  simp only [VView.reverse, VView.addr]
  have : ((v.size - 1 - i : Nat) : Int) = v.size - 1 - i := by omega
  rw [this]; ring

theorem VView.reverse_covers (v : VView) (a : Int) : v.reverse.Covers a ↔ v.Covers a := by
  constructor
  · rintro ⟨i, hi, rfl⟩
    exact ⟨v.size - 1 - i, by simp [VView.reverse] at hi; omega, v.reverse_addr i hi⟩
  · rintro ⟨i, hi, rfl⟩
    refine ⟨v.size - 1 - i, by simp [VView.reverse]; omega, ?_⟩
    rw [v.reverse_addr _ (by omega)]
    congr 1; omega

theorem VView.Live.reverse {v : VView} {m : Mem K} (h : v.Live m) : v.reverse.Live m := by
  intro i hi
  rw [v.reverse_addr i hi]
  exact h _ (by simp [VView.reverse] at hi; omega)

theorem VView.Inj.reverse {v : VView} (h : v.Inj) : v.reverse.Inj := by
  simpa [VView.Inj, VView.reverse] using h

theorem VView.Inj.addr_inj {v : VView} (h : v.Inj) {i j : Nat} (hi : i < v.size) (hj : j < v.size)
    (e : v.addr i = v.addr j) : i = j := by
  rcases h with h | h
  · have : ((i : Int) - j) * v.step = 0 := by simp only [VView.addr] at e; linarith
    rcases mul_eq_zero.mp this with h' | h'
    · omega
    · exact absurd h' h
  · omega

/-- `m'` results from `m` by applying `f` to each stored element of `v`. -/
def VView.Mapped (v : VView) (f : K → K) (m m' : Mem K) : Prop :=
  (∀ i : Nat, i < v.size → m' (v.addr i) = (m (v.addr i)).map f) ∧ v.Frame m m'

theorem VView.Mapped.of_reverse {v : VView} {f : K → K} {m m' : Mem K}
    (h : v.reverse.Mapped f m m') : v.Mapped f m m' := by
  refine ⟨?_, ?_⟩
  · intro i hi
    have h1 : v.reverse.addr ((v.size - 1 - i : Nat) : Int) = v.addr i := by
      rw [v.reverse_addr _ (by omega)]
      congr 1; omega
    have := h.1 (v.size - 1 - i) (by simp [VView.reverse]; omega)
    rwa [h1] at this
  · intro a ha; exact h.2 a (by rwa [v.reverse_covers])

theorem VView.mapped_loopMod (v : VView) (f : K → K) (m : Mem K) (hi : v.Inj) (hl : v.Live m) :
    ∃ m', loopMod f v.step v.size v.ptr m = some m' ∧ v.Mapped f m m' := by
  obtain ⟨m', h1, h2, h3⟩ := loopMod_spec f v.step v.size v.ptr m hi hl
  refine ⟨m', h1, h2, ?_⟩
  intro a ha
  exact h3 a (fun i hi h => ha ⟨i, hi, h⟩)

/-- A size-one modification is the step-zero branch of the code. -/
theorem VView.mapped_modify (v : VView) (f : K → K) (m : Mem K) (h1 : v.size = 1) (hl : v.Live m) :
    ∃ m', m.modify v.ptr f = some m' ∧ v.Mapped f m m' := by
  have h0 : (m v.ptr).isSome := by simpa [VView.addr] using hl 0 (by omega)
  refine ⟨_, Mem.modify_of_isSome f h0, ?_, ?_⟩
  · intro i hi
    have : i = 0 := by omega
    subst this; simp [VView.addr]
  · intro a ha
    have : a ≠ v.ptr := fun h => ha ⟨0, by omega, by simp [VView.addr, h]⟩
    simp [this]

theorem VView.mapped_loopFill (v : VView) (x : K) (m : Mem K) (hi : v.Inj) (hl : v.Live m) :
    ∃ m', loopFill x v.step v.size v.ptr m = some m' ∧ v.Mapped (fun _ => x) m m' := by
  rw [loopFill_eq_loopMod x _ _ _ _ hi hl]
  exact v.mapped_loopMod _ m hi hl

theorem VView.mapped_write (v : VView) (x : K) (m : Mem K) (h1 : v.size = 1) (hl : v.Live m) :
    ∃ m', m.write v.ptr x = some m' ∧ v.Mapped (fun _ => x) m m' := by
  have h0 : (m v.ptr).isSome := by simpa [VView.addr] using hl 0 (by omega)
  obtain ⟨y, hy⟩ := Option.isSome_iff_exists.mp h0
  obtain ⟨m', hm', hmap⟩ := v.mapped_modify (fun _ => x) m h1 hl
  refine ⟨m', ?_, hmap⟩
  rw [← hm']
  simp [Mem.modify, Mem.read, hy]

end TMV
