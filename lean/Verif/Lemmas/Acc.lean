import Verif.Model.MatMatKern
import Verif.Lemmas.MatArith
import Mathlib.Algebra.BigOperators.Group.Finset.Basic
import Mathlib.Algebra.BigOperators.Ring.Finset
import Mathlib.Algebra.BigOperators.Intervals

/-! Accumulating loops: operations that only add something to memory cells. -/
namespace TMV
open Finset
variable {K : Type _}

/-- The memory cells are changed by adding `δ`. -/
def Mem.Adds [Add K] (m m' : Mem K) (δ : Int → K) : Prop := ∀ x, m' x = (m x).map (· + δ x)

/-- The cells `R` hold the values `val` and may only be read, the cells `W` are live and may be written. -/
structure Env (R W : Int → Prop) (val : Int → K) (m : Mem K) : Prop where
  rd : ∀ x, R x → m x = some (val x)
  wr : ∀ x, W x → (m x).isSome
  disj : ∀ x, R x → ¬ W x

/-- In every memory satisfying `Env`, `op` adds `δ`, which is zero outside `W`. -/
def Acc [Ring K] (R W : Int → Prop) (val : Int → K) (op : Mem K → Option (Mem K)) (δ : Int → K) : Prop :=
  (∀ x, ¬ W x → δ x = 0) ∧ ∀ m, Env R W val m → ∃ m', op m = some m' ∧ m.Adds m' δ

section
variable [Ring K] {R W : Int → Prop} {val : Int → K}

theorem Mem.Adds.zero {m : Mem K} : m.Adds m (fun _ => 0) := by
  intro x; cases h : m x <;> simp

theorem Mem.Adds.trans {m m1 m2 : Mem K} {δ ε : Int → K} (h : m.Adds m1 δ) (h' : m1.Adds m2 ε) :
    m.Adds m2 (fun x => δ x + ε x) := by
  intro x; rw [h' x, h x]; cases m x <;> simp [add_assoc]

theorem Env.after {m m' : Mem K} {δ : Int → K} (E : Env R W val m) (h : m.Adds m' δ)
    (h0 : ∀ x, ¬ W x → δ x = 0) : Env R W val m' := by
  refine ⟨fun x hx => ?_, fun x hx => ?_, E.disj⟩
  · rw [h x, E.rd x hx, h0 x (E.disj x hx)]; simp
  · rw [h x]; have := E.wr x hx; simpa using this

theorem Acc.nil : Acc R W val some (fun _ => 0) :=
  ⟨fun _ _ => rfl, fun m _ => ⟨m, rfl, Mem.Adds.zero⟩⟩

theorem Acc.seq {f g : Mem K → Option (Mem K)} {δ ε : Int → K} (h : Acc R W val f δ) (h' : Acc R W val g ε) :
    Acc R W val (fun m => (f m).bind g) (fun x => δ x + ε x) := by
  refine ⟨fun x hx => by show δ x + ε x = 0; rw [h.1 x hx, h'.1 x hx, add_zero], fun m E => ?_⟩
  obtain ⟨m1, e1, a1⟩ := h.2 m E
  obtain ⟨m2, e2, a2⟩ := h'.2 m1 (E.after a1 h.1)
  exact ⟨m2, by show (f m).bind g = _; rw [e1]; exact e2, a1.trans a2⟩

theorem Acc.congr {f g : Mem K → Option (Mem K)} {δ ε : Int → K} (h : Acc R W val f δ) (hf : ∀ m, f m = g m)
    (hd : ∀ x, δ x = ε x) : Acc R W val g ε := by
  have : f = g := funext hf
  have : δ = ε := funext hd
  subst_vars; exact h

/-- One statement `*p += v`. -/
theorem Acc.one (p : Int) (v : K) (hp : W p) :
    Acc R W val (fun m => m.modify p (· + v)) (fun x => if x = p then v else 0) := by
  refine ⟨fun x hx => if_neg (fun h : x = p => hx (by rw [h]; exact hp)), fun m E => ?_⟩
  obtain ⟨z, hz⟩ := Option.isSome_iff_exists.mp (E.wr p hp)
  refine ⟨fun x => if x = p then some (z + v) else m x, ?_, ?_⟩
  · simp [Mem.modify, Mem.read, Mem.write, hz]
  · intro x
    by_cases h : x = p
    · simp [h, hz]
    · simp [h]

/-- The statement `*p += f(*q)`. -/
theorem Acc.one' (q p : Int) (f : K → K) (hq : R q) (hp : W p) :
    Acc R W val (fun m => step2 (fun a c => c + f a) q p m) (fun x => if x = p then f (val q) else 0) := by
  obtain ⟨h1, h2⟩ := Acc.one (R := R) (val := val) p (f (val q)) hp
  refine ⟨h1, fun m E => ?_⟩
  obtain ⟨m', e, a⟩ := h2 m E
  refine ⟨m', ?_, a⟩
  rw [← e]
  simp [step2, Mem.read, Mem.modify, E.rd q hq]

/-- `δ` of a rectangle of cells. -/
def rect (p si sj : Int) (M N : Nat) (f : Nat → Nat → K) (x : Int) : K :=
  ∑ i ∈ range M, ∑ j ∈ range N, if x = p + i * si + j * sj then f i j else 0

theorem rect_congr {p si sj : Int} {M N : Nat} {f g : Nat → Nat → K} (h : ∀ i j, i < M → j < N → f i j = g i j)
    (x : Int) : rect p si sj M N f x = rect p si sj M N g x := by
  refine sum_congr rfl fun i hi => sum_congr rfl fun j hj => ?_
  rw [h i j (mem_range.mp hi) (mem_range.mp hj)]

theorem rect_add (p si sj : Int) (M N : Nat) (f g : Nat → Nat → K) (x : Int) :
    rect p si sj M N f x + rect p si sj M N g x = rect p si sj M N (fun i j => f i j + g i j) x := by
  unfold rect
  rw [← sum_add_distrib]
  refine sum_congr rfl fun i _ => ?_
  rw [← sum_add_distrib]
  refine sum_congr rfl fun j _ => ?_
  split <;> simp

theorem rect_rows (p si sj : Int) (M1 M2 N : Nat) (f : Nat → Nat → K) (x : Int) :
    rect p si sj M1 N f x + rect (p + M1 * si) si sj M2 N (fun i j => f (M1 + i) j) x =
      rect p si sj (M1 + M2) N f x := by
  unfold rect
  rw [sum_range_add]
  congr 1
  refine sum_congr rfl fun i _ => sum_congr rfl fun j _ => ?_
  have : p + M1 * si + i * si + j * sj = p + ((M1 + i : Nat) : Int) * si + j * sj := by push_cast; ring
  rw [this]

theorem rect_cols (p si sj : Int) (M N1 N2 : Nat) (f : Nat → Nat → K) (x : Int) :
    rect p si sj M N1 f x + rect (p + N1 * sj) si sj M N2 (fun i j => f i (N1 + j)) x =
      rect p si sj M (N1 + N2) f x := by
  unfold rect
  rw [← sum_add_distrib]
  refine sum_congr rfl fun i _ => ?_
  rw [sum_range_add]
  congr 1
  refine sum_congr rfl fun j _ => ?_
  have : p + N1 * sj + i * si + j * sj = p + i * si + ((N1 + j : Nat) : Int) * sj := by push_cast; ring
  rw [this]

theorem rect_zero (p si sj : Int) (M N : Nat) (f : Nat → Nat → K) (x : Int)
    (h : ∀ i j : Nat, i < M → j < N → x ≠ p + i * si + j * sj) : rect p si sj M N f x = 0 := by
  refine sum_eq_zero fun i hi => sum_eq_zero fun j hj => ?_
  rw [if_neg (h i j (mem_range.mp hi) (mem_range.mp hj))]

/-- At the address of an element of a matrix with distinct addresses, `δ` is the entry of that element. -/
theorem rect_at (M : MView) (hI : M.Inj) (f : Nat → Nat → K) (i j : Nat) (hi : i < M.cs) (hj : j < M.rs) :
    rect M.ptr M.si M.sj M.cs M.rs f (M.addr i j) = f i j := by
  unfold rect
  rw [sum_eq_single i, sum_eq_single j]
  · exact if_pos rfl
  · intro j' hj' hne
    refine if_neg fun h => hne ?_
    exact (hI i j i j' hi hj hi (mem_range.mp hj') h).2.symm
  · intro h; exact absurd (mem_range.mpr hj) h
  · intro i' hi' hne
    refine sum_eq_zero fun j' hj' => if_neg fun h => hne ?_
    exact (hI i j i' j' hi hj (mem_range.mp hi') (mem_range.mp hj') h).1.symm
  · intro h; exact absurd (mem_range.mpr hi) h

/-- The values after an accumulation. -/
theorem Mem.Adds.holds [StarRing K] {M : MView} (hI : M.Inj) (hc : M.conj = false) {m m' : Mem K} {c f : Nat → Nat → K}
    (h : m.Adds m' (rect M.ptr M.si M.sj M.cs M.rs f)) (hC : M.Holds m c) :
    M.Becomes m m' (fun i j => c i j + f i j) := by
  refine ⟨MView.Holds.of_raw fun i j hi hj => ?_, fun a ha => ?_⟩
  · rw [h, rect_at M hI f i j hi hj, hC.rawA i j hi hj, hc]; rfl
  · rw [h, rect_zero]
    · cases m a <;> simp
    · intro i j hi hj e
      exact ha ⟨i, j, hi, hj, e⟩

end
end TMV
