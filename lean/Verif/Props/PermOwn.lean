import Verif.Model.PermHeap
import Mathlib.Tactic.Ring
import Mathlib.Logic.Equiv.Basic

/-! C25: ownership of `Permutation` memory. -/
namespace TMV.PermHeap

/-- No other object refers to the memory owned by `o`. -/
def Exclusive (s : St) (o : Nat) : Prop :=
  ∀ x b, s.objs o = some x → x.mem = some b → ∀ o' y, o' ≠ o → s.objs o' = some y → y.ptr ≠ some b

/-- The borrowing discipline under which the class is safe: variables are live (or fresh for
constructors), an object whose memory is written or freed is not aliased by another object, an object is not
assigned to itself, and `read` is not used on a non-owning object of the same or larger size. -/
def Pre (s : St) : Op → Prop
  | .ident o _ => s.objs o = none
  | .ext _ => True
  | .ofExt o b n _ => s.objs o = none ∧ ∃ l, s.heap b = some l ∧ n ≤ l.length
  | .copy o src => s.objs o = none ∧ (s.objs src).isSome
  | .inverse o src => s.objs o = none ∧ (s.objs src).isSome
  | .assign o src => o ≠ src ∧ (s.objs o).isSome ∧ (s.objs src).isSome ∧ Exclusive s o
  | .transposeSelf o => (s.objs o).isSome
  | .setToIdentity o => (s.objs o).isSome ∧ Exclusive s o
  | .resize o n => ∃ x, s.objs o = some x ∧ (n ≤ x.n ∨ Exclusive s o)
  | .decomp o _ _ => (s.objs o).isSome ∧ Exclusive s o
  | .read o l _ => ∃ x, s.objs o = some x ∧ Exclusive s o ∧ (x.mem ≠ none ∨ l.length > x.n ∨ l = [])
  | .swap o1 o2 => ∃ x y, s.objs o1 = some x ∧ s.objs o2 = some y ∧ x.n = y.n
  | .destroy o => (s.objs o).isSome ∧ Exclusive s o

/-- The variables an operation is supposed to change. -/
def Op.targets : Op → List Nat
  | .ident o _ => [o] | .ext _ => [] | .ofExt o _ _ _ => [o] | .copy o _ => [o] | .inverse o _ => [o]
  | .assign o _ => [o] | .transposeSelf o => [o] | .setToIdentity o => [o] | .resize o _ => [o]
  | .decomp o _ _ => [o] | .read o _ _ => [o] | .swap o1 o2 => [o1, o2] | .destroy o => [o]

/-- What the operation is documented to do to its target. -/
def Effect (s s' : St) : Op → Prop
  | .ident o n => value s' o = some (List.range n, false)
  | .ext _ => True
  | .ofExt o b n inv => ∀ l : List Nat, s.heap b = some (l.map some) → value s' o = some (l.take n, inv)
  | .copy o src => value s' o = value s src
  | .inverse o src => value s' o = (value s src).map fun (l, i) => (l, !i)
  | .assign o src => value s' o = value s src
  | .transposeSelf o => value s' o = (value s o).map fun (l, i) => (l, !i)
  | .setToIdentity o => ∀ x, s.objs o = some x → value s' o = some (List.range x.n, false)
  | .resize o n => ∀ x, s.objs o = some x → ∃ x', s'.objs o = some x' ∧ x'.n = n ∧ x'.isinv = false
  | .decomp o l inv => value s' o = some (l, inv)
  | .read o l inv => value s' o = some (l, inv)
  | .swap o1 o2 => value s' o1 = value s o2 ∧ value s' o2 = value s o1
  | .destroy o => value s' o = none

/-- Every object's array exists and is long enough; owned memory is the array in use and is owned once. -/
structure Inv (s : St) : Prop where
  fresh : ∀ b, s.next ≤ b → s.heap b = none
  live : ∀ o x, s.objs o = some x →
    (x.ptr = none ∧ x.n = 0 ∧ x.mem = none) ∨
    (∃ b l, x.ptr = some b ∧ s.heap b = some l ∧ x.n ≤ l.length ∧ (x.mem = none ∨ x.mem = some b))
  uniq : ∀ o o' x y b, s.objs o = some x → s.objs o' = some y → x.mem = some b → y.mem = some b → o = o'

/-! ### helper lemmas -/

theorem value_congr {s s' : St} {o o' : Nat} (h1 : s'.objs o' = s.objs o)
    (h2 : ∀ x b, s.objs o = some x → x.ptr = some b → s'.heap b = s.heap b) :
    value s' o' = value s o := by
  unfold value
  rw [h1]
  cases hx : s.objs o with
  | none => rfl
  | some x =>
    simp only [Option.bind_eq_bind, Option.bind_some]
    cases hp : x.ptr with
    | none => rfl
    | some b => rw [show (some b).bind _ = _ from rfl, show (some b).bind _ = _ from rfl]; simp only [Option.bind_some, h2 x b hx hp]

theorem value_of (s : St) (o : Nat) (x : Obj) (l : List Nat) (b : Nat) (blk : Block)
    (hx : s.objs o = some x) (hp : x.ptr = some b) (hb : s.heap b = some blk) (hn : x.n = l.length)
    (hl : blk.take x.n = l.map some) : value s o = some (l, x.isinv) := by
  have hm : (l.map some).mapM (m := Option) id = some l := by
    clear hn hl
    induction l with
    | nil => rfl
    | cons a l ih => simp [List.mapM_cons, ih]
  have hle : x.n ≤ blk.length := by
    have := congrArg List.length hl
    simp at this; omega
  unfold value
  simp only [hx, Option.bind_eq_bind, Option.bind_some, hp, hb, hle, if_true, hl, hm]
  by_cases h0 : x.n = 0
  · have : l = [] := List.length_eq_zero_iff.mp (by omega)
    simp [h0, this]
  · simp [h0]

theorem value_zero (s : St) (o : Nat) (x : Obj) (hx : s.objs o = some x) (hn : x.n = 0) :
    value s o = some ([], x.isinv) := by
  simp [value, hx, hn]

theorem store_spec (b : Nat) : ∀ (xs : List Nat) (i : Nat) (s : St) (blk : Block),
    s.heap b = some blk → i + xs.length ≤ blk.length →
    ∃ s' blk', s.store (some b) xs i = some s' ∧ s'.objs = s.objs ∧ s'.next = s.next ∧
      (∀ c, c ≠ b → s'.heap c = s.heap c) ∧ s'.heap b = some blk' ∧ blk'.length = blk.length ∧
      (∀ k, k < i → blk'[k]? = blk[k]?) ∧ (∀ k, k < xs.length → blk'[i+k]? = some xs[k]?) := by
  intro xs
  induction xs with
  | nil => intro i s blk hb hl; exact ⟨s, blk, rfl, rfl, rfl, fun _ _ => rfl, hb, rfl, fun _ _ => rfl, by simp⟩
  | cons x xs ih =>
    intro i s blk hb hl
    simp only [List.length_cons] at hl
    obtain ⟨s', blk', a1, a2, a3, a4, a5, a6, a7, a8⟩ := ih (i+1)
      { s with heap := Function.update s.heap b (some (blk.set i (some x))) } (blk.set i (some x))
      (by simp) (by simp; omega)
    refine ⟨s', blk', ?_, a2, a3, ?_, a5, by simpa using a6, ?_, ?_⟩
    · simp only [St.store, hb]
      rw [if_pos (by omega)]; exact a1
    · intro c hc; rw [a4 c hc]; simp [Function.update_of_ne hc]
    · intro k hk
      rw [a7 k (by omega), List.getElem?_set_ne (by omega)]
    · intro k hk
      cases k with
      | zero =>
        rw [Nat.add_zero, a7 i (by omega), List.getElem?_set_self (by omega)]; simp
      | succ k =>
        have := a8 k (by simpa using hk)
        rw [show i + (k+1) = i + 1 + k by omega, this]; simp

theorem take_eq_of_store {blk : Block} {xs : List Nat} (hl : xs.length ≤ blk.length)
    (h : ∀ k, k < xs.length → blk[0+k]? = some xs[k]?) : blk.take xs.length = xs.map some := by
  apply List.ext_getElem?
  intro k
  by_cases hk : k < xs.length
  · have := h k hk
    rw [Nat.zero_add] at this
    rw [List.getElem?_take_of_lt hk, this]; simp [hk]
  · rw [List.getElem?_eq_none (by simp; omega), List.getElem?_eq_none (by simp; omega)]

/-- Writing a fresh or exclusively owned block and (re)binding one object keeps the invariant. -/
theorem Inv.bind {s s' : St} (h : Inv s) (o : Nat) (x : Obj)
    (hn : s.next ≤ s'.next) (hfresh : ∀ b, s'.next ≤ b → s'.heap b = none)
    (hobj : s'.objs = Function.update s.objs o (some x))
    (hx : (x.ptr = none ∧ x.n = 0 ∧ x.mem = none) ∨
      (∃ b l, x.ptr = some b ∧ s'.heap b = some l ∧ x.n ≤ l.length ∧ (x.mem = none ∨ x.mem = some b)))
    (hoth : ∀ o' y b l, o' ≠ o → s.objs o' = some y → y.ptr = some b → s.heap b = some l →
      ∃ l', s'.heap b = some l' ∧ l'.length = l.length)
    (hmem : ∀ b, x.mem = some b → ∀ o' y, o' ≠ o → s.objs o' = some y → y.mem ≠ some b) : Inv s' := by
  refine ⟨hfresh, ?_, ?_⟩
  · intro o' y hy
    rw [hobj] at hy
    by_cases ho : o' = o
    · subst ho
      rw [Function.update_self, Option.some.injEq] at hy
      exact hy ▸ hx
    · rw [Function.update_of_ne ho] at hy
      rcases h.live o' y hy with h1 | ⟨b, l, h1, h2, h3, h4⟩
      · exact Or.inl h1
      · obtain ⟨l', h5, h6⟩ := hoth o' y b l ho hy h1 h2
        exact Or.inr ⟨b, l', h1, h5, by omega, h4⟩
  · intro o1 o2 y z b h1 h2 h3 h4
    rw [hobj] at h1 h2
    by_cases e1 : o1 = o <;> by_cases e2 : o2 = o
    · rw [e1, e2]
    · subst e1
      rw [Function.update_self, Option.some.injEq] at h1
      rw [Function.update_of_ne e2] at h2
      exact absurd h4 (hmem b (h1 ▸ h3) o2 z e2 h2)
    · subst e2
      rw [Function.update_self, Option.some.injEq] at h2
      rw [Function.update_of_ne e1] at h1
      exact absurd h3 (hmem b (h2 ▸ h4) o1 y e1 h1)
    · rw [Function.update_of_ne e1] at h1
      rw [Function.update_of_ne e2] at h2
      exact h.uniq o1 o2 y z b h1 h2 h3 h4

theorem Inv.ptr_lt {s : St} (h : Inv s) {o x b} (hx : s.objs o = some x) (hp : x.ptr = some b) :
    b < s.next := by
  rcases h.live o x hx with ⟨h1, _⟩ | ⟨c, l, h1, h2, _⟩
  · rw [h1] at hp; exact absurd hp (by simp)
  · rw [h1, Option.some.injEq] at hp
    subst hp
    by_contra hc
    rw [h.fresh c (by omega)] at h2
    exact absurd h2 (by simp)

theorem Inv.mem_ptr {s : St} (h : Inv s) {o x b} (hx : s.objs o = some x) (hm : x.mem = some b) :
    x.ptr = some b ∧ ∃ l, s.heap b = some l ∧ x.n ≤ l.length := by
  rcases h.live o x hx with ⟨_, _, h1⟩ | ⟨c, l, h1, h2, h3, h4⟩
  · rw [h1] at hm; exact absurd hm (by simp)
  · rcases h4 with h4 | h4
    · rw [h4] at hm; exact absurd hm (by simp)
    · rw [h4, Option.some.injEq] at hm
      subst hm; exact ⟨h1, l, h2, h3⟩

/-- Working state while object `o` (record so far `x`) is being changed. -/
structure Mid (s s1 : St) (o : Nat) (x : Obj) : Prop where
  objs : s1.objs = s.objs
  next : s.next ≤ s1.next
  fresh : ∀ b, s1.next ≤ b → s1.heap b = none
  oth : ∀ o' y b, o' ≠ o → s.objs o' = some y → y.ptr = some b → s1.heap b = s.heap b
  good : (x.ptr = none ∧ x.n = 0 ∧ x.mem = none) ∨
      (∃ b l, x.ptr = some b ∧ s1.heap b = some l ∧ x.n ≤ l.length ∧ (x.mem = none ∨ x.mem = some b))
  excl : ∀ b, x.mem = some b → ∀ o' y, o' ≠ o → s.objs o' = some y → y.ptr ≠ some b

theorem Mid.init {s : St} (h : Inv s) {o x} (hx : s.objs o = some x) (he : Exclusive s o) : Mid s s o x :=
  ⟨rfl, le_rfl, h.fresh, fun _ _ _ _ _ _ => rfl, h.live o x hx,
    fun b hb o' y h1 h2 => he x b hx hb o' y h1 h2⟩

theorem Mid.inv {s s1 : St} (h : Inv s) {o x} (hm : Mid s s1 o x) (i : Bool) :
    Inv (s1.setObj o (some { x with isinv := i })) := by
  refine h.bind o { x with isinv := i } hm.next hm.fresh (by simp [St.setObj, hm.objs]) hm.good ?_ ?_
  · intro o' y b l h1 h2 h3 h4
    exact ⟨l, by simp only [St.setObj]; rw [hm.oth o' y b h1 h2 h3, h4], rfl⟩
  · intro b hb o' y h1 h2 h3
    exact hm.excl b hb o' y h1 h2 (h.mem_ptr h2 h3).1

theorem Mid.val {s s1 : St} {o x} (hm : Mid s s1 o x) (z : Option Obj) (o' : Nat) (ho : o' ≠ o) :
    value (s1.setObj o z) o' = value s o' := by
  apply value_congr
  · simp [St.setObj, Function.update_of_ne ho, hm.objs]
  · intro y b h1 h2; exact hm.oth o' y b ho h1 h2

/-- Freeing what `x` owns (if anything) and allocating `n` fresh elements. -/
theorem Mid.resizeMem {s s1 : St} (h : Inv s) {o x} (hm : Mid s s1 o x) (n : Nat) :
    ∃ s2 b, s1.resizeMem x.mem n = some (s2, b) ∧ Mid s s2 o ⟨n, b, b, false⟩ ∧ (b = none → n = 0) := by
  -- after the free
  have hfree : ∃ s', s1.free x.mem = some s' ∧ s'.objs = s.objs ∧ s'.next = s1.next ∧
      (∀ b, s'.next ≤ b → s'.heap b = none) ∧
      (∀ o' y b, o' ≠ o → s.objs o' = some y → y.ptr = some b → s'.heap b = s.heap b) := by
    cases hmem : x.mem with
    | none => exact ⟨s1, rfl, hm.objs, rfl, hm.fresh, hm.oth⟩
    | some c =>
      have : ∃ l, s1.heap c = some l := by
        rcases hm.good with ⟨_, _, h1⟩ | ⟨c', l, h1, h2, h3, h4⟩
        · rw [h1] at hmem; exact absurd hmem (by simp)
        · rcases h4 with h4 | h4
          · rw [h4] at hmem; exact absurd hmem (by simp)
          · rw [h4, Option.some.injEq] at hmem; exact ⟨l, hmem ▸ h2⟩
      obtain ⟨l, hl⟩ := this
      refine ⟨{ s1 with heap := Function.update s1.heap c none }, by simp [St.free, hl], hm.objs, rfl, ?_, ?_⟩
      · intro b hb
        by_cases hbc : b = c
        · simp [hbc]
        · simpa [Function.update_of_ne hbc] using hm.fresh b hb
      · intro o' y b h1 h2 h3
        have hbc : b ≠ c := by
          intro e; exact hm.excl c hmem o' y h1 h2 (e ▸ h3)
        simp only [Function.update_of_ne hbc]; exact hm.oth o' y b h1 h2 h3
  obtain ⟨s', f1, f2, f3, f4, f5⟩ := hfree
  have hnx : s.next ≤ s'.next := by rw [f3]; exact hm.next
  by_cases hn : n > 0
  · refine ⟨_, some s'.next, by simp only [St.resizeMem, f1, Option.map_some, St.alloc, if_pos hn]; rfl, ?_, by simp⟩
    refine ⟨f2, by simp; omega, ?_, ?_, ?_, ?_⟩
    · intro b hb
      have hb' : s'.next + 1 ≤ b := hb
      simp only [Function.update_of_ne (show b ≠ s'.next by omega)]
      exact f4 b (by omega)
    · intro o' y b h1 h2 h3
      have := h.ptr_lt h2 h3
      simp only [Function.update_of_ne (show b ≠ s'.next by omega)]
      exact f5 o' y b h1 h2 h3
    · right
      exact ⟨s'.next, List.replicate n none, rfl, by simp, by simp, Or.inr rfl⟩
    · intro b hb o' y h1 h2 h3
      have hb' : s'.next = b := by simpa using hb
      have := h.ptr_lt h2 h3
      omega
  · refine ⟨s', none, by simp only [St.resizeMem, f1, Option.map_some, St.alloc, if_neg hn], ?_, by intro; omega⟩
    exact ⟨f2, hnx, f4, f5, Or.inl ⟨rfl, by simpa using hn, rfl⟩, by intro b hb; simp at hb⟩

theorem Mid.resize {s s1 : St} (h : Inv s) {o x} (hm : Mid s s1 o x) (n : Nat) :
    ∃ s2 x2, s1.resize x n = some (s2, x2) ∧ Mid s s2 o x2 ∧ x2.n = n ∧ x2.isinv = false ∧
      (x2.mem = none → n = 0 ∨ (x.mem = none ∧ n ≤ x.n)) := by
  unfold St.resize
  by_cases hn : n > x.n
  · obtain ⟨s2, b, a1, a2, a3⟩ := hm.resizeMem h n
    exact ⟨s2, _, by simp only [if_pos hn, a1, Option.map_some], a2, rfl, rfl, fun hb => Or.inl (a3 hb)⟩
  · refine ⟨s1, { x with n := n, isinv := false }, by rw [if_neg hn], ?_, rfl, rfl, fun hb => Or.inr ⟨hb, by omega⟩⟩
    refine ⟨hm.objs, hm.next, hm.fresh, hm.oth, ?_, hm.excl⟩
    rcases hm.good with ⟨h1, h2, h3⟩ | ⟨b, l, h1, h2, h3, h4⟩
    · exact Or.inl ⟨h1, by simp; omega, h3⟩
    · exact Or.inr ⟨b, l, h1, h2, by simp; omega, h4⟩

theorem Mid.allocateMem {s s1 : St} (h : Inv s) {o x} (hm : Mid s s1 o x) :
    ∃ s2 x2, s1.allocateMem x = some (s2, x2) ∧ Mid s s2 o x2 ∧ x2.n = x.n ∧
      (x2.mem = none → x2.n = 0) := by
  unfold St.allocateMem
  cases hmem : x.mem with
  | some b => exact ⟨s1, x, rfl, hm, rfl, by rw [hmem]; simp⟩
  | none =>
    obtain ⟨s2, b, a1, a2, a3⟩ := hm.resizeMem h x.n
    rw [hmem] at a1
    refine ⟨s2, { x with mem := b, ptr := b }, by simp only [a1, Option.map_some], ?_, rfl, a3⟩
    exact ⟨a2.objs, a2.next, a2.fresh, a2.oth, a2.good, a2.excl⟩

theorem Mid.store {s s1 : St} {o x} (hm : Mid s s1 o x) (l : List Nat) (hl : l.length = x.n)
    (h0 : x.mem = none → x.n = 0) (i : Bool) :
    ∃ s2, s1.store x.mem l 0 = some s2 ∧ Mid s s2 o x ∧
      value (s2.setObj o (some { x with isinv := i })) o = some (l, i) := by
  cases hmem : x.mem with
  | none =>
    have hn := h0 hmem
    have : l = [] := List.length_eq_zero_iff.mp (by omega)
    subst this
    exact ⟨s1, rfl, hm, value_zero _ _ { x with isinv := i } (by simp [St.setObj, hmem]) hn⟩
  | some b =>
    have : ∃ blk, s1.heap b = some blk ∧ x.n ≤ blk.length ∧ x.ptr = some b := by
      rcases hm.good with ⟨_, _, h1⟩ | ⟨c', l, h1, h2, h3, h4⟩
      · rw [h1] at hmem; exact absurd hmem (by simp)
      · rcases h4 with h4 | h4
        · rw [h4] at hmem; exact absurd hmem (by simp)
        · rw [h4, Option.some.injEq] at hmem; subst hmem; exact ⟨l, h2, h3, h1⟩
    obtain ⟨blk, hb, hbl, hp⟩ := this
    obtain ⟨s2, blk', a1, a2, a3, a4, a5, a6, a7, a8⟩ := store_spec b l 0 s1 blk hb (by omega)
    refine ⟨s2, a1, ⟨a2.trans hm.objs, a3 ▸ hm.next, ?_, ?_, ?_, hm.excl⟩, ?_⟩
    · intro c hc
      rw [a3] at hc
      have hcb : c ≠ b := by
        intro e; have := hm.fresh c hc; rw [e, hb] at this; exact absurd this (by simp)
      rw [a4 c hcb]; exact hm.fresh c hc
    · intro o' y c h1 h2 h3
      have hcb : c ≠ b := by intro e; exact hm.excl b hmem o' y h1 h2 (e ▸ h3)
      rw [a4 c hcb]; exact hm.oth o' y c h1 h2 h3
    · exact Or.inr ⟨b, blk', hp, a5, by omega, Or.inr hmem⟩
    · refine value_of _ o { x with isinv := i } l b blk' (by simp [St.setObj, hmem]) hp (by simpa [St.setObj] using a5)
        hl.symm ?_
      show blk'.take x.n = l.map some
      rw [← hl]
      exact take_eq_of_store (by omega) a8

/-- **C25**, one step, under the borrowing discipline `Pre`: the operation is defined, changes no other
`Permutation`, has its documented effect on its target, and leaves every object's memory valid. -/
theorem step_safe (s : St) (h : Inv s) (op : Op) (hp : Pre s op) :
    ∃ s', step s op = some s' ∧ Inv s' ∧ Effect s s' op ∧
      ∀ o, o ∉ op.targets → value s' o = value s o := by
  cases op with
  | ident o n =>
    have ho : s.objs o = none := hp
    -- use Mid with a dummy empty object
    have hm : Mid s s o ⟨0, none, none, false⟩ :=
      ⟨rfl, le_rfl, h.fresh, fun _ _ _ _ _ _ => rfl, Or.inl ⟨rfl, rfl, rfl⟩, by intro b hb; simp at hb⟩
    obtain ⟨s2, b, a1, a2, a3⟩ := hm.resizeMem h n
    simp only [St.resizeMem, St.free, Option.map_some, Option.some.injEq] at a1
    obtain ⟨s3, c1, c2, c3⟩ := a2.store (List.range n) (by simp) a3 false
    refine ⟨_, by simp only [step, ho, a1, c1, Option.map_some], c2.inv h false, c3, ?_⟩
    intro o' ho'
    exact c2.val _ o' (by simpa [Op.targets] using ho')
  | ext l =>
    refine ⟨_, rfl, ?_, trivial, ?_⟩
    · refine ⟨?_, ?_, h.uniq⟩
      · intro b hb
        have hb' : s.next + 1 ≤ b := hb
        simp only [Function.update_of_ne (show b ≠ s.next by omega)]
        exact h.fresh b (by omega)
      · intro o x hx
        rcases h.live o x hx with h1 | ⟨b, l, h1, h2, h3, h4⟩
        · exact Or.inl h1
        · have := h.ptr_lt hx h1
          exact Or.inr ⟨b, l, h1, by simpa [Function.update_of_ne (show b ≠ s.next by omega)] using h2, h3, h4⟩
    · intro o _
      refine value_congr rfl ?_
      intro x b hx hb
      have := h.ptr_lt hx hb
      simp [Function.update_of_ne (show b ≠ s.next by omega)]
  | ofExt o b n inv =>
    obtain ⟨ho, l, hb, hn⟩ := hp
    have hm : Mid s s o ⟨n, none, some b, inv⟩ :=
      ⟨rfl, le_rfl, h.fresh, fun _ _ _ _ _ _ => rfl, Or.inr ⟨b, l, rfl, hb, hn, Or.inl rfl⟩,
        by intro b hb; simp at hb⟩
    refine ⟨_, by simp only [step, ho], hm.inv h inv, ?_, ?_⟩
    · intro l' hl'
      have e : l = l'.map some := by rw [hb] at hl'; simpa using hl'
      subst e
      simp only [List.length_map] at hn
      refine value_of _ o ⟨n, none, some b, inv⟩ (l'.take n) b (l'.map some) (by simp [St.setObj]) rfl
        (by simpa [St.setObj] using hb) (by simp; omega) ?_
      simp
    · intro o' ho'
      exact hm.val _ o' (by simpa [Op.targets] using ho')
  | copy o src =>
    obtain ⟨ho, hs⟩ := hp
    obtain ⟨r, hr⟩ := Option.isSome_iff_exists.mp hs
    have hg : (r.ptr = none ∧ r.n = 0 ∧ (none : Option Nat) = none) ∨
      (∃ b l, r.ptr = some b ∧ s.heap b = some l ∧ r.n ≤ l.length ∧ ((none : Option Nat) = none ∨ (none : Option Nat) = some b)) := by
      rcases h.live src r hr with ⟨h1, h2, _⟩ | ⟨b, l, h1, h2, h3, _⟩
      · exact Or.inl ⟨h1, h2, rfl⟩
      · exact Or.inr ⟨b, l, h1, h2, h3, Or.inl rfl⟩
    have hm : Mid s s o ⟨r.n, none, r.ptr, r.isinv⟩ :=
      ⟨rfl, le_rfl, h.fresh, fun _ _ _ _ _ _ => rfl, hg, by intro b hb; simp at hb⟩
    refine ⟨_, by simp only [step, ho, hr], hm.inv h r.isinv, ?_, ?_⟩
    · simp [Effect, value, St.setObj, hr]
    · intro o' ho'
      exact hm.val _ o' (by simpa [Op.targets] using ho')
  | inverse o src =>
    obtain ⟨ho, hs⟩ := hp
    obtain ⟨r, hr⟩ := Option.isSome_iff_exists.mp hs
    have hg : (r.ptr = none ∧ r.n = 0 ∧ (none : Option Nat) = none) ∨
      (∃ b l, r.ptr = some b ∧ s.heap b = some l ∧ r.n ≤ l.length ∧ ((none : Option Nat) = none ∨ (none : Option Nat) = some b)) := by
      rcases h.live src r hr with ⟨h1, h2, _⟩ | ⟨b, l, h1, h2, h3, _⟩
      · exact Or.inl ⟨h1, h2, rfl⟩
      · exact Or.inr ⟨b, l, h1, h2, h3, Or.inl rfl⟩
    have hm : Mid s s o ⟨r.n, none, r.ptr, !r.isinv⟩ :=
      ⟨rfl, le_rfl, h.fresh, fun _ _ _ _ _ _ => rfl, hg, by intro b hb; simp at hb⟩
    refine ⟨_, by simp only [step, ho, hr], hm.inv h (!r.isinv), ?_, ?_⟩
    · simp only [Effect, value, St.setObj, hr, Function.update_self, Option.bind_eq_bind, Option.bind_some,
        Option.map_bind]
      congr 1
    · intro o' ho'
      exact hm.val _ o' (by simpa [Op.targets] using ho')
  | assign o src =>
    obtain ⟨hne, ho, hs, he⟩ := hp
    obtain ⟨x, hx⟩ := Option.isSome_iff_exists.mp ho
    obtain ⟨r, hr⟩ := Option.isSome_iff_exists.mp hs
    obtain ⟨s2, b, a1, a2, a3⟩ := (Mid.init h hx he).resizeMem h 0
    have hb : b = none := by
      have := a1
      simp only [St.resizeMem, St.alloc] at this
      cases hf : s.free x.mem with
      | none => rw [hf] at this; simp at this
      | some s' => rw [hf] at this; simp at this; exact this.2.symm
    subst hb
    have hoth := a2.oth src r
    have hg : (r.ptr = none ∧ r.n = 0 ∧ (none : Option Nat) = none) ∨
      (∃ b l, r.ptr = some b ∧ s2.heap b = some l ∧ r.n ≤ l.length ∧ ((none : Option Nat) = none ∨ (none : Option Nat) = some b)) := by
      rcases h.live src r hr with ⟨h1, h2, _⟩ | ⟨b, l, h1, h2, h3, _⟩
      · exact Or.inl ⟨h1, h2, rfl⟩
      · exact Or.inr ⟨b, l, h1, (hoth b (Ne.symm hne) hr h1).trans h2, h3, Or.inl rfl⟩
    have hm : Mid s s2 o ⟨r.n, none, r.ptr, r.isinv⟩ :=
      ⟨a2.objs, a2.next, a2.fresh, a2.oth, hg, by intro b hb; simp at hb⟩
    refine ⟨_, by simp only [step, hx, hr, a1, Option.map_some], hm.inv h r.isinv, ?_, ?_⟩
    · show value _ o = value s src
      rw [← hm.val (some ⟨r.n, none, r.ptr, r.isinv⟩) src (Ne.symm hne)]
      simp [value, St.setObj, Function.update_of_ne (Ne.symm hne), a2.objs, hr]
    · intro o' ho'
      exact hm.val _ o' (by simpa [Op.targets] using ho')
  | transposeSelf o =>
    obtain ⟨x, hx⟩ := Option.isSome_iff_exists.mp (show (s.objs o).isSome from hp)
    refine ⟨_, by simp only [step, hx, Option.map_some]; rfl, ?_, ?_, ?_⟩
    · refine h.bind o { x with isinv := !x.isinv } le_rfl h.fresh rfl (h.live o x hx) ?_ ?_
      · intro o' y b l _ _ _ h4; exact ⟨l, h4, rfl⟩
      · intro b hb o' y h1 h2 h3
        exact h1 (h.uniq o' o y x b h2 hx h3 hb)
    · simp only [Effect, value, St.setObj, hx, Function.update_self, Option.bind_eq_bind, Option.bind_some,
        Option.map_bind]
      congr 1
    · intro o' ho'
      have ho'' : o' ≠ o := by simpa [Op.targets] using ho'
      exact value_congr (by simp [St.setObj, Function.update_of_ne ho'']) (fun _ _ _ _ => rfl)
  | setToIdentity o =>
    obtain ⟨ho, he⟩ := hp
    obtain ⟨x, hx⟩ := Option.isSome_iff_exists.mp ho
    obtain ⟨s2, x2, a1, a2, a3, a4⟩ := (Mid.init h hx he).allocateMem h
    obtain ⟨s3, c1, c2, c3⟩ := a2.store (List.range x2.n) (by simp) a4 false
    refine ⟨_, by simp only [step, hx, a1, c1, Option.map_some], c2.inv h false, ?_, ?_⟩
    · intro x' hx'
      rw [hx, Option.some.injEq] at hx'
      subst hx'
      rw [← a3]; exact c3
    · intro o' ho'
      exact c2.val _ o' (by simpa [Op.targets] using ho')
  | resize o n =>
    obtain ⟨x, hx, hd⟩ := hp
    by_cases hn : n ≤ x.n
    · refine ⟨_, by simp only [step, hx, St.resize, if_neg (show ¬ n > x.n by omega), Option.map_some]; rfl,
        ?_, ?_, ?_⟩
      · refine h.bind o { x with n := n, isinv := false } le_rfl h.fresh rfl ?_ ?_ ?_
        · rcases h.live o x hx with ⟨h1, h2, h3⟩ | ⟨b, l, h1, h2, h3, h4⟩
          · exact Or.inl ⟨h1, by simp; omega, h3⟩
          · exact Or.inr ⟨b, l, h1, h2, by simp; omega, h4⟩
        · intro o' y b l _ _ _ h4; exact ⟨l, h4, rfl⟩
        · intro b hb o' y h1 h2 h3
          exact h1 (h.uniq o' o y x b h2 hx h3 hb)
      · intro x' _
        exact ⟨{ x with n := n, isinv := false }, by simp [St.setObj], rfl, rfl⟩
      · intro o' ho'
        have ho'' : o' ≠ o := by simpa [Op.targets] using ho'
        exact value_congr (by simp [St.setObj, Function.update_of_ne ho'']) (fun _ _ _ _ => rfl)
    · have he : Exclusive s o := hd.resolve_left hn
      obtain ⟨s2, x2, a1, a2, a3, a4, a5⟩ := (Mid.init h hx he).resize h n
      have e : x2 = { x2 with isinv := x2.isinv } := rfl
      refine ⟨_, by simp only [step, hx, a1, Option.map_some], a2.inv h x2.isinv, ?_, ?_⟩
      · intro x' _
        exact ⟨x2, by simp [St.setObj], a3, a4⟩
      · intro o' ho'
        exact a2.val _ o' (by simpa [Op.targets] using ho')
  | decomp o l inv =>
    obtain ⟨ho, he⟩ := hp
    obtain ⟨x, hx⟩ := Option.isSome_iff_exists.mp ho
    obtain ⟨s2, x2, a1, a2, a3, _⟩ := (Mid.init h hx he).resize h l.length
    obtain ⟨s3, x3, b1, b2, b3, b4⟩ := a2.allocateMem h
    obtain ⟨s4, c1, c2, c3⟩ := b2.store l (by omega) b4 inv
    refine ⟨_, by simp only [step, hx, a1, b1, c1, Option.map_some], c2.inv h inv, c3, ?_⟩
    intro o' ho'
    exact c2.val _ o' (by simpa [Op.targets] using ho')
  | read o l inv =>
    obtain ⟨x, hx, he, hd⟩ := hp
    by_cases hn : l.length = x.n
    · have h0 : x.mem = none → x.n = 0 := by
        intro hm
        rcases hd with hd | hd | hd
        · exact absurd hm hd
        · omega
        · simpa [hd] using hn.symm
      obtain ⟨s4, c1, c2, c3⟩ := (Mid.init h hx he).store l hn h0 inv
      refine ⟨_, by simp only [step, hx, hn, ne_eq, not_true_eq_false, if_false, c1, Option.map_some],
        c2.inv h inv, c3, ?_⟩
      intro o' ho'
      exact c2.val _ o' (by simpa [Op.targets] using ho')
    · obtain ⟨s2, x2, a1, a2, a3, a4, a5⟩ := (Mid.init h hx he).resize h l.length
      have h0 : x2.mem = none → x2.n = 0 := by
        intro hm
        rw [a3]
        rcases a5 hm with h1 | ⟨h1, h2⟩
        · exact h1
        · rcases hd with hd | hd | hd
          · exact absurd h1 hd
          · omega
          · simp [hd]
      obtain ⟨s4, c1, c2, c3⟩ := a2.store l a3.symm h0 inv
      refine ⟨_, by simp only [step, hx, hn, ne_eq, not_false_eq_true, if_true, a1, c1, Option.map_some],
        c2.inv h inv, c3, ?_⟩
      intro o' ho'
      exact c2.val _ o' (by simpa [Op.targets] using ho')
  | swap o1 o2 =>
    obtain ⟨x, y, hx, hy, hn⟩ := hp
    refine ⟨_, by simp only [step, hx, hy, hn, if_true]; rfl, ?_, ?_, ?_⟩
    · refine ⟨h.fresh, ?_, ?_⟩
      · intro o z hz
        simp only [St.setObj] at hz
        by_cases e2 : o = o2
        · subst e2
          rw [Function.update_self, Option.some.injEq] at hz
          subst hz
          simpa [← hn, St.setObj] using h.live o1 x hx
        · rw [Function.update_of_ne e2] at hz
          by_cases e1 : o = o1
          · subst e1
            rw [Function.update_self, Option.some.injEq] at hz
            subst hz
            simpa [hn, St.setObj] using h.live o2 y hy
          · rw [Function.update_of_ne e1] at hz
            exact h.live o z hz
      · -- the owner of block b after the swap
        have key : ∀ o z b, (Function.update (Function.update s.objs o1 (some ⟨y.n, y.mem, y.ptr, y.isinv⟩)) o2
            (some ⟨y.n, x.mem, x.ptr, x.isinv⟩)) o = some z → z.mem = some b →
            ∃ z', s.objs (Equiv.swap o1 o2 o) = some z' ∧ z'.mem = some b := by
          intro o z b hz hb
          by_cases e2 : o = o2
          · subst e2
            rw [Function.update_self, Option.some.injEq] at hz
            subst hz
            exact ⟨x, by simpa using hx, hb⟩
          · rw [Function.update_of_ne e2] at hz
            by_cases e1 : o = o1
            · subst e1
              rw [Function.update_self, Option.some.injEq] at hz
              subst hz
              exact ⟨y, by simpa using hy, hb⟩
            · rw [Function.update_of_ne e1] at hz
              exact ⟨z, by rw [Equiv.swap_apply_of_ne_of_ne e1 e2]; exact hz, hb⟩
        intro o o' z z' b h1 h2 h3 h4
        obtain ⟨w, a1, a2⟩ := key o z b h1 h3
        obtain ⟨w', b1, b2⟩ := key o' z' b h2 h4
        exact (Equiv.swap o1 o2).injective (h.uniq _ _ w w' b a1 b1 a2 b2)
    · constructor
      · by_cases e : o1 = o2
        · subst e
          have : x = y := by rw [hx] at hy; simpa using hy
          subst this
          exact value_congr (by simp [St.setObj, hx]) (fun _ _ _ _ => rfl)
        · exact value_congr (by simp [St.setObj, Function.update_of_ne e, hy]) (fun _ _ _ _ => rfl)
      · exact value_congr (by simp [St.setObj, hx, ← hn]) (fun _ _ _ _ => rfl)
    · intro o ho
      simp only [Op.targets, List.mem_cons, List.not_mem_nil, or_false, not_or] at ho
      exact value_congr (by simp [St.setObj, Function.update_of_ne ho.1, Function.update_of_ne ho.2])
        (fun _ _ _ _ => rfl)
  | destroy o =>
    obtain ⟨ho, he⟩ := hp
    obtain ⟨x, hx⟩ := Option.isSome_iff_exists.mp ho
    obtain ⟨s2, b, a1, a2, a3⟩ := (Mid.init h hx he).resizeMem h 0
    simp only [St.resizeMem, St.alloc, gt_iff_lt, lt_self_iff_false, if_false] at a1
    cases hf : s.free x.mem with
    | none => rw [hf] at a1; simp at a1
    | some s' =>
      rw [hf] at a1
      simp only [Option.map_some, Option.some.injEq, Prod.mk.injEq] at a1
      obtain ⟨rfl, rfl⟩ := a1
      refine ⟨s'.setObj o none, by simp only [step, hx, hf, Option.map_some], ?_, by simp [Effect, value, St.setObj], ?_⟩
      · have hi := a2.inv h false
        refine ⟨hi.fresh, ?_, ?_⟩
        · intro o' z hz
          have e : o' ≠ o := by intro e; subst e; simp [St.setObj] at hz
          exact hi.live o' z (by simpa [St.setObj, Function.update_of_ne e] using hz)
        · intro o1 o2 z z' c h1 h2 h3 h4
          have e1 : o1 ≠ o := by intro e; subst e; simp [St.setObj] at h1
          have e2 : o2 ≠ o := by intro e; subst e; simp [St.setObj] at h2
          exact hi.uniq o1 o2 z z' c (by simpa [St.setObj, Function.update_of_ne e1] using h1)
            (by simpa [St.setObj, Function.update_of_ne e2] using h2) h3 h4
      · intro o' ho'
        exact a2.val _ o' (by simpa [Op.targets] using ho')

/-- A history that follows the borrowing discipline at every step. -/
def Disciplined (s : St) : List Op → Prop
  | [] => True
  | op :: ops => Pre s op ∧ ∀ s', step s op = some s' → Disciplined s' ops

/-- **C25**, partial: in every history of any length that follows the borrowing discipline nothing undefined happens, and an
object not targeted by any operation of the (rest of the) history keeps its value.  Missing: the
documentation promises this for *all* histories; the `_violated` theorems below show it is false. -/
theorem history_safe_partial (ops : List Op) : ∀ s, Inv s → Disciplined s ops →
    ∃ s', run s ops = some s' ∧ Inv s' ∧
      ∀ o, (∀ op ∈ ops, o ∉ op.targets) → value s' o = value s o := by
  induction ops with
  | nil => intro s h _; exact ⟨s, rfl, h, fun _ _ => rfl⟩
  | cons op ops ih =>
    intro s h hd
    obtain ⟨s1, a1, a2, _, a4⟩ := step_safe s h op hd.1
    obtain ⟨s2, b1, b2, b3⟩ := ih s1 a2 (hd.2 s1 a1)
    refine ⟨s2, by simp [run, a1, b1], b2, ?_⟩
    intro o ho
    rw [b3 o (fun op hop => ho op (List.mem_cons_of_mem _ hop)), a4 o (ho op (List.mem_cons_self ..))]

theorem init_inv : Inv St.init :=
  ⟨fun _ _ => rfl, fun _ _ h => by simp [St.init] at h, fun _ _ _ _ _ h => by simp [St.init] at h⟩

/-- Observing object `o` after a history from scratch. -/
def observe (ops : List Op) (o : Nat) : Option (Option (List Nat × Bool)) :=
  (run St.init ops).map fun s => value s o

/-- **C25 violated** (indirect modification): `Permutation p(2); Permutation q(p); LU_Decompose(m,p);`
changes the copy `q`. -/
theorem alias_modified_violated :
    observe [.ident 0 2, .copy 1 0] 1 = some (some ([0,1], false)) ∧
    observe [.ident 0 2, .copy 1 0, .decomp 0 [1,1] true] 1 = some (some ([1,1], false)) := by decide

/-- **C25 violated** (use after free): self-assignment `p = p`. -/
theorem self_assign_violated :
    observe [.ident 0 2, .assign 0 0] 0 = some none := by decide

/-- **C25 violated** (use after free): `p = p.inverse()`. -/
theorem assign_inverse_violated :
    observe [.ident 0 2, .inverse 1 0, .assign 0 1, .destroy 1] 0 = some none := by decide

/-- **C25 violated** (null dereference): reading into a copy of the same size. -/
theorem read_copy_violated :
    run St.init [.ident 0 2, .copy 1 0, .read 1 [1,1] false] = none := by
  rfl

/-- **C25 violated** (use after free): a copy outlives the owner. -/
theorem copy_outlives_violated :
    observe [.ident 0 2, .copy 1 0, .destroy 0] 1 = some none := by decide

-- non-vacuity: a disciplined history with aliasing, mutation of a copy, of the owner, and destruction
example : Disciplined St.init [.ident 0 2, .copy 1 0, .setToIdentity 1, .decomp 0 [1,1] true, .destroy 0] := by
  refine ⟨rfl, fun s1 h1 => ⟨⟨?_, ?_⟩, fun s2 h2 => ⟨⟨?_, ?_⟩, fun s3 h3 => ⟨⟨?_, ?_⟩, fun s4 h4 => ⟨⟨?_, ?_⟩, fun _ _ => trivial⟩⟩⟩⟩⟩
  · cases h1; rfl
  · cases h1; rfl
  · cases h1; cases h2; rfl
  · cases h1; cases h2
    intro x b hx hb
    cases hx
    cases hb
  · cases h1; cases h2; cases h3; rfl
  · cases h1; cases h2; cases h3
    intro x b hx hb o' y ho hy hp
    cases hx; cases hb
    match o', hy with
    | 1, hy => cases hy; cases hp
    | n+2, hy => cases hy
  · cases h1; cases h2; cases h3; cases h4; rfl
  · cases h1; cases h2; cases h3; cases h4
    intro x b hx hb o' y ho hy hp
    cases hx; cases hb
    match o', hy with
    | 1, hy => cases hy; cases hp
    | n+2, hy => cases hy

end TMV.PermHeap
