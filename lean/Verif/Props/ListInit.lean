import Verif.Model.ListInit
import Verif.Spec.Mat
import Verif.Lemmas.Vec
import Verif.Props.Refs
import Mathlib.Algebra.BigOperators.Group.Finset.Basic
import Mathlib.Algebra.BigOperators.Intervals
import Mathlib.Tactic.Ring

/-! List initialisation (property C45). -/
namespace TMV.ListInit
variable {K I : Type}

/-! ### Specification -/

/-- `m'` is `m` with the first `c` locations `a 0, a 1, …` set to `f x0, f x1, …` and nothing else changed. -/
def Filled (m m' : Mem K) (a : Nat → Int) (f : K → K) (xs : List K) (c : Nat) : Prop :=
  (∀ k (h : k < xs.length), k < c → m' (a k) = some (f xs[k])) ∧
  ∀ b, (∀ k, k < c → k < xs.length → b ≠ a k) → m' b = m b

/-! ### Generic facts -/

/-- The iterator visits the locations `a k` and stores `f x`. -/
structure Visits (it : Iter I K) (start : I) (a : Nat → Int) (f : K → K) (n : Nat) : Prop where
  store : ∀ k, k < n → ∀ x m, it.store (it.next^[k] start) x m = m.write (a k) (f x)
  inj : ∀ k l, k < n → l < n → a k = a l → k = l

/-- Temporaries that will not complain. -/
def Quiet (L : LA I) : Prop := L.isLast = false ∨ L.nLeft ≤ 0

theorem destroy_quiet (debug cxx11 : Bool) : ∀ (st : List (LA I)) (e : Option Exc), (∀ L ∈ st, Quiet L) →
    destroy debug cxx11 st e = some e := by
  intro st
  induction st with
  | nil => intro e _; rfl
  | cons L st ih =>
    intro e h
    have hL := h L List.mem_cons_self
    have : ¬ (debug = true ∧ L.nLeft > 0 ∧ L.isLast = true) := by
      rintro ⟨_, h1, h2⟩
      rcases hL with h' | h'
      · rw [h'] at h2; cases h2
      · omega
    simp only [destroy, this, if_false]
    exact ih e (fun L' h' => h L' (List.mem_cons_of_mem _ h'))

theorem comma_spec (it : Iter I K) (debug : Bool) (start : I) (a : Nat → Int) (f : K → K) (n : Nat)
    (hv : Visits it start a f n) (m0 : Mem K) (hl : ∀ k, k < n → (m0 (a k)).isSome) (all : List K) :
    ∀ (xs : List K) (k : Nat) (L : LA I) (st : List (LA I)) (m : Mem K), k ≤ n → all.drop k = xs →
      k ≤ all.length → L.ptr = it.next^[k] start → L.nLeft = n - k → (∀ L ∈ st, Quiet L) →
      Filled m0 m a f all k → (∀ j, j < n → (m (a j)).isSome) →
      (debug = true ∨ all.length ≤ n) →
      ∃ m' L' st', comma it debug L st xs m = some (m', L' :: st', decide (n < all.length)) ∧
        Filled m0 m' a f all (min n all.length) ∧ (∀ L ∈ st', Quiet L) ∧
        L'.nLeft = n - min n all.length ∧ (xs = [] → L' = L) ∧ (xs ≠ [] → L'.isLast = true ∨ L'.nLeft = 0) := by
  intro xs
  induction xs with
  | nil =>
    intro k L st m hk hd hka hp hnl hst hf hlv hdb
    have hle : all.length ≤ k := List.drop_eq_nil_iff.mp hd
    have hkk : k = all.length := le_antisymm hka hle
    refine ⟨m, L, st, ?_, ?_, hst, ?_, fun _ => rfl, fun h => absurd rfl h⟩
    · simp only [comma, Option.some.injEq, Prod.mk.injEq, true_and]
      exact (decide_eq_false (by omega)).symm
    · rw [show min n all.length = k by omega]; exact hf
    · rw [hnl]; congr 1; omega
  | cons x xs ih =>
    intro k L st m hk hd hka hp hnl hst hf hlv hdb
    have hklt : k < all.length := by
      by_contra h
      rw [List.drop_eq_nil_iff.mpr (by omega)] at hd
      cases hd
    have hx : all[k] = x := by
      have h1 := List.getElem_drop (xs := all) (i := k) (j := 0) (h := by simp; omega)
      simp only [hd] at h1
      simpa using h1.symm
    have hd' : all.drop (k+1) = xs := by
      rw [← List.drop_drop, hd]; rfl
    by_cases hz : debug = true ∧ L.nLeft = 0
    · have hkn : k = n := by omega
      refine ⟨m, L, st, ?_, ?_, hst, ?_, fun h => by simp at h, fun _ => Or.inr hz.2⟩
      · simp only [comma]
        rw [if_pos hz, decide_eq_true (by omega)]
      · rw [show min n all.length = k by omega]; exact hf
      · rw [hnl]; congr 1; omega
    · have hkn : k < n := by
        rcases hdb with h | h
        · have : L.nLeft ≠ 0 := fun h' => hz ⟨h, h'⟩
          omega
        · omega
      have hlk := hlv k hkn
      obtain ⟨old, hold⟩ := Option.isSome_iff_exists.mp hlk
      have hw : it.store L.ptr x m = some (fun b => if b = a k then some (f x) else m b) := by
        rw [hp, hv.store k hkn, Mem.write_of_some hold]
      have hfill : Filled m0 (fun b => if b = a k then some (f x) else m b) a f all (k+1) := by
        constructor
        · intro j hj hjk
          by_cases hjk' : j = k
          · subst hjk'; simp [hx]
          · have : a j ≠ a k := fun h => hjk' (hv.inj j k (by omega) hkn h)
            simp only [this, if_false]
            exact hf.1 j hj (by omega)
        · intro b hb
          have : b ≠ a k := hb k (by omega) hklt
          simp only [this, if_false]
          exact hf.2 b (fun j h1 h2 => hb j (by omega) h2)
      obtain ⟨m', L', st', h1, h2, h3, h4, h5⟩ := ih (k+1) ⟨it.next L.ptr, L.nLeft - 1, true⟩
        ({ L with ptr := it.next L.ptr, isLast := false } :: st) _ (by omega) hd' (by omega)
        (by simp only; rw [hp, Function.iterate_succ_apply']) (by simp only; rw [hnl]; push_cast; ring)
        (by
          intro L2 hL2
          rcases List.mem_cons.mp hL2 with rfl | h
          · exact Or.inl rfl
          · exact hst L2 h)
        hfill (by
          intro j hj
          by_cases h : a j = a k
          · simp [h]
          · simp only [h, if_false]; exact hlv j hj) hdb
      refine ⟨m', L', st', ?_, h2, h3, h4, fun h => by simp at h, fun _ => ?_⟩
      · simp only [comma]
        rw [if_neg hz, hw]
        exact h1
      · by_cases hxs : xs = []
        · left; rw [h5.1 hxs]
        · exact h5.2 hxs

/-- All outcomes of a list initialisation over any iterator that visits `n` distinct live locations. -/
theorem listInit_spec (it : Iter I K) (debug cxx11 : Bool) (start : I) (a : Nat → Int) (f : K → K) (n : Nat)
    (hv : Visits it start a f n) (m : Mem K) (hl : ∀ k, k < n → (m (a k)).isSome) (x : K) (xs : List K) :
    ((x :: xs).length = n → ∃ m', listInit it debug cxx11 start n x xs m = .ok m' ∧
      Filled m m' a f (x :: xs) n) ∧
    (debug = true → n < (x :: xs).length → ∃ m', listInit it debug cxx11 start n x xs m = .threw .tooMany m' ∧
      Filled m m' a f (x :: xs) n) ∧
    (debug = true → 2 ≤ (x :: xs).length → (x :: xs).length < n →
      ∃ m', listInit it debug cxx11 start n x xs m = (if cxx11 then .terminated m' else
        .threw (.tooFew (n - (x :: xs).length)) m') ∧ Filled m m' a f (x :: xs) (x :: xs).length) ∧
    ((x :: xs).length < n → (debug = false ∨ xs = []) → ∃ m', listInit it debug cxx11 start n x xs m = .ok m' ∧
      Filled m m' a f (x :: xs) (x :: xs).length) := by
  have main : 0 < n → (debug = true ∨ (x :: xs).length ≤ n) → ∃ (m' : Mem K) (L' : LA I) (st' : List (LA I)),
      (listInit it debug cxx11 start n x xs m = match destroy debug cxx11 (L' :: st')
        (if decide (n < (x :: xs).length) then some .tooMany else none) with
        | none => .terminated m'
        | some none => .ok m'
        | some (some e) => .threw e m') ∧
      Filled m m' a f (x :: xs) (min n (x :: xs).length) ∧ (∀ L ∈ st', Quiet L) ∧
      L'.nLeft = n - min n (x :: xs).length ∧
      (xs = [] → L'.isLast = false) ∧ (xs ≠ [] → L'.isLast = true ∨ L'.nLeft = 0) := by
    intro hn hdb
    obtain ⟨old, hold⟩ := Option.isSome_iff_exists.mp (hl 0 hn)
    have hw : it.store start x m = some (fun b => if b = a 0 then some (f x) else m b) := by
      have := hv.store 0 hn x m
      simp only [Function.iterate_zero, id_eq] at this
      rw [this, Mem.write_of_some hold]
    obtain ⟨m', L', st', h1, h2, h3, h4, h5⟩ := comma_spec it debug start a f n hv m hl (x :: xs) xs 1
      ⟨it.next start, n - 1, false⟩ [] _ hn rfl (by simp) rfl rfl (by simp)
      (show Filled m (fun b => if b = a 0 then some (f x) else m b) a f (x :: xs) 1 from by
        constructor
        · intro k hk hk1
          obtain rfl : k = 0 := by omega
          simp
        · intro b hb
          have : b ≠ a 0 := hb 0 (by omega) (by simp)
          simp [this])
      (by
        intro j hj
        by_cases h : a j = a 0
        · simp [h]
        · simp only [h, if_false]; exact hl j hj) hdb
    refine ⟨m', L', st', ?_, h2, h3, h4, ?_⟩
    · unfold listInit
      rw [if_neg (by rintro ⟨_, h⟩; omega), hw]
      simp only [h1]
      generalize destroy debug cxx11 (L' :: st') _ = d
      rcases d with _ | _ | _ <;> rfl
    · exact ⟨fun h => by rw [h5.1 h], h5.2⟩
  refine ⟨?_, ?_, ?_, ?_⟩
  · intro hlen
    have hn : 0 < n := by rw [← hlen]; simp
    obtain ⟨m', L', st', h1, h2, h3, h4, h5⟩ := main hn (Or.inr (le_of_eq hlen))
    rw [hlen, min_self] at h2 h4
    refine ⟨m', ?_, h2⟩
    rw [h1, decide_eq_false (by omega)]
    rw [destroy_quiet debug cxx11 (L' :: st')]
    · rfl
    · intro L hL
      rcases List.mem_cons.mp hL with rfl | h
      · right; omega
      · exact h3 L h
  · intro hd hlen
    by_cases hn : n = 0
    · subst hn
      refine ⟨m, ?_, ⟨fun k _ h => by omega, fun b _ => rfl⟩⟩
      unfold listInit
      rw [if_pos ⟨hd, rfl⟩]
    obtain ⟨m', L', st', h1, h2, h3, h4, h5⟩ := main (by omega) (Or.inl hd)
    rw [min_eq_left (le_of_lt hlen)] at h2 h4
    refine ⟨m', ?_, h2⟩
    rw [h1, decide_eq_true hlen]
    rw [destroy_quiet debug cxx11 (L' :: st')]
    · rfl
    · intro L hL
      rcases List.mem_cons.mp hL with rfl | h
      · right; omega
      · exact h3 L h
  · intro hd h2l hlen
    obtain ⟨m', L', st', h1, h2, h3, h4, h5⟩ := main (by omega) (Or.inl hd)
    rw [min_eq_right (le_of_lt hlen)] at h2 h4
    refine ⟨m', ?_, h2⟩
    have hlast : L'.isLast = true := by
      have hxs : xs ≠ [] := by rintro rfl; simp at h2l
      rcases h5.2 hxs with h | h
      · exact h
      · omega
    rw [h1, decide_eq_false (by omega)]
    have hc : debug = true ∧ L'.nLeft > 0 ∧ L'.isLast = true := ⟨hd, by omega, hlast⟩
    cases cxx11 with
    | true => simp [destroy, hc]
    | false =>
      have : destroy debug false (L' :: st') (if false = true then some .tooMany else none) =
          some (some (.tooFew L'.nLeft)) := by
        simp only [destroy, hc, and_self, if_true]
        simp
        exact destroy_quiet true false st' _ h3
      rw [this, h4]; simp
  · intro hlen hcase
    obtain ⟨m', L', st', h1, h2, h3, h4, h5⟩ := main (by omega) (Or.inr (le_of_lt hlen))
    rw [min_eq_right (le_of_lt hlen)] at h2 h4
    refine ⟨m', ?_, h2⟩
    rw [h1, decide_eq_false (by omega)]
    have hq : destroy debug cxx11 (L' :: st') (if false = true then some .tooMany else none) = some none := by
      have hc : ¬ (debug = true ∧ L'.nLeft > 0 ∧ L'.isLast = true) := by
        rintro ⟨hd, hp, hlast⟩
        rcases hcase with h | h
        · rw [h] at hd; cases hd
        · rw [h5.1 h] at hlast; cases hlast
      simp only [destroy, hc, if_false]
      exact destroy_quiet debug cxx11 st' _ h3
    rw [hq]

/-! ### Vectors -/

theorem cj_star {K : Type} [InvolutiveStar K] (c : Bool) (x : K) : cj c (cj c x) = x := by
  cases c <;> simp [cj]

theorem vec_visits [Star K] (v : VView) (hi : v.Inj) :
    Visits (vIter : Iter It K) (It.begin_ v) (fun k => v.addr k) (cj v.conj) v.size where
  store := by
    intro k _ x m
    show ((It.incr^[k] (It.begin_ v)).store x m) = _
    rw [It.incr_iter]
    rfl
  inj := by
    intro k l hk hl h
    rcases hi with h' | h'
    · have h2 : (k : Int) * v.step = l * v.step := by
        unfold VView.addr at h; omega
      exact Int.ofNat_inj.mp (mul_right_cancel₀ h' h2)
    · omega

/-- **C45** (vectors).  Let `v` be a vector or view (any step, conjugated or not) and `x, xs…` a nonempty list.
* Exactly as many values as elements, in either build mode: element `i` becomes the `i`-th value, nothing else
  changes.
* Debug build, too many values: the error is raised after the elements were assigned in order, and no memory
  outside `v` is changed (with size 0, nothing is changed).
* Debug build, at least two but too few values, in C++98/03: `ListReadError` with the number of missing values. -/
theorem vec_list_init_partial {K : Type} [InvolutiveStar K] (v : VView) (hi : v.Inj) (m : Mem K)
    (hl : v.Live m) (debug cxx11 : Bool) (x : K) (xs : List K) :
    ((x :: xs).length = v.size → ∃ m', vecInit debug cxx11 v x xs m = .ok m' ∧ v.Frame m m' ∧
      ∀ i (h : i < (x :: xs).length), v.cref m' i = some (x :: xs)[i]) ∧
    (debug = true → v.size < (x :: xs).length → ∃ m', vecInit debug cxx11 v x xs m = .threw .tooMany m' ∧
      v.Frame m m' ∧ ∀ i (h : i < (x :: xs).length), i < v.size → v.cref m' i = some (x :: xs)[i]) ∧
    (debug = true → cxx11 = false → 2 ≤ (x :: xs).length → (x :: xs).length < v.size →
      ∃ m', vecInit debug cxx11 v x xs m = .threw (.tooFew (v.size - (x :: xs).length)) m' ∧ v.Frame m m') := by
  obtain ⟨a, b, c, _⟩ := listInit_spec (vIter : Iter It K) debug cxx11 (It.begin_ v) (fun k => v.addr k)
    (cj v.conj) v.size (vec_visits v hi) m hl x xs
  have fr : ∀ m' n, n ≤ v.size → Filled m m' (fun k => v.addr k) (cj v.conj) (x :: xs) n → v.Frame m m' := by
    intro m' n hn h p hp
    apply h.2
    intro k hk _ hpk
    exact hp ⟨k, by omega, hpk⟩
  have rd : ∀ m' n, Filled m m' (fun k => v.addr k) (cj v.conj) (x :: xs) n →
      ∀ i (h : i < (x :: xs).length), i < n → v.cref m' i = some (x :: xs)[i] := by
    intro m' n h i hi hin
    have := h.1 i hi hin
    simp only at this
    unfold VView.cref Mem.read
    rw [this, Option.map_some, cj_star]
  refine ⟨?_, ?_, ?_⟩
  · intro h
    obtain ⟨m', h1, h2⟩ := a h
    exact ⟨m', h1, fr m' _ le_rfl h2, fun i hi => rd m' _ h2 i hi (by omega)⟩
  · intro hd h
    obtain ⟨m', h1, h2⟩ := b hd h
    exact ⟨m', h1, fr m' _ le_rfl h2, fun i hi hiv => rd m' _ h2 i hi hiv⟩
  · rintro hd rfl h2' h
    obtain ⟨m', h1, h2⟩ := c hd h2' h
    exact ⟨m', h1, fr m' _ (le_of_lt h) h2⟩

/-- The unchanged code violates C45 (documented in doc/Vector.tex:224-226): a list with a single value for a longer
vector raises no error, even in a debug build. -/
theorem list_init_single_violated {K : Type} [InvolutiveStar K] (v : VView) (hi : v.Inj) (m : Mem K)
    (hl : v.Live m) (hs : 1 < v.size) (cxx11 : Bool) (x : K) : ∃ m', vecInit true cxx11 v x [] m = .ok m' := by
  obtain ⟨_, _, _, d⟩ := listInit_spec (vIter : Iter It K) true cxx11 (It.begin_ v) (fun k => v.addr k)
    (cj v.conj) v.size (vec_visits v hi) m hl x []
  obtain ⟨m', h, _⟩ := d hs (Or.inr rfl)
  exact ⟨m', h⟩

/-- The unchanged code violates C45 when compiled as C++11 or later: with too few values (at least two) the program
is terminated instead of a `ReadError` being raised, because the error is thrown by a destructor. -/
theorem list_init_terminate_violated {K : Type} [InvolutiveStar K] (v : VView) (hi : v.Inj) (m : Mem K)
    (hl : v.Live m) (x : K) (xs : List K) (h2 : 2 ≤ (x :: xs).length) (h : (x :: xs).length < v.size) :
    ∃ m', vecInit true true v x xs m = .terminated m' := by
  obtain ⟨_, _, c, _⟩ := listInit_spec (vIter : Iter It K) true true (It.begin_ v) (fun k => v.addr k)
    (cj v.conj) v.size (vec_visits v hi) m hl x xs
  obtain ⟨m', h, _⟩ := c rfl h2 h
  exact ⟨m', h⟩

/-! ### Matrices (row-major order) -/

/-- Elements before row `i` in row-major order. -/
def offset (rowstart rowend : Nat → Nat) (i : Nat) : Nat := ∑ r ∈ Finset.range i, (rowend r - rowstart r)

theorem rm_pos [Star K] (M : MView) (rs re : Nat → Nat) (R : Nat) (hne : ∀ i, i < R → rs i < re i) :
    ∀ i, i < R → ∀ j, rs i ≤ j → j < re i →
      (rmIter (K := K) M rs re).next^[offset rs re i + (j - rs i)] (0, rs 0) = (i, j) := by
  have row : ∀ i, i < R → (rmIter (K := K) M rs re).next^[offset rs re i] (0, rs 0) = (i, rs i) →
      ∀ d, rs i + d < re i →
      (rmIter (K := K) M rs re).next^[offset rs re i + d] (0, rs 0) = (i, rs i + d) := by
    intro i hi h d
    induction d with
    | zero => intro _; simpa using h
    | succ d ih =>
      intro hd
      rw [← Nat.add_assoc, Function.iterate_succ_apply', ih (by omega)]
      simp only [rmIter]
      rw [if_neg (by omega)]; rfl
  have start : ∀ i, i < R → (rmIter (K := K) M rs re).next^[offset rs re i] (0, rs 0) = (i, rs i) := by
    intro i
    induction i with
    | zero => intro _; simp [offset]
    | succ i ih =>
      intro hi
      have hi' : i < R := by omega
      have h1 := row i hi' (ih hi') (re i - rs i - 1) (by have := hne i hi'; omega)
      have h2 : offset rs re (i+1) = offset rs re i + (re i - rs i - 1) + 1 := by
        unfold offset; rw [Finset.sum_range_succ]; have := hne i hi'; omega
      rw [h2, Function.iterate_succ_apply', h1]
      simp only [rmIter]
      rw [if_pos (by have := hne i hi'; omega)]
  intro i hi j h1 h2
  have := row i hi (start i hi) (j - rs i) (by omega)
  rw [this]; congr 1; omega

theorem offset_mono {rs re : Nat → Nat} {i k : Nat} (h : i ≤ k) : offset rs re i ≤ offset rs re k := by
  unfold offset
  exact Finset.sum_le_sum_of_subset (Finset.range_mono h)

/-- Every position below the total belongs to a row. -/
theorem rm_cover (rs re : Nat → Nat) : ∀ R k, k < offset rs re R →
    ∃ i j, i < R ∧ rs i ≤ j ∧ j < re i ∧ k = offset rs re i + (j - rs i) := by
  intro R
  induction R with
  | zero => intro k h; simp [offset] at h
  | succ R ih =>
    intro k h
    by_cases hk : k < offset rs re R
    · obtain ⟨i, j, h1, h2, h3, h4⟩ := ih k hk
      exact ⟨i, j, by omega, h2, h3, h4⟩
    · have : offset rs re (R+1) = offset rs re R + (re R - rs R) := by
        unfold offset; rw [Finset.sum_range_succ]
      exact ⟨R, rs R + (k - offset rs re R), by omega, by omega, by omega, by omega⟩

/-- The location of the `k`-th element in row-major order. -/
noncomputable def rmLoc (M : MView) (rs re : Nat → Nat) (k : Nat) : Int :=
  let p := (rmIter (K := ℂ) M rs re).next^[k] (0, rs 0)
  M.addr p.1 p.2

theorem rm_next_eq [Star K] (M : MView) (rs re : Nat → Nat) :
    (rmIter (K := K) M rs re).next = (rmIter (K := ℂ) M rs re).next := rfl

theorem rm_visits [Star K] (M : MView) (rs re : Nat → Nat) (R n : Nat) (hn : n = offset rs re R)
    (hne : ∀ i, i < R → rs i < re i)
    (hinj : ∀ i j i' j', i < R → rs i ≤ j → j < re i → i' < R → rs i' ≤ j' → j' < re i' →
      M.addr i j = M.addr i' j' → i = i' ∧ j = j') :
    Visits (rmIter (K := K) M rs re) (0, rs 0) (rmLoc M rs re) (cj M.conj) n where
  store := by
    intro k _ x m
    rw [rm_next_eq]
    rfl
  inj := by
    intro k l hk hl h
    obtain ⟨i, j, a1, a2, a3, a4⟩ := rm_cover rs re R k (by omega)
    obtain ⟨i', j', b1, b2, b3, b4⟩ := rm_cover rs re R l (by omega)
    unfold rmLoc at h
    rw [a4, b4, rm_pos M rs re R hne i a1 j a2 a3, rm_pos M rs re R hne i' b1 j' b2 b3] at h
    obtain ⟨rfl, rfl⟩ := hinj i j i' j' a1 a2 a3 b1 b2 b3 h
    omega

/-- **C45** (matrices of any shape with non-empty rows: full, triangular, band).  With exactly as many values as
elements, the values are assigned in row-major order, whatever the storage order of the matrix; with too many in a
debug build the error is raised and nothing outside the elements is changed. -/
theorem rm_list_init {K : Type} [InvolutiveStar K] (M : MView) (rs re : Nat → Nat) (R n : Nat)
    (hn : n = offset rs re R) (hne : ∀ i, i < R → rs i < re i)
    (hinj : ∀ i j i' j', i < R → rs i ≤ j → j < re i → i' < R → rs i' ≤ j' → j' < re i' →
      M.addr i j = M.addr i' j' → i = i' ∧ j = j')
    (m : Mem K) (hl : ∀ i j, i < R → rs i ≤ j → j < re i → (m (M.addr i j)).isSome)
    (debug cxx11 : Bool) (x : K) (xs : List K) :
    ((x :: xs).length = n → ∃ m', listInit (rmIter M rs re) debug cxx11 (0, rs 0) n x xs m = .ok m' ∧
      (∀ b, (∀ i j, i < R → rs i ≤ j → j < re i → b ≠ M.addr i j) → m' b = m b) ∧
      ∀ i j, i < R → rs i ≤ j → j < re i →
        M.cref m' i j = (x :: xs)[offset rs re i + (j - rs i)]?) ∧
    (debug = true → n < (x :: xs).length →
      ∃ m', listInit (rmIter M rs re) debug cxx11 (0, rs 0) n x xs m = .threw .tooMany m' ∧
      (∀ b, (∀ i j, i < R → rs i ≤ j → j < re i → b ≠ M.addr i j) → m' b = m b)) := by
  have hv := rm_visits (K := K) M rs re R n hn hne hinj
  have pos : ∀ i j, i < R → rs i ≤ j → j < re i →
      rmLoc M rs re (offset rs re i + (j - rs i)) = M.addr i j := by
    intro i j h1 h2 h3
    unfold rmLoc
    rw [rm_pos M rs re R hne i h1 j h2 h3]
  have hlive : ∀ k, k < n → (m (rmLoc M rs re k)).isSome := by
    intro k hk
    obtain ⟨i, j, a1, a2, a3, a4⟩ := rm_cover rs re R k (by omega)
    rw [a4, pos i j a1 a2 a3]; exact hl i j a1 a2 a3
  obtain ⟨a, b, _, _⟩ := listInit_spec (rmIter (K := K) M rs re) debug cxx11 (0, rs 0) (rmLoc M rs re)
    (cj M.conj) n hv m hlive x xs
  have fr : ∀ m', Filled m m' (rmLoc M rs re) (cj M.conj) (x :: xs) n →
      ∀ b, (∀ i j, i < R → rs i ≤ j → j < re i → b ≠ M.addr i j) → m' b = m b := by
    intro m' h b hb
    apply h.2
    intro k hk _
    obtain ⟨i, j, a1, a2, a3, a4⟩ := rm_cover rs re R k (by omega)
    rw [a4, pos i j a1 a2 a3]; exact hb i j a1 a2 a3
  constructor
  · intro h
    obtain ⟨m', h1, h2⟩ := a h
    refine ⟨m', h1, fr m' h2, ?_⟩
    intro i j a1 a2 a3
    have hk : offset rs re i + (j - rs i) < n := by
      have h1 : offset rs re (i+1) = offset rs re i + (re i - rs i) := by
        unfold offset; rw [Finset.sum_range_succ]
      have h2 := offset_mono (rs := rs) (re := re) (show i + 1 ≤ R from a1)
      omega
    have := h2.1 _ (by omega) hk
    rw [pos i j a1 a2 a3] at this
    rw [List.getElem?_eq_getElem (by omega)]
    unfold MView.cref Mem.read
    rw [this, Option.map_some, cj_star]
  · intro hd h
    obtain ⟨m', h1, h2⟩ := b hd h
    exact ⟨m', h1, fr m' h2⟩

/-- **C45** (full matrices): value number `i*rowsize + j` goes to element `(i,j)`. -/
theorem mat_list_init {K : Type} [InvolutiveStar K] (M : MView) (hi : M.Inj) (m : Mem K) (hl : M.Live m)
    (debug cxx11 : Bool) (x : K) (xs : List K) :
    ((x :: xs).length = M.cs * M.rs → ∃ m', matInit debug cxx11 M x xs m = .ok m' ∧ M.Frame m m' ∧
      ∀ i j, i < M.cs → j < M.rs → M.cref m' i j = (x :: xs)[i * M.rs + j]?) ∧
    (debug = true → M.cs * M.rs < (x :: xs).length →
      ∃ m', matInit debug cxx11 M x xs m = .threw .tooMany m' ∧ M.Frame m m') := by
  by_cases h0 : M.rs = 0
  · constructor
    · intro h; rw [h0] at h; simp at h
    · intro hd _
      refine ⟨m, ?_, fun _ _ => rfl⟩
      unfold matInit listInit
      rw [if_pos ⟨hd, by simp [h0]⟩]
  have hoff : ∀ i, offset (fun _ => 0) (fun _ => M.rs) i = i * M.rs := by
    intro i; simp [offset]
  obtain ⟨a, b⟩ := rm_list_init M (fun _ => 0) (fun _ => M.rs) M.cs (M.cs * M.rs) (hoff _).symm
    (fun _ _ => by omega) (fun i j i' j' h1 _ h2 h3 _ h4 h => hi i j i' j' h1 h2 h3 h4 h) m
    (fun i j h1 _ h2 => hl i j h1 h2) debug cxx11 x xs
  have fr : ∀ m' : Mem K, (∀ b, (∀ i j, i < M.cs → 0 ≤ j → j < M.rs → b ≠ M.addr i j) → m' b = m b) →
      M.Frame m m' := by
    intro m' h p hp
    apply h
    intro i j h1 _ h2 hb
    exact hp ⟨i, j, h1, h2, hb⟩
  constructor
  · intro h
    obtain ⟨m', h1, h2, h3⟩ := a h
    refine ⟨m', h1, fr m' h2, ?_⟩
    intro i j hi hj
    rw [h3 i j hi (Nat.zero_le _) hj, hoff]; simp
  · intro hd h
    obtain ⟨m', h1, h2⟩ := b hd h
    exact ⟨m', h1, fr m' h2⟩

theorem upper_offset (n : Nat) : ∀ i, i ≤ n → 2 * offset (fun i => i) (fun _ => n) i + i * i = (2 * n + 1) * i := by
  intro i
  induction i with
  | zero => intro _; simp [offset]
  | succ i ih =>
    intro hi
    have h1 : offset (fun i => i) (fun _ => n) (i+1) = offset (fun i => i) (fun _ => n) i + (n - i) := by
      unfold offset; rw [Finset.sum_range_succ]
    have h2 := ih (by omega)
    obtain ⟨d, hd⟩ : ∃ d, n - i = d := ⟨_, rfl⟩
    have hn : n = i + d := by omega
    rw [h1, hd]
    subst hn
    nlinarith

theorem lower_offset : ∀ i, 2 * offset (fun _ => 0) (fun i => i + 1) i = i * (i + 1) := by
  intro i
  induction i with
  | zero => simp [offset]
  | succ i ih =>
    have h1 : offset (fun _ => 0) (fun i => i + 1) (i+1) = offset (fun _ => 0) (fun i => i + 1) i + (i + 1) := by
      unfold offset; rw [Finset.sum_range_succ]; rfl
    rw [h1]; nlinarith

/-- **C45** (triangular matrices): the count `n(n+1)/2` used by `<<` is the number of elements of the triangle, and
the values go to the triangle row by row. -/
theorem tri_list_init {K : Type} [InvolutiveStar K] (M : MView) (hi : M.Inj) (hsq : M.cs = M.rs) (m : Mem K)
    (hl : M.Live m) (debug cxx11 : Bool) (x : K) (xs : List K)
    (hlen : (x :: xs).length = M.rs * (M.rs + 1) / 2) :
    (∃ m', upperInit debug cxx11 M x xs m = .ok m' ∧ M.Frame m m' ∧
      ∀ i j, i ≤ j → j < M.rs → M.cref m' i j = (x :: xs)[((2 * M.rs + 1) * i - i * i) / 2 + (j - i)]?) ∧
    (∃ m', lowerInit debug cxx11 M x xs m = .ok m' ∧ M.Frame m m' ∧
      ∀ i j, j ≤ i → i < M.rs → M.cref m' i j = (x :: xs)[i * (i + 1) / 2 + j]?) := by
  constructor
  · have ho : offset (fun i => i) (fun _ => M.rs) M.rs = M.rs * (M.rs + 1) / 2 := by
      have := upper_offset M.rs M.rs le_rfl
      have h2 : 2 * offset (fun i => i) (fun _ => M.rs) M.rs = M.rs * (M.rs + 1) := by nlinarith
      omega
    obtain ⟨a, _⟩ := rm_list_init M (fun i => i) (fun _ => M.rs) M.rs (M.rs * (M.rs + 1) / 2) ho.symm
      (fun i h => h) (fun i j i' j' h1 _ h2 h3 _ h4 h => hi i j i' j' (by omega) h2 (by omega) h4 h) m
      (fun i j h1 _ h2 => hl i j (by omega) h2) debug cxx11 x xs
    obtain ⟨m', h1, h2, h3⟩ := a hlen
    refine ⟨m', h1, ?_, ?_⟩
    · intro p hp
      apply h2
      intro i j b1 _ b2 hb
      exact hp ⟨i, j, by omega, b2, hb⟩
    · intro i j hij hj
      rw [h3 i j (by omega) hij hj]
      have h4 := upper_offset M.rs i (by omega)
      have : offset (fun i => i) (fun _ => M.rs) i = ((2 * M.rs + 1) * i - i * i) / 2 := by omega
      rw [this]
  · have ho : offset (fun _ => 0) (fun i => i + 1) M.rs = M.rs * (M.rs + 1) / 2 := by
      have := lower_offset M.rs
      omega
    obtain ⟨a, _⟩ := rm_list_init M (fun _ => 0) (fun i => i + 1) M.rs (M.rs * (M.rs + 1) / 2) ho.symm
      (fun i h => by omega)
      (fun i j i' j' h1 _ h2 h3 _ h4 h => hi i j i' j' (by omega) (by omega) (by omega) (by omega) h) m
      (fun i j h1 _ h2 => hl i j (by omega) (by omega)) debug cxx11 x xs
    obtain ⟨m', h1, h2, h3⟩ := a hlen
    refine ⟨m', h1, ?_, ?_⟩
    · intro p hp
      apply h2
      intro i j b1 _ b2 hb
      exact hp ⟨i, j, by omega, by omega, hb⟩
    · intro i j hij hj
      rw [h3 i j hj (Nat.zero_le _) (by omega)]
      have h4 := lower_offset i
      have : offset (fun _ => 0) (fun i => i + 1) i = i * (i + 1) / 2 := by omega
      rw [this]; simp

/-- Non-vacuity: a 2×3 column-major matrix gets `1,2,3,4,5,6` row by row. -/
example : ∃ m', matInit true false ⟨0, 2, 3, 1, 2, false, 6⟩ (1 : ℤ) [2, 3, 4, 5, 6]
    (fun a => if 0 ≤ a ∧ a < 6 then some 0 else none) = .ok m' ∧
    (List.range 6).map (fun (k : ℕ) => m' (k : ℤ)) = [some 1, some 4, some 2, some 5, some 3, some 6] :=
  ⟨_, rfl, by decide +kernel⟩

end TMV.ListInit
