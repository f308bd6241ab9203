import Verif.Model.Sort
import Verif.Props.VecPermute
import Verif.Props.VecReduce
import Mathlib.Data.List.Sort
import Mathlib.Algebra.Order.Group.Defs

/-! Properties C09, C10: sorting. -/
namespace TMV
variable {K : Type _}

/-- **C10** core: if `newIndex` is a rearrangement of `0..n-1`, the interchange list computed by
`ConvertIndexToPermute` is normalised (`k ≤ P k < n`) and performing the interchanges brings the
element that was at `newIndex k` to `k`. -/
theorem convLoop_spec (newIndex : Nat → Nat) (N : Nat)
    (hlt : ∀ k, k < N → newIndex k < N)
    (hinj : ∀ k l, k < N → l < N → newIndex k = newIndex l → k = l) :
    ∀ (n i : Nat) (curr orig P0 : Nat → Nat), i + n = N →
      (∀ k, k < N → curr k < N) → (∀ k, k < N → orig k < N) →
      (∀ k, k < N → curr (orig k) = k) → (∀ k, k < N → orig (curr k) = k) →
      (∀ k, k < i → orig k = newIndex k) →
      (∀ k, k < i → convLoop newIndex n i curr orig P0 k = P0 k) ∧
      (∀ k, i ≤ k → k < N → k ≤ convLoop newIndex n i curr orig P0 k ∧
        convLoop newIndex n i curr orig P0 k < N) ∧
      (∀ k, k < N → orig (swapProd (convLoop newIndex n i curr orig P0) n i k) = newIndex k) := by
  intro n
  induction n with
  | zero =>
    intro i curr orig P0 hN _ _ _ _ hpre
    refine ⟨fun k _ => rfl, fun k h1 h2 => by omega, fun k hk => ?_⟩
    simpa [swapProd] using hpre k (by omega)
  | succ n ih =>
    intro i curr orig P0 hN hc ho hco hoc hpre
    set ip := curr (newIndex i) with hip
    have hiN : i < N := by omega
    have hipN : ip < N := hc _ (hlt i hiN)
    have hoip : orig ip = newIndex i := hoc _ (hlt i hiN)
    have hile : i ≤ ip := by
      by_contra h
      have h1 := hpre ip (by omega)
      rw [hoip] at h1
      have := hinj i ip hiN hipN h1
      omega
    -- the recursive call, uniformly
    set P1 := Function.update P0 i ip with hP1
    have swapo : ∀ k, (if i ≠ ip then
        Function.update (Function.update orig i (orig ip)) ip (orig i) else orig) k =
        orig (Equiv.swap i ip k) := by
      intro k
      by_cases h : i = ip
      · simp [← h]
      · rw [if_pos h]
        by_cases h1 : k = ip
        · subst h1; simp
        · by_cases h2 : k = i
          · subst h2; simp [h1]
          · simp [h1, h2, Equiv.swap_apply_of_ne_of_ne h2 h1]
    have oinj : ∀ a b, a < N → b < N → orig a = orig b → a = b := by
      intro a b ha hb h
      have := congrArg curr h
      rwa [hco a ha, hco b hb] at this
    have swapc : ∀ k, k < N → (if i ≠ ip then
        Function.update (Function.update curr (orig i) ip) (orig ip) i else curr) k =
        Equiv.swap i ip (curr k) := by
      intro k hk
      by_cases h : i = ip
      · simp [← h]
      · rw [if_pos h]
        by_cases h1 : k = orig ip
        · subst h1; simp [hco ip hipN]
        · by_cases h2 : k = orig i
          · subst h2; simp [h1, hco i hiN]
          · have a1 : curr k ≠ ip := fun e => h1 (by rw [← e, hoc k hk])
            have a2 : curr k ≠ i := fun e => h2 (by rw [← e, hoc k hk])
            simp [h1, h2, Equiv.swap_apply_of_ne_of_ne a2 a1]
    have hrec : convLoop newIndex (n+1) i curr orig P0 = convLoop newIndex n (i+1)
        (if i ≠ ip then Function.update (Function.update curr (orig i) ip) (orig ip) i else curr)
        (if i ≠ ip then Function.update (Function.update orig i (orig ip)) ip (orig i) else orig)
        P1 := by
      simp only [convLoop, ← hip]
      split <;> rfl
    set curr' := (if i ≠ ip then Function.update (Function.update curr (orig i) ip) (orig ip) i else curr)
    set orig' := (if i ≠ ip then Function.update (Function.update orig i (orig ip)) ip (orig i) else orig)
    obtain ⟨q1, q2, q3⟩ := ih (i+1) curr' orig' P1 (by omega)
      (fun k hk => by rw [swapc k hk]; exact Equiv.swap_lt hiN hipN (hc k hk))
      (fun k hk => by rw [swapo k]; exact ho _ (Equiv.swap_lt hiN hipN hk))
      (fun k hk => by
        rw [swapo k, swapc _ (ho _ (Equiv.swap_lt hiN hipN hk)), hco _ (Equiv.swap_lt hiN hipN hk)]
        simp)
      (fun k hk => by
        rw [swapc k hk, swapo]; simp [hoc k hk])
      (fun k hk => by
        rw [swapo k]
        rcases Nat.lt_succ_iff_lt_or_eq.mp hk with h | h
        · rw [Equiv.swap_apply_of_ne_of_ne (by omega) (by omega)]; exact hpre k h
        · subst h; simpa using hoip)
    rw [hrec]
    have hPi : convLoop newIndex n (i+1) curr' orig' P1 i = ip := by
      rw [q1 i (by omega), hP1]; simp
    refine ⟨?_, ?_, ?_⟩
    · intro k hk
      rw [q1 k (by omega), hP1, Function.update_of_ne (by omega)]
    · intro k h1 h2
      rcases Nat.eq_or_lt_of_le h1 with h | h
      · subst h; rw [hPi]; exact ⟨hile, hipN⟩
      · exact q2 k h h2
    · intro k hk
      have := q3 k hk
      rw [swapo] at this
      rw [swapProd, Equiv.Perm.mul_apply, hPi]
      exact this

theorem convertIndexToPermute_spec (N : Nat) (newIndex : Nat → Nat)
    (hlt : ∀ k, k < N → newIndex k < N)
    (hinj : ∀ k l, k < N → l < N → newIndex k = newIndex l → k = l) :
    (∀ k, k < N → k ≤ convertIndexToPermute N newIndex k ∧ convertIndexToPermute N newIndex k < N) ∧
    (∀ k, k < N → swapProd (convertIndexToPermute N newIndex) N 0 k = newIndex k) := by
  obtain ⟨_, h2, h3⟩ := convLoop_spec newIndex N hlt hinj N 0 id id (fun _ => 0) (by omega)
    (fun _ h => h) (fun _ h => h) (fun _ _ => rfl) (fun _ _ => rfl) (fun k hk => by omega)
  exact ⟨fun k hk => h2 k (by omega) hk, h3⟩

example : convertIndexToPermute 4 (fun k => (k + 1) % 4) 0 = 1 := by decide

/-- The contract of `std::sort` (no stability). -/
def StdSortContract {α : Type _} (cc : α → α → Bool) (srt : List α → List α) : Prop :=
  ∀ l, (srt l).Perm l ∧ (srt l).Pairwise (fun a b => cc b a = false)

theorem readKeys_spec [Star K] {R : Type _} (key : K → R) (v : VView) (m : Mem K) (x : Nat → K)
    (hx : v.Holds m x) : ∀ (n i : Nat), i + n ≤ v.size →
      v.readKeys key m n i = some ((List.range' i n).map (fun k => (key (x k), k))) := by
  intro n
  induction n with
  | zero => intro i _; rfl
  | succ n ih =>
    intro i hi
    simp only [VView.readKeys, hx i (by omega), ih (i+1) (by omega), Option.bind_eq_bind,
      Option.bind_some, List.range'_succ, List.map_cons]

/-- "the elements `y` are ordered as requested" -/
def Ordered {R : Type _} [LE R] (feat : CompType → K → R) (ad : ADType) (comp : CompType) (n : Nat)
    (y : Nat → K) : Prop :=
  ∀ i j, i < j → j < n → match ad with
    | .Ascend => feat comp (y i) ≤ feat comp (y j)
    | .Descend => feat comp (y j) ≤ feat comp (y i)

/-- **C10**.  `v.sort(p,ad,comp)`: afterwards `v` is ordered; its elements are the old elements
rearranged by performing the interchanges `p` (that is, `p` applied to the old `v`); `p` is
a valid normalised interchange list; nothing outside `v` changes.  For every view (any step and
conj flag) and every `std::sort` meeting its contract. -/
theorem sortP_spec [InvolutiveStar K] {R : Type _} [AddCommGroup R] [LinearOrder R] [IsOrderedAddMonoid R]
    (feat : CompType → K → R) (srt : List (R × Nat) → List (R × Nat))
    (hsrt : StdSortContract (fun a b => decide (a.1 < b.1)) srt)
    (v : VView) (ad : ADType) (comp : CompType) (m : Mem K) (x : Nat → K) (hw : v.WF)
    (hx : v.Holds m x) :
    ∃ m' P, v.sortP feat srt ad comp m = some (m', P) ∧
      (∀ k, k < v.size → k ≤ P k ∧ P k < v.size) ∧
      v.Holds m' (fun k => x (swapProd P v.size 0 k)) ∧
      Ordered feat ad comp v.size (fun k => x (swapProd P v.size 0 k)) ∧
      v.Frame m m' := by
  set n := v.size with hn
  set l := (List.range' 0 n).map (fun k => (vtKey feat ad comp (x k), k)) with hl
  obtain ⟨hperm, hpair⟩ := hsrt l
  set s := srt l with hs
  set idx := s.map Prod.snd with hidx
  have hidxp : idx.Perm (List.range' 0 n) := by
    have := hperm.map Prod.snd
    rw [hl, List.map_map] at this
    simpa [hidx, Function.comp_def] using this
  have hlen : idx.length = n := by rw [hidxp.length_eq]; simp
  have hslen : s.length = n := by rw [hperm.length_eq, hl]; simp
  have hnd : idx.Nodup := hidxp.nodup_iff.mpr List.nodup_range'
  set f : Nat → Nat := fun i => idx.getD i 0 with hf
  have hfget : ∀ k (hk : k < n), f k = idx[k]'(by omega) := by
    intro k hk; simp [hf, List.getD_eq_getElem?_getD, List.getElem?_eq_getElem (show k < idx.length by omega)]
  have hflt : ∀ k, k < n → f k < n := by
    intro k hk
    rw [hfget k hk]
    have : idx[k]'(by omega) ∈ idx := List.getElem_mem _
    have := hidxp.mem_iff.mp this
    simpa using this
  have hfinj : ∀ k j, k < n → j < n → f k = f j → k = j := by
    intro k j hk hj h
    rw [hfget k hk, hfget j hj] at h
    exact (List.Nodup.getElem_inj_iff hnd).mp h
  obtain ⟨hP1, hP2⟩ := convertIndexToPermute_spec n f hflt hfinj
  set P := convertIndexToPermute n f with hP
  have hlive : v.Live m := by
    intro i hi
    have := hx i hi
    simp only [VView.cref, Mem.read, Option.map_eq_some_iff] at this
    obtain ⟨y, hy, _⟩ := this
    simp [hy]
  obtain ⟨m', h1, h2, h3⟩ := permute_spec v P 0 v.size m hw hlive (by omega) le_rfl
    (fun k _ hk => (hP1 k hk).2)
  rw [Nat.sub_zero] at h2
  refine ⟨m', P, ?_, hP1, ?_, ?_, h3⟩
  · simp only [VView.sortP, readKeys_spec (vtKey feat ad comp) v m x hx v.size 0 (by omega),
      Option.bind_eq_bind, Option.bind_some]
    rw [← hn, ← hl, ← hs, ← hidx, ← hP, hn, h1]
    rfl
  · intro k hk
    simp only [VView.cref, Mem.read, h2 k hk]
    have := hx _ (swapProd_lt P v.size 0 v.size (by omega) (fun k _ h => (hP1 k (by omega)).2) k hk)
    simpa only [VView.cref, Mem.read] using this
  · -- order
    have hkey : ∀ k (hk : k < n), (s[k]'(by omega)) = (vtKey feat ad comp (x (f k)), f k) := by
      intro k hk
      have hmem : s[k]'(by omega) ∈ s := List.getElem_mem _
      have := hperm.mem_iff.mp hmem
      rw [hl, List.mem_map] at this
      obtain ⟨j, _, hj⟩ := this
      have h2' : f k = (s[k]'(by omega)).2 := by
        rw [hfget k hk]; simp [hidx]
      rw [h2', ← hj]
    intro i j hij hj
    have hi : i < n := by omega
    have hlt := List.pairwise_iff_getElem.mp hpair i j (by omega) (by omega) hij
    rw [hkey i hi, hkey j hj] at hlt
    simp only [decide_eq_false_iff_not, not_lt] at hlt
    simp only [hP2 i hi, hP2 j hj]
    cases ad with
    | Ascend => exact hlt
    | Descend => exact neg_le_neg_iff.mp hlt

/-! ### C09 -/

theorem readRange_spec (m : Mem K) (y : Nat → K) : ∀ (n i : Nat) (p : Int),
    (∀ k, i ≤ k → k < i + n → m (p + (k - i : Nat)) = some (y k)) →
    readRange m n p = some ((List.range' i n).map y) := by
  intro n
  induction n with
  | zero => intros; rfl
  | succ n ih =>
    intro i p h
    have h0 : m p = some (y i) := by simpa using h i le_rfl (by omega)
    have := ih (i+1) (p+1) (by
      intro k h1 h2
      have := h k (by omega) (by omega)
      rw [← this]; congr 1
      have : ((k - i : Nat) : Int) = (k - (i+1) : Nat) + 1 := by omega
      rw [this]; ring)
    simp [readRange, Mem.read, h0, this, List.range'_succ]

theorem writeRange_spec : ∀ (l : List K) (p : Int) (m : Mem K),
    (∀ i : Nat, i < l.length → (m (p + i)).isSome) →
    ∃ m', writeRange l p m = some m' ∧
      (∀ i : Nat, (h : i < l.length) → m' (p + i) = some (l[i])) ∧
      (∀ a, (∀ i : Nat, i < l.length → a ≠ p + i) → m' a = m a) := by
  intro l
  induction l with
  | nil => intro p m _; exact ⟨m, rfl, by intro i h; simp at h, fun _ _ => rfl⟩
  | cons x l ih =>
    intro p m hl
    have h0 : (m p).isSome := by simpa using hl 0 (by simp)
    obtain ⟨m', a, b, c⟩ := ih (p+1) (fun b => if b = p then some x else m b) (by
      intro i hi
      have := hl (i+1) (by simp; omega)
      have e : p + ((i + 1 : Nat) : Int) = p + 1 + i := by push_cast; ring
      rw [e] at this
      split
      · rfl
      · exact this)
    refine ⟨m', by simp [writeRange, Mem.write_of_isSome _ h0, a], ?_, ?_⟩
    · intro i hi
      cases i with
      | zero =>
        have := c p (by intro i _; omega)
        simp [this]
      | succ i =>
        have e : p + ((i + 1 : Nat) : Int) = p + 1 + i := by push_cast; ring
        rw [e]
        exact b i (by simpa using hi)
    · intro z hz
      rw [c z]
      · have : z ≠ p := by simpa using hz 0 (by simp)
        simp [this]
      · intro i hi
        have := hz (i+1) (by simp; omega)
        have e : p + ((i + 1 : Nat) : Int) = p + 1 + i := by push_cast; ring
        rwa [e] at this

/-- **C09, partial**: for contiguous views (`step = 1`, conjugated or not) `sort(ad,comp)` orders the
elements, which are a rearrangement of the old ones, and changes nothing else.  Missing: views
with step ≠ 1, where the code sorts the wrong memory (`sortNoP_strided_violated`,
`sortNoP_reversed_violated`). -/
theorem sortNoP_spec_partial [InvolutiveStar K] {R : Type _} [AddCommGroup R] [LinearOrder R]
    [IsOrderedAddMonoid R] (feat : CompType → K → R)
    (hre : ∀ x, feat .RealComp (star x) = feat .RealComp x)
    (hab : ∀ x, feat .AbsComp (star x) = feat .AbsComp x)
    (him : ∀ x, feat .ImagComp (star x) = -feat .ImagComp x)
    (har : ∀ x, feat .ArgComp (star x) = -feat .ArgComp x)
    (srt : (K → K → Bool) → List K → List K)
    (hsrt : ∀ ad comp, StdSortContract (compareT feat ad comp) (srt (compareT feat ad comp)))
    (v : VView) (ad : ADType) (comp : CompType) (m : Mem K) (x : Nat → K) (h1 : v.step = 1)
    (hx : v.Holds m x) :
    ∃ m' y, v.sortNoP feat srt ad comp m = some m' ∧ v.Holds m' y ∧
      Ordered feat ad comp v.size y ∧
      ((List.range v.size).map y).Perm ((List.range v.size).map x) ∧ v.Frame m m' := by
  set ad' : ADType := if v.conj && (comp == .ImagComp || comp == .ArgComp) then
      (match ad with | .Ascend => .Descend | .Descend => .Ascend) else ad with had
  have hraw := hx.raw
  rw [h1] at hraw
  have hr := readRange_spec m (fun i => cj v.conj (x i)) v.size 0 v.ptr
    (by intro k _ hk; have := hraw k (by omega); simpa using this)
  rw [← List.range_eq_range'] at hr
  set l := (List.range v.size).map (fun i => cj v.conj (x i)) with hl
  obtain ⟨hperm, hpair⟩ := hsrt ad' comp l
  set s := srt (compareT feat ad' comp) l with hs
  have hslen : s.length = v.size := by rw [hperm.length_eq, hl]; simp
  obtain ⟨m', a, b, c⟩ := writeRange_spec s v.ptr m (by
    intro i hi
    have := hraw i (by omega)
    simp only [mul_one] at this
    simp [this])
  set d : K := cj v.conj (s.getD 0 (x 0)) with hd
  refine ⟨m', fun i => cj v.conj (s.getD i (x 0)), ?_, ?_, ?_, ?_, ?_⟩
  · simp only [VView.sortNoP, hr, Option.bind_eq_bind, Option.bind_some]; exact a
  · intro i hi
    have := b i (by omega)
    simp only [VView.cref, Mem.read, VView.addr, h1, mul_one, this, Option.map_some]
    simp [List.getD_eq_getElem?_getD, List.getElem?_eq_getElem (show i < s.length by omega)]
  · intro i j hij hj
    have hlt := List.pairwise_iff_getElem.mp hpair i j (by omega) (by omega) hij
    have gi : s.getD i (x 0) = s[i]'(by omega) := by
      simp [List.getD_eq_getElem?_getD, List.getElem?_eq_getElem (show i < s.length by omega)]
    have gj : s.getD j (x 0) = s[j]'(by omega) := by
      simp [List.getD_eq_getElem?_getD, List.getElem?_eq_getElem (show j < s.length by omega)]
    simp only [gi, gj]
    revert hlt
    generalize s[i]'(by omega) = p
    generalize s[j]'(by omega) = q
    intro hlt
    cases hc : v.conj
    · have : ad' = ad := by rw [had]; simp [hc]
      rw [this] at hlt
      cases ad <;> simpa [compareT, cj] using hlt
    · cases comp <;> cases ad <;>
        simp [had, hc, compareT, cj, hre, hab, him, har] at hlt ⊢ <;> exact hlt
  · have e : (List.range v.size).map (fun i => cj v.conj (s.getD i (x 0))) = s.map (cj v.conj) := by
      apply List.ext_getElem
      · simp [hslen]
      · intro i h1 h2
        have : i < s.length := by simpa using h2
        simp [List.getD_eq_getElem?_getD, List.getElem?_eq_getElem this]
    rw [e]
    have := hperm.map (cj v.conj)
    rw [hl, List.map_map] at this
    have e2 : (cj v.conj ∘ fun i => cj v.conj (x i)) = x := by funext i; simp [cj_cj]
    rwa [e2] at this
  · intro z hz
    apply c
    intro i hi e
    exact hz ⟨i, by omega, by simp [VView.addr, h1, e]⟩

/-- **C09 violated**: on the strided view (elements 0 and 2) of memory `[3,5,1]`, sorting (with any
correct `std::sort`) leaves the view reading `3, 1`, which is not ordered. -/
theorem sortNoP_strided_violated (srt : (Int → Int → Bool) → List Int → List Int)
    (hsrt : ∀ ad comp, StdSortContract (compareT (fun _ x => x) ad comp) (srt (compareT (fun _ x => x) ad comp))) :
    ∃ (v : VView) (m m' : Mem Int), v.WF ∧ v.Live m ∧
      v.sortNoP (fun _ x => x) srt .Ascend .RealComp m = some m' ∧
      v.cref m' 0 = some 3 ∧ v.cref m' 1 = some 1 := by
  have hs : srt (compareT (fun _ x => x) .Ascend .RealComp) [3, 5] = [3, 5] := by
    obtain ⟨hp, hq⟩ := hsrt .Ascend .RealComp [3, 5]
    have hsorted : (srt (compareT (fun _ x => x) .Ascend .RealComp) [3, 5]).Pairwise (· ≤ ·) := by
      refine hq.imp ?_
      intro a b h
      simpa [compareT] using h
    exact List.Perm.eq_of_pairwise (fun a b _ _ h1 h2 => le_antisymm h1 h2) hsorted (by decide) hp
  refine ⟨⟨0, 2, 2, false⟩, fun a => if a = 0 then some 3 else if a = 1 then some 5 else if a = 2 then some 1 else none,
    fun a => if a = 1 then some 5 else if a = 0 then some 3 else if a = 2 then some 1 else none, Or.inl (by norm_num), ?_, ?_, ?_, ?_⟩
  · intro i hi
    have : i = 0 ∨ i = 1 := by simp at hi; omega
    rcases this with h | h <;> subst h <;> simp [VView.addr]
  · simp only [VView.sortNoP, readRange, Mem.read]
    norm_num [hs, writeRange, Mem.write]
    funext a
    split
    · rfl
    · split <;> rfl
  · simp [VView.cref, VView.addr, Mem.read, cj]
  · simp [VView.cref, VView.addr, Mem.read, cj]

/-- **C09 violated**: sorting a reversed view reads memory past the end of the array (undefined
behaviour). -/
theorem sortNoP_reversed_violated (srt : (Int → Int → Bool) → List Int → List Int) :
    ∃ (v : VView) (m : Mem Int), v.WF ∧ v.Live m ∧
      v.sortNoP (fun _ x => x) srt .Ascend .RealComp m = none := by
  refine ⟨(⟨0, 3, 1, false⟩ : VView).reverse, fun a => if 0 ≤ a ∧ a < 3 then some a else none,
    Or.inl (by norm_num [VView.reverse]), ?_, ?_⟩
  · intro i hi
    have : i = 0 ∨ i = 1 ∨ i = 2 := by simp [VView.reverse] at hi; omega
    rcases this with h | h | h <;> subst h <;> simp [VView.addr, VView.reverse]
  · simp [VView.sortNoP, VView.reverse, readRange, Mem.read]

/-- The contract is satisfiable (merge sort). -/
example : StdSortContract (fun a b : Int => decide (a < b)) (fun l => l.mergeSort (fun a b => decide (a ≤ b))) := by
  intro l
  refine ⟨List.mergeSort_perm l _, ?_⟩
  have := List.pairwise_mergeSort (le := fun a b : Int => decide (a ≤ b))
    (by intro a b c h1 h2; simp at *; omega) (by intro a b; simp; omega) l
  refine this.imp ?_
  intro a b h; simpa using h

end TMV
