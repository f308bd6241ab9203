import Verif.Props.SmallElem
import Verif.Spec.SmallMat
import Verif.Spec.Pinv

/-! From element functions to arrays in either storage order (lemmas for C112-C114). -/
namespace TMV.SmallDiv
noncomputable section
open Classical

variable {K : Type} [RCLike K]

theorem idx_lt {rm : Bool} {M N i j : Nat} (hi : i < M) (hj : j < N) : idx rm M N i j < M*N := by
  unfold idx
  cases rm
  · simp only [Bool.false_eq_true, if_false]
    nlinarith
  · simp only [if_true]
    nlinarith

theorem idx_inj {rm : Bool} {M N i j i' j' : Nat} (hi : i < M) (hj : j < N) (hi' : i' < M) (hj' : j' < N) :
    idx rm M N i j = idx rm M N i' j' ↔ i = i' ∧ j = j' := by
  constructor
  · unfold idx
    cases rm
    · simp only [Bool.false_eq_true, if_false]
      intro h
      have h1 : j = j' := by
        rcases Nat.lt_trichotomy j j' with h2 | h2 | h2
        · nlinarith
        · exact h2
        · nlinarith
      subst h1
      exact ⟨by omega, rfl⟩
    · simp only [if_true]
      intro h
      have h1 : i = i' := by
        rcases Nat.lt_trichotomy i i' with h2 | h2 | h2
        · nlinarith
        · exact h2
        · nlinarith
      subst h1
      exact ⟨rfl, by omega⟩
  · rintro ⟨rfl, rfl⟩; rfl

theorem idx_surj {rm : Bool} {M N k : Nat} (hk : k < M*N) : ∃ i j, i < M ∧ j < N ∧ idx rm M N i j = k := by
  have hM : 0 < M := Nat.pos_of_ne_zero (by rintro rfl; simp at hk)
  have hN : 0 < N := Nat.pos_of_ne_zero (by rintro rfl; simp at hk)
  cases rm
  · refine ⟨k % M, k / M, Nat.mod_lt _ hM, (Nat.div_lt_iff_lt_mul hM).mpr (by rwa [Nat.mul_comm]), ?_⟩
    simp only [idx, Bool.false_eq_true, if_false]
    rw [Nat.mul_comm]; exact Nat.div_add_mod _ _
  · refine ⟨k / N, k % N, (Nat.div_lt_iff_lt_mul hN).mpr hk, Nat.mod_lt _ hN, ?_⟩
    simp only [idx, if_true]
    rw [Nat.mul_comm]; exact Nat.div_add_mod _ _

theorem idx_not (rm : Bool) (M N i j : Nat) : idx (!rm) N M j i = idx rm M N i j := by
  cases rm <;> rfl

/-- The array `m` holds the `M`×`N` elements of `A`; outside of it nothing differs from `m0`. -/
def Rel (rm : Bool) (M N : Nat) (m0 m : Nat → K) (A : Nat → Nat → K) : Prop :=
  (∀ i j, i < M → j < N → m (idx rm M N i j) = A i j) ∧ SameOutside (M*N) m m0

theorem Rel.refl (rm : Bool) (M N : Nat) (m : Nat → K) : Rel rm M N m m fun i j => m (idx rm M N i j) :=
  ⟨fun _ _ _ _ => rfl, fun _ _ => rfl⟩

section
variable {rm : Bool} {M N : Nat} {m0 m : Nat → K} {A B : Nat → Nat → K}

theorem Rel.get (h : Rel rm M N m0 m A) {i j : Nat} (hi : i < M) (hj : j < N) : (flat rm M N).get m i j = elem.get A i j := h.1 i j hi hj

theorem Rel.set (h : Rel rm M N m0 m A) {i j : Nat} (hi : i < M) (hj : j < N) {x y : K} (hxy : x = y) :
    Rel rm M N m0 ((flat rm M N).set m i j x) (elem.set A i j y) := by
  subst hxy
  refine ⟨fun i' j' hi' hj' => ?_, fun k hk => ?_⟩
  · simp only [flat, elem, setE]
    by_cases he : i' = i ∧ j' = j
    · rw [if_pos he, he.1, he.2, Function.update_self]
    · rw [if_neg he, Function.update_of_ne (fun h' => he ((idx_inj hi' hj' hi hj).mp h')), h.1 i' j' hi' hj']
  · have := idx_lt (rm := rm) hi hj
    simp only [flat]
    rw [Function.update_of_ne (by omega), h.2 k hk]

theorem Rel.congr (h : Rel rm M N m0 m A) (hAB : ∀ i j, i < M → j < N → A i j = B i j) : Rel rm M N m0 m B :=
  ⟨fun i j hi hj => by rw [h.1 i j hi hj, hAB i j hi hj], h.2⟩

theorem Rel.tr (h : Rel rm M N m0 m A) : Rel (!rm) N M m0 m fun i j => A j i :=
  ⟨fun i j hi hj => by rw [idx_not]; exact h.1 j i hj hi, fun k hk => h.2 k (by rwa [Nat.mul_comm])⟩

theorem Rel.smat (h : Rel rm M N m0 m A) : smat rm M N m = matOf M N A := by
  ext i j
  exact h.1 i j i.2 j.2

end

/-! ### Loops -/

theorem up_rel {S T : Type} {R : S → T → Prop} {f : Nat → S → S} {g : Nat → T → T} (n lo : Nat)
    (h : ∀ i s t, lo ≤ i → i < lo + n → R s t → R (f i s) (g i t)) (s : S) (t : T) (hst : R s t) : R (up f n lo s) (up g n lo t) := by
  induction n generalizing lo s t with
  | zero => exact hst
  | succ n ih => exact ih (lo+1) (fun i s t h1 h2 => h i s t (by omega) (by omega)) _ _ (h lo s t le_rfl (by omega) hst)

theorem down_rel {S T : Type} {R : S → T → Prop} {f : Nat → S → S} {g : Nat → T → T} (n : Nat)
    (h : ∀ i s t, i < n → R s t → R (f i s) (g i t)) (s : S) (t : T) (hst : R s t) : R (down f n s) (down g n t) := by
  induction n generalizing s t with
  | zero => exact hst
  | succ n ih => exact ih (fun i s t h1 => h i s t (by omega)) _ _ (h n s t (by omega) hst)

/-- Both fail, or both succeed with related results. -/
def ORel {S T : Type} (R : S → T → Prop) : Option S → Option T → Prop
  | none, none => True
  | some s, some t => R s t
  | _, _ => False

theorem ORel.bind {S T S' T' : Type} {R : S → T → Prop} {R' : S' → T' → Prop} {a : Option S} {b : Option T} (h : ORel R a b)
    {f : S → Option S'} {g : T → Option T'} (hfg : ∀ s t, R s t → ORel R' (f s) (g t)) : ORel R' (a.bind f) (b.bind g) := by
  cases a <;> cases b <;> first | trivial | exact h.elim | exact hfg _ _ h

theorem ORel.map {S T S' T' : Type} {R : S → T → Prop} {R' : S' → T' → Prop} {a : Option S} {b : Option T} (h : ORel R a b)
    {f : S → S'} {g : T → T'} (hfg : ∀ s t, R s t → R' (f s) (g t)) : ORel R' (a.map f) (b.map g) := by
  cases a <;> cases b <;> first | trivial | exact h.elim | exact hfg _ _ h

theorem ORel.some_right {S T : Type} {R : S → T → Prop} {a : Option S} {t : T} (h : ORel R a (some t)) : ∃ s, a = some s ∧ R s t := by
  cases a with
  | none => exact h.elim
  | some s => exact ⟨s, rfl, h⟩

theorem forDown_rel {S T : Type} {R : S → T → Prop} {f : Nat → S → Option S} {g : Nat → T → Option T} (n : Nat)
    (h : ∀ i s t, i < n → R s t → ORel R (f i s) (g i t)) (s : S) (t : T) (hst : R s t) : ORel R (forDown f n s) (forDown g n t) := by
  induction n generalizing s t with
  | zero => exact hst
  | succ n ih => exact (h n s t (by omega) hst).bind fun s t hst => ih (fun i s t h1 => h i s t (by omega)) s t hst

theorem forRange_rel {S T : Type} {R : S → T → Prop} {f : Nat → S → Option S} {g : Nat → T → Option T} (n lo : Nat)
    (h : ∀ i s t, lo ≤ i → i < lo + n → R s t → ORel R (f i s) (g i t)) (s : S) (t : T) (hst : R s t) :
    ORel R (forRange f n lo s) (forRange g n lo t) := by
  induction n generalizing lo s t with
  | zero => exact hst
  | succ n ih => exact (h lo s t le_rfl (by omega) hst).bind fun s t hst => ih (lo+1) (fun i s t h1 h2 => h i s t (by omega) (by omega)) s t hst

/-! ### The kernels -/

section
variable {rm : Bool} {m0 m : Nat → K} {A : Nat → Nat → K}

theorem lDivEqL_rel {N nc : Nat} (L : Nat → Nat → K) (h : Rel rm N nc m0 m A) :
    Rel rm N nc m0 (lDivEqL (flat rm N nc) N nc L m) (lDivEqL elem N nc L A) := by
  unfold lDivEqL
  refine up_rel N 0 (fun j s t _ hj h => ?_) _ _ h
  refine up_rel nc 0 (fun k s t _ hk h => ?_) _ _ h
  refine up_rel _ _ (fun i s t _ hi h => ?_) _ _ h
  exact h.set (by omega) (by omega) (by rw [h.get (by omega) (by omega), h.get (by omega) (by omega)])

theorem lDivEqU_rel {N nc : Nat} (U : Nat → Nat → K) (h : Rel rm N nc m0 m A) :
    ORel (Rel rm N nc m0) (lDivEqU (flat rm N nc) N nc U m) (lDivEqU elem N nc U A) := by
  unfold lDivEqU
  refine forDown_rel N (fun j s t hj h => ?_) _ _ h
  by_cases hz : U j j = 0
  · rw [if_pos hz, if_pos hz]; trivial
  · rw [if_neg hz, if_neg hz]
    refine up_rel (R := Rel rm N nc m0) nc 0 (fun k s t _ hk h => ?_) _ _ h
    refine up_rel _ _ (fun i s t _ hi h => ?_) _ _ (h.set (by omega) (by omega) (by rw [h.get (by omega) (by omega)]))
    exact h.set (by omega) (by omega) (by rw [h.get (by omega) (by omega), h.get (by omega) (by omega)])

theorem rDivEqU_rel {M N nr : Nat} (hNM : N ≤ M) (U : Nat → Nat → K) (h : Rel rm nr M m0 m A) :
    ORel (Rel rm nr M m0) (rDivEqU (flat rm nr M) N nr U m) (rDivEqU elem N nr U A) := by
  unfold rDivEqU
  refine forRange_rel N 0 (fun j s t _ hj h => ?_) _ _ h
  by_cases hz : U j j = 0
  · rw [if_pos hz, if_pos hz]; trivial
  · rw [if_neg hz, if_neg hz]
    refine up_rel (R := Rel rm nr M m0) nr 0 (fun k s t _ hk h => ?_) _ _ h
    have h2 := up_rel (R := Rel rm nr M m0) j 0 (f := fun i m => (flat rm nr M).set m k j ((flat rm nr M).get m k j - (flat rm nr M).get m k i * U i j))
      (g := fun i m => elem.set m k j (elem.get m k j - elem.get m k i * U i j)) (fun i s t _ hi h =>
        h.set (by omega) (by omega) (by rw [h.get (by omega) (by omega), h.get (by omega) (by omega)])) _ _ h
    exact h2.set (by omega) (by omega) (by rw [h2.get (by omega) (by omega)])

theorem qLDivEq_rel {M N nc : Nat} (hNM : N ≤ M) (Q : Nat → Nat → K) (β : Nat → K) (h : Rel rm M nc m0 m A) :
    Rel rm M nc m0 (qLDivEq (flat rm M nc) M N nc Q β m) (qLDivEq elem M N nc Q β A) := by
  unfold qLDivEq
  refine up_rel N 0 (fun j s t _ hj h => ?_) _ _ h
  by_cases hz : β j ≠ 0
  · rw [if_pos hz, if_pos hz]
    refine up_rel nc 0 (fun k s t _ hk h => ?_) _ _ h
    unfold hlCol
    dsimp only
    have ht : up (fun i t => t + star (Q i j) * (flat rm M nc).get s i k) (M-(j+1)) (j+1) 0 =
        up (fun i u => u + star (Q i j) * elem.get t i k) (M-(j+1)) (j+1) 0 :=
      up_rel (R := Eq) _ _ (fun i s t h1 h2 h3 => by rw [h3, h.get (by omega) (by omega)]) _ _ rfl
    rw [ht, h.get (by omega) (by omega)]
    refine up_rel _ _ (fun i s t _ hi h => ?_) _ _ (h.set (by omega) (by omega) rfl)
    exact h.set (by omega) (by omega) (by rw [h.get (by omega) (by omega)])
  · rw [if_neg hz, if_neg hz]; exact h

theorem qRDivEq_rel {M N nr : Nat} (hNM : N ≤ M) (Q : Nat → Nat → K) (β : Nat → K) (h : Rel rm nr M m0 m A) :
    Rel rm nr M m0 (qRDivEq (flat rm nr M) M N nr Q β m) (qRDivEq elem M N nr Q β A) := by
  unfold qRDivEq
  refine down_rel N (fun j s t hj h => ?_) _ _ h
  by_cases hz : β j ≠ 0
  · rw [if_pos hz, if_pos hz]
    refine up_rel nr 0 (fun k s t _ hk h => ?_) _ _ h
    unfold hrRow
    dsimp only
    have ht : up (fun i t => t + Q i j * (flat rm nr M).get s k i) (M-(j+1)) (j+1) 0 =
        up (fun i u => u + Q i j * elem.get t k i) (M-(j+1)) (j+1) 0 :=
      up_rel (R := Eq) _ _ (fun i s t h1 h2 h3 => by rw [h3, h.get (by omega) (by omega)]) _ _ rfl
    rw [ht, h.get (by omega) (by omega)]
    refine up_rel _ _ (fun i s t _ hi h => ?_) _ _ (h.set (by omega) (by omega) rfl)
    exact h.set (by omega) (by omega) (by rw [h.get (by omega) (by omega)])
  · rw [if_neg hz, if_neg hz]; exact h

end

/-! ### Copies -/

theorem up_update (n : Nat) (g : Nat → K) (m : Nat → K) : up (fun i m => Function.update m i (g i)) n 0 m = fun k => if k < n then g k else m k := by
  have := up_inv (fun i m => Function.update m i (g i)) (fun i s => s = fun k => if k < i then g k else m k) n 0 m (by funext k; simp) (by
    intro i s _ _ hs
    funext k
    by_cases hk : k = i
    · subst hk; rw [Function.update_self, if_pos (by omega)]
    · rw [Function.update_of_ne hk, hs]
      dsimp only
      by_cases h2 : k < i
      · rw [if_pos h2, if_pos (by omega)]
      · rw [if_neg h2, if_neg (by omega)])
  rw [Nat.zero_add] at this
  exact this

theorem zeroAll_rel (rm : Bool) (M N : Nat) (m : Nat → K) : Rel rm M N m (zeroAll (M*N) m) fun _ _ => 0 := by
  unfold zeroAll
  rw [up_update]
  refine ⟨fun i j hi hj => if_pos (idx_lt hi hj), fun k hk => if_neg (by omega)⟩

/-- Storing the elements `g i j` (any order over a rectangle). -/
theorem store_rel {rm : Bool} {M N r c : Nat} (hr : r ≤ M) (hc : c ≤ N) (g : Nat → Nat → K) {m0 m : Nat → K} {A : Nat → Nat → K} (h : Rel rm M N m0 m A) :
    Rel rm M N m0 (up (fun i m => up (fun j m => (flat rm M N).set m i j (g i j)) c 0 m) r 0 m)
      fun i j => if i < r ∧ j < c then g i j else A i j := by
  have h2 : Rel rm M N m0 (up (fun i m => up (fun j m => (flat rm M N).set m i j (g i j)) c 0 m) r 0 m)
      (up (fun i m => up (fun j m => elem.set m i j (g i j)) c 0 m) r 0 A) := by
    refine up_rel r 0 (fun i s t _ hi h => ?_) _ _ h
    refine up_rel c 0 (fun j s t _ hj h => ?_) _ _ h
    exact h.set (by omega) (by omega) rfl
  have e : up (fun i m => up (fun j m => elem.set m i j (g i j)) c 0 m) r 0 A = fun i j => if i < r ∧ j < c then g i j else A i j := by
    have hin : ∀ i (m : Nat → Nat → K), up (fun j m => elem.set m i j (g i j)) c 0 m = fun a b => if a = i ∧ b < c then g a b else m a b := by
      intro i m
      rw [up_key (fun _ b => b)]
      · funext a b; simp only [elem, setE]; grind
      · intro j B h1 h2 hB a b
        have e1 := hB a b
        simp only [elem, setE]; grind
    simp only [hin]
    rw [up_key (fun a _ => a)]
    · funext a b; grind
    · intro j B h1 h2 hB a b
      have e1 := hB a b
      grind
  rw [← e]; exact h2

theorem copy_rel (M N : Nat) (s1 s2 : Bool) (m1 m2 : Nat → K) : Rel s2 M N m2 (copy M N s1 s2 m1 m2) fun i j => m1 (idx s1 M N i j) := by
  unfold copy
  by_cases h : s1 = s2
  · rw [if_pos h, up_update]
    subst h
    exact ⟨fun i j hi hj => if_pos (idx_lt hi hj), fun k hk => if_neg (by omega)⟩
  · rw [if_neg h]
    have := store_rel (rm := s2) (M := M) (N := N) le_rfl le_rfl (fun i j => m1 (idx s1 M N i j)) (Rel.refl s2 M N m2)
    exact this.congr fun i j hi hj => by rw [if_pos ⟨hi, hj⟩]

/-- The local copy has the elements of the matrix. -/
theorem loc_copy (s : Bool) (M N : Nat) (m q0 : Nat → K) {i j : Nat} (hi : i < M) (hj : j < N) :
    loc M (copy M N s false m q0) i j = m (idx s M N i j) := (copy_rel M N s false m q0).1 i j hi hj

/-- The local copy of the transposed matrix. -/
theorem loc_copy_tr (s : Bool) (M N : Nat) (m q0 : Nat → K) {i j : Nat} (hi : i < N) (hj : j < M) :
    loc N (copy M N s true m q0) i j = m (idx s M N j i) := (copy_rel M N s true m q0).1 j i hj hi

end
end TMV.SmallDiv
