import Verif.Props.SmallProdLem
import Mathlib.LinearAlgebra.Matrix.Hadamard
import Mathlib.LinearAlgebra.Matrix.Notation

/-! C117: products, outer products and element-wise products of `SmallVector`s and `SmallMatrix`es, for every size and every combination
of storage orders. -/
namespace TMV.SmallProd
noncomputable section
open TMV.SmallDiv Finset Matrix

variable {K : Type} [RCLike K]

/-! ### Reading the arrays as matrices -/

theorem smat_mul_apply (M N L : Nat) (sa sb : Bool) (A B : Nat → K) (i : Fin M) (j : Fin N) :
    (smat sa M L A * smat sb L N B) i j = ∑ k ∈ range L, A (idx sa M L i k) * B (idx sb L N k j) := by
  rw [Matrix.mul_apply]
  exact Fin.sum_univ_eq_sum_range (fun k => A (idx sa M L i k) * B (idx sb L N k j)) L

theorem mulVec_apply' (M N : Nat) (s : Bool) (A x : Nat → K) (i : Fin M) :
    (smat s M N A *ᵥ svec N x) i = ∑ j ∈ range N, A (idx s M N i j) * x j :=
  Fin.sum_univ_eq_sum_range (fun j => A (idx s M N i j) * x j) N

theorem vecMul_apply' (M N : Nat) (s : Bool) (x A : Nat → K) (j : Fin N) :
    (svec M x ᵥ* smat s M N A) j = ∑ i ∈ range M, x i * A (idx s M N i j) :=
  Fin.sum_univ_eq_sum_range (fun i => x i * A (idx s M N i j)) M

theorem Rel.out {s : Bool} {M N : Nat} {c0 c : Nat → K} {C : Nat → Nat → K} (h : Rel s M N c0 c C) {X : Matrix (Fin M) (Fin N) K}
    (hX : ∀ (i : Fin M) (j : Fin N), C i j = X i j) : smat s M N c = X ∧ SameOutside (M*N) c c0 := by
  refine ⟨?_, h.2⟩
  rw [h.smat]
  ext i j
  exact hX i j

theorem vec_out {n : Nat} {y0 y : Nat → K} (g : Nat → K) (h : y = fun k => if k < n then g k else y0 k) {X : Fin n → K} (hX : ∀ i : Fin n, g i = X i) :
    svec n y = X ∧ SameOutside n y y0 := by
  subst h
  refine ⟨?_, fun k hk => if_neg (by omega)⟩
  funext i
  rw [← hX i]
  exact if_pos i.2

/-! ### Matrix times matrix -/

section MM
variable (M N L : Nat) (sa sb sc : Bool) (A B C : Nat → K)

theorem multMM1_spec : smat sc M N (multMM1 M N L sa sb sc A B C) = smat sa M L A * smat sb L N B ∧
    SameOutside (M*N) (multMM1 M N L sa sb sc A B C) C := by
  refine Rel.out (C := fun i j => ∑ k ∈ range L, A (idx sa M L i k) * B (idx sb L N k j)) ?_ fun i j => (smat_mul_apply M N L sa sb A B i j).symm
  have h1 := prod_rel (L := L) sa sb sc (fun x => x) A B (zero_rel sc M N C) (fun _ _ => rfl) (fun o x => x + o) (fun _ _ => rfl) (fun _ _ => rfl)
  unfold multMM1
  by_cases h : !sa ∧ !sc
  · rw [if_pos h] at h1 ⊢
    exact h1.congr fun i j _ _ => add_zero _
  · rw [if_neg h] at h1 ⊢
    by_cases h2 : sb ∧ sc
    · rw [if_pos h2] at h1 ⊢
      exact h1.congr fun i j _ _ => add_zero _
    · rw [if_neg h2]
      exact (up_modM sc M N (fun i j _ => inner M N L sa sb A B i j) (Rel.refl sc M N C)).congr fun i j _ _ => inner_eq M N L sa sb A B i j

theorem multMM_spec (α : K) : smat sc M N (multMM M N L sa sb sc α A B C) = α • (smat sa M L A * smat sb L N B) ∧
    SameOutside (M*N) (multMM M N L sa sb sc α A B C) C := by
  refine Rel.out (C := fun i j => α * ∑ k ∈ range L, A (idx sa M L i k) * B (idx sb L N k j)) ?_
    fun i j => by rw [Matrix.smul_apply, smat_mul_apply, smul_eq_mul]
  have h1 := prod_rel (L := L) sa sb sc (fun x => α * x) A B (zero_rel sc M N C) (fun _ _ => (mul_assoc _ _ _).symm) (fun o x => α * x + o)
    (fun _ _ => mul_add _ _ _) (fun _ _ => rfl)
  unfold multMM
  by_cases h : !sa ∧ !sc
  · rw [if_pos h] at h1 ⊢
    exact h1.congr fun i j _ _ => add_zero _
  · rw [if_neg h] at h1 ⊢
    by_cases h2 : sb ∧ sc
    · rw [if_pos h2] at h1 ⊢
      exact h1.congr fun i j _ _ => add_zero _
    · rw [if_neg h2]
      exact (up_modM sc M N (fun i j _ => α * inner M N L sa sb A B i j) (Rel.refl sc M N C)).congr fun i j _ _ => by rw [inner_eq]

theorem addMultMM1_spec : smat sc M N (addMultMM1 M N L sa sb sc A B C) = smat sc M N C + smat sa M L A * smat sb L N B ∧
    SameOutside (M*N) (addMultMM1 M N L sa sb sc A B C) C :=
  Rel.out (prod_rel (L := L) sa sb sc (fun x => x) A B (Rel.refl sc M N C) (fun _ _ => rfl) (fun o x => o + x) (fun _ _ => rfl) (fun _ _ => add_comm _ _))
    fun i j => by rw [Matrix.add_apply, smat_mul_apply, add_comm]; rfl

theorem addMultMMm1_spec : smat sc M N (addMultMMm1 M N L sa sb sc A B C) = smat sc M N C - smat sa M L A * smat sb L N B ∧
    SameOutside (M*N) (addMultMMm1 M N L sa sb sc A B C) C :=
  Rel.out (prod_rel (L := L) sa sb sc (fun x => -x) A B (Rel.refl sc M N C) (fun _ _ => (neg_mul _ _).symm) (fun o x => o - x)
    (fun _ _ => by ring) (fun _ _ => by ring)) fun i j => by rw [Matrix.sub_apply, smat_mul_apply, neg_add_eq_sub]; rfl

theorem addMultMM_spec (α : K) : smat sc M N (addMultMM M N L sa sb sc α A B C) = smat sc M N C + α • (smat sa M L A * smat sb L N B) ∧
    SameOutside (M*N) (addMultMM M N L sa sb sc α A B C) C :=
  Rel.out (prod_rel (L := L) sa sb sc (fun x => α * x) A B (Rel.refl sc M N C) (fun _ _ => (mul_assoc _ _ _).symm) (fun o x => o + α * x)
    (fun _ _ => mul_add _ _ _) (fun _ _ => add_comm _ _)) fun i j => by
      rw [Matrix.add_apply, Matrix.smul_apply, smat_mul_apply, smul_eq_mul, add_comm]; rfl

/-- `m -= x*(a*b)`. -/
theorem subXMM_spec (x : K) : smat sc M N (subXMM M N L sa sb sc x A B C) = smat sc M N C - x • (smat sa M L A * smat sb L N B) ∧
    SameOutside (M*N) (subXMM M N L sa sb sc x A B C) C := by
  have := addMultMM_spec M N L sa sb sc A B C (-x)
  rw [neg_smul, ← sub_eq_add_neg] at this
  exact this

end MM

theorem smat_congr {s : Bool} {M N : Nat} {a b : Nat → K} (h : ∀ i j, i < M → j < N → a (idx s M N i j) = b (idx s M N i j)) : smat s M N a = smat s M N b := by
  ext i j
  exact h i j i.2 j.2

theorem smat_copy (M N : Nat) (s : Bool) (m q : Nat → K) : smat s M N (copy M N s s m q) = smat s M N m :=
  smat_congr fun _ _ hi hj => (copy_rel M N s s m q).1 _ _ hi hj

/-- `m1 *= m2`. -/
theorem mulEqMM_spec (M N : Nat) (s1 s2 : Bool) (m1 m2 junk : Nat → K) :
    smat s1 M N (mulEqMM M N s1 s2 m1 m2 junk) = smat s1 M N m1 * smat s2 N N m2 ∧ SameOutside (M*N) (mulEqMM M N s1 s2 m1 m2 junk) m1 := by
  have := multMM1_spec M N N s1 s2 s1 (copy M N s1 s1 m1 junk) m2 m1
  rwa [smat_copy] at this

/-- `m1 *= x*m2`. -/
theorem mulEqXMM_spec (M N : Nat) (s1 s2 : Bool) (x : K) (m1 m2 junk : Nat → K) :
    smat s1 M N (mulEqXMM M N s1 s2 x m1 m2 junk) = x • (smat s1 M N m1 * smat s2 N N m2) ∧ SameOutside (M*N) (mulEqXMM M N s1 s2 x m1 m2 junk) m1 := by
  have := multMM_spec M N N s1 s2 s1 (copy M N s1 s1 m1 junk) m2 m1 x
  rwa [smat_copy] at this

/-! ### Matrix times vector -/

/-- The two variants of each product: a dot product for every element of `y`, or a multiple of a column for every element of `x`. -/
theorem multVVacc_up {M N : Nat} (A x : Nat → K) (g : K → K → K) (y : Nat → K) :
    up (fun i y => Function.update y i (g (y i) (multVVacc N 0 A (i*N) x))) M 0 y =
      fun k => if k < M then g (y k) (∑ j ∈ range N, A (k*N+j) * x j) else y k := by
  rw [up_mod1 (fun i o => g o (multVVacc N 0 A (i*N) x))]
  simp only [multVVacc_eq, zero_add]

section MV
variable (M N : Nat) (s : Bool) (A x y : Nat → K)

/-- `y += f(x_j)*A.col(j)` for each `j`, with `f` linear. -/
theorem colsMV (f : K → K) (hf : ∀ a b, f a * b = f (b*a)) (hfa : ∀ (t : Nat → K) n, f (∑ k ∈ range n, t k) = ∑ k ∈ range n, f (t k)) (y : Nat → K) :
    up (fun j y => addVV M (f (x j)) A (j*M) y 0) N 0 y = fun k => if k < M then y k + f (∑ j ∈ range N, A (idx false M N k j) * x j) else y k := by
  rw [up_addVV M N (fun j => f (x j)) A (fun j => j*M)]
  funext k
  by_cases hk : k < M
  · rw [if_pos hk, if_pos hk, hfa]
    congr 1
    exact sum_congr rfl fun j _ => hf _ _
  · rw [if_neg hk, if_neg hk]

theorem lin_sum (α : K) (t : Nat → K) (n : Nat) : α * (∑ k ∈ range n, t k) = ∑ k ∈ range n, α * t k := mul_sum _ _ _

theorem addMultMV_spec (α : K) : svec M (addMultMV M N s α A x y) = svec M y + α • (smat s M N A *ᵥ svec N x) ∧
    SameOutside M (addMultMV M N s α A x y) y := by
  refine vec_out (fun k => y k + α * ∑ j ∈ range N, A (idx s M N k j) * x j) ?_ fun i => by
    rw [Pi.add_apply, Pi.smul_apply, mulVec_apply', smul_eq_mul]; rfl
  unfold addMultMV
  cases s
  · simp only [Bool.false_eq_true, if_false]
    exact colsMV M N A x (fun a => α * a) (fun a b => by ring) (lin_sum α) y
  · simp only [if_true]
    rw [multVVacc_up A x (fun o t => o + t * α) y]
    funext k
    simp only [mul_comm α]
    rfl

theorem addMultMV1_spec : svec M (addMultMV1 M N s A x y) = svec M y + smat s M N A *ᵥ svec N x ∧ SameOutside M (addMultMV1 M N s A x y) y := by
  refine vec_out (fun k => y k + ∑ j ∈ range N, A (idx s M N k j) * x j) ?_ fun i => by rw [Pi.add_apply, mulVec_apply']; rfl
  unfold addMultMV1
  cases s
  · simp only [Bool.false_eq_true, if_false]
    exact colsMV M N A x (fun a => a) (fun a b => by ring) (fun _ _ => rfl) y
  · simp only [if_true, multVVacc_eq]
    exact up_mod1 (fun i o => o + ∑ j ∈ range N, A (i*N+j) * x j) M y

theorem addMultMVm1_spec : svec M (addMultMVm1 M N s A x y) = svec M y - smat s M N A *ᵥ svec N x ∧ SameOutside M (addMultMVm1 M N s A x y) y := by
  refine vec_out (fun k => y k + -(∑ j ∈ range N, A (idx s M N k j) * x j)) ?_ fun i => by
    rw [Pi.sub_apply, mulVec_apply', sub_eq_add_neg]; rfl
  unfold addMultMVm1
  cases s
  · simp only [Bool.false_eq_true, if_false]
    exact colsMV M N A x (fun a => -a) (fun a b => by ring) (fun t n => (sum_neg_distrib _).symm) y
  · simp only [if_true]
    have hin : ∀ i (y : Nat → K), up (fun j y => Function.update y i (y i - A (i*N+j) * x j)) N 0 y =
        Function.update y i (y i + -(∑ j ∈ range N, A (i*N+j) * x j)) := by
      intro i y
      have := up_inv (fun j y => Function.update y i (y i - A (i*N+j) * x j)) (fun m s => s = Function.update y i (y i + -(∑ j ∈ range m, A (i*N+j) * x j)))
        N 0 y (by simp) (by
        intro j s _ _ hs
        rw [hs, Function.update_self, Function.update_idem, sum_range_succ]
        congr 1; ring)
      rwa [Nat.zero_add] at this
    simp only [hin]
    exact up_mod1 (fun i o => o + -(∑ j ∈ range N, A (i*N+j) * x j)) M y

theorem multMV_spec (α : K) : svec M (multMV M N s α A x y) = α • (smat s M N A *ᵥ svec N x) ∧ SameOutside M (multMV M N s α A x y) y := by
  refine vec_out (fun k => α * ∑ j ∈ range N, A (idx s M N k j) * x j) ?_ fun i => by rw [Pi.smul_apply, mulVec_apply', smul_eq_mul]
  unfold multMV
  cases s
  · simp only [Bool.false_eq_true, if_false]
    rw [colsMV M N A x (fun a => α * a) (fun a b => by ring) (lin_sum α), zero_eq]
    funext k
    by_cases hk : k < M
    · simp only [if_pos hk, zero_add]
    · simp only [if_neg hk]
  · simp only [if_true, Function.update_self, Function.update_idem, multVVacc_eq, zero_add]
    rw [up_mod1 (fun i _ => (∑ j ∈ range N, A (i*N+j) * x j) * α) M y]
    funext k
    simp only [mul_comm α]
    rfl

theorem multMV1_spec : svec M (multMV1 M N s A x y) = smat s M N A *ᵥ svec N x ∧ SameOutside M (multMV1 M N s A x y) y := by
  refine vec_out (fun k => ∑ j ∈ range N, A (idx s M N k j) * x j) ?_ fun i => by rw [mulVec_apply']
  unfold multMV1
  cases s
  · simp only [Bool.false_eq_true, if_false]
    rw [colsMV M N A x (fun a => a) (fun a b => by ring) (fun _ _ => rfl), zero_eq]
    funext k
    by_cases hk : k < M
    · simp only [if_pos hk, zero_add]
    · simp only [if_neg hk]
  · simp only [if_true, Function.update_self, Function.update_idem, multVVacc_eq, zero_add]
    exact up_mod1 (fun i _ => ∑ j ∈ range N, A (i*N+j) * x j) M y

end MV

/-! ### Vector times matrix: the same loops on the transposed matrix -/

section VM
variable (M N : Nat) (s : Bool) (x A y : Nat → K)

theorem svec_vecMul : svec M x ᵥ* smat s M N A = smat (!s) N M A *ᵥ svec M x := by
  funext j
  rw [vecMul_apply', mulVec_apply']
  refine sum_congr rfl fun i _ => ?_
  rw [idx_not, mul_comm]

theorem multVM1_spec : svec N (multVM1 M N s x A y) = svec M x ᵥ* smat s M N A ∧ SameOutside N (multVM1 M N s x A y) y := by
  have h : multVM1 M N s x A y = multMV1 N M (!s) A x y := by cases s <;> rfl
  rw [h, svec_vecMul]; exact multMV1_spec N M (!s) A x y

theorem multVM_spec (α : K) : svec N (multVM M N s α x A y) = α • (svec M x ᵥ* smat s M N A) ∧ SameOutside N (multVM M N s α x A y) y := by
  have h : multVM M N s α x A y = multMV N M (!s) α A x y := by cases s <;> rfl
  rw [h, svec_vecMul]; exact multMV_spec N M (!s) A x y α

theorem addMultVM1_spec : svec N (addMultVM1 M N s x A y) = svec N y + svec M x ᵥ* smat s M N A ∧ SameOutside N (addMultVM1 M N s x A y) y := by
  have h : addMultVM1 M N s x A y = addMultMV1 N M (!s) A x y := by cases s <;> rfl
  rw [h, svec_vecMul]; exact addMultMV1_spec N M (!s) A x y

theorem addMultVMm1_spec : svec N (addMultVMm1 M N s x A y) = svec N y - svec M x ᵥ* smat s M N A ∧ SameOutside N (addMultVMm1 M N s x A y) y := by
  have h : addMultVMm1 M N s x A y = addMultMVm1 N M (!s) A x y := by cases s <;> rfl
  rw [h, svec_vecMul]; exact addMultMVm1_spec N M (!s) A x y

theorem addMultVM_spec (α : K) : svec N (addMultVM M N s α x A y) = svec N y + α • (svec M x ᵥ* smat s M N A) ∧
    SameOutside N (addMultVM M N s α x A y) y := by
  have h : addMultVM M N s α x A y = addMultMV N M (!s) α A x y := by cases s <;> rfl
  rw [h, svec_vecMul]; exact addMultMV_spec N M (!s) A x y α

end VM

theorem svec_copyV (n : Nat) (v w : Nat → K) : svec n (copyV n v w) = svec n v := by
  unfold copyV
  rw [up_update]
  funext i
  exact if_pos i.2

/-- `v *= m`. -/
theorem mulEqVM_spec (N : Nat) (s : Bool) (v m junk : Nat → K) :
    svec N (mulEqVM N s v m junk) = svec N v ᵥ* smat s N N m ∧ SameOutside N (mulEqVM N s v m junk) v := by
  have := multVM1_spec N N s (copyV N v junk) m v
  rwa [svec_copyV] at this

/-- `v *= x*m`. -/
theorem mulEqXVM_spec (N : Nat) (s : Bool) (x : K) (v m junk : Nat → K) :
    svec N (mulEqXVM N s x v m junk) = x • (svec N v ᵥ* smat s N N m) ∧ SameOutside N (mulEqXVM N s x v m junk) v := by
  have := multVM_spec N N s (copyV N v junk) m v x
  rwa [svec_copyV] at this

/-- The dot product (not conjugated). -/
theorem multVV_spec (n : Nat) (v w : Nat → K) : multVV n v w = svec n v ⬝ᵥ svec n w := by
  unfold multVV
  rw [multVVacc_eq, zero_add]
  simp only [Nat.zero_add]
  exact (Fin.sum_univ_eq_sum_range (fun i => v i * w i) n).symm

/-! ### Outer product -/

section Outer
variable (M N : Nat) (s : Bool) (x y A : Nat → K)

theorem outerSet_rel {c0 c : Nat → K} {C : Nat → Nat → K} {M N : Nat} (f : Nat → K) (x : Nat → K) (h : Rel false M N c0 c C) :
    Rel false M N c0 (up (fun j A => multXV2 M (f j) x (j*M) A) N 0 c) fun i j => f j * x i :=
  colsSet_rel h fun j _ _ hj hc => (setCol_rel hc hj (f j) x).congr fun a b _ _ => by
    by_cases hb : b = j
    · rw [if_pos hb, if_pos hb, hb]
    · rw [if_neg hb, if_neg hb]

theorem outerAdd_rel {c0 c : Nat → K} {C : Nat → Nat → K} {M N : Nat} (f : Nat → K) (x : Nat → K) (h : Rel false M N c0 c C) :
    Rel false M N c0 (up (fun j A => addVV M (f j) x 0 A (j*M)) N 0 c) fun i j => f j * x i + C i j :=
  cols_rel h fun j _ _ hj hc => (addCol_rel hc hj (f j) x 0).congr fun a b _ _ => by
    by_cases hb : b = j
    · rw [if_pos hb, if_pos hb, hb, Nat.zero_add, add_comm]
    · rw [if_neg hb, if_neg hb]

theorem rank1_1_spec : smat s M N (rank1_1 M N s x y A) = vecMulVec (svec M x) (svec N y) ∧ SameOutside (M*N) (rank1_1 M N s x y A) A := by
  unfold rank1_1
  cases s
  · simp only [Bool.false_eq_true, if_false]
    exact Rel.out (outerSet_rel y x (Rel.refl false M N A)) fun i j => mul_comm _ _
  · simp only [if_true]
    exact Rel.out (outerSet_rel x y (Rel.refl true M N A).tr).tr fun i j => rfl

theorem rank1_spec (α : K) : smat s M N (rank1 M N s α x y A) = α • vecMulVec (svec M x) (svec N y) ∧ SameOutside (M*N) (rank1 M N s α x y A) A := by
  unfold rank1
  cases s
  · simp only [Bool.false_eq_true, if_false]
    exact Rel.out (outerSet_rel (fun j => α * y j) x (Rel.refl false M N A)) fun i j => by
      rw [Matrix.smul_apply, vecMulVec_apply, smul_eq_mul]; simp only [svec]; ring
  · simp only [if_true]
    exact Rel.out (outerSet_rel (fun j => α * x j) y (Rel.refl true M N A).tr).tr fun i j => by
      rw [Matrix.smul_apply, vecMulVec_apply, smul_eq_mul]; simp only [svec]; ring

theorem addRank1_1_spec : smat s M N (addRank1_1 M N s x y A) = smat s M N A + vecMulVec (svec M x) (svec N y) ∧
    SameOutside (M*N) (addRank1_1 M N s x y A) A := by
  unfold addRank1_1
  cases s
  · simp only [Bool.false_eq_true, if_false]
    exact Rel.out (outerAdd_rel y x (Rel.refl false M N A)) fun i j => by
      rw [Matrix.add_apply, vecMulVec_apply]; simp only [svec, mul_comm, add_comm]; rfl
  · simp only [if_true]
    exact Rel.out (outerAdd_rel x y (Rel.refl true M N A).tr).tr fun i j => by
      rw [Matrix.add_apply, vecMulVec_apply]; simp only [svec, add_comm]; rfl

theorem addRank1_m1_spec : smat s M N (addRank1_m1 M N s x y A) = smat s M N A - vecMulVec (svec M x) (svec N y) ∧
    SameOutside (M*N) (addRank1_m1 M N s x y A) A := by
  unfold addRank1_m1
  cases s
  · simp only [Bool.false_eq_true, if_false]
    exact Rel.out (outerAdd_rel (fun j => -y j) x (Rel.refl false M N A)) fun i j => by
      change _ = A (idx false M N i j) - x i * y j; ring
  · simp only [if_true]
    exact Rel.out (outerAdd_rel (fun j => -x j) y (Rel.refl true M N A).tr).tr fun i j => by
      rw [Matrix.sub_apply, vecMulVec_apply]; simp only [svec, neg_mul, neg_add_eq_sub]; rfl

theorem addRank1_spec (α : K) : smat s M N (addRank1 M N s α x y A) = smat s M N A + α • vecMulVec (svec M x) (svec N y) ∧
    SameOutside (M*N) (addRank1 M N s α x y A) A := by
  unfold addRank1
  cases s
  · simp only [Bool.false_eq_true, if_false]
    exact Rel.out (outerAdd_rel (fun j => α * y j) x (Rel.refl false M N A)) fun i j => by
      change _ = A (idx false M N i j) + α * (x i * y j); ring
  · simp only [if_true]
    exact Rel.out (outerAdd_rel (fun j => α * x j) y (Rel.refl true M N A).tr).tr fun i j => by
      rw [Matrix.add_apply, Matrix.smul_apply, vecMulVec_apply, smul_eq_mul, add_comm]; simp only [svec, mul_assoc]; rfl

end Outer

/-! ### Sums and scaling of arrays -/

section Sum
variable (n : Nat) (v1 v2 v3 : Nat → K)

theorem multXV_spec (x : K) : svec n (multXV n x v1) = x • svec n v1 ∧ SameOutside n (multXV n x v1) v1 :=
  vec_out (fun k => v1 k * x) (up_mod1 (fun _ o => o * x) n v1) fun _ => mul_comm _ _

theorem addVV1_eq (w : Nat → K) : addVV1 n v1 w = fun k => if k < n then w k + v1 k else w k := up_mod1 (fun i o => o + v1 i) n w
theorem addVVm1_eq (w : Nat → K) : addVVm1 n v1 w = fun k => if k < n then w k - v1 k else w k := up_mod1 (fun i o => o - v1 i) n w
theorem addVV0_eq (x : K) (w : Nat → K) : addVV n x v1 0 w 0 = fun k => if k < n then w k + x * v1 k else w k := by
  rw [addVV_eq]
  funext k
  simp only [Nat.zero_add, Nat.sub_zero, Nat.zero_le, true_and]
theorem multXV20_eq (x : K) (w : Nat → K) : multXV2 n x v1 0 w = fun k => if k < n then x * v1 k else w k := by
  rw [multXV2_eq]
  funext k
  simp only [Nat.zero_add, Nat.sub_zero, Nat.zero_le, true_and]
theorem copyV_eq (w : Nat → K) : copyV n v1 w = fun k => if k < n then v1 k else w k := up_update n v1 w

/-- `v += w`, `v -= w`, `v += x*w`. -/
theorem addVV1_spec : svec n (addVV1 n v1 v2) = svec n v2 + svec n v1 ∧ SameOutside n (addVV1 n v1 v2) v2 :=
  vec_out _ (addVV1_eq n v1 v2) fun _ => rfl
theorem addVVm1_spec : svec n (addVVm1 n v1 v2) = svec n v2 - svec n v1 ∧ SameOutside n (addVVm1 n v1 v2) v2 :=
  vec_out _ (addVVm1_eq n v1 v2) fun _ => rfl
theorem addVV_spec (x : K) : svec n (addVV n x v1 0 v2 0) = svec n v2 + x • svec n v1 ∧ SameOutside n (addVV n x v1 0 v2 0) v2 :=
  vec_out _ (addVV0_eq n v1 x v2) fun _ => rfl

/-- `v3 = x1*v1 + x2*v2` in its six forms. -/
theorem addVV_1_1_spec : svec n (addVV_1_1 n v1 v2 v3) = svec n v1 + svec n v2 ∧ SameOutside n (addVV_1_1 n v1 v2 v3) v3 := by
  refine vec_out (fun k => v1 k + v2 k) ?_ fun _ => rfl
  unfold addVV_1_1; rw [addVV1_eq, copyV_eq]; funext k; by_cases hk : k < n <;> simp only [hk, if_true, if_false]
theorem addVV_1_m1_spec : svec n (addVV_1_m1 n v1 v2 v3) = svec n v1 - svec n v2 ∧ SameOutside n (addVV_1_m1 n v1 v2 v3) v3 := by
  refine vec_out (fun k => v1 k - v2 k) ?_ fun _ => rfl
  unfold addVV_1_m1; rw [addVVm1_eq, copyV_eq]; funext k; by_cases hk : k < n <;> simp only [hk, if_true, if_false]
theorem addVV_1_x_spec (x : K) : svec n (addVV_1_x n v1 x v2 v3) = svec n v1 + x • svec n v2 ∧ SameOutside n (addVV_1_x n v1 x v2 v3) v3 := by
  refine vec_out (fun k => x * v2 k + v1 k) ?_ fun _ => add_comm _ _
  unfold addVV_1_x; rw [addVV1_eq, multXV20_eq]; funext k; by_cases hk : k < n <;> simp only [hk, if_true, if_false]
theorem addVV_x_1_spec (x : K) : svec n (addVV_x_1 n x v1 v2 v3) = x • svec n v1 + svec n v2 ∧ SameOutside n (addVV_x_1 n x v1 v2 v3) v3 := by
  refine vec_out (fun k => x * v1 k + v2 k) ?_ fun _ => rfl
  unfold addVV_x_1; rw [addVV1_eq, multXV20_eq]; funext k; by_cases hk : k < n <;> simp only [hk, if_true, if_false]
theorem addVV_x_m1_spec (x : K) : svec n (addVV_x_m1 n x v1 v2 v3) = x • svec n v1 - svec n v2 ∧ SameOutside n (addVV_x_m1 n x v1 v2 v3) v3 := by
  refine vec_out (fun k => x * v1 k - v2 k) ?_ fun _ => rfl
  unfold addVV_x_m1; rw [addVVm1_eq, multXV20_eq]; funext k; by_cases hk : k < n <;> simp only [hk, if_true, if_false]
theorem addVV_x_x_spec (x z : K) : svec n (addVV_x_x n x v1 z v2 v3) = x • svec n v1 + z • svec n v2 ∧
    SameOutside n (addVV_x_x n x v1 z v2 v3) v3 := by
  refine vec_out (fun k => x * v1 k + z * v2 k) ?_ fun _ => rfl
  unfold addVV_x_x; rw [addVV0_eq, multXV20_eq]; funext k; by_cases hk : k < n <;> simp only [hk, if_true, if_false]

end Sum

section SumM
variable (M N : Nat) (sa sb sc : Bool) (A B C : Nat → K)

theorem flat_rel {s : Bool} {M N : Nat} {B B' : Nat → K} (g : Nat → K) (h : B' = fun k => if k < M*N then g k else B k) :
    Rel s M N B B' fun i j => g (idx s M N i j) := by
  subst h
  exact ⟨fun i j hi hj => if_pos (idx_lt hi hj), fun k hk => if_neg (by omega)⟩

/-- `B += A`. -/
theorem addMM1_spec : smat sb M N (addMM1 M N sa sb A B) = smat sb M N B + smat sa M N A ∧ SameOutside (M*N) (addMM1 M N sa sb A B) B := by
  unfold addMM1
  by_cases h : sa = sb
  · rw [if_pos h]; subst h
    exact Rel.out (flat_rel _ (addVV1_eq (M*N) A B)) fun i j => rfl
  · rw [if_neg h]
    exact Rel.out (up_modM sb M N (fun i j o => o + A (idx sa M N i j)) (Rel.refl sb M N B)) fun i j => rfl

/-- `B -= A`. -/
theorem addMMm1_spec : smat sb M N (addMMm1 M N sa sb A B) = smat sb M N B - smat sa M N A ∧ SameOutside (M*N) (addMMm1 M N sa sb A B) B := by
  unfold addMMm1
  by_cases h : sa = sb
  · rw [if_pos h]; subst h
    exact Rel.out (flat_rel _ (addVVm1_eq (M*N) A B)) fun i j => rfl
  · rw [if_neg h]
    exact Rel.out (up_modM sb M N (fun i j o => o - A (idx sa M N i j)) (Rel.refl sb M N B)) fun i j => rfl

/-- `B += x*A`. -/
theorem addMM_spec (α : K) : smat sb M N (addMM M N sa sb α A B) = smat sb M N B + α • smat sa M N A ∧ SameOutside (M*N) (addMM M N sa sb α A B) B := by
  unfold addMM
  by_cases h : sa = sb
  · rw [if_pos h]; subst h
    exact Rel.out (flat_rel _ (addVV0_eq (M*N) A α B)) fun i j => rfl
  · rw [if_neg h]
    exact Rel.out (up_modM sb M N (fun i j o => o + α * A (idx sa M N i j)) (Rel.refl sb M N B)) fun i j => rfl

/-! ### Element-wise product -/

theorem elemMultMM_spec (α : K) : smat sc M N (elemMultMM M N sa sb sc α A B C) = α • (smat sa M N A ⊙ smat sb M N B) ∧
    SameOutside (M*N) (elemMultMM M N sa sb sc α A B C) C := by
  unfold elemMultMM
  by_cases h : sa = sb ∧ sa = sc
  · rw [if_pos h]; obtain ⟨rfl, rfl⟩ := h
    exact Rel.out (flat_rel _ (up_mod1 (fun i _ => α * A i * B i) (M*N) C)) fun i j => mul_assoc _ _ _
  · rw [if_neg h]
    exact Rel.out (up_modM sc M N (fun i j _ => α * A (idx sa M N i j) * B (idx sb M N i j)) (Rel.refl sc M N C)) fun i j => mul_assoc _ _ _

theorem addElemMultMM_spec (α : K) : smat sc M N (addElemMultMM M N sa sb sc α A B C) = smat sc M N C + α • (smat sa M N A ⊙ smat sb M N B) ∧
    SameOutside (M*N) (addElemMultMM M N sa sb sc α A B C) C := by
  unfold addElemMultMM
  by_cases h : sa = sb ∧ sa = sc
  · rw [if_pos h]; obtain ⟨rfl, rfl⟩ := h
    exact Rel.out (flat_rel _ (up_mod1 (fun i o => o + α * A i * B i) (M*N) C)) fun i j => congrArg _ (mul_assoc _ _ _)
  · rw [if_neg h]
    exact Rel.out (up_modM sc M N (fun i j o => o + α * A (idx sa M N i j) * B (idx sb M N i j)) (Rel.refl sc M N C)) fun i j => congrArg _ (mul_assoc _ _ _)

end SumM

theorem elemMultVV_spec (n : Nat) (α : K) (v1 v2 v3 : Nat → K) : svec n (elemMultVV n α v1 v2 v3) = α • (svec n v1 * svec n v2) ∧
    SameOutside n (elemMultVV n α v1 v2 v3) v3 := by
  unfold elemMultVV
  split_ifs with h
  · exact vec_out _ (up_mod1 (fun i _ => v1 i * v2 i) n v3) fun i => by rw [h, one_smul]; rfl
  · exact vec_out _ (up_mod1 (fun i _ => α * v1 i * v2 i) n v3) fun i => mul_assoc _ _ _

theorem addElemMultVV_spec (n : Nat) (α : K) (v1 v2 v3 : Nat → K) : svec n (addElemMultVV n α v1 v2 v3) = svec n v3 + α • (svec n v1 * svec n v2) ∧
    SameOutside n (addElemMultVV n α v1 v2 v3) v3 := by
  unfold addElemMultVV
  split_ifs with h h2
  · exact vec_out _ (up_mod1 (fun i o => o + v1 i * v2 i) n v3) fun i => by rw [h, one_smul]; rfl
  · exact vec_out _ (up_mod1 (fun i o => o - v1 i * v2 i) n v3) fun i => by rw [h2, neg_one_smul, ← sub_eq_add_neg]; rfl
  · exact vec_out _ (up_mod1 (fun i o => o + α * v1 i * v2 i) n v3) fun i => congrArg _ (mul_assoc _ _ _)

/-! ### Contiguous views as targets -/

theorem conjSelf_eq (n : Nat) (v : Nat → K) : conjSelf n v = fun k => if k < n then star (v k) else v k := up_mod1 (fun _ o => star o) n v

/-- `v = m*w` for a unit-step view, conjugated or not. -/
theorem assignMVview_spec (M N : Nat) (s cj : Bool) (m w v : Nat → K) :
    svec M (viewV cj (assignMVview M N s cj m w v)) = smat s M N m *ᵥ svec N w ∧ SameOutside M (assignMVview M N s cj m w v) v := by
  obtain ⟨h1, h2⟩ := multMV1_spec M N s m w v
  unfold assignMVview
  cases cj
  · exact ⟨h1, h2⟩
  · simp only [if_true]
    rw [conjSelf_eq]
    refine ⟨?_, fun k hk => ?_⟩
    · rw [← h1]
      funext i
      simp only [svec, viewV, if_true, if_pos i.2, star_star]
    · dsimp only
      rw [if_neg (by omega)]; exact h2 k hk

/-- `m0 = m1*m2` for a contiguous view in either storage order, conjugated or not. -/
theorem assignMMview_spec (M N L : Nat) (s1 s2 rm cj : Bool) (m1 m2 m0 : Nat → K) :
    smat rm M N (viewV cj (assignMMview M N L s1 s2 rm cj m1 m2 m0)) = smat s1 M L m1 * smat s2 L N m2 ∧
    SameOutside (M*N) (assignMMview M N L s1 s2 rm cj m1 m2 m0) m0 := by
  obtain ⟨h1, h2⟩ := multMM1_spec M N L s1 s2 rm m1 m2 m0
  unfold assignMMview
  cases cj
  · exact ⟨h1, h2⟩
  · simp only [if_true]
    rw [conjSelf_eq]
    refine ⟨?_, fun k hk => ?_⟩
    · rw [← h1]
      refine smat_congr fun i j hi hj => ?_
      simp only [viewV, if_true, if_pos (idx_lt hi hj), star_star]
    · dsimp only
      rw [if_neg (by omega)]; exact h2 k hk

/-- `v += m*w` for a complex unit-step view and real `m`, `w`: right for a conjugated view as well. -/
theorem addMVview_spec (M N : Nat) (s cj : Bool) (m w v : Nat → K) (hm : ∀ k, star (m k) = m k) (hw : ∀ k, star (w k) = w k) :
    svec M (viewV cj (addMVview M N s m w v)) = svec M (viewV cj v) + smat s M N m *ᵥ svec N w ∧ SameOutside M (addMVview M N s m w v) v := by
  obtain ⟨h1, h2⟩ := addMultMV1_spec M N s m w v
  refine ⟨?_, h2⟩
  funext i
  have h3 := congrFun h1 i
  cases cj
  · exact h3
  · have h4 := congrArg star h3
    rw [Pi.add_apply, star_add, mulVec_apply', star_sum] at h4
    rw [Pi.add_apply, mulVec_apply']
    simp only [star_mul', hm, hw] at h4
    exact h4

/-- `v *= m` for a complex unit-step view that is not conjugated. -/
theorem mulEqViewVM_partial (N : Nat) (s : Bool) (v m junk : Nat → K) :
    svec N (viewV false (mulEqViewVM N s false v m junk)) = svec N (viewV false v) ᵥ* smat s N N m ∧ SameOutside N (mulEqViewVM N s false v m junk) v :=
  mulEqVM_spec N s v m junk

/-- The code is wrong for a conjugated view: after `v *= m` the view holds the conjugate of `v*m`. -/
theorem mulEqViewVM_conj (N : Nat) (s : Bool) (v m junk : Nat → K) :
    svec N (viewV true (mulEqViewVM N s true v m junk)) = star (svec N (viewV true v) ᵥ* smat s N N m) := by
  have h1 := (multVM1_spec N N s (copyV N (viewV true v) junk) m v).1
  rw [svec_copyV] at h1
  rw [← h1]
  funext i
  simp only [svec, viewV, if_true, Pi.star_apply]
  rfl

/-- ... which differs from `v*m`, e.g. for the 1×1 real matrix `[1]` and `v = (i)`. -/
theorem mulEqViewVM_violated : ∃ v m junk : Nat → ℂ, (∀ k, star (m k) = m k) ∧
    svec 1 (viewV true (mulEqViewVM 1 false true v m junk)) ≠ svec 1 (viewV true v) ᵥ* smat false 1 1 m := by
  refine ⟨fun _ => Complex.I, fun _ => 1, fun _ => 0, fun k => star_one _, fun h => ?_⟩
  rw [mulEqViewVM_conj] at h
  have := congrFun h 0
  rw [Pi.star_apply, vecMul_apply'] at this
  simp [viewV] at this
  have h3 := congrArg Complex.im this
  simp at h3
  norm_num at h3

/-- `m0 = v1 ^ v2` for a contiguous column-major view. -/
theorem assignVVview_partial (M N : Nat) (v1 v2 m0 : Nat → K) :
    smat false M N (assignVVview M N false v1 v2 m0) = vecMulVec (svec M v1) (svec N v2) ∧ SameOutside (M*N) (assignVVview M N false v1 v2 m0) m0 :=
  rank1_1_spec M N false v1 v2 m0

/-- The code is wrong for a row-major one: a square `m0` receives the transposed matrix `v2 ^ v1`. -/
theorem assignVVview_rowmajor (N : Nat) (v1 v2 m0 : Nat → K) :
    smat true N N (assignVVview N N true v1 v2 m0) = vecMulVec (svec N v2) (svec N v1) := by
  have h1 := (rank1_1_spec N N false v1 v2 m0).1
  ext i j
  have h2 := congrFun (congrFun h1 j) i
  rw [vecMulVec_apply] at h2 ⊢
  rw [mul_comm]
  exact h2

theorem assignVVview_violated : ∃ v1 v2 m0 : Nat → ℂ, smat true 2 2 (assignVVview 2 2 true v1 v2 m0) ≠ vecMulVec (svec 2 v1) (svec 2 v2) := by
  refine ⟨fun k => if k = 0 then 1 else 0, fun k => if k = 0 then 0 else 1, fun _ => 0, fun h => ?_⟩
  rw [assignVVview_rowmajor] at h
  have := congrFun (congrFun h 0) 1
  simp [vecMulVec_apply, svec] at this

/-- A case that is not trivial: a 2×3 row-major matrix times a 3×2 column-major one into a column-major array. -/
example : smat false 2 2 (multMM1 2 2 3 true false false (fun k => (k : ℂ)) (fun k => (k : ℂ)) fun _ => 7) =
    !![5, 14; 14, 50] := by
  rw [(multMM1_spec 2 2 3 true false false _ _ _).1]
  ext i j
  fin_cases i <;> fin_cases j <;> simp [smat, Matrix.mul_apply, Fin.sum_univ_succ] <;> norm_num

end
end TMV.SmallProd
