import Verif.Model.SymMul
import Verif.Props.TriMM
import Verif.Spec.LDL

/-! **C81**: products of symmetric and Hermitian matrices with vectors and matrices. -/
namespace TMV.SymMul
open Tri (Ord splitAt sub paste trimLo trimHi)
open SymRK (put)
noncomputable section
open Classical

variable {K : Type} [RCLike K]

theorem el_eq (h : Bool) (L : Nat → Nat → K) : el h L = symFull h L := rfl

theorem put_eq (add : Bool) (a b : K) : put add a b = (if add then a else 0) + b := by
  cases add <;> simp [put]

theorem el_shift (h : Bool) (L : Nat → Nat → K) (k i j : Nat) : el h (sub L k k) i j = el h L (k+i) (k+j) := by
  unfold el Tri.sub
  by_cases c : j ≤ i
  · rw [if_pos c, if_pos (by omega)]
  · rw [if_neg c, if_neg (by omega)]

theorem unit0_spec (o : Ord) (h add : Bool) (N : Nat) (hN : 0 < N) (L : Nat → Nat → K) (x y : Nat → K) :
    MulAddV add 1 N (symFull h L) x y (unit0 o h add N L x y) := by
  intro i
  unfold unit0
  have m1 := TriMul.mulV_lower add true o false false (1:K) N L x y
  generalize TriMul.mulV add true (TriMul.lowerV o false false N L) 1 N x y = y1 at m1
  have key : ∀ i, i < N → ∑ k ∈ Finset.range N, symFull h L i k * x k = ∑ k ∈ Finset.range N, lowerMat false L i k * x k +
      ∑ k ∈ Finset.range (N-1), (if i < 1+k then el h L i (1+k) else 0) * x (1+k) := by
    intro i hi
    have e : ∑ k ∈ Finset.range (N-1), (if i < 1+k then el h L i (1+k) else 0) * x (1+k) =
        ∑ k ∈ Finset.range N, (if i < k then el h L i k else 0) * x k := by
      conv_rhs => rw [show N = (N-1)+1 by omega, Finset.sum_range_succ']
      rw [if_neg (by omega), zero_mul, add_zero]
      refine Finset.sum_congr rfl fun k _ => ?_
      rw [add_comm 1 k]
    rw [e, ← Finset.sum_add_distrib]
    refine Finset.sum_congr rfl fun k _ => ?_
    rw [← add_mul]
    congr 1
    unfold symFull lowerMat el
    by_cases c : k ≤ i
    · rw [if_pos c, if_neg (show ¬ i < k by omega), add_zero]
      by_cases d : k < i
      · rw [if_pos d]
      · obtain rfl : k = i := by omega
        simp
    · rw [if_neg c, if_neg (show ¬ k < i by omega), if_neg (show ¬ i = k by omega), if_pos (show i < k by omega)]
      exact (zero_add _).symm
  by_cases h1 : N > 1
  · rw [if_pos h1]
    have m2 := TriMul.mulV_upper true true (LU.Ord.tr o) false (1:K) (N-1) (fun i j => el h L i (1+j)) (fun i => x (1+i)) y1 i
    rw [m2]
    by_cases hi : i < N
    · rw [if_pos hi, key i hi]
      by_cases hi2 : i < N-1
      · rw [if_pos hi2, if_pos rfl, m1 i, if_pos hi]
        have : ∑ k ∈ Finset.range (N-1), upperMat false (fun i j => el h L i (1+j)) i k * x (1+k) =
            ∑ k ∈ Finset.range (N-1), (if i < 1+k then el h L i (1+k) else 0) * x (1+k) := by
          refine Finset.sum_congr rfl fun k _ => ?_
          congr 1
          unfold upperMat
          by_cases c : i < k
          · rw [if_pos c, if_pos (by omega)]
          · rw [if_neg c]
            by_cases d : i = k
            · subst d; rw [if_pos rfl, if_pos (show i < 1 + i by omega)]; simp
            · rw [if_neg d, if_neg (by omega)]
        rw [this]; ring
      · rw [if_neg hi2, m1 i, if_pos hi]
        have z : ∑ k ∈ Finset.range (N-1), (if i < 1+k then el h L i (1+k) else 0) * x (1+k) = 0 := by
          refine Finset.sum_eq_zero fun k hk => ?_
          have hk := Finset.mem_range.mp hk
          rw [if_neg (by omega), zero_mul]
        rw [z, add_zero]
    · rw [if_neg hi, if_neg (by omega), m1 i, if_neg hi]
  · rw [if_neg h1, m1 i]
    by_cases hi : i < N
    · rw [if_pos hi, if_pos hi, key i hi, show N - 1 = 0 by omega]; simp
    · rw [if_neg hi, if_neg hi]

theorem unitMul_spec (o : Ord) (h add : Bool) (N : Nat) (L : Nat → Nat → K) (x y : Nat → K) :
    MulAddV add 1 N (symFull h L) x y (unitMul o h add N L x y) := by
  obtain ⟨a1, a2⟩ := Tri.trimHi_spec x N
  obtain ⟨b1, b2, b3⟩ := Tri.trimLo_spec x N 0
  unfold unitMul
  dsimp only
  by_cases h0 : trimHi x N = 0
  · rw [if_pos h0]
    have z : ∀ i, ∑ k ∈ Finset.range N, symFull h L i k * x k = 0 := fun i =>
      Finset.sum_eq_zero fun k hk => by rw [a2 k (by omega) (by simpa using hk), mul_zero]
    intro i
    rw [z i]
    cases add <;> simp
  · rw [if_neg h0]
    have hlt := TriMul.trim_lt h0
    by_cases h1 : trimLo x N 0 = 0 ∧ trimHi x N = N
    · rw [if_pos h1]
      exact unit0_spec o h add N (by omega) L x y
    · rw [if_neg h1]
      generalize trimHi x N = j2 at *
      generalize trimLo x N 0 = j1 at *
      have tr : ∀ i, ∑ k ∈ Finset.range N, symFull h L i k * x k = ∑ k ∈ Finset.range (j2-j1), el h L i (j1+k) * x (j1+k) := fun i =>
        TriMul.sum_trim hlt.le a1 (fun k hk => b3 k (by omega) hk) a2 (fun k => symFull h L i k)
      generalize hy1 : (if j1 > 0 then gemv add j1 (j2-j1) (fun i k => el h L i (j1+k)) (fun i => x (j1+i)) y else y) = y1
      have p1 : ∀ i, y1 i = if i < j1 then (if add then y i else 0) + ∑ k ∈ Finset.range (j2-j1), el h L i (j1+k) * x (j1+k) else y i := by
        intro i
        rw [← hy1]
        by_cases c : j1 > 0
        · rw [if_pos c, gemv]
          by_cases d : i < j1
          · rw [if_pos d, if_pos d, put_eq]
          · rw [if_neg d, if_neg d]
        · rw [if_neg c, if_neg (by omega)]
      have m2 := unit0_spec o h add (j2-j1) (by omega) (sub L j1 j1) (fun i => x (j1+i)) (fun i => y1 (j1+i))
      generalize unit0 o h add (j2-j1) (sub L j1 j1) (fun i => x (j1+i)) (fun i => y1 (j1+i)) = z at m2
      have p2 : ∀ i, pasteV j1 (j2-j1) z y1 i =
          if i < j2 then (if add then y i else 0) + ∑ k ∈ Finset.range (j2-j1), el h L i (j1+k) * x (j1+k) else y i := by
        intro i
        unfold pasteV
        by_cases c : j1 ≤ i ∧ i < j1 + (j2-j1)
        · rw [if_pos c, m2, if_pos (show i - j1 < j2 - j1 by omega), if_pos (show i < j2 by omega), one_mul]
          dsimp only
          congr 1
          · rw [show j1 + (i-j1) = i by omega, p1, if_neg (show ¬ i < j1 by omega)]
          · refine Finset.sum_congr rfl fun k _ => ?_
            have := el_shift h L j1 (i-j1) k
            rw [show j1 + (i-j1) = i by omega] at this
            rw [← this, el_eq]
        · rw [if_neg c, p1]
          by_cases d : i < j1
          · rw [if_pos d, if_pos (show i < j2 by omega)]
          · rw [if_neg d, if_neg (show ¬ i < j2 by omega)]
      generalize pasteV j1 (j2-j1) z y1 = y2 at p2
      intro i
      rw [tr i, one_mul]
      by_cases c : j2 < N
      · rw [if_pos c]
        unfold pasteV gemv
        by_cases d : j2 ≤ i ∧ i < j2 + (N-j2)
        · rw [if_pos d, if_pos (show i - j2 < N - j2 by omega), if_pos (show i < N by omega), put_eq]
          dsimp only
          rw [show j2 + (i-j2) = i by omega, p2, if_neg (show ¬ i < j2 by omega)]
        · rw [if_neg d, p2]
          by_cases e : i < j2
          · rw [if_pos e, if_pos (show i < N by omega)]
          · rw [if_neg e, if_neg (show ¬ i < N by omega)]
      · rw [if_neg c, p2, show j2 = N by omega]

theorem nonBlasV_spec (o : Ord) (h add xs ys : Bool) (N : Nat) (L : Nat → Nat → K) (α : K) (g x y : Nat → K) :
    MulAddV add α N (symFull h L) x y (nonBlasV o h add xs ys N L α g x y) := by
  intro i
  have sc : ∑ k ∈ Finset.range N, symFull h L i k * (α * x k) = α * ∑ k ∈ Finset.range N, symFull h L i k * x k := by
    rw [Finset.mul_sum]; exact Finset.sum_congr rfl fun _ _ => by ring
  unfold nonBlasV
  dsimp only
  by_cases h1 : (!xs) = true
  · rw [if_pos h1]
    by_cases h2 : (!ys) = true
    · rw [if_pos h2]
      by_cases hi : i < N
      · rw [if_pos hi, if_pos hi, put_eq, unitMul_spec o h false N L (fun i => α * x i) g i, if_pos hi, sc]; simp
      · rw [if_neg hi, if_neg hi]
    · rw [if_neg h2, unitMul_spec o h add N L (fun i => α * x i) y i, sc, one_mul]
  · rw [if_neg h1]
    by_cases h2 : (!ys) = true ∨ α ≠ 1
    · rw [if_pos h2]
      by_cases hi : i < N
      · rw [if_pos hi, if_pos hi, put_eq, unitMul_spec o h false N L x g i, if_pos hi]; simp
      · rw [if_neg hi, if_neg hi]
    · rw [if_neg h2, unitMul_spec o h add N L x y i]
      have : α = 1 := by
        by_contra hc; exact h2 (Or.inr hc)
      rw [this]

/-- **C81**: `y = alpha*S*x`, `y += alpha*S*x`. -/
theorem mulV_spec (o : Ord) (h add xs ys ss : Bool) (N : Nat) (L : Nat → Nat → K) (α : K) (g x y : Nat → K) :
    MulAddV add α N (symFull h L) x y (mulV o h add xs ys ss N L α g x y) := by
  unfold mulV
  by_cases hN : N > 0
  · rw [if_pos hN]
    by_cases h0 : α = 0
    · rw [if_pos h0, h0]
      intro i
      cases add <;> simp
    · rw [if_neg h0]
      by_cases h1 : ss = true
      · rw [if_pos h1]
        intro i
        dsimp only
        by_cases hi : i < N
        · rw [if_pos hi, if_pos hi, put_eq, nonBlasV_spec o h false xs true N L 1 g x g i, if_pos hi]; simp
        · rw [if_neg hi, if_neg hi]
      · rw [if_neg h1]
        exact nonBlasV_spec o h add xs ys N L α g x y
  · rw [if_neg hN]
    intro i
    rw [if_neg (by omega)]

theorem rrow_spec (h add : Bool) (α : K) (N nc : Nat) (L B C : Nat → Nat → K) :
    MulAddM add α N nc (symFull h L) B C (rrow h add α N nc L B C) := by
  have := up_inv (fun j (C : Nat → Nat → K) =>
      let C : Nat → Nat → K := fun a c => if a = j ∧ c < nc then put add (C a c) (α * ∑ k ∈ Finset.range (j+1), el h L j k * B k c) else C a c
      fun a c => if a < j ∧ c < nc then C a c + α * el h L a j * B j c else C a c)
    (fun r X => ∀ i c, X i c = if i < r ∧ c < nc then (if add then C i c else 0) + α * ∑ k ∈ Finset.range r, el h L i k * B k c else C i c) N 0 C
    (by intro i c; rw [if_neg (by omega)]) (by
      intro r X h1 h2 hX i c
      dsimp only
      by_cases hc : c < nc
      · by_cases hi : i < r
        · simp only [hX]
          simp (disch := omega) only [if_pos, if_neg]
          rw [Finset.sum_range_succ]
          ring
        · by_cases hi2 : i = r
          · subst hi2
            simp only [hX, put_eq]
            simp (disch := omega) only [if_pos, if_neg, true_and]
          · simp only [hX]
            simp (disch := omega) only [if_pos, if_neg]
      · simp only [hX]
        simp (disch := omega) only [if_pos, if_neg])
  rw [Nat.zero_add] at this
  exact this

theorem crow_spec (h add : Bool) (α : K) (N nc : Nat) (L B C : Nat → Nat → K) :
    MulAddM add α N nc (symFull h L) B C (crow h add α N nc L B C) := by
  have := down_inv (fun j (C : Nat → Nat → K) =>
      let C : Nat → Nat → K := fun a c => if a = j ∧ c < nc then
        put add (C a c) (α * ∑ k ∈ Finset.range (N-j), el h L j (j+k) * B (j+k) c) else C a c
      fun a c => if j+1 ≤ a ∧ a < N ∧ c < nc then C a c + α * el h L a j * B j c else C a c)
    (fun r X => ∀ i c, X i c = if r ≤ i ∧ i < N ∧ c < nc then
      (if add then C i c else 0) + α * ∑ k ∈ Finset.range (N-r), el h L i (r+k) * B (r+k) c else C i c) N C
    (by intro i c; rw [if_neg (by omega)]) (by
      intro r X h1 hX i c
      dsimp only
      by_cases hc : i < N ∧ c < nc
      · by_cases hi : r+1 ≤ i
        · simp only [hX]
          simp (disch := omega) only [if_pos, if_neg]
          conv_rhs => rw [show N - r = (N-(r+1))+1 by omega, Finset.sum_range_succ']
          have : ∑ k ∈ Finset.range (N-(r+1)), el h L i (r+1+k) * B (r+1+k) c = ∑ k ∈ Finset.range (N-(r+1)), el h L i (r+(k+1)) * B (r+(k+1)) c :=
            Finset.sum_congr rfl fun k _ => by rw [show r+1+k = r+(k+1) by omega]
          rw [this, Nat.add_zero]; ring
        · by_cases hi2 : i = r
          · subst hi2
            simp only [hX, put_eq]
            simp (disch := omega) only [if_pos, if_neg, true_and]
          · simp only [hX]
            simp (disch := omega) only [if_pos, if_neg]
      · simp only [hX]
        simp (disch := omega) only [if_pos, if_neg])
  intro i c
  refine (this i c).trans ?_
  simp only [Nat.zero_le, true_and, Nat.sub_zero, Nat.zero_add, el_eq]

theorem colM_spec (o : Ord) (h add xs ys : Bool) (α : K) (g : Nat → K) (N nc : Nat) (L B C : Nat → Nat → K) :
    MulAddM add α N nc (symFull h L) B C (colM o h add xs ys α g N nc L B C) := by
  have := up_inv (fun j (C : Nat → Nat → K) => fun a c => if c = j ∧ a < N then mulV o h add xs ys false N L α g (fun i => B i j) (fun i => C i j) a else C a c)
    (fun r X => ∀ i c, X i c = if i < N ∧ c < r then (if add then C i c else 0) + α * ∑ k ∈ Finset.range N, symFull h L i k * B k c else C i c) nc 0 C
    (by intro i c; rw [if_neg (by omega)]) (by
      intro r X h1 h2 hX i c
      dsimp only
      by_cases hi : c = r ∧ i < N
      · obtain ⟨rfl, hi⟩ := hi
        rw [if_pos ⟨rfl, hi⟩, if_pos ⟨hi, by omega⟩, mulV_spec o h add xs ys false N L α g _ _ i, if_pos hi, hX, if_neg (show ¬ (i < N ∧ c < c) by omega)]
      · rw [if_neg hi, hX]
        by_cases hc : i < N ∧ c < r
        · simp (disch := omega) only [if_pos, if_neg]
        · simp (disch := omega) only [if_pos, if_neg])
  rw [Nat.zero_add] at this
  exact this

theorem recM_spec (nb nb2 : Nat) (hnb : 0 < nb) (hnb2 : 0 < nb2) (o : Ord) (ly : Lay) (h add : Bool) (α : K) (g : Nat → K) (nc : Nat) :
    ∀ (fuel N : Nat) (L B C : Nat → Nat → K), N < fuel →
      MulAddM add α N nc (symFull h L) B C (recM nb nb2 o ly h add α g nc fuel N L B C) := by
  intro fuel
  induction fuel with
  | zero => intro N L B C hf; omega
  | succ fuel ih =>
    intro N L B C hf
    unfold recM
    by_cases h1 : N ≤ nb2
    · rw [if_pos h1]
      have hrow : MulAddM add α N nc (symFull h L) B C (if o = .cm then crow h add α N nc L B C else rrow h add α N nc L B C) := by
        split
        · exact crow_spec h add α N nc L B C
        · exact rrow_spec h add α N nc L B C
      have hcol := colM_spec o h add ly.bcm ly.ccm α g N nc L B C
      dsimp only
      by_cases c1 : (ly.brm : Prop) ∧ (ly.crm : Prop)
      · rw [if_pos c1]; exact hrow
      · rw [if_neg c1]
        by_cases c2 : (ly.bcm : Prop) ∧ (ly.ccm : Prop)
        · rw [if_pos c2]; exact hcol
        · rw [if_neg c2]
          by_cases c3 : N < nc
          · rw [if_pos c3]; exact hrow
          · rw [if_neg c3]; exact hcol
    · rw [if_neg h1]
      obtain ⟨k1, k2⟩ := Tri.splitAt_spec nb N hnb (by omega)
      dsimp only
      generalize splitAt nb N = k at *
      have i1 := ih k L B C (by omega)
      generalize recM nb nb2 o ly h add α g nc fuel k L B C = C0 at *
      generalize hP1 : paste C 0 0 k nc C0 = P1
      have p1 : ∀ i c, P1 i c = if i < k ∧ c < nc then (if add then C i c else 0) + α * ∑ l ∈ Finset.range k, el h L i l * B l c else C i c := by
        intro i c
        rw [← hP1, paste]
        by_cases d : i < k ∧ c < nc
        · rw [if_pos (by omega), if_pos d, Nat.sub_zero, Nat.sub_zero, i1, if_pos d]; rfl
        · rw [if_neg (by omega), if_neg d]
      have i2 := ih (N-k) (sub L k k) (sub B k 0) (sub P1 k 0) (by omega)
      generalize recM nb nb2 o ly h add α g nc fuel (N-k) (sub L k k) (sub B k 0) (sub P1 k 0) = C1 at *
      generalize hP2 : paste P1 k 0 (N-k) nc C1 = P2
      have p2 : ∀ i c, P2 i c = if i < N ∧ c < nc then (if add then C i c else 0) +
          α * (if i < k then ∑ l ∈ Finset.range k, el h L i l * B l c else ∑ l ∈ Finset.range (N-k), el h L i (k+l) * B (k+l) c) else C i c := by
        intro i c
        rw [← hP2, paste]
        by_cases d : k ≤ i ∧ i < N ∧ c < nc
        · rw [i2]
          simp (disch := omega) only [if_pos, if_neg]
          simp only [sub, Nat.sub_zero, Nat.zero_add]
          rw [show k + (i-k) = i by omega, p1, if_neg (show ¬ (i < k ∧ c < nc) by omega)]
          congr 2
          refine Finset.sum_congr rfl fun l _ => ?_
          have := el_shift h L k (i-k) l
          rw [show k + (i-k) = i by omega] at this
          rw [← this]; rfl
        · rw [if_neg (by omega), p1]
          by_cases e : i < k ∧ c < nc
          · simp (disch := omega) only [if_pos, if_neg]
          · simp (disch := omega) only [if_pos, if_neg]
      generalize hP3 : paste P2 k 0 (N-k) nc (TriMul.addMul α (N-k) nc k (sub L k 0) B (sub P2 k 0)) = P3
      have p3 : ∀ i c, P3 i c = if i < N ∧ c < nc then (if add then C i c else 0) +
          α * (if i < k then ∑ l ∈ Finset.range k, el h L i l * B l c else ∑ l ∈ Finset.range N, el h L i l * B l c) else C i c := by
        intro i c
        rw [← hP3, paste]
        by_cases d : k ≤ i ∧ i < N ∧ c < nc
        · rw [if_pos (by omega), if_pos (by omega), if_neg (show ¬ i < k by omega), TriMul.addMul, if_pos (by omega)]
          simp only [sub, Nat.sub_zero, Nat.zero_add]
          rw [show k + (i-k) = i by omega, p2, if_pos (by omega), if_neg (show ¬ i < k by omega),
            TMV.sum_split (fun l => el h L i l * B l c) k2.le]
          have : ∑ l ∈ Finset.range k, L i l * B l c = ∑ l ∈ Finset.range k, el h L i l * B l c := by
            refine Finset.sum_congr rfl fun l hl => ?_
            have hl := Finset.mem_range.mp hl
            unfold el; rw [if_pos (by omega)]
          rw [this]; ring
        · rw [if_neg (by omega), p2]
          by_cases e : i < k ∧ c < nc
          · simp (disch := omega) only [if_pos, if_neg]
          · simp (disch := omega) only [if_pos, if_neg]
      intro i c
      rw [TriMul.addMul]
      by_cases d : i < k ∧ c < nc
      · rw [p3]
        simp (disch := omega) only [if_pos, if_neg]
        rw [TMV.sum_split (fun l => symFull h L i l * B l c) k2.le, el_eq]
        have : ∑ l ∈ Finset.range (N-k), cj h (L (k+l) i) * sub B k 0 l c = ∑ l ∈ Finset.range (N-k), symFull h L i (k+l) * B (k+l) c := by
          refine Finset.sum_congr rfl fun l hl => ?_
          simp only [sub, Nat.zero_add]
          unfold symFull; rw [if_neg (by omega)]
        rw [this]; ring
      · rw [if_neg d, p3]
        by_cases e : i < N ∧ c < nc
        · rw [if_pos e, if_pos e, if_neg (show ¬ i < k by omega)]; rfl
        · rw [if_neg e, if_neg e]

theorem fullTemp_spec (add : Bool) (D : Nat → (Nat → Nat → K) → (Nat → Nat → K) → Nat → Nat → K) (T : Nat → Nat → K) (α : K) (N nc : Nat)
    (hD : ∀ n B C, MulAddM false 1 N n T B C (D n B C)) (G B C : Nat → Nat → K) : MulAddM add α N nc T B C (fullTemp add D α N nc G B C) := by
  intro i c
  unfold fullTemp
  by_cases hic : i < N ∧ c < nc
  · rw [if_pos hic, if_pos hic, put_eq, hD nc B G i c, if_pos hic]; simp
  · rw [if_neg hic, if_neg hic]

theorem blockTemp_spec (add : Bool) (D : Nat → (Nat → Nat → K) → (Nat → Nat → K) → Nat → Nat → K) (T : Nat → Nat → K) (φ : K → K) (α : K)
    (bs N nc : Nat) (hbs : 0 < bs) (hD : ∀ n B C, MulAddM add 1 N n T B C (D n B C)) :
    ∀ (fuel j : Nat) (C : Nat → Nat → K), nc < j + fuel → ∀ i c,
    blockTemp D φ α bs N nc fuel j C i c =
      if i < N ∧ j ≤ c ∧ c < nc then (if add then C i c else 0) + α * ∑ k ∈ Finset.range N, T i k * φ (C k c) else C i c := by
  intro fuel
  induction fuel with
  | zero => intro j C h i c; rw [if_neg (by omega)]; rfl
  | succ fuel ih =>
    intro j C h i c
    unfold blockTemp
    by_cases hj : j < nc
    · rw [if_pos hj]
      rw [ih _ _ (by omega)]
      have pp : ∀ i c, ¬ (i < N ∧ j ≤ c ∧ c < min nc (j+bs)) → paste C 0 j N (min nc (j+bs) - j)
          (D (min nc (j+bs) - j) (fun i c => α * φ (C i (j+c))) (sub C 0 j)) i c = C i c := by
        intro i c hc
        rw [paste, if_neg (by omega)]
      by_cases hic : i < N ∧ j ≤ c ∧ c < nc
      · rw [if_pos hic]
        by_cases h2 : min nc (j+bs) ≤ c
        · rw [if_pos ⟨hic.1, h2, hic.2.2⟩, pp i c (by omega)]
          congr 2
          refine Finset.sum_congr rfl fun k _ => ?_
          rw [pp k c (by omega)]
        · rw [if_neg (show ¬ (i < N ∧ min nc (j+bs) ≤ c ∧ c < nc) by omega), paste, if_pos (by omega), hD _ _ _ (i-0) (c-j)]
          simp (disch := omega) only [if_pos, if_neg]
          simp only [sub, Nat.sub_zero, Nat.zero_add, one_mul]
          rw [show j + (c-j) = c by omega]
          congr 1
          rw [Finset.mul_sum]
          refine Finset.sum_congr rfl fun k _ => ?_
          ring
      · rw [if_neg hic, if_neg (by omega), pp i c (by omega)]
    · rw [if_neg hj, if_neg (by omega)]

/-- **C81**: `C = alpha*S*B`, `C += alpha*S*B`, also when `C` begins at the first element of `S`, and when `B` is `C`, its conjugate or
another view that begins at its first element. -/
theorem mulM_spec (nb nb2 : Nat) (hnb : 0 < nb) (hnb2 : 0 < nb2) (o : Ord) (ly ct : Lay) (al : TriMul.Alias) (φ : K → K) (h add : Bool)
    (α : K) (g : Nat → K) (N nc : Nat) (L G B C : Nat → Nat → K)
    (hB : al.bc = true → al.st = true → ∀ i c, i < N → c < nc → B i c = φ (C i c)) :
    MulAddM add α N nc (symFull h L) B C (mulM nb nb2 o ly ct al φ h add α g N nc L G B C) := by
  unfold mulM
  by_cases hN : N > 0 ∧ nc > 0
  · rw [if_pos hN]
    by_cases h0 : α = 0
    · rw [if_pos h0, h0]
      intro i c
      cases add <;> simp
    · rw [if_neg h0]
      have hf := fullTemp_spec add (fun n B C => recM nb nb2 o ct h false 1 g n (N+1) N L B C) (symFull h L) α N nc
        (fun n B C => recM_spec nb nb2 hnb hnb2 o ct h false 1 g n (N+1) N L B C (by omega)) G B C
      by_cases h1 : al.ac = true
      · rw [if_pos h1]; exact hf
      · rw [if_neg h1]
        by_cases h2 : al.bc = true
        · rw [if_pos h2]
          by_cases h3 : al.st = true
          · rw [if_pos h3]
            intro i c
            rw [blockTemp_spec add _ (symFull h L) φ α nb N nc hnb
              (fun n B C => recM_spec nb nb2 hnb hnb2 o ct h add 1 g n (N+1) N L B C (by omega)) _ _ _ (by omega)]
            by_cases hic : i < N ∧ c < nc
            · rw [if_pos ⟨hic.1, Nat.zero_le _, hic.2⟩, if_pos hic]
              congr 2
              refine Finset.sum_congr rfl fun k hk => ?_
              rw [hB h2 h3 k c (by simpa using hk) hic.2]
            · rw [if_neg (by omega), if_neg hic]
          · rw [if_neg h3]; exact hf
        · rw [if_neg h2]
          exact recM_spec nb nb2 hnb hnb2 o ly h add α g nc (N+1) N L B C (by omega)
  · rw [if_neg hN]
    intro i c
    rw [if_neg (by omega)]

theorem blockTempSS_spec (add : Bool) (D : Nat → (Nat → Nat → K) → (Nat → Nat → K) → Nat → Nat → K) (T : Nat → Nat → K) (hb : Bool) (α : K)
    (bs N : Nat) (hbs : 0 < bs) (hD : ∀ n B C, MulAddM add 1 N n T B C (D n B C)) (LB G : Nat → Nat → K) :
    ∀ (fuel j : Nat) (C : Nat → Nat → K), N < j + fuel → ∀ i c,
    blockTempSS D hb α bs N LB G fuel j C i c =
      if i < N ∧ j ≤ c ∧ c < N then (if add then C i c else 0) + α * ∑ k ∈ Finset.range N, T i k * symFull hb LB k c else C i c := by
  intro fuel
  induction fuel with
  | zero => intro j C h i c; rw [if_neg (by omega)]; rfl
  | succ fuel ih =>
    intro j C h i c
    unfold blockTempSS
    by_cases hj : j < N
    · rw [if_pos hj]
      rw [ih _ _ (by omega)]
      generalize hB2 : (fun i c => if i < j then α * el hb LB i (j+c) else if i < min N (j+bs) then α * el hb (sub LB j j) (i-j) c
        else if i < N then α * el hb LB i (j+c) else G i c : Nat → Nat → K) = B2
      have e2 : ∀ i c, i < N → B2 i c = α * symFull hb LB i (j+c) := by
        intro i c hi
        rw [← hB2, ← el_eq]
        dsimp only
        by_cases c1 : i < j
        · rw [if_pos c1]
        · rw [if_neg c1]
          by_cases c2 : i < min N (j+bs)
          · rw [if_pos c2, el_shift, show j + (i-j) = i by omega]
          · rw [if_neg c2, if_pos hi]
      by_cases hic : i < N ∧ j ≤ c ∧ c < N
      · rw [if_pos hic]
        by_cases h2 : min N (j+bs) ≤ c
        · rw [if_pos ⟨hic.1, h2, hic.2.2⟩, paste, if_neg (show ¬ (0 ≤ i ∧ i < 0 + N ∧ j ≤ c ∧ c < j + (min N (j+bs) - j)) by omega)]
        · rw [if_neg (by omega), paste, if_pos (by omega), hD _ _ _ (i-0) (c-j)]
          simp (disch := omega) only [if_pos, if_neg]
          simp only [sub, Nat.sub_zero, Nat.zero_add, one_mul]
          rw [show j + (c-j) = c by omega]
          congr 1
          rw [Finset.mul_sum]
          refine Finset.sum_congr rfl fun k hk => ?_
          rw [e2 k (c-j) (by simpa using hk), show j + (c-j) = c by omega]
          ring
      · rw [if_neg hic, if_neg (by omega), paste, if_neg (by omega)]
    · rw [if_neg hj, if_neg (by omega)]

/-- **C81**: `C = alpha*S*S'`, `C += alpha*S*S'` for two symmetric or Hermitian matrices. -/
theorem mulSS_spec (nb nb2 : Nat) (hnb : 0 < nb) (hnb2 : 0 < nb2) (o : Ord) (ly ct : Lay) (ss h hb add : Bool)
    (α : K) (g : Nat → K) (N : Nat) (L LB G C : Nat → Nat → K) :
    MulAddM add α N N (symFull h L) (symFull hb LB) C (mulSS nb nb2 o ly ct ss h hb add α g N L LB G C) := by
  unfold mulSS
  by_cases hN : N > 0
  · rw [if_pos hN]
    intro i c
    by_cases h1 : ss = true
    · rw [if_pos h1]
      rw [blockTempSS_spec false _ (symFull h L) hb 1 nb N hnb
        (fun n B C => recM_spec nb nb2 hnb hnb2 o ct h false 1 g n (N+1) N L B C (by omega)) LB G _ _ _ (by omega)]
      by_cases hic : i < N ∧ c < N
      · rw [if_pos hic, if_pos hic, if_pos ⟨hic.1, Nat.zero_le _, hic.2⟩, put_eq]; simp
      · rw [if_neg hic, if_neg hic]
    · rw [if_neg h1, blockTempSS_spec add _ (symFull h L) hb α nb N hnb
        (fun n B C => recM_spec nb nb2 hnb hnb2 o ly h add 1 g n (N+1) N L B C (by omega)) LB G _ _ _ (by omega)]
      simp
  · rw [if_neg hN]
    intro i c
    rw [if_neg (by omega)]

/-- `C` itself as second operand meets the hypothesis. -/
example (C : Nat → Nat → ℂ) : let al : TriMul.Alias := ⟨false, true, true⟩
    al.bc = true → al.st = true → ∀ i c, i < 5 → c < 7 → C i c = id (C i c) := by simp

end
end TMV.SymMul
