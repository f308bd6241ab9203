import Verif.Props.SymReduce

/-! C67: conversion of a symmetric matrix to a full matrix. -/
namespace TMV
variable {K : Type _}

/-- **C67** `M = S` (`assignToM`): afterwards the full matrix has exactly the elements of the symmetric or
Hermitian matrix, both triangles.  `re` is the real part.  `S` may be stored in `M` itself, in either
triangle. -/
theorem sym_assignToM_spec [CommRing K] [StarRing K] (re : K → K) (hre : ∀ y, star y = y → re y = y)
    (A : SView) (B : MView) (hcs : B.cs = A.n) (hrs : B.rs = A.n) (hA : A.WF) (hB : B.Inj)
    (hS : B.cs = 0 ∨ (B.si ≠ 0 ∧ B.sj ≠ 0)) (hS2 : B.si + B.sj ≠ 0) (m : Mem K) (hH : A.HermOK m)
    (z : Nat → Nat → K) (hz : A.Holds m z) (hlB : B.Live m)
    (hc : (A.upperTri false).NoClash (B.upperTri false)) :
    ∃ m', A.assignToM re B m = some m' ∧ B.Holds m' z ∧ (∀ a, ¬ B.Covers a → m' a = m a) := by
  have hsym := sym_holds_symOf hz hH
  have hI : ∀ i j i' j' : Int, 0 ≤ i → i < A.n → 0 ≤ j → j < A.n → 0 ≤ i' → i' < A.n → 0 ≤ j' →
      j' < A.n → B.addr i j = B.addr i' j' → i = i' ∧ j = j' := by
    intro i j i' j' h1 h2 h3 h4 h5 h6 h7 h8 e
    have := hB i.toNat j.toNat i'.toNat j'.toNat (by omega) (by omega) (by omega) (by omega)
      (by
        rw [show ((i.toNat : Nat) : Int) = i by omega, show ((j.toNat : Nat) : Int) = j by omega,
          show ((i'.toNat : Nat) : Int) = i' by omega, show ((j'.toNat : Nat) : Int) = j' by omega]
        exact e)
    omega
  have hC : ∀ i j : Int, 0 ≤ i → i < A.n → 0 ≤ j → j < A.n → B.Covers (B.addr i j) := by
    intro i j h1 h2 h3 h4
    refine ⟨i.toNat, j.toNat, by omega, by omega, ?_⟩
    rw [show ((i.toNat : Nat) : Int) = i by omega, show ((j.toNat : Nat) : Int) = j by omega]
  have dn : B.diag.size = A.n := by simp [MView.diag, hcs, hrs]
  have da : ∀ k : Nat, B.diag.addr k = B.addr k k := by
    intro k; simp only [MView.diag, VView.addr, MView.addr]; ring
  have inU : ∀ i j : Nat, i ≤ j → j < A.n → (B.upperTri false).In i j := by
    intro i j hij hj
    rw [TView.in_iff]
    show _ ∧ (i : Int) < B.rs ∧ _ ∧ (j : Int) < B.rs ∧ (i : Int) + ub false ≤ j
    rw [ub_false]; omega
  -- step 1: real diagonal
  have st1 : ∃ m1, (if A.herm then loopMod re B.diag.step B.diag.size B.diag.ptr m else some m) = some m1 ∧
      A.Holds m1 z ∧ A.HermOK m1 ∧ B.Live m1 ∧ (∀ a, ¬ B.Covers a → m1 a = m a) := by
    cases hh : A.herm
    · exact ⟨m, rfl, hz, hH, hlB, fun _ _ => rfl⟩
    · rw [if_pos rfl]
      obtain ⟨m1, e1, c1, f1⟩ := B.diag.mapped_loopMod re m (Or.inl hS2)
        (fun k hk => by rw [da]; exact hlB k k (by omega) (by omega))
      have keep : ∀ i j, (A.upperTri false).In i j → m1 ((A.upperTri false).addr i j) = m ((A.upperTri false).addr i j) := by
        intro i j hin
        by_cases hcov : B.diag.Covers ((A.upperTri false).addr i j)
        · obtain ⟨k, hk, e⟩ := hcov
          rw [dn] at hk
          have ck := c1 k (by omega)
          rw [da] at e
          obtain ⟨rfl, rfl⟩ := hc i j k k hin (inU k k le_rfl hk) e
          rw [e, ← da, ck]
          rw [da, ← e]
          rw [sym_upperTri_addr]
          have ek : (if A.upper then A.addr k k else A.addr k k) = A.addr k k := by split <;> rfl
          rw [ek]
          cases hv : m (A.addr k k) with
          | none => rfl
          | some y => rw [Option.map_some, hre y (hH hh k y hk hv)]
        · exact f1 _ hcov
      have hol := sym_holds_of_tri (M := A) (m := m1) hsym (by
        intro i j hij hj
        have hin := sym_tri_in A i j hij hj
        rw [← hz.tri hH i j hij hj, tri_cref_in _ _ _ _ hin, tri_cref_in _ _ _ _ hin, keep i j hin])
      refine ⟨m1, e1, hol.1, hol.2, ?_, ?_⟩
      · intro i j hi hj
        by_cases hcov : B.diag.Covers (B.addr i j)
        · obtain ⟨k, hk, e⟩ := hcov
          rw [e, c1 k hk, Option.isSome_map, ← e]
          exact hlB i j hi hj
        · rw [f1 _ hcov]; exact hlB i j hi hj
      · intro a ha
        apply f1
        rintro ⟨k, hk, e⟩
        rw [da] at e
        exact ha ⟨k, k, by omega, by omega, e⟩
  obtain ⟨m1, e1, hz1, hH1, hl1, f1⟩ := st1
  unfold SView.assignToM
  rw [e1, Option.bind_some]
  -- step 2: upper triangle
  obtain ⟨S, hSd⟩ : ∃ S, S = SView.ofMat B A.herm true := ⟨_, rfl⟩
  have Sn : S.n = A.n := by rw [hSd]; exact hrs
  have Sh : S.herm = A.herm := by rw [hSd]; rfl
  have Su : S.upper = true := by rw [hSd]; rfl
  have Sa : ∀ i j, S.addr i j = B.addr i j := by intro i j; rw [hSd]; rfl
  have Sc : S.conj = B.conj := by rw [hSd]; rfl
  have SU : S.upperTri false = B.upperTri false := by rw [hSd]; rfl
  have SW : S.WF := by
    refine ⟨?_, ?_, ?_⟩
    · intro i j i' j' h1 h2 e
      rw [Sa, Sa] at e
      rw [in_up' Su, Sn] at h1 h2
      exact hI i j i' j' (by omega) (by omega) (by omega) (by omega) (by omega) (by omega) (by omega) (by omega) e
    · rw [Sn, ← hcs, hSd]; exact hS
    · rw [hSd]; exact hS2
  have SL : S.Live m1 := by
    intro i j h
    rw [in_up' Su, Sn] at h
    rw [Sa]
    have := hl1 i.toNat j.toNat (by omega) (by omega)
    rwa [show ((i.toNat : Nat) : Int) = i by omega, show ((j.toNat : Nat) : Int) = j by omega] at this
  rw [← hSd]
  obtain ⟨m2, e2, c2⟩ := sym_assign_spec A S Sn.symm Sh.symm hA SW m1 hH1 z hz1 SL (by rw [SU]; exact hc)
  rw [e2, Option.bind_some]
  have up2 : ∀ i j : Nat, i ≤ j → j < A.n → B.cref m2 i j = some (z i j) := by
    intro i j hij hj
    rw [← c2.1 i j (by omega) (by omega), sym_cref_in S m2 i j ((in_up' Su _ _).mpr (by omega)), Sa, Sc]
    rfl
  have fr2 : ∀ a, ¬ B.Covers a → m2 a = m a := by
    intro a ha
    rw [c2.2.2.2 a, f1 a ha]
    rintro ⟨i, j, h, e⟩
    rw [in_up' Su, Sn] at h
    rw [Sa] at e
    exact ha (e ▸ hC i j (by omega) (by omega) (by omega) (by omega))
  have L2 : ∀ i j : Int, 0 ≤ i → i < A.n → 0 ≤ j → j < A.n → (m2 (B.addr i j)).isSome := by
    intro i j h1 h2 h3 h4
    by_cases hin : S.In i j
    · rw [← Sa]; exact c2.2.2.1 i j hin
    · rw [c2.2.2.2]
      · have := hl1 i.toNat j.toNat (by omega) (by omega)
        rwa [show ((i.toNat : Nat) : Int) = i by omega, show ((j.toNat : Nat) : Int) = j by omega] at this
      · rintro ⟨i', j', h', e'⟩
        rw [Sa] at e'
        have h'' := h'
        rw [in_up' Su, Sn] at h''
        obtain ⟨rfl, rfl⟩ := hI i j i' j' h1 h2 h3 h4 (by omega) (by omega) (by omega) (by omega) e'
        exact hin h'
  by_cases h0 : A.n > 0
  · rw [if_pos h0]
    -- step 3: lower triangle
    obtain ⟨T, hT⟩ : ∃ T, T = ((B.lowerTri false).offDiag 1).transpose := ⟨_, rfl⟩
    have Tn : (T.n : Int) = A.n - 1 := by
      rw [hT]; simp only [LView.transpose, LView.offDiag, MView.lowerTri]; omega
    have Tu : T.unit = false := by rw [hT]; rfl
    have Ta : ∀ i j, T.addr i j = B.addr (j + 1) i := by
      intro i j; rw [hT]
      simp only [LView.transpose, LView.offDiag, MView.lowerTri, TView.addr, MView.addr]; ring
    have Tc : T.conj = B.conj := by rw [hT]; rfl
    have Tin : ∀ i j, T.In i j ↔ 0 ≤ i ∧ i ≤ j ∧ j + 1 < A.n := by
      intro i j; rw [TView.in_iff, Tu, ub_false]; omega
    obtain ⟨U, hU⟩ : ∃ U, U = (if A.herm = true then ((B.upperTri false).offDiag 1).adjoint
        else ((B.upperTri false).offDiag 1).transpose).transpose := ⟨_, rfl⟩
    have Un : (U.n : Int) = A.n - 1 := by
      rw [hU]
      split <;> simp only [LView.transpose, TView.transpose, TView.adjoint, TView.offDiag, MView.upperTri] <;> omega
    have Uu : U.unit = false := by rw [hU]; split <;> rfl
    have Ua : ∀ i j, U.addr i j = B.addr i (j + 1) := by
      intro i j; rw [hU]
      split <;> simp only [LView.transpose, TView.transpose, TView.adjoint, TView.offDiag, MView.upperTri, TView.addr, MView.addr] <;> ring
    have Uc : U.conj = (if A.herm = true then !B.conj else B.conj) := by rw [hU]; split <;> rfl
    have Uin : ∀ i j, U.In i j ↔ 0 ≤ i ∧ i ≤ j ∧ j + 1 < A.n := by
      intro i j; rw [TView.in_iff, Uu, ub_false]; omega
    have hS' := hS.resolve_left (by omega)
    have TW : T.WF := by
      refine ⟨?_, ?_, ?_⟩
      · intro i j i' j' h1 h2 e
        rw [Ta, Ta] at e
        rw [Tin] at h1 h2
        have := hI (j + 1) i (j' + 1) i' (by omega) (by omega) (by omega) (by omega) (by omega) (by omega)
          (by omega) (by omega) e
        omega
      · right; rw [hT]; exact ⟨hS'.2, hS'.1⟩
      · rw [hT]; show B.sj + B.si ≠ 0; rw [add_comm]; exact hS2
    have UW : U.WF := by
      refine ⟨?_, ?_, ?_⟩
      · intro i j i' j' h1 h2 e
        rw [Ua, Ua] at e
        rw [Uin] at h1 h2
        have := hI i (j + 1) i' (j' + 1) (by omega) (by omega) (by omega) (by omega) (by omega) (by omega)
          (by omega) (by omega) e
        omega
      · right; rw [hU]; split <;> exact ⟨hS'.1, hS'.2⟩
      · rw [hU]; split <;> exact hS2
    have TL : T.Live m2 := by
      intro i j h
      rw [Tin] at h; rw [Ta]
      exact L2 (j + 1) i (by omega) (by omega) (by omega) (by omega)
    have UL : U.Live m2 := by
      intro i j h
      rw [Uin] at h; rw [Ua]
      exact L2 i (j + 1) (by omega) (by omega) (by omega) (by omega)
    rw [← hT, ← hU]
    obtain ⟨m3, e3, c3, f3⟩ := tri_assign_spec U T (by omega) UW TW (by rw [Tu]; exact fun h => by cases h) (by
      intro i j i' j' h1 h2 e
      rw [Ua, Ta] at e
      rw [Uin] at h1
      rw [Tin] at h2
      have := hI i (j + 1) (j' + 1) i' (by omega) (by omega) (by omega) (by omega) (by omega) (by omega)
          (by omega) (by omega) e
      omega) m2 UL TL
    refine ⟨m3, e3, ?_, ?_⟩
    · intro i j hi hj
      by_cases hij : i ≤ j
      · rw [← up2 i j hij (by omega)]
        rw [MView.cref, MView.cref, Mem.read, Mem.read, f3]
        rintro ⟨i', j', h', e'⟩
        rw [Ta] at e'
        rw [Tin] at h'
        have := hI i j (j' + 1) i' (by omega) (by omega) (by omega) (by omega) (by omega) (by omega)
          (by omega) (by omega) e'
        omega
      · have hin : T.In (j : Int) ((i : Int) - 1) := by rw [Tin]; omega
        have hinU : U.In (j : Int) ((i : Int) - 1) := by rw [Uin]; omega
        have := c3 j ((i : Int) - 1) (by omega) (by omega) (by omega) (by omega)
        rw [tri_cref_in T m3 _ _ hin, Ta, sub_add_cancel, Tc, tri_cref_in U m2 _ _ hinU, Ua, sub_add_cancel, Uc] at this
        have hu := up2 j i (by omega) (by omega)
        unfold MView.cref Mem.read at hu
        obtain ⟨y, hy, hy'⟩ := Option.map_eq_some_iff.mp hu
        rw [hy] at this
        unfold MView.cref Mem.read
        rw [this, hsym i j (by omega) (by omega), ← hy']
        cases A.herm <;> cases B.conj <;> simp [cj]
    · intro a ha
      rw [f3 a, fr2 a ha]
      rintro ⟨i, j, h, e⟩
      rw [Ta] at e
      rw [Tin] at h
      exact ha (e ▸ hC (j + 1) i (by omega) (by omega) (by omega) (by omega))
  · rw [if_neg h0]
    exact ⟨m2, rfl, fun i j hi hj => by omega, fr2⟩

/-- Non-trivial instance: a 3 by 3 Hermitian matrix copied into a separate 3 by 3 matrix. -/
example : (SView.ofStor 0 3 true true false).WF ∧
    (((SView.ofStor 0 3 true true false).upperTri false).NoClash
      ((⟨9, 3, 3, 3, 1, false, 0⟩ : MView).upperTri false)) := by
  refine ⟨(sym_storage 0 3 true true false).2, ?_⟩
  intro i j i' j' h1 h2 e
  rw [TView.in_iff] at h1 h2
  simp [SView.ofStor, SView.upperTri, MView.upperTri, TView.addr, ub] at h1 h2 e
  omega

end TMV
