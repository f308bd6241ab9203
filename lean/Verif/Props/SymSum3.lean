import Verif.Props.SymSum2

/-! Sums of symmetric and Hermitian matrices put into full matrices (`Model/SymSum`).  Property C126. -/
namespace TMV
variable {K : Type _}
set_option linter.unusedSectionVars false
section
variable [CommRing K] [StarRing K] [DecidableEq K]

theorem SView.Holds.conjugate {A : SView} {m : Mem K} {z : Nat → Nat → K} (h : A.Holds m z) : A.conjugate.Holds m (fun i j => star (z i j)) := by
  intro i j hi hj
  rw [(sym_conjugate A m i j).2, h i j hi hj]; rfl

theorem Temp.holdsS {m m0 : Mem K} {t : Int} {n : Nat} (T : Temp m m0 t n) {A : SView} {z : Nat → Nat → K} (h : A.Holds m z) : A.Holds m0 z :=
  h.frame fun _ ⟨i, j, hij, e⟩ => T.off _ (T.nin (e ▸ h.live i j hij))

theorem Temp.hermS {m m0 : Mem K} {t : Int} {n : Nat} (T : Temp m m0 t n) {A : SView} (h : A.HermOK m) (hl : A.Live m) : A.HermOK m0 :=
  h.frame fun _ ⟨i, j, hij, e⟩ => T.off _ (T.nin (e ▸ hl i j hij))

/-- `T = x*A` for a temporary `T`. -/
theorem sym_temp {m m0 : Mem K} {t : Int} (x : K) (A : SView) (h0 : 0 < A.n) (hW : A.WF) (T : Temp m m0 t (A.n * A.n)) (hH : A.HermOK m)
    (p : Nat → Nat → K) (hA : A.Holds m p) (rm : Bool) :
    ∃ m1, SView.assignMulXToM x A (MView.ofStor t A.n A.n rm) m0 = some m1 ∧
      (MView.ofStor t A.n A.n rm).Becomes m0 m1 (fun i j => x * p i j) ∧ Temp m m1 t (A.n * A.n) := by
  have hsep : A.SepM (MView.ofStor t A.n A.n rm) := by
    rintro a ⟨i, j, hij, rfl⟩ h
    exact T.nin (hA.live i j hij) (ofStor_in h)
  obtain ⟨m1, e, b⟩ := sym_assignMulXToM_partial x A (MView.ofStor t A.n A.n rm) (temp_square t A.n h0 rm) hW (Or.inl hsep) m0
    (T.hermS hH hA.live) p (T.holdsS hA) (T.stor rm)
  exact ⟨m1, e, b, T.afterM' b fun a h => ofStor_in h⟩

theorem sym_addToMnc_spec {al : Alloc K} (hal : al.OK) (x : K) (A : SView) (B : MView) (hs : B.Square A.n) (hW : A.WF) (h0 : 0 < A.n)
    (hd : A.SepM B ∨ A.ptr = B.ptr) (m : Mem K) (hb : m.Bdd) (hH : A.HermOK m) (p z : Nat → Nat → K) (hA : A.Holds m p) (hB : B.Holds m z) :
    ∃ m', SView.addToMnc al x A B m = some m' ∧ B.Becomes m m' (fun i j => z i j + x * p i j) := by
  have hcs := hs.cs
  have hrs := hs.rs
  unfold SView.addToMnc
  by_cases hp : A.ptr = B.ptr
  · rw [if_pos hp]
    refine withTempM hal _ _ m hb B hB.live _ ?_
    intro t m0 T
    dsimp only
    obtain ⟨m1, e1, b1, T1⟩ := sym_temp x A h0 hW T hH p hA B.isrm
    have hsT := temp_square t A.n h0 B.isrm
    obtain ⟨m2, e2, b2⟩ := mat_addMM_spec hal 1 (MView.ofStor t A.n A.n B.isrm) B (by rw [hcs]; rfl) (by rw [hrs]; rfl) m1 T1.bdd _ z hs.wf hsT.ls
      hs.ls b1.1 (T1.holdsM hB) (Or.inl fun a h1 h2 => T1.disjM B.isrm hB.live a h2 h1)
    refine ⟨m2, by rw [e1]; exact e2, b2.1.congr fun i j _ _ => by rw [one_mul], fun a h1 h2 => ?_⟩
    rw [b2.2 a h1, b1.2 a fun h => h2 (ofStor_in h)]
  · rw [if_neg hp]
    have hsep := hd.resolve_right hp
    have covU : ∀ a, (A.upperTri false).Covers a → ¬ B.Covers a := fun a h => hsep a ((sym_upperTri_covers A a).mp h)
    have covT : ∀ a, (A.transpose.upperTri false).Covers a → ¬ B.Covers a := fun a h' =>
      hsep a ((SView.transpose_covers A a).mp ((sym_upperTri_covers A.transpose a).mp h'))
    obtain ⟨m1, e1, b1⟩ := tri_addMM_gets hal x (A.upperTri false) (B.upperTri false) (by rw [sym_upperTri_n]; exact hrs.symm) hW.upperTri
      (upper_wf hs) rfl (Or.inl fun a h1 h2 => covU a h1 (upper_covers hs h2)) m hb _ _ (hA.triH hH) (upper_has hs hB)
    have c1 := upper_gets hs hB b1
    have hA1 : A.Holds m1 p := hA.frame fun a ha => c1.2 a (hsep a ha)
    have hH1 : A.HermOK m1 := hH.frame fun a ha => c1.2 a (hsep a ha)
    rw [e1, Option.bind_some]
    by_cases h1 : A.n > 1
    · rw [if_pos h1, lowerT_sym, lowerT_mat B hs]
      have hn : ((A.transpose.upperTri false).offDiag 1).n = ((B.transpose.upperTri false).offDiag 1).n := by
        simp only [TView.offDiag, sym_upperTri_n]; rw [show (B.transpose.upperTri false).n = A.n from hcs]; rfl
      obtain ⟨m2, e2, b2⟩ := tri_addMM_gets hal x ((A.transpose.upperTri false).offDiag 1) ((B.transpose.upperTri false).offDiag 1) hn
        (tri_offDiag_wf hW.transpose.upperTri) (tri_offDiag_wf (upper_wf hs.transpose)) rfl
        (Or.inl fun a h1 h2 => covT a (offDiag_covers h1) (by
          rw [← B.transpose_covers]; exact upper_covers hs.transpose (offDiag_covers h2)))
        m1 (c1.bdd hB.live hb) _ _ ((sym_below hA1 hH1).holdsNU rfl) (off_has hs c1.1)
      have c2 := below_gets hs (w := fun i j => z i j + x * p i j) c1.1 (b2.congr fun i j hij => by
        have h2 := (tri_offDiag_in _ _ _).mp hij
        have h3 : ¬ (j + 1 ≤ i) := by omega
        have h4 : i ≤ j := by omega
        rw [if_neg h3, if_pos h4])
      refine ⟨m2, e2, (c1.trans c2).congr fun i j hi hj => ?_⟩
      split
      · rfl
      · rw [if_pos (by omega), if_pos (by omega)]
    · rw [if_neg h1]
      refine ⟨m1, rfl, c1.congr fun i j hi hj => ?_⟩
      rw [if_pos (by omega), if_pos (by omega)]

/-- **C126** (`B += x*A`, `B -= x*A` for a full `B`).  The result is the old `B` plus `x` times the old `A`, for every layout, stored triangle
and conjugation, when `A` shares no element with `B` or starts at its first element; nothing else changes. -/
theorem sym_addToM_spec {al : Alloc K} (hal : al.OK) (x : K) (A : SView) (B : MView) (hs : B.Square A.n) (hW : A.WF)
    (hd : A.SepM B ∨ A.ptr = B.ptr) (m : Mem K) (hb : m.Bdd) (hH : A.HermOK m) (p z : Nat → Nat → K) (hA : A.Holds m p) (hB : B.Holds m z) :
    ∃ m', SView.addToM al x A B m = some m' ∧ B.Becomes m m' (fun i j => z i j + x * p i j) := by
  unfold SView.addToM
  by_cases h0 : A.n > 0
  · rw [if_pos h0]
    split
    · obtain ⟨m', e, b⟩ := sym_addToMnc_spec hal (star x) A.conjugate B.conjugate ⟨hs.cs, hs.rs, hs.wf, hs.ls, hs.si, hs.sj, hs.ds⟩ hW h0 hd m hb
        hH _ _ hA.conjugate (MView.Holds.conjugate.mp hB)
      exact ⟨m', e, MView.Becomes.of_conjugate (b.congr fun i j _ _ => by rw [star_add, star_mul'])⟩
    · exact sym_addToMnc_spec hal x A B hs hW h0 hd m hb hH p z hA hB
  · rw [if_neg h0]
    have := hs.cs
    exact ⟨m, rfl, fun i j hi hj => by omega, fun _ _ => rfl⟩

/-- **C126** (`C = x*A + y*B` for symmetric or Hermitian `A`, `B` and a full `C`; one may be symmetric and the other Hermitian).  The result
is computed from the old values.  Partial: as for `C = x*A` (`sym_assignMulXToM_violated`), an operand may not be kept in the upper triangle
of `C` with conjugation. -/
theorem sym_addSSM_partial {al : Alloc K} (hal : al.OK) (x y : K) (A B : SView) (C : MView) (hn : B.n = A.n) (hs : C.Square A.n) (hWA : A.WF)
    (hWB : B.WF) (hdA : A.AliasM C) (hdB : B.AliasM C) (m : Mem K) (hb : m.Bdd) (hHA : A.HermOK m) (hHB : B.HermOK m) (p q : Nat → Nat → K)
    (hA : A.Holds m p) (hB : B.Holds m q) (hC : C.Live m) :
    ∃ m', SView.addSSM al x A y B C m = some m' ∧ C.Becomes m m' (fun i j => x * p i j + y * q i j) := by
  have hcs := hs.cs
  have hrs := hs.rs
  have hsB : C.Square B.n := by rw [hn]; exact hs
  have sep : ∀ {U : SView}, U.AliasM C → U.ptr ≠ C.ptr → U.SepM C := fun h hp =>
    h.elim id fun h => h.elim (fun h => absurd h.1 hp) fun h => absurd h.1.1 hp
  unfold SView.addSSM
  by_cases h0 : A.n > 0
  swap
  · rw [if_neg h0]
    exact ⟨m, rfl, fun i j hi hj => by omega, fun _ _ => rfl⟩
  rw [if_pos h0]
  by_cases h1 : A.ptr = C.ptr
  · rw [if_pos h1]
    by_cases h2 : B.ptr = C.ptr
    · rw [if_pos h2]
      refine withTempM hal _ _ m hb C hC _ ?_
      intro t m0 T
      dsimp only
      obtain ⟨m1, e1, b1, T1⟩ := sym_temp x A h0 hWA T hHA p hA C.isrm
      have hsT := temp_square t A.n h0 C.isrm
      obtain ⟨m2, e2, b2⟩ := sym_assignMulXToM_partial y B C hsB hWB hdB m1 (T1.hermS hHB hB.live) q (T1.holdsS hB) (T1.liveM hC)
      have hdj : (MView.ofStor t A.n A.n C.isrm).Disjoint C := fun a h1 h2 => T1.disjM C.isrm hC a h2 h1
      obtain ⟨m3, e3, b3⟩ := mat_addMM_spec hal 1 (MView.ofStor t A.n A.n C.isrm) C (by rw [hcs]; rfl) (by rw [hrs]; rfl) m2
        (b2.bdd (T1.liveM hC) T1.bdd) _ _ hs.wf hsT.ls hs.ls (b1.1.frame b2.2 hdj) b2.1 (Or.inl hdj)
      refine ⟨m3, by rw [e1, Option.bind_some, e2]; exact e3, b3.1.congr fun i j _ _ => by rw [one_mul, add_comm], fun a h1 h2 => ?_⟩
      rw [b3.2 a h1, b2.2 a h1, b1.2 a fun h => h2 (ofStor_in h)]
    · rw [if_neg h2]
      have hsep := sep hdB h2
      obtain ⟨m1, e1, b1⟩ := sym_assignMulXToM_partial x A C hs hWA hdA m hHA p hA hC
      obtain ⟨m2, e2, b2⟩ := sym_addToM_spec hal y B C hsB hWB (Or.inl hsep) m1 (b1.bdd hC hb) (hHB.frame fun a ha => b1.2 a (hsep a ha)) q _
        (hB.frame fun a ha => b1.2 a (hsep a ha)) b1.1
      exact ⟨m2, by rw [e1]; exact e2, b1.trans b2⟩
  · rw [if_neg h1]
    have hsep := sep hdA h1
    obtain ⟨m1, e1, b1⟩ := sym_assignMulXToM_partial y B C hsB hWB hdB m hHB q hB hC
    obtain ⟨m2, e2, b2⟩ := sym_addToM_spec hal x A C hs hWA (Or.inl hsep) m1 (b1.bdd hC hb) (hHA.frame fun a ha => b1.2 a (hsep a ha)) p _
      (hA.frame fun a ha => b1.2 a (hsep a ha)) b1.1
    exact ⟨m2, by rw [e1]; exact e2, (b1.trans b2).congr fun i j _ _ => by rw [add_comm]⟩

/-- **C126** (`C = x*A + y*B` for a symmetric or Hermitian `A` and full `B`, `C`; also `C = B + A`, `C = B - A`).  The result is computed from
the old values.  Partial: when `B` is not in the storage of `C`, `A` may not be kept in the upper triangle of `C` with conjugation
(`sym_assignMulXToM_violated`); when both are in the storage of `C` there is no such condition. -/
theorem sym_addSM_partial {al : Alloc K} (hal : al.OK) (x y : K) (A : SView) (B C : MView) (hs : C.Square A.n) (hBc : B.cs = A.n)
    (hBr : B.rs = A.n) (hLB : B.LSOK) (hWA : A.WF) (hdA : A.AliasM C ∨ (A.ptr = C.ptr ∧ B.ptr = C.ptr)) (hdB : B.AliasOK C) (m : Mem K)
    (hb : m.Bdd) (hHA : A.HermOK m) (p q : Nat → Nat → K) (hA : A.Holds m p) (hB : B.Holds m q) (hC : C.Live m) :
    ∃ m', SView.addSM al x A y B C m = some m' ∧ C.Becomes m m' (fun i j => x * p i j + y * q i j) := by
  have hcs := hs.cs
  have hrs := hs.rs
  unfold SView.addSM
  by_cases h0 : A.n > 0
  swap
  · rw [if_neg h0]
    exact ⟨m, rfl, fun i j hi hj => by omega, fun _ _ => rfl⟩
  rw [if_pos h0]
  by_cases h1 : A.ptr = C.ptr
  · rw [if_pos h1]
    by_cases h2 : B.ptr = C.ptr
    · rw [if_pos h2]
      refine withTempM hal _ _ m hb C hC _ ?_
      intro t m0 T
      dsimp only
      obtain ⟨m1, e1, b1, T1⟩ := sym_temp x A h0 hWA T hHA p hA C.isrm
      have hsT := temp_square t A.n h0 C.isrm
      obtain ⟨m2, e2, b2⟩ := mat_assignMulX_spec hal y B C (by omega) (by omega) hs.wf hLB hs.ls m1 T1.bdd q (T1.holdsM hB) (T1.liveM hC) hdB
      have hdj : (MView.ofStor t A.n A.n C.isrm).Disjoint C := fun a h1 h2 => T1.disjM C.isrm hC a h2 h1
      obtain ⟨m3, e3, b3⟩ := mat_addMM_spec hal 1 (MView.ofStor t A.n A.n C.isrm) C (by rw [hcs]; rfl) (by rw [hrs]; rfl) m2
        (b2.bdd (T1.liveM hC) T1.bdd) _ _ hs.wf hsT.ls hs.ls (b1.1.frame b2.2 hdj) b2.1 (Or.inl hdj)
      refine ⟨m3, by rw [e1, Option.bind_some, e2]; exact e3, b3.1.congr fun i j _ _ => by rw [one_mul, add_comm], fun a h1 h2 => ?_⟩
      rw [b3.2 a h1, b2.2 a h1, b1.2 a fun h => h2 (ofStor_in h)]
    · rw [if_neg h2]
      have hsep : B.Disjoint C := hdB.resolve_right h2
      obtain ⟨m1, e1, b1⟩ := sym_assignMulXToM_partial x A C hs hWA (hdA.resolve_right fun h => h2 h.2) m hHA p hA hC
      obtain ⟨m2, e2, b2⟩ := mat_addMM_spec hal y B C (by omega) (by omega) m1 (b1.bdd hC hb) q _ hs.wf hLB hs.ls (hB.frame b1.2 hsep) b1.1
        (Or.inl hsep)
      exact ⟨m2, by rw [e1]; exact e2, b1.trans b2⟩
  · rw [if_neg h1]
    have hsep : A.SepM C := (hdA.resolve_right fun h => h1 h.1).elim id fun h => h.elim (fun h => absurd h.1 h1) fun h => absurd h.1.1 h1
    obtain ⟨m1, e1, b1⟩ := mat_assignMulX_spec hal y B C (by omega) (by omega) hs.wf hLB hs.ls m hb q hB hC hdB
    obtain ⟨m2, e2, b2⟩ := sym_addToM_spec hal x A C hs hWA (Or.inl hsep) m1 (b1.bdd hC hb) (hHA.frame fun a ha => b1.2 a (hsep a ha)) p _
      (hA.frame fun a ha => b1.2 a (hsep a ha)) b1.1
    exact ⟨m2, by rw [e1]; exact e2, (b1.trans b2).congr fun i j _ _ => by rw [add_comm]⟩

/-- Adding to the diagonal of a full matrix. -/
theorem mat_diag_addToAll (y : K) {C : MView} {n : Nat} (hs : C.Square n) (m : Mem K) (z : Nat → Nat → K) (hz : C.Holds m z) :
    ∃ m', C.diag.addToAll y m = some m' ∧ C.Becomes m m' (fun i j => z i j + if i = j then y else 0) := by
  have hcs := hs.cs
  have hrs := hs.rs
  have hds : C.diag.size = n := by simp [MView.diag, hcs, hrs]
  have hda : ∀ k : Nat, C.diag.addr k = C.addr k k := fun k => by simp only [MView.diag, VView.addr, MView.addr]; ring
  obtain ⟨m', e, c, fr⟩ := addToAll_spec_partial C.diag y m (Or.inl hs.ds) (fun k hk => by
    rw [hda]; exact hz.live k k (by omega) (by omega)) (Or.inl hs.ds)
  refine ⟨m', e, fun i j hi hj => ?_, fun a ha => fr a ?_⟩
  · dsimp only
    by_cases hij : i = j
    · subst hij
      have h1 := c i (by omega)
      have h2 : ∀ m : Mem K, C.cref m i i = C.diag.cref m i := fun m => by rw [MView.cref, VView.cref, hda]; rfl
      rw [if_pos rfl, h2, h1, ← h2, hz i i hi hj]; rfl
    · rw [if_neg hij, add_zero, ← hz i j hi hj, MView.cref, MView.cref, Mem.read, Mem.read, fr]
      rintro ⟨k, hk, e'⟩
      rw [hda] at e'
      have := hs.wf.1 i j k k hi hj (by omega) (by omega) e'
      omega
  · rintro ⟨k, hk, e'⟩
    exact ha ⟨k, k, by omega, by omega, by rw [e', hda]⟩

/-- **C126** (`C = x*A + y` for scalars `x`, `y` and a full `C`).  Here `A` may be kept in either triangle of `C`, with or without
conjugation. -/
theorem sym_assignSumXToM_spec (re : K → K) (hre : ∀ y, star y = y → re y = y) (x y : K) (A : SView) (C : MView) (hs : C.Square A.n) (hW : A.WF)
    (hd : A.SepM C ∨ A.InLower C ∨ A.InUpper C) (m : Mem K) (hH : A.HermOK m) (p : Nat → Nat → K) (hA : A.Holds m p) (hC : C.Live m) :
    ∃ m', SView.assignSumXToM re x A y C m = some m' ∧ C.Becomes m m' (fun i j => x * p i j + if i = j then y else 0) := by
  have nc : (A.upperTri false).NoClash (C.upperTri false) := by
    rcases hd with h | h | h
    · exact fun i j i' j' h1 h2 e => absurd (upper_covers hs ⟨i', j', h2, e⟩) (h _ ((sym_upperTri_covers A _).mp ⟨i, j, h1, rfl⟩))
    · exact (inLower_noClash hs h).1
    · exact (inUpper_noClash hs h).1
  unfold SView.assignSumXToM
  obtain ⟨m1, e1, v1, f1⟩ := sym_assignToM_spec re hre A C hs.cs hs.rs hW hs.wf.1 (Or.inr ⟨hs.si, hs.sj⟩) hs.ds m hH p hA hC nc
  obtain ⟨m2, e2, b2⟩ := mat_mulX_spec x C m1 p hs.wf hs.ls v1
  obtain ⟨m3, e3, b3⟩ := mat_diag_addToAll y hs m2 _ b2.1
  exact ⟨m3, by rw [e1, Option.bind_some, e2]; exact e3, b3.1, fun a ha => by rw [b3.2 a ha, b2.2 a ha, f1 a ha]⟩

end
end TMV
