import Verif.Lemmas.ImplBlock
import Verif.Props.MatArithEx

/-! **C47** The program of one thread of `OpenMPMultMM`. -/
namespace TMV
open Finset
variable {K : Type _} [CommRing K] [StarRing K] [DecidableEq K]

/-! ### The copies without aliasing -/

omit [DecidableEq K] in
theorem copyNA_pack : PackOK (MView.copyNA (K := K)) false id := by
  intro S D m v hls hSc hcs hrs h1 h2 hI hDc hS hD hdis hb
  have hptr : S.ptr ≠ D.ptr := by
    intro h
    refine hdis S.ptr ⟨0, 0, by omega, by omega, by simp [MView.addr]⟩ ⟨0, 0, h1, h2, by simp [MView.addr, h]⟩
  obtain ⟨m', e, r⟩ := assign_pack Alloc.good_ok S D m v hls hSc hcs hrs h1 h2 hI hDc hS hD hdis hb
  refine ⟨m', ?_, r⟩
  unfold MView.assign MView.copy at e
  unfold MView.copyNA
  rw [if_pos ⟨h2, h1⟩, if_neg hptr] at e ⊢
  exact e

theorem storeNA_ok (add : Bool) (x : K) : StoreOK (MView.storeNA add x) false (accU add x) := by
  intro P D m p c hP hPc hDl hDc hcs hrs h1 h2 hI hPr hDr hdis hb
  have hptr : P.ptr ≠ D.ptr := by
    intro h
    refine hdis P.ptr ⟨0, 0, by omega, by omega, by simp [MView.addr]⟩ ⟨0, 0, h1, h2, by simp [MView.addr, h]⟩
  obtain ⟨m', e, r⟩ := blockStore_ok Alloc.good_ok add x P D m p c hP hPc hDl hDc hcs hrs h1 h2 hI hPr hDr hdis hb
  refine ⟨m', ?_, r⟩
  have hs : P.sameStorage D = false := by simp [MView.sameStorage, hptr]
  have hc : ∀ m : Mem K, MView.copyNA P D m = MView.assign Alloc.good P D m := by
    intro m
    simp only [MView.assign, MView.copy, MView.copyNA, if_pos (show D.rs > 0 ∧ D.cs > 0 from ⟨h2, h1⟩), if_neg hptr]
  unfold MView.blockStore at e
  unfold MView.storeNA
  cases add with
  | true =>
    simp only [if_true] at e ⊢
    unfold MView.addMM MView.addMMnc at e
    unfold MView.addNA
    rw [hs, hDc] at *
    simpa using e
  | false =>
    simp only [Bool.false_eq_true, if_false] at e ⊢
    rw [hc m]
    exact e

/-! ### One call of `DoBlockMultMM` -/

namespace Call

/-- What a call adds up for an element of C, and what it does with the sum. -/
def packA (c : Call K) : K → K := c.fa.getD id
def packB (c : Call K) : K → K := c.fb.getD id
def upd (c : Call K) : K → K → K := match c.st with | .whole add x => accU add x | .part g => g

/-- If a call copies A (or B) itself and not its real or imaginary part, the matrix is not conjugated. -/
def Fits (c : Call K) (A B : MView) : Prop := (c.fa.isNone = true → A.conj = false) ∧ (c.fb.isNone = true → B.conj = false)

instance (c : Call K) (A B : MView) : Decidable (c.Fits A B) := by unfold Fits; infer_instance

omit [DecidableEq K] in
theorem opsNA_pa [DecidableEq K] (E : ElemTy K) (c : Call K) {A B : MView} (h : c.Fits A B) : PackOK (c.opsNA E).pa A.conj c.packA := by
  unfold opsNA packA
  cases e : c.fa with
  | none => dsimp only; rw [h.1 (by rw [e]; rfl)]; exact copyNA_pack
  | some f => exact partCopy_pack A.conj f

theorem opsNA_pb (E : ElemTy K) (c : Call K) {A B : MView} (h : c.Fits A B) : PackOK (c.opsNA E).pb B.conj c.packB := by
  unfold opsNA packB
  cases e : c.fb with
  | none => dsimp only; rw [h.2 (by rw [e]; rfl)]; exact copyNA_pack
  | some f => exact partCopy_pack B.conj f

theorem opsNA_st (E : ElemTy K) (c : Call K) : StoreOK (c.opsNA E).st false c.upd := by
  unfold opsNA upd
  cases c.st with
  | whole add x => exact storeNA_ok add x
  | part g => exact partStore_ok false g

theorem ops_pa {al : Alloc K} (hal : al.OK) (E : ElemTy K) (c : Call K) {A B : MView} (h : c.Fits A B) :
    PackOK (c.ops E al).pa A.conj c.packA := by
  unfold ops packA
  cases e : c.fa with
  | none => dsimp only; rw [h.1 (by rw [e]; rfl)]; exact assign_pack hal
  | some f => exact partCopy_pack A.conj f

theorem ops_pb {al : Alloc K} (hal : al.OK) (E : ElemTy K) (c : Call K) {A B : MView} (h : c.Fits A B) :
    PackOK (c.ops E al).pb B.conj c.packB := by
  unfold ops packB
  cases e : c.fb with
  | none => dsimp only; rw [h.2 (by rw [e]; rfl)]; exact assign_pack hal
  | some f => exact partCopy_pack B.conj f

theorem ops_st {al : Alloc K} (hal : al.OK) (E : ElemTy K) (c : Call K) : StoreOK (c.ops E al).st false c.upd := by
  unfold ops upd
  cases c.st with
  | whole add x => exact blockStore_ok hal add x
  | part g => exact partStore_ok false g

/-- The programs of the copies and of the addition. -/
def opsImpl {W : Int → Prop} (E : ElemTy K) (c : Call K) {A B : MView} (C : MView) (h : c.Fits A B) : Impl.OpsImpl W (c.opsNA E) A B C where
  pa i1 i2 k1 k2 D hD hc :=
    match e : c.fa with
    | none => (Impl.copyNA (A.subMatrix4 i1 i2 k1 k2) D hD (Or.inr ⟨by simp [MView.canLinearize, MView.resolve, MView.subMatrix4], hc, h.1 (by rw [e]; rfl)⟩)).congr
        fun m => by simp only [opsNA, e]
    | some f => (Impl.partCopy f (A.subMatrix4 i1 i2 k1 k2) D hD).congr fun m => by simp only [opsNA, e]
  pb i1 i2 k1 k2 D hD hc :=
    match e : c.fb with
    | none => (Impl.copyNA (B.subMatrix4 i1 i2 k1 k2) D hD (Or.inr ⟨by simp [MView.canLinearize, MView.resolve, MView.subMatrix4], hc, h.2 (by rw [e]; rfl)⟩)).congr
        fun m => by simp only [opsNA, e]
    | some f => (Impl.partCopy f (B.subMatrix4 i1 i2 k1 k2) D hD).congr fun m => by simp only [opsNA, e]
  st P i1 i2 j1 j2 hC h1 h2 :=
    match e : c.st with
    | .whole add x => (Impl.storeNA add x P (C.subMatrix4 i1 i2 j1 j2) hC (Or.inr (Or.inl rfl)) h1 h2).congr fun m => by simp only [opsNA, e]
    | .part g => (Impl.partStore g P (C.subMatrix4 i1 i2 j1 j2) hC).congr fun m => by simp only [opsNA, e]

end Call

/-- The number of columns of the packed rows of A (`Ktot_d`, src/TMV_MultMM_Block.cpp:192). -/
def ktot (E : ElemTy K) (A : MView) : Nat := A.rs / E.KB * E.KB + E.ru (A.rs - A.rs / E.KB * E.KB)

/-- The loops of a call, for a thread that owns C and the three temporary arrays. -/
def callLoops (E : ElemTy K) (hE : E.OK) (c : Call K) {A B : MView} (C : MView) (h : c.Fits A B) (Cp Ap Bp : Int) :
    Impl (fun x => ((C.Covers x ∨ (Cp ≤ x ∧ x < Cp + 256)) ∨
        (Ap ≤ x ∧ x < Ap + ((if C.rs ≥ C.cs then C.cs * ktot E A else 16 * ktot E A : Nat) : Int))) ∨
        (Bp ≤ x ∧ x < Bp + ((if C.rs ≥ C.cs then 16 * ktot E A else C.rs * ktot E A : Nat) : Int)))
      (BlockOps.loops (c.opsNA E) A B C Cp Ap Bp) :=
  Impl.loops (c.opsNA E) hE.kb hE.ru (c.opsImpl E C h) Cp Ap Bp (ktot E A) rfl
    (fun _ h1 h2 => Or.inl (Or.inr ⟨h1, h2⟩)) (fun _ h1 h2 => Or.inr ⟨h1, h2⟩) (fun _ h1 h2 => Or.inl (Or.inl (Or.inr ⟨h1, h2⟩)))
    (fun _ h => Or.inl (Or.inl (Or.inl h)))

/-- A thread's call of `DoBlockMultMM` (src/TMV_MultMM_Block.cpp:173-332) and what it does afterwards: three allocations, the loops,
the destruction of the temporary arrays. -/
def callProg (E : ElemTy K) (hE : E.OK) (c : Call K) (A B C : MView) (q : Prog K) : Prog K :=
  if h : c.Fits A B then
    .alloc 256 fun Cp => .alloc (if C.rs ≥ C.cs then C.cs * ktot E A else 16 * ktot E A) fun Ap =>
      .alloc (if C.rs ≥ C.cs then 16 * ktot E A else C.rs * ktot E A) fun Bp =>
        (callLoops E hE c C h Cp Ap Bp).prog.seq
        (.free Bp (if C.rs ≥ C.cs then 16 * ktot E A else C.rs * ktot E A)
          (.free Ap (if C.rs ≥ C.cs then C.cs * ktot E A else 16 * ktot E A) (.free Cp 256 q)))
  else .fail

/-- A thread's call of `BlockMultMM` (src/TMV_MultMM_Block.cpp:334-399). -/
def blockProg (E : ElemTy K) (hE : E.OK) (A B C : MView) : List (Call K) → Prog K
  | [] => .done
  | c :: cs => callProg E hE c A B C (blockProg E hE A B C cs)

omit [CommRing K] [StarRing K] [DecidableEq K] in
theorem temp_alloc {m : Mem K} (hb : m.Bdd) {t : Int} {n : Nat} (junk : Int → K) (h : ∀ a, t ≤ a → a < t + n → m a = none) :
    Temp m (m.alloc t n junk) t n := by
  refine ⟨h, fun a ha => by rw [Mem.alloc, if_neg ha], fun a h1 h2 => ?_, hb.alloc _ _ _⟩
  rw [Mem.alloc, if_pos ⟨h1, h2⟩]; rfl

/-- One call, run by a thread that owns C and for which nothing but A, B and C is there. -/
theorem callProg_safe {E : ElemTy K} (hE : E.OK) (k : Call K) {A B C : MView} (hF : k.Fits A B) {R : Int → Prop}
    {Q : (Int → Prop) → Mem K → Prop} {q : Prog K} {a b c : Nat → Nat → K} {m : Mem K} (H : BlkArgs A B C a b c m)
    (hl : ∀ x, m x ≠ none → R x ∨ C.Covers x)
    (hq : ∀ m', BlkArgs A B C a b (fun i j => k.upd (c i j) (∑ l ∈ range A.rs, k.packA (a i l) * k.packB (b l j))) m' → C.Frame m m' →
      q.Safe R Q C.Covers m') :
    (callProg E hE k A B C q).Safe R Q C.Covers m := by
  unfold callProg
  rw [dif_pos hF]
  intro Cp j1 f1
  intro Ap j2 f2
  intro Bp j3 f3
  dsimp only
  have hrun := (callLoops E hE k C hF Cp Ap Bp).run_eq
  have hwr := (callLoops E hE k C hF Cp Ap Bp).writes
  generalize (callLoops E hE k C hF Cp Ap Bp).prog = p at *
  generalize hnA : (if C.rs ≥ C.cs then C.cs * ktot E A else 16 * ktot E A) = nA at f2 f3 hwr ⊢
  generalize hnB : (if C.rs ≥ C.cs then 16 * ktot E A else C.rs * ktot E A) = nB at f3 hwr ⊢
  have T1 := temp_alloc H.bdd j1 fun x h1 h2 => (f1 x h1 h2).2.2
  have T2 := temp_alloc T1.bdd j2 fun x h1 h2 => (f2 x h1 h2).2.2
  have T3 := temp_alloc T2.bdd j3 fun x h1 h2 => (f3 x h1 h2).2.2
  generalize m.alloc Cp 256 j1 = m1 at *
  generalize m1.alloc Ap nA j2 = m2 at *
  generalize m2.alloc Bp nB j3 = m3 at *
  have hA1 := T1.raw H.hA
  have hB1 := T1.raw H.hB
  have hC1 := T1.raw H.hC
  have hA2 := T2.raw hA1
  have hB2 := T2.raw hB1
  have hC2 := T2.raw hC1
  have lC : ∀ x, Cp ≤ x ∧ x < Cp + 256 → (m1 x).isSome := fun x h => T1.live x h.1 (by simpa using h.2)
  have lC2 : ∀ x, Cp ≤ x ∧ x < Cp + 256 → (m2 x).isSome := fun x h => by rw [T2.off x (T2.nin (lC x h))]; exact lC x h
  have lA : ∀ x, Ap ≤ x ∧ x < Ap + nA → (m2 x).isSome := fun x h => T2.live x h.1 h.2
  have nC : ∀ x, A.Covers x ∨ B.Covers x ∨ C.Covers x → (m x).isSome ∧ (m1 x).isSome ∧ (m2 x).isSome := by
    rintro x (h | h | h)
    · exact ⟨H.hA.covers h, hA1.covers h, hA2.covers h⟩
    · exact ⟨H.hB.covers h, hB1.covers h, hB2.covers h⟩
    · exact ⟨H.hC.covers h, hC1.covers h, hC2.covers h⟩
  obtain ⟨m4, e4, r4, f4⟩ := loops_spec (k.opsNA E) hE.kb hE.ru (k.opsNA_pa E hF) (k.opsNA_pb E hF) (by rw [H.conj]; exact k.opsNA_st E)
    (a := a) (b := b) (c := c) (m0 := m3) (Ap := Ap) (Bp := Bp) (Cp := Cp) (ktot E A) rfl
    { cs := H.cs, k := H.k, rs := H.rs, inj := H.inj, bdd := T3.bdd
      srcA := T3.raw hA2, srcB := T3.raw hB2, dst := T3.raw hC2
      liveA := fun x h => by rw [hnA] at h; rw [T3.off x (T3.nin (lA x h))]; exact lA x h
      liveB := fun x h => by rw [hnB] at h; exact T3.live x h.1 h.2
      liveC := fun x h => by rw [T3.off x (T3.nin (lC2 x h))]; exact lC2 x h
      dAB := fun x h h' => by rw [hnA] at h; rw [hnB] at h'; exact T3.nin (lA x h) h'
      dAC := fun x h h' => by rw [hnA] at h; exact T2.nin (lC x h') h
      dBC := fun x h h' => by rw [hnB] at h; exact T3.nin (lC2 x h') h
      srcT := fun x hx => by
        obtain ⟨h0, h1, h2⟩ := nC x hx
        rw [hnA, hnB]
        exact ⟨T2.nin h1, T3.nin h2, by have := T1.nin h0; simpa using this⟩
      srcC := fun x hx => by
        rcases hx with hx | hx
        · exact H.dA x hx
        · exact H.dB x hx }
  rw [hnA, hnB] at f4
  refine Prog.safe_seq (m' := m4) ?_ ?_ ?_ ?_
  · rw [hrun]; exact e4
  · exact hwr
  · intro x hx
    by_cases h1 : Bp ≤ x ∧ x < Bp + nB
    · exact Or.inr (Or.inr h1)
    · rw [T3.off x h1] at hx
      by_cases h2 : Ap ≤ x ∧ x < Ap + nA
      · exact Or.inr (Or.inl (Or.inr h2))
      · rw [T2.off x h2] at hx
        by_cases h3 : Cp ≤ x ∧ x < Cp + (256 : Nat)
        · exact Or.inr (Or.inl (Or.inl (Or.inr h3)))
        · rw [T1.off x h3] at hx
          rcases hl x hx with h | h
          · exact Or.inl h
          · exact Or.inr (Or.inl (Or.inl (Or.inl h)))
  · refine ⟨fun x h1 h2 => Or.inr ⟨h1, h2⟩, ⟨fun x h1 h2 => ⟨Or.inl (Or.inr ⟨h1, h2⟩), fun h => ?_⟩, fun x h1 h2 => ⟨⟨Or.inl (Or.inl (Or.inr ⟨h1, h2⟩)), fun h => ?_⟩, fun h => ?_⟩, ?_⟩⟩
    · exact (f3 x h.1 h.2).2.1 (Or.inr ⟨h1, h2⟩)
    · exact (f3 x h.1 h.2).2.1 (Or.inl (Or.inr ⟨h1, h2⟩))
    · exact (f2 x h.1 h.2).2.1 (Or.inr ⟨h1, h2⟩)
    · have hW : (fun x => ((((((C.Covers x ∨ (Cp ≤ x ∧ x < Cp + (256 : Nat))) ∨ (Ap ≤ x ∧ x < Ap + nA)) ∨ (Bp ≤ x ∧ x < Bp + nB)) ∧ ¬ (Bp ≤ x ∧ x < Bp + nB)) ∧
          ¬ (Ap ≤ x ∧ x < Ap + nA)) ∧ ¬ (Cp ≤ x ∧ x < Cp + (256 : Nat)))) = C.Covers := by
        funext x
        refine propext ⟨fun h => by tauto, fun h => ⟨⟨⟨Or.inl (Or.inl (Or.inl h)), fun h' => ?_⟩, fun h' => ?_⟩, fun h' => ?_⟩⟩
        · exact (f3 x h'.1 h'.2).2.1 (Or.inl (Or.inl h))
        · exact (f2 x h'.1 h'.2).2.1 (Or.inl h)
        · exact (f1 x h'.1 h'.2).2.1 h
      have hoff : ∀ x, C.Covers x → ¬ (Bp ≤ x ∧ x < Bp + nB) ∧ ¬ (Ap ≤ x ∧ x < Ap + nA) ∧ ¬ (Cp ≤ x ∧ x < Cp + (256 : Nat)) := fun x h =>
        ⟨fun h' => (f3 x h'.1 h'.2).2.1 (Or.inl (Or.inl h)), fun h' => (f2 x h'.1 h'.2).2.1 (Or.inl h), fun h' => (f1 x h'.1 h'.2).2.1 h⟩
      have hr : C.Raw (((m4.free Bp nB).free Ap nA).free Cp 256)
          (fun i j => k.upd (c i j) (∑ l ∈ range A.rs, k.packA (a i l) * k.packB (b l j))) := by
        intro i j hi hj
        obtain ⟨g1, g2, g3⟩ := hoff _ ⟨i, j, hi, hj, rfl⟩
        rw [Mem.free, if_neg g3, Mem.free, if_neg g2, Mem.free, if_neg g1]
        exact r4 i j hi hj
      have hf : C.Frame m (((m4.free Bp nB).free Ap nA).free Cp 256) := by
        intro x hx
        unfold Mem.free
        by_cases g3 : Cp ≤ x ∧ x < Cp + (256 : Nat)
        · rw [if_pos g3]; exact ((f1 x g3.1 g3.2).2.2).symm
        · rw [if_neg g3]
          by_cases g2 : Ap ≤ x ∧ x < Ap + nA
          · rw [if_pos g2, ← T1.off x g3]; exact ((f2 x g2.1 g2.2).2.2).symm
          · rw [if_neg g2]
            by_cases g1 : Bp ≤ x ∧ x < Bp + nB
            · rw [if_pos g1, ← T1.off x g3, ← T2.off x g2]; exact ((f3 x g1.1 g1.2).2.2).symm
            · rw [if_neg g1, f4 x hx g2 g1 g3, T3.off x g1, T2.off x g2, T1.off x g3]
      have := hq _ (H.after hr hf) hf
      rw [← hW] at this
      exact this

end TMV
