import Verif.Props.MatMatLoops

/-! `DoBlockMultMM` as a whole. -/
namespace TMV
open Finset
variable {K : Type _} [CommRing K] [StarRing K]

omit [CommRing K] [StarRing K] in
theorem blk_sep {p : Int} {n Kt i i' : Nat} {x : Int} (hi : i < nBlk n) (hi' : i' < nBlk n)
    (h : p + i * (16 * Kt : Nat) ≤ x ∧ x < p + i * (16 * Kt : Nat) + (blkLen n i * Kt : Nat))
    (h' : p + i' * (16 * Kt : Nat) ≤ x ∧ x < p + i' * (16 * Kt : Nat) + (blkLen n i' * Kt : Nat)) : i = i' := by
  have key : ∀ a c : Nat, a < c → (a : Int) * (16 * Kt : Nat) + (16 * Kt : Nat) ≤ c * (16 * Kt : Nat) := by
    intro a c hac
    have : (a + 1) * (16 * Kt) ≤ c * (16 * Kt) := Nat.mul_le_mul_right _ hac
    have h2 : ((a : Int) + 1) * (16 * Kt : Nat) ≤ c * (16 * Kt : Nat) := by exact_mod_cast this
    linarith
  have l1 : blkLen n i * Kt ≤ 16 * Kt := Nat.mul_le_mul_right _ (blk_facts hi).2.1
  have l2 : blkLen n i' * Kt ≤ 16 * Kt := Nat.mul_le_mul_right _ (blk_facts hi').2.1
  rcases Nat.lt_trichotomy i i' with hlt | heq | hlt
  · have := key i i' hlt; omega
  · exact heq
  · have := key i' i hlt; omega

omit [CommRing K] [StarRing K] in
theorem blk_in {p : Int} {n Kt i : Nat} {x : Int} (hi : i < nBlk n)
    (h1 : p + i * (16 * Kt : Nat) ≤ x) (h2 : x < p + i * (16 * Kt : Nat) + (blkLen n i * Kt : Nat)) :
    p ≤ x ∧ x < p + (n * Kt : Nat) := by
  obtain ⟨f1, f2, f3, f4⟩ := blk_facts hi
  have h3 : (i * 16 + blkLen n i) * Kt ≤ n * Kt := Nat.mul_le_mul_right _ (by omega)
  have h4 : ((i * 16 + blkLen n i) * Kt : Nat) = i * (16 * Kt) + blkLen n i * Kt := by ring
  have h5 : ((i * (16 * Kt) : Nat) : Int) = (i : Int) * (16 * Kt : Nat) := by push_cast; rfl
  have h6 : (0 : Int) ≤ (i : Int) * (16 * Kt : Nat) := by positivity
  omega

theorem loops_spec (o : BlockOps K) (hKB : 0 < o.KB) (hru : ∀ x, x ≤ o.ru x) {A B C : MView} {fa fb : K → K} {u : K → K → K}
    (hpa : PackOK o.pa A.conj fa) (hpb : PackOK o.pb B.conj fb) (hst : StoreOK o.st C.conj u)
    {a b c : Nat → Nat → K} {m0 : Mem K} {Ap Bp Cp : Int} (Kt : Nat)
    (hKt : Kt = A.rs / o.KB * o.KB + o.ru (A.rs - A.rs / o.KB * o.KB))
    (S : BlkSetup A B C (fun x => Ap ≤ x ∧ x < Ap + ((if C.rs ≥ C.cs then C.cs * Kt else 16 * Kt : Nat) : Int))
      (fun x => Bp ≤ x ∧ x < Bp + ((if C.rs ≥ C.cs then 16 * Kt else C.rs * Kt : Nat) : Int))
      (fun x => Cp ≤ x ∧ x < Cp + 256) a b c m0) :
    ∃ m', BlockOps.loops o A B C Cp Ap Bp m0 = some m' ∧
      C.Raw m' (fun i j => u (c i j) (∑ l ∈ range A.rs, fa (a i l) * fb (b l j))) ∧
      ∀ x, ¬ C.Covers x → ¬ (Ap ≤ x ∧ x < Ap + ((if C.rs ≥ C.cs then C.cs * Kt else 16 * Kt : Nat) : Int)) →
        ¬ (Bp ≤ x ∧ x < Bp + ((if C.rs ≥ C.cs then 16 * Kt else C.rs * Kt : Nat) : Int)) → ¬ (Cp ≤ x ∧ x < Cp + 256) →
        m' x = m0 x := by
  have hmod : A.rs - A.rs / o.KB * o.KB = A.rs % o.KB := by
    have := Nat.div_add_mod A.rs o.KB
    rw [mul_comm] at this
    omega
  have hKd : A.rs % o.KB ≤ o.ru (A.rs - A.rs / o.KB * o.KB) := by rw [hmod]; exact hru _
  rw [loops_eq o A B C Cp Ap Bp (o.ru (A.rs - A.rs / o.KB * o.KB)) (16 * Kt) rfl (by rw [hKt]) m0]
  let val : Nat → Nat → K := fun i j => u (c i j) (∑ l ∈ range A.rs, fa (a i l) * fb (b l j))
  let fin : Int → Option K := fun x => some (rect C.ptr C.si C.sj C.cs C.rs val x)
  have hfin : ∀ r s : Nat, r < C.cs → s < C.rs → fin (C.addr r s) = some (val r s) := by
    intro r s hr hs
    show some _ = _
    rw [rect_at C S.inj val r s hr hs]
  have hcs := fun c hc => kChunks_mem (KB := o.KB) (k := A.rs) (Kd := o.ru (A.rs - A.rs / o.KB * o.KB)) (c := c) hKB hKd hc
  by_cases hNM : C.rs ≥ C.cs
  · simp only [if_pos hNM] at S ⊢
    obtain ⟨m', e, hG, hv⟩ := nest_spec
      (fun j i => uniBlock o A B C (o.ru (A.rs - A.rs / o.KB * o.KB)) Cp (Ap + i * (16 * Kt : Nat)) Bp (j == 0) (i == 0) i j)
      (nBlk C.rs) (nBlk C.cs) m0
      (OnlyCT C (fun x => Ap ≤ x ∧ x < Ap + (C.cs * Kt : Nat)) (fun x => Bp ≤ x ∧ x < Bp + (16 * Kt : Nat)) (fun x => Cp ≤ x ∧ x < Cp + 256) m0)
      (fun i m => ∀ c ∈ kChunks o.KB A.rs (o.ru (A.rs - A.rs / o.KB * o.KB)), ChunkIs m (Ap + i * (16 * Kt : Nat)) (blkLen C.cs i) (fun r l => fa (a (i * 16 + r) l)) c)
      (fun j m => ∀ c ∈ kChunks o.KB A.rs (o.ru (A.rs - A.rs / o.KB * o.KB)), ChunkIs m Bp (blkLen C.rs j) (fun r l => fb (b l (j * 16 + r))) c)
      (fun j i x => ∃ r s : Nat, r < C.cs ∧ s < C.rs ∧ r / 16 = i ∧ s / 16 = j ∧ x = C.addr r s) fin
      (by
        intro j i m hj hi hG pA pB hc
        have hTA : ∀ x, Ap + i * (16 * Kt : Nat) ≤ x → x < Ap + i * (16 * Kt : Nat) + (blkLen C.cs i * Kt : Nat) →
            Ap ≤ x ∧ x < Ap + (C.cs * Kt : Nat) := fun x h1 h2 => blk_in hi h1 h2
        have hTB : ∀ x, Bp ≤ x → x < Bp + (blkLen C.rs j * Kt : Nat) → Bp ≤ x ∧ x < Bp + (16 * Kt : Nat) := by
          intro x h1 h2
          have : blkLen C.rs j * Kt ≤ 16 * Kt := Nat.mul_le_mul_right _ (blk_facts hj).2.1
          exact ⟨h1, by omega⟩
        obtain ⟨m', e, g, qA, qB, v, fr⟩ := uni_spec o hKB hpa hpb hst S hKt hKd (j == 0) (i == 0) i j hi hj (Ap := Ap + i * (16 * Kt : Nat))
          (Bp := Bp) (Cp := Cp) (fun x => Iff.rfl) hTA hTB m hG (fun h => pA (by simp at h; omega)) (fun h => pB (by simp at h; omega))
          (fun r s hr hs h1 h2 => hc _ ⟨r, s, hr, hs, h1, h2, rfl⟩)
        refine ⟨m', e, g, qA, qB, ?_, ?_, ?_⟩
        · intro i' hi' hne q d hd
          refine (q d hd).frame (hcs d hd).2.1 (fun x hx => ?_)
          have hx' := chunkCell_in hx (le_trans (hcs d hd).2.2.2 hKt.ge)
          have hxA := blk_in hi' hx'.1 hx'.2
          refine fr x (fun h => hne (blk_sep hi' hi hx' h)) (fun h => S.dAB x hxA (hTB x h.1 h.2)) (S.dAC x hxA) ?_
          rintro ⟨r, s, hr, hs, _, _, rfl⟩
          exact (S.srcT _ (Or.inr (Or.inr ⟨r, s, hr, hs, rfl⟩))).1 hxA
        · rintro x ⟨r, s, hr, hs, h1, h2, rfl⟩
          rw [hfin r s hr hs]; exact v r s hr hs h1 h2
        · rintro j' i' x _ _ hne ⟨r, s, hr, hs, h1, h2, rfl⟩
          have hT := S.srcT _ (Or.inr (Or.inr ⟨r, s, hr, hs, rfl⟩))
          refine fr _ (fun h => hT.1 (hTA _ h.1 h.2)) (fun h => hT.2.1 (hTB _ h.1 h.2)) hT.2.2 ?_
          rintro ⟨r', s', hr', hs', h1', h2', e⟩
          have := S.inj r s r' s' hr hs hr' hs' e
          exact hne ⟨by rw [← h2, ← h2', this.2], by rw [← h1, ← h1', this.1]⟩)
      ⟨fun _ => rfl, fun _ _ _ _ _ => rfl⟩
    refine ⟨m', e, fun i j hi hj => ?_, fun x h1 h2 h3 h4 => hG.2 x h1 h2 h3 h4⟩
    rw [hv (j / 16) (i / 16) _ (blk_of hj).1 (blk_of hi).1 ⟨i, j, hi, hj, rfl, rfl, rfl⟩, hfin i j hi hj]
  · simp only [if_neg hNM] at S ⊢
    obtain ⟨m', e, hG, hv⟩ := nest_spec
      (fun i j => uniBlock o A B C (o.ru (A.rs - A.rs / o.KB * o.KB)) Cp Ap (Bp + j * (16 * Kt : Nat)) (j == 0) (i == 0) i j)
      (nBlk C.cs) (nBlk C.rs) m0
      (OnlyCT C (fun x => Ap ≤ x ∧ x < Ap + (16 * Kt : Nat)) (fun x => Bp ≤ x ∧ x < Bp + (C.rs * Kt : Nat)) (fun x => Cp ≤ x ∧ x < Cp + 256) m0)
      (fun j m => ∀ c ∈ kChunks o.KB A.rs (o.ru (A.rs - A.rs / o.KB * o.KB)), ChunkIs m (Bp + j * (16 * Kt : Nat)) (blkLen C.rs j) (fun r l => fb (b l (j * 16 + r))) c)
      (fun i m => ∀ c ∈ kChunks o.KB A.rs (o.ru (A.rs - A.rs / o.KB * o.KB)), ChunkIs m Ap (blkLen C.cs i) (fun r l => fa (a (i * 16 + r) l)) c)
      (fun i j x => ∃ r s : Nat, r < C.cs ∧ s < C.rs ∧ r / 16 = i ∧ s / 16 = j ∧ x = C.addr r s) fin
      (by
        intro i j m hi hj hG pB pA hc
        have hTB : ∀ x, Bp + j * (16 * Kt : Nat) ≤ x → x < Bp + j * (16 * Kt : Nat) + (blkLen C.rs j * Kt : Nat) →
            Bp ≤ x ∧ x < Bp + (C.rs * Kt : Nat) := fun x h1 h2 => blk_in hj h1 h2
        have hTA : ∀ x, Ap ≤ x → x < Ap + (blkLen C.cs i * Kt : Nat) → Ap ≤ x ∧ x < Ap + (16 * Kt : Nat) := by
          intro x h1 h2
          have : blkLen C.cs i * Kt ≤ 16 * Kt := Nat.mul_le_mul_right _ (blk_facts hi).2.1
          exact ⟨h1, by omega⟩
        obtain ⟨m', e, g, qA, qB, v, fr⟩ := uni_spec o hKB hpa hpb hst S hKt hKd (j == 0) (i == 0) i j hi hj (Ap := Ap)
          (Bp := Bp + j * (16 * Kt : Nat)) (Cp := Cp) (fun x => Iff.rfl) hTA hTB m hG (fun h => pA (by simp at h; omega)) (fun h => pB (by simp at h; omega))
          (fun r s hr hs h1 h2 => hc _ ⟨r, s, hr, hs, h1, h2, rfl⟩)
        refine ⟨m', e, g, qB, qA, ?_, ?_, ?_⟩
        · intro j' hj' hne q d hd
          refine (q d hd).frame (hcs d hd).2.1 (fun x hx => ?_)
          have hx' := chunkCell_in hx (le_trans (hcs d hd).2.2.2 hKt.ge)
          have hxB := blk_in hj' hx'.1 hx'.2
          refine fr x (fun h => S.dAB x (hTA x h.1 h.2) hxB) (fun h => hne (blk_sep hj' hj hx' h)) (S.dBC x hxB) ?_
          rintro ⟨r, s, hr, hs, _, _, rfl⟩
          exact (S.srcT _ (Or.inr (Or.inr ⟨r, s, hr, hs, rfl⟩))).2.1 hxB
        · rintro x ⟨r, s, hr, hs, h1, h2, rfl⟩
          rw [hfin r s hr hs]; exact v r s hr hs h1 h2
        · rintro i' j' x _ _ hne ⟨r, s, hr, hs, h1, h2, rfl⟩
          have hT := S.srcT _ (Or.inr (Or.inr ⟨r, s, hr, hs, rfl⟩))
          refine fr _ (fun h => hT.1 (hTA _ h.1 h.2)) (fun h => hT.2.1 (hTB _ h.1 h.2)) hT.2.2 ?_
          rintro ⟨r', s', hr', hs', h1', h2', e⟩
          have := S.inj r s r' s' hr hs hr' hs' e
          exact hne ⟨by rw [← h1, ← h1', this.1], by rw [← h2, ← h2', this.2]⟩)
      ⟨fun _ => rfl, fun _ _ _ _ _ => rfl⟩
    refine ⟨m', e, fun i j hi hj => ?_, fun x h1 h2 h3 h4 => hG.2 x h1 h2 h3 h4⟩
    rw [hv (i / 16) (j / 16) _ (blk_of hi).1 (blk_of hj).1 ⟨i, j, hi, hj, rfl, rfl, rfl⟩, hfin i j hi hj]

omit [CommRing K] [StarRing K] in
theorem Temp.raw {m m0 : Mem K} {t : Int} {n : Nat} (T : Temp m m0 t n) {M : MView} {x : Nat → Nat → K}
    (h : M.Raw m x) : M.Raw m0 x := fun i j hi hj => by
  rw [T.off _ (T.nin (h.live i j hi hj))]; exact h i j hi hj

omit [CommRing K] [StarRing K] in
theorem MView.Raw.covers {M : MView} {m : Mem K} {a : Nat → Nat → K} (h : M.Raw m a) {x : Int} (hx : M.Covers x) : (m x).isSome := by
  obtain ⟨i, j, hi, hj, rfl⟩ := hx
  exact h.live i j hi hj

theorem run_spec {al : Alloc K} (hal : al.OK) (o : BlockOps K) (hKB : 0 < o.KB) (hru : ∀ x, x ≤ o.ru x) {A B C : MView}
    {fa fb : K → K} {u : K → K → K} (hpa : PackOK o.pa A.conj fa) (hpb : PackOK o.pb B.conj fb) (hst : StoreOK o.st C.conj u)
    {a b c : Nat → Nat → K} (m : Mem K) (hb : m.Bdd) (hcs : A.cs = C.cs) (hk : A.rs = B.cs) (hrs : B.rs = C.rs)
    (hI : C.Inj) (hA : A.Raw m a) (hB : B.Raw m b) (hC : C.Raw m c) (dA : A.Disjoint C) (dB : B.Disjoint C) :
    ∃ m', BlockOps.run o al A B C m = some m' ∧
      C.Raw m' (fun i j => u (c i j) (∑ l ∈ range A.rs, fa (a i l) * fb (b l j))) ∧ C.Frame m m' := by
  unfold BlockOps.run
  dsimp only
  generalize hKt : A.rs / o.KB * o.KB + o.ru (A.rs - A.rs / o.KB * o.KB) = Kt
  have stable : ∀ (P : Int → Prop), (∀ x, C.Covers x → P x) → ∀ m1 m2 : Mem K,
      C.Raw m1 (fun i j => u (c i j) (∑ l ∈ range A.rs, fa (a i l) * fb (b l j))) → (∀ x, P x → m2 x = m1 x) →
      C.Raw m2 (fun i j => u (c i j) (∑ l ∈ range A.rs, fa (a i l) * fb (b l j))) := by
    intro P hP m1 m2 h1 h2 i j hi hj
    rw [h2 _ (hP _ ⟨i, j, hi, hj, rfl⟩)]; exact h1 i j hi hj
  refine withTemp_spec hal 256 _ m hb C.Covers (fun x hx => hC.covers hx) _ (stable _ (fun _ h => h)) fun Cp m0 T => ?_
  have hA0 := T.raw hA
  have hB0 := T.raw hB
  have hC0 := T.raw hC
  obtain ⟨m1, e1, q1, f1⟩ := withTemp_spec hal (if C.rs ≥ C.cs then C.cs * Kt else 16 * Kt)
    (fun Ap m => al.withTemp (if C.rs ≥ C.cs then 16 * Kt else C.rs * Kt) (fun Bp m => BlockOps.loops o A B C Cp Ap Bp m) m)
    m0 T.bdd (fun x => C.Covers x ∨ (Cp ≤ x ∧ x < Cp + 256)) (fun x hx => by
      rcases hx with hx | hx
      · exact hC0.covers hx
      · exact T.live x hx.1 (by simpa using hx.2))
    (fun m => C.Raw m (fun i j => u (c i j) (∑ l ∈ range A.rs, fa (a i l) * fb (b l j)))) (stable _ (fun _ h => Or.inl h)) (fun Ap m1 T1 => by
      have hA1 := T1.raw hA0
      have hB1 := T1.raw hB0
      have hC1 := T1.raw hC0
      have hl1 : ∀ x, Cp ≤ x → x < Cp + 256 → (m0 x).isSome := fun x h1 h2 => T.live x h1 (by simpa using h2)
      have hl1' : ∀ x, Cp ≤ x → x < Cp + 256 → (m1 x).isSome := fun x h1 h2 => by
        rw [T1.off x (T1.nin (hl1 x h1 h2))]; exact hl1 x h1 h2
      obtain ⟨m2, e2, q2, f2⟩ := withTemp_spec hal (if C.rs ≥ C.cs then 16 * Kt else C.rs * Kt)
        (fun Bp m => BlockOps.loops o A B C Cp Ap Bp m) m1 T1.bdd
        (fun x => C.Covers x ∨ (Cp ≤ x ∧ x < Cp + 256) ∨ (Ap ≤ x ∧ x < Ap + ((if C.rs ≥ C.cs then C.cs * Kt else 16 * Kt : Nat) : Int)))
        (fun x hx => by
          rcases hx with hx | hx | hx
          · exact hC1.covers hx
          · exact hl1' x hx.1 hx.2
          · exact T1.live x hx.1 hx.2)
        (fun m => C.Raw m (fun i j => u (c i j) (∑ l ∈ range A.rs, fa (a i l) * fb (b l j)))) (stable _ (fun _ h => Or.inl h))
        (fun Bp m2 T2 => by
          have hl2 : ∀ x, Ap ≤ x → x < Ap + ((if C.rs ≥ C.cs then C.cs * Kt else 16 * Kt : Nat) : Int) → (m1 x).isSome :=
            fun x h1 h2 => T1.live x h1 h2
          have nC : ∀ x, A.Covers x ∨ B.Covers x ∨ C.Covers x → (m x).isSome ∧ (m0 x).isSome ∧ (m1 x).isSome := by
            rintro x (h | h | h)
            · exact ⟨hA.covers h, hA0.covers h, hA1.covers h⟩
            · exact ⟨hB.covers h, hB0.covers h, hB1.covers h⟩
            · exact ⟨hC.covers h, hC0.covers h, hC1.covers h⟩
          obtain ⟨m3, e3, r3, f3⟩ := loops_spec o hKB hru hpa hpb hst (a := a) (b := b) (c := c) (m0 := m2) (Ap := Ap) (Bp := Bp) (Cp := Cp) Kt hKt.symm
            { cs := hcs, k := hk, rs := hrs, inj := hI, bdd := T2.bdd
              srcA := T2.raw hA1, srcB := T2.raw hB1, dst := T2.raw hC1
              liveA := fun x h => by rw [T2.off x (T2.nin (hl2 x h.1 h.2))]; exact hl2 x h.1 h.2
              liveB := fun x h => T2.live x h.1 h.2
              liveC := fun x h => by rw [T2.off x (T2.nin (hl1' x h.1 h.2))]; exact hl1' x h.1 h.2
              dAB := fun x h => T2.nin (hl2 x h.1 h.2)
              dAC := fun x h h' => T1.nin (hl1 x h'.1 h'.2) h
              dBC := fun x h h' => T2.nin (hl1' x h'.1 h'.2) h
              srcT := fun x hx => by
                obtain ⟨h0, h1, h2⟩ := nC x hx
                exact ⟨T1.nin h1, T2.nin h2, by have := T.nin h0; simpa using this⟩
              srcC := fun x hx => by
                rcases hx with hx | hx
                · exact dA x hx
                · exact dB x hx }
          exact ⟨m3, e3, r3, fun x h1 h2 => by
            simp only [not_or] at h1
            exact f3 x h1.1 h1.2.2 h2 h1.2.1⟩)
      refine ⟨m2, e2, q2, fun x h1 h2 => ?_⟩
      simp only [not_or] at h1
      exact f2 x (by simp only [not_or]; exact ⟨h1.1, h1.2, h2⟩))
  exact ⟨m1, e1, q1, fun x h1 h2 => f1 x (by simp only [not_or]; exact ⟨h1, by simpa using h2⟩)⟩

end TMV
