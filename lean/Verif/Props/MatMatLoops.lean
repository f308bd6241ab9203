import Verif.Props.MatMatBlock

/-! The loops over the blocks: `DoBlockMultMM`. -/
namespace TMV
open Finset
variable {K : Type _} [CommRing K] [StarRing K]

theorem single_spec (o : BlockOps K) (hKB : 0 < o.KB) {A B C : MView} {fa fb : K → K} {u : K → K → K}
    (hpa : PackOK o.pa A.conj fa) (hpb : PackOK o.pb B.conj fb) (hst : StoreOK o.st C.conj u)
    {i1 i2 j1 j2 MB NB : Nat} {Ap Bp Cp : Int} {Kd : Nat} (hKd : A.rs % o.KB ≤ Kd) {a b c : Nat → Nat → K} (firstA firstB : Bool)
    (G : BlkGeom A B i1 i2 j1 j2 MB NB Ap Bp Cp (A.rs / o.KB * o.KB + Kd)) (m : Mem K)
    (E : BlkEnv A B i1 i2 j1 j2 MB NB Ap Bp Cp (A.rs / o.KB * o.KB + Kd) a b m)
    (pA : firstA = false → ∀ c ∈ kChunks o.KB A.rs Kd, ChunkIs m Ap MB (fun r l => fa (a (i1 + r) l)) c)
    (pB : firstB = false → ∀ c ∈ kChunks o.KB A.rs Kd, ChunkIs m Bp NB (fun r l => fb (b l (j1 + r))) c)
    (hI : (C.subMatrix4 i1 i2 j1 j2).Inj)
    (hC : (C.subMatrix4 i1 i2 j1 j2).Raw m c)
    (hCT : ∀ x, (C.subMatrix4 i1 i2 j1 j2).Covers x → ¬ (Ap ≤ x ∧ x < Ap + (MB * (A.rs / o.KB * o.KB + Kd) : Nat)) ∧
      ¬ (Bp ≤ x ∧ x < Bp + (NB * (A.rs / o.KB * o.KB + Kd) : Nat)) ∧ ¬ (Cp ≤ x ∧ x < Cp + 256)) :
    ∃ m', BlockOps.single o A B C i1 j1 i2 j2 MB NB (MB * o.KB) (NB * o.KB) Ap Bp Cp firstA firstB A.rs
        (A.rs - A.rs / o.KB * o.KB) Kd m = some m' ∧
      (∀ c ∈ kChunks o.KB A.rs Kd, ChunkIs m' Ap MB (fun r l => fa (a (i1 + r) l)) c) ∧
      (∀ c ∈ kChunks o.KB A.rs Kd, ChunkIs m' Bp NB (fun r l => fb (b l (j1 + r))) c) ∧
      (C.subMatrix4 i1 i2 j1 j2).Raw m' (fun i j => u (c i j)
        (∑ l ∈ range A.rs, fa (a (i1 + i) l) * fb (b l (j1 + j)))) ∧
      m.SameLive m' ∧
      (∀ x, ¬ (Ap ≤ x ∧ x < Ap + (MB * (A.rs / o.KB * o.KB + Kd) : Nat)) → ¬ (Bp ≤ x ∧ x < Bp + (NB * (A.rs / o.KB * o.KB + Kd) : Nat)) →
        ¬ (Cp ≤ x ∧ x < Cp + 256) → ¬ (C.subMatrix4 i1 i2 j1 j2).Covers x → m' x = m x) := by
  rw [single_eq o hKB]
  have hcs := fun c hc => kChunks_mem (c := c) hKB hKd hc
  have hvc : ∀ x, (⟨Cp, 256, 1, false⟩ : VView).Covers x → Cp ≤ x ∧ x < Cp + 256 := by
    rintro x ⟨i, hi, rfl⟩
    have hi' : i < 256 := hi
    simp only [VView.addr]; omega
  have hcov : ∀ x, (MView.ofStor Cp MB NB false).Covers x → Cp ≤ x ∧ x < Cp + 256 := by
    intro x hx
    obtain ⟨h1, h2⟩ := ofStor_in hx
    have : MB * NB ≤ 16 * 16 := Nat.mul_le_mul G.mb16 G.nb16
    exact ⟨h1, by omega⟩
  -- zero
  have hlz : (⟨Cp, 256, 1, false⟩ : VView).Live m := by
    intro i hi
    have := hvc _ ⟨i, hi, rfl⟩
    exact E.liveC _ this.1 this.2
  obtain ⟨m1, e1, z1, f1⟩ := setZero_spec (⟨Cp, 256, 1, false⟩ : VView) m (Or.inl one_ne_zero) hlz
  have zraw : ∀ x, Cp ≤ x → x < Cp + 256 → m1 x = some 0 := by
    intro x h1 h2
    have := z1 (x - Cp).toNat (by show _ < 256; omega)
    rw [VView.cref, Mem.read] at this
    have ha : (⟨Cp, 256, 1, false⟩ : VView).addr ((x - Cp).toNat : Int) = x := by simp only [VView.addr]; omega
    rw [ha] at this
    simpa [cj] using this
  have hoff1 : ∀ x, ¬ (Cp ≤ x ∧ x < Cp + 256) → m1 x = m x := fun x hx => f1 x (fun h => hx (hvc x h))
  have sl1 : m.SameLive m1 := by
    intro x
    by_cases h : Cp ≤ x ∧ x < Cp + 256
    · rw [zraw x h.1 h.2, E.liveC x h.1 h.2]; rfl
    · rw [hoff1 x h]
  have E1 := E.after sl1 (fun x hx => hoff1 x (G.srcT x hx).2.2)
  obtain ⟨m2, e2, cA, cB, r2, sl2, fr2⟩ := runChunks_spec o hpa hpb firstA firstB G (kChunks o.KB A.rs Kd) m1 (fun _ _ => 0)
    hcs (kChunks_sorted _ _ _) E1
    (fun h d hd => (pA h d hd).frame (hcs d hd).2.1 (fun x hx => by
      have hx' := chunkCell_in hx (hcs d hd).2.2.2
      exact hoff1 x (G.dAC x hx'.1 hx'.2)))
    (fun h d hd => (pB h d hd).frame (hcs d hd).2.1 (fun x hx => by
      have hx' := chunkCell_in hx (hcs d hd).2.2.2
      exact hoff1 x (G.dBC x hx'.1 hx'.2)))
    (fun i j hi hj => by
      have := hcov _ ⟨i, j, hi, hj, rfl⟩
      exact zraw _ this.1 this.2)
  have hC2 : (C.subMatrix4 i1 i2 j1 j2).Raw m2 c := by
    intro i j hi hj
    have hT := hCT _ ⟨i, j, hi, hj, rfl⟩
    rw [fr2 _ (fun d hd h => hT.1 (chunkCell_in h (hcs d hd).2.2.2)) (fun d hd h => hT.2.1 (chunkCell_in h (hcs d hd).2.2.2)) hT.2.2,
      hoff1 _ hT.2.2]
    exact hC i j hi hj
  have hsz1 : (C.subMatrix4 i1 i2 j1 j2).cs = MB := by
    simp only [MView.subMatrix4]; have := G.hi; omega
  have hsz2 : (C.subMatrix4 i1 i2 j1 j2).rs = NB := by
    simp only [MView.subMatrix4]; have := G.hj; omega
  have r2' : (MView.ofStor Cp MB NB false).Raw m2 (fun i j => ∑ l ∈ range A.rs, fa (a (i1 + i) l) * fb (b l (j1 + j))) := by
    intro i j hi hj
    rw [r2 i j hi hj]
    dsimp only
    rw [zero_add, kChunks_sum o.KB A.rs Kd (fun l => fa (a (i1 + i) l) * fb (b l (j1 + j)))]
  obtain ⟨m3, e3, r3, f3⟩ := hst (MView.ofStor Cp MB NB false) (C.subMatrix4 i1 i2 j1 j2) m2 _ c (lsok_ofStor _ _ _ _) rfl rfl rfl
    hsz1.symm hsz2.symm (by rw [hsz1]; exact G.mb) (by rw [hsz2]; exact G.nb) hI r2' hC2
    (fun x hx hx' => (hCT x hx').2.2 (hcov x hx)) ((sl1.trans sl2).bdd E.bdd)
  refine ⟨m3, by rw [e1, Option.bind_some, e2, Option.bind_some]; exact e3, ?_, ?_, r3, (sl1.trans sl2).trans (r3.sameLive f3 hC2.live), ?_⟩
  · intro d hd
    exact (cA d hd).frame (hcs d hd).2.1 (fun x hx => f3 x (fun h => (hCT x h).1 (chunkCell_in hx (hcs d hd).2.2.2)))
  · intro d hd
    exact (cB d hd).frame (hcs d hd).2.1 (fun x hx => f3 x (fun h => (hCT x h).2.1 (chunkCell_in hx (hcs d hd).2.2.2)))
  · intro x hA hB hCp hCx
    rw [f3 x hCx, fr2 x (fun d hd h => hA (chunkCell_in h (hcs d hd).2.2.2)) (fun d hd h => hB (chunkCell_in h (hcs d hd).2.2.2)) hCp,
      hoff1 x hCp]

/-! ### Loops -/

omit [CommRing K] [StarRing K] in
theorem loopN_inv (op : Nat → Mem K → Option (Mem K)) (Inv : Nat → Mem K → Prop) : ∀ (n i : Nat) (m : Mem K),
    (∀ k m, i ≤ k → k < i + n → Inv k m → ∃ m', op k m = some m' ∧ Inv (k + 1) m') → Inv i m →
    ∃ m', loopN op n i m = some m' ∧ Inv (i + n) m' := by
  intro n
  induction n with
  | zero => intro i m _ h; exact ⟨m, rfl, h⟩
  | succ n ih =>
    intro i m hs h
    obtain ⟨m1, e1, h1⟩ := hs i m le_rfl (by omega) h
    obtain ⟨m2, e2, h2⟩ := ih (i + 1) m1 (fun k m hk hk' => hs k m (by omega) (by omega)) h1
    exact ⟨m2, by rw [loopN, e1]; exact e2, by rwa [show i + (n + 1) = i + 1 + n by ring]⟩

omit [CommRing K] [StarRing K] in
theorem loopN_congr (f g : Nat → Mem K → Option (Mem K)) : ∀ (n i : Nat) (m : Mem K),
    (∀ k m, i ≤ k → k < i + n → f k m = g k m) → loopN f n i m = loopN g n i m := by
  intro n
  induction n with
  | zero => intro i m _; rfl
  | succ n ih =>
    intro i m h
    rw [loopN, loopN, h i m le_rfl (by omega)]
    congr 1; funext m'
    exact ih (i + 1) m' (fun k m hk hk' => h k m (by omega) (by omega))

omit [CommRing K] [StarRing K] in
theorem loopN_end (f : Nat → Mem K → Option (Mem K)) : ∀ (n i : Nat) (m : Mem K),
    loopN f (n + 1) i m = (loopN f n i m).bind (f (i + n)) := by
  intro n
  induction n with
  | zero => intro i m; simp [loopN]
  | succ n ih =>
    intro i m
    rw [loopN]
    conv_rhs => rw [loopN]
    rw [Option.bind_assoc]
    congr 1; funext m'
    rw [ih (i + 1) m', show i + 1 + n = i + (n + 1) by ring]

omit [CommRing K] [StarRing K] in
/-- A loop over full blocks and a final partial block. -/
theorem loop_tail (f h : Nat → Mem K → Option (Mem K)) (g : Mem K → Option (Mem K)) (n : Nat) (c : Prop) [Decidable c] (m : Mem K)
    (hf : ∀ k m, k < n → f k m = h k m) (hg : ∀ m, c → g m = h n m) :
    ((loopN f n 0 m).bind fun m => if c then g m else some m) = loopN h (n + if c then 1 else 0) 0 m := by
  rw [loopN_congr f h n 0 m (fun k m _ hk => hf k m (by omega))]
  by_cases hc : c
  · simp only [if_pos hc]
    rw [loopN_end, zero_add]
    congr 1; funext m'; exact hg m' hc
  · simp only [if_neg hc, add_zero]
    cases loopN h n 0 m <;> rfl

omit [CommRing K] [StarRing K] in
/-- Two nested loops over blocks.  `PI i`: the inner operand's block `i` has been packed; `PO o`: the outer operand's block `o` has been
packed (into the one buffer all outer blocks share). -/
theorem nest_spec (f : Nat → Nat → Mem K → Option (Mem K)) (nO nI : Nat) (m0 : Mem K) (G : Mem K → Prop)
    (PI PO : Nat → Mem K → Prop) (Cell : Nat → Nat → Int → Prop) (fin : Int → Option K)
    (step : ∀ o i m, o < nO → i < nI → G m → (0 < o → PI i m) → (0 < i → PO o m) → (∀ x, Cell o i x → m x = m0 x) →
      ∃ m', f o i m = some m' ∧ G m' ∧ PI i m' ∧ PO o m' ∧ (∀ i', i' < nI → i' ≠ i → PI i' m → PI i' m') ∧
        (∀ x, Cell o i x → m' x = fin x) ∧
        (∀ o' i' x, o' < nO → i' < nI → ¬ (o' = o ∧ i' = i) → Cell o' i' x → m' x = m x))
    (h0 : G m0) :
    ∃ m', loopN (fun o => loopN (f o) nI 0) nO 0 m0 = some m' ∧ G m' ∧
      ∀ o i x, o < nO → i < nI → Cell o i x → m' x = fin x := by
  let Inv : Nat → Nat → Mem K → Prop := fun o i m => G m ∧ (∀ i', i' < nI → (0 < o ∨ i' < i) → PI i' m) ∧ (0 < i → PO o m) ∧
    ∀ o' i' x, o' < nO → i' < nI → Cell o' i' x → m x = if o' < o ∨ (o' = o ∧ i' < i) then fin x else m0 x
  obtain ⟨m', e, hI⟩ := loopN_inv (fun o => loopN (f o) nI 0) (fun o m => Inv o 0 m) nO 0 m0 (by
    intro o m _ ho hInv
    obtain ⟨m', e, hI'⟩ := loopN_inv (f o) (fun i m => Inv o i m) nI 0 m (by
      intro i m _ hi hInv
      obtain ⟨hG, hPI, hPO, hc⟩ := hInv
      obtain ⟨m', e, g, pi, po, pk, cf, co⟩ := step o i m (by omega) (by omega) hG (fun h => hPI i (by omega) (Or.inl h)) hPO
        (fun x hx => by rw [hc o i x (by omega) (by omega) hx, if_neg (by omega)])
      refine ⟨m', e, g, fun i' hi' h => ?_, fun _ => po, fun o' i' x ho' hi' hx => ?_⟩
      · by_cases hii : i' = i
        · rw [hii]; exact pi
        · exact pk i' hi' hii (hPI i' hi' (by omega))
      · by_cases hoi : o' = o ∧ i' = i
        · obtain ⟨rfl, rfl⟩ := hoi
          rw [cf x hx, if_pos (by omega)]
        · rw [co o' i' x ho' hi' hoi hx, hc o' i' x ho' hi' hx]
          by_cases hh : o' < o ∨ (o' = o ∧ i' < i)
          · rw [if_pos hh, if_pos (by omega)]
          · rw [if_neg hh, if_neg (by omega)]) hInv
    refine ⟨m', e, hI'.1, fun i' hi' _ => hI'.2.1 i' hi' (Or.inr (by omega)), fun h => absurd h (by omega), fun o' i' x ho' hi' hx => ?_⟩
    rw [hI'.2.2.2 o' i' x ho' hi' hx]
    by_cases hh : o' < o + 1
    · rw [if_pos (by omega), if_pos (Or.inl hh)]
    · rw [if_neg (by omega), if_neg (by omega)]) (by
    refine ⟨h0, fun i' _ h => absurd h (by omega), fun h => absurd h (by omega), fun o' i' x _ _ _ => ?_⟩
    rw [if_neg (by omega)])
  refine ⟨m', e, hI.1, fun o i x ho hi hx => ?_⟩
  rw [hI.2.2.2 o i x ho hi hx, if_pos (by omega)]

/-! ### All blocks alike -/

/-- The size of block `i` of `n` rows or columns. -/
def blkLen (n i : Nat) : Nat := min 16 (n - i * 16)
/-- The number of blocks. -/
def nBlk (n : Nat) : Nat := n / 16 + if n - n / 16 * 16 ≠ 0 then 1 else 0

omit [CommRing K] [StarRing K] in
theorem blk_facts {n i : Nat} (h : i < nBlk n) : 0 < blkLen n i ∧ blkLen n i ≤ 16 ∧ i * 16 + blkLen n i = min ((i + 1) * 16) n ∧
    min ((i + 1) * 16) n ≤ n := by
  unfold nBlk at h; unfold blkLen
  split at h <;> omega

omit [CommRing K] [StarRing K] in
theorem blk_of {n r : Nat} (h : r < n) : r / 16 < nBlk n ∧ r - r / 16 * 16 < blkLen n (r / 16) := by
  unfold nBlk blkLen
  split <;> omega

/-- Block `(i,j)`. -/
def uniBlock (o : BlockOps K) (A B C : MView) (Kd : Nat) (Cp Ap Bp : Int) (fA fB : Bool) (i j : Nat) (m : Mem K) : Option (Mem K) :=
  BlockOps.single o A B C (i*16) (j*16) (min ((i+1)*16) C.cs) (min ((j+1)*16) C.rs) (blkLen C.cs i) (blkLen C.rs j)
    (blkLen C.cs i * o.KB) (blkLen C.rs j * o.KB) Ap Bp Cp fA fB A.rs (A.rs - A.rs / o.KB * o.KB) Kd m

/-- The explicit loops of `DoBlockMultMM` and their special cases for the last row and column of blocks are loops over all
blocks. -/
theorem loops_eq (o : BlockOps K) (A B C : MView) (Cp Ap0 Bp0 : Int) (Kd full : Nat)
    (hKd : Kd = o.ru (A.rs - A.rs / o.KB * o.KB)) (hfull : full = 16 * (A.rs / o.KB * o.KB + Kd)) (m : Mem K) :
    BlockOps.loops o A B C Cp Ap0 Bp0 m =
      if C.rs ≥ C.cs then
        loopN (fun j => loopN (fun i => uniBlock o A B C Kd Cp (Ap0 + i * full) Bp0 (j == 0) (i == 0) i j) (nBlk C.cs) 0) (nBlk C.rs) 0 m
      else
        loopN (fun i => loopN (fun j => uniBlock o A B C Kd Cp Ap0 (Bp0 + j * full) (j == 0) (i == 0) i j) (nBlk C.rs) 0) (nBlk C.cs) 0 m := by
  subst hKd hfull
  have hM : ∀ i, i < C.cs / 16 → min ((i+1)*16) C.cs = (i+1)*16 ∧ blkLen C.cs i = 16 := by
    intro i hi; unfold blkLen; omega
  have hN : ∀ i, i < C.rs / 16 → min ((i+1)*16) C.rs = (i+1)*16 ∧ blkLen C.rs i = 16 := by
    intro i hi; unfold blkLen; omega
  have hM' : min ((C.cs / 16+1)*16) C.cs = C.cs ∧ blkLen C.cs (C.cs / 16) = C.cs - C.cs / 16 * 16 := by
    unfold blkLen; omega
  have hN' : min ((C.rs / 16+1)*16) C.rs = C.rs ∧ blkLen C.rs (C.rs / 16) = C.rs - C.rs / 16 * 16 := by
    unfold blkLen; omega
  unfold BlockOps.loops
  dsimp only
  by_cases h : C.rs ≥ C.cs
  · rw [if_pos h, if_pos h]
    refine loop_tail _ _ _ (C.rs / 16) _ m (fun j m hj => ?_) (fun m hc => ?_)
    · refine loop_tail _ _ _ (C.cs / 16) _ m (fun i m hi => ?_) (fun m hc => ?_)
      · unfold uniBlock; rw [(hM i hi).1, (hM i hi).2, (hN j hj).1, (hN j hj).2]
      · unfold uniBlock; rw [hM'.1, hM'.2, (hN j hj).1, (hN j hj).2]
    · refine loop_tail _ _ _ (C.cs / 16) _ m (fun i m hi => ?_) (fun m hc => ?_)
      · unfold uniBlock; rw [(hM i hi).1, (hM i hi).2, hN'.1, hN'.2]
      · unfold uniBlock; rw [hM'.1, hM'.2, hN'.1, hN'.2]
  · rw [if_neg h, if_neg h]
    refine loop_tail _ _ _ (C.cs / 16) _ m (fun i m hi => ?_) (fun m hc => ?_)
    · refine loop_tail _ _ _ (C.rs / 16) _ m (fun j m hj => ?_) (fun m hc => ?_)
      · unfold uniBlock; rw [(hM i hi).1, (hM i hi).2, (hN j hj).1, (hN j hj).2]
      · unfold uniBlock; rw [(hM i hi).1, (hM i hi).2, hN'.1, hN'.2]
    · refine loop_tail _ _ _ (C.rs / 16) _ m (fun j m hj => ?_) (fun m hc => ?_)
      · unfold uniBlock; rw [hM'.1, hM'.2, (hN j hj).1, (hN j hj).2]
      · unfold uniBlock; rw [hM'.1, hM'.2, hN'.1, hN'.2]

/-- The situation in `DoBlockMultMM` after its allocations. -/
structure BlkSetup (A B C : MView) (TA TB TC : Int → Prop) (a b c : Nat → Nat → K) (m0 : Mem K) : Prop where
  cs : A.cs = C.cs
  k : A.rs = B.cs
  rs : B.rs = C.rs
  inj : C.Inj
  bdd : m0.Bdd
  srcA : A.Raw m0 a
  srcB : B.Raw m0 b
  dst : C.Raw m0 c
  liveA : ∀ x, TA x → (m0 x).isSome
  liveB : ∀ x, TB x → (m0 x).isSome
  liveC : ∀ x, TC x → (m0 x).isSome
  dAB : ∀ x, TA x → ¬ TB x
  dAC : ∀ x, TA x → ¬ TC x
  dBC : ∀ x, TB x → ¬ TC x
  srcT : ∀ x, A.Covers x ∨ B.Covers x ∨ C.Covers x → ¬ TA x ∧ ¬ TB x ∧ ¬ TC x
  srcC : ∀ x, A.Covers x ∨ B.Covers x → ¬ C.Covers x

/-- Only `C` and the temporaries have changed. -/
def OnlyCT (C : MView) (TA TB TC : Int → Prop) (m0 m : Mem K) : Prop :=
  m0.SameLive m ∧ ∀ x, ¬ C.Covers x → ¬ TA x → ¬ TB x → ¬ TC x → m x = m0 x

omit [CommRing K] [StarRing K] in
theorem sub4_addr (C : MView) (i j i2 j2 : Int) (r s : Int) : (C.subMatrix4 i i2 j j2).addr r s = C.addr (i + r) (j + s) := by
  simp only [MView.subMatrix4, MView.addr]; ring

theorem uni_spec (o : BlockOps K) (hKB : 0 < o.KB) {A B C : MView} {fa fb : K → K} {u : K → K → K}
    (hpa : PackOK o.pa A.conj fa) (hpb : PackOK o.pb B.conj fb) (hst : StoreOK o.st C.conj u)
    {TA TB TC : Int → Prop} {a b c : Nat → Nat → K} {m0 : Mem K} (S : BlkSetup A B C TA TB TC a b c m0)
    {Ap Bp Cp : Int} {Kd Kt : Nat} (hKt : Kt = A.rs / o.KB * o.KB + Kd) (hKd : A.rs % o.KB ≤ Kd) (fA fB : Bool) (i j : Nat)
    (hi : i < nBlk C.cs) (hj : j < nBlk C.rs)
    (hTC : ∀ x, TC x ↔ (Cp ≤ x ∧ x < Cp + 256))
    (hTA : ∀ x, Ap ≤ x → x < Ap + (blkLen C.cs i * Kt : Nat) → TA x)
    (hTB : ∀ x, Bp ≤ x → x < Bp + (blkLen C.rs j * Kt : Nat) → TB x)
    (m : Mem K) (hG : OnlyCT C TA TB TC m0 m)
    (pA : fA = false → ∀ c ∈ kChunks o.KB A.rs Kd, ChunkIs m Ap (blkLen C.cs i) (fun r l => fa (a (i * 16 + r) l)) c)
    (pB : fB = false → ∀ c ∈ kChunks o.KB A.rs Kd, ChunkIs m Bp (blkLen C.rs j) (fun r l => fb (b l (j * 16 + r))) c)
    (hC : ∀ r s : Nat, r < C.cs → s < C.rs → r / 16 = i → s / 16 = j → m (C.addr r s) = m0 (C.addr r s)) :
    ∃ m', uniBlock o A B C Kd Cp Ap Bp fA fB i j m = some m' ∧ OnlyCT C TA TB TC m0 m' ∧
      (∀ c ∈ kChunks o.KB A.rs Kd, ChunkIs m' Ap (blkLen C.cs i) (fun r l => fa (a (i * 16 + r) l)) c) ∧
      (∀ c ∈ kChunks o.KB A.rs Kd, ChunkIs m' Bp (blkLen C.rs j) (fun r l => fb (b l (j * 16 + r))) c) ∧
      (∀ r s : Nat, r < C.cs → s < C.rs → r / 16 = i → s / 16 = j →
        m' (C.addr r s) = some (u (c r s) (∑ l ∈ range A.rs, fa (a r l) * fb (b l s)))) ∧
      (∀ x, ¬ (Ap ≤ x ∧ x < Ap + (blkLen C.cs i * Kt : Nat)) → ¬ (Bp ≤ x ∧ x < Bp + (blkLen C.rs j * Kt : Nat)) →
        ¬ TC x → ¬ (∃ r s : Nat, r < C.cs ∧ s < C.rs ∧ r / 16 = i ∧ s / 16 = j ∧ x = C.addr r s) → m' x = m x) := by
  subst hKt
  obtain ⟨b1, b2, b3, b4⟩ := blk_facts hi
  obtain ⟨d1, d2, d3, d4⟩ := blk_facts hj
  have hcs : (C.subMatrix4 ((i*16 : Nat) : Int) ((min ((i+1)*16) C.cs : Nat) : Int) ((j*16 : Nat) : Int) ((min ((j+1)*16) C.rs : Nat) : Int)).cs = blkLen C.cs i := by
    show ((min ((i+1)*16) C.cs : Nat) - (i*16 : Nat) : Int).toNat = _
    omega
  have hrs : (C.subMatrix4 ((i*16 : Nat) : Int) ((min ((i+1)*16) C.cs : Nat) : Int) ((j*16 : Nat) : Int) ((min ((j+1)*16) C.rs : Nat) : Int)).rs = blkLen C.rs j := by
    show ((min ((j+1)*16) C.rs : Nat) - (j*16 : Nat) : Int).toNat = _
    omega
  have hin : ∀ x, (C.subMatrix4 ((i*16 : Nat) : Int) ((min ((i+1)*16) C.cs : Nat) : Int) ((j*16 : Nat) : Int) ((min ((j+1)*16) C.rs : Nat) : Int)).Covers x →
      ∃ r s : Nat, r < C.cs ∧ s < C.rs ∧ r / 16 = i ∧ s / 16 = j ∧ x = C.addr r s := by
    rintro x ⟨r, s, hr, hs, rfl⟩
    rw [hcs] at hr; rw [hrs] at hs
    refine ⟨i * 16 + r, j * 16 + s, by omega, by omega, by omega, by omega, ?_⟩
    rw [sub4_addr]; push_cast; rfl
  have hCcov : ∀ x, (∃ r s : Nat, r < C.cs ∧ s < C.rs ∧ r / 16 = i ∧ s / 16 = j ∧ x = C.addr r s) → C.Covers x := by
    rintro x ⟨r, s, hr, hs, _, _, rfl⟩; exact ⟨r, s, hr, hs, rfl⟩
  have Geo : BlkGeom A B (i*16) (min ((i+1)*16) C.cs) (j*16) (min ((j+1)*16) C.rs) (blkLen C.cs i) (blkLen C.rs j) Ap Bp Cp
      (A.rs / o.KB * o.KB + Kd) := by
    refine ⟨S.k, b3, by rw [S.cs]; exact b4, d3, by rw [S.rs]; exact d4, b1, d1, b2, d2, fun x h1 h2 h => ?_, fun x h1 h2 h => ?_, fun x h1 h2 h => ?_, fun x hx => ?_⟩
    · exact S.dAB x (hTA x h1 h2) (hTB x h.1 h.2)
    · exact S.dAC x (hTA x h1 h2) ((hTC x).mpr h)
    · exact S.dBC x (hTB x h1 h2) ((hTC x).mpr h)
    · have := S.srcT x (by tauto)
      exact ⟨fun h => this.1 (hTA x h.1 h.2), fun h => this.2.1 (hTB x h.1 h.2), fun h => this.2.2 ((hTC x).mpr h)⟩
  have hsrc : ∀ x, A.Covers x ∨ B.Covers x → m x = m0 x := fun x hx => by
    have := S.srcT x (by tauto)
    exact hG.2 x (S.srcC x hx) this.1 this.2.1 this.2.2
  have Ev : BlkEnv A B (i*16) (min ((i+1)*16) C.cs) (j*16) (min ((j+1)*16) C.rs) (blkLen C.cs i) (blkLen C.rs j) Ap Bp Cp
      (A.rs / o.KB * o.KB + Kd) a b m := by
    refine ⟨hG.1.bdd S.bdd, fun r l hr hl => ?_, fun r l hr hl => ?_, fun x h1 h2 => ?_, fun x h1 h2 => ?_, fun x h1 h2 => ?_⟩
    · rw [hsrc _ (Or.inl ⟨r, l, hr, hl, rfl⟩)]; exact S.srcA r l hr hl
    · rw [hsrc _ (Or.inr ⟨r, l, hr, hl, rfl⟩)]; exact S.srcB r l hr hl
    · rw [hG.1 x]; exact S.liveA x (hTA x h1 h2)
    · rw [hG.1 x]; exact S.liveB x (hTB x h1 h2)
    · rw [hG.1 x]; exact S.liveC x ((hTC x).mpr ⟨h1, h2⟩)
  obtain ⟨m', e, qA, qB, r, sl, fr⟩ := single_spec o hKB hpa hpb hst hKd fA fB Geo m Ev pA pB
    (c := fun r s => c (i * 16 + r) (j * 16 + s))
    (by
      intro r s r' s' hr hs hr' hs' e
      rw [hcs] at hr hr'; rw [hrs] at hs hs'
      rw [sub4_addr, sub4_addr] at e
      have := S.inj (i * 16 + r) (j * 16 + s) (i * 16 + r') (j * 16 + s') (by omega) (by omega) (by omega) (by omega) (by push_cast at e ⊢; exact e)
      omega)
    (by
      intro r s hr hs
      rw [hcs] at hr; rw [hrs] at hs
      rw [sub4_addr]
      have := hC (i * 16 + r) (j * 16 + s) (by omega) (by omega) (by omega) (by omega)
      push_cast at this ⊢
      rw [this]
      have := S.dst (i * 16 + r) (j * 16 + s) (by omega) (by omega)
      push_cast at this; exact this)
    (by
      intro x hx
      have := S.srcT x (Or.inr (Or.inr (hCcov x (hin x hx))))
      exact ⟨fun h => this.1 (hTA x h.1 h.2), fun h => this.2.1 (hTB x h.1 h.2), fun h => this.2.2 ((hTC x).mpr h)⟩)
  refine ⟨m', e, ⟨hG.1.trans sl, fun x h1 h2 h3 h4 => ?_⟩, qA, qB, ?_, ?_⟩
  · rw [fr x (fun h => h2 (hTA x h.1 h.2)) (fun h => h3 (hTB x h.1 h.2)) (fun h => h4 ((hTC x).mpr h))
      (fun h => h1 (hCcov x (hin x h)))]
    exact hG.2 x h1 h2 h3 h4
  · intro r' s' hr hs h1 h2
    have := r (r' - i * 16) (s' - j * 16) (by rw [hcs]; omega) (by rw [hrs]; omega)
    rw [sub4_addr] at this
    dsimp only at this
    rw [show i * 16 + (r' - i * 16) = r' by omega, show j * 16 + (s' - j * 16) = s' by omega] at this
    rw [← this]
    congr 2 <;> omega
  · intro x h1 h2 h3 h4
    exact fr x h1 h2 (fun h => h3 ((hTC x).mpr h)) (fun h => h4 (hin x h))

end TMV
