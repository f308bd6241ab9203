import Verif.Props.MatMatBlockKern
import Verif.Props.MatMatSmall

/-! One block of the blocked matrix product: `SingleBlockMultMM`. -/
namespace TMV
open Finset
variable {K : Type _} [CommRing K] [StarRing K]

/-- The memory cells of the matrix contain `a`. -/
def MView.Raw (M : MView) (m : Mem K) (a : Nat → Nat → K) : Prop :=
  ∀ i j : Nat, i < M.cs → j < M.rs → m (M.addr i j) = some (a i j)

/-- The copy into a packed block: the cells of `D` become `f` of the cells of `S`. -/
def PackOK (pa : MView → MView → Mem K → Option (Mem K)) (cf : Bool) (f : K → K) : Prop :=
  ∀ (S D : MView) (m : Mem K) (v : Nat → Nat → K), S.ls = 0 → S.conj = cf → S.cs = D.cs → S.rs = D.rs → 0 < D.cs → 0 < D.rs →
    D.Inj → D.conj = false → S.Raw m v → D.Live m → S.Disjoint D → m.Bdd →
    ∃ m', pa S D m = some m' ∧ D.Raw m' (fun i j => f (v i j)) ∧ D.Frame m m'

/-- The addition of the finished block to `C`: a cell `c` becomes `u c p`. -/
def StoreOK (st : MView → MView → Mem K → Option (Mem K)) (cf : Bool) (u : K → K → K) : Prop :=
  ∀ (P D : MView) (m : Mem K) (p c : Nat → Nat → K), P.LSOK → P.conj = false → D.ls = 0 → D.conj = cf →
    P.cs = D.cs → P.rs = D.rs → 0 < D.cs → 0 < D.rs → D.Inj → P.Raw m p → D.Raw m c → P.Disjoint D → m.Bdd →
    ∃ m', st P D m = some m' ∧ D.Raw m' (fun i j => u (c i j) (p i j)) ∧ D.Frame m m'

/-- Two memories with the same live cells. -/
def Mem.SameLive (m m' : Mem K) : Prop := ∀ x, (m' x).isSome = (m x).isSome

omit [CommRing K] [StarRing K] in
theorem Mem.SameLive.trans {m m1 m2 : Mem K} (h : m.SameLive m1) (h' : m1.SameLive m2) : m.SameLive m2 :=
  fun x => by rw [h' x, h x]

omit [CommRing K] [StarRing K] in
theorem Mem.SameLive.bdd {m m' : Mem K} (h : m.SameLive m') (hb : m.Bdd) : m'.Bdd := by
  obtain ⟨b, hb⟩ := hb
  refine ⟨b, fun a ha => ?_⟩
  have := h a
  rw [hb a ha] at this
  simpa using this

omit [CommRing K] [StarRing K] in
theorem MView.Raw.live {M : MView} {m : Mem K} {a : Nat → Nat → K} (h : M.Raw m a) : M.Live m := by
  intro i j hi hj; rw [h i j hi hj]; rfl

omit [CommRing K] [StarRing K] in
theorem MView.Raw.sameLive {M : MView} {m m' : Mem K} {a : Nat → Nat → K} (h : M.Raw m' a) (hf : M.Frame m m')
    (hl : M.Live m) : m.SameLive m' := by
  intro x
  by_cases hx : M.Covers x
  · obtain ⟨i, j, hi, hj, rfl⟩ := hx
    rw [h i j hi hj, hl i j hi hj]; rfl
  · rw [hf x hx]

omit [StarRing K] in
theorem Mem.Adds.sameLive {m m' : Mem K} {δ : Int → K} (h : m.Adds m' δ) : m.SameLive m' := by
  intro x; rw [h x]; cases m x <;> rfl

/-! ### The list of chunks -/

/-- The chunks `(k0,len,kd)` of the inner dimension: offset, length, stride of the packed blocks. -/
def kChunks (KB k Kd : Nat) : List (Nat × Nat × Nat) :=
  ((List.range (k / KB)).map fun q => (q * KB, KB, KB)) ++ (if k % KB ≠ 0 then [(k / KB * KB, k % KB, Kd)] else [])

theorem kChunks_sum (KB k Kd : Nat) (f : Nat → K) :
    ((kChunks KB k Kd).map fun c => ∑ l ∈ range c.2.1, f (c.1 + l)).sum = ∑ l ∈ range k, f l := by
  have key : ∀ q, ∑ i ∈ range q, ∑ l ∈ range KB, f (i * KB + l) = ∑ l ∈ range (q * KB), f l := by
    intro q
    induction q with
    | zero => simp
    | succ q ih => rw [sum_range_succ, ih, Nat.add_mul, one_mul, sum_range_add]
  rw [kChunks, List.map_append, List.sum_append, List.map_map, list_range_sum]
  conv_rhs => rw [← Nat.div_add_mod k KB, mul_comm KB, sum_range_add, ← key]
  congr 1
  by_cases h : k % KB = 0
  · simp [h]
  · simp [h]

omit [CommRing K] [StarRing K] in
theorem kChunks_mem {KB k Kd : Nat} (hKB : 0 < KB) (hKd : k % KB ≤ Kd) {c : Nat × Nat × Nat} (hc : c ∈ kChunks KB k Kd) :
    0 < c.2.1 ∧ c.2.1 ≤ c.2.2 ∧ c.1 + c.2.1 ≤ k ∧ c.1 + c.2.2 ≤ k / KB * KB + Kd := by
  have hd := Nat.div_add_mod k KB
  rw [mul_comm] at hd
  simp only [kChunks, List.mem_append, List.mem_map, List.mem_range] at hc
  rcases hc with ⟨q, hq, rfl⟩ | hc
  · have : (q + 1) * KB ≤ k / KB * KB := Nat.mul_le_mul_right _ hq
    rw [Nat.add_mul, one_mul] at this
    refine ⟨hKB, le_rfl, ?_, ?_⟩
    · show q * KB + KB ≤ k; omega
    · show q * KB + KB ≤ _; omega
  · split at hc
    · simp only [List.mem_singleton] at hc
      subst hc
      refine ⟨by show 0 < k % KB; omega, hKd, ?_, le_rfl⟩
      show k / KB * KB + k % KB ≤ k
      omega
    · simp at hc

omit [CommRing K] [StarRing K] in
theorem kChunks_sorted (KB k Kd : Nat) : (kChunks KB k Kd).Pairwise (fun c d => c.1 + c.2.2 ≤ d.1) := by
  unfold kChunks
  rw [List.pairwise_append]
  refine ⟨?_, ?_, ?_⟩
  · rw [List.pairwise_map]
    refine List.Pairwise.imp ?_ (List.pairwise_lt_range (n := k / KB))
    intro a b hab
    show a * KB + KB ≤ b * KB
    calc a * KB + KB = (a + 1) * KB := by ring
      _ ≤ b * KB := Nat.mul_le_mul_right _ hab
  · split <;> simp
  · intro c hc d hd
    simp only [List.mem_map, List.mem_range] at hc
    obtain ⟨q, hq, rfl⟩ := hc
    split at hd
    · simp only [List.mem_singleton] at hd
      subst hd
      show q * KB + KB ≤ k / KB * KB
      calc q * KB + KB = (q + 1) * KB := by ring
        _ ≤ _ := Nat.mul_le_mul_right _ hq
    · simp at hd

/-- A packed block with rows of length `len` and stride `kd`, at offset `MB*k0`. -/
def ChunkIs (m : Mem K) (p : Int) (MB : Nat) (v : Nat → Nat → K) (c : Nat × Nat × Nat) : Prop :=
  ∀ r l : Nat, r < MB → l < c.2.1 → m (p + (MB * c.1 : Nat) + r * c.2.2 + l) = some (v r (c.1 + l))

/-- The address is in the space of a packed block. -/
def ChunkCell (p : Int) (MB : Nat) (c : Nat × Nat × Nat) (x : Int) : Prop :=
  p + (MB * c.1 : Nat) ≤ x ∧ x < p + (MB * (c.1 + c.2.2) : Nat)

omit [CommRing K] [StarRing K] in
theorem chunkCell_of {p : Int} {MB : Nat} {c : Nat × Nat × Nat} {r l : Nat} (hr : r < MB) (hl : l < c.2.1)
    (h : c.2.1 ≤ c.2.2) : ChunkCell p MB c (p + (MB * c.1 : Nat) + r * c.2.2 + l) := by
  have h1 : (r + 1) * c.2.2 ≤ MB * c.2.2 := Nat.mul_le_mul_right _ hr
  have h2 : MB * (c.1 + c.2.2) = MB * c.1 + MB * c.2.2 := by ring
  have h3 : (r + 1) * c.2.2 = r * c.2.2 + c.2.2 := by ring
  refine ⟨?_, ?_⟩
  · have : (0 : Int) ≤ (r : Int) * c.2.2 := by positivity
    omega
  · rw [h2]
    have : ((r * c.2.2 : Nat) : Int) = (r : Int) * c.2.2 := by push_cast; rfl
    rw [← this]
    omega

omit [CommRing K] [StarRing K] in
theorem ChunkIs.frame {m m' : Mem K} {p : Int} {MB : Nat} {v : Nat → Nat → K} {c : Nat × Nat × Nat} (h : ChunkIs m p MB v c)
    (hc : c.2.1 ≤ c.2.2) (hf : ∀ x, ChunkCell p MB c x → m' x = m x) : ChunkIs m' p MB v c := by
  intro r l hr hl
  rw [hf _ (chunkCell_of hr hl hc)]; exact h r l hr hl

/-- The situation of one block: sources, and temporary arrays. -/
structure BlkEnv (A B : MView) (i1 i2 j1 j2 MB NB : Nat) (Ap Bp Cp : Int) (Kt : Nat) (a b : Nat → Nat → K) (m : Mem K) :
    Prop where
  bdd : m.Bdd
  srcA : A.Raw m a
  srcB : B.Raw m b
  liveA : ∀ x, Ap ≤ x → x < Ap + (MB * Kt : Nat) → (m x).isSome
  liveB : ∀ x, Bp ≤ x → x < Bp + (NB * Kt : Nat) → (m x).isSome
  liveC : ∀ x, Cp ≤ x → x < Cp + 256 → (m x).isSome

/-- The part of the situation that does not depend on the memory. -/
structure BlkGeom (A B : MView) (i1 i2 j1 j2 MB NB : Nat) (Ap Bp Cp : Int) (Kt : Nat) : Prop where
  eq : A.rs = B.cs
  hi : i1 + MB = i2
  hi2 : i2 ≤ A.cs
  hj : j1 + NB = j2
  hj2 : j2 ≤ B.rs
  mb : 0 < MB
  nb : 0 < NB
  mb16 : MB ≤ 16
  nb16 : NB ≤ 16
  dAB : ∀ x, Ap ≤ x → x < Ap + (MB * Kt : Nat) → ¬ (Bp ≤ x ∧ x < Bp + (NB * Kt : Nat))
  dAC : ∀ x, Ap ≤ x → x < Ap + (MB * Kt : Nat) → ¬ (Cp ≤ x ∧ x < Cp + 256)
  dBC : ∀ x, Bp ≤ x → x < Bp + (NB * Kt : Nat) → ¬ (Cp ≤ x ∧ x < Cp + 256)
  srcT : ∀ x, A.Covers x ∨ B.Covers x → ¬ (Ap ≤ x ∧ x < Ap + (MB * Kt : Nat)) ∧ ¬ (Bp ≤ x ∧ x < Bp + (NB * Kt : Nat)) ∧
    ¬ (Cp ≤ x ∧ x < Cp + 256)

omit [CommRing K] [StarRing K] in
theorem BlkEnv.after {A B : MView} {i1 i2 j1 j2 MB NB : Nat} {Ap Bp Cp : Int} {Kt : Nat} {a b : Nat → Nat → K} {m m' : Mem K}
    (E : BlkEnv A B i1 i2 j1 j2 MB NB Ap Bp Cp Kt a b m) (hl : m.SameLive m')
    (hf : ∀ x, A.Covers x ∨ B.Covers x → m' x = m x) : BlkEnv A B i1 i2 j1 j2 MB NB Ap Bp Cp Kt a b m' := by
  refine ⟨hl.bdd E.bdd, fun i j hi hj => ?_, fun i j hi hj => ?_, fun x h1 h2 => ?_, fun x h1 h2 => ?_, fun x h1 h2 => ?_⟩
  · rw [hf _ (Or.inl ⟨i, j, hi, hj, rfl⟩)]; exact E.srcA i j hi hj
  · rw [hf _ (Or.inr ⟨i, j, hi, hj, rfl⟩)]; exact E.srcB i j hi hj
  · rw [hl x]; exact E.liveA x h1 h2
  · rw [hl x]; exact E.liveB x h1 h2
  · rw [hl x]; exact E.liveC x h1 h2

omit [CommRing K] [StarRing K] in
theorem chunkCell_in {p : Int} {MB Kt : Nat} {c : Nat × Nat × Nat} {x : Int} (h : ChunkCell p MB c x) (hc : c.1 + c.2.2 ≤ Kt) :
    p ≤ x ∧ x < p + (MB * Kt : Nat) := by
  obtain ⟨h1, h2⟩ := h
  have : MB * (c.1 + c.2.2) ≤ MB * Kt := Nat.mul_le_mul_left _ hc
  exact ⟨by omega, by omega⟩

/-- The block of A as a view. -/
theorem chunk_inj (p : Int) (MB len kd : Nat) (ls : Int) (h : len ≤ kd) : (⟨p, MB, len, kd, 1, false, ls⟩ : MView).Inj := by
  intro i j i' j' hi hj hi' hj' e
  simp only [MView.addr, mul_one] at e
  have hj : j < len := hj
  have hj' : j' < len := hj'
  have e' : i * kd + j = i' * kd + j' := by
    have : ((i * kd + j : Nat) : Int) = ((i' * kd + j' : Nat) : Int) := by push_cast; omega
    exact_mod_cast this
  have hk : 0 < kd := by omega
  have h1 : (i * kd + j) / kd = i := by rw [mul_comm, Nat.mul_add_div hk, Nat.div_eq_of_lt (by omega), add_zero]
  have h2 : (i' * kd + j') / kd = i' := by rw [mul_comm, Nat.mul_add_div hk, Nat.div_eq_of_lt (by omega), add_zero]
  have : i = i' := by rw [← h1, e', h2]
  subst this
  exact ⟨rfl, by omega⟩

/-- One chunk. -/
theorem chunk_spec (o : BlockOps K) {A B : MView} {fa fb : K → K} (hpa : PackOK o.pa A.conj fa) (hpb : PackOK o.pb B.conj fb)
    {i1 i2 j1 j2 MB NB : Nat} {Ap Bp Cp : Int} {Kt : Nat} {a b : Nat → Nat → K} (firstA firstB : Bool)
    (c : Nat × Nat × Nat) (hc1 : 0 < c.2.1) (hc2 : c.2.1 ≤ c.2.2) (hc3 : c.1 + c.2.1 ≤ A.rs) (hc4 : c.1 + c.2.2 ≤ Kt)
    (m : Mem K) (G : BlkGeom A B i1 i2 j1 j2 MB NB Ap Bp Cp Kt) (E : BlkEnv A B i1 i2 j1 j2 MB NB Ap Bp Cp Kt a b m)
    (pA : firstA = false → ChunkIs m Ap MB (fun r l => fa (a (i1 + r) l)) c)
    (pB : firstB = false → ChunkIs m Bp NB (fun r l => fb (b l (j1 + r))) c)
    (s : Nat → Nat → K) (hs : (MView.ofStor Cp MB NB false).Raw m s) :
    ∃ m', BlockOps.chunk o A B i1 j1 i2 j2 MB NB Cp firstA firstB c.1 (c.1 + c.2.1) c.2.2 (Ap + (MB * c.1 : Nat))
        (Bp + (NB * c.1 : Nat)) m = some m' ∧
      ChunkIs m' Ap MB (fun r l => fa (a (i1 + r) l)) c ∧ ChunkIs m' Bp NB (fun r l => fb (b l (j1 + r))) c ∧
      (MView.ofStor Cp MB NB false).Raw m' (fun i j => s i j + ∑ l ∈ range c.2.1, fa (a (i1 + i) (c.1 + l)) * fb (b (c.1 + l) (j1 + j))) ∧
      m.SameLive m' ∧
      (∀ x, ¬ ChunkCell Ap MB c x → ¬ ChunkCell Bp NB c x → ¬ (Cp ≤ x ∧ x < Cp + 256) → m' x = m x) := by
  obtain ⟨k0, len, kd⟩ := c
  dsimp only at *
  have hC16 : ∀ x, (MView.ofStor Cp MB NB false).Covers x → Cp ≤ x ∧ x < Cp + 256 := by
    intro x hx
    obtain ⟨h1, h2⟩ := ofStor_in hx
    have : MB * NB ≤ 16 * 16 := Nat.mul_le_mul G.mb16 G.nb16
    exact ⟨h1, by omega⟩
  -- the copy of A
  have stepA : ∃ m1, (if firstA then o.pa (A.subMatrix4 i1 i2 k0 ((k0 + len : Nat) : Int))
      ⟨Ap + (MB * k0 : Nat), MB, k0 + len - k0, kd, 1, false, MB * (k0 + len - k0 : Nat)⟩ m else some m) = some m1 ∧
      ChunkIs m1 Ap MB (fun r l => fa (a (i1 + r) l)) (k0, len, kd) ∧ m.SameLive m1 ∧
      (∀ x, ¬ ChunkCell Ap MB (k0, len, kd) x → m1 x = m x) := by
    cases hfa : firstA with
    | false => exact ⟨m, rfl, pA hfa, fun _ => rfl, fun _ _ => rfl⟩
    | true =>
      have hcov : ∀ r l : Nat, r < MB → l < len →
          (⟨Ap + (MB * k0 : Nat), MB, k0 + len - k0, kd, 1, false, MB * (k0 + len - k0 : Nat)⟩ : MView).addr r l =
            Ap + (MB * k0 : Nat) + r * kd + l := by
        intro r l _ _; simp [MView.addr]
      have hlen : k0 + len - k0 = len := by omega
      have hsub : ∀ r l : Nat, (A.subMatrix4 i1 i2 k0 ((k0 + len : Nat) : Int)).addr r l = A.addr (i1 + r : Nat) (k0 + l : Nat) := by
        intro r l; simp only [MView.subMatrix4, MView.addr]; push_cast; ring
      have hcs : (A.subMatrix4 i1 i2 k0 ((k0 + len : Nat) : Int)).cs = MB := by
        simp only [MView.subMatrix4]; have := G.hi; omega
      have hrs : (A.subMatrix4 i1 i2 k0 ((k0 + len : Nat) : Int)).rs = len := by
        simp only [MView.subMatrix4]; omega
      have hin : ∀ x, (⟨Ap + (MB * k0 : Nat), MB, k0 + len - k0, kd, 1, false, MB * (k0 + len - k0 : Nat)⟩ : MView).Covers x →
          ChunkCell Ap MB (k0, len, kd) x := by
        rintro x ⟨r, l, hr, hl, rfl⟩
        have hl' : l < len := by simpa [hlen] using hl
        rw [hcov r l hr hl']
        exact chunkCell_of (c := (k0, len, kd)) hr hl' hc2
      obtain ⟨m1, e, v, f⟩ := hpa (A.subMatrix4 i1 i2 k0 ((k0 + len : Nat) : Int))
        ⟨Ap + (MB * k0 : Nat), MB, k0 + len - k0, kd, 1, false, MB * (k0 + len - k0 : Nat)⟩ m
        (fun r l => a (i1 + r) (k0 + l)) rfl rfl hcs (by rw [hrs]; exact hlen.symm) G.mb (by show 0 < k0 + len - k0; omega)
        (chunk_inj _ _ _ _ _ (by omega)) rfl
        (fun r l hr hl => by
          rw [hcs] at hr; rw [hrs] at hl
          rw [hsub]; exact E.srcA _ _ (by have := G.hi; have := G.hi2; omega) (by omega))
        (fun r l hr hl => by
          have hc := chunkCell_in (hin _ ⟨r, l, hr, hl, rfl⟩) hc4
          exact E.liveA _ hc.1 hc.2)
        (by
          rintro x ⟨r, l, hr, hl, rfl⟩ hx
          rw [hcs] at hr; rw [hrs] at hl
          rw [hsub] at hx
          exact (G.srcT _ (Or.inl ⟨i1 + r, k0 + l, by have := G.hi; have := G.hi2; omega, by omega, rfl⟩)).1 (chunkCell_in (hin _ hx) hc4)) E.bdd
      refine ⟨m1, e, ?_, ?_, fun x hx => f x (fun h => hx (hin x h))⟩
      · intro r l hr hl
        have hl' : l < len := hl
        have := v r l hr (by show l < k0 + len - k0; omega)
        rw [hcov r l hr hl] at this
        exact this
      · refine v.sameLive f (fun r l hr hl => ?_)
        have hc := chunkCell_in (hin _ ⟨r, l, hr, hl, rfl⟩) hc4
        exact E.liveA _ hc.1 hc.2
  obtain ⟨m1, e1, cA1, sl1, fr1⟩ := stepA
  have E1 := E.after sl1 (fun x hx => fr1 x (fun h => (G.srcT x hx).1 (chunkCell_in h hc4)))
  have pB1 : firstB = false → ChunkIs m1 Bp NB (fun r l => fb (b l (j1 + r))) (k0, len, kd) := fun h =>
    (pB h).frame hc2 (fun x hx => fr1 x (fun h' => by
      have := chunkCell_in h' hc4; exact G.dAB x this.1 this.2 (chunkCell_in hx hc4)))
  have stepB : ∃ m2, (if firstB then o.pb (B.subMatrix4 k0 ((k0 + len : Nat) : Int) j1 j2)
      ⟨Bp + (NB * k0 : Nat), k0 + len - k0, NB, 1, kd, false, NB * (k0 + len - k0 : Nat)⟩ m1 else some m1) = some m2 ∧
      ChunkIs m2 Bp NB (fun r l => fb (b l (j1 + r))) (k0, len, kd) ∧ m1.SameLive m2 ∧
      (∀ x, ¬ ChunkCell Bp NB (k0, len, kd) x → m2 x = m1 x) := by
    cases hfb : firstB with
    | false => exact ⟨m1, rfl, pB1 hfb, fun _ => rfl, fun _ _ => rfl⟩
    | true =>
      have hcov : ∀ r l : Nat, r < NB → l < len →
          (⟨Bp + (NB * k0 : Nat), k0 + len - k0, NB, 1, kd, false, NB * (k0 + len - k0 : Nat)⟩ : MView).addr l r =
            Bp + (NB * k0 : Nat) + r * kd + l := by
        intro r l _ _; simp [MView.addr]; ring
      have hlen : k0 + len - k0 = len := by omega
      have hsub : ∀ r l : Nat, (B.subMatrix4 k0 ((k0 + len : Nat) : Int) j1 j2).addr l r = B.addr (k0 + l : Nat) (j1 + r : Nat) := by
        intro r l; simp only [MView.subMatrix4, MView.addr]; push_cast; ring
      have hcs : (B.subMatrix4 k0 ((k0 + len : Nat) : Int) j1 j2).cs = len := by
        simp only [MView.subMatrix4]; omega
      have hrs : (B.subMatrix4 k0 ((k0 + len : Nat) : Int) j1 j2).rs = NB := by
        simp only [MView.subMatrix4]; have := G.hj; omega
      have hin : ∀ x, (⟨Bp + (NB * k0 : Nat), k0 + len - k0, NB, 1, kd, false, NB * (k0 + len - k0 : Nat)⟩ : MView).Covers x →
          ChunkCell Bp NB (k0, len, kd) x := by
        rintro x ⟨l, r, hl, hr, rfl⟩
        have hl' : l < len := by simpa [hlen] using hl
        rw [hcov r l hr hl']
        exact chunkCell_of (c := (k0, len, kd)) hr hl' hc2
      have hinj : (⟨Bp + (NB * k0 : Nat), k0 + len - k0, NB, 1, kd, false, NB * (k0 + len - k0 : Nat)⟩ : MView).Inj := by
        intro i j i' j' hi hj hi' hj' e
        have := chunk_inj (Bp + (NB * k0 : Nat)) NB (k0 + len - k0) kd 0 (by omega) j i j' i' hj hi hj' hi' (by
          simp only [MView.addr] at e ⊢; linarith)
        exact this.symm
      obtain ⟨m2, e, v, f⟩ := hpb (B.subMatrix4 k0 ((k0 + len : Nat) : Int) j1 j2)
        ⟨Bp + (NB * k0 : Nat), k0 + len - k0, NB, 1, kd, false, NB * (k0 + len - k0 : Nat)⟩ m1
        (fun l r => b (k0 + l) (j1 + r)) rfl rfl (by rw [hcs]; exact hlen.symm) hrs (by show 0 < k0 + len - k0; omega) G.nb
        hinj rfl
        (fun l r hl hr => by
          rw [hcs] at hl; rw [hrs] at hr
          rw [hsub]; exact E1.srcB _ _ (by have := G.eq; omega) (by have := G.hj; have := G.hj2; omega))
        (fun r l hr hl => by
          have hc := chunkCell_in (hin _ ⟨r, l, hr, hl, rfl⟩) hc4
          exact E1.liveB _ hc.1 hc.2)
        (by
          rintro x ⟨l, r, hl, hr, rfl⟩ hx
          rw [hcs] at hl; rw [hrs] at hr
          rw [hsub] at hx
          exact (G.srcT _ (Or.inr ⟨k0 + l, j1 + r, by have := G.eq; omega, by have := G.hj; have := G.hj2; omega, rfl⟩)).2.1
            (chunkCell_in (hin _ hx) hc4)) E1.bdd
      refine ⟨m2, e, ?_, ?_, fun x hx => f x (fun h => hx (hin x h))⟩
      · intro r l hr hl
        have hl' : l < len := hl
        have := v l r (by show l < k0 + len - k0; omega) hr
        rw [hcov r l hr hl] at this
        exact this
      · refine v.sameLive f (fun r l hr hl => ?_)
        have hc := chunkCell_in (hin _ ⟨r, l, hr, hl, rfl⟩) hc4
        exact E1.liveB _ hc.1 hc.2
  obtain ⟨m2, e2, cB2, sl2, fr2⟩ := stepB
  have cA2 : ChunkIs m2 Ap MB (fun r l => fa (a (i1 + r) l)) (k0, len, kd) :=
    cA1.frame hc2 (fun x hx => fr2 x (fun h' => by
      have := chunkCell_in hx hc4; exact G.dAB x this.1 this.2 (chunkCell_in h' hc4)))
  have hlen : k0 + len - k0 = len := by omega
  -- the kernel
  have Env2 : Env (fun x => ChunkCell Ap MB (k0, len, kd) x ∧ (∃ r l : Nat, r < MB ∧ l < len ∧ x = Ap + (MB * k0 : Nat) + r * kd + l) ∨
      ChunkCell Bp NB (k0, len, kd) x ∧ (∃ r l : Nat, r < NB ∧ l < len ∧ x = Bp + (NB * k0 : Nat) + r * kd + l))
      (MView.ofStor Cp MB NB false).Covers (fun x => (m2 x).getD 0) m2 := by
    refine ⟨?_, ?_, ?_⟩
    · rintro x (⟨_, r, l, hr, hl, rfl⟩ | ⟨_, r, l, hr, hl, rfl⟩)
      · have := cA2 r l hr hl; rw [this]; rfl
      · have := cB2 r l hr hl; rw [this]; rfl
    · intro x hx
      have := hC16 x hx
      rw [sl2 x, sl1 x]; exact E.liveC x this.1 this.2
    · rintro x (⟨h, _⟩ | ⟨h, _⟩) hx
      · have := chunkCell_in h hc4; exact G.dAC x this.1 this.2 (hC16 x hx)
      · have := chunkCell_in h hc4; exact G.dBC x this.1 this.2 (hC16 x hx)
  obtain ⟨hW0, hW⟩ := kernMNK_acc (R := fun x => ChunkCell Ap MB (k0, len, kd) x ∧ (∃ r l : Nat, r < MB ∧ l < len ∧ x = Ap + (MB * k0 : Nat) + r * kd + l) ∨
      ChunkCell Bp NB (k0, len, kd) x ∧ (∃ r l : Nat, r < NB ∧ l < len ∧ x = Bp + (NB * k0 : Nat) + r * kd + l))
      (W := (MView.ofStor Cp MB NB false).Covers) (val := fun x => (m2 x).getD 0) MB NB len kd (Ap + (MB * k0 : Nat)) (Bp + (NB * k0 : Nat)) Cp
      (fun i l hi hl => Or.inl ⟨chunkCell_of (c := (k0, len, kd)) hi hl hc2, i, l, hi, hl, rfl⟩)
      (fun l j hl hj => Or.inr ⟨chunkCell_of (c := (k0, len, kd)) hj hl hc2, j, l, hj, hl, rfl⟩)
      (fun i j hi hj => ⟨i, j, hi, hj, by simp [MView.ofStor, MView.addr]⟩)
  obtain ⟨m3, e3, ad⟩ := hW m2 Env2
  have hoff : ∀ x, ¬ (MView.ofStor Cp MB NB false).Covers x → m3 x = m2 x := by
    intro x hx
    rw [ad x, hW0 x hx]; cases m2 x <;> simp
  refine ⟨m3, ?_, ?_, ?_, ?_, ?_, ?_⟩
  · unfold BlockOps.chunk
    dsimp only
    rw [e1, Option.bind_some, e2, Option.bind_some, hlen]
    exact e3
  · exact cA2.frame hc2 (fun x hx => hoff x (fun h => by
      have := chunkCell_in hx hc4; exact G.dAC x this.1 this.2 (hC16 x h)))
  · exact cB2.frame hc2 (fun x hx => hoff x (fun h => by
      have := chunkCell_in hx hc4; exact G.dBC x this.1 this.2 (hC16 x h)))
  · intro i j hi hj
    have hi' : i < MB := hi
    have hj' : j < NB := hj
    have hCcov : (MView.ofStor Cp MB NB false).Covers ((MView.ofStor Cp MB NB false).addr i j) := ⟨i, j, hi, hj, rfl⟩
    have hm2 : m2 ((MView.ofStor Cp MB NB false).addr i j) = some (s i j) := by
      rw [fr2 _ (fun h => ?_), fr1 _ (fun h => ?_)]
      · exact hs i j hi hj
      · have := chunkCell_in h hc4; exact G.dAC _ this.1 this.2 (hC16 _ hCcov)
      · have := chunkCell_in h hc4; exact G.dBC _ this.1 this.2 (hC16 _ hCcov)
    have hI := (ofStor_wf Cp MB NB false G.mb G.nb).1
    have hr := rect_at (MView.ofStor Cp MB NB false) hI (fun i j => ∑ l ∈ range len,
      (m2 (Ap + (MB * k0 : Nat) + i * kd + l)).getD 0 * (m2 (Bp + (NB * k0 : Nat) + j * kd + l)).getD 0) i j hi hj
    rw [ad, hm2]
    refine congrArg some (congrArg (s i j + ·) (Eq.trans hr ?_))
    refine sum_congr rfl fun l hl => ?_
    have := cA2 i l hi' (mem_range.mp hl)
    have h' := cB2 j l hj' (mem_range.mp hl)
    dsimp only at this h'
    rw [this, h']; rfl
  · exact (sl1.trans sl2).trans ad.sameLive
  · intro x hA hB hC
    rw [hoff x (fun h => hC (hC16 x h)), fr2 x hB, fr1 x hA]

/-- The loop over the chunks. -/
def runChunks (o : BlockOps K) (A B : MView) (i1 j1 i2 j2 MB NB : Nat) (Ap Bp Cp : Int) (firstA firstB : Bool) :
    List (Nat × Nat × Nat) → Mem K → Option (Mem K)
  | [], m => some m
  | c :: cs, m => (BlockOps.chunk o A B i1 j1 i2 j2 MB NB Cp firstA firstB c.1 (c.1 + c.2.1) c.2.2 (Ap + (MB * c.1 : Nat))
        (Bp + (NB * c.1 : Nat)) m).bind fun m => runChunks o A B i1 j1 i2 j2 MB NB Ap Bp Cp firstA firstB cs m

theorem runChunks_spec (o : BlockOps K) {A B : MView} {fa fb : K → K} (hpa : PackOK o.pa A.conj fa) (hpb : PackOK o.pb B.conj fb)
    {i1 i2 j1 j2 MB NB : Nat} {Ap Bp Cp : Int} {Kt : Nat} {a b : Nat → Nat → K} (firstA firstB : Bool)
    (G : BlkGeom A B i1 i2 j1 j2 MB NB Ap Bp Cp Kt) : ∀ (cs : List (Nat × Nat × Nat)) (m : Mem K) (s : Nat → Nat → K),
    (∀ c ∈ cs, 0 < c.2.1 ∧ c.2.1 ≤ c.2.2 ∧ c.1 + c.2.1 ≤ A.rs ∧ c.1 + c.2.2 ≤ Kt) →
    cs.Pairwise (fun c d => c.1 + c.2.2 ≤ d.1) →
    BlkEnv A B i1 i2 j1 j2 MB NB Ap Bp Cp Kt a b m →
    (firstA = false → ∀ c ∈ cs, ChunkIs m Ap MB (fun r l => fa (a (i1 + r) l)) c) →
    (firstB = false → ∀ c ∈ cs, ChunkIs m Bp NB (fun r l => fb (b l (j1 + r))) c) →
    (MView.ofStor Cp MB NB false).Raw m s →
    ∃ m', runChunks o A B i1 j1 i2 j2 MB NB Ap Bp Cp firstA firstB cs m = some m' ∧
      (∀ c ∈ cs, ChunkIs m' Ap MB (fun r l => fa (a (i1 + r) l)) c) ∧
      (∀ c ∈ cs, ChunkIs m' Bp NB (fun r l => fb (b l (j1 + r))) c) ∧
      (MView.ofStor Cp MB NB false).Raw m' (fun i j => s i j +
        (cs.map fun c => ∑ l ∈ range c.2.1, fa (a (i1 + i) (c.1 + l)) * fb (b (c.1 + l) (j1 + j))).sum) ∧
      m.SameLive m' ∧
      (∀ x, (∀ c ∈ cs, ¬ ChunkCell Ap MB c x) → (∀ c ∈ cs, ¬ ChunkCell Bp NB c x) → ¬ (Cp ≤ x ∧ x < Cp + 256) → m' x = m x) := by
  intro cs
  induction cs with
  | nil =>
    intro m s _ _ _ _ _ hs
    exact ⟨m, rfl, by simp, by simp, by simpa using hs, fun _ => rfl, fun _ _ _ _ => rfl⟩
  | cons c cs ih =>
    intro m s hcs hsort E pA pB hs
    obtain ⟨hc1, hc2, hc3, hc4⟩ := hcs c (by simp)
    rw [List.pairwise_cons] at hsort
    obtain ⟨m1, e1, cA, cB, r1, sl1, fr1⟩ := chunk_spec o hpa hpb firstA firstB c hc1 hc2 hc3 hc4 m G E
      (fun h => pA h c (by simp)) (fun h => pB h c (by simp)) s hs
    have E1 := E.after sl1 (fun x hx => fr1 x (fun h => (G.srcT x hx).1 (chunkCell_in h hc4))
      (fun h => (G.srcT x hx).2.1 (chunkCell_in h hc4)) (G.srcT x hx).2.2)
    -- cells of different chunks are different
    have sep : ∀ (p : Int) (nb : Nat), ∀ d ∈ cs, ∀ x, ChunkCell p nb c x → ChunkCell p nb d x → False := by
      intro p nb d hd x h1 h2
      have h3 : nb * (c.1 + c.2.2) ≤ nb * d.1 := Nat.mul_le_mul_left _ (hsort.1 d hd)
      have := h1.2; have := h2.1
      omega
    have sepA : ∀ d ∈ cs, ∀ x, ChunkCell Ap MB d x → m1 x = m x := by
      intro d hd x hx
      have hx' := chunkCell_in hx (hcs d (by simp [hd])).2.2.2
      exact fr1 x (fun h => sep _ _ d hd x h hx) (fun h => G.dAB x hx'.1 hx'.2 (chunkCell_in h hc4)) (G.dAC x hx'.1 hx'.2)
    have sepB : ∀ d ∈ cs, ∀ x, ChunkCell Bp NB d x → m1 x = m x := by
      intro d hd x hx
      have hx' := chunkCell_in hx (hcs d (by simp [hd])).2.2.2
      refine fr1 x (fun h => ?_) (fun h => sep _ _ d hd x h hx) (G.dBC x hx'.1 hx'.2)
      have := chunkCell_in h hc4
      exact G.dAB x this.1 this.2 hx'
    obtain ⟨m2, e2, cA2, cB2, r2, sl2, fr2⟩ := ih m1 _ (fun d hd => hcs d (by simp [hd])) hsort.2 E1
      (fun h d hd => (pA h d (by simp [hd])).frame (hcs d (by simp [hd])).2.1 (sepA d hd))
      (fun h d hd => (pB h d (by simp [hd])).frame (hcs d (by simp [hd])).2.1 (sepB d hd)) r1
    refine ⟨m2, by rw [runChunks, e1]; exact e2, ?_, ?_, ?_, sl1.trans sl2, ?_⟩
    · intro d hd
      rcases List.mem_cons.mp hd with rfl | hd
      · refine cA.frame hc2 (fun x hx => ?_)
        have hx' := chunkCell_in hx hc4
        exact fr2 x (fun d hd h => sep _ _ d hd x hx h)
          (fun d hd h => G.dAB x hx'.1 hx'.2 (chunkCell_in h (hcs d (by simp [hd])).2.2.2)) (G.dAC x hx'.1 hx'.2)
      · exact cA2 d hd
    · intro d hd
      rcases List.mem_cons.mp hd with rfl | hd
      · refine cB.frame hc2 (fun x hx => ?_)
        have hx' := chunkCell_in hx hc4
        refine fr2 x (fun d hd h => ?_) (fun d hd h => sep _ _ d hd x hx h) (G.dBC x hx'.1 hx'.2)
        have := chunkCell_in h (hcs d (by simp [hd])).2.2.2
        exact G.dAB x this.1 this.2 hx'
      · exact cB2 d hd
    · intro i j hi hj
      rw [r2 i j hi hj]; dsimp only; rw [List.map_cons, List.sum_cons, add_assoc]
    · intro x h1 h2 h3
      rw [fr2 x (fun d hd => h1 d (by simp [hd])) (fun d hd => h2 d (by simp [hd])) h3,
        fr1 x (h1 c (by simp)) (h2 c (by simp)) h3]

omit [StarRing K] in
theorem runChunks_append (o : BlockOps K) (A B : MView) (i1 j1 i2 j2 MB NB : Nat) (Ap Bp Cp : Int) (firstA firstB : Bool) :
    ∀ (l l' : List (Nat × Nat × Nat)) (m : Mem K), runChunks o A B i1 j1 i2 j2 MB NB Ap Bp Cp firstA firstB (l ++ l') m =
      (runChunks o A B i1 j1 i2 j2 MB NB Ap Bp Cp firstA firstB l m).bind
        (runChunks o A B i1 j1 i2 j2 MB NB Ap Bp Cp firstA firstB l') := by
  intro l
  induction l with
  | nil => intro l' m; rfl
  | cons c l ih =>
    intro l' m
    rw [List.cons_append, runChunks, runChunks, Option.bind_assoc]
    congr 1; funext m; exact ih l' m

omit [StarRing K] in
/-- The loop `for (k2=KB;k2<=K;...)` runs over the full chunks. -/
theorem kLoop_eq (o : BlockOps K) (hKB : 0 < o.KB) (A B : MView) (i1 j1 i2 j2 MB NB : Nat) (Ap Bp Cp : Int)
    (firstA firstB : Bool) (k : Nat) : ∀ (n fuel q : Nat) (m : Mem K), q + n = k / o.KB → n < fuel →
    BlockOps.kLoop o A B i1 j1 i2 j2 MB NB (MB * o.KB) (NB * o.KB) Cp firstA firstB k fuel (q * o.KB)
      (Ap + (MB * (q * o.KB) : Nat)) (Bp + (NB * (q * o.KB) : Nat)) m =
    (runChunks o A B i1 j1 i2 j2 MB NB Ap Bp Cp firstA firstB
      ((List.range' q n).map fun q => (q * o.KB, o.KB, o.KB)) m).map fun m =>
        (k / o.KB * o.KB, Ap + (MB * (k / o.KB * o.KB) : Nat), Bp + (NB * (k / o.KB * o.KB) : Nat), m) := by
  intro n
  induction n with
  | zero =>
    intro fuel q m h1 h2
    obtain ⟨fuel, rfl⟩ : ∃ f, fuel = f + 1 := ⟨fuel - 1, by omega⟩
    have hq : q = k / o.KB := by omega
    subst hq
    have : ¬ (k / o.KB * o.KB + o.KB ≤ k) := by
      have := Nat.lt_div_mul_add hKB (a := k)
      omega
    rw [BlockOps.kLoop, if_neg this]
    rfl
  | succ n ih =>
    intro fuel q m h1 h2
    obtain ⟨fuel, rfl⟩ : ∃ f, fuel = f + 1 := ⟨fuel - 1, by omega⟩
    have hle : (q + 1) * o.KB ≤ k := le_trans (Nat.mul_le_mul_right _ (by omega)) (Nat.div_mul_le_self k o.KB)
    rw [Nat.add_mul, one_mul] at hle
    rw [BlockOps.kLoop, if_pos hle, List.range'_succ, List.map_cons, runChunks]
    dsimp only
    rw [Option.map_bind]
    congr 1; funext m'
    have := ih fuel (q + 1) m' (by omega) (by omega)
    rw [Function.comp_apply, ← this, show (q + 1) * o.KB = q * o.KB + o.KB by ring,
      show Ap + (MB * (q * o.KB + o.KB) : Nat) = Ap + (MB * (q * o.KB) : Nat) + (MB * o.KB : Nat) by push_cast; ring,
      show Bp + (NB * (q * o.KB + o.KB) : Nat) = Bp + (NB * (q * o.KB) : Nat) + (NB * o.KB : Nat) by push_cast; ring]

/-- `SingleBlockMultMM`: set the accumulator to zero, run over all chunks, store. -/
theorem single_eq (o : BlockOps K) (hKB : 0 < o.KB) (A B C : MView) (i1 j1 i2 j2 MB NB : Nat) (Ap Bp Cp : Int)
    (firstA firstB : Bool) (k Kd : Nat) (m : Mem K) :
    BlockOps.single o A B C i1 j1 i2 j2 MB NB (MB * o.KB) (NB * o.KB) Ap Bp Cp firstA firstB k (k - k / o.KB * o.KB) Kd m =
      (VView.setZero ⟨Cp, 256, 1, false⟩ m).bind fun m =>
      (runChunks o A B i1 j1 i2 j2 MB NB Ap Bp Cp firstA firstB (kChunks o.KB k Kd) m).bind fun m =>
      o.st (MView.ofStor Cp MB NB false) (C.subMatrix4 i1 i2 j1 j2) m := by
  unfold BlockOps.single
  congr 1; funext m1
  have hk := kLoop_eq o hKB A B i1 j1 i2 j2 MB NB Ap Bp Cp firstA firstB k (k / o.KB) (k + 1) 0 m1 (by omega)
    (by have := Nat.div_le_self k o.KB; omega)
  simp only [Nat.zero_mul, Nat.mul_zero, Nat.cast_zero, add_zero] at hk
  have hmod : k - k / o.KB * o.KB = k % o.KB := by
    have := Nat.div_add_mod k o.KB
    rw [mul_comm] at this
    omega
  rw [hk, hmod, kChunks, runChunks_append, ← List.range_eq_range', Option.bind_assoc]
  rw [Option.bind_map]
  congr 1; funext m2
  simp only [Function.comp_apply]
  by_cases h : k % o.KB = 0
  · simp [h, runChunks]
  · have hk2 : k / o.KB * o.KB + k % o.KB = k := by rw [mul_comm]; exact Nat.div_add_mod k o.KB
    rw [if_pos h, if_pos h, runChunks]
    dsimp only
    rw [hk2, Option.bind_assoc]
    rfl

end TMV
