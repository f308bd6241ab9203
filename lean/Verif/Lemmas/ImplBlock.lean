import Verif.Lemmas.ImplMat
import Verif.Props.MatMatParts

/-! The program of `DoBlockMultMM` (see `Lemmas/Impl`). -/
namespace TMV
open Finset
variable {K : Type _} [CommRing K] [StarRing K] {W : Int → Prop}
namespace Impl

omit [StarRing K] in
def kernMNK (M N k Kd : Nat) (A B C : Int) (h : ∀ i j : Nat, i < M → j < N → W (C + i + j * M)) : Impl W (TMV.kernMNK (K := K) M N k Kd A B C) :=
  (runTiles (fun a b => dotUp k a b 0) A B C Kd Kd M (kernTiles M N) fun t ht p hp => by
    obtain ⟨h1, h2⟩ := kernTiles_mem M N t ht p hp
    exact h p.1 p.2 h1 h2).congr fun _ => rfl

/-- Programs for the copies of blocks and the addition to C. -/
structure OpsImpl (W : Int → Prop) (o : BlockOps K) (A B C : MView) where
  pa : ∀ i1 i2 k1 k2 D, MOK W D → D.conj = false → Impl W (o.pa (A.subMatrix4 i1 i2 k1 k2) D)
  pb : ∀ i1 i2 k1 k2 D, MOK W D → D.conj = false → Impl W (o.pb (B.subMatrix4 i1 i2 k1 k2) D)
  st : ∀ P i1 i2 j1 j2, MOK W (C.subMatrix4 i1 i2 j1 j2) → P.cs = (C.subMatrix4 i1 i2 j1 j2).cs → P.rs = (C.subMatrix4 i1 i2 j1 j2).rs →
    Impl W (o.st P (C.subMatrix4 i1 i2 j1 j2))

def chunk (o : BlockOps K) {A B C : MView} (I : OpsImpl W o A B C) (i1 j1 i2 j2 MB NB : Nat) (Cp : Int) (firstA firstB : Bool)
    (k1 k2 Kd : Nat) (Ap Bp : Int)
    (hMB : 0 < MB) (hNB : 0 < NB) (hk : k1 < k2)
    (hA : ∀ r l : Nat, r < MB → l < k2 - k1 → W (Ap + r * Kd + l)) (hB : ∀ r l : Nat, r < NB → l < k2 - k1 → W (Bp + r * Kd + l))
    (hC : ∀ i j : Nat, i < MB → j < NB → W (Cp + i + j * MB)) :
    Impl W (BlockOps.chunk o A B i1 j1 i2 j2 MB NB Cp firstA firstB k1 k2 Kd Ap Bp) :=
  (andThen (cond (c := firstA = true) (fun _ => I.pa i1 i2 k1 k2 ⟨Ap, MB, k2 - k1, Kd, 1, false, MB * (k2 - k1 : Nat)⟩
      ⟨hMB, by show 0 < k2 - k1; omega, fun i j hi hj => by simpa [MView.addr] using hA i j hi hj⟩ rfl) fun _ => skip)
    (andThen (cond (c := firstB = true) (fun _ => I.pb k1 k2 j1 j2 ⟨Bp, k2 - k1, NB, 1, Kd, false, NB * (k2 - k1 : Nat)⟩
      ⟨by show 0 < k2 - k1; omega, hNB, fun i j hi hj => by
        have := hB j i hj hi
        rw [show Bp + j * Kd + i = (⟨Bp, k2 - k1, NB, 1, Kd, false, NB * (k2 - k1 : Nat)⟩ : MView).addr i j by
          simp only [MView.addr]; ring] at this
        exact this⟩ rfl) fun _ => skip)
      (kernMNK MB NB (k2 - k1) Kd Ap Bp Cp hC))).congr fun _ => rfl

def runChunks (o : BlockOps K) {A B C : MView} (I : OpsImpl W o A B C) (i1 j1 i2 j2 MB NB : Nat) (Ap Bp Cp : Int) (firstA firstB : Bool)
    (Kt : Nat) (hMB : 0 < MB) (hNB : 0 < NB)
    (hA : ∀ x, Ap ≤ x → x < Ap + (MB * Kt : Nat) → W x) (hB : ∀ x, Bp ≤ x → x < Bp + (NB * Kt : Nat) → W x)
    (hC : ∀ i j : Nat, i < MB → j < NB → W (Cp + i + j * MB)) : (cs : List (Nat × Nat × Nat)) →
    (∀ c ∈ cs, 0 < c.2.1 ∧ c.2.1 ≤ c.2.2 ∧ c.1 + c.2.2 ≤ Kt) →
    Impl W (TMV.runChunks o A B i1 j1 i2 j2 MB NB Ap Bp Cp firstA firstB cs)
  | [], _ => skip
  | c :: cs, h => (andThen (chunk o I i1 j1 i2 j2 MB NB Cp firstA firstB c.1 (c.1 + c.2.1) c.2.2 (Ap + (MB * c.1 : Nat)) (Bp + (NB * c.1 : Nat))
      hMB hNB (by have := (h c (by simp)).1; omega)
      (fun r l hr hl => by
        obtain ⟨h1, h2, h3⟩ := h c (by simp)
        have := chunkCell_in (chunkCell_of (p := Ap) hr (by omega : l < c.2.1) h2) h3
        exact hA _ this.1 this.2)
      (fun r l hr hl => by
        obtain ⟨h1, h2, h3⟩ := h c (by simp)
        have := chunkCell_in (chunkCell_of (p := Bp) hr (by omega : l < c.2.1) h2) h3
        exact hB _ this.1 this.2) hC)
      (runChunks o I i1 j1 i2 j2 MB NB Ap Bp Cp firstA firstB Kt hMB hNB hA hB hC cs fun c' hc' => h c' (by simp [hc']))).congr fun _ => rfl

def uniBlock (o : BlockOps K) (hKB : 0 < o.KB) {A B C : MView} (I : OpsImpl W o A B C) (Kd : Nat) (hKd : A.rs % o.KB ≤ Kd)
    (Cp Ap Bp : Int) (fA fB : Bool) (i j : Nat) (hi : i < nBlk C.cs) (hj : j < nBlk C.rs)
    (hA : ∀ x, Ap ≤ x → x < Ap + (blkLen C.cs i * (A.rs / o.KB * o.KB + Kd) : Nat) → W x)
    (hB : ∀ x, Bp ≤ x → x < Bp + (blkLen C.rs j * (A.rs / o.KB * o.KB + Kd) : Nat) → W x)
    (hC : ∀ x, Cp ≤ x → x < Cp + 256 → W x) (hW : ∀ x, C.Covers x → W x) :
    Impl W (TMV.uniBlock o A B C Kd Cp Ap Bp fA fB i j) :=
  have f1 := blk_facts hi
  have f2 := blk_facts hj
  have hsub : (C.subMatrix4 (i*16 : Nat) (min ((i+1)*16) C.cs : Nat) (j*16 : Nat) (min ((j+1)*16) C.rs : Nat)).cs = blkLen C.cs i ∧
      (C.subMatrix4 (i*16 : Nat) (min ((i+1)*16) C.cs : Nat) (j*16 : Nat) (min ((j+1)*16) C.rs : Nat)).rs = blkLen C.rs j := by
    simp only [MView.subMatrix4]
    omega
  (andThen (setZero ⟨Cp, 256, 1, false⟩ ⟨by show 0 < 256; omega, fun i hi => by
      have hi' : i < 256 := hi
      exact hC _ (by show Cp ≤ Cp + i * 1; omega) (by show Cp + i * 1 < _; omega)⟩)
    (andThen (runChunks o I (i*16) (j*16) (min ((i+1)*16) C.cs) (min ((j+1)*16) C.rs) (blkLen C.cs i) (blkLen C.rs j) Ap Bp Cp fA fB
      (A.rs / o.KB * o.KB + Kd) f1.1 f2.1 hA hB (fun r s hr hs => by
        have h1 : (s + 1) * blkLen C.cs i ≤ blkLen C.rs j * blkLen C.cs i := Nat.mul_le_mul_right _ hs
        have h2 : blkLen C.rs j * blkLen C.cs i ≤ 16 * 16 := Nat.mul_le_mul f2.2.1 f1.2.1
        have h3 : (s + 1) * blkLen C.cs i = s * blkLen C.cs i + blkLen C.cs i := by ring
        have h4 : ((s * blkLen C.cs i : Nat) : Int) = (s : Int) * (blkLen C.cs i : Nat) := by push_cast; rfl
        have h5 : (0 : Int) ≤ (s : Int) * (blkLen C.cs i : Nat) := by positivity
        exact hC _ (by omega) (by omega))
      (kChunks o.KB A.rs Kd) fun c hc => by
        obtain ⟨h1, h2, _, h4⟩ := kChunks_mem hKB hKd hc
        exact ⟨h1, h2, h4⟩)
    (I.st (MView.ofStor Cp (blkLen C.cs i) (blkLen C.rs j) false) (i*16 : Nat) (min ((i+1)*16) C.cs : Nat) (j*16 : Nat) (min ((j+1)*16) C.rs : Nat)
      ⟨by rw [hsub.1]; exact f1.1, by rw [hsub.2]; exact f2.1, fun r s hr hs => by
        rw [hsub.1] at hr
        rw [hsub.2] at hs
        refine hW _ ⟨i * 16 + r, j * 16 + s, by omega, by omega, ?_⟩
        rw [sub4_addr]; push_cast; rfl⟩ hsub.1.symm hsub.2.symm))).congr fun m => (single_eq o hKB A B C _ _ _ _ _ _ Ap Bp Cp fA fB A.rs Kd m).symm

/-- The loops of `DoBlockMultMM`. -/
def loops (o : BlockOps K) (hKB : 0 < o.KB) (hru : ∀ x, x ≤ o.ru x) {A B C : MView} (I : OpsImpl W o A B C) (Cp Ap Bp : Int) (Kt : Nat)
    (hKt : Kt = A.rs / o.KB * o.KB + o.ru (A.rs - A.rs / o.KB * o.KB))
    (hA : ∀ x, Ap ≤ x → x < Ap + ((if C.rs ≥ C.cs then C.cs * Kt else 16 * Kt : Nat) : Int) → W x)
    (hB : ∀ x, Bp ≤ x → x < Bp + ((if C.rs ≥ C.cs then 16 * Kt else C.rs * Kt : Nat) : Int) → W x)
    (hC : ∀ x, Cp ≤ x → x < Cp + 256 → W x) (hW : ∀ x, C.Covers x → W x) :
    Impl W (BlockOps.loops o A B C Cp Ap Bp) :=
  have hKd : A.rs % o.KB ≤ o.ru (A.rs - A.rs / o.KB * o.KB) := by
    have h1 : A.rs - A.rs / o.KB * o.KB = A.rs % o.KB := by
      have := Nat.div_add_mod A.rs o.KB
      rw [mul_comm] at this
      omega
    rw [h1]; exact hru _
  (cond (c := C.rs ≥ C.cs)
    (fun hc => loopN (nBlk C.rs) 0 fun j _ hj => loopN (nBlk C.cs) 0 fun i _ hi =>
      uniBlock o hKB I (o.ru (A.rs - A.rs / o.KB * o.KB)) hKd Cp (Ap + i * (16 * Kt : Nat)) Bp (j == 0) (i == 0) i j (by omega) (by omega)
        (fun x h1 h2 => by
          rw [← hKt] at h2
          have := blk_in (by omega : i < nBlk C.cs) h1 h2
          exact hA x this.1 (by rw [if_pos hc]; exact this.2))
        (fun x h1 h2 => by
          rw [← hKt] at h2
          have : blkLen C.rs j * Kt ≤ 16 * Kt := Nat.mul_le_mul_right _ (blk_facts (by omega : j < nBlk C.rs)).2.1
          exact hB x h1 (by rw [if_pos hc]; omega)) hC hW)
    (fun hc => loopN (nBlk C.cs) 0 fun i _ hi => loopN (nBlk C.rs) 0 fun j _ hj =>
      uniBlock o hKB I (o.ru (A.rs - A.rs / o.KB * o.KB)) hKd Cp Ap (Bp + j * (16 * Kt : Nat)) (j == 0) (i == 0) i j (by omega) (by omega)
        (fun x h1 h2 => by
          rw [← hKt] at h2
          have : blkLen C.cs i * Kt ≤ 16 * Kt := Nat.mul_le_mul_right _ (blk_facts (by omega : i < nBlk C.cs)).2.1
          exact hA x h1 (by rw [if_neg hc]; omega))
        (fun x h1 h2 => by
          rw [← hKt] at h2
          have := blk_in (by omega : j < nBlk C.rs) h1 h2
          exact hB x this.1 (by rw [if_neg hc]; exact this.2)) hC hW)).congr fun m =>
    (loops_eq o A B C Cp Ap Bp _ (16 * Kt) rfl (by rw [hKt]) m).symm

end Impl
end TMV
