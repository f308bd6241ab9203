import Verif.Props.BandSum2

/-! Property C124: `C = x*A + y*B` for a band matrix `A` and full matrices `B`, `C`. -/
namespace TMV
variable {K : Type _} [CommRing K] [StarRing K]

/-! ### The band of a full matrix -/

omit [CommRing K] [StarRing K] in
theorem ofMat_in {C : MView} {lo hi i j : Int} (h : (BView.ofMat C lo hi).In i j) : C.Covers ((BView.ofMat C lo hi).addr i j) := by
  simp only [BView.In, InBand, BView.ofMat] at h
  exact ⟨i.toNat, j.toNat, by omega, by omega, by
    simp only [BView.ofMat, BView.addr, MView.addr]
    rw [Int.toNat_of_nonneg h.1, Int.toNat_of_nonneg h.2.2.1]⟩

omit [CommRing K] [StarRing K] in
theorem ofMat_covers {C : MView} {lo hi : Int} {a : Int} (h : (BView.ofMat C lo hi).Covers a) : C.Covers a := by
  obtain ⟨i, j, hij, rfl⟩ := h; exact ofMat_in hij

omit [CommRing K] [StarRing K] in
theorem ofMat_inj {C : MView} (hC : C.Inj) (lo hi : Int) : (BView.ofMat C lo hi).Inj := by
  intro i j i' j' h h' e
  simp only [BView.In, InBand, BView.ofMat] at h h'
  have := hC i.toNat j.toNat i'.toNat j'.toNat (by omega) (by omega) (by omega) (by omega) (by
    simp only [MView.addr]
    simp only [BView.ofMat, BView.addr] at e
    rw [Int.toNat_of_nonneg h.1, Int.toNat_of_nonneg h.2.2.1, Int.toNat_of_nonneg h'.1, Int.toNat_of_nonneg h'.2.2.1]
    exact e)
  omega

omit [CommRing K] [StarRing K] in
theorem ofMat_wf {C : MView} (hC : C.WF) {lo hi : Int} (h1 : 0 ≤ lo) (h2 : 0 ≤ hi) (h3 : lo < C.cs) (h4 : hi < C.rs) : (BView.ofMat C lo hi).WF :=
  ⟨h1, h2, Or.inr h3, Or.inr h4, rfl, ofMat_inj hC.1 lo hi⟩

omit [CommRing K] [StarRing K] in
theorem ofMat_good {C : MView} {m : Mem K} (hC : C.Live m) (lo hi : Int) : (BView.ofMat C lo hi).Good m := fun a ha => by
  obtain ⟨i, j, hi, hj, rfl⟩ := ofMat_covers ((foot_zero rfl).mp ha); exact hC i j hi hj

/-- What the band of `C` reads. -/
theorem ofMat_holds {C : MView} {m : Mem K} {z : Nat → Nat → K} (hC : C.Holds m z) (lo hi : Int) :
    (BView.ofMat C lo hi).Holds m (fun i j => if (i : Int) - j ≤ lo ∧ (j : Int) - i ≤ hi then z i j else 0) := fun i j h1 h2 => by
  by_cases h : (i : Int) - j ≤ lo ∧ (j : Int) - i ≤ hi
  · rw [band_ofMat C lo hi m i j h]; simp only [if_pos h]; exact hC i j h1 h2
  · rw [band_cref_zero _ _ _ _ (by simpa only [BView.ofMat] using h)]; simp only [if_neg h]

theorem ofMat_becomes {C : MView} (hI : C.Inj) {m m' : Mem K} {z w : Nat → Nat → K} (hC : C.Holds m z) {lo hi : Int}
    (h : (BView.ofMat C lo hi).Becomes m m' w) :
    C.Becomes m m' (fun i j => if (i : Int) - j ≤ lo ∧ (j : Int) - i ≤ hi then w i j else z i j) := by
  refine ⟨fun i j h1 h2 => ?_, fun a ha => h.2.1 a fun hf => ha (ofMat_covers ((foot_zero rfl).mp hf))⟩
  by_cases hb : (i : Int) - j ≤ lo ∧ (j : Int) - i ≤ hi
  · simp only [if_pos hb]
    rw [← band_ofMat C lo hi m' i j hb]; exact h.1 i j h1 h2
  · simp only [if_neg hb]
    rw [← hC i j h1 h2, MView.cref, MView.cref, Mem.read, Mem.read, h.2.1]
    rw [foot_zero rfl]
    rintro ⟨i', j', hij, e⟩
    simp only [BView.In, InBand, BView.ofMat] at hij
    simp only [BView.ofMat, BView.addr, MView.addr] at e
    have := hI i j i'.toNat j'.toNat h1 h2 (by omega) (by omega) (by
      simp only [MView.addr]
      rw [Int.toNat_of_nonneg hij.1, Int.toNat_of_nonneg hij.2.2.1]; exact e)
    omega

/-- `A` (with the unused elements of its array) shares no memory with `C`. -/
def BView.SepM (A : BView) (C : MView) : Prop := ∀ a, A.Footprint a → ¬ C.Covers a

section
variable [DecidableEq K]

/-- Adding the band to a full matrix. -/
theorem full_doAdd_spec (x : K) {A : BView} {C : MView} (hcs : A.cs = C.cs) (hrs : A.rs = C.rs) (hWA : A.WF) (hWC : C.WF) (hLA : A.LSOK)
    (h0 : 0 < C.cs ∧ 0 < C.rs) (hd : A.SepM C) (m : Mem K) {y z : Nat → Nat → K} (hgA : A.Good m) (hA : A.Holds m y) (hC : C.Holds m z) :
    ∃ m', BView.doAdd x A (BView.ofMat C A.lo A.hi) m = some m' ∧ C.Becomes m m' (fun i j => z i j + x * y i j) := by
  obtain ⟨w1, w2, w3, w4, w5, w6⟩ := hWA
  have hlv : C.Live m := hC.live
  obtain ⟨m', e, b⟩ := band_doAdd_spec x (A := A) (B := BView.ofMat C A.lo A.hi) hcs hrs le_rfl le_rfl ⟨w1, w2, w3, w4, w5, w6⟩
    (ofMat_wf hWC w1 w2 (by omega) (by omega)) hLA (Or.inr (Or.inl rfl)) h0 (fun a h1 h2 => hd a h1 (ofMat_covers ((foot_zero rfl).mp h2)))
    m hgA (ofMat_good hlv _ _) hA (ofMat_holds hC A.lo A.hi)
  have b' := ofMat_becomes hWC.1 hC b
  refine ⟨m', e, fun i j h1 h2 => ?_, b'.2⟩
  rw [b'.1 i j h1 h2]
  dsimp only
  split
  · rfl
  · rename_i h
    rw [hA.zero i j (by omega) (by omega) (fun hh => by simp only [BView.In, InBand] at hh; omega)]
    simp

omit [DecidableEq K] in
/-- A corner of `C`, of which `V` is the band, becomes zero. -/
theorem corner_zero {V : BView} {C : MView} (hI : C.Inj) (hV : V.WF) (hls : V.ls = 0) (hc : V.conj = C.conj) (keep : Nat → Nat → Prop) [∀ i j, Decidable (keep i j)]
    (h1 : ∀ i j : Nat, i < C.cs → j < C.rs → keep i j → ∃ i' j' : Int, V.In i' j' ∧ V.addr i' j' = C.addr i j)
    (h2 : ∀ i' j' : Int, V.In i' j' → ∃ i j : Nat, i < C.cs ∧ j < C.rs ∧ keep i j ∧ V.addr i' j' = C.addr i j)
    (m : Mem K) {z : Nat → Nat → K} (hC : C.Holds m z) :
    ∃ m', V.setZero m = some m' ∧ C.Becomes m m' (fun i j => if keep i j then 0 else z i j) := by
  have hlv := hC.live
  obtain ⟨m', e, b1, b2, b3⟩ := band_zero_becomes hV (Or.inr (Or.inl hls)) m (fun a ha => by
    obtain ⟨i', j', hij, rfl⟩ := (foot_zero hls).mp ha
    obtain ⟨i, j, g1, g2, _, g3⟩ := h2 i' j' hij
    rw [g3]; exact hlv i j g1 g2)
  refine ⟨m', e, fun i j hi hj => ?_, fun a ha => b2 a fun hf => ?_⟩
  · by_cases hk : keep i j
    · simp only [if_pos hk]
      obtain ⟨i', j', hij, ea⟩ := h1 i j hi hj hk
      have := b1.has.int hij
      rw [ea, hc] at this
      exact this
    · simp only [if_neg hk]
      rw [← hC i j hi hj, MView.cref, MView.cref, Mem.read, Mem.read, b2]
      rw [foot_zero hls]
      rintro ⟨i', j', hij, e⟩
      obtain ⟨i2, j2, g1, g2, g3, g4⟩ := h2 i' j' hij
      obtain ⟨rfl, rfl⟩ := hI i j i2 j2 hi hj g1 g2 (e.trans g4)
      exact hk g3
  · obtain ⟨i', j', hij, e⟩ := (foot_zero hls).mp hf
    obtain ⟨i2, j2, g1, g2, g3, g4⟩ := h2 i' j' hij
    exact ha ⟨i2, j2, g1, g2, e.trans g4⟩

/-- **C124** `C = x*A` for a full matrix `C`: everything outside the band of `A` becomes 0. -/
theorem band_assignToM_spec_partial {al : Alloc K} (hal : al.OK) (x : K) {A : BView} {C : MView} (hcs : A.cs = C.cs) (hrs : A.rs = C.rs)
    (hWA : A.WF) (hWC : C.WF) (h0 : 0 < C.cs ∧ 0 < C.rs) (hd : A.SepM C ∨ A.ptr = C.ptr ∧ TempOK A.tempStor A) (m : Mem K)
    (hb : m.Bdd) {y : Nat → Nat → K} (hA : A.Holds m y) (hC : C.Live m) :
    ∃ m', BView.assignMulXToM al x A C m = some m' ∧ C.Becomes m m' (fun i j => x * y i j) := by
  obtain ⟨w1, w2, w3, w4, w5, w6⟩ := hWA
  unfold BView.assignMulXToM
  obtain ⟨m1, e1, b1⟩ := band_assignMulX_spec_partial hal x (A := A) (B := BView.ofMat C A.lo A.hi) hcs hrs le_rfl le_rfl ⟨w1, w2, w3, w4, w5, w6⟩
    (ofMat_wf hWC w1 w2 (by omega) (by omega)) (Or.inr (Or.inl rfl))
    (hd.imp (fun h a h1 h2 => h a h1 (ofMat_covers ((foot_zero rfl).mp h2))) id) m hb hA (ofMat_good hC _ _)
  obtain ⟨z, hz⟩ : ∃ z, C.Holds m z := by
    refine ⟨fun i j => (C.cref m i j).getD 0, fun i j hi hj => ?_⟩
    obtain ⟨v, hv⟩ := Option.isSome_iff_exists.mp (hC i j hi hj)
    simp [MView.cref, Mem.read, hv]
  have c1 := ofMat_becomes hWC.1 hz b1
  rw [e1]
  have s2 : ∃ m2, (if (A.rs : Int) > A.hi + 1 then (BView.ofMat (C.colRange (A.hi + 1) A.rs) 0 (A.rs - A.hi - 2)).setZero m1 else some m1) = some m2 ∧
      C.Becomes m1 m2 (fun i j => if (j : Int) - i > A.hi then 0 else if (i : Int) - j ≤ A.lo ∧ (j : Int) - i ≤ A.hi then x * y i j else z i j) := by
    split
    · rename_i h
      refine corner_zero hWC.1 (V := BView.ofMat (C.colRange (A.hi + 1) A.rs) 0 (A.rs - A.hi - 2)) ?_ rfl rfl (fun i j => (j : Int) - i > A.hi) ?_ ?_ m1 c1.1
      · refine ⟨le_rfl, by simp only [BView.ofMat]; omega, Or.inr ?_, Or.inr ?_, rfl, ?_⟩
        · simp only [BView.ofMat, MView.colRange]; omega
        · simp only [BView.ofMat, MView.colRange]; omega
        · refine ofMat_inj ?_ _ _
          intro i j i' j' g1 g2 g3 g4 e
          simp only [MView.colRange] at g1 g2 g3 g4
          have := hWC.1 i (j + (A.hi + 1).toNat) i' (j' + (A.hi + 1).toNat) g1 (by omega) g3 (by omega) (by
            simp only [MView.colRange, MView.addr] at e ⊢
            push_cast
            rw [Int.toNat_of_nonneg (by omega)]
            linear_combination e)
          omega
      · intro i j hi hj hk
        refine ⟨i, j - (A.hi + 1), ?_, ?_⟩
        · simp only [BView.In, InBand, BView.ofMat, MView.colRange]; omega
        · simp only [BView.addr, BView.ofMat, MView.colRange, MView.addr]; ring
      · intro i j hij
        simp only [BView.In, InBand, BView.ofMat, MView.colRange] at hij
        refine ⟨i.toNat, (j + (A.hi + 1)).toNat, by omega, by omega, by omega, ?_⟩
        simp only [BView.addr, BView.ofMat, MView.colRange, MView.addr]
        rw [Int.toNat_of_nonneg (by omega), Int.toNat_of_nonneg (by omega)]; ring
    · rename_i h
      refine ⟨m1, rfl, fun i j hi hj => ?_, fun _ _ => rfl⟩
      rw [c1.1 i j hi hj]
      dsimp only
      rw [if_neg (show ¬ ((j : Int) - i > A.hi) by omega)]
  obtain ⟨m2, e2, b2⟩ := s2
  have s3 : ∃ m3, (if (A.cs : Int) > A.lo + 1 then (BView.ofMat (C.rowRange (A.lo + 1) A.cs) (A.cs - A.lo - 2) 0).setZero m2 else some m2) = some m3 ∧
      C.Becomes m2 m3 (fun i j => if (i : Int) - j > A.lo then 0 else if (j : Int) - i > A.hi then 0 else if (i : Int) - j ≤ A.lo ∧ (j : Int) - i ≤ A.hi then x * y i j else z i j) := by
    split
    · rename_i h
      refine corner_zero hWC.1 (V := BView.ofMat (C.rowRange (A.lo + 1) A.cs) (A.cs - A.lo - 2) 0) ?_ rfl rfl (fun i j => (i : Int) - j > A.lo) ?_ ?_ m2 b2.1
      · refine ⟨by simp only [BView.ofMat]; omega, le_rfl, Or.inr ?_, Or.inr ?_, rfl, ?_⟩
        · simp only [BView.ofMat, MView.rowRange]; omega
        · simp only [BView.ofMat, MView.rowRange]; omega
        · refine ofMat_inj ?_ _ _
          intro i j i' j' g1 g2 g3 g4 e
          simp only [MView.rowRange] at g1 g2 g3 g4
          have := hWC.1 (i + (A.lo + 1).toNat) j (i' + (A.lo + 1).toNat) j' (by omega) g2 (by omega) g4 (by
            simp only [MView.rowRange, MView.addr] at e ⊢
            push_cast
            rw [Int.toNat_of_nonneg (by omega)]
            linear_combination e)
          omega
      · intro i j hi hj hk
        refine ⟨i - (A.lo + 1), j, ?_, ?_⟩
        · simp only [BView.In, InBand, BView.ofMat, MView.rowRange]; omega
        · simp only [BView.addr, BView.ofMat, MView.rowRange, MView.addr]; ring
      · intro i j hij
        simp only [BView.In, InBand, BView.ofMat, MView.rowRange] at hij
        refine ⟨(i + (A.lo + 1)).toNat, j.toNat, by omega, by omega, by omega, ?_⟩
        simp only [BView.addr, BView.ofMat, MView.rowRange, MView.addr]
        rw [Int.toNat_of_nonneg (by omega), Int.toNat_of_nonneg (by omega)]; ring
    · rename_i h
      refine ⟨m2, rfl, fun i j hi hj => ?_, fun _ _ => rfl⟩
      rw [b2.1 i j hi hj]
      dsimp only
      rw [if_neg (show ¬ ((i : Int) - j > A.lo) by omega)]
  obtain ⟨m3, e3, b3⟩ := s3
  refine ⟨m3, by simp only [Option.bind_some, e2, e3], fun i j hi hj => ?_, fun a ha => by rw [b3.2 a ha, b2.2 a ha, c1.2 a ha]⟩
  rw [b3.1 i j hi hj]
  have hz : ¬ ((i : Int) - j ≤ A.lo ∧ (j : Int) - i ≤ A.hi) → y i j = 0 := fun h =>
    hA.zero i j (by omega) (by omega) fun hi => by simp only [BView.In, InBand] at hi; omega
  dsimp only
  split_ifs with g1 g2 g3
  · rw [hz (by omega), mul_zero]
  · rw [hz (by omega), mul_zero]
  · rfl
  · omega

/-- When `C = x*A + y*B` can be relied on: `A` shares no memory with `C` or starts at the same element. -/
def BView.FullOK (A : BView) (C : MView) : Prop := A.SepM C ∨ A.ptr = C.ptr ∧ ¬ (A.rs < A.cs ∧ A.lo = 0 ∧ 0 < A.hi)

theorem band_addBMnc_spec {al : Alloc K} (hal : al.OK) (x y : K) {A : BView} {B C : MView} (hcs : A.cs = C.cs) (hrs : A.rs = C.rs)
    (hcs' : B.cs = C.cs) (hrs' : B.rs = C.rs) (hWA : A.WF) (hWC : C.WF) (hLA : A.LSOK) (hLB : B.LSOK) (hLC : C.LSOK)
    (hd : A.FullOK C) (hd' : B.AliasOK C) (m : Mem K) (hb : m.Bdd) {p q : Nat → Nat → K}
    (hgA : A.Good m) (hA : A.Holds m p) (hB : B.Holds m q) (hC : C.Live m) :
    ∃ m', BView.addBMnc al x A y B C m = some m' ∧ C.Becomes m m' (fun i j => x * p i j + y * q i j) := by
  unfold BView.addBMnc
  split
  swap
  · rename_i h
    exact ⟨m, rfl, fun i j hi hj => absurd ⟨by omega, by omega⟩ h, fun _ _ => rfl⟩
  rename_i h0
  have h0A : 0 < A.cs ∧ 0 < A.rs := by rw [hcs, hrs]; exact h0
  have pC : C.Covers C.ptr := ⟨0, 0, h0.1, h0.2, by simp [MView.addr]⟩
  have two : ∀ (m : Mem K) (T : BView), m.Bdd → C.Live m → B.Holds m q → T.Like A → T.WF → T.LSOK → T.SepM C → T.Good m → T.Holds m p →
      ∃ m', ((MView.assignMulX al y B C m).bind fun m => BView.doAdd x T (BView.ofMat C A.lo A.hi) m) = some m' ∧
        C.Becomes m m' (fun i j => x * p i j + y * q i j) := by
    intro m T hb hC hB tl tw tls td tg th
    obtain ⟨m1, e1, b1⟩ := mat_assignMulX_spec hal y B C hcs' hrs' hWC hLB hLC m hb q hB hC hd'
    obtain ⟨m2, e2, b2⟩ := full_doAdd_spec x (tl.cs.trans hcs) (tl.rs.trans hrs) tw hWC tls h0 td m1
      (fun a ha => by rw [b1.2 a (td a ha)]; exact tg a ha) (th.frame fun a ha => b1.2 a (td a (Or.inl ha))) b1.1
    rw [tl.lo, tl.hi] at e2
    refine ⟨m2, by rw [e1]; exact e2, fun i j hi hj => by rw [b2.1 i j hi hj]; simp only [add_comm], fun a ha => by rw [b2.2 a ha, b1.2 a ha]⟩
  split
  · rename_i hs1
    have hx : ¬ (A.rs < A.cs ∧ A.lo = 0 ∧ 0 < A.hi) := by
      rcases hd with h | h
      · exact absurd (hs1 ▸ pC) (h A.ptr (Or.inl (hWA.ptr h0A)))
      · exact h.2
    split
    · obtain ⟨m', e, q1, fr⟩ := withCopy_spec hal A.tempStor (fun hh => hx hh.2) hWA h0A
        (fun T m => (MView.assignMulX al y B C m).bind fun m => BView.doAdd x T (BView.ofMat C A.lo A.hi) m)
        m hb hA C.Covers (fun a ⟨i, j, hi, hj, e⟩ => e ▸ hC i j hi hj) (fun m => C.Holds m (fun i j => x * p i j + y * q i j))
        (fun m1 m2 h1 h2 i j hi hj => by rw [← h1 i j hi hj, MView.cref, MView.cref, Mem.read, Mem.read, h2 _ ⟨i, j, hi, hj, rfl⟩])
        (fun T m0 tl tw tls tg th tb tf => by
          obtain ⟨m1, e1, b1⟩ := two m0 T tb (fun i j hi hj => by rw [(tf _ (hC i j hi hj)).2]; exact hC i j hi hj)
            (fun i j hi hj => by rw [← hB i j hi hj, MView.cref, MView.cref, Mem.read, Mem.read, (tf _ (hB.live i j hi hj)).2]) tl tw tls
            (fun a h1 ⟨i, j, hi, hj, e⟩ => (tf a (e ▸ hC i j hi hj)).1 h1) tg th
          exact ⟨m1, e1, b1.1, fun a h1 _ => b1.2 a h1⟩)
      exact ⟨m', e, q1, fr⟩
    · rename_i hs2
      obtain ⟨m1, e1, b1⟩ := band_assignToM_spec_partial hal x hcs hrs hWA hWC h0 (Or.inr ⟨hs1, fun hh => hx hh.2⟩) m hb hA hC
      have hdB : B.Disjoint C := by
        rcases hd' with h | h
        · exact h
        · exact absurd h hs2
      obtain ⟨m2, e2, b2⟩ := mat_addMM_spec hal y B C hcs' hrs' m1 (b1.bdd hC hb) q (fun i j => x * p i j) hWC hLB hLC
        (fun i j hi hj => by rw [← hB i j hi hj, MView.cref, MView.cref, Mem.read, Mem.read, b1.2 _ (hdB _ ⟨i, j, hi, hj, rfl⟩)]) b1.1 (Or.inl hdB)
      exact ⟨m2, by rw [e1]; exact e2, b2.1, fun a ha => by rw [b2.2 a ha, b1.2 a ha]⟩
  · rename_i hs1
    have hdA : A.SepM C := by
      rcases hd with h | h
      · exact h
      · exact absurd h.1 hs1
    exact two m A hb hC hB ⟨rfl, rfl, rfl, rfl⟩ hWA hLA hdA hgA hA

theorem band_addBM_conj {al : Alloc K} (hal : al.OK) (x y : K) {A : BView} {B C : MView} (hcs : A.cs = C.cs) (hrs : A.rs = C.rs)
    (hcs' : B.cs = C.cs) (hrs' : B.rs = C.rs) (hWA : A.WF) (hWC : C.WF) (hLA : A.LSOK) (hLB : B.LSOK) (hLC : C.LSOK)
    (hd : A.FullOK C) (hd' : B.AliasOK C) (m : Mem K) (hb : m.Bdd) {p q : Nat → Nat → K}
    (hgA : A.Good m) (hA : A.Holds m p) (hB : B.Holds m q) (hC : C.Live m) :
    ∃ m', BView.addBM al x A y B C m = some m' ∧ C.Becomes m m' (fun i j => x * p i j + (if C.conj then star y else y) * q i j) := by
  unfold BView.addBM
  split
  · rename_i hc
    obtain ⟨m', e, b⟩ := band_addBMnc_spec hal (star x) y (A := A.conjugate) (B := B.conjugate) (C := C.conjugate) hcs hrs hcs' hrs'
      hWA.conj hWC.conjugate (hLA.conj hWA) hLB.conjugate hLC.conjugate
      (hd.imp (fun h a h1 h2 => h a (BView.conj_footprint h1) h2) id) hd' m hb hgA.conj hA.conj (MView.Holds.conjugate.mp hB) hC
    refine ⟨m', e, MView.Becomes.of_conjugate ⟨fun i j hi hj => ?_, b.2⟩⟩
    rw [b.1 i j hi hj]
    simp
  · rename_i hc
    exact band_addBMnc_spec hal x y hcs hrs hcs' hrs' hWA hWC hLA hLB hLC hd hd' m hb hgA hA hB hC

/-- **C124** `C = x*A + y*B` for a band matrix `A` and full matrices `B` and `C`, when `C` is not a conjugated view or `y` is real: for every
combination of `A` and `B` sharing no memory with `C` or starting at its first element. -/
theorem band_addBM_spec_partial {al : Alloc K} (hal : al.OK) (x y : K) {A : BView} {B C : MView} (hcs : A.cs = C.cs) (hrs : A.rs = C.rs)
    (hcs' : B.cs = C.cs) (hrs' : B.rs = C.rs) (hWA : A.WF) (hWC : C.WF) (hLA : A.LSOK) (hLB : B.LSOK) (hLC : C.LSOK)
    (hd : A.FullOK C) (hd' : B.AliasOK C) (hy : C.conj = false ∨ star y = y) (m : Mem K) (hb : m.Bdd) {p q : Nat → Nat → K}
    (hgA : A.Good m) (hA : A.Holds m p) (hB : B.Holds m q) (hC : C.Live m) :
    ∃ m', BView.addBM al x A y B C m = some m' ∧ C.Becomes m m' (fun i j => x * p i j + y * q i j) := by
  obtain ⟨m', e, b⟩ := band_addBM_conj hal x y hcs hrs hcs' hrs' hWA hWC hLA hLB hLC hd hd' m hb hgA hA hB hC
  refine ⟨m', e, fun i j hi hj => ?_, b.2⟩
  rw [b.1 i j hi hj]
  rcases hy with h | h
  · simp [h]
  · simp [h]

/-- **C124** is violated for a conjugated `C`: the factor of `B` is conjugated.  Whenever `star y * B ≠ y * B` the result is wrong. -/
theorem band_addBM_conj_violated {al : Alloc K} (hal : al.OK) (x y : K) {A : BView} {B C : MView} (hcs : A.cs = C.cs) (hrs : A.rs = C.rs)
    (hcs' : B.cs = C.cs) (hrs' : B.rs = C.rs) (hWA : A.WF) (hWC : C.WF) (hLA : A.LSOK) (hLB : B.LSOK) (hLC : C.LSOK)
    (hd : A.FullOK C) (hd' : B.AliasOK C) (hc : C.conj = true) (m : Mem K) (hb : m.Bdd) {p q : Nat → Nat → K}
    (hgA : A.Good m) (hA : A.Holds m p) (hB : B.Holds m q) (hC : C.Live m) {i j : Nat} (hi : i < C.cs) (hj : j < C.rs)
    (hne : star y * q i j ≠ y * q i j) :
    ∃ m', BView.addBM al x A y B C m = some m' ∧ ¬ C.Holds m' (fun i j => x * p i j + y * q i j) := by
  obtain ⟨m', e, b⟩ := band_addBM_conj hal x y hcs hrs hcs' hrs' hWA hWC hLA hLB hLC hd hd' m hb hgA hA hB hC
  refine ⟨m', e, fun h => hne ?_⟩
  have h1 := b.1 i j hi hj
  rw [h i j hi hj] at h1
  simp only [hc, if_true, Option.some.injEq, add_right_inj] at h1
  exact h1.symm
end
end TMV
