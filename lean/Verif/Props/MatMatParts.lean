import Verif.Props.MatMatRun
import Verif.Model.MatMat

/-! `BlockMultMM` for real and complex element types. -/
namespace TMV
open Finset
variable {K : Type _} [CommRing K] [StarRing K]

/-- The update `c (+)= x*p`. -/
def accU (add : Bool) (x c p : K) : K := if add then c + x * p else x * p

theorem assign_pack {al : Alloc K} (hal : al.OK) : PackOK (MView.assign al) false id := by
  intro S D m v hls hSc hcs hrs h1 h2 hI hDc hS hD hdis hb
  have hptr : S.ptr ≠ D.ptr := by
    intro h
    refine hdis S.ptr ⟨0, 0, by omega, by omega, by simp [MView.addr]⟩ ⟨0, 0, h1, h2, by simp [MView.addr, h]⟩
  have hlin : S.canLinearize = false := by simp [MView.canLinearize, MView.resolve, hls]
  have heq : MView.assign al S D m = MView.assign al S { D with ls := 0 } m := by
    unfold MView.assign MView.copy
    rw [if_pos ⟨h2, h1⟩, if_neg hptr]
    rw [if_pos (show ({ D with ls := 0 } : MView).rs > 0 ∧ ({ D with ls := 0 } : MView).cs > 0 from ⟨h2, h1⟩),
      if_neg (show ¬ S.ptr = ({ D with ls := 0 } : MView).ptr from hptr)]
    unfold MView.copyDiff
    simp only [hlin, hSc, hDc]
    simp
    clear hD hdis hI hrs hcs h1 h2 hptr
    obtain ⟨p, cs, rs, si, sj, cc, ls⟩ := D
    simp only at hDc
    subst hDc
    rfl
  obtain ⟨m', e, b⟩ := assign_spec hal S { D with ls := 0 } hcs hrs
    ⟨hI, fun h => absurd h (by show D.rs ≠ 0; omega), fun h => absurd h (by show D.cs ≠ 0; omega)⟩
    (Or.inr (Or.inl hls)) (Or.inr (Or.inl rfl)) m hb v (MView.Holds.of_raw fun i j hi hj => by rw [hS i j hi hj, hSc]; rfl)
    hD (Or.inl hdis)
  refine ⟨m', by rw [heq, e], fun i j hi hj => ?_, b.2⟩
  have := b.1.rawA i j hi hj
  rw [show ({ D with ls := 0 } : MView).conj = false from hDc] at this
  exact this

theorem blockStore_ok [DecidableEq K] {al : Alloc K} (hal : al.OK) (add : Bool) (x : K) :
    StoreOK (MView.blockStore al add x) false (accU add x) := by
  intro P D m p c hP hPc hDl hDc hcs hrs h1 h2 hI hPr hDr hdis hb
  have hW : D.WF := ⟨hI, fun h => absurd h (by omega), fun h => absurd h (by omega)⟩
  have hL : D.LSOK := Or.inr (Or.inl hDl)
  have hPh : P.Holds m p := MView.Holds.of_raw fun i j hi hj => by rw [hPr i j hi hj, hPc]; rfl
  have hDh : D.Holds m c := MView.Holds.of_raw fun i j hi hj => by rw [hDr i j hi hj, hDc]; rfl
  have fin : ∀ {m' : Mem K} {y : Nat → Nat → K}, D.Becomes m m' y → D.Raw m' y ∧ D.Frame m m' := by
    intro m' y hb
    refine ⟨fun i j hi hj => ?_, hb.2⟩
    have := hb.1.rawA i j hi hj
    rw [hDc] at this; exact this
  unfold MView.blockStore
  cases add with
  | true =>
    obtain ⟨m', e, b⟩ := mat_addMM_spec hal x P D hcs hrs m hb p c hW hP hL hPh hDh (Or.inl hdis)
    exact ⟨m', e, fin b⟩
  | false =>
    by_cases hx : x ≠ 1
    · obtain ⟨m', e, b⟩ := mat_assignMulX_spec hal x P D hcs hrs hW hP hL m hb p hPh hDh.live (Or.inl hdis)
      exact ⟨m', by simp only [Bool.false_eq_true, if_false, if_pos hx]; exact e, fin b⟩
    · obtain ⟨m', e, b⟩ := assign_spec hal P D hcs hrs hW hP hL m hb p hPh hDh.live (Or.inl hdis)
      simp only [ne_eq, not_not] at hx
      refine ⟨m', by simp only [Bool.false_eq_true, if_false, ne_eq, hx, not_true_eq_false]; exact e, fin (b.congr fun i j _ _ => ?_)⟩
      simp [accU, hx]

omit [StarRing K] in
/-- Element by element. -/
theorem cellwise_spec (D : MView) (hI : D.Inj) (m0 : Mem K) (hD : D.Live m0) (val : Nat → Nat → K)
    (f : Nat → Nat → Mem K → Option (Mem K))
    (hf : ∀ i j m, i < D.cs → j < D.rs → (∀ x, ¬ D.Covers x → m x = m0 x) → m (D.addr i j) = m0 (D.addr i j) →
      f i j m = some (fun x => if x = D.addr i j then some (val i j) else m x)) :
    ∃ m', loopN (fun i => loopN (f i) D.rs 0) D.cs 0 m0 = some m' ∧ D.Raw m' val ∧ D.Frame m0 m' := by
  obtain ⟨m', e, g, v⟩ := nest_spec f D.cs D.rs m0 (fun m => ∀ x, ¬ D.Covers x → m x = m0 x) (fun _ _ => True) (fun _ _ => True)
    (fun i j x => i < D.cs ∧ j < D.rs ∧ x = D.addr i j) (fun x => some (rect D.ptr D.si D.sj D.cs D.rs val x))
    (by
      intro i j m hi hj hG _ _ hc
      refine ⟨_, hf i j m hi hj hG (hc _ ⟨hi, hj, rfl⟩), ?_, trivial, trivial, fun _ _ _ _ => trivial, ?_, ?_⟩
      · intro x hx
        have : x ≠ D.addr i j := fun h => hx ⟨i, j, hi, hj, h⟩
        rw [if_neg this]; exact hG x hx
      · rintro x ⟨_, _, rfl⟩
        rw [if_pos rfl]
        rw [rect_at D hI val i j hi hj]
      · rintro i' j' x hi' hj' hne ⟨_, _, rfl⟩
        refine if_neg fun h => hne ?_
        exact hI i' j' i j hi' hj' hi hj h)
    (fun _ _ => rfl)
  refine ⟨m', e, fun i j hi hj => ?_, g⟩
  rw [v i j _ hi hj ⟨hi, hj, rfl⟩, rect_at D hI val i j hi hj]

omit [StarRing K] in
theorem partCopy_pack (cf : Bool) (f : K → K) : PackOK (MView.partCopy f) cf f := by
  intro S D m v _ _ hcs hrs _ _ hI _ hS hD hdis _
  refine cellwise_spec D hI m hD (fun i j => f (v i j)) _ ?_
  intro i j m1 hi hj h1 h2
  have hs : m1 (S.addr i j) = some (v i j) := by
    rw [h1 _ (hdis _ ⟨i, j, by omega, by omega, rfl⟩)]; exact hS i j (by omega) (by omega)
  rw [Mem.read, hs, Option.bind_some]
  obtain ⟨z, hz⟩ := Option.isSome_iff_exists.mp (hD i j hi hj)
  rw [← h2] at hz
  simp only [Mem.write, hz]

omit [StarRing K] in
theorem partStore_ok (cf : Bool) (g : K → K → K) : StoreOK (MView.partStore g) cf g := by
  intro P D m p c _ _ _ _ hcs hrs _ _ hI hP hD hdis _
  refine cellwise_spec D hI m hD.live (fun i j => g (c i j) (p i j)) _ ?_
  intro i j m1 hi hj h1 h2
  have hs : m1 (P.addr i j) = some (p i j) := by
    rw [h1 _ (hdis _ ⟨i, j, by omega, by omega, rfl⟩)]; exact hP i j (by omega) (by omega)
  have hz : m1 (D.addr i j) = some (c i j) := by rw [h2]; exact hD i j hi hj
  rw [Mem.read, hs, Option.bind_some]
  simp only [Mem.modify, Mem.read, hz, Option.bind_some, Mem.write]
  rfl

/-! ### Real and complex elements -/

/-- `re`, `im`, `I` are the real and imaginary part and the imaginary unit. -/
structure ElemTy.Parts (E : ElemTy K) : Prop where
  I2 : E.I * E.I = -1
  starI : star E.I = -E.I
  reR : ∀ z, star (E.re z) = E.re z
  imR : ∀ z, star (E.im z) = E.im z
  dec : ∀ z, E.re z + E.I * E.im z = z
  re_mk : ∀ x y, star x = x → star y = y → E.re (x + E.I * y) = x
  im_mk : ∀ x y, star x = x → star y = y → E.im (x + E.I * y) = y

/-- The block size is positive and rounding up does not make smaller. -/
structure ElemTy.OK (E : ElemTy K) : Prop where
  kb : 0 < E.KB
  ru : ∀ x, x ≤ E.ru x

theorem ElemTy.Parts.cj_eq {E : ElemTy K} (h : E.Parts) (f : Bool) (z : K) :
    cj f z = E.re z + (if f then -E.I else E.I) * E.im z := by
  cases f with
  | false => simp [cj, h.dec]
  | true =>
    have : star z = star (E.re z + E.I * E.im z) := by rw [h.dec]
    simp only [cj, if_true]
    rw [this, star_add, star_mul, h.reR, h.imR, h.starI]
    ring

theorem ElemTy.Parts.re_real {E : ElemTy K} (h : E.Parts) {z : K} (hz : star z = z) : E.re z = z := by
  have := h.re_mk z 0 hz (star_zero K)
  simpa using this

theorem ElemTy.Parts.im_real {E : ElemTy K} (h : E.Parts) {z : K} (hz : star z = z) : E.im z = 0 := by
  have := h.im_mk z 0 hz (star_zero K)
  simpa using this

theorem real_sum {n : Nat} {f : Nat → K} (h : ∀ l, l < n → star (f l) = f l) : star (∑ l ∈ range n, f l) = ∑ l ∈ range n, f l := by
  rw [star_sum]
  exact sum_congr rfl fun l hl => h l (mem_range.mp hl)

theorem real_add {x y : K} (hx : star x = x) (hy : star y = y) : star (x + y) = x + y := by rw [star_add, hx, hy]
theorem real_mul {x y : K} (hx : star x = x) (hy : star y = y) : star (x * y) = x * y := by rw [star_mul, hx, hy, mul_comm]
theorem real_neg {x : K} (hx : star x = x) : star (-x) = -x := by rw [star_neg, hx]
theorem real_sgn {x : K} (f : Bool) (hx : star x = x) : star (if f then -x else x) = if f then -x else x := by
  cases f
  · simpa using hx
  · simpa using hx

/-- Adding a real number to the real part. -/
theorem reUpd_eq {E : ElemTy K} (h : E.Parts) (add : Bool) (x c p : K) :
    MView.reUpd E add x c p = (if add then E.re c else 0) + x * p + E.I * E.im c := by
  cases add <;> simp [MView.reUpd]

theorem imUpd_eq {E : ElemTy K} (h : E.Parts) (add : Bool) (x c p : K) :
    MView.imUpd E add x c p = E.re c + E.I * ((if add then E.im c else 0) + x * p) := by
  cases add <;> simp [MView.imUpd]

section
variable [DecidableEq K]

/-- The operands of the blocked product. -/
structure BlkArgs (A B C : MView) (a b c : Nat → Nat → K) (m : Mem K) : Prop where
  cs : A.cs = C.cs
  k : A.rs = B.cs
  rs : B.rs = C.rs
  inj : C.Inj
  conj : C.conj = false
  dA : A.Disjoint C
  dB : B.Disjoint C
  bdd : m.Bdd
  hA : A.Raw m a
  hB : B.Raw m b
  hC : C.Raw m c

omit [StarRing K] [DecidableEq K] in
theorem BlkArgs.after {A B C : MView} {a b c c' : Nat → Nat → K} {m m' : Mem K} (H : BlkArgs A B C a b c m)
    (hr : C.Raw m' c') (hf : C.Frame m m') : BlkArgs A B C a b c' m' := by
  refine { H with bdd := ?_, hA := ?_, hB := ?_, hC := hr }
  · exact (hr.sameLive hf H.hC.live).bdd H.bdd
  · intro i j hi hj
    rw [hf _ (H.dA _ ⟨i, j, hi, hj, rfl⟩)]; exact H.hA i j hi hj
  · intro i j hi hj
    rw [hf _ (H.dB _ ⟨i, j, hi, hj, rfl⟩)]; exact H.hB i j hi hj

theorem blockPart_spec {al : Alloc K} (hal : al.OK) {E : ElemTy K} (hE : E.OK) {A B C : MView}
    {pa pb st : MView → MView → Mem K → Option (Mem K)} {fa fb : K → K} {u : K → K → K}
    (hpa : PackOK pa A.conj fa) (hpb : PackOK pb B.conj fb) (hst : StoreOK st false u)
    {a b c : Nat → Nat → K} {m : Mem K} (H : BlkArgs A B C a b c m) :
    ∃ m', MView.blockPart E al pa pb st A B C m = some m' ∧
      BlkArgs A B C a b (fun i j => u (c i j) (∑ l ∈ range A.rs, fa (a i l) * fb (b l j))) m' ∧ C.Frame m m' := by
  obtain ⟨m', e, r, f⟩ := run_spec hal ⟨E.KB, E.ru, pa, pb, st⟩ hE.kb hE.ru hpa hpb (by rw [H.conj]; exact hst) m H.bdd H.cs H.k H.rs H.inj
    H.hA H.hB H.hC H.dA H.dB
  exact ⟨m', e, H.after r f, f⟩

/-- `BlockMultMM` computes the product, for real and for complex matrices. -/
theorem blockMM_spec {al : Alloc K} (hal : al.OK) {E : ElemTy K} (hE : E.OK) (ca cb : Bool) (hP : (ca = true ∨ cb = true) → E.Parts)
    (add : Bool) (x : K) (A B C : MView) (a b c : Nat → Nat → K) (m : Mem K) (H : BlkArgs A B C a b c m)
    (hca : ca = false → A.conj = false) (hcb : cb = false → B.conj = false)
    (hra : ca = false → cb = true → ∀ i j, i < A.cs → j < A.rs → star (a i j) = a i j)
    (hrb : cb = false → ca = true → ∀ i j, i < B.cs → j < B.rs → star (b i j) = b i j) :
    ∃ m', MView.blockMM E al ca cb add x A B C m = some m' ∧
      C.Raw m' (accVal add x c (matMul A.rs (fun i l => cj A.conj (a i l)) (fun l j => cj B.conj (b l j)))) ∧ C.Frame m m' := by
  have fr2 : ∀ {m m1 m2 : Mem K}, C.Frame m m1 → C.Frame m1 m2 → C.Frame m m2 := fun h h' x hx => by rw [h' x hx, h x hx]
  cases ca with
  | false =>
    cases cb with
    | false =>
      rw [hca rfl, hcb rfl]
      obtain ⟨m', e, H', f⟩ := blockPart_spec hal hE (by rw [hca rfl]; exact assign_pack hal) (by rw [hcb rfl]; exact assign_pack hal)
        (blockStore_ok hal add x) H
      refine ⟨m', e, fun i j hi hj => ?_, f⟩
      rw [H'.hC i j hi hj]
      simp [accU, accVal, matMul, cj]
    | true =>
      have P := hP (Or.inr rfl)
      have ra := hra rfl rfl
      have hAr : ∀ (f : K → K), (∀ z, star (f z) = f z) → ∀ i j, i < C.cs → j < C.rs →
          star (∑ l ∈ range A.rs, id (a i l) * f (b l j)) = ∑ l ∈ range A.rs, id (a i l) * f (b l j) := fun f hf i j hi hj =>
        real_sum fun l hl => real_mul (ra i l (by have := H.cs; omega) hl) (hf _)
      have fin : ∀ (i j : Nat), matMul A.rs (fun i l => cj A.conj (a i l)) (fun l j => cj B.conj (b l j)) i j =
          (∑ l ∈ range A.rs, id (a i l) * E.re (b l j)) + (if B.conj then -E.I else E.I) * ∑ l ∈ range A.rs, id (a i l) * E.im (b l j) := by
        intro i j
        rw [mul_sum, ← sum_add_distrib]
        refine sum_congr rfl fun l _ => ?_
        dsimp only
        rw [hca rfl, P.cj_eq B.conj (b l j)]
        simp only [cj, Bool.false_eq_true, if_false, id]
        ring
      show ∃ m', MView.blockRC E al add x A B C m = some m' ∧ _
      unfold MView.blockRC
      by_cases hx : E.im x = 0
      · rw [if_pos hx]
        have hxr : E.re x = x := by have := P.dec x; rw [hx] at this; simpa using this
        obtain ⟨m1, e1, H1, f1⟩ := blockPart_spec hal hE (by rw [hca rfl]; exact assign_pack hal) (partCopy_pack B.conj E.re)
          (partStore_ok false (MView.reUpd E add (E.re x))) H
        obtain ⟨m2, e2, H2, f2⟩ := blockPart_spec hal hE (by rw [hca rfl]; exact assign_pack hal) (partCopy_pack B.conj E.im)
          (partStore_ok false (MView.imUpd E add (if B.conj then -E.re x else E.re x))) H1
        refine ⟨m2, by dsimp only; rw [e1]; exact e2, fun i j hi hj => ?_, fr2 f1 f2⟩
        rw [H2.hC i j hi hj]
        have r1 := hAr E.re P.reR i j hi hj
        have r2 := hAr E.im P.imR i j hi hj
        dsimp only
        unfold accVal
        rw [fin]
        generalize (∑ l ∈ range A.rs, id (a i l) * E.re (b l j)) = s1 at r1 ⊢
        generalize (∑ l ∈ range A.rs, id (a i l) * E.im (b l j)) = s2 at r2 ⊢
        have hxs : star (E.re x) = E.re x := P.reR x
        rw [reUpd_eq P, imUpd_eq P, P.re_mk, P.im_mk, hxr]
        · have := P.dec (c i j)
          cases add <;> cases B.conj <;> simp <;> first | linear_combination this | ring
        all_goals first
          | exact P.imR _
          | (refine real_add ?_ (real_mul hxs r1); cases add <;> simp [P.reR])
      · rw [if_neg hx]
        obtain ⟨m1, e1, H1, f1⟩ := blockPart_spec hal hE (by rw [hca rfl]; exact assign_pack hal) (partCopy_pack B.conj E.re)
          (blockStore_ok hal add x) H
        obtain ⟨m2, e2, H2, f2⟩ := blockPart_spec hal hE (by rw [hca rfl]; exact assign_pack hal) (partCopy_pack B.conj E.im)
          (blockStore_ok hal true (if B.conj then -(E.I * x) else E.I * x)) H1
        refine ⟨m2, by dsimp only; rw [e1]; exact e2, fun i j hi hj => ?_, fr2 f1 f2⟩
        rw [H2.hC i j hi hj]
        unfold accVal
        rw [fin]
        cases add <;> cases B.conj <;> simp [accU] <;> ring
  | true =>
    have P := hP (Or.inl rfl)
    cases cb with
    | false =>
      have rb := hrb rfl rfl
      have hBr : ∀ (f : K → K), (∀ z, star (f z) = f z) → ∀ i j, i < C.cs → j < C.rs →
          star (∑ l ∈ range A.rs, f (a i l) * id (b l j)) = ∑ l ∈ range A.rs, f (a i l) * id (b l j) := fun f hf i j hi hj =>
        real_sum fun l hl => real_mul (hf _) (rb l j (by have := H.k; omega) (by have := H.rs; omega))
      have fin : ∀ (i j : Nat), matMul A.rs (fun i l => cj A.conj (a i l)) (fun l j => cj B.conj (b l j)) i j =
          (∑ l ∈ range A.rs, E.re (a i l) * id (b l j)) + (if A.conj then -E.I else E.I) * ∑ l ∈ range A.rs, E.im (a i l) * id (b l j) := by
        intro i j
        rw [mul_sum, ← sum_add_distrib]
        refine sum_congr rfl fun l _ => ?_
        dsimp only
        rw [hcb rfl, P.cj_eq A.conj (a i l)]
        simp only [cj, Bool.false_eq_true, if_false, id]
        ring
      show ∃ m', MView.blockCR E al add x A B C m = some m' ∧ _
      unfold MView.blockCR
      by_cases hx : E.im x = 0
      · rw [if_pos hx]
        have hxr : E.re x = x := by have := P.dec x; rw [hx] at this; simpa using this
        obtain ⟨m1, e1, H1, f1⟩ := blockPart_spec hal hE (partCopy_pack A.conj E.re) (by rw [hcb rfl]; exact assign_pack hal)
          (partStore_ok false (MView.reUpd E add (E.re x))) H
        obtain ⟨m2, e2, H2, f2⟩ := blockPart_spec hal hE (partCopy_pack A.conj E.im) (by rw [hcb rfl]; exact assign_pack hal)
          (partStore_ok false (MView.imUpd E add (if A.conj then -E.re x else E.re x))) H1
        refine ⟨m2, by dsimp only; rw [e1]; exact e2, fun i j hi hj => ?_, fr2 f1 f2⟩
        rw [H2.hC i j hi hj]
        have r1 := hBr E.re P.reR i j hi hj
        have r2 := hBr E.im P.imR i j hi hj
        dsimp only
        unfold accVal
        rw [fin]
        generalize (∑ l ∈ range A.rs, E.re (a i l) * id (b l j)) = s1 at r1 ⊢
        generalize (∑ l ∈ range A.rs, E.im (a i l) * id (b l j)) = s2 at r2 ⊢
        have hxs : star (E.re x) = E.re x := P.reR x
        rw [reUpd_eq P, imUpd_eq P, P.re_mk, P.im_mk, hxr]
        · have := P.dec (c i j)
          cases add <;> cases A.conj <;> simp <;> first | linear_combination this | ring
        all_goals first
          | exact P.imR _
          | (refine real_add ?_ (real_mul hxs r1); cases add <;> simp [P.reR])
      · rw [if_neg hx]
        obtain ⟨m1, e1, H1, f1⟩ := blockPart_spec hal hE (partCopy_pack A.conj E.re) (by rw [hcb rfl]; exact assign_pack hal)
          (blockStore_ok hal add x) H
        obtain ⟨m2, e2, H2, f2⟩ := blockPart_spec hal hE (partCopy_pack A.conj E.im) (by rw [hcb rfl]; exact assign_pack hal)
          (blockStore_ok hal true (if A.conj then -(E.I * x) else E.I * x)) H1
        refine ⟨m2, by dsimp only; rw [e1]; exact e2, fun i j hi hj => ?_, fr2 f1 f2⟩
        rw [H2.hC i j hi hj]
        unfold accVal
        rw [fin]
        cases add <;> cases A.conj <;> simp [accU] <;> ring
    | true =>
      have hr : ∀ (f g : K → K), (∀ z, star (f z) = f z) → (∀ z, star (g z) = g z) → ∀ i j,
          star (∑ l ∈ range A.rs, f (a i l) * g (b l j)) = ∑ l ∈ range A.rs, f (a i l) * g (b l j) := fun f g hf hg i j =>
        real_sum fun l hl => real_mul (hf _) (hg _)
      have fin : ∀ (i j : Nat), matMul A.rs (fun i l => cj A.conj (a i l)) (fun l j => cj B.conj (b l j)) i j =
          (∑ l ∈ range A.rs, E.re (a i l) * E.re (b l j)) +
          (if A.conj = B.conj then -1 else 1) * (∑ l ∈ range A.rs, E.im (a i l) * E.im (b l j)) +
          (if B.conj then -E.I else E.I) * (∑ l ∈ range A.rs, E.re (a i l) * E.im (b l j)) +
          (if A.conj then -E.I else E.I) * ∑ l ∈ range A.rs, E.im (a i l) * E.re (b l j) := by
        intro i j
        simp only [mul_sum, ← sum_add_distrib]
        refine sum_congr rfl fun l _ => ?_
        dsimp only
        rw [P.cj_eq A.conj (a i l), P.cj_eq B.conj (b l j)]
        have := P.I2
        rcases Bool.eq_false_or_eq_true A.conj with h1 | h1 <;> rcases Bool.eq_false_or_eq_true B.conj with h2 | h2 <;>
          simp only [h1, h2, if_true, Bool.false_eq_true, if_false, Bool.true_eq_false] <;> linear_combination (norm := ring_nf)
            (if A.conj = B.conj then (1 : K) else -1) * (E.im (a i l) * E.im (b l j)) * this <;> simp [h1, h2] <;> ring
      show ∃ m', MView.blockCC E al add x A B C m = some m' ∧ _
      unfold MView.blockCC
      by_cases hx : E.im x = 0
      · rw [if_pos hx]
        have hxr : E.re x = x := by have := P.dec x; rw [hx] at this; simpa using this
        have hxs : star x = x := by rw [← hxr]; exact P.reR x
        dsimp only
        rw [hxr]
        obtain ⟨m1, e1, H1, f1⟩ := blockPart_spec hal hE (partCopy_pack A.conj E.re) (partCopy_pack B.conj E.re)
          (partStore_ok false (MView.reUpd E add x)) H
        obtain ⟨m2, e2, H2, f2⟩ := blockPart_spec hal hE (partCopy_pack A.conj E.im) (partCopy_pack B.conj E.im)
          (partStore_ok false (MView.reUpd E true (if A.conj = B.conj then -x else x))) H1
        obtain ⟨m3, e3, H3, f3⟩ := blockPart_spec hal hE (partCopy_pack A.conj E.re) (partCopy_pack B.conj E.im)
          (partStore_ok false (MView.imUpd E add (if B.conj then -x else x))) H2
        obtain ⟨m4, e4, H4, f4⟩ := blockPart_spec hal hE (partCopy_pack A.conj E.im) (partCopy_pack B.conj E.re)
          (partStore_ok false (MView.imUpd E true (if A.conj then -x else x))) H3
        refine ⟨m4, by rw [e1, Option.bind_some, e2, Option.bind_some, e3, Option.bind_some]; exact e4, fun i j hi hj => ?_,
          fr2 (fr2 (fr2 f1 f2) f3) f4⟩
        rw [H4.hC i j hi hj]
        have r1 := hr E.re E.re P.reR P.reR i j
        have r2 := hr E.im E.im P.imR P.imR i j
        have r3 := hr E.re E.im P.reR P.imR i j
        have r4 := hr E.im E.re P.imR P.reR i j
        dsimp only
        unfold accVal
        rw [fin]
        generalize (∑ l ∈ range A.rs, E.re (a i l) * E.re (b l j)) = s1 at r1 ⊢
        generalize (∑ l ∈ range A.rs, E.im (a i l) * E.im (b l j)) = s2 at r2 ⊢
        generalize (∑ l ∈ range A.rs, E.re (a i l) * E.im (b l j)) = s3 at r3 ⊢
        generalize (∑ l ∈ range A.rs, E.im (a i l) * E.re (b l j)) = s4 at r4 ⊢
        have q0 : star (if add then E.re (c i j) else 0) = (if add then E.re (c i j) else 0) := by cases add <;> simp [P.reR]
        have q0' : star (if add then E.im (c i j) else 0) = (if add then E.im (c i j) else 0) := by cases add <;> simp [P.imR]
        have qi := P.imR (c i j)
        have q1 : star ((if add then E.re (c i j) else 0) + x * s1) = (if add then E.re (c i j) else 0) + x * s1 :=
          real_add q0 (real_mul hxs r1)
        have hx2 : star (if A.conj = B.conj then -x else x) = if A.conj = B.conj then -x else x := by
          split
          · exact real_neg hxs
          · exact hxs
        have q2 : star ((if add then E.re (c i j) else 0) + x * s1 + (if A.conj = B.conj then -x else x) * s2) =
            (if add then E.re (c i j) else 0) + x * s1 + (if A.conj = B.conj then -x else x) * s2 :=
          real_add q1 (real_mul hx2 r2)
        have q3 : star ((if add then E.im (c i j) else 0) + (if B.conj then -x else x) * s3) =
            (if add then E.im (c i j) else 0) + (if B.conj then -x else x) * s3 :=
          real_add q0' (real_mul (real_sgn _ hxs) r3)
        rw [reUpd_eq P add x (c i j) s1, reUpd_eq P true, P.re_mk _ _ q1 qi, P.im_mk _ _ q1 qi, if_pos rfl]
        rw [imUpd_eq P add, P.re_mk _ _ q2 qi, P.im_mk _ _ q2 qi]
        rw [imUpd_eq P true, P.re_mk _ _ q2 q3, P.im_mk _ _ q2 q3, if_pos rfl]
        have := P.dec (c i j)
        rcases Bool.eq_false_or_eq_true A.conj with h1 | h1 <;> rcases Bool.eq_false_or_eq_true B.conj with h2 | h2 <;>
          cases add <;> simp [h1, h2] <;> first | linear_combination this | ring
      · rw [if_neg hx]
        dsimp only
        obtain ⟨m1, e1, H1, f1⟩ := blockPart_spec hal hE (partCopy_pack A.conj E.re) (partCopy_pack B.conj E.re)
          (blockStore_ok hal add x) H
        obtain ⟨m2, e2, H2, f2⟩ := blockPart_spec hal hE (partCopy_pack A.conj E.im) (partCopy_pack B.conj E.im)
          (blockStore_ok hal true (if A.conj = B.conj then -x else x)) H1
        obtain ⟨m3, e3, H3, f3⟩ := blockPart_spec hal hE (partCopy_pack A.conj E.re) (partCopy_pack B.conj E.im)
          (blockStore_ok hal true (if B.conj then -(E.I * x) else E.I * x)) H2
        obtain ⟨m4, e4, H4, f4⟩ := blockPart_spec hal hE (partCopy_pack A.conj E.im) (partCopy_pack B.conj E.re)
          (blockStore_ok hal true (if A.conj then -(E.I * x) else E.I * x)) H3
        refine ⟨m4, by rw [e1, Option.bind_some, e2, Option.bind_some, e3, Option.bind_some]; exact e4, fun i j hi hj => ?_,
          fr2 (fr2 (fr2 f1 f2) f3) f4⟩
        rw [H4.hC i j hi hj]
        unfold accVal
        rw [fin]
        rcases Bool.eq_false_or_eq_true A.conj with h1 | h1 <;> rcases Bool.eq_false_or_eq_true B.conj with h2 | h2 <;>
          cases add <;> simp [accU, h1, h2] <;> ring

end
end TMV
