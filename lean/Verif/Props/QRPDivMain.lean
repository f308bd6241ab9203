import Verif.Props.QRPSolve
import Verif.Props.QRPGraded

/-! C87: the theorems about `QRPDiv`. -/
namespace TMV.QR
noncomputable section
open Classical TMV.Tri

variable {K : Type} [RCLike K]

theorem lastNZ_graded {r N : Nat} {V : Nat → Nat → K} (h : Graded r N V) : lastNZ (fun i => V i i) N = r := by
  obtain ⟨h1, h2, h3⟩ := h
  have : ∀ n, r ≤ n → n ≤ N → lastNZ (fun i => V i i) n = r := by
    intro n
    induction n with
    | zero => intro a b; rw [lastNZ]; omega
    | succ n ih =>
      intro a b
      rw [lastNZ]
      by_cases hr : r ≤ n
      · rw [if_pos (h3 n n hr le_rfl (by omega))]
        exact ih hr (by omega)
      · rw [if_neg (h2 n (by omega))]
        omega
  exact this N h1 le_rfl

/-- The matrix is what is decomposed: not in place, or the storage has unit steps. -/
def QRPArg.ok (a : QRPArg K) : Prop := a.inplace = true → a.unitStep = true

theorem QRPArg.src_eq {a : QRPArg K} (h : a.ok) (A : Nat → Nat → K) : a.src A = A := by
  unfold QRPArg.src
  by_cases hi : a.inplace = true
  · rw [if_pos hi, if_pos (h hi)]
  · rw [if_neg hi]

/-- What is needed to call a matrix decomposed by `QRP_Decompose`: positive parameters; the loose block algorithm ends. -/
structure QRPCfg.Ok (g : QRPCfg) (n : Nat) : Prop where
  tiny : 0 < g.tiny
  nb : 0 < g.nb
  sq : g.strict = false → g.nb < n → n * g.sqe ≤ 1

/-- **C87** (`M ≥ N`).  A `QRPDiv` of `A` is the exact divider of some `C = A + E`, `‖E‖` small column by column (C86), and with `r = F.N1`:
`m /= A` never fails and returns a least squares solution (exact for a nonsingular square matrix); `m %= A` never fails, solves the equations
of the pivot columns with the least norm, and all of them if they are consistent; the inverse `X` satisfies `C X C = C`, `X C X = X`, `C X`
Hermitian; nothing outside the result is changed.  `Graded` is shown in `qrpDiv_graded`. -/
theorem qrpDiv_tall {g : QRPCfg} {M N : Nat} (hg : g.Ok N) {a : QRPArg K} (ha : a.ok) {nb tb tb2 ib mb mb2 : Nat} (hnb : 0 < nb) (htb : 0 < tb) (htb2 : 0 < tb2)
    (hib : 0 < ib) (hmb : 0 < mb) (hmb2 : 0 < mb2) (hNM : N ≤ M) (A Z0 Z1 : Nat → Nat → K) (beta0 : Nat → K) (P0 : Nat → Nat) (fuel : Nat) (F : QRPFac K)
    (hF : QRPFac.make g a M N A Z0 beta0 P0 fuel = some F) :
    ∃ E C : Nat → Nat → K, (∀ p c, C p c = A p c + E p c) ∧
    (∀ c, c < N → ∑ p ∈ Finset.range M, ‖E p c‖ ^ 2 ≤ qrpTol g.tiny g.eps M N A) ∧
    ((∀ i, i < N → F.QRx i i ≠ 0) → ∀ p c, c < N → E p c = 0) ∧
    (M = N → F.det N = (Matrix.of fun i j : Fin N => C i j).det) ∧
    (Graded F.N1 N F.QRx →
      (∀ brm nc m x, ∃ X, F.lDiv nb tb tb2 brm M N nc Z1 m x = some X ∧
        (∀ c, c < nc → ∀ z : Nat → K, ∑ p ∈ Finset.range M, ‖∑ l ∈ Finset.range N, C p l * X l c - m p c‖ ^ 2 ≤
          ∑ p ∈ Finset.range M, ‖∑ l ∈ Finset.range N, C p l * z l - m p c‖ ^ 2) ∧
        (F.N1 = N → M = N → ∀ c, c < nc → ∀ p, p < M → ∑ l ∈ Finset.range N, C p l * X l c = m p c) ∧
        ∀ a c, ¬ (a < N ∧ c < nc) → X a c = x a c) ∧
      (∀ brm nr m x, ∃ X, F.rDiv nb tb tb2 brm M N nr Z1 m x = some X ∧
        (∀ a, a < nr → ∀ c, c < N → (swapsPerm F.P N).symm c < F.N1 → ∑ p ∈ Finset.range M, X a p * C p c = m a c) ∧
        (∀ a, a < nr → ∀ z : Nat → K, (∀ c, c < N → (swapsPerm F.P N).symm c < F.N1 → ∑ p ∈ Finset.range M, z p * C p c = m a c) →
          ∑ p ∈ Finset.range M, ‖X a p‖ ^ 2 ≤ ∑ p ∈ Finset.range M, ‖z p‖ ^ 2) ∧
        (∀ a, a < nr → (∃ z : Nat → K, ∀ c, c < N → ∑ p ∈ Finset.range M, z p * C p c = m a c) →
          ∀ c, c < N → ∑ p ∈ Finset.range M, X a p * C p c = m a c) ∧
        ∀ a p, ¬ (a < nr ∧ p < M) → X a p = x a p) ∧
      (∀ o crm st minv, ∃ X, F.inverse nb ib mb mb2 o crm st M N Z1 minv = some X ∧
        (∀ p q, p < M → q < M → ∑ c ∈ Finset.range N, C p c * X c q = star (∑ c ∈ Finset.range N, C q c * X c p)) ∧
        (∀ p c, p < M → c < N → ∑ q ∈ Finset.range M, (∑ l ∈ Finset.range N, C p l * X l q) * C q c = C p c) ∧
        (∀ a p, a < N → p < M → ∑ q ∈ Finset.range M, X a q * (∑ l ∈ Finset.range N, C q l * X l p) = X a p) ∧
        ∀ a p, ¬ (a < N ∧ p < M) → X a p = minv a p)) := by
  unfold QRPFac.make at hF
  rw [if_neg (by omega), a.src_eq ha] at hF
  obtain ⟨r, hr, rfl⟩ := Option.map_eq_some_iff.mp hF
  obtain ⟨hP, ⟨E, hE, hE0, hEb, hEd⟩, -, -⟩ := qrp_packed hg.tiny hNM hg.nb hg.sq A Z0 beta0 P0 1 fuel r hr
  have hP' : ∀ i, i < N → r.P i < N := fun i hi => (hP i hi).2
  obtain ⟨C, hC⟩ : ∃ C : Nat → Nat → K, C = fun p c => A p c + E p ((swapsPerm r.P N).symm c) := ⟨_, rfl⟩
  have hfact : Fact M N r.A r.beta (fun p c => C p (swapsPerm r.P N c)) := by
    rw [hC]
    simpa only [Equiv.symm_apply_apply] using hE
  refine ⟨fun p c => E p ((swapsPerm r.P N).symm c), C, fun p c => by rw [hC], fun c hc => hEb _ (swapsPerm_symm_lt hP' hc), ?_, ?_, ?_⟩
  · intro hd p c hc
    exact hE0 _ (swapsPerm_symm_lt hP' hc) (hd _ (swapsPerm_symm_lt hP' hc)) p
  · intro hMN
    have e : QRPFac.det N (⟨false, r.A, r.beta, r.P, r.det, lastNZ (fun i => r.A i i) N⟩ : QRPFac K) = QRFac.det N ⟨false, r.A, r.beta, r.det⟩ := rfl
    rw [e, qrFac_det _ _ _ rfl]
    show r.det * _ = _
    rw [hEd hMN, one_mul, hC]
    rfl
  · intro hgr
    refine ⟨?_, ?_, ?_⟩
    · intro brm nc m x
      obtain ⟨X, h1, h2, -, h4, h5⟩ := pLDiv hfact hP' hgr hnb htb htb2 .cm brm nc Z1 m x
      exact ⟨X, h1, h2, h4, h5⟩
    · intro brm nr m x
      exact pRDiv hfact hP' hgr hnb htb htb2 .cm brm nr Z1 m x
    · intro o crm st minv
      exact pInverse hfact hP' hgr hnb hib hmb hmb2 o crm st Z1 minv

/-- **C87** (`M < N`): the transpose of a wide matrix is decomposed; the roles of the two divisions are exchanged. -/
theorem qrpDiv_wide {g : QRPCfg} {M N : Nat} (hg : g.Ok M) {a : QRPArg K} (ha : a.ok) {nb tb tb2 ib mb mb2 : Nat} (hnb : 0 < nb) (htb : 0 < tb) (htb2 : 0 < tb2)
    (hib : 0 < ib) (hmb : 0 < mb) (hmb2 : 0 < mb2) (hMN : M < N) (A Z0 Z1 : Nat → Nat → K) (beta0 : Nat → K) (P0 : Nat → Nat) (fuel : Nat) (F : QRPFac K)
    (hF : QRPFac.make g a M N A Z0 beta0 P0 fuel = some F) :
    ∃ E C : Nat → Nat → K, (∀ p c, C p c = A p c + E p c) ∧
    (∀ p, p < M → ∑ c ∈ Finset.range N, ‖E p c‖ ^ 2 ≤ qrpTol g.tiny g.eps N M (trM A)) ∧
    ((∀ i, i < M → F.QRx i i ≠ 0) → ∀ p c, p < M → E p c = 0) ∧
    (Graded F.N1 M F.QRx →
      (∀ brm nc m x, ∃ X, F.lDiv nb tb tb2 brm M N nc Z1 m x = some X ∧
        (∀ c, c < nc → ∀ p, p < M → (swapsPerm F.P M).symm p < F.N1 → ∑ l ∈ Finset.range N, C p l * X l c = m p c) ∧
        (∀ c, c < nc → ∀ z : Nat → K, (∀ p, p < M → (swapsPerm F.P M).symm p < F.N1 → ∑ l ∈ Finset.range N, C p l * z l = m p c) →
          ∑ l ∈ Finset.range N, ‖X l c‖ ^ 2 ≤ ∑ l ∈ Finset.range N, ‖z l‖ ^ 2) ∧
        (∀ c, c < nc → (∃ z : Nat → K, ∀ p, p < M → ∑ l ∈ Finset.range N, C p l * z l = m p c) →
          ∀ p, p < M → ∑ l ∈ Finset.range N, C p l * X l c = m p c) ∧
        ∀ a c, ¬ (a < N ∧ c < nc) → X a c = x a c) ∧
      (∀ brm nr m x, ∃ X, F.rDiv nb tb tb2 brm M N nr Z1 m x = some X ∧
        (∀ a, a < nr → ∀ z : Nat → K, ∑ c ∈ Finset.range N, ‖∑ p ∈ Finset.range M, X a p * C p c - m a c‖ ^ 2 ≤
          ∑ c ∈ Finset.range N, ‖∑ p ∈ Finset.range M, z p * C p c - m a c‖ ^ 2) ∧
        ∀ a p, ¬ (a < nr ∧ p < M) → X a p = x a p) ∧
      (∀ o crm st minv, ∃ X, F.inverse nb ib mb mb2 o crm st M N Z1 minv = some X ∧
        (∀ p q, p < N → q < N → ∑ c ∈ Finset.range M, X p c * C c q = star (∑ c ∈ Finset.range M, X q c * C c p)) ∧
        (∀ c p, c < M → p < N → ∑ q ∈ Finset.range N, C c q * (∑ l ∈ Finset.range M, X q l * C l p) = C c p) ∧
        (∀ p a, p < N → a < M → ∑ q ∈ Finset.range N, (∑ l ∈ Finset.range M, X p l * C l q) * X q a = X p a) ∧
        ∀ a p, ¬ (a < N ∧ p < M) → X a p = minv a p)) := by
  unfold QRPFac.make at hF
  rw [if_pos hMN, a.src_eq ha] at hF
  obtain ⟨r, hr, rfl⟩ := Option.map_eq_some_iff.mp hF
  obtain ⟨hP, ⟨E, hE, hE0, hEb, -⟩, -, -⟩ := qrp_packed hg.tiny hMN.le hg.nb hg.sq (trM A) Z0 beta0 P0 1 fuel r hr
  have hP' : ∀ i, i < M → r.P i < M := fun i hi => (hP i hi).2
  obtain ⟨C, hC⟩ : ∃ C : Nat → Nat → K, C = fun p c => A p c + E c ((swapsPerm r.P M).symm p) := ⟨_, rfl⟩
  have hfact : Fact N M r.A r.beta (fun p c => trM C p (swapsPerm r.P M c)) := by
    rw [hC]
    simpa only [trM, Equiv.symm_apply_apply] using hE
  refine ⟨fun p c => E c ((swapsPerm r.P M).symm p), C, fun p c => by rw [hC], fun p hp => hEb _ (swapsPerm_symm_lt hP' hp), ?_, ?_⟩
  · intro hd p c hp
    exact hE0 _ (swapsPerm_symm_lt hP' hp) (hd _ (swapsPerm_symm_lt hP' hp)) c
  · intro hgr
    refine ⟨?_, ?_, ?_⟩
    · intro brm nc m x
      obtain ⟨X, h1, h2, h3, h4, h5⟩ := pRDiv hfact hP' hgr hnb htb htb2 .cm brm nc Z1 (trM m) (trM x)
      have e : ∀ (z : Nat → K) p, ∑ l ∈ Finset.range N, C p l * z l = ∑ l ∈ Finset.range N, z l * trM C l p :=
        fun z p => Finset.sum_congr rfl fun l _ => mul_comm _ _
      refine ⟨trM X, congrArg (Option.map trM) h1, ?_, ?_, ?_, ?_⟩
      · intro c hc p hp hr
        rw [e]; exact h2 c hc p hp hr
      · intro c hc z hz
        refine h3 c hc z fun p hp hr => ?_
        rw [← e]; exact hz p hp hr
      · rintro c hc ⟨z, hz⟩ p hp
        rw [e]
        exact h4 c hc ⟨z, fun p hp => by rw [← e]; exact hz p hp⟩ p hp
      · intro a c hac
        exact h5 c a fun hh => hac ⟨hh.2, hh.1⟩
    · intro brm nr m x
      obtain ⟨X, h1, h2, -, -, h5⟩ := pLDiv hfact hP' hgr hnb htb htb2 .cm brm nr Z1 (trM m) (trM x)
      refine ⟨trM X, congrArg (Option.map trM) h1, ?_, ?_⟩
      · intro a ha z
        have := h2 a ha z
        simpa only [trM, mul_comm] using this
      · intro a p hap
        exact h5 p a fun hh => hap ⟨hh.2, hh.1⟩
    · intro o crm st minv
      obtain ⟨X, h1, h2, h3, h4, h5⟩ := pInverse hfact hP' hgr hnb hib hmb hmb2 o crm st Z1 (trM minv)
      refine ⟨trM X, congrArg (Option.map trM) h1, ?_, ?_, ?_, ?_⟩
      · intro p q hp hq
        have := h2 q p hq hp
        simpa only [trM, mul_comm] using this
      · intro c p hc hp
        have := h3 p c hp hc
        simpa only [trM, mul_comm] using this
      · intro p a hp ha
        have := h4 a p ha hp
        simpa only [trM, mul_comm] using this
      · intro a p hap
        exact h5 p a fun hh => hap ⟨hh.2, hh.1⟩

/-- **C87**: the hypothesis `Graded` of the theorems above holds if `QRP_IsStrict()`, or if the matrix has no more columns (rows, if that is
less) than a block. -/
theorem qrpDiv_graded {g : QRPCfg} {M N : Nat} (ht : 0 < g.tiny) {a : QRPArg K} (ha : a.ok) (hb : g.strict = true ∨ min M N ≤ g.nb)
    (heps : g.strict = false → ((min M N : Nat) * g.eps) ^ 2 ≤ 4 * g.sqe) (A Z0 : Nat → Nat → K) (beta0 : Nat → K) (P0 : Nat → Nat) (fuel : Nat) (F : QRPFac K)
    (hA : (max M N : Nat) * g.tiny ^ 2 < (min M N : Nat) * g.eps ^ 2 * ∑ c ∈ Finset.range N, ∑ p ∈ Finset.range M, ‖A p c‖ ^ 2)
    (hF : QRPFac.make g a M N A Z0 beta0 P0 fuel = some F) : Graded F.N1 (min M N) F.QRx := by
  unfold QRPFac.make at hF
  by_cases h : M < N
  · rw [if_pos h, a.src_eq ha] at hF
    obtain ⟨r, hr, rfl⟩ := Option.map_eq_some_iff.mp hF
    rw [min_eq_left h.le] at hb heps hA ⊢
    rw [max_eq_right h.le, Finset.sum_comm] at hA
    obtain ⟨k, hk⟩ := qrp_graded ht h.le hb heps (trM A) Z0 hA beta0 P0 1 fuel r hr
    show Graded (lastNZ (fun i => r.A i i) M) M r.A
    rw [lastNZ_graded hk]
    exact hk
  · rw [if_neg h, a.src_eq ha] at hF
    obtain ⟨r, hr, rfl⟩ := Option.map_eq_some_iff.mp hF
    rw [min_eq_right (by omega)] at hb heps hA ⊢
    rw [max_eq_left (by omega)] at hA
    obtain ⟨k, hk⟩ := qrp_graded ht (not_lt.mp h) hb heps A Z0 hA beta0 P0 1 fuel r hr
    show Graded (lastNZ (fun i => r.A i i) N) N r.A
    rw [lastNZ_graded hk]
    exact hk

/-- **C87** (defect): `divideInPlace()` for a view that is neither row-major nor column-major: the decomposition is made of memory
that was never written, whatever the matrix is. -/
theorem qrpDiv_inplace_defect (g : QRPCfg) (gar : Nat → Nat → K) (M N : Nat) (A A' Z0 : Nat → Nat → K) (beta0 : Nat → K) (P0 : Nat → Nat) (fuel : Nat) :
    QRPFac.make g ⟨true, false, gar⟩ M N A Z0 beta0 P0 fuel = QRPFac.make g ⟨true, false, gar⟩ M N A' Z0 beta0 P0 fuel := rfl

end
end TMV.QR
