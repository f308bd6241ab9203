import Verif.Props.HermRoot

/-! A run: the Hermitian matrix `[[0,1],[1,0]]`. -/
namespace TMV.SymSV
open Matrix
variable {K : Type} [RCLike K]

/-- The matrix. -/
def flipM (K : Type) [RCLike K] : Nat → Nat → K := fun i j => if i = j then 0 else 1

theorem reflect_one {tiny : ℝ} (ht : tiny ≤ 1) (x : Nat → K) (det : K) : QR.reflect tiny 0 1 x det = ⟨1, fun i => if i < 0 then 0 else x i, 0, det⟩ := by
  have h0 : QR.maxAbs2 x 0 = 0 ∨ QR.maxAbs2 x 0 ≤ 1 := by
    by_cases h : QR.maxAbs2 x 0 ≤ 1
    · exact Or.inr h
    · left; simp [QR.maxAbs2] at h ⊢
  rw [QR.reflect]
  simp only [Finset.range_zero, Finset.sum_empty, norm_one]
  rw [if_neg]
  · rw [if_pos ⟨trivial, by simp⟩]
  · have : (if 1 > QR.maxAbs2 x 0 then (1:ℝ) else QR.maxAbs2 x 0) = 1 ∨ QR.maxAbs2 x 0 > 1 := by
      split_ifs with u
      · exact Or.inl rfl
      · rcases h0 with v | v <;> [(rw [v] at u; norm_num at u); exact Or.inl (le_antisymm v (not_lt.mp u))]
    rcases this with u | u
    · rw [u, abs_one]; exact not_lt.mpr ht
    · rcases h0 with v | v <;> linarith

/-- `UnsortedHermEigen` and `UnsortedEigen` end for it, and nothing is dropped. -/
theorem unsorted_flip (e : Env K) {hU : Bool} (he : EnvOk e hU 2) (hnb : 1 < e.nb) (hd : 2 ≤ e.dcl) (ht : e.tiny ≤ 1) (hf : 3 ≤ e.fuel) (U : Nat → Nat → K) (S : Nat → ℝ)
    (h0 : U 0 0 = 0) (h1 : U 1 1 = 0) (h2 : U 1 0 = 1) : ∃ o, unsorted e hU 2 U S = some o ∧ ¬ o.low ∧ o.cnt = 0 ∧ o.cnt3 = 0 := by
  rw [unsorted, if_neg (by norm_num)]
  simp only
  have key : ∃ t, t = Tridiag.tridiagonalize true e.tiny e.nb 2 e.Z ⟨U, e.b0, fun k => ((S k : ℝ) : K), e.E0, 0⟩ ∧ t.D 0 = 0 ∧ t.D 1 = 0 ∧ t.E 0 = 1 := by
    refine ⟨_, rfl, ?_⟩
    rw [Tridiag.tridiagonalize, if_pos (by norm_num), Tridiag.nonLap, if_neg (by omega), Tridiag.nonBlock]
    simp only [show 2 - 1 = 1 from rfl, up, Tridiag.nbStep, QR.reflectCol, Tridiag.rowS, Nat.sub_self, zero_add]
    rw [h2, reflect_one ht]
    simp [Tridiag.getD, Tridiag.unrowS, symFull, h0, h1, Tridiag.rowS, cj]
  obtain ⟨t, ht', d0, d1, e0⟩ := key
  rw [← ht']
  obtain ⟨s', r1, r2, r3⟩ := EigQR.run_flip_any (c := cfg e hU 2) (K := K) ⟨rfl, fun _ => rfl, he.ep, he.t0⟩ hd ht (e.dc (cfg e hU 2)) e.srt e.fuel hf
    ⟨if hU = true then Tridiag.makeU e.qb 2 t.b e.Zu t.A else t.A, fun k => RCLike.re (t.D k), t.E, 0, 0⟩ (by simp [d0]) (by simp [d1]) e0 rfl rfl
  rw [r1]
  refine ⟨_, rfl, ?_, r2, r3⟩
  rintro ⟨k, hk, hk2⟩
  obtain rfl : k = 0 := by omega
  rw [e0] at hk2
  exact one_ne_zero hk2

/-- `Eigen(A,U,S)` ends for it; the decomposition is exact. -/
theorem eigen_flip (e : Env K) (he : EnvOk e true 2) (hnb : 1 < e.nb) (hd : 2 ≤ e.dcl) (ht : e.tiny ≤ 1) (hf : 3 ≤ e.fuel) (uc : Bool) (U0 : Nat → Nat → K) (S0 : Nat → ℝ) :
    ∃ o, eigen e uc 2 (flipM K) U0 S0 = some o ∧ NearEigUp (matOf 2 2 (symFull true (flipM K))) 0 (matOf 2 2 o.U) o.S := by
  have key : ∃ o, eigen e uc 2 (flipM K) U0 S0 = some o ∧ ¬ o.low ∧ o.cnt = 0 ∧ o.cnt3 = 0 := by
    cases uc
    · obtain ⟨o, r1, r2⟩ := unsorted_flip e he hnb hd ht hf (setLower 2 (flipM K) U0) S0 (by simp [setLower, flipM]) (by simp [setLower, flipM]) (by simp [setLower, flipM])
      rw [eigen, if_neg (by simp), r1]
      exact ⟨_, rfl, r2⟩
    · obtain ⟨o, r1, r2⟩ := unsorted_flip e he hnb hd ht hf (setLower 2 (conjM (flipM K)) (conjM U0)) S0 (by simp [setLower, flipM, conjM]) (by simp [setLower, flipM, conjM])
        (by simp [setLower, flipM, conjM])
      rw [eigen, if_pos rfl, r1]
      exact ⟨_, rfl, r2⟩
  obtain ⟨o, h1, h2, h3, h4⟩ := key
  refine ⟨o, h1, ?_⟩
  have := eigen_spec_partial e uc he (flipM K) U0 S0 (fun k _ => by simp [flipM]) h1
  rw [err, low, SVDec.under, if_neg h2, h3, h4] at this
  simpa using this

/-- `SquareRoot` throws `NonPosDef` for it: its eigenvalues are `1` and `-1`. -/
theorem squareRoot_flip (e : Env K) (he : EnvOk e true 2) (hnb : 1 < e.nb) (hd : 2 ≤ e.dcl) (ht : e.tiny ≤ 1) (hf : 3 ≤ e.fuel) (V0 : Nat → Nat → K) (S0 : Nat → ℝ) :
    ∃ o, squareRoot e 2 (flipM K) V0 S0 = some (o, none) := by
  obtain ⟨o, h1, n⟩ := eigen_flip e he hnb hd ht hf false V0 S0
  have hr : ∃ r, squareRoot e 2 (flipM K) V0 S0 = some (o, r) := by rw [squareRoot, h1]; exact ⟨_, rfl⟩
  obtain ⟨r, hr⟩ := hr
  refine ⟨o, ?_⟩
  cases r with
  | none => exact hr
  | some R =>
    exfalso
    have hq : squareRoot e 2 (flipM K) V0 S0 = some (o, some R) := hr
    rw [squareRoot, h1] at hr
    obtain ⟨D, hD, -⟩ := Option.map_eq_some_iff.mp (Prod.mk.inj (Option.some.inj hr)).2
    obtain ⟨d1, -⟩ := sqrtLoop_some 2 0 o.S D hD
    have hz := sub_eq_zero.mp (SVDec.fro_eq_zero n.prod)
    have p := (posSemi_diag (matOf 2 2 o.U) (fun i : Fin 2 => o.S i) fun i => (d1 i (by omega) (by omega)).1).2 ![1, -1]
    have hz' : matOf 2 2 o.U * diagonal (fun i : Fin 2 => ((o.S i : ℝ) : K)) * (matOf 2 2 o.U)ᴴ = matOf 2 2 (symFull true (flipM K)) := hz
    rw [hz'] at p
    simp [qform, matOf, symFull, flipM, mulVec, dotProduct, cj, Fin.sum_univ_two] at p
    linarith

end TMV.SymSV
