import Verif.Props.EigMain
import Verif.Props.SVEx

/-! Runs of the tridiagonal eigenvalue iteration, and the third test for negligible elements. -/
namespace TMV.EigQR
open Matrix
open SVQR (mr mr_congr upd upd_same upd_ne norm_le_fro underflow maxAbsEl maxAbsEl_spec fro_smul perm_fin scan)
variable {K : Type} [RCLike K]
variable {c : Cfg} {N : Nat}

/-- `D = (d0, d1)`, `E = (e)`, `U = 1`. -/
def stEx (K : Type) [RCLike K] (d0 d1 e : ℝ) : St K :=
  ⟨fun i j => if i = j then 1 else 0, fun i => if i = 0 then d0 else if i = 1 then d1 else 0, fun i => if i = 0 then e else 0, 0, 0⟩

theorem stEx_scale (d0 d1 e : ℝ) : max (maxAbsEl 2 (stEx K d0 d1 e).D) (maxAbsEl 1 (stEx K d0 d1 e).E) = max (max |d0| |d1|) |e| :=
  SVQR.stEx_scale (K := K) d0 d1 e 0

theorem stEx_U (d0 d1 e : ℝ) : matOf 2 2 (stEx K d0 d1 e).U = 1 := by
  ext i j
  simp only [matOf, stEx, of_apply, one_apply, Fin.ext_iff]

theorem chopD_id {i : Nat} {s : St K} (h : s.D i = 0 ∨ ¬ underflow c.tiny (s.D i)) : chopD c i s = s := by
  rw [chopD]
  by_cases hu : underflow c.tiny (s.D i)
  · rw [if_pos hu]
    rcases h with h | h
    · have : upd s.D i 0 = s.D := by ext k; rw [upd]; split_ifs with e <;> simp [e, h]
      simp only [this, h, if_true, add_zero]
    · exact absurd hu h
  · rw [if_neg hu]

theorem chop_two (s : St K) : chop c 0 1 s = chopE3 c 0 (chopE c 0 (chopD c 1 (chopD c 0 s))) := rfl

/-- A run: `[[0,1],[1,0]]` is reduced by one rotation. -/
theorem run_flip_any (hc : CfgOk c 2) (hdcl : 2 ≤ c.dcl) (ht : c.tiny ≤ 1) (dc : Nat → Nat → St K → Option (St K)) (srt : List (ℝ × Nat) → List (ℝ × Nat))
    (f : Nat) (hf : 3 ≤ f) (s : St K) (z0 : s.D 0 = 0) (z1 : s.D 1 = 0) (ze : s.E 0 = 1) (zc : s.cnt = 0) (zc3 : s.cnt3 = 0) :
    ∃ s', fromTridiag c dc srt f 2 s = some s' ∧ s'.cnt = 0 ∧ s'.cnt3 = 0 := by
  have ht0 := hc.t0
  obtain ⟨f, rfl⟩ : ∃ g, f = g + 3 := ⟨f - 3, by omega⟩
  rw [fromTridiag, if_neg (by norm_num)]
  have hsc : max (maxAbsEl 2 s.D) (maxAbsEl (2-1) s.E) = 1 := by
    apply le_antisymm
    · apply max_le
      · rcases (maxAbsEl_spec 2 s.D).2.2 with u | ⟨k, k1, k2⟩
        · rw [u]; norm_num
        · rw [← k2]
          obtain rfl | rfl : k = 0 ∨ k = 1 := by omega
          · rw [z0]; norm_num
          · rw [z1]; norm_num
      · rcases (maxAbsEl_spec (2-1) s.E).2.2 with u | ⟨k, k1, k2⟩
        · rw [u]; norm_num
        · obtain rfl : k = 0 := by omega
          rw [← k2, ze]; norm_num
    · have := (maxAbsEl_spec (2-1) s.E).2.1 0 (by norm_num)
      rw [ze, abs_one] at this
      exact le_max_of_le_right this
  simp only
  rw [if_neg (by rw [hsc, underflow, abs_one]; exact not_lt.mpr ht)]
  rw [hsc]
  have hus : unscale 2 1 s = s := by simp [unscale]
  rw [hus]
  have hch : chop c 0 1 s = s := by
    rw [chop_two, chopD_id (i := 0) (Or.inl z0), chopD_id (i := 1) (Or.inl z1), chopE, if_neg (by
      rintro (u | u)
      · exact u (by simp [z0, z1, ze])
      · rw [underflow, ze, abs_one] at u; linarith), chopE3, if_neg (by
      rintro ⟨u, -⟩
      simp [z0, z1, ze] at u
      linarith)]
  rw [dec, show 2 - 1 = 1 from rfl, hch, doLoop, if_pos (by norm_num), if_neg (by simp [ze])]
  simp only [show 1 - 1 = 0 from rfl, scan, nz, Nat.sub_zero, zero_add, if_pos (show 1 + 1 ≤ c.dcl from hdcl), gt_iff_lt, zero_lt_one, if_true]
  rw [qrLoop, if_pos (by norm_num), if_neg (by simp [ze])]
  simp only [show 1 - 1 = 0 from rfl, scan]
  obtain ⟨s1, e1⟩ : ∃ s1, s1 = reduce c 0 1 s := ⟨_, rfl⟩
  have hE : s1.E 0 = 0 ∧ s1.cnt = 0 ∧ s1.cnt3 = 0 ∧ ¬ underflow c.tiny (s1.D 0) ∧ ¬ underflow c.tiny (s1.D 1) := by
    have hmu : s.D 0 - trailing 1 s.D s.E = -1 := by
      simp [trailing, z0, z1, ze]
    obtain ⟨r1, r2, r3, r4⟩ := rotate_spec (c := c) hc.ge (-1) 1
    rw [e1, reduce, if_neg (by norm_num)]
    simp only [Nat.sub_zero, up, redStep, zero_add, if_true]
    rw [hmu, ze]
    generalize rotate c (-1) 1 = r at *
    have h1 := r2.one
    have hs : r.2.2.c = - r.2.2.s := by linarith
    have h2 : r.2.2.s * r.2.2.s = 1/2 := by rw [hs] at h1; nlinarith
    simp only [rotU_E, rotU_D, givensSymMult, star_trivial, RCLike.ofReal_real_eq_id, id]
    have c1 : ∀ (s : St K), (rotU c r.2.2 0 1 s).cnt = s.cnt := fun s => by rw [rotU]; split_ifs <;> rfl
    have c3 : ∀ (s : St K), (rotU c r.2.2 0 1 s).cnt3 = s.cnt3 := fun s => by rw [rotU]; split_ifs <;> rfl
    simp only [c1, c3, upd, hs, underflow, z0, z1, ze, zc, zc3]
    norm_num
    have h3 : |r.2.2.s| * |r.2.2.s| = 1/2 := by rw [abs_mul_abs_self, h2]
    rw [mul_assoc, h3]
    refine ⟨by linarith, by linarith⟩
  rw [← e1]
  obtain ⟨hE0, hc0, hc3, hd0, hd1⟩ := hE
  obtain ⟨s2, e2⟩ : ∃ s2, s2 = chop c 0 1 s1 := ⟨_, rfl⟩
  have hk : s2.E 0 = 0 ∧ s2.cnt = 0 ∧ s2.cnt3 = 0 := by
    rw [e2, chop_two, chopD_id (i := 0) (Or.inr hd0), chopD_id (i := 1) (Or.inr hd1), chopE]
    have hu : ¬ (|s1.E 0| > c.eps * (|s1.D (0+1)| + |s1.D 0|)) ∨ underflow c.tiny (s1.E 0) := by
      right; rw [hE0, underflow]; simpa using ht0
    rw [if_pos hu, chopE3]
    by_cases hv : |(upd s1.E 0 0) 0| < Real.sqrt c.eps * (|s1.D (0+1)| + |s1.D 0|) ∧
      (s1.D (0+1) + s1.D 0 ≠ 0 ∧ underflow c.tiny ((upd s1.E 0 0) 0 * ((s1.D (0+1) - s1.D 0) / (s1.D (0+1) + s1.D 0))))
    · rw [if_pos hv]; simp [upd, hE0, hc0, hc3]
    · rw [if_neg hv]; simp [upd, hE0, hc0, hc3]
  rw [← e2, qrLoop, if_pos (by norm_num), if_pos hk.1, qrLoop, if_neg (by norm_num)]
  simp only [Option.bind_some]
  rw [doLoop, if_neg (by norm_num)]
  exact ⟨_, rfl, hk.2⟩

theorem run_flip (hc : CfgOk c 2) (hdcl : 2 ≤ c.dcl) (ht : c.tiny ≤ 1) (dc : Nat → Nat → St K → Option (St K)) (srt : List (ℝ × Nat) → List (ℝ × Nat)) :
    ∃ s', fromTridiag c dc srt 3 2 (stEx K 0 0 1) = some s' ∧ s'.cnt = 0 ∧ s'.cnt3 = 0 :=
  run_flip_any hc hdcl ht dc srt 3 le_rfl _ rfl rfl rfl rfl rfl

/-- The eigenvalues of the run are exact. -/
theorem run_flip_exact (hc : CfgOk c 2) (hdcl : 2 ≤ c.dcl) (ht : c.tiny ≤ 1) (hhU : c.hU = true) (dc : Nat → Nat → St K → Option (St K)) {srt : List (ℝ × Nat) → List (ℝ × Nat)}
    (hsrt : StdSortContract (fun a b => decide (a.1 < b.1)) srt) :
    ∃ s', fromTridiag c dc srt 3 2 (stEx K 0 0 1) = some s' ∧ NearEig (tridiag 2 (stEx K 0 0 1).D (stEx K 0 0 1).E : Matrix (Fin 2) (Fin 2) K) 0 (matOf 2 2 s'.U) s'.D := by
  obtain ⟨s', h1, h2, h3⟩ := run_flip (K := K) hc hdcl ht dc srt
  refine ⟨s', h1, ?_⟩
  have := fromTridiag_small_partial hc hhU hdcl hsrt (s := stEx K 0 0 1) rfl rfl (by rw [stEx_U]; simp) h1
  rw [stEx_U, h2, h3] at this
  simpa using this

/-- The claim with an error of the order of `eps` for all dropped elements is false: for every `eps` below `1/4` the eigenvalues of `[[1, √eps], [√eps, 1]]`,
which are `1 ± √eps`, are given as 1 and 1.  `HermTridiagonalChopSmallElements` drops `E(i)` if it is below `√eps (|D(i)| + |D(i+1)|)` and
`E(i) (D(i+1)-D(i))/(D(i+1)+D(i))` underflows, and this is 0 when the two diagonal elements are equal (TMV_SymSVDecompose_QR.cpp:89-92). -/
theorem third_test_violated (hc : CfgOk c 2) (he0 : 0 < c.eps) (he : c.eps < 1/4) (ht : c.tiny ≤ Real.sqrt c.eps) (dc : Nat → Nat → St K → Option (St K))
    {srt : List (ℝ × Nat) → List (ℝ × Nat)} (hsrt : StdSortContract (fun a b => decide (a.1 < b.1)) srt) :
    ∃ s', fromTridiag c dc srt 2 2 (stEx K 1 1 (Real.sqrt c.eps)) = some s' ∧ s'.D 0 = 1 ∧ s'.D 1 = 1 ∧
      ∀ U δ, NearEig (tridiag 2 (stEx K 1 1 (Real.sqrt c.eps)).D (stEx K 1 1 (Real.sqrt c.eps)).E : Matrix (Fin 2) (Fin 2) K) δ U s'.D → Real.sqrt c.eps ≤ δ := by
  have ht0 := hc.t0
  set r := Real.sqrt c.eps with hr
  have hr0 : 0 < r := Real.sqrt_pos.mpr he0
  have hrr : r * r = c.eps := Real.mul_self_sqrt he0.le
  have hr1 : r < 1/2 := by nlinarith
  rw [fromTridiag, if_neg (by norm_num)]
  have hsc : max (maxAbsEl 2 (stEx K 1 1 r).D) (maxAbsEl (2-1) (stEx K 1 1 r).E) = 1 := by
    rw [show 2 - 1 = 1 from rfl, stEx_scale, abs_one, max_self, abs_of_pos hr0, max_eq_left (by linarith)]
  simp only
  rw [if_neg (by rw [hsc, underflow, abs_one]; exact not_lt.mpr (by linarith))]
  rw [hsc]
  have hus : unscale 2 1 (stEx K 1 1 r) = stEx K 1 1 r := by simp [unscale]
  rw [hus]
  have hu1 : ¬ underflow c.tiny (1:ℝ) := by rw [underflow]; norm_num; linarith
  obtain ⟨s1, e1⟩ : ∃ s1, s1 = chop c 0 1 (stEx K 1 1 r) := ⟨_, rfl⟩
  have hk : s1.E 0 = 0 ∧ s1.D = (stEx K 1 1 r).D := by
    rw [e1, chop_two, chopD_id (i := 0) (Or.inr hu1), chopD_id (i := 1) (Or.inr hu1), chopE, if_neg (by
      rintro (u | u)
      · refine u ?_
        simp only [stEx, if_true, zero_add, one_ne_zero, if_false, abs_one, abs_of_pos hr0]
        nlinarith
      · have : |r| < c.tiny := u
        rw [abs_of_pos hr0] at this; linarith), chopE3, if_pos (by
      refine ⟨?_, ?_, ?_⟩
      · simp only [stEx, if_true, zero_add, one_ne_zero, if_false, abs_one, abs_of_pos hr0, ← hr]
        linarith
      · simp [stEx]
      · simp [stEx, underflow]; exact ht0)]
    exact ⟨by simp [upd], rfl⟩
  rw [dec, show 2 - 1 = 1 from rfl, ← e1, doLoop, if_pos (by norm_num), if_pos hk.1, doLoop, if_neg (by norm_num)]
  obtain ⟨q1, -⟩ := sortPerm_spec hsrt 2 fun i => -|s1.D i|
  have hlt : ∀ k, k < 2 → swapProd (sortPerm srt 2 fun i => -|s1.D i|) 2 0 k < 2 :=
    fun k hk => TMV.swapProd_lt _ 2 0 2 (by omega) (fun k _ h => (q1 k (by omega)).2) k hk
  have hone : ∀ k, k < 2 → s1.D k = 1 := by
    intro k hk'
    rw [hk.2]
    obtain rfl | rfl : k = 0 ∨ k = 1 := by omega
    · rfl
    · rfl
  obtain ⟨s', e'⟩ : ∃ s', s' = scaleD 2 1 (sortDU c srt 2 (fun x => -|x|) s1) := ⟨_, rfl⟩
  have hD : ∀ k, k < 2 → s'.D k = 1 := by
    intro k hk'
    rw [e']
    simp only [scaleD, sortDU, if_pos hk']
    rw [LU.permuteRows_eq _ _ _ _ _ _ _ (by omega), hone _ (hlt k hk'), mul_one]
  refine ⟨s', by rw [e']; rfl, hD 0 (by omega), hD 1 (by omega), fun U δ hn => ?_⟩
  have hdi : (diagonal fun i : Fin 2 => ((s'.D i : ℝ) : K)) = 1 := by
    rw [← Matrix.diagonal_one]; congr 1; ext i; rw [hD i i.2]; simp
  have h1 := hn.prod
  have huu : U * Uᴴ = 1 := mul_eq_one_comm.mp hn.uu
  rw [hdi, mul_one, huu] at h1
  refine le_trans ?_ h1
  have := norm_le_fro (1 - (tridiag 2 (stEx K 1 1 r).D (stEx K 1 1 r).E : Matrix (Fin 2) (Fin 2) K)) 0 1
  refine le_trans (le_of_eq ?_) this
  simp [tridiag, stEx, one_apply]
  exact (abs_of_pos hr0).symm

/-- Parameters of the examples, and that they meet the hypotheses. -/
theorem third_test_case : CfgOk (⟨true, 2, 1/100, 0, 1/10000, 32⟩ : Cfg) 2 ∧ (1:ℝ)/10000 ≤ Real.sqrt (1/100) := by
  refine ⟨⟨rfl, fun _ => rfl, show (0:ℝ) ≤ 1/100 by norm_num, show (0:ℝ) < 1/10000 by norm_num⟩, ?_⟩
  rw [Real.le_sqrt' (by norm_num)]; norm_num

/-- So there is no constant with which the error is that many times `eps` times the norm of the matrix. -/
theorem eps_accuracy_violated (k : ℝ) {srt : List (ℝ × Nat) → List (ℝ × Nat)} (hsrt : StdSortContract (fun a b => decide (a.1 < b.1)) srt)
    (dc : Nat → Nat → St K → Option (St K)) :
    ∃ (c : Cfg) (s s' : St K), CfgOk c 2 ∧ 2 ≤ c.dcl ∧ c.tiny ≤ c.eps ∧ s.cnt = 0 ∧ s.cnt3 = 0 ∧ matOf 2 2 s.U = 1 ∧ fromTridiag c dc srt 2 2 s = some s' ∧
      ∀ U, ¬ NearEig (tridiag 2 s.D s.E : Matrix (Fin 2) (Fin 2) K) (k * c.eps * fro (tridiag 2 s.D s.E : Matrix (Fin 2) (Fin 2) K)) U s'.D := by
  set e : ℝ := min (1/8) (1/(2*|k|+2)) with he
  have hk0 : 0 ≤ |k| := abs_nonneg k
  have h0 : 0 < e := by rw [he]; exact lt_min (by norm_num) (by positivity)
  have h8 : e ≤ 1/8 := min_le_left _ _
  have hke : |k| * e < 1/2 := by
    have : e ≤ 1/(2*|k|+2) := min_le_right _ _
    rw [le_div_iff₀ (by positivity)] at this
    nlinarith
  let c : Cfg := ⟨true, 2, e^2, 0, e^2, 32⟩
  have hse : Real.sqrt c.eps = e := Real.sqrt_sq h0.le
  have hc : CfgOk c 2 := ⟨rfl, fun _ => rfl, by positivity, by simp only [c]; positivity⟩
  obtain ⟨s', a1, -, -, a2⟩ := third_test_violated (K := K) hc (show 0 < e^2 by positivity) (show e^2 < 1/4 by nlinarith) (by rw [hse]; show e^2 ≤ e; nlinarith) dc hsrt
  refine ⟨c, _, s', hc, by norm_num [c], le_rfl, rfl, rfl, stEx_U _ _ _, a1, fun U hn => ?_⟩
  have h1 := a2 U _ hn
  rw [hse] at h1
  have hf : fro (tridiag 2 (stEx K 1 1 e).D (stEx K 1 1 e).E : Matrix (Fin 2) (Fin 2) K) ≤ 2 := by
    rw [fro]
    refine Real.sqrt_le_iff.mpr ⟨by norm_num, ?_⟩
    simp [Fin.sum_univ_two, tridiag, stEx]
    nlinarith
  have hf0 : 0 ≤ fro (tridiag 2 (stEx K 1 1 e).D (stEx K 1 1 e).E : Matrix (Fin 2) (Fin 2) K) := Real.sqrt_nonneg _
  have h2 : k * c.eps * fro (tridiag 2 (stEx K 1 1 e).D (stEx K 1 1 e).E : Matrix (Fin 2) (Fin 2) K) ≤ |k| * e^2 * 2 := by
    have : k * c.eps ≤ |k| * e^2 := mul_le_mul_of_nonneg_right (le_abs_self k) (by positivity)
    calc k * c.eps * fro (tridiag 2 (stEx K 1 1 e).D (stEx K 1 1 e).E : Matrix (Fin 2) (Fin 2) K)
        ≤ |k| * e^2 * fro (tridiag 2 (stEx K 1 1 e).D (stEx K 1 1 e).E : Matrix (Fin 2) (Fin 2) K) := mul_le_mul_of_nonneg_right this hf0
      _ ≤ _ := mul_le_mul_of_nonneg_left hf (by positivity)
  nlinarith

end TMV.EigQR
