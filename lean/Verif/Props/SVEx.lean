import Verif.Props.SVMain

/-! Runs of the bidiagonal SVD, and what it does outside of its arguments. -/
namespace TMV.SVQR
open Matrix
variable {K : Type} [RCLike K]
variable {c : Cfg} {M N : Nat}

/-- **C104**  Behind the vectors `D` and `E` at most the first number behind `E` changes. -/
theorem fromBidiag_behind_partial (hc : CfgOk c M N) {dc : Nat → Nat → St K → Option (St K)} (hdc : DCOk K c M N dc)
    {srt : List (ℝ × Nat) → List (ℝ × Nat)} {f : Nat} {s s' : St K} (h0 : s.cnt = 0)
    {U0 : Matrix (Fin M) (Fin N) K} {V0 : Matrix (Fin N) (Fin N) K} (hU : U0ᴴ * U0 = 1) (hV : V0 * V0ᴴ = 1)
    (hsU : c.hU = true → matOf M N s.U = U0) (hsV : c.hV = true → matOf N N s.V = V0)
    (h : fromBidiag c dc srt f N false s = some s') (i : Nat) (hi : N ≤ i) : s'.D i = s.D i ∧ s'.E i = s.E i := by
  rw [fromBidiag] at h
  simp only [cond_false] at h
  split_ifs at h with hN hund
  · cases h
    have e1 : ∀ k, (up (zeroE (K := K)) k 0 (up zeroD N 0 s)).D = (up zeroD N 0 s).D ∧ ∀ i, k ≤ i → (up (zeroE (K := K)) k 0 (up zeroD N 0 s)).E i = (up zeroD N 0 s).E i := by
      intro k
      have := Bidiag.up_succ (zeroE (K := K)) (fun j x => x.D = (up zeroD N 0 s).D ∧ ∀ i, j ≤ i → x.E i = (up zeroD N 0 s).E i) k 0 (up zeroD N 0 s) ⟨rfl, fun _ _ => rfl⟩
        (by
          rintro j x _ _ ⟨a1, a2⟩
          refine ⟨a1, fun i hi => ?_⟩
          simp only [SVQR.zeroE]
          rw [upd_ne _ (by omega)]; exact a2 i (by omega))
      simpa using this
    have e2 : ∀ k, (up (zeroD (K := K)) k 0 s).E = s.E ∧ ∀ i, k ≤ i → (up (zeroD (K := K)) k 0 s).D i = s.D i := by
      intro k
      have := Bidiag.up_succ (zeroD (K := K)) (fun j x => x.E = s.E ∧ ∀ i, j ≤ i → x.D i = s.D i) k 0 s ⟨rfl, fun _ _ => rfl⟩
        (by
          rintro j x _ _ ⟨a1, a2⟩
          refine ⟨a1, fun i hi => ?_⟩
          simp only [SVQR.zeroD]
          rw [upd_ne _ (by omega)]; exact a2 i (by omega))
      simpa using this
    exact ⟨by rw [(e1 _).1, (e2 N).2 i hi], by rw [(e1 (N-1)).2 i (by omega), (e2 N).1]⟩
  · obtain ⟨s1, g1, rfl⟩ := Option.map_eq_some_iff.mp h
    set sc := max (maxAbsEl N s.D) (maxAbsEl (N-1) s.E) with hsc
    set sS : St K := unscale N sc s with hsS
    set A' : Matrix (Fin M) (Fin N) K := U0 * mr N (bR sS.D sS.E) * V0 with hA'
    set τ := max (2 * c.eps * fro A') (Real.sqrt c.tiny) with hτd
    have hτ : Tau c τ (fro A') := ⟨hc.ep, hc.t0, hc.t1, le_max_left _ _, le_max_right _ _⟩
    have i0 : BInv c M N A' τ (fro A') sS := by
      refine ⟨?_, U0, V0, 0, hU, hV, by rw [fro_zero, show sS.cnt = 0 from h0]; simp, by rw [add_zero, hA'], hsU, hsV⟩
      rw [hA', fro_iso' hV, fro_iso hU]
    have dn := dec_spec hc.ge hc.mU hc.mV hτ (hdc A' τ _ hτ) f 0 (N-1) sS s1 (by omega) (by omega) i0 (fun u => by omega) (fun u => by omega) g1
    obtain ⟨-, p2, p3⟩ := posLoop_spec hc.mV (p := 0) (q := N-1) dn.inv (fun u => by omega) (fun i _ hi => dn.z i (by omega) hi) N (by omega)
    constructor
    · rw [finish]
      simp only [if_neg (show ¬ i < N by omega)]
      rw [p3, if_neg (by omega), dn.fr.d i (by omega), hsS, unscale]
      simp only [if_neg (show ¬ i < N by omega)]
    · rw [finish]
      simp only
      rw [p2, dn.fr.e i (by omega), hsS, unscale]
      simp only [if_neg (show ¬ i < N - 1 by omega)]
  · cases h; exact ⟨rfl, rfl⟩

/-- `eps`, the smallest number and `DC_LIMIT` of the examples. -/
noncomputable def cfgEx (hU hV : Bool) : Cfg := ⟨hU, hV, 2, 2, 1/100, 0, 1/10000, 32⟩

theorem cfgEx_ok (hU hV : Bool) : CfgOk (cfgEx hU hV) 2 2 := ⟨rfl, fun _ => rfl, fun _ => rfl, by norm_num [cfgEx], by norm_num [cfgEx], by norm_num [cfgEx]⟩

/-- `D = (d0, d1)`, `E = (e)`, with `g` behind `E`. -/
def stEx (K : Type) [RCLike K] (d0 d1 e g : ℝ) : St K :=
  ⟨fun i j => if i = j then 1 else 0, fun i => if i = 0 then d0 else if i = 1 then d1 else 0, fun i => if i = 0 then e else if i = 1 then g else 0,
    fun i j => if i = j then 1 else 0, 0⟩

theorem stEx_scale (d0 d1 e g : ℝ) : max (maxAbsEl 2 (stEx K d0 d1 e g).D) (maxAbsEl 1 (stEx K d0 d1 e g).E) = max (max |d0| |d1|) |e| := by
  have h1 : maxAbsEl 2 (stEx K d0 d1 e g).D = max |d0| |d1| := by
    obtain ⟨a, b, c⟩ := maxAbsEl_spec 2 (stEx K d0 d1 e g).D
    have b0 := b 0 (by omega); have b1 := b 1 (by omega)
    simp only [stEx, if_true, one_ne_zero, if_false] at b0 b1
    refine le_antisymm ?_ (max_le b0 b1)
    rcases c with c | ⟨k, hk, c⟩
    · rw [c]; exact le_max_of_le_left (abs_nonneg _)
    · rw [← c]
      obtain rfl | rfl : k = 0 ∨ k = 1 := by omega
      · simp [stEx]
      · simp [stEx]
  have h2 : maxAbsEl 1 (stEx K d0 d1 e g).E = |e| := by
    obtain ⟨a, b, c⟩ := maxAbsEl_spec 1 (stEx K d0 d1 e g).E
    have b0 := b 0 (by omega)
    simp only [stEx, if_true] at b0
    refine le_antisymm ?_ b0
    rcases c with c | ⟨k, hk, c⟩
    · rw [c]; exact abs_nonneg _
    · rw [← c]
      obtain rfl : k = 0 := by omega
      simp [stEx]
  rw [h1, h2]

theorem chopD_id {i : Nat} {x : St K × Bool} (h : x.1.D i = 0 ∨ ¬ underflow c.tiny (x.1.D i ^ 2)) : (chopD c i x).1 = x.1 := by
  rw [chopD]
  split_ifs with hu
  · rcases h with h | h
    · have : upd x.1.D i 0 = x.1.D := by ext k; rw [upd]; split_ifs with e <;> simp [e, h]
      simp only [SVQR.zeroD, this, h, if_true, add_zero]
    · exact absurd hu h
  · rfl

theorem chop2_id {s : St K} (h0 : s.D 0 = 0 ∨ ¬ underflow c.tiny (s.D 0 ^ 2)) (h1 : s.D 1 = 0 ∨ ¬ underflow c.tiny (s.D 1 ^ 2))
    (hE : |s.E 0| > c.eps * (|s.D 1| + |s.D 0|) ∧ ¬ underflow c.tiny (s.E 0)) (hp0 : s.D 0 = 0 ∨ ¬ underflow c.tiny (s.D 0 * s.E 0))
    (hp1 : s.D 1 = 0 ∨ ¬ underflow c.tiny (s.D 1 * s.E 0)) : (chop c 0 1 s).1 = s := by
  have e : (chop c 0 1 s).1 = chopP c 0 0 (chopP c 0 1 (chopE c 0 (chopD c 1 (chopD c 0 (s, false))).1)) := rfl
  have a : (chopD c 0 (s, false)).1 = s := chopD_id h0
  have b : (chopD c 1 (chopD c 0 (s, false))).1 = s := (chopD_id (by rw [a]; exact h1)).trans a
  rw [e, b, chopE, if_neg (by rintro (u | u); exacts [u hE.1, hE.2 u])]
  rw [show chopP c 0 1 s = s from if_neg (by rintro ⟨u1, u2, -⟩; rcases hp1 with u | u; exacts [u2 u, u u1])]
  exact if_neg (by rintro ⟨u1, u2, -⟩; rcases hp0 with u | u; exacts [u2 u, u u1])

/-- A run: `[[3/4, 1], [0, 0]]` is reduced by one rotation of the columns. -/
theorem run_lastCol (hU hV : Bool) (dc : Nat → Nat → St K → Option (St K)) (srt : List (ℝ × Nat) → List (ℝ × Nat)) :
    ∃ s', fromBidiag (cfgEx hU hV) dc srt 2 2 false (stEx K (3/4) 0 1 0) = some s' ∧ s'.cnt = 0 := by
  rw [fromBidiag, if_pos (by norm_num)]
  simp only [cond_false]
  have hsc : max (maxAbsEl 2 (stEx K (3/4) 0 1 0).D) (maxAbsEl (2-1) (stEx K (3/4) 0 1 0).E) = 1 := by
    rw [show 2 - 1 = 1 from rfl, stEx_scale]; norm_num
  rw [if_neg (by rw [hsc]; norm_num [underflow, cfgEx]), hsc]
  have hus : unscale 2 1 (stEx K (3/4) 0 1 0) = stEx K (3/4) 0 1 0 := by simp [unscale]
  rw [hus]
  have hch : ∃ s1 : St K, (chop (cfgEx hU hV) 0 1 (stEx K (3/4) 0 1 0)).1 = s1 ∧ s1.cnt = 0 ∧ s1.D 1 = 0 ∧ s1.E 0 = 1 := by
    refine ⟨_, chop2_id ?_ ?_ ?_ ?_ ?_, ?_⟩
    all_goals simp only [stEx, cfgEx, underflow]; norm_num
  obtain ⟨s1, h1, h2, h3, h4⟩ := hch
  rw [dec, show 2 - 1 = 1 from rfl, h1, doLoop, if_pos (by norm_num), if_neg (by rw [show 1 - 1 = 0 from rfl, h4]; norm_num), if_pos h3]
  simp only
  obtain ⟨s2, e2⟩ : ∃ s2, s2 = zeroLastCol (cfgEx hU hV) (scan (fun p => ¬ s1.E (p-1) = 0) 0 (1-1)) 1 s1 := ⟨_, rfl⟩
  have hcnt : s2.cnt = 0 := by
    rw [e2, scan, zeroLastCol]
    have rv : ∀ g i k (s : St K), (rotV (cfgEx hU hV) g i k s).cnt = s.cnt := fun g i k s => by rw [rotV]; split_ifs <;> rfl
    split_ifs
    · simp only [zlcLoop, Nat.sub_zero, rv, gt_iff_lt, lt_self_iff_false, if_false]; exact h2
    · exact h2
  rw [← e2, doLoop, if_neg (by norm_num)]
  refine ⟨_, rfl, ?_⟩
  have pc : ∀ i (s : St K), (posStep (cfgEx hU hV) i s).cnt = s.cnt := fun i s => by rw [posStep]; split_ifs <;> rfl
  simp only [finish, up, pc]
  exact hcnt

/-- **C104** is false: the number behind `E` changes.  `D = (0,1)`, `E = (1)`: the number 1 behind `E` becomes `1/√2`
(`BidiagonalZeroFirstRow`, TMV_SVDecompose_QR.cpp:150-163: the test `i<N` always holds). -/
theorem behind_E_violated (hU hV : Bool) (dc : Nat → Nat → St K → Option (St K)) (srt : List (ℝ × Nat) → List (ℝ × Nat)) :
    ∃ s', fromBidiag (cfgEx hU hV) dc srt 3 2 false (stEx K 0 1 1 1) = some s' ∧ s'.E 1 ≠ (stEx K 0 1 1 1).E 1 := by
  rw [fromBidiag, if_pos (by norm_num)]
  simp only [cond_false]
  have hsc : max (maxAbsEl 2 (stEx K 0 1 1 1).D) (maxAbsEl (2-1) (stEx K 0 1 1 1).E) = 1 := by
    rw [show 2 - 1 = 1 from rfl, stEx_scale]; norm_num
  rw [if_neg (by rw [hsc]; norm_num [underflow, cfgEx]), hsc]
  have hus : unscale 2 1 (stEx K 0 1 1 1) = stEx K 0 1 1 1 := by simp [unscale]
  rw [hus]
  have hch : ∃ s1 : St K, (chop (cfgEx hU hV) 0 1 (stEx K 0 1 1 1)).1 = s1 ∧ s1.D 0 = 0 ∧ s1.D 1 = 1 ∧ s1.E 0 = 1 ∧ s1.E 1 = 1 := by
    refine ⟨_, chop2_id ?_ ?_ ?_ ?_ ?_, ?_⟩
    all_goals simp only [stEx, cfgEx, underflow]; norm_num
  obtain ⟨s1, h1, h2, h3, h4, h5⟩ := hch
  rw [dec, show 2 - 1 = 1 from rfl, h1, doLoop, if_pos (by norm_num), if_neg (by rw [show 1 - 1 = 0 from rfl, h4]; norm_num), if_neg (by rw [h3]; norm_num)]
  simp only [show 1 - 1 = 0 from rfl, scan]
  rw [if_pos h2]
  simp only [zero_add, gt_iff_lt, lt_self_iff_false, if_false]
  obtain ⟨s2, e2⟩ : ∃ s2, s2 = zeroFirstRow (cfgEx hU hV) 0 1 s1 := ⟨_, rfl⟩
  obtain ⟨k1, k2⟩ : s2.E 0 = 0 ∧ s2.E 1 ≠ 1 := by
    obtain ⟨r1, r2, r3, r4⟩ := rotate_spec (c := cfgEx hU hV) rfl 1 1
    rw [e2, zeroFirstRow, h4, if_pos (by norm_num)]
    simp only [up, zfrStep, h3, Givens.mult, givensMult, star_trivial, RCLike.ofReal_real_eq_id, id, rotU_E, Nat.sub_zero, zero_add]
    generalize rotate (cfgEx hU hV) 1 1 = r at *
    rw [r1]
    simp only [upd, one_ne_zero, zero_ne_one, if_true, if_false, h5, true_and]
    have h := r2.one
    intro hbad
    rw [mul_one, mul_zero, add_zero] at hbad
    rw [hbad] at h r4
    have : r.2.2.s = 1 := by linarith
    rw [this] at h
    norm_num at h
  rw [← e2, doLoop, if_pos (by norm_num), if_pos k1, doLoop, if_neg (by norm_num)]
  refine ⟨_, rfl, ?_⟩
  have pc : ∀ i (s : St K), (posStep (cfgEx hU hV) i s).E = s.E := fun i s => by rw [posStep]; split_ifs <;> rfl
  simp only [finish, up, pc]
  simpa [stEx] using k2

end TMV.SVQR
