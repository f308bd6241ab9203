import Verif.Props.SVSweep

/-! The 2 × 2 bidiagonal matrix. -/
namespace TMV.SVQR

/-- `c2`, `s2` of the first branch, and the equation that makes the upper right element vanish. -/
theorem big_core {d0 d1 e d t z w s2 c2 : ℝ} (hd : 2 * d = d1 ^ 2 - d0 ^ 2 + e ^ 2) (ht : t * d = d0 * e) (hz : z ^ 2 = 1 + t ^ 2) (hw0 : 0 < w)
    (hs : s2 * w = t) (hc : c2 * w = z + 1) :
    s2 * d0 * (s2 * e - c2 * d0) + c2 * (e * (s2 * e - c2 * d0) + s2 * d1 * d1) = 0 := by
  have hw : w ^ 2 ≠ 0 := by positivity
  refine mul_left_cancel₀ hw ?_
  rw [mul_zero]
  have e1 : w ^ 2 * (s2 * d0 * (s2 * e - c2 * d0) + c2 * (e * (s2 * e - c2 * d0) + s2 * d1 * d1)) =
    t * d0 * (t * e - (z+1) * d0) + (z+1) * (e * (t * e - (z+1) * d0) + t * d1 * d1) := by rw [← hs, ← hc]; ring
  rw [e1]
  linear_combination (-(z+1) * t) * hd + 2 * (z+1) * ht - d0 * e * hz

theorem big_s2c2 {t z s2 c2 : ℝ} (hz0 : 0 < z) (hz : z ^ 2 = 1 + t ^ 2) (hs : s2 = t / Real.sqrt (2*z*(z+1))) (hc : c2 = Real.sqrt (1 - s2*s2)) :
    0 < Real.sqrt (2*z*(z+1)) ∧ s2 * Real.sqrt (2*z*(z+1)) = t ∧ c2 * Real.sqrt (2*z*(z+1)) = z + 1 ∧ c2 ^ 2 + s2 ^ 2 = 1 ∧ 0 < c2 := by
  have hw2 : Real.sqrt (2*z*(z+1)) ^ 2 = 2*z*(z+1) := Real.sq_sqrt (by positivity)
  have hw0 : 0 < Real.sqrt (2*z*(z+1)) := Real.sqrt_pos.mpr (by positivity)
  generalize Real.sqrt (2*z*(z+1)) = w at *
  have hsw : s2 * w = t := by rw [hs]; field_simp
  have h1 : (1 - s2*s2) * (2*z) = z + 1 := by
    refine mul_right_cancel₀ (b := z+1) (by positivity) ?_
    have : (1 - s2*s2) * (2*z) * (z+1) = w^2 - (s2*w)^2 := by
      linear_combination (-(1 - s2*s2)) * hw2
    rw [this, hw2, hsw]; linear_combination hz
  have h2 : 0 < 1 - s2*s2 := by
    have : 0 < (1 - s2*s2) * (2*z) := by rw [h1]; positivity
    exact pos_of_mul_pos_left this (by positivity)
  have hc2 : c2 ^ 2 = 1 - s2*s2 := by rw [hc]; exact Real.sq_sqrt h2.le
  have hc0 : 0 < c2 := by rw [hc]; exact Real.sqrt_pos.mpr h2
  refine ⟨hw0, hsw, ?_, by rw [hc2]; ring, hc0⟩
  have hsq : (c2 * w) ^ 2 = (z+1) ^ 2 := by
    rw [mul_pow, hc2, hw2]
    linear_combination (z+1) * h1
  exact (pow_left_inj₀ (by positivity) (by positivity) two_ne_zero).mp hsq

/-- The other formula for a small cosine (`1 - s²/(1+c)`) is the same number. -/
theorem cos_alt {c s : ℝ} (h : c ^ 2 + s ^ 2 = 1) (hc : 0 < c) : 1 - s*s/(1+c) = c := by
  have : 1 + c ≠ 0 := by positivity
  field_simp
  linear_combination -h

/-- The formula with `W` for a small `c1` (TMV_SVDecompose_QR.cpp:429-434) is the same number. -/
theorem small_c1 {d0 d1 e d b t z w s2 c2 : ℝ} (hd : 2 * d = d1 ^ 2 - d0 ^ 2 + e ^ 2) (hd0 : d ≠ 0) (he : e ≠ 0) (ht : t * d = d0 * e) (hb : b ^ 2 = t ^ 2) (hz0 : 0 < z)
    (hz : z ^ 2 = 1 + t ^ 2) (hw0 : 0 < w) (hw : w ^ 2 = 2*z*(z+1)) (hs : s2 * w = t) (hc : c2 * w = z + 1) (hne : s2*e + c2*d0 ≠ 0) :
    d0*d0/d * (e*e/d) * (d0*d0+(d0-d1)*(d0+d1)+2*(((d0-d1)*(d0+d1) - d*b*b*(1+1/(1+z)))/(e*e))*d) / ((s2*e+c2*d0) * (2*z*(1+z))) = s2*e - c2*d0 := by
  have h1 : (1:ℝ) + z ≠ 0 := by positivity
  have h2 : 2*z*(1+z) ≠ 0 := by positivity
  rw [div_eq_iff (mul_ne_zero hne h2)]
  have hr : (s2*e - c2*d0) * ((s2*e+c2*d0) * (2*z*(1+z))) = t^2*e^2 - (z+1)^2*d0^2 := by
    rw [← hs, ← hc]; linear_combination (-(s2^2*e^2 - c2^2*d0^2)) * hw
  rw [hr]
  have hbb : d*b*b*(1+1/(1+z)) = d*(b^2 + (z-1)) := by
    have : (z-1)*(1+z) = b^2 := by rw [hb]; linear_combination hz
    field_simp
    linear_combination -this
  rw [hbb]
  have hdd : d0*d0/d * (e*e/d) = t^2 := by
    field_simp
    linear_combination (-(t*d + d0*e)) * ht
  rw [hdd, hb]
  have het : e^2 * (t^2 * (d0*d0+(d0-d1)*(d0+d1)+2*(((d0-d1)*(d0+d1) - d*(t^2+(z-1)))/(e*e))*d)) = e^2 * (t^2*e^2 - (z+1)^2*d0^2) := by
    have : e^2 * (t^2 * (d0*d0+(d0-d1)*(d0+d1)+2*(((d0-d1)*(d0+d1) - d*(t^2+(z-1)))/(e*e))*d)) =
      t^2 * (e^2*(d0*d0+(d0-d1)*(d0+d1))+2*((d0-d1)*(d0+d1) - d*(t^2+(z-1)))*d) := by field_simp
    rw [this]
    have k1 : t^2*d^2 = d0^2*e^2 := by rw [← mul_pow, ht, mul_pow]
    have k2 : d1^2 = 2*d + d0^2 - e^2 := by linarith
    have k3 : (d0-d1)*(d0+d1) = e^2 - 2*d := by linear_combination -k2
    have k4 : (z+1)^2 = t^2 + 2 + 2*z := by linear_combination hz
    rw [k3, k4]
    linear_combination (-2*t^2 - 2*(z-1) - 4) * k1
  exact mul_left_cancel₀ (by positivity) het

/-- What `ReduceBidiagonal22` needs of its rotations. -/
structure Good22 (D0 D1 E0 : ℝ) (r : Bool × ℝ × ℝ × ℝ × ℝ) : Prop where
  o1 : Orth ⟨r.2.1, r.2.2.1⟩
  o2 : Orth ⟨r.2.2.2.1, -r.2.2.2.2⟩
  ll : r.2.2.1 * (r.2.2.2.2 * E0 - r.2.2.2.1 * D0) = r.2.2.2.2 * D1 * r.2.1
  ex : r.1 = true → r.2.1 ≠ 0 ∧ r.2.2.2.1 ≠ 0 ∧ r.2.2.2.2 * r.2.1 * D0 + r.2.2.2.1 * (r.2.1 * E0 + r.2.2.1 * D1) = 0

/-- Normalizing `(c,s)` with a nonnegative cosine. -/
theorem norm_spec {c s : ℝ} (h : c ≠ 0 ∨ s ≠ 0) {n : ℝ} (hn : n = if c < 0 then -Real.sqrt (s*s+c*c) else Real.sqrt (s*s+c*c)) :
    n ≠ 0 ∧ (c/n) ^ 2 + (s/n) ^ 2 = 1 ∧ 0 ≤ c/n ∧ (c ≠ 0 → 0 < c/n) := by
  have hp : 0 < s*s+c*c := by
    rcases h with h | h
    · nlinarith [mul_self_pos.mpr h, mul_self_nonneg s]
    · nlinarith [mul_self_pos.mpr h, mul_self_nonneg c]
  have h1 := Real.sqrt_pos.mpr hp
  have h2 : Real.sqrt (s*s+c*c) ^ 2 = s*s+c*c := Real.sq_sqrt hp.le
  generalize Real.sqrt (s*s+c*c) = m at *
  have hn0 : n ≠ 0 := by rw [hn]; split_ifs <;> linarith [h1] <;> simp [h1.ne']
  have hn2 : n^2 = s*s+c*c := by rw [hn]; split_ifs <;> linarith [h2, neg_sq m]
  refine ⟨hn0, ?_, ?_, fun hc => ?_⟩
  · rw [div_pow, div_pow, ← add_div, div_eq_one_iff_eq (pow_ne_zero 2 hn0), hn2]; ring
  · rw [hn]; split_ifs with hc
    · rw [div_neg, ← neg_div]; exact div_nonneg (by linarith) h1.le
    · exact div_nonneg (by linarith) h1.le
  · rw [hn]; split_ifs with hc'
    · rw [div_neg, ← neg_div]; exact div_pos (by linarith) h1
    · exact div_pos (lt_of_le_of_ne (by linarith) (Ne.symm hc)) h1

theorem orth_of_pos {c s : ℝ} (h : c ^ 2 + s ^ 2 = 1) (hc : 0 ≤ c) : Orth ⟨c, s⟩ := by
  refine ⟨h, fun hs => ?_⟩
  simp only at hs
  rw [hs] at h
  have : (c-1)*(c+1) = 0 := by linear_combination h
  rcases mul_eq_zero.mp this with u | u
  · exact sub_eq_zero.mp u
  · linarith

theorem bigCS2_spec {d b t z : ℝ} (hd : d ≠ 0) (ht : t = if d < 0 then -b else b) (hz : z = Real.sqrt (1+b*b)) :
    0 < z ∧ z ^ 2 = 1 + t ^ 2 ∧ ∃ w, 0 < w ∧ w ^ 2 = 2*z*(z+1) ∧ (bigCS2 d b z).2 * w = t ∧ (bigCS2 d b z).1 * w = z + 1 ∧
      (bigCS2 d b z).1 ^ 2 + (bigCS2 d b z).2 ^ 2 = 1 ∧ 0 < (bigCS2 d b z).1 := by
  have hp : 0 < 1 + b*b := by nlinarith [mul_self_nonneg b]
  have hz0 : 0 < z := by rw [hz]; exact Real.sqrt_pos.mpr hp
  have htb : t ^ 2 = b*b := by rw [ht]; split_ifs <;> ring
  have hz2 : z ^ 2 = 1 + t ^ 2 := by rw [hz, Real.sq_sqrt hp.le, htb]
  have hs : (bigCS2 d b z).2 = t / Real.sqrt (2*z*(z+1)) := by
    rw [bigCS2, ht]; simp only; split_ifs <;> simp [neg_div]
  obtain ⟨a1, a2, a3, a4, a5⟩ := big_s2c2 hz0 hz2 hs rfl
  have hc : (bigCS2 d b z).1 = Real.sqrt (1 - (bigCS2 d b z).2 * (bigCS2 d b z).2) := by
    have : (bigCS2 d b z).1 = if |(bigCS2 d b z).2| < 1/10 then 1 - (bigCS2 d b z).2*(bigCS2 d b z).2/(1+Real.sqrt (1 - (bigCS2 d b z).2 * (bigCS2 d b z).2))
        else Real.sqrt (1 - (bigCS2 d b z).2 * (bigCS2 d b z).2) := rfl
    rw [this]
    split_ifs
    · exact cos_alt a4 a5
    · rfl
  rw [← hc] at a3 a4 a5
  exact ⟨hz0, hz2, _, a1, Real.sq_sqrt (by positivity), a2, a3, a4, a5⟩

theorem bigC1_eq {d0 d1 e d b t z w s2 c2 : ℝ} (hd : 2 * d = d1 ^ 2 - d0 ^ 2 + e ^ 2) (hd0 : d ≠ 0) (h0 : d0 ≠ 0) (he : e ≠ 0) (ht : t * d = d0 * e) (hb : b ^ 2 = t ^ 2)
    (hz0 : 0 < z) (hz : z ^ 2 = 1 + t ^ 2) (hw0 : 0 < w) (hw : w ^ 2 = 2*z*(z+1)) (hs : s2 * w = t) (hc : c2 * w = z + 1) (hc0 : 0 < c2) :
    bigC1 d0 d1 e d b z c2 s2 = s2*e - c2*d0 := by
  rw [bigC1]; simp only
  split_ifs with hlt
  swap; · rfl
  refine small_c1 hd hd0 he ht hb hz0 hz hw0 hw hs hc fun hbad => ?_
  -- the denominator would only vanish for negative `d`, but then `c1` is not small
  have k1 : s2 * d * w = d0 * e := by rw [mul_right_comm, hs, ht]
  have k2 : d * e * s2 * w = d0 * e^2 := by linear_combination e * k1
  have k3 : s2 * e = -(c2*d0) := by linarith
  have k4 : -(d * (c2 * d0)) * w = d0 * e^2 := by rw [← k2]; linear_combination d * w * k3 * (-1)
  have k5 : -d * (c2*w) = e^2 := mul_left_cancel₀ h0 (by linear_combination k4)
  have hdn : d < 0 := by
    have : 0 < -d * (c2*w) := by rw [k5]; positivity
    by_contra hge
    push Not at hge
    have : 0 ≤ d * (c2*w) := by positivity
    linarith
  have k6 : |d1| ≤ |d0| := sq_le_sq.mp (by nlinarith [sq_nonneg e])
  have k7 : |s2| ≤ |c2| := by
    refine sq_le_sq.mp ?_
    refine le_of_mul_le_mul_right (a := w^2) ?_ (by positivity)
    have e1 : s2^2*w^2 = t^2 := by rw [← mul_pow, hs]
    have e2 : c2^2*w^2 = (z+1)^2 := by rw [← mul_pow, hc]
    rw [e1, e2]; nlinarith
  rw [show s2*e - c2*d0 = -(2*(c2*d0)) by linarith, abs_neg, abs_mul, abs_mul, abs_mul, abs_two] at hlt
  have k8 : |s2| * |d1| ≤ |c2| * |d0| := mul_le_mul k7 k6 (abs_nonneg _) (abs_nonneg _)
  have := mul_pos (abs_pos.mpr hc0.ne') (abs_pos.mpr h0)
  linarith

theorem big22_spec {d0 d1 e d : ℝ} (h0 : d0 ≠ 0) (h1 : d1 ≠ 0) (he : e ≠ 0) (hd : 2 * d = d1 ^ 2 - d0 ^ 2 + e ^ 2) (hd0 : d ≠ 0) (b : Bool) :
    Good22 d0 d1 e (b, big22 d0 d1 e d) := by
  obtain ⟨z0, z2, w, w0, w2, a1, a2, a3, a4⟩ := bigCS2_spec (b := d0*e/|d|) (t := d0*e/d) (z := Real.sqrt (1 + d0*e/|d| * (d0*e/|d|))) hd0
    (by split_ifs with hn
        · rw [abs_of_neg hn, div_neg, neg_neg]
        · rw [abs_of_nonneg (by linarith)]) rfl
  have ht : d0*e/d * d = d0 * e := by field_simp
  have hb : (d0*e/|d|)^2 = (d0*e/d)^2 := by rw [div_pow, div_pow, sq_abs]
  have hE : big22 d0 d1 e d = (let b := d0*e/|d|; let z := Real.sqrt (1+b*b); let x := bigCS2 d b z; let y := norm1 (bigC1 d0 d1 e d b z x.1 x.2) (x.2*d1)
      (if |y.2| < 1/10 then 1 - y.2*y.2/(1+y.1) else y.1, y.2, x.1, x.2)) := rfl
  rw [hE]
  simp only
  generalize Real.sqrt (1 + d0*e/|d| * (d0*e/|d|)) = z at *
  generalize bigCS2 d (d0*e/|d|) z = x at *
  obtain ⟨c2, s2⟩ := x
  simp only at a1 a2 a3 a4 ⊢
  rw [bigC1_eq hd hd0 h0 he ht hb z0 z2 w0 w2 a1 a2 a4]
  have core := big_core hd ht z2 w0 a1 a2
  have hs0 : s2 ≠ 0 := by
    rintro rfl
    rw [zero_mul] at a1
    exact (div_ne_zero (mul_ne_zero h0 he) hd0) a1.symm
  have hc1 : s2*e - c2*d0 ≠ 0 := by
    intro hz
    rw [hz] at core
    have : c2 * s2 * d1 * d1 = 0 := by linear_combination core
    simp [a4.ne', hs0, h1] at this
  generalize hn : (if s2*e - c2*d0 < 0 then -Real.sqrt (s2*d1*(s2*d1)+(s2*e - c2*d0)*(s2*e - c2*d0)) else Real.sqrt (s2*d1*(s2*d1)+(s2*e - c2*d0)*(s2*e - c2*d0))) = n
  obtain ⟨n1, n2, n3, n4⟩ := norm_spec (Or.inl hc1) hn.symm
  have hN : norm1 (s2*e - c2*d0) (s2*d1) = ((s2*e - c2*d0)/n, s2*d1/n) := by rw [norm1]; rw [hn]
  rw [hN]
  have hif : (if |s2*d1/n| < 1/10 then 1 - s2*d1/n*(s2*d1/n)/(1+(s2*e - c2*d0)/n) else (s2*e - c2*d0)/n) = (s2*e - c2*d0)/n := by
    split_ifs
    · exact cos_alt n2 (n4 hc1)
    · rfl
  simp only
  rw [hif]
  refine ⟨orth_of_pos n2 n3, orth_of_pos (by rw [neg_sq]; exact a3) a4.le, ?_, fun _ => ⟨(n4 hc1).ne', a4.ne', ?_⟩⟩
  · simp only; field_simp
  · simp only
    have : s2 * ((s2*e - c2*d0)/n) * d0 + c2 * ((s2*e - c2*d0)/n * e + s2*d1/n * d1) =
      (s2 * d0 * (s2 * e - c2 * d0) + c2 * (e * (s2 * e - c2 * d0) + s2 * d1 * d1)) / n := by field_simp
    rw [this, core, zero_div]

theorem norm2_spec {c s : ℝ} (h : c ≠ 0 ∨ s ≠ 0) : (norm2 c s).1 ^ 2 + (norm2 c s).2 ^ 2 = 1 ∧ ((norm2 c s).2 = 0 → s = 0) ∧ (0 < c → 0 < (norm2 c s).1) := by
  have hp : 0 < s*s+c*c := by
    rcases h with h | h
    · nlinarith [mul_self_pos.mpr h, mul_self_nonneg s]
    · nlinarith [mul_self_pos.mpr h, mul_self_nonneg c]
  have h1 := Real.sqrt_pos.mpr hp
  have h2 : Real.sqrt (s*s+c*c) ^ 2 = s*s+c*c := Real.sq_sqrt hp.le
  rw [norm2]
  generalize Real.sqrt (s*s+c*c) = m at *
  refine ⟨?_, fun hz => ?_, fun hc => div_pos hc h1⟩
  · simp only
    rw [div_pow, div_pow, ← add_div, div_eq_one_iff_eq (pow_ne_zero 2 h1.ne'), h2]; ring
  · simpa [h1.ne'] using hz

theorem newton_spec (b f : ℝ) {c2 s2 : ℝ} (h : c2 ^ 2 + s2 ^ 2 = 1) (hc : 0 < c2) : Orth ⟨(newton b f c2 s2).1, -(newton b f c2 s2).2⟩ := by
  rw [newton]
  generalize _ * (c2*c2) = δ
  have hne : c2 - s2*δ ≠ 0 ∨ s2 + c2*δ ≠ 0 := by
    by_contra hcon
    push Not at hcon
    have : (c2 - s2*δ)^2 + (s2 + c2*δ)^2 = 1 + δ^2 := by linear_combination (1+δ^2) * h
    rw [hcon.1, hcon.2] at this
    nlinarith [sq_nonneg δ]
  obtain ⟨n1, n2, n3⟩ := norm2_spec hne
  refine ⟨by simpa using n1, fun hz => ?_⟩
  simp only [neg_eq_zero] at hz
  have hs := n2 hz
  have hpos : 0 < c2 - s2*δ := by
    have : c2 * (c2 - s2*δ) = 1 := by linear_combination h - s2 * hs
    exact pos_of_mul_pos_right (by rw [this]; norm_num) hc.le
  exact (orth_of_pos n1 (n3 hpos).le).zero hz

theorem small22_spec {d0 d1 e d : ℝ} (h0 : d0 ≠ 0) (h1 : d1 ≠ 0) (he : e ≠ 0) : Good22 d0 d1 e (false, small22 d0 d1 e d) := by
  have hE : small22 d0 d1 e d = (let b := e/d0; let f := d1/d0; let w := norm2 (|d| + Real.sqrt (d/(d0*d0)*(d/(d0*d0))+b*b)) (if d/(d0*d0) < 0 then -b else b)
      let x := newton b f w.1 w.2; let y := norm1 (x.2*b-x.1) (x.2*f); (y.1, y.2, x.1, x.2)) := rfl
  rw [hE]
  simp only
  have hb : e/d0 ≠ 0 := div_ne_zero he h0
  have hf : d1/d0 ≠ 0 := div_ne_zero h1 h0
  have hpos : 0 < |d| + Real.sqrt (d/(d0*d0)*(d/(d0*d0))+e/d0*(e/d0)) := by
    have : 0 < Real.sqrt (d/(d0*d0)*(d/(d0*d0))+e/d0*(e/d0)) :=
      Real.sqrt_pos.mpr (by nlinarith [mul_self_pos.mpr hb, mul_self_nonneg (d/(d0*d0))])
    positivity
  obtain ⟨m1, -, m3⟩ := norm2_spec (c := |d| + Real.sqrt (d/(d0*d0)*(d/(d0*d0))+e/d0*(e/d0))) (s := if d/(d0*d0) < 0 then -(e/d0) else e/d0) (Or.inl hpos.ne')
  have o2 := newton_spec (e/d0) (d1/d0) m1 (m3 hpos)
  generalize newton (e/d0) (d1/d0) _ _ = x at *
  obtain ⟨c2, s2⟩ := x
  simp only at o2 ⊢
  have hne : s2*(e/d0) - c2 ≠ 0 ∨ s2*(d1/d0) ≠ 0 := by
    by_cases hs : s2 = 0
    · left
      have := o2.zero (by simp [hs])
      simp only at this
      rw [hs, this]; norm_num
    · right; exact mul_ne_zero hs hf
  generalize hn : (if s2*(e/d0) - c2 < 0 then -Real.sqrt (s2*(d1/d0)*(s2*(d1/d0))+(s2*(e/d0) - c2)*(s2*(e/d0) - c2))
    else Real.sqrt (s2*(d1/d0)*(s2*(d1/d0))+(s2*(e/d0) - c2)*(s2*(e/d0) - c2))) = n
  obtain ⟨n1, n2, n3, n4⟩ := norm_spec hne hn.symm
  have hN : norm1 (s2*(e/d0) - c2) (s2*(d1/d0)) = ((s2*(e/d0) - c2)/n, s2*(d1/d0)/n) := by rw [norm1]; rw [hn]
  rw [hN]
  refine ⟨orth_of_pos n2 n3, o2, ?_, fun u => by simp at u⟩
  simp only
  field_simp

theorem Good22.scale {d0 d1 e : ℝ} {r : Bool × ℝ × ℝ × ℝ × ℝ} (h : Good22 d0 d1 e r) (x : ℝ) : Good22 (d0*x) (d1*x) (e*x) r :=
  ⟨h.o1, h.o2, by linear_combination x * h.ll, fun u => ⟨(h.ex u).1, (h.ex u).2.1, by linear_combination x * (h.ex u).2.2⟩⟩

theorem rot22_spec {D0 D1 E0 : ℝ} (h0 : D0 ≠ 0) (h1 : D1 ≠ 0) (hE : E0 ≠ 0) : Good22 D0 D1 E0 (rot22 D0 D1 E0) := by
  have hm : 0 < max |D0| (max |D1| |E0|) := lt_of_lt_of_le (abs_pos.mpr h0) (le_max_left _ _)
  rw [rot22]
  generalize max |D0| (max |D1| |E0|) = mx at *
  obtain ⟨d0, rfl⟩ : ∃ d0, D0 = d0 * mx := ⟨D0/mx, by field_simp⟩
  obtain ⟨d1, rfl⟩ : ∃ d1, D1 = d1 * mx := ⟨D1/mx, by field_simp⟩
  obtain ⟨e, rfl⟩ : ∃ e, E0 = e * mx := ⟨E0/mx, by field_simp⟩
  replace h0 : d0 ≠ 0 := left_ne_zero_of_mul h0
  replace h1 : d1 ≠ 0 := left_ne_zero_of_mul h1
  replace hE : e ≠ 0 := left_ne_zero_of_mul hE
  simp only [mul_div_assoc, div_self hm.ne', mul_one]
  refine Good22.scale ?_ mx
  split_ifs with hbig
  · refine big22_spec h0 h1 hE (by ring) ?_ _
    intro hz
    rw [hz] at hbig
    norm_num at hbig
  · exact small22_spec h0 h1 hE

end TMV.SVQR
