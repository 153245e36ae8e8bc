import Verif.Model.Nonlinear

/-!
# C41, C42: the polynomial interpolations of the line search (exact arithmetic)
-/

set_option autoImplicit false

namespace MiniOpt.Props

open MiniOpt.NLS

/-- The parabola with value `phi0` and slope `dphi0` at 0 and leading coefficient `k`. -/
noncomputable def parabola (phi0 dphi0 k t : ℝ) : ℝ := phi0 + dphi0 * t + k * t ^ 2

/-- The cubic with value `phi0` and slope `dphi0` at 0. -/
noncomputable def cubicPoly (phi0 dphi0 a b t : ℝ) : ℝ := phi0 + dphi0 * t + b * t ^ 2 + a * t ^ 3

/-- **C41**. With a negative slope, after a step of length `alpha0` was rejected by the sufficient decrease test, the
quadratic interpolation returns a point: the global minimiser of the one parabola through the data, and it lies in
`(0, alpha0 / (2 (1 - 1e-4)))`, in particular below `alpha0`. -/
theorem C41_quadratic (phi0 dphi0 alpha0 phiAlpha0 : ℝ) (hd : dphi0 < 0) (ha : 0 < alpha0)
    (hrej : phi0 + 1 / 10 ^ 4 * alpha0 * dphi0 < phiAlpha0) :
    ∃ m k, quadraticApproxMinimum phi0 dphi0 alpha0 phiAlpha0 = some m ∧
      0 < k ∧ parabola phi0 dphi0 k alpha0 = phiAlpha0 ∧
      (∀ k', parabola phi0 dphi0 k' alpha0 = phiAlpha0 → k' = k) ∧
      (∀ t, t ≠ m → parabola phi0 dphi0 k m < parabola phi0 dphi0 k t) ∧
      0 < m ∧ m < alpha0 / (2 * (1 - 1 / 10 ^ 4)) ∧ m < alpha0 := by
  have hnum : -(1 - 1 / 10 ^ 4) * (dphi0 * alpha0) < phiAlpha0 - dphi0 * alpha0 - phi0 := by
    ring_nf at hrej ⊢; linarith
  have hda : dphi0 * alpha0 < 0 := mul_neg_of_neg_of_pos hd ha
  have hnpos : 0 < phiAlpha0 - dphi0 * alpha0 - phi0 := by
    refine lt_trans ?_ hnum
    have : (0 : ℝ) < 1 - 1 / 10 ^ 4 := by norm_num
    nlinarith
  set N := phiAlpha0 - dphi0 * alpha0 - phi0 with hN
  have ha2 : 0 < alpha0 ^ 2 := by positivity
  have hm : -dphi0 * alpha0 * alpha0 / (2 * N) < alpha0 / (2 * (1 - 1 / 10 ^ 4)) := by
    rw [div_lt_div_iff₀ (by positivity) (by norm_num)]
    have h1 : -dphi0 * alpha0 * (1 - 1 / 10 ^ 4) < N := by
      have e : -dphi0 * alpha0 * (1 - 1 / 10 ^ 4) = -(1 - 1 / 10 ^ 4) * (dphi0 * alpha0) := by ring
      rw [e]; exact hnum
    have := mul_lt_mul_of_pos_left h1 (by positivity : 0 < 2 * alpha0)
    calc -dphi0 * alpha0 * alpha0 * (2 * (1 - 1 / 10 ^ 4)) = 2 * alpha0 * (-dphi0 * alpha0 * (1 - 1 / 10 ^ 4)) := by ring
      _ < 2 * alpha0 * N := this
      _ = alpha0 * (2 * N) := by ring
  refine ⟨-dphi0 * alpha0 * alpha0 / (2 * N), N / alpha0 ^ 2, ?_, by positivity, ?_, ?_, ?_, ?_, hm, ?_⟩
  · unfold quadraticApproxMinimum
    simp only [← hN, real_lit]
    rw [if_neg (by push Not; exact ⟨hd.le, hnpos⟩)]
    norm_num
  · unfold parabola; rw [hN]; field_simp; ring
  · intro k' hk'
    unfold parabola at hk'
    rw [eq_div_iff ha2.ne', hN]; linarith
  · intro t ht
    unfold parabola
    have hsq : 0 < (t - -dphi0 * alpha0 * alpha0 / (2 * N)) ^ 2 := by
      have := sub_ne_zero.mpr ht; positivity
    have hk : 0 < N / alpha0 ^ 2 := by positivity
    have key : phi0 + dphi0 * t + N / alpha0 ^ 2 * t ^ 2
        - (phi0 + dphi0 * (-dphi0 * alpha0 * alpha0 / (2 * N)) + N / alpha0 ^ 2 * (-dphi0 * alpha0 * alpha0 / (2 * N)) ^ 2)
        = N / alpha0 ^ 2 * (t - -dphi0 * alpha0 * alpha0 / (2 * N)) ^ 2 := by
      field_simp; ring
    have := mul_pos hk hsq
    linarith
  · have : 0 < -dphi0 * alpha0 * alpha0 := by have := neg_pos.mpr hd; positivity
    positivity
  · refine lt_trans hm ?_
    rw [div_lt_iff₀ (by norm_num)]
    nlinarith

/-- The converse boundary: with slope exactly zero a rejected step makes the interpolation return 0, which the line
search refuses (so the hypothesis of C41 cannot be weakened to `≤`). -/
theorem C41_zero_slope (phi0 alpha0 phiAlpha0 : ℝ) (hrej : phi0 < phiAlpha0) :
    quadraticApproxMinimum phi0 0 alpha0 phiAlpha0 = some 0 := by
  unfold quadraticApproxMinimum
  simp only [zero_mul, sub_zero, neg_zero, zero_div, lt_irrefl, false_or]
  rw [if_neg (by push Not; linarith)]

example : ∃ m, quadraticApproxMinimum (1 : ℝ) (-1) 1 2 = some m ∧ 0 < m ∧ m < 1 := by
  obtain ⟨m, k, h, _, _, _, _, h1, _, h2⟩ := C41_quadratic 1 (-1) 1 2 (by norm_num) (by norm_num) (by norm_num)
  exact ⟨m, h, h1, h2⟩

/-- **C42** (coefficients). The coefficients exist exactly when `0 < alpha1 < alpha0` (otherwise the call throws), and
then they are those of the unique cubic with the given value and slope at 0 and values at `alpha0`, `alpha1`. -/
theorem C42_coefficients (phi0 dphi0 alpha0 phiAlpha0 alpha1 phiAlpha1 : ℝ) :
    (0 < alpha1 ∧ alpha1 < alpha0 → ∃ a b,
      cubicApproxCoeffs phi0 dphi0 alpha0 phiAlpha0 alpha1 phiAlpha1 = .ok (a, b) ∧
      ∀ a' b', (cubicPoly phi0 dphi0 a' b' alpha0 = phiAlpha0 ∧ cubicPoly phi0 dphi0 a' b' alpha1 = phiAlpha1) ↔
        (a' = a ∧ b' = b)) ∧
    (¬ (0 < alpha1 ∧ alpha1 < alpha0) → ∃ t,
      cubicApproxCoeffs phi0 dphi0 alpha0 phiAlpha0 alpha1 phiAlpha1 = .error (.assertion t)) := by
  constructor
  · rintro ⟨h1, h2⟩
    have h0 : 0 < alpha0 := lt_trans h1 h2
    have hdet : alpha0 * alpha0 * alpha0 * (alpha1 * alpha1) - alpha1 * alpha1 * alpha1 * (alpha0 * alpha0) ≠ 0 := by
      have : alpha0 * alpha0 * alpha0 * (alpha1 * alpha1) - alpha1 * alpha1 * alpha1 * (alpha0 * alpha0)
          = alpha0 ^ 2 * alpha1 ^ 2 * (alpha0 - alpha1) := by ring
      rw [this]
      have := sub_pos.mpr h2
      positivity
    unfold cubicApproxCoeffs
    rw [if_neg (not_not.mpr h1), if_neg (not_not.mpr h2)]
    refine ⟨_, _, rfl, ?_⟩
    intro a' b'
    set d := alpha0 * alpha0 * alpha0 * (alpha1 * alpha1) - alpha1 * alpha1 * alpha1 * (alpha0 * alpha0) with hd
    unfold cubicPoly
    constructor
    · rintro ⟨e0, e1⟩
      rw [← e0, ← e1]
      constructor
      · field_simp; rw [hd]; ring
      · field_simp; rw [hd]; ring
    · rintro ⟨rfl, rfl⟩
      constructor
      · field_simp; rw [hd]; ring
      · field_simp; rw [hd]; ring
  · intro h
    unfold cubicApproxCoeffs
    by_cases h1 : 0 < alpha1
    · have h2 : ¬ alpha1 < alpha0 := fun h2 => h ⟨h1, h2⟩
      rw [if_neg (not_not.mpr h1), if_pos h2]
      exact ⟨_, rfl⟩
    · rw [if_pos h1]; exact ⟨_, rfl⟩

/-- **C42** (stationary point). What the cubic interpolation returns is a point of nonnegative curvature where the
slope of the cubic vanishes, up to the `1e-12` by which a negative discriminant is tolerated; with a nonnegative
discriminant the slope is exactly 0. It returns nothing only for a vanishing cubic coefficient or a discriminant
below `-1e-12` (the cubic is then monotone). -/
theorem C42_stationary (dphi0 a b : ℝ) :
    (∀ t, cubicApproxMinimum dphi0 (a, b) = some t →
      a ≠ 0 ∧ 0 ≤ 2 * b + 6 * a * t ∧ |dphi0 + 2 * b * t + 3 * a * t ^ 2| * (3 * |a|) ≤ 1 / 10 ^ 12 ∧
      (0 ≤ b ^ 2 - 3 * a * dphi0 → dphi0 + 2 * b * t + 3 * a * t ^ 2 = 0)) ∧
    (cubicApproxMinimum dphi0 (a, b) = none ↔ a = 0 ∨ b ^ 2 - 3 * a * dphi0 < -1 / 10 ^ 12) := by
  have hlit : (negativeTol : ℝ) = -1 / 10 ^ 12 := by unfold negativeTol; rw [real_lit]; norm_num
  unfold cubicApproxMinimum
  simp only [real_feq, real_lit, real_sqrt, real_cmax, hlit]
  have e : b * b - ((3 : ℚ) : ℝ) * a * dphi0 = b ^ 2 - 3 * a * dphi0 := by push_cast; ring
  rw [e]
  constructor
  · intro t ht
    by_cases hc : a = 0 ∨ b ^ 2 - 3 * a * dphi0 < -1 / 10 ^ 12
    · rw [if_pos hc] at ht; cases ht
    · rw [if_neg hc] at ht
      push Not at hc
      obtain ⟨ha, harg⟩ := hc
      have ht' : t = (-b + √(max (b ^ 2 - 3 * a * dphi0) 0)) / (3 * a) := by
        injection ht with ht; rw [← ht]; push_cast; rfl
      set s := √(max (b ^ 2 - 3 * a * dphi0) 0) with hs
      have h3 : 3 * a * t = s - b := by rw [ht']; field_simp; ring
      have hslope : (dphi0 + 2 * b * t + 3 * a * t ^ 2) * (3 * a) = s ^ 2 - (b ^ 2 - 3 * a * dphi0) := by
        calc (dphi0 + 2 * b * t + 3 * a * t ^ 2) * (3 * a)
            = 3 * a * dphi0 + 2 * b * (3 * a * t) + (3 * a * t) ^ 2 := by ring
          _ = _ := by rw [h3]; ring
      have hs2 : s ^ 2 = max (b ^ 2 - 3 * a * dphi0) 0 := Real.sq_sqrt (le_max_right _ _)
      refine ⟨ha, ?_, ?_, ?_⟩
      · have : 2 * b + 6 * a * t = 2 * s := by linarith
        rw [this]; have := Real.sqrt_nonneg (max (b ^ 2 - 3 * a * dphi0) 0); rw [← hs] at this; linarith
      · have habs : |dphi0 + 2 * b * t + 3 * a * t ^ 2| * (3 * |a|) = |(dphi0 + 2 * b * t + 3 * a * t ^ 2) * (3 * a)| := by
          rw [abs_mul, abs_mul]; norm_num
        rw [habs, hslope, hs2]
        rcases le_total 0 (b ^ 2 - 3 * a * dphi0) with h | h
        · rw [max_eq_left h]; norm_num
        · rw [max_eq_right h, zero_sub, abs_neg, abs_of_nonpos h]; linarith
      · intro h
        have hz : (dphi0 + 2 * b * t + 3 * a * t ^ 2) * (3 * a) = 0 := by
          rw [hslope, hs2, max_eq_left h]; ring
        rcases mul_eq_zero.mp hz with h | h
        · exact h
        · exact absurd h (by positivity)
  · constructor
    · intro h
      by_contra hc
      rw [if_neg hc] at h; cases h
    · intro hc; rw [if_pos hc]

/-- **C42** (location). With a negative slope at 0 and no decrease at `alpha1`, the returned point lies strictly
between 0 and `alpha1`, and the cubic is below its value at 0 there. -/
theorem C42_in_range (phi0 dphi0 a b alpha1 : ℝ) (hd : dphi0 < 0) (h1 : 0 < alpha1) (ha : a ≠ 0)
    (hup : phi0 ≤ cubicPoly phi0 dphi0 a b alpha1) :
    ∃ t, cubicApproxMinimum dphi0 (a, b) = some t ∧ 0 < t ∧ t < alpha1 ∧
      cubicPoly phi0 dphi0 a b t < phi0 := by
  -- the quadratic factor at alpha1
  have hq : 0 ≤ a * alpha1 ^ 2 + b * alpha1 + dphi0 := by
    unfold cubicPoly at hup
    have : 0 ≤ alpha1 * (a * alpha1 ^ 2 + b * alpha1 + dphi0) := by nlinarith
    exact nonneg_of_mul_nonneg_right (by linarith) h1
  -- the discriminant
  have hbneg : a < 0 → 0 < b := by
    intro han
    by_contra hb
    push Not at hb
    have : a * alpha1 ^ 2 < 0 := mul_neg_of_neg_of_pos han (by positivity)
    have : b * alpha1 ≤ 0 := mul_nonpos_of_nonpos_of_nonneg hb h1.le
    linarith
  have hdisc : 0 < b ^ 2 - 3 * a * dphi0 := by
    rcases lt_or_gt_of_ne ha with han | hap
    · have hac : 0 < a * dphi0 := mul_pos_of_neg_of_neg han hd
      have : 0 ≤ b ^ 2 - 4 * a * dphi0 := by
        have h4 : (2 * a * alpha1 + b) ^ 2 = 4 * a * (a * alpha1 ^ 2 + b * alpha1 + dphi0) + (b ^ 2 - 4 * a * dphi0) := by
          ring
        have h5 : 4 * a * (a * alpha1 ^ 2 + b * alpha1 + dphi0) ≤ 0 :=
          mul_nonpos_of_nonpos_of_nonneg (by linarith) hq
        nlinarith [sq_nonneg (2 * a * alpha1 + b)]
      nlinarith
    · have : a * dphi0 < 0 := mul_neg_of_pos_of_neg hap hd
      nlinarith [sq_nonneg b]
  obtain ⟨hstat, hnone⟩ := C42_stationary dphi0 a b
  cases hm : cubicApproxMinimum dphi0 (a, b) with
  | none =>
    rcases hnone.mp hm with h | h
    · exact absurd h ha
    · norm_num at h; linarith
  | some t =>
    obtain ⟨_, hcurv, _, hz⟩ := hstat t hm
    have hz := hz hdisc.le
    set s := b + 3 * a * t with hs
    have hs0 : 0 ≤ s := by linarith
    have hs2 : s ^ 2 = b ^ 2 - 3 * a * dphi0 := by
      have : s ^ 2 - b ^ 2 = 3 * a * (2 * b * t + 3 * a * t ^ 2) := by rw [hs]; ring
      have h' : 2 * b * t + 3 * a * t ^ 2 = -dphi0 := by linarith
      rw [h'] at this; linarith
    have hspos : 0 < s := by
      rcases hs0.lt_or_eq with h | h
      · exact h
      · rw [← h] at hs2; norm_num at hs2; linarith
    have hsb : 0 < s + b := by
      rcases lt_or_gt_of_ne ha with han | hap
      · linarith [hbneg han]
      · have : a * dphi0 < 0 := mul_neg_of_pos_of_neg hap hd
        by_contra hn
        push Not at hn
        nlinarith
    have hts : t * (s + b) = -dphi0 := by rw [hs]; linarith
    have htpos : 0 < t := by
      by_contra hn
      push Not at hn
      have := mul_nonpos_of_nonpos_of_nonneg hn hsb.le
      linarith
    have hht : 3 * (a * t ^ 2 + b * t + dphi0) = dphi0 - s * t := by
      have e1 : s * t = b * t + 3 * a * t ^ 2 := by rw [hs]; ring
      rw [e1]; linarith
    have hst : 0 < s * t := mul_pos hspos htpos
    have hneg : a * t ^ 2 + b * t + dphi0 < 0 := by linarith
    refine ⟨t, rfl, htpos, ?_, ?_⟩
    · by_contra hn
      push Not at hn
      rcases lt_or_gt_of_ne ha with han | hap
      · -- increasing up to t
        have e : (a * t ^ 2 + b * t + dphi0) - (a * alpha1 ^ 2 + b * alpha1 + dphi0)
            = (t - alpha1) * (a * (t + alpha1) + b) := by ring
        have h3 : 0 ≤ a * (t + alpha1) + b := by
          have hle : a * (2 * t) ≤ a * (t + alpha1) := mul_le_mul_of_nonpos_left (by linarith) han.le
          have hb : 0 ≤ a * (2 * t) + b := by
            have : 3 * (a * (2 * t) + b) = 2 * s + b := by rw [hs]; ring
            linarith [hbneg han]
          linarith
        have := mul_nonneg (sub_nonneg.mpr hn) h3
        linarith
      · -- convex
        have h3 : 0 ≤ a * alpha1 * (t - alpha1) * t := by
          have := sub_nonneg.mpr hn; positivity
        have e : a * alpha1 * (t - alpha1) * t
            = alpha1 * (a * t ^ 2 + b * t + dphi0) + (t - alpha1) * dphi0 - t * (a * alpha1 ^ 2 + b * alpha1 + dphi0) := by
          ring
        have h4 : alpha1 * (a * t ^ 2 + b * t + dphi0) < 0 := mul_neg_of_pos_of_neg h1 hneg
        have h5 : (t - alpha1) * dphi0 ≤ 0 := mul_nonpos_of_nonneg_of_nonpos (sub_nonneg.mpr hn) hd.le
        have h6 : 0 ≤ t * (a * alpha1 ^ 2 + b * alpha1 + dphi0) := mul_nonneg htpos.le hq
        linarith
    · unfold cubicPoly
      have : t * (a * t ^ 2 + b * t + dphi0) < 0 := mul_neg_of_pos_of_neg htpos hneg
      nlinarith

/-- **C42** (contraction). If the step `alpha1` was rejected by the sufficient decrease test and the leading coefficient of
the cubic is negative, the returned point exists, lies in `(0, 0.51 alpha1)`, the cubic is below its value at 0 there, and it
is at least half the ratio of slope and quadratic coefficient.
Moreover, if that point is rejected as well, the merit there lies above the parabola through the data at `alpha1`. -/
theorem C42_contracts (phi0 d a b u : ℝ) (hd : d < 0) (hu : 0 < u) (ha : a < 0)
    (hrej : phi0 + 1 / 10 ^ 4 * u * d < cubicPoly phi0 d a b u) :
    ∃ t, cubicApproxMinimum d (a, b) = some t ∧ 0 < t ∧ t < 51 / 100 * u ∧ cubicPoly phi0 d a b t < phi0 ∧
      -d ≤ 2 * b * t ∧ ∀ phi, phi0 + 1 / 10 ^ 4 * t * d < phi → parabola phi0 d (a * u + b) t < phi := by
  unfold cubicPoly at hrej
  set E := b * u + a * u ^ 2 with hE
  have hEb : -(1 - 1 / 10 ^ 4) * d < E := by
    have : u * (-(1 - 1 / 10 ^ 4) * d) < u * E := by rw [hE]; nlinarith
    exact lt_of_mul_lt_mul_left this hu.le
  norm_num at hEb
  have hau : a * u ^ 2 < 0 := mul_neg_of_neg_of_pos ha (by positivity)
  have hb : 0 < b := by
    have : 0 < b * u := by linarith
    exact pos_of_mul_pos_left this hu.le
  set v := 51 / 100 * u with hv
  have hq : 0 < d + 2 * b * v + 3 * a * v ^ 2 := by
    have : d + 2 * b * v + 3 * a * v ^ 2 = d + 102 / 100 * E - (102 / 100 - 3 * (51 / 100) ^ 2) * (a * u ^ 2) := by
      rw [hv, hE]; ring
    rw [this]
    norm_num
    linarith
  have hdisc : 0 < b ^ 2 - 3 * a * d := by
    have e : b ^ 2 - 3 * a * d = (3 * a * v + b) ^ 2 - 3 * a * (d + 2 * b * v + 3 * a * v ^ 2) := by ring
    have : a * (d + 2 * b * v + 3 * a * v ^ 2) < 0 := mul_neg_of_neg_of_pos ha hq
    rw [e]
    nlinarith [sq_nonneg (3 * a * v + b)]
  obtain ⟨hstat, hnone⟩ := C42_stationary d a b
  cases hm : cubicApproxMinimum d (a, b) with
  | none =>
    rcases hnone.mp hm with h | h
    · exact absurd h ha.ne
    · norm_num at h; linarith
  | some t =>
    obtain ⟨_, hcurv, _, hz⟩ := hstat t hm
    have hz := hz hdisc.le
    set s := b + 3 * a * t with hs
    have hs0 : 0 ≤ s := by linarith
    have hts : t * (s + b) = -d := by rw [hs]; linarith
    have htpos : 0 < t := by
      by_contra hn
      push Not at hn
      have := mul_nonpos_of_nonpos_of_nonneg hn (by linarith : 0 ≤ s + b)
      linarith
    have htv : t < v := by
      by_contra hn
      push Not at hn
      have h2 : 0 ≤ 2 * b + 3 * a * (v + t) := by
        have : a * (2 * t) ≤ a * (v + t) := mul_le_mul_of_nonpos_left (by linarith) ha.le
        linarith
      have h3 : (d + 2 * b * v + 3 * a * v ^ 2) = (v - t) * (2 * b + 3 * a * (v + t)) := by
        have : (v - t) * (2 * b + 3 * a * (v + t)) = (d + 2 * b * v + 3 * a * v ^ 2) - (d + 2 * b * t + 3 * a * t ^ 2) := by
          ring
        rw [this, hz, sub_zero]
      have h4 := mul_nonpos_of_nonpos_of_nonneg (sub_nonpos.mpr hn) h2
      linarith
    refine ⟨t, rfl, htpos, htv, ?_, ?_, ?_⟩
    · unfold cubicPoly
      have hst : 0 ≤ s * t := mul_nonneg hs0 htpos.le
      have : a * t ^ 2 + b * t + d < 0 := by
        have : 3 * (a * t ^ 2 + b * t + d) = d - s * t := by rw [hs]; linarith
        linarith
      have : t * (a * t ^ 2 + b * t + d) < 0 := mul_neg_of_pos_of_neg htpos this
      nlinarith
    · have hat : a * (t * t) ≤ 0 := mul_nonpos_of_nonpos_of_nonneg ha.le (mul_self_nonneg t)
      rw [← hts, hs]; nlinarith
    · intro phi hphi
      refine lt_of_le_of_lt ?_ hphi
      unfold parabola
      -- it suffices to compare the curvatures
      have hcmp : a * u + b ≤ (1 - 1 / 10 ^ 4) * (s + b) := by
        have hsl : b + 153 / 100 * (a * u) ≤ s := by
          have : a * v ≤ a * t := mul_le_mul_of_nonpos_left htv.le ha.le
          rw [hs]; rw [hv] at this; linarith
        have hau1 : a * u < 0 := mul_neg_of_neg_of_pos ha hu
        rcases le_total (1 / 10 ^ 4 * b) (-(a * u)) with h | h <;> norm_num at h ⊢ <;> linarith
      have h1 : (a * u + b) * t ≤ (1 - 1 / 10 ^ 4) * (-d) := by
        rw [← hts]
        have := mul_le_mul_of_nonneg_right hcmp htpos.le
        linarith
      have h2 := mul_le_mul_of_nonneg_right h1 htpos.le
      nlinarith

/-- An exactly quadratic merit function makes the cubic coefficient vanish, so nothing is returned: this is how the
second interpolation can fail on the simplest problems (see C48). -/
theorem C42_quadratic_data (phi0 dphi0 k alpha0 alpha1 : ℝ) (h1 : 0 < alpha1) (h2 : alpha1 < alpha0) :
    ∃ ab, cubicApproxCoeffs phi0 dphi0 alpha0 (parabola phi0 dphi0 k alpha0) alpha1 (parabola phi0 dphi0 k alpha1)
      = .ok ab ∧ cubicApproxMinimum dphi0 ab = none := by
  obtain ⟨a, b, h, hu⟩ := (C42_coefficients phi0 dphi0 alpha0 (parabola phi0 dphi0 k alpha0) alpha1
    (parabola phi0 dphi0 k alpha1)).1 ⟨h1, h2⟩
  have := (hu 0 k).mp (by unfold cubicPoly parabola; constructor <;> ring)
  refine ⟨_, h, ?_⟩
  rw [← this.1]
  exact (C42_stationary dphi0 0 b).2.mpr (.inl rfl)

example : ∃ t, cubicApproxMinimum (-1 : ℝ) (1, 1) = some t ∧ 0 < t ∧ t < 2 := by
  obtain ⟨t, h, h1, h2, _⟩ := C42_in_range 0 (-1) 1 1 2 (by norm_num) (by norm_num) (by norm_num)
    (by unfold cubicPoly; norm_num)
  exact ⟨t, h, h1, h2⟩

example : ∃ t, cubicApproxMinimum (-1 : ℝ) (-1, 3) = some t ∧ 0 < t ∧ t < 2 := by
  obtain ⟨t, h, h1, h2, _⟩ := C42_in_range 0 (-1) (-1) 3 2 (by norm_num) (by norm_num) (by norm_num)
    (by unfold cubicPoly; norm_num)
  exact ⟨t, h, h1, h2⟩

/-- Merit `1/2` with slope `-1`, merit 2 at the full step and at `1/5`. -/
example : ∃ t, cubicApproxMinimum (-1 : ℝ) (-50, 105 / 2) = some t ∧ 0 < t ∧ t < 51 / 100 * (1 / 5) := by
  obtain ⟨t, h, h1, h2, -⟩ := C42_contracts (1 / 2) (-1) (-50) (105 / 2) (1 / 5) (by norm_num)
    (by norm_num) (by norm_num) (by unfold cubicPoly; norm_num)
  exact ⟨t, h, h1, h2⟩

end MiniOpt.Props
