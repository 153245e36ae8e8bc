import Verif.Lemmas.GaussNewton

/-!
# Geometry of a Gauss-Newton step with equality constraints near a point with zero residual
-/

set_option autoImplicit false

namespace MiniOpt.GN

open scoped RealInnerProductSpace

variable {E F : Type} [NormedAddCommGroup E] [NormedSpace ℝ E] [NormedAddCommGroup F] [InnerProductSpace ℝ F]

/-- Normal equation along one direction. -/
theorem normal_along {u v : F} (hmin : ∀ t : ℝ, ‖u‖ ^ 2 ≤ ‖u + t • v‖ ^ 2) : ⟪u, v⟫ = 0 := by
  have h := normal (J := LinearMap.toSpanSingleton ℝ F v) (r := u) (dx := 0) (fun t => by
    simpa using hmin t) 1
  simpa using h

/-- The step `d`, compared with the displacement `e` to the solution: `w` is the correction that makes `e` satisfy the linearized
constraints, `q` bounds the length of `e`. -/
theorem eq_step {J : E →ₗ[ℝ] F} {r : F} {e w d : E} {σ L B m q : ℝ} (hσ : 0 < σ) (hB : 0 ≤ B)
    (hnormal : ⟪r + J d, J (d - e - w)⟫ = 0) (hrank : ∀ h, σ * ‖h‖ ≤ ‖J h‖) (hrate : ∀ h, ‖J h‖ ≤ B * ‖h‖)
    (he : ‖r + J e‖ ≤ L / 2 * q ^ 2) (hw : ‖w‖ ≤ m / 2 * q ^ 2) :
    ‖r + J d‖ ≤ (L + B * m) / 2 * q ^ 2 ∧ ‖d - e‖ ≤ ((L + B * m) / (2 * σ) + m / 2) * q ^ 2 := by
  have hb : ‖r + J (e + w)‖ ≤ (L + B * m) / 2 * q ^ 2 := by
    have h1 : r + J (e + w) = (r + J e) + J w := by rw [map_add]; abel
    rw [h1]
    refine (norm_add_le _ _).trans ?_
    have h2 := (hrate w).trans (mul_le_mul_of_nonneg_left hw hB)
    linarith
  have hv : ⟪J (d - e - w) - (-(r + J (e + w))), J (d - e - w)⟫ = 0 := by
    have : J (d - e - w) - (-(r + J (e + w))) = r + J d := by simp only [map_add, map_sub]; abel
    rw [this]; exact hnormal
  obtain ⟨t1, t2⟩ := thales hv
  rw [norm_neg] at t1 t2
  have e2 : J (d - e - w) - (-(r + J (e + w))) = r + J d := by simp only [map_add, map_sub]; abel
  rw [e2] at t2
  refine ⟨t2.trans hb, ?_⟩
  have h3 := ((hrank (d - e - w)).trans t1).trans hb
  have h4 : ‖d - e - w‖ ≤ (L + B * m) / (2 * σ) * q ^ 2 := by
    have e4 : (L + B * m) / (2 * σ) * q ^ 2 = ((L + B * m) / 2 * q ^ 2) / σ := by field_simp
    rw [e4, le_div_iff₀ hσ]
    linarith
  have h5 : d - e = (d - e - w) + w := by abel
  rw [h5]
  refine (norm_add_le _ _).trans ?_
  linarith

/-- The numbers of one iteration: `q` distance to the solution, `R` residual norm, `N` norm of its linear model at the step, `R'`
residual norm after the step, `j` norm of the change of the model, `s` length of the step, `v`, `v'` violations. -/
theorem eq_numbers {q R N R' j s v v' σ a Lh P Lc dF : ℝ} (hσ : 0 < σ) (hq : 0 ≤ q) (hv : 0 ≤ v) (hP : 0 ≤ P)
    (hs0 : 0 ≤ s) (hR'0 : 0 ≤ R') (hN0 : 0 ≤ N) (hR0 : 0 ≤ R) (hj0 : 0 ≤ j) (hLa : Lh ≤ a) (hL0 : 0 ≤ Lh) (haq : a * q ≤ σ / 16)
    (hN : N ≤ a * q ^ 2) (hs : s ≤ 5 / 4 * q) (hR' : R' ≤ N + Lh * s ^ 2) (hv' : v' ≤ Lc / 2 * s ^ 2)
    (hR : σ * q ≤ R + Lh * q ^ 2) (hj1 : j ≤ R + N) (hj2 : R ≤ j + N) (hdF : dF = (N ^ 2 - R ^ 2 - j ^ 2) / 2)
    (hPL : P * Lc ≤ σ ^ 2 / 2) :
    1 / 2 * R' ^ 2 + P * v' ≤ 23 / 25 * (1 / 2 * R ^ 2 + P * v) ∧
    1 / 2 * R' ^ 2 + P * v' ≤ (1 / 2 * R ^ 2 + P * v) + (dF - P * v) / 10 ^ 4 ∧
    dF ≤ 0 ∧ N ^ 2 ≤ R ^ 2 ∧ R' ≤ 41 / 16 * a * q ^ 2 ∧ (4 / 5 * σ * q) ^ 2 ≤ |dF| := by
  have ha : 0 ≤ a := hL0.trans hLa
  have haq2 : a * q ^ 2 ≤ σ / 16 * q := by
    have := mul_le_mul_of_nonneg_right haq hq
    linarith
  have hN1 : N ≤ σ / 16 * q := hN.trans haq2
  have hR1 : 15 / 16 * σ * q ≤ R := by
    have := mul_le_mul_of_nonneg_right hLa (sq_nonneg q)
    linarith
  have hNR : N ≤ 1 / 15 * R := by linarith
  have hs2 : s ^ 2 ≤ 25 / 16 * q ^ 2 := by
    have := pow_le_pow_left₀ hs0 hs 2
    rw [mul_pow] at this
    linarith
  have hR2 : R' ≤ 41 / 16 * a * q ^ 2 := by
    have h1 : Lh * s ^ 2 ≤ a * (25 / 16 * q ^ 2) := mul_le_mul hLa hs2 (sq_nonneg _) ha
    linarith
  have hR3 : R' ≤ 41 / 256 * σ * q := by linarith
  have hR4 : R' ^ 2 ≤ (41 / 256 * σ * q) ^ 2 := pow_le_pow_left₀ hR'0 hR3 2
  have hR5 : (15 / 16 * σ * q) ^ 2 ≤ R ^ 2 := pow_le_pow_left₀ (by positivity) hR1 2
  have hPv' : P * v' ≤ 25 / 64 * (σ * q) ^ 2 := by
    have h1 : P * v' ≤ P * (Lc / 2 * s ^ 2) := mul_le_mul_of_nonneg_left hv' hP
    have h2 : P * Lc * s ^ 2 ≤ σ ^ 2 / 2 * s ^ 2 := mul_le_mul_of_nonneg_right hPL (sq_nonneg _)
    have h3 : σ ^ 2 * s ^ 2 ≤ σ ^ 2 * (25 / 16 * q ^ 2) := mul_le_mul_of_nonneg_left hs2 (sq_nonneg _)
    rw [mul_pow]
    linarith
  have hPv : 0 ≤ P * v := mul_nonneg hP hv
  have hsq : 0 ≤ (σ * q) ^ 2 := sq_nonneg _
  have hmain : 1 / 2 * R' ^ 2 + P * v' ≤ 23 / 25 * (1 / 2 * R ^ 2) := by
    have e1 : (41 / 256 * σ * q) ^ 2 = 1681 / 65536 * (σ * q) ^ 2 := by ring
    have e2 : (15 / 16 * σ * q) ^ 2 = 225 / 256 * (σ * q) ^ 2 := by ring
    rw [e1] at hR4
    rw [e2] at hR5
    linarith
  have hN2 : N ^ 2 ≤ 1 / 225 * R ^ 2 := by
    have := pow_le_pow_left₀ hN0 hNR 2
    rw [mul_pow] at this
    linarith
  have hj3 : j ^ 2 ≤ 256 / 225 * R ^ 2 := by
    have := pow_le_pow_left₀ hj0 (show j ≤ 16 / 15 * R by linarith) 2
    rw [mul_pow] at this
    linarith
  have hj4 : 196 / 225 * R ^ 2 ≤ j ^ 2 := by
    have := pow_le_pow_left₀ (by linarith : (0 : ℝ) ≤ 14 / 15 * R) (show 14 / 15 * R ≤ j by linarith) 2
    rw [mul_pow] at this
    linarith
  have hRR := sq_nonneg R
  refine ⟨by linarith, ?_, by rw [hdF]; linarith, by linarith, hR2, ?_⟩
  · rw [hdF]
    have := sq_nonneg N
    linarith
  · have h1 : dF ≤ - (14 / 15 * R ^ 2) := by rw [hdF]; linarith
    rw [abs_of_nonpos (by linarith)]
    have e2 : (15 / 16 * σ * q) ^ 2 = 225 / 256 * (σ * q) ^ 2 := by ring
    rw [e2] at hR5
    have e3 : (4 / 5 * σ * q) ^ 2 = 16 / 25 * (σ * q) ^ 2 := by ring
    rw [e3]
    linarith

end MiniOpt.GN
