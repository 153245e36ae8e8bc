import Verif.Lemmas.GaussNewton

/-!
# Geometry of a Gauss-Newton step near a stationary point with small residual
-/

set_option autoImplicit false

namespace MiniOpt.GN

open scoped RealInnerProductSpace

variable {E F : Type} [NormedAddCommGroup E] [NormedSpace ℝ E] [NormedAddCommGroup F] [InnerProductSpace ℝ F]

/-- `e` is the displacement from the solution, `r0` the residual there and `J0` the Jacobian there; `d` the step. -/
theorem small_step {J J0 : E →ₗ[ℝ] F} {r r0 r' : F} {e d : E} {σ L θ : ℝ} (hσ : 0 < σ) (hL : 0 ≤ L)
    (hθ : θ ≤ 1 / 2) (hres : L * ‖r0‖ ≤ θ * σ ^ 2) (hsm : L * ‖e‖ ≤ σ / 2)
    (hstat : ∀ h, ⟪r0, J0 h⟫ = 0) (hnormal : ∀ h, ⟪r + J d, J h⟫ = 0) (hrank : ∀ h, σ * ‖h‖ ≤ ‖J h‖)
    (hlip : ∀ h, ‖J h - J0 h‖ ≤ L * ‖e‖ * ‖h‖) (he : ‖r0 - r + J e‖ ≤ L / 2 * ‖e‖ ^ 2)
    (he' : ‖r' - r - J d‖ ≤ L / 2 * ‖d‖ ^ 2) :
    ‖e + d‖ ≤ θ * ‖e‖ + L / (2 * σ) * ‖e‖ ^ 2 ∧ ‖e + d‖ ≤ 3 / 4 * ‖e‖ ∧
      1 / 2 * ‖r'‖ ^ 2 ≤ 1 / 2 * ‖r‖ ^ 2 - 9 / 100 * ‖J d‖ ^ 2 := by
  have he0 := norm_nonneg e
  set u := J (e + d) with hu
  set m := r0 - r + J e with hm
  have hdec : r + J d = r0 + (u - m) := by rw [hu, hm, map_add]; abel
  have h1 := hnormal (e + d)
  rw [← hu, hdec] at h1
  have hn0 : ‖r0‖ * (L * ‖e‖) ≤ θ * σ ^ 2 * ‖e‖ := by
    have := mul_le_mul_of_nonneg_right hres he0
    linarith
  have hcross : -⟪r0, u⟫ ≤ ‖r0‖ * (L * ‖e‖ * ‖e + d‖) := by
    have h2 : ⟪r0, u⟫ = ⟪r0, u - J0 (e + d)⟫ := by rw [inner_sub_right, hstat, sub_zero]
    rw [h2]
    have h3 := abs_real_inner_le_norm r0 (u - J0 (e + d))
    have h4 := (neg_le_abs _).trans h3
    exact h4.trans (mul_le_mul_of_nonneg_left (hlip (e + d)) (norm_nonneg _))
  have hu2 : ‖u‖ ^ 2 = -⟪r0, u⟫ + ⟪m, u⟫ := by
    rw [inner_add_left, inner_sub_left, real_inner_self_eq_norm_sq] at h1
    linarith
  have hmu : ⟪m, u⟫ ≤ L / 2 * ‖e‖ ^ 2 * ‖u‖ :=
    (real_inner_le_norm m u).trans (mul_le_mul_of_nonneg_right he (norm_nonneg _))
  have hru := hrank (e + d)
  rw [← hu] at hru
  have hw0 := norm_nonneg (e + d)
  have hub : σ * ‖e + d‖ ≤ θ * σ * ‖e‖ + L / 2 * ‖e‖ ^ 2 := by
    have h2 : ‖u‖ ^ 2 ≤ ‖r0‖ * (L * ‖e‖) * ‖e + d‖ + L / 2 * ‖e‖ ^ 2 * ‖u‖ := by linarith
    have h3 : ‖r0‖ * (L * ‖e‖) * ‖e + d‖ ≤ θ * σ ^ 2 * ‖e‖ * ‖e + d‖ := mul_le_mul_of_nonneg_right hn0 hw0
    rcases eq_or_lt_of_le (norm_nonneg u) with h0 | h0
    · rw [← h0] at hru
      have hθ0 : 0 ≤ θ * σ * ‖e‖ := by
        have : 0 ≤ θ * σ ^ 2 := le_trans (mul_nonneg hL (norm_nonneg _)) hres
        have hθ' : 0 ≤ θ := by
          by_contra hc
          have := mul_neg_of_neg_of_pos (not_le.mp hc) (pow_pos hσ 2)
          linarith
        positivity
      have : 0 ≤ L / 2 * ‖e‖ ^ 2 := by positivity
      linarith
    · have hθ0 : 0 ≤ θ * σ * ‖e‖ := by
        have h5 : 0 ≤ θ * σ ^ 2 := le_trans (mul_nonneg hL (norm_nonneg _)) hres
        have hθ' : 0 ≤ θ := by
          by_contra hc
          have := mul_neg_of_neg_of_pos (not_le.mp hc) (pow_pos hσ 2)
          linarith
        positivity
      have h4 : ‖u‖ * ‖u‖ ≤ (θ * σ * ‖e‖ + L / 2 * ‖e‖ ^ 2) * ‖u‖ := by
        have h5 : θ * σ ^ 2 * ‖e‖ * ‖e + d‖ = (θ * σ * ‖e‖) * (σ * ‖e + d‖) := by ring
        have h6 := mul_le_mul_of_nonneg_left hru hθ0
        rw [h5] at h3
        linarith
      exact hru.trans (le_of_mul_le_mul_right h4 h0)
  have hfirst : ‖e + d‖ ≤ θ * ‖e‖ + L / (2 * σ) * ‖e‖ ^ 2 := by
    have e1 : σ * (θ * ‖e‖ + L / (2 * σ) * ‖e‖ ^ 2) = θ * σ * ‖e‖ + L / 2 * ‖e‖ ^ 2 := by field_simp
    rw [← e1] at hub
    exact le_of_mul_le_mul_left hub hσ
  have hLe : L / 2 * ‖e‖ ^ 2 ≤ σ / 4 * ‖e‖ := by
    have := mul_le_mul_of_nonneg_right hsm he0
    linarith
  have hsecond : ‖e + d‖ ≤ 3 / 4 * ‖e‖ := by
    have h2 : θ * σ * ‖e‖ ≤ 1 / 2 * (σ * ‖e‖) := by
      have := mul_le_mul_of_nonneg_right hθ (mul_nonneg hσ.le he0)
      linarith
    have h3 : σ * ‖e + d‖ ≤ σ * (3 / 4 * ‖e‖) := by linarith
    exact le_of_mul_le_mul_left h3 hσ
  refine ⟨hfirst, hsecond, ?_⟩
  have hd0 := norm_nonneg d
  have hd : ‖d‖ ≤ 7 / 4 * ‖e‖ := by
    have e1 : d = (e + d) - e := by abel
    have := norm_sub_le (e + d) e
    rw [← e1] at this
    linarith
  have hN : ‖r + J d‖ ≤ ‖r0‖ + L / 2 * ‖e‖ ^ 2 := by
    have h2 : ⟪u - (m - r0), u⟫ = 0 := by
      have : u - (m - r0) = r0 + (u - m) := by abel
      rw [this]; exact h1
    have h3 := (thales h2).2
    have e2 : u - (m - r0) = r + J d := by rw [hdec]; abel
    rw [e2] at h3
    refine h3.trans ?_
    have := norm_sub_le m r0
    linarith
  have hLN : L * ‖r + J d‖ ≤ 5 / 8 * σ ^ 2 := by
    have h2 := mul_le_mul_of_nonneg_left hN hL
    have h3 : L * (L / 2 * ‖e‖ ^ 2) = 1 / 2 * (L * ‖e‖) ^ 2 := by ring
    have h4 : (L * ‖e‖) ^ 2 ≤ (σ / 2) ^ 2 := pow_le_pow_left₀ (by positivity) hsm 2
    have h5 : θ * σ ^ 2 ≤ 1 / 2 * σ ^ 2 := mul_le_mul_of_nonneg_right hθ (sq_nonneg _)
    rw [mul_add, h3] at h2
    rw [div_pow] at h4
    linarith
  have hpyth : ‖r‖ ^ 2 = ‖r + J d‖ ^ 2 + ‖J d‖ ^ 2 := by
    have h2 := norm_sub_sq_real (r + J d) (J d)
    rw [hnormal d] at h2
    have e1 : r + J d - J d = r := by abel
    rw [e1] at h2
    linarith
  have hr' : ‖r'‖ ≤ ‖r + J d‖ + L / 2 * ‖d‖ ^ 2 := by
    have e1 : r' = (r + J d) + (r' - r - J d) := by abel
    calc ‖r'‖ = ‖(r + J d) + (r' - r - J d)‖ := by rw [← e1]
      _ ≤ ‖r + J d‖ + ‖r' - r - J d‖ := norm_add_le _ _
      _ ≤ _ := by linarith
  have hJd : σ ^ 2 * ‖d‖ ^ 2 ≤ ‖J d‖ ^ 2 := by
    rw [← mul_pow]
    exact pow_le_pow_left₀ (by positivity) (hrank d) 2
  have hsq := pow_le_pow_left₀ (norm_nonneg _) hr' 2
  have hLd : (L * ‖d‖) ^ 2 ≤ (7 / 8 * σ) ^ 2 := by
    refine pow_le_pow_left₀ (by positivity) ?_ 2
    have := mul_le_mul_of_nonneg_left hd hL
    linarith
  have h6 : ‖r + J d‖ * (L * ‖d‖ ^ 2) ≤ 5 / 8 * (σ ^ 2 * ‖d‖ ^ 2) := by
    have := mul_le_mul_of_nonneg_right hLN (sq_nonneg ‖d‖)
    linarith
  have h7 : (L * ‖d‖) ^ 2 * ‖d‖ ^ 2 ≤ (7 / 8 * σ) ^ 2 * ‖d‖ ^ 2 := mul_le_mul_of_nonneg_right hLd (sq_nonneg _)
  have e8 : (‖r + J d‖ + L / 2 * ‖d‖ ^ 2) ^ 2 = ‖r + J d‖ ^ 2 + ‖r + J d‖ * (L * ‖d‖ ^ 2) + 1 / 4 * ((L * ‖d‖) ^ 2 * ‖d‖ ^ 2) := by
    ring
  have e9 : (7 / 8 * σ) ^ 2 * ‖d‖ ^ 2 = 49 / 64 * (σ ^ 2 * ‖d‖ ^ 2) := by ring
  rw [e8] at hsq
  rw [e9] at h7
  generalize σ ^ 2 * ‖d‖ ^ 2 = S at *
  generalize (L * ‖d‖) ^ 2 * ‖d‖ ^ 2 = T at *
  generalize ‖r + J d‖ * (L * ‖d‖ ^ 2) = U at *
  linarith only [hsq, h6, h7, hJd, hpyth, sq_nonneg ‖J d‖]

end MiniOpt.GN
