import Verif.Props.QuadraticConvergence
import Verif.Lemmas.DemoReal

/-!
# C88 on Rosenbrock's function

`r(x, y) = (10 (y - x²), 1 - x)` near `(1, 1)`.
-/

set_option autoImplicit false

namespace MiniOpt.Props

open MiniOpt.Spec MiniOpt.NLS MiniOpt.DemoReal

/-- `10 (y - x²)`. -/
noncomputable def valley : Residual ℝ :=
  res2 (fun x y => 10 * (y - x ^ 2)) (fun x _ => -20 * x) fun _ _ => 10

/-- `1 - x`. -/
noncomputable def flank : Residual ℝ := res2 (fun x _ => 1 - x) (fun _ _ => -1) fun _ _ => 0

noncomputable def rosenEnv : Env 2 2 ℝ := mkEnv ⟨[valley, flank], [], []⟩

theorem rosen_ok : WellPosed rosenEnv.p 2 := by
  refine mk_wellPosed _ ?_ ?_
  · intro r hr
    have hr' : r ∈ [valley, flank] := by simpa [rosenEnv, mkEnv] using hr
    rcases List.mem_cons.mp hr' with rfl | hr'
    · exact ⟨_, _, _, rfl⟩
    · rcases List.mem_singleton.mp hr' with rfl; exact ⟨_, _, _, rfl⟩
  · intro c hc
    have hc' : c ∈ ([] : List (Ineq ℝ)) := hc
    cases hc'

theorem valley_slope (x dx : Fin 2 → ℝ) (k : Fin 1) : slopeAt valley x dx k = -20 * x 0 * dx 0 + 10 * dx 1 := by
  have : slopeAt valley x dx k = ∑ j : Fin 2, jacAt valley x 2 k j * dx j := rfl
  rw [this, Fin.sum_univ_two]
  unfold valley
  rw [res2_jac, res2_jac]
  simp

theorem flank_slope (x dx : Fin 2 → ℝ) (k : Fin 1) : slopeAt flank x dx k = -dx 0 := by
  have : slopeAt flank x dx k = ∑ j : Fin 2, jacAt flank x 2 k j * dx j := rfl
  rw [this, Fin.sum_univ_two]
  unfold flank
  rw [res2_jac, res2_jac]
  simp

theorem rosen_sum (g : (r : Residual ℝ) → Fin r.dim → ℝ) :
    (rosenEnv.p.costs.map fun r => ∑ k, g r k).sum = g valley (0 : Fin 1) + g flank (0 : Fin 1) := by
  have e : ∀ f : Fin 1 → ℝ, ∑ k, f k = f 0 := fun f => Fin.sum_univ_one f
  have : (rosenEnv.p.costs.map fun r => ∑ k, g r k).sum
      = (∑ k : Fin 1, g valley k) + ((∑ k : Fin 1, g flank k) + 0) := rfl
  exact this.trans ((congrArg₂ (· + ·) (e fun k => g valley k)
    (congrArg (· + (0 : ℝ)) (e fun k => g flank k))).trans (by rw [add_zero]))

theorem near_one {x : Fin 2 → ℝ} {ρ : ℝ} (hρ : 0 ≤ ρ) (h : dist2 x (fun _ => 1) ≤ ρ) : (x 0 - 1) ^ 2 ≤ ρ ^ 2 := by
  unfold dist2 at h
  have h1 := Real.sqrt_le_left hρ |>.mp h
  rw [Fin.sum_univ_two] at h1
  nlinarith [sq_nonneg (x 1 - 1)]

/-- A ball of radius `0.007` about `(1, 1)` is a basin. -/
theorem rosen_basin : Basin rosenEnv.p (fun _ => 1) (7 / 1000) (3 / 10) 20 := by
  refine ⟨?_, ?_, ?_, by norm_num, by norm_num, by norm_num, by norm_num⟩
  · intro r hr k
    have hr' : r ∈ [valley, flank] := hr
    rcases List.mem_cons.mp hr' with rfl | hr'
    · unfold valley; exact (res2_value _ _ _ _ _).trans (by norm_num)
    · rcases List.mem_singleton.mp hr' with rfl
      unfold flank; exact (res2_value _ _ _ _ _).trans (by norm_num)
  · intro x hx d
    have h0 := near_one (by norm_num) hx
    rw [rosen_sum fun r k => slopeAt r x d k ^ 2, valley_slope, flank_slope, Fin.sum_univ_two]
    have hx2 : x 0 ^ 2 ≤ 2 := by nlinarith
    have h1 : 0 ≤ (90 - 36 * x 0 ^ 2) * d 0 ^ 2 := mul_nonneg (by linarith) (sq_nonneg _)
    nlinarith [sq_nonneg (9991 / 100 * d 1 - 200 * x 0 * d 0), sq_nonneg (d 0)]
  · intro x y hx hy
    rw [rosen_sum fun r k => (valueAt r y k - valueAt r x k - slopeAt r x (fun i => y i - x i) k) ^ 2, valley_slope,
      flank_slope]
    have v1 : ∀ z, valueAt valley z (0 : Fin 1) = 10 * (z 1 - z 0 ^ 2) := fun z => res2_value _ _ _ _ _
    have v2 : ∀ z, valueAt flank z (0 : Fin 1) = 1 - z 0 := fun z => res2_value _ _ _ _ _
    rw [v1, v1, v2, v2]
    have hd : dist2 x y ^ 2 = (x 0 - y 0) ^ 2 + (x 1 - y 1) ^ 2 := by
      unfold dist2
      rw [Real.sq_sqrt (Finset.sum_nonneg fun i _ => sq_nonneg _), Fin.sum_univ_two]
    rw [hd]
    have e : (10 * (y 1 - y 0 ^ 2) - 10 * (x 1 - x 0 ^ 2) - (-20 * x 0 * (y 0 - x 0) + 10 * (y 1 - x 1))) ^ 2
        + (1 - y 0 - (1 - x 0) - -(y 0 - x 0)) ^ 2 = (10 * (x 0 - y 0) ^ 2) ^ 2 := by ring
    rw [e]
    refine pow_le_pow_left₀ (by positivity) ?_ 2
    nlinarith [sq_nonneg (x 1 - y 1)]

/-- The hypotheses of C88 and its conclusion: with the default parameters, `Solve` started anywhere within `0.007` of
`(1, 1)` makes one, two or three iterations, never runs into `max_iterations`, tries full steps only and ends within
`0.0045` of the solution. -/
example (x0 : Fin 2 → ℝ) (hx0 : dist2 x0 (fun _ => 1) ≤ 7 / 1000) :
    ∃ o' out calls, solve rosenEnv NLSParams.default x0 (mkObj _) = .ok (o', out, calls) ∧
      1 ≤ out.iterations.length ∧ out.iterations.length ≤ 3 ∧ out.termination ≠ .maxIterations ∧
      (∀ it ∈ out.iterations, ∃ st, it.lineSearchSteps = [st] ∧ st.alpha = 1) ∧
      dist2 o'.vars (fun _ => 1) ≤ 9 / 2000 := by
  obtain ⟨o', out, calls, h, hne⟩ := ip_run _ rosen_ok (by simp [rosenEnv, mkEnv]) (fun c hc => by cases hc)
    (NLSParams.default : NLSParams ℝ) nls_default_valid (by simp only [NLSParams.default]; norm_num)
    (by simp only [NLSParams.default]; norm_num) x0
  have hlam : (NLSParams.default : NLSParams ℝ).lambdaInitial ≤ 0 := le_refl _
  have habs : (NLSParams.default : NLSParams ℝ).absoluteExitTol = 1 / 10 ^ 12 := by
    simp only [NLSParams.default, real_lit]; norm_num
  have hfo : (NLSParams.default : NLSParams ℝ).absoluteFirstDerivativeTol = 1 / 10 ^ 6 := by
    simp only [NLSParams.default, real_lit]; norm_num
  obtain ⟨h1, h2⟩ := C88_finishes rosenEnv exactEigen_contract rfl rosen_ok rfl rfl _ _ _ _ rosen_basin _ hlam x0 hx0 _ o' out calls h
    2 (by simp only [NLSParams.default]; norm_num) (by rw [habs]; norm_num)
  have h3 := C88_quadratic rosenEnv exactEigen_contract rfl rosen_ok rfl rfl _ _ _ _ rosen_basin _ hlam x0 hx0 _ o' out calls h
  have h4 := C88_result rosenEnv exactEigen_contract rfl rosen_ok rfl rfl _ _ _ _ rosen_basin _ hlam
    (by simp only [NLSParams.default, real_lit]; norm_num) x0 hx0 _ o' out calls h
  refine ⟨o', out, calls, h, List.length_pos_iff.mpr hne, h1, h2, h3.1, ?_⟩
  have hd := dist2_nonneg o'.vars (fun _ => (1 : ℝ))
  rw [habs, hfo] at h4
  cases ht : out.termination with
  | satisfiedAbsoluteTol => simp only [ht] at h4; nlinarith
  | satisfiedFirstOrderTol => simp only [ht] at h4; nlinarith
  | maxIterations => exact absurd ht h2
  | userCallback => simp only [ht] at h4; exact absurd rfl h4
  | satisfiedRelativeTol => simp only [ht] at h4
  | qpIndefinite => simp only [ht] at h4
  | maxLambda => simp only [ht] at h4

end MiniOpt.Props
