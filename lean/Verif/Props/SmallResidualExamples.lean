import Verif.Props.SmallResidual
import Verif.Lemmas.DemoReal

/-!
# C127 on a problem with a nonzero residual at the solution

`r(x, y) = (x, y, x²/4 + 1)` near the origin.
-/

set_option autoImplicit false

namespace MiniOpt.Props

open MiniOpt.Spec MiniOpt.NLS MiniOpt.DemoReal

/-- `x`. -/
noncomputable def sideX : Residual ℝ := res2 (fun x _ => x) (fun _ _ => 1) fun _ _ => 0

/-- `y`. -/
noncomputable def sideY : Residual ℝ := res2 (fun _ y => y) (fun _ _ => 0) fun _ _ => 1

/-- `x² / 4 + 1`. -/
noncomputable def lift : Residual ℝ := res2 (fun x _ => x ^ 2 / 4 + 1) (fun x _ => x / 2) fun _ _ => 0

noncomputable def liftEnv : Env 2 2 ℝ := mkEnv ⟨[sideX, sideY, lift], [], []⟩

theorem lift_ok : WellPosed liftEnv.p 2 := by
  refine mk_wellPosed _ ?_ ?_
  · intro r hr
    have hr' : r ∈ [sideX, sideY, lift] := by simpa [liftEnv, mkEnv] using hr
    rcases List.mem_cons.mp hr' with rfl | hr'
    · exact ⟨_, _, _, rfl⟩
    rcases List.mem_cons.mp hr' with rfl | hr'
    · exact ⟨_, _, _, rfl⟩
    · rcases List.mem_singleton.mp hr' with rfl; exact ⟨_, _, _, rfl⟩
  · intro c hc
    have hc' : c ∈ ([] : List (Ineq ℝ)) := hc
    cases hc'

theorem sideX_slope (x dx : Fin 2 → ℝ) (k : Fin 1) : slopeAt sideX x dx k = dx 0 := by
  have : slopeAt sideX x dx k = ∑ j : Fin 2, jacAt sideX x 2 k j * dx j := rfl
  rw [this, Fin.sum_univ_two]
  unfold sideX
  rw [res2_jac, res2_jac]
  simp

theorem sideY_slope (x dx : Fin 2 → ℝ) (k : Fin 1) : slopeAt sideY x dx k = dx 1 := by
  have : slopeAt sideY x dx k = ∑ j : Fin 2, jacAt sideY x 2 k j * dx j := rfl
  rw [this, Fin.sum_univ_two]
  unfold sideY
  rw [res2_jac, res2_jac]
  simp

theorem lift_slope (x dx : Fin 2 → ℝ) (k : Fin 1) : slopeAt lift x dx k = x 0 / 2 * dx 0 := by
  have : slopeAt lift x dx k = ∑ j : Fin 2, jacAt lift x 2 k j * dx j := rfl
  rw [this, Fin.sum_univ_two]
  unfold lift
  rw [res2_jac, res2_jac]
  simp

theorem lift_sum (g : (r : Residual ℝ) → Fin r.dim → ℝ) :
    (liftEnv.p.costs.map fun r => ∑ k, g r k).sum = g sideX (0 : Fin 1) + g sideY (0 : Fin 1) + g lift (0 : Fin 1) := by
  have e (u v w : Fin 1 → ℝ) : (∑ k, u k) + ((∑ k, v k) + ((∑ k, w k) + 0)) = u 0 + v 0 + w 0 := by
    simp; ring
  exact e (g sideX) (g sideY) (g lift)

theorem lift_sum' (g : (r : Residual ℝ) → Fin r.dim → ℝ) :
    (liftEnv.p.costs.map fun r => (1 / 2) * ∑ k, g r k).sum
      = 1 / 2 * (g sideX (0 : Fin 1) + g sideY (0 : Fin 1) + g lift (0 : Fin 1)) := by
  have e (u v w : Fin 1 → ℝ) : (1 / 2) * (∑ k, u k) + ((1 / 2) * (∑ k, v k) + ((1 / 2) * (∑ k, w k) + 0))
      = 1 / 2 * (u 0 + v 0 + w 0) := by
    simp; ring
  exact e (g sideX) (g sideY) (g lift)

theorem lift_cost (x : Fin 2 → ℝ) : costAt liftEnv.p x = 1 / 2 * (x 0 ^ 2 + x 1 ^ 2 + (x 0 ^ 2 / 4 + 1) ^ 2) := by
  rw [costAt_real, lift_sum' fun r k => valueAt r x k ^ 2]
  unfold sideX sideY lift
  rw [res2_value, res2_value, res2_value]

theorem near_origin {x : Fin 2 → ℝ} (h : dist2 x (fun _ => 0) ≤ 1) : x 0 ^ 2 ≤ 1 := by
  unfold dist2 at h
  have h1 := Real.sqrt_le_left zero_le_one |>.mp h
  rw [Fin.sum_univ_two] at h1
  nlinarith [sq_nonneg (x 1 - 0)]

/-- The unit ball about the origin is such a neighbourhood with `θ = 1/2`. -/
theorem lift_smallResidual : SmallResidual liftEnv.p (fun _ => 0) 1 1 (1 / 2) 2 (1 / 2) := by
  have v1 : ∀ z : Fin 2 → ℝ, valueAt sideX z (0 : Fin 1) = z 0 := fun z => res2_value _ _ _ _ _
  have v2 : ∀ z : Fin 2 → ℝ, valueAt sideY z (0 : Fin 1) = z 1 := fun z => res2_value _ _ _ _ _
  have v3 : ∀ z : Fin 2 → ℝ, valueAt lift z (0 : Fin 1) = z 0 ^ 2 / 4 + 1 := fun z => res2_value _ _ _ _ _
  have hd : ∀ x y : Fin 2 → ℝ, dist2 x y ^ 2 = (x 0 - y 0) ^ 2 + (x 1 - y 1) ^ 2 := by
    intro x y
    unfold dist2
    rw [Real.sq_sqrt (Finset.sum_nonneg fun i _ => sq_nonneg _), Fin.sum_univ_two]
  refine ⟨?_, ?_, ?_, ?_, ?_, by norm_num, by norm_num, by norm_num, by norm_num, ?_, by norm_num⟩
  · intro v
    unfold costSlope
    rw [lift_sum fun r k => valueAt r (fun _ => 0) k * slopeAt r (fun _ => 0) v k, v1, v2, v3, sideX_slope, sideY_slope,
      lift_slope]
    ring
  · intro x hx d
    rw [lift_sum fun r k => slopeAt r x d k ^ 2, sideX_slope, sideY_slope, lift_slope, Fin.sum_univ_two]
    have := sq_nonneg (x 0 / 2 * d 0)
    linarith
  · intro x hx d
    have h0 := near_origin hx
    rw [lift_sum fun r k => slopeAt r x d k ^ 2, sideX_slope, sideY_slope, lift_slope, Fin.sum_univ_two]
    have := mul_le_mul_of_nonneg_right h0 (sq_nonneg (d 0))
    have e : (x 0 / 2 * d 0) ^ 2 = x 0 ^ 2 * d 0 ^ 2 / 4 := by ring
    rw [e]
    nlinarith [sq_nonneg (d 0), sq_nonneg (d 1)]
  · intro x hx v
    rw [lift_sum fun r k => (slopeAt r x v k - slopeAt r (fun _ => 0) v k) ^ 2, sideX_slope, sideY_slope, lift_slope,
      sideX_slope, sideY_slope, lift_slope, Fin.sum_univ_two, mul_pow, hd]
    have h1 : 0 ≤ (x 1 ^ 2) * (v 0 ^ 2 + v 1 ^ 2) := by positivity
    have h2 : 0 ≤ (x 0 ^ 2) * v 1 ^ 2 := by positivity
    have e : (v 0 - v 0) ^ 2 + (v 1 - v 1) ^ 2 + (x 0 / 2 * v 0 - 0 / 2 * v 0) ^ 2 = x 0 ^ 2 * v 0 ^ 2 / 4 := by ring
    rw [e]
    have e' : (1 / 2) ^ 2 * ((x 0 - 0) ^ 2 + (x 1 - 0) ^ 2) * (v 0 ^ 2 + v 1 ^ 2)
      = x 0 ^ 2 * v 0 ^ 2 / 4 + (x 0 ^ 2) * v 1 ^ 2 / 4 + (x 1 ^ 2) * (v 0 ^ 2 + v 1 ^ 2) / 4 := by ring
    rw [e']
    linarith
  · intro x y hx hy
    rw [lift_sum fun r k => (valueAt r y k - valueAt r x k - slopeAt r x (fun i => y i - x i) k) ^ 2, sideX_slope,
      sideY_slope, lift_slope, v1, v1, v2, v2, v3, v3, hd]
    have e : (y 0 - x 0 - (y 0 - x 0)) ^ 2 + (y 1 - x 1 - (y 1 - x 1)) ^ 2
        + (y 0 ^ 2 / 4 + 1 - (x 0 ^ 2 / 4 + 1) - x 0 / 2 * (y 0 - x 0)) ^ 2 = (1 / 4 * (x 0 - y 0) ^ 2) ^ 2 := by ring
    rw [e]
    refine pow_le_pow_left₀ (by positivity) ?_ 2
    nlinarith [sq_nonneg (x 1 - y 1)]
  · rw [lift_cost]
    norm_num

/-- The hypotheses of C127 and its conclusion: with the default parameters and up to 40 iterations, `Solve` started anywhere in the unit
ball makes between one and 30 iterations, never runs into `max_iterations`, tries full steps only and ends within
`0.04` of the solution, where the cost is 1/2. -/
example (x0 : Fin 2 → ℝ) (hx0 : dist2 x0 (fun _ => 0) ≤ 1) :
    ∃ o' out calls, solve liftEnv { (NLSParams.default : NLSParams ℝ) with maxIterations := 40 } x0 (mkObj _)
        = .ok (o', out, calls) ∧
      1 ≤ out.iterations.length ∧ out.iterations.length ≤ 30 ∧ out.termination ≠ .maxIterations ∧
      (∀ it ∈ out.iterations, ∃ st, it.lineSearchSteps = [st] ∧ st.alpha = 1) ∧
      dist2 o'.vars (fun _ => 0) ≤ 4 / 100 := by
  set prm : NLSParams ℝ := { (NLSParams.default : NLSParams ℝ) with maxIterations := 40 } with hprm
  have hvalid : NLSParamsValid prm := by
    rw [hprm]
    constructor <;> simp only [NLSParams.default, real_lit] <;> norm_num
  obtain ⟨o', out, calls, h, hne⟩ := ip_run _ lift_ok (by simp [liftEnv, mkEnv]) (fun c hc => by cases hc)
    prm hvalid (by simp only [hprm, NLSParams.default]; norm_num) (by simp only [hprm]; norm_num) x0
  have hlam : prm.lambdaInitial ≤ 0 := le_refl _
  have habs : prm.absoluteExitTol = 1 / 10 ^ 12 := by
    simp only [hprm, NLSParams.default, real_lit]; norm_num
  have hfo : prm.absoluteFirstDerivativeTol = 1 / 10 ^ 6 := by
    simp only [hprm, NLSParams.default, real_lit]; norm_num
  have hrel : prm.relativeExitTol = 1 / 10 ^ 5 := by
    simp only [hprm, NLSParams.default, real_lit]; norm_num
  obtain ⟨h1, h2⟩ := C127_finishes liftEnv exactEigen_contract rfl lift_ok rfl rfl _ _ _ _ _ _ lift_smallResidual le_rfl prm hlam x0
    hx0 _ o' out calls h 29 (by simp only [hprm]; norm_num) (by
      rw [hfo]
      have h0 := dist2_nonneg x0 (fun _ => (0 : ℝ))
      have : 2 * (7 / 4 * ((3 / 4) ^ 29 * dist2 x0 fun _ => 0)) ≤ 2 * (7 / 4 * ((3 / 4) ^ 29 * 1)) := by
        have := mul_le_mul_of_nonneg_left hx0 (show (0 : ℝ) ≤ (3 / 4) ^ 29 by positivity)
        linarith
      refine lt_of_le_of_lt (pow_le_pow_left₀ (by positivity) this 2) ?_
      norm_num)
  have h3 := C127_linear liftEnv exactEigen_contract rfl lift_ok rfl rfl _ _ _ _ _ _ lift_smallResidual le_rfl prm hlam x0
    hx0 _ o' out calls h
  obtain ⟨-, h4⟩ := C127_result liftEnv exactEigen_contract rfl lift_ok rfl rfl _ _ _ _ _ _ lift_smallResidual le_rfl prm hlam x0
    hx0 _ o' out calls h
  refine ⟨o', out, calls, h, List.length_pos_iff.mpr hne, h1, h2, h3.1, ?_⟩
  have hd := dist2_nonneg o'.vars (fun _ => (0 : ℝ))
  rw [habs, hfo, hrel, lift_cost, lift_cost] at h4
  cases ht : out.termination with
  | satisfiedAbsoluteTol => simp only [ht] at h4; nlinarith
  | satisfiedRelativeTol =>
    simp only [ht] at h4
    have hb := near_origin hx0
    have hd0 : x0 0 ^ 2 + x0 1 ^ 2 ≤ 1 := by
      unfold dist2 at hx0
      have h5 := Real.sqrt_le_left zero_le_one |>.mp hx0
      rw [Fin.sum_univ_two] at h5
      linarith
    have h6 : (x0 0 ^ 2 / 4 + 1) ^ 2 ≤ (1 / 4 + 1) ^ 2 := pow_le_pow_left₀ (by positivity) (by linarith) 2
    have h7 : dist2 o'.vars (fun _ => 0) ^ 2 ≤ (4 / 100) ^ 2 := by
      rw [one_mul] at h4
      norm_num at h4 h6 ⊢
      linarith
    exact sqrt_le hd (by norm_num) h7
  | satisfiedFirstOrderTol => simp only [ht] at h4; nlinarith
  | maxLambda => simp only [ht] at h4
  | maxIterations => exact absurd ht h2
  | qpIndefinite => simp only [ht] at h4
  | userCallback =>
    simp only [ht] at h4
    exact absurd rfl h4

end MiniOpt.Props
