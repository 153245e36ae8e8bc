import Verif.Props.EqualityQuadratic
import Verif.Props.EqualityExamples

/-!
# C126: when its assumptions hold
-/

set_option autoImplicit false

namespace MiniOpt.Props

open MiniOpt.Spec MiniOpt.NLS MiniOpt.DemoReal

variable {D : Nat}

/-- **C126** (the constraints in familiar terms). If no combination of the rows of the constraint Jacobian at `x` is shorter than `τ`
times its coefficients, every right-hand side is reached by a displacement at most `1/τ` times as long. -/
theorem C126_independent (p : Problem D ℝ) (τ : ℝ) (hτ : 0 < τ) (x : Fin D → ℝ) (h : RowsIndependentAt p τ x)
    (v : (r : Residual ℝ) → Fin r.dim → ℝ) :
    ∃ w : Fin D → ℝ, (∀ r ∈ p.eqs, ∀ k, slopeAt r x w k = v r k) ∧
      Real.sqrt (∑ i, w i ^ 2) ≤ 1 / τ * (p.eqs.map fun r => ∑ k, |v r k|).sum := by
  obtain ⟨w, w1, w2⟩ := rows_reach p τ hτ x h v
  refine ⟨w, w1, ?_⟩
  have h0 : 0 ≤ 1 / τ * (p.eqs.map fun r => ∑ k, |v r k|).sum := by
    refine mul_nonneg (by positivity) (List.sum_nonneg fun a ha => ?_)
    obtain ⟨r, _, rfl⟩ := List.mem_map.mp ha
    exact Finset.sum_nonneg fun k _ => abs_nonneg _
  rw [← Real.sqrt_sq h0]
  exact Real.sqrt_le_sqrt w2

theorem dist2_sq (x y : Fin D → ℝ) : dist2 x y ^ 2 = ∑ i, (x i - y i) ^ 2 := by
  unfold dist2
  rw [Real.sq_sqrt (Finset.sum_nonneg fun i _ => sq_nonneg _)]

/-- The parabola `K (x + y²) = 0` with costs `x`, `y`: a basin of radius 1/16 about the origin. -/
theorem arc_eqBasin (K : ℝ) (hK : 0 < K) : EqBasin (arcEnv K).p (fun _ => 0) (1 / 16) 1 0 1 (1 / K) (2 * K) := by
  have hkl : 1 / K * (2 * K) = 2 := by field_simp
  have hslopes : ∀ x d : Fin 2 → ℝ, ((arcEnv K).p.costs.map fun r => ∑ k, slopeAt r x d k ^ 2).sum = d 0 ^ 2 + d 1 ^ 2 := by
    intro x d
    have h := arc_curvature K x d 0 le_rfl
    unfold curvature at h
    simpa using h
  refine ⟨⟨?_, ?_, ?_, by norm_num, one_pos, le_rfl, by norm_num⟩, ?_, ?_, ?_, ?_, ⟨zero_le_one, by positivity, by positivity⟩, ?_, ?_⟩
  · intro r hr k
    rcases List.mem_cons.mp (show r ∈ [arcX, arcY] from hr) with rfl | hr
    · exact arcX_value (fun _ => 0) k
    · rcases List.mem_singleton.mp hr with rfl
      exact arcY_value (fun _ => 0) k
  · intro x _ d
    rw [hslopes, Fin.sum_univ_two]
    linarith
  · intro x y _ _
    have : ((arcEnv K).p.costs.map fun r => ∑ k, (valueAt r y k - valueAt r x k - slopeAt r x (fun i => y i - x i) k) ^ 2).sum
        = (∑ k : Fin 1, (valueAt arcX y k - valueAt arcX x k - slopeAt arcX x (fun i => y i - x i) k) ^ 2)
          + ((∑ k : Fin 1, (valueAt arcY y k - valueAt arcY x k - slopeAt arcY x (fun i => y i - x i) k) ^ 2) + 0) := rfl
    rw [this, Fin.sum_univ_one, Fin.sum_univ_one]
    simp only [arcX_value, arcY_value, arcX_slope, arcY_slope]
    simp
  · intro r hr k
    rcases List.mem_singleton.mp (show r ∈ [arcEq K] from hr) with rfl
    refine (arcEq_value K (fun _ => 0) k).trans ?_
    norm_num
  · intro x y _ _
    have : ((arcEnv K).p.eqs.map fun r => ∑ k, |valueAt r y k - valueAt r x k - slopeAt r x (fun i => y i - x i) k|).sum
        = (∑ k : Fin 1, |valueAt (arcEq K) y k - valueAt (arcEq K) x k - slopeAt (arcEq K) x (fun i => y i - x i) k|) + 0 := rfl
    rw [this, Fin.sum_univ_one, arcEq_value, arcEq_value, arcEq_slope, add_zero, dist2_sq, Fin.sum_univ_two]
    have e : K * (y 0 + y 1 ^ 2) - K * (x 0 + x 1 ^ 2) - K * (y 0 - x 0 + 2 * x 1 * (y 1 - x 1)) = K * (x 1 - y 1) ^ 2 := by ring
    rw [e, abs_of_nonneg (by positivity)]
    have : 0 ≤ K * (x 0 - y 0) ^ 2 := by positivity
    linarith
  · intro x _ v
    rw [hslopes, Fin.sum_univ_two]
    linarith
  · intro x _ v
    refine ⟨fun i => if i = 0 then v (arcEq K) (0 : Fin 1) / K else 0, ?_, ?_⟩
    · intro r hr k
      rcases List.mem_singleton.mp (show r ∈ [arcEq K] from hr) with rfl
      refine (arcEq_slope K x _ k).trans ?_
      have hk : k = (0 : Fin 1) := Subsingleton.elim (α := Fin 1) _ _
      rw [hk]
      simp
      field_simp
    · have : ((arcEnv K).p.eqs.map fun r => ∑ k, |v r k|).sum = (∑ k : Fin 1, |v (arcEq K) k|) + 0 := rfl
      rw [this, Fin.sum_univ_one, add_zero, Fin.sum_univ_two]
      simp only [if_true, one_ne_zero, if_false]
      rw [zero_pow two_ne_zero, add_zero, Real.sqrt_sq_eq_abs, abs_div, abs_of_pos hK]
      exact le_of_eq (by ring)
  · rw [mul_assoc, hkl]; norm_num
  · rw [hkl]; norm_num

/-- C126 on the parabola with `K = 1/4` and default parameters (compare `C110_default`, where `K = 1` and full steps are refused):
from every start within 1/16 of the solution the solver makes full steps only, at most five, each squaring the distance (times two),
and ends by the absolute or the first-order tolerance within 0.0013 of the solution. -/
example (x0 : Fin 2 → ℝ) (hx0 : dist2 x0 (fun _ => 0) ≤ 1 / 16) :
    ∃ (o' : (arcEnv (1 / 4)).Obj) (out : NLSOutputs ℝ) (calls : List (NLSIteration ℝ)),
      solve (arcEnv (1 / 4)) dp x0 (mkObj _) = .ok (o', out, calls) ∧ out.iterations ≠ [] ∧ out.iterations.length ≤ 5 ∧
      (∀ it ∈ out.iterations, it.penalty = 1 ∧ ∃ st, it.lineSearchSteps = [st] ∧ st.alpha = 1) ∧
      (out.termination = .satisfiedAbsoluteTol ∨ out.termination = .satisfiedFirstOrderTol) ∧
      dist2 o'.vars (fun _ => 0) ≤ 13 / 10000 := by
  have hpi : (dp : NLSParams ℝ).equalityPenaltyInitial = 1 := by simp [dp, NLSParams.default, real_lit]
  have hpen : 0 < (dp : NLSParams ℝ).equalityPenaltyInitial := by rw [hpi]; exact one_pos
  have hcap : (dp : NLSParams ℝ).equalityPenaltyInitial * (2 * (1 / 4)) ≤ 1 ^ 2 / 2 := by rw [hpi]; norm_num
  have hl : (dp : NLSParams ℝ).lambdaInitial ≤ 0 := by simp [dp, NLSParams.default, real_lit]
  have hQ := arc_eqBasin (1 / 4) (by norm_num)
  have hrel : (dp : NLSParams ℝ).relativeExitTol ≤ 2 / 25 := by simp only [dp, NLSParams.default, real_lit]; norm_num
  have habs : (dp : NLSParams ℝ).absoluteExitTol = 1 / 10 ^ 12 := by simp only [dp, NLSParams.default, real_lit]; norm_num
  have hfo : (dp : NLSParams ℝ).absoluteFirstDerivativeTol = 1 / 10 ^ 6 := by simp only [dp, NLSParams.default, real_lit]; norm_num
  obtain ⟨o', out, calls, h, hne⟩ := arc_run (1 / 4) (by norm_num) dp nls_default_valid hpen dp_iterations x0
  obtain ⟨h1, -⟩ := C126_quadratic (arcEnv (1 / 4)) exactNS_contract rfl (arc_ok _) rfl (arc_eqs _) _ _ _ _ _ _ _ hQ dp hpen hcap hl
    x0 hx0 _ o' out calls h
  have h2 := C126_result (arcEnv (1 / 4)) exactNS_contract rfl (arc_ok _) rfl (arc_eqs _) _ _ _ _ _ _ _ hQ dp hpen hcap hl hrel
    x0 hx0 _ o' out calls h
  obtain ⟨h3, h4⟩ := C126_finishes (arcEnv (1 / 4)) exactNS_contract rfl (arc_ok _) rfl (arc_eqs _) _ _ _ _ _ _ _ hQ dp hpen hcap hl
    x0 hx0 _ o' out calls h 4 (by decide) (by rw [habs]; norm_num) (by rw [habs]; norm_num)
  have hd0 := dist2_nonneg o'.vars (fun _ => 0)
  refine ⟨o', out, calls, h, hne, h3, fun it hm => ?_, ?_⟩
  · obtain ⟨a, -, b⟩ := h1 it hm
    exact ⟨a.trans hpi, b⟩
  · cases ht : out.termination <;> rw [ht] at h2
    case satisfiedAbsoluteTol =>
      refine ⟨.inl rfl, ?_⟩
      have h2 : (3 / 4 * 1 * dist2 o'.vars (fun _ => 0)) ^ 2 ≤ 2 * dp.absoluteExitTol := h2
      rw [habs] at h2
      by_contra hc
      have := not_le.mp hc
      nlinarith
    case satisfiedFirstOrderTol =>
      refine ⟨.inr rfl, ?_⟩
      have h2 : (4 / 5 * 1 * dist2 o'.vars (fun _ => 0)) ^ 2 ≤ dp.absoluteFirstDerivativeTol := h2
      rw [hfo] at h2
      by_contra hc
      have := not_le.mp hc
      nlinarith
    case maxIterations => exact absurd ht h4
    case userCallback => exact absurd rfl h2
    all_goals exact h2.elim

end MiniOpt.Props
