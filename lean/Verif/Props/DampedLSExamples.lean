import Verif.Props.DampedLS
import Verif.Props.NLSExamples
import Verif.Props.GlobalExamples

/-!
# A damped linear problem
-/

set_option autoImplicit false

namespace MiniOpt.Props

open MiniOpt.Spec MiniOpt.NLS MiniOpt.DemoReal

theorem line_curved : Curved lineEnv.p (fun _ : Fin 2 → ℝ => True) 0 1 := by
  refine ⟨one_pos, fun x _ d => ?_⟩
  unfold curvature
  rw [line_costs fun r k => slopeAt r x d k ^ 2, cost1_slope, cost3_slope, Fin.sum_univ_two, max_self]
  linarith

/-- With `min_lambda = lambda_initial = 1/2` every accepted iteration divides the distance to the minimiser of
`(x - 3)² + (y - 1)²` by three; the first iteration, from the origin, is accepted. -/
example : ∃ (o' : lineEnv.Obj) (out : NLSOutputs ℝ) (calls : List (NLSIteration ℝ)) (best : Fin 2 → ℝ),
    solve lineEnv dampedPrm (fun _ => 0) (mkObj _) = .ok (o', out, calls) ∧ out.iterations ≠ [] ∧
    (∀ (k : Nat) it a, out.iterations[k]? = some it → After lineEnv dampedPrm (fun _ => 0) (mkObj _) k a →
      dist2 a.vars best ≤ (1 / 3) ^ k * dist2 (fun _ => 0) best) ∧
    out.termination ≠ .maxLambda := by
  obtain ⟨o', out, calls, h, hne⟩ := ip_run _ line_ok (by simp [lineEnv, mkEnv]) (fun c hc => by cases hc)
    dampedPrm dampedPrm_valid (by simp [dampedPrm, NLSParams.default]) (by simp [dampedPrm, NLSParams.default]) (fun _ => 0)
  obtain ⟨best, -, hrate, -⟩ := C97_damped_least_squares lineEnv exactEigen_contract rfl line_ok line_affine rfl rfl 1
    line_curved dampedPrm _ _ _ _ _ h
  have hdec : ∀ j, dampedRate 1 (decayed dampedPrm j) = 1 / 3 := by
    intro j
    have e : decayed dampedPrm j = 1 / 2 := by
      unfold decayed
      obtain ⟨d0, d1⟩ := dampedPrm_valid.lambdaDecreaseOnSuccess
      have hp : dampedPrm.lambdaDecreaseOnSuccess ^ j ≤ 1 := pow_le_one₀ d0 d1.le
      have h1 : dampedPrm.lambdaInitial = 1 / 2 := by simp [dampedPrm]
      have h2 : dampedPrm.minLambda = 1 / 2 := by simp [dampedPrm]
      rw [h1, h2, max_eq_right (a := 1 / 2 * dampedPrm.lambdaDecreaseOnSuccess ^ j) (by linarith)]
      norm_num
    rw [e]; unfold dampedRate; norm_num
  refine ⟨o', out, calls, best, h, hne, fun k it a hit ha => ?_, ?_⟩
  · have := (hrate k it a hit ha).1
    dsimp only at this
    rw [Finset.prod_congr rfl (fun j _ => hdec j), Finset.prod_const, Finset.card_range] at this
    exact this
  · exact (C97_damping lineEnv exactEigen_contract rfl line_ok line_affine rfl rfl 1 line_curved dampedPrm _ _ _ _ _ h).1

end MiniOpt.Props
