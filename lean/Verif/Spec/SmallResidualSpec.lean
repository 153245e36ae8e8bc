import Verif.Spec.BasinSpec
import Verif.Spec.SmoothSpec
import Verif.Spec.PenaltySpec

/-!
# A neighbourhood of a stationary point with small residual
-/

set_option autoImplicit false

namespace MiniOpt.Spec

open MiniOpt MiniOpt.NLS

variable {D : Nat}

/-- The gradient of the cost vanishes at `xs`, and within distance `ρ` of it: the stacked Jacobian stretches every vector by `σ` at
least and `B` at most; it is Lipschitz at `xs` with constant `L`; the residuals differ from their linear models by at most `L / 2`
times the squared distance. The residual `√(2 cost)` at `xs` is small compared with the curvature, `L √(2 cost) ≤ θ σ²`, and
so is the ball, `L ρ ≤ σ / 2`. -/
structure SmallResidual (p : Problem D ℝ) (xs : Fin D → ℝ) (ρ σ L B θ : ℝ) : Prop where
  stationary : ∀ v : Fin D → ℝ, costSlope p xs v = 0
  stretch : ∀ x, dist2 x xs ≤ ρ → ∀ d : Fin D → ℝ,
    σ ^ 2 * ∑ i, d i ^ 2 ≤ (p.costs.map fun r => ∑ k, slopeAt r x d k ^ 2).sum
  rate : ∀ x : Fin D → ℝ, dist2 x xs ≤ ρ → CostRateAt p B x
  lipschitz : ∀ x, dist2 x xs ≤ ρ → ∀ v : Fin D → ℝ,
    (p.costs.map fun r => ∑ k, (slopeAt r x v k - slopeAt r xs v k) ^ 2).sum ≤ (L * dist2 x xs) ^ 2 * ∑ i, v i ^ 2
  model : ∀ x y, dist2 x xs ≤ ρ → dist2 y xs ≤ ρ →
    (p.costs.map fun r => ∑ k, (valueAt r y k - valueAt r x k - slopeAt r x (fun i => y i - x i) k) ^ 2).sum
      ≤ (L / 2 * dist2 x y ^ 2) ^ 2
  radius : 0 ≤ ρ
  pos : 0 < σ
  nonneg : 0 ≤ L
  nonnegB : 0 ≤ B
  residual : L * Real.sqrt (2 * costAt p xs) ≤ θ * σ ^ 2
  small : L * ρ ≤ σ / 2

end MiniOpt.Spec
