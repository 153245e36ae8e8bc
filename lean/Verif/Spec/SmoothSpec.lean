import Verif.Spec.DerivativeSpec

/-!
# The cost as a function: slope, curvature, smoothness (exact arithmetic)
-/

set_option autoImplicit false

namespace MiniOpt.Spec

open MiniOpt MiniOpt.NLS

variable {n D : Nat}

/-- Derivative of the cost `½ Σ ‖h‖²` at `x` along `d`. -/
noncomputable def costSlope (p : Problem D ℝ) (x : Fin n → ℝ) (d : Fin D → ℝ) : ℝ :=
  (p.costs.map fun r => ∑ k, valueAt r x k * slopeAt r x d k).sum

/-- The damped Gauss-Newton curvature `Σ ‖J d‖² + λ ‖d‖²` at `x` along `d`. -/
noncomputable def curvature (p : Problem D ℝ) (x : Fin n → ℝ) (lam : ℝ) (d : Fin D → ℝ) : ℝ :=
  (p.costs.map fun r => ∑ k, slopeAt r x d k ^ 2).sum + max lam 0 * ∑ i, d i ^ 2

/-- At the points of `S` the cost lies below its quadratic models of curvature `L`, as it does if its gradient is Lipschitz
with constant `L` (`C96_lipschitz`). -/
structure Smooth (p : Problem D ℝ) (S : (Fin D → ℝ) → Prop) (L : ℝ) : Prop where
  pos : 0 < L
  upper : ∀ x, S x → ∀ (d : Fin D → ℝ) (t : ℝ), 0 ≤ t → t ≤ 1 →
    costAt p (fun i => x i + t * d i) ≤ costAt p x + t * costSlope p x d + L / 2 * t ^ 2 * ∑ i, d i ^ 2

/-- At the points of `S` the damped Gauss-Newton matrix `Jᵀ J + lam I` is at least `μ`. (Always so for `μ = lam` if `0 < lam`.) -/
structure Curved (p : Problem D ℝ) (S : (Fin D → ℝ) → Prop) (lam μ : ℝ) : Prop where
  pos : 0 < μ
  lower : ∀ x, S x → ∀ d : Fin D → ℝ, μ * ∑ i, d i ^ 2 ≤ curvature p x lam d

/-- The cost at `x` is not above that at `x0`. -/
def Below (p : Problem D ℝ) (x0 x : Fin D → ℝ) : Prop := costAt p x ≤ costAt p x0

/-- No step length below this is ever refused if the cost is smooth with constant `L` and the damped Gauss-Newton matrix is at least
`μ`. -/
noncomputable def safeStep (L μ : ℝ) : ℝ := 9999 / 5000 * (μ / L)

/-- No shorter step than this is ever taken. -/
noncomputable def shortestStep (prm : NLSParams ℝ) (L μ : ℝ) : ℝ :=
  min 1 (match prm.lineSearchStrategy with
    | .armijoBacktrack => prm.armijoSearchTau * safeStep L μ
    | .polynomialApproximation => 20 / 41 * (μ / L))

/-- A step length is at most this times the one before. -/
noncomputable def stepRatio (prm : NLSParams ℝ) : ℝ :=
  match prm.lineSearchStrategy with
  | .armijoBacktrack => prm.armijoSearchTau
  | .polynomialApproximation => 51 / 100

end MiniOpt.Spec
