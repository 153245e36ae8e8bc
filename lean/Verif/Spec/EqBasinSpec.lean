import Verif.Spec.BasinSpec
import Verif.Spec.PenaltySpec

/-!
# A neighbourhood of a solution at which all costs and all equality constraints vanish
-/

set_option autoImplicit false

namespace MiniOpt.Spec

open MiniOpt MiniOpt.NLS

variable {D : Nat}

/-- The factor by which one step of C126 squares the distance to the solution. -/
noncomputable def squareRate (σ L B κ Lc : ℝ) : ℝ := (L + B * κ * Lc) / (2 * σ) + κ * Lc / 2

/-- All costs and all equality constraints vanish at `xs`, and within distance `ρ` of it: the stacked Jacobian of the costs stretches
every vector by `σ` at least and `B` at most; the costs (constraints) differ from their linear models by at most `L / 2` (`Lc / 2`)
times the squared distance; every right-hand side of the linearized constraints is reached by a displacement at most `κ` times as long
as it. The ball is small compared with the curvatures. -/
structure EqBasin (p : Problem D ℝ) (xs : Fin D → ℝ) (ρ σ L B κ Lc : ℝ) : Prop where
  basin : Basin p xs ρ σ L
  zero : ∀ r ∈ p.eqs, ∀ k, valueAt r xs k = 0
  model : ∀ x y, dist2 x xs ≤ ρ → dist2 y xs ≤ ρ →
    (p.eqs.map fun r => ∑ k, |valueAt r y k - valueAt r x k - slopeAt r x (fun i => y i - x i) k|).sum ≤ Lc / 2 * dist2 x y ^ 2
  rate : ∀ x : Fin D → ℝ, dist2 x xs ≤ ρ → CostRateAt p B x
  inverse : ∀ x : Fin D → ℝ, dist2 x xs ≤ ρ → ∀ v : (r : Residual ℝ) → Fin r.dim → ℝ, ∃ w : Fin D → ℝ,
    (∀ r ∈ p.eqs, ∀ k, slopeAt r x w k = v r k) ∧ Real.sqrt (∑ i, w i ^ 2) ≤ κ * (p.eqs.map fun r => ∑ k, |v r k|).sum
  nonneg : 0 ≤ B ∧ 0 ≤ κ ∧ 0 ≤ Lc
  close : (L + B * κ * Lc) * ρ ≤ σ / 8
  near : κ * Lc * ρ ≤ 3 / 8

end MiniOpt.Spec
