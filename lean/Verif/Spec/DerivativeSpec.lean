import Verif.Spec.LinearizeSpec
import Mathlib.Analysis.Calculus.Deriv.Basic

/-!
# Derivatives along a step (exact arithmetic)
-/

set_option autoImplicit false

namespace MiniOpt.Spec

open MiniOpt MiniOpt.NLS

variable {n D : Nat}

/-- The derivative of component `k` of a residual in direction `dx`, as predicted by its Jacobian. -/
noncomputable def slopeAt (r : Residual ℝ) (x : Fin n → ℝ) (dx : Fin D → ℝ) (k : Fin r.dim) : ℝ :=
  ∑ j, jacAt r x D k j * dx j

/-- `γ` leaves `x` in direction `dx`, and the residuals along it are differentiable with the derivatives their Jacobians
predict. (Any retraction; for addition and true Jacobians see `C35_default_retraction`.) -/
structure Follows (p : Problem D ℝ) (x : Fin n → ℝ) (dx : Fin D → ℝ) (γ : ℝ → Fin n → ℝ) : Prop where
  start : γ 0 = x
  deriv : ∀ r ∈ p.costs ++ p.eqs, ∀ k, HasDerivAt (fun t => valueAt r (γ t) k) (slopeAt r x dx k) 0

/-- The callable's Jacobian is the derivative of its value at `q`. -/
def TrueJacobian (r : Residual ℝ) (q : Fin r.P → ℝ) : Prop :=
  ∀ k, HasFDerivAt (fun q' => r.value q' k) (∑ l, r.jac q k l • ContinuousLinearMap.proj (R := ℝ) (φ := fun _ => ℝ) l) q

/-- The contribution of the equality residuals that vanish at `x` to the one-sided derivative of the `l1` norm. -/
noncomputable def kinkTerm (p : Problem D ℝ) (x : Fin n → ℝ) (dx : Fin D → ℝ) : ℝ :=
  (p.eqs.map fun r => ∑ k, if valueAt r x k = 0 then |slopeAt r x dx k| else 0).sum

/-- No component of an equality residual is zero at `x`. -/
def NoneZero (p : Problem D ℝ) (x : Fin n → ℝ) : Prop := ∀ r ∈ p.eqs, ∀ k, valueAt r x k ≠ 0

end MiniOpt.Spec
