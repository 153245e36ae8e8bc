import Verif.Spec.FlipSpec

/-!
# Problems whose linearizations determine the step
-/

set_option autoImplicit false

namespace MiniOpt.Spec

open MiniOpt MiniOpt.NLS

/-- Only the zero step leaves the linear models of all costs and of all equality constraints at `x` unchanged. -/
def DeterminedAt {n D : Nat} (p : Problem D ℝ) (x : Fin n → ℝ) : Prop :=
  ∀ d : Fin D → ℝ, (∀ r ∈ p.costs ++ p.eqs, ∀ k, slopeAt r x d k = 0) → d = 0

end MiniOpt.Spec
