import Verif.Spec.FlipSpec

/-!
# Variables nothing depends on
-/

set_option autoImplicit false

namespace MiniOpt.Spec

open MiniOpt MiniOpt.NLS

variable {D : Nat}

/-- No cost, equality constraint or bound reads variable `i`. -/
structure Unread (p : Problem D ℝ) (i : Fin D) : Prop where
  residuals : ∀ r, r ∈ p.costs ∨ r ∈ p.eqs → ∀ l, r.index l ≠ (i.val : Int)
  bounds : ∀ c ∈ p.ineq, c.var ≠ (i.val : Int)

end MiniOpt.Spec
