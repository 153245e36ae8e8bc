import Verif.Spec.NLSSpec

/-!
# Callbacks that do not look at the eigenvalue statistics
-/

set_option autoImplicit false

namespace MiniOpt.Spec

open MiniOpt MiniOpt.NLS

variable {α : Type} {n D : Nat}

/-- A logged iteration without its eigenvalue statistics. -/
def blind (it : NLSIteration α) : NLSIteration α := { it with qpEigenvalues := none }

/-- The callback does not look at the eigenvalue statistics. -/
structure IgnoresEigenvalues (env : Env n D α) : Prop where
  answer : ∀ cb, env.callback = some cb → ∀ l, cb (l.map blind) = cb l
  throws : ∀ l, env.callbackThrows (l.map blind) = env.callbackThrows l

end MiniOpt.Spec
