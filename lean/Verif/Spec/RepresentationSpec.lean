import Verif.Spec.NLSSpec

/-!
# Keeping the variables in a normal form

A retraction may bring the variables into a normal form after the step: angles into one period (as the library's own tests do with
`ModPi`), a quaternion to the sign with nonnegative real part. `T` maps variables to the form in use.
-/

set_option autoImplicit false

namespace MiniOpt.Spec

open MiniOpt MiniOpt.NLS

variable {α : Type} [Scalar α] {n D : Nat}

/-- The same solver set-up (problem, callback, Eigen functions) with another retraction. `none` is plain addition. -/
def withRetraction (env : Env n D α) (R : Option ((Fin n → α) → (Fin D → α) → α → Fin n → α))
    (throwing : (Fin n → α) → (Fin D → α) → α → Bool) : Env n D α :=
  { env with retraction := R, retractionThrows := throwing }

/-- The residual's functions do not tell `x` from `y`: same value, Jacobian and exceptions. -/
structure NotToldApart (r : Residual α) (x y : Fin n → α) : Prop where
  value : r.value (params r x) = r.value (params r y)
  valueJ : r.valueJ (params r x) = r.valueJ (params r y)
  jac : r.jac (params r x) = r.jac (params r y)
  throws : r.throws (params r x) = r.throws (params r y)
  throwsJ : r.throwsJ (params r x) = r.throwsJ (params r y)

/-- The costs, equality constraints and bounds of the problem do not tell `T y` from `y`, whatever `y`. -/
structure Unnoticed (p : Problem D α) (T : (Fin n → α) → Fin n → α) : Prop where
  residuals : ∀ r, r ∈ p.costs ∨ r ∈ p.eqs → ∀ y : Fin n → α, NotToldApart r (T y) y
  bounds : ∀ c ∈ p.ineq, ∀ (y : Fin n → α) (j : Fin n), c.var = (j.val : Int) → T y j = y j

/-- The solver object with the variables (and the candidate) in the other form. -/
def mapObj {M K : Nat} (T : (Fin n → α) → Fin n → α) (o : Obj n D M K α) : Obj n D M K α :=
  { o with vars := T o.vars, cand := T o.cand }

end MiniOpt.Spec
