import Verif.Spec.DerivativeSpec

/-!
# Writing the sum of squares with other residuals (exact arithmetic)
-/

set_option autoImplicit false

namespace MiniOpt.Spec

open MiniOpt MiniOpt.NLS

variable {n D : Nat}

/-- The same solver set-up (bounds, equality constraints, retraction, callback, Eigen functions) with other costs. -/
def withCosts (env : Env n D ℝ) (costs' : List (Residual ℝ)) : Env n D ℝ where
  p := ⟨costs', env.p.ineq, env.p.eqs⟩
  retraction := env.retraction
  callback := env.callback
  E := env.E
  NE := env.NE
  eigenvalues := env.eigenvalues
  freshIP := env.freshIP
  freshNS := env.freshNS
  retractionThrows := env.retractionThrows
  callbackThrows := env.callbackThrows

/-- At every point and for every step the linear models of the two lists of residuals have the same sum of squares. (With the step
`0`: the costs are the same.) -/
def SameSquares (n D : Nat) (l l' : List (Residual ℝ)) : Prop :=
  ∀ (x : Fin n → ℝ) (d : Fin D → ℝ),
    (l.map fun r => ∑ k, linAt r x d k ^ 2).sum = (l'.map fun r => ∑ k, linAt r x d k ^ 2).sum

/-- A table with `m` rows that does not change lengths: a rotation, a permutation, a change of signs, or one that appends zeros. -/
def KeepsLength {d m : Nat} (Q : Fin m → Fin d → ℝ) : Prop :=
  ∀ v : Fin d → ℝ, ∑ k, (∑ l, Q k l * v l) ^ 2 = ∑ l, v l ^ 2

/-- The residual `Q r`. -/
noncomputable def rotatedResidual (r : Residual ℝ) {m : Nat} (Q : Fin m → Fin r.dim → ℝ) : Residual ℝ where
  dim := m
  P := r.P
  index := r.index
  value p k := ∑ l, Q k l * r.value p l
  valueJ p k := ∑ l, Q k l * r.valueJ p l
  jac p k j := ∑ l, Q k l * r.jac p l j
  throws := r.throws
  throwsJ := r.throwsJ

/-- One component of a residual, as a residual of its own. -/
def componentOf (r : Residual ℝ) (k : Fin r.dim) : Residual ℝ where
  dim := 1
  P := r.P
  index := r.index
  value p _ := r.value p k
  valueJ p _ := r.valueJ p k
  jac p _ j := r.jac p k j
  throws := r.throws
  throwsJ := r.throwsJ

/-- A residual written as one residual per component. -/
def componentsOf (r : Residual ℝ) : List (Residual ℝ) := (List.finRange r.dim).map (componentOf r)

end MiniOpt.Spec
