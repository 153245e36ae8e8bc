import Verif.Spec.CoordinateSpec

/-!
# The same problem in other units (exact arithmetic)

The cost residuals are multiplied by `c`, so cost values are multiplied by `γ = c²`; the variables are replaced by
coordinates `x = T y`, `d = A y e`, in which the squared length of a step is divided by `s`; so the damping parameters are multiplied by `κ = γ s`.
The equality constraints keep their units, so penalties are multiplied by `γ`.
-/

set_option autoImplicit false

namespace MiniOpt.Spec

open MiniOpt MiniOpt.NLS

variable {n m D : Nat}

/-- `r'` is `c` times `r`, written in the new coordinates. -/
structure ScaledResidual (c : ℝ) (D : Nat) (T : (Fin m → ℝ) → Fin n → ℝ) (A : (Fin m → ℝ) → (Fin D → ℝ) ≃ₗ[ℝ] (Fin D → ℝ))
    (r r' : Residual ℝ) : Prop where
  value : ∀ y : Fin m → ℝ, List.ofFn (valueAt r' y) = List.ofFn fun k => c * valueAt r (T y) k
  slope : ∀ (y : Fin m → ℝ) (e : Fin D → ℝ), List.ofFn (slopeAt r' y e) = List.ofFn fun k => c * slopeAt r (T y) (A y e) k

/-- Errors whose cost is measured in the new units. -/
def Errors.inUnits (γ : ℝ) (e : Errors ℝ) : Errors ℝ := ⟨γ * e.f, e.equality⟩

/-- Directional derivatives whose cost part is measured in the new units. -/
def DirectionalDerivatives.inUnits (γ : ℝ) (d : DirectionalDerivatives ℝ) : DirectionalDerivatives ℝ := ⟨γ * d.dF, d.dEquality⟩

/-- A line search step in the new units: the same step length. -/
def LineSearchStep.inUnits (γ : ℝ) (s : LineSearchStep ℝ) : LineSearchStep ℝ := ⟨s.alpha, Errors.inUnits γ s.errors⟩

/-- A log entry in the new units, without the QP solver's own outputs (see `withoutQP`). -/
def inUnits (γ κ : ℝ) (it : NLSIteration ℝ) : NLSIteration ℝ :=
  { withoutQP it with
    lambda := κ * it.lambda
    errorsInitial := Errors.inUnits γ it.errorsInitial
    directionalDerivatives := DirectionalDerivatives.inUnits γ it.directionalDerivatives
    penalty := γ * it.penalty
    lineSearchSteps := it.lineSearchSteps.map (LineSearchStep.inUnits γ) }

/-- The parameters in the new units: absolute tolerances and penalties scale with the cost, damping with `κ`; everything
else is a pure number and stays. -/
def paramsInUnits (γ κ : ℝ) (prm : NLSParams ℝ) : NLSParams ℝ :=
  { prm with
    absoluteExitTol := γ * prm.absoluteExitTol
    absoluteFirstDerivativeTol := γ * prm.absoluteFirstDerivativeTol
    equalityPenaltyInitial := γ * prm.equalityPenaltyInitial
    lambdaInitial := κ * prm.lambdaInitial
    lambdaFailureInit := κ * prm.lambdaFailureInit
    maxLambda := κ * prm.maxLambda
    minLambda := κ * prm.minLambda }

/-- The callbacks, if any, decide alike when they see the same iterations in their own units. -/
def UnitsCallback (γ κ : ℝ) : Option (List (NLSIteration ℝ) → Bool) → Option (List (NLSIteration ℝ) → Bool) → Prop
  | none, none => True
  | some f, some g => ∀ l l', l'.map withoutQP = l.map (inUnits γ κ) → g l' = f l
  | _, _ => False

/-- `env'` is the problem of `env` with cost residuals multiplied by `c`, written in the new coordinates. -/
structure UnitsProblem (c κ : ℝ) (env : Env n D ℝ) (env' : Env m D ℝ) (T : (Fin m → ℝ) → Fin n → ℝ)
    (A : (Fin m → ℝ) → (Fin D → ℝ) ≃ₗ[ℝ] (Fin D → ℝ)) : Prop where
  costs : List.Forall₂ (ScaledResidual c D T A) env.p.costs env'.p.costs
  eqs : List.Forall₂ (SameResidual D T A) env.p.eqs env'.p.eqs
  moves : ∀ y e a x z, retract env (T y) (A y e) a = .ok x → retract env' y e a = .ok z → x = T z
  callback : UnitsCallback (c ^ 2) κ env.callback env'.callback

/-- The squared length of every step is multiplied by `s` by `A`. -/
def Similar (s : ℝ) (A : (Fin m → ℝ) → (Fin D → ℝ) ≃ₗ[ℝ] (Fin D → ℝ)) : Prop :=
  ∀ y e, ∑ i, A y e i ^ 2 = s * ∑ i, e i ^ 2

/-- The residual multiplied by `c`. -/
noncomputable def multiplied (c : ℝ) (r : Residual ℝ) : Residual ℝ :=
  { r with
    value := fun q k => c * r.value q k
    valueJ := fun q k => c * r.valueJ q k
    jac := fun q k l => c * r.jac q k l }

end MiniOpt.Spec
