import Verif.Model.Nonlinear
import Verif.Spec.ResidualSpec

/-!
# What the nonlinear solver is about

Stated from the user's problem only: residual values, the variables, the retraction, and repeated calls of
`Solve`.  No definition here uses the solver's internals.
-/

set_option autoImplicit false

namespace MiniOpt.Spec

open MiniOpt MiniOpt.NLS

variable {α : Type} [Scalar α] {n D : Nat}

/-- The parameters a residual reads from `x` (zero for an index outside `x`, which is never evaluated:
C32). -/
def params (r : Residual α) (x : Fin n → α) : Fin r.P → α :=
  fun l => if h : 0 ≤ r.index l ∧ r.index l < (n : Int) then x ⟨(r.index l).toNat, by omega⟩ else 0

/-- The residual's value at `x`. -/
def valueAt (r : Residual α) (x : Fin n → α) : Fin r.dim → α := r.value (params r x)

/-- `½ Σ ‖r(x)‖²` over the costs, added in order. -/
def costAt (p : Problem D α) (x : Fin n → α) : α :=
  p.costs.foldl (fun f r => f + Residual.half * squaredNorm (valueAt r x)) 0

/-- `Σ ‖r(x)‖₁` over the equality constraints, added in order. -/
def violationAt (p : Problem D α) (x : Fin n → α) : α :=
  p.eqs.foldl (fun f r => f + lpNorm1 (valueAt r x)) 0

/-- The nonlinear errors of the problem at `x`. -/
def errorsAt (p : Problem D α) (x : Fin n → α) : Errors α := ⟨costAt p x, violationAt p x⟩

/-- Every residual of the problem only reads parameters that exist. -/
def IndicesOk (p : Problem D α) (n : Nat) : Prop := ∀ r ∈ p.costs ++ p.eqs, IdxIn r n

/-- Every residual returns the same value whether or not a Jacobian is requested. -/
def ConsistentP (p : Problem D α) : Prop := ∀ r ∈ p.costs ++ p.eqs, Consistent r

/-- The callable does not throw at `x` when no Jacobian is requested. -/
def Quiet (r : Residual α) (x : Fin n → α) : Prop := r.throws (params r x) = false

/-- The callable does not throw at `x` when a Jacobian is requested. -/
def QuietJ (r : Residual α) (x : Fin n → α) : Prop := r.throwsJ (params r x) = false

/-- No residual of the problem throws at `x` when it is only evaluated. -/
def QuietP (p : Problem D α) (x : Fin n → α) : Prop := ∀ r ∈ p.costs ++ p.eqs, Quiet r x

/-- No residual of the problem throws at `x` when it is linearised. -/
def QuietJP (p : Problem D α) (x : Fin n → α) : Prop := ∀ r ∈ p.costs ++ p.eqs, QuietJ r x

/-- No callable of the problem ever throws. -/
def NeverThrowsP (p : Problem D α) : Prop := ∀ r ∈ p.costs ++ p.eqs, NeverThrows r

/-- `y` is `x` moved by `a * dx`: with the custom retraction if there is one, else by addition (which needs
vectors of one size). -/
def Moves (env : Env n D α) (x : Fin n → α) (dx : Fin D → α) (a : α) (y : Fin n → α) : Prop :=
  match env.retraction with
  | some R => y = R x dx a
  | none => ∃ h : n = D, y = fun i => x i + dx (i.cast h) * a

/-- `ob` is the solver object after the first `k` iterations of the solve: what `Solve` leaves when
`max_iterations` is `k`. -/
def After (env : Env n D α) (prm : NLSParams α) (x0 : Fin n → α) (o : env.Obj) (k : Nat) (ob : env.Obj) : Prop :=
  ∃ out calls, NLS.solve env { prm with maxIterations := k } x0 o = .ok (ob, out, calls) ∧
    out.iterations.length = k

/-- The documented parameter ranges (`nonlinear.hpp:64-124`, enforced in `nonlinear.cc:49-73`). All conditions are
"the comparison is true", so a NaN parameter is invalid. -/
structure NLSParamsValid (prm : NLSParams α) : Prop where
  maxIterations : 0 ≤ prm.maxIterations
  maxQPIterations : 1 ≤ prm.maxQPIterations
  terminationKktTol : 0 < prm.terminationKktTol
  absoluteExitTol : 0 < prm.absoluteExitTol
  maxLineSearchIterations : 0 ≤ prm.maxLineSearchIterations
  relativeExitTol : 0 ≤ prm.relativeExitTol ∧ prm.relativeExitTol ≤ 1
  absoluteFirstDerivativeTol : 0 ≤ prm.absoluteFirstDerivativeTol
  armijoSearchTau : 0 < prm.armijoSearchTau ∧ prm.armijoSearchTau < 1
  equalityPenaltyInitial : 0 ≤ prm.equalityPenaltyInitial
  equalityPenaltyScaleFactor : 1 ≤ prm.equalityPenaltyScaleFactor
  equalityPenaltyRho : 0 ≤ prm.equalityPenaltyRho ∧ prm.equalityPenaltyRho < 1
  maxLambda : 0 ≤ prm.maxLambda
  minLambda : prm.minLambda ≤ prm.maxLambda
  lambdaInitial : prm.minLambda ≤ prm.lambdaInitial ∧ prm.lambdaInitial ≤ prm.maxLambda
  lambdaFailureInit : 0 ≤ prm.lambdaFailureInit
  lambdaDecreaseOnSuccess : 0 ≤ prm.lambdaDecreaseOnSuccess ∧ prm.lambdaDecreaseOnSuccess < 1
  lambdaDecreaseOnRestore : 0 ≤ prm.lambdaDecreaseOnRestore ∧ prm.lambdaDecreaseOnRestore < 1

/-- The merit function of the line search: cost plus penalised constraint violation. -/
noncomputable def merit (p : Problem D ℝ) (penalty : ℝ) (x : Fin n → ℝ) : ℝ := costAt p x + penalty * violationAt p x

end MiniOpt.Spec
