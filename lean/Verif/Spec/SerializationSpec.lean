import Verif.Model.CppStructs

/-!
# All the doubles in a log
-/

set_option autoImplicit false

namespace MiniOpt.Spec

open MiniOpt.Cpp

variable {α : Type}

/-- The doubles in a structure, field by field. -/
def doublesErrors (e : Errors α) : List α := [e.f, e.equality]
@[inherit_doc doublesErrors] def doublesEigen (e : QPEigenvalues α) : List α := [e.min, e.max, e.absMin]
@[inherit_doc doublesErrors] def doublesDeriv (e : DirectionalDerivatives α) : List α := [e.dF, e.dEquality]
@[inherit_doc doublesErrors] def doublesStep (e : LineSearchStep α) : List α := e.alpha :: doublesErrors e.errors
@[inherit_doc doublesErrors] def doublesAlpha (e : AlphaValues α) : List α := [e.primal, e.dual]
@[inherit_doc doublesErrors] def doublesIP (e : IPOutputs α) : List α :=
  e.mu :: doublesAlpha e.alpha ++ doublesAlpha e.alphaProbe ++ [e.muAffine]
@[inherit_doc doublesErrors] def doublesKKT (e : KKTError α) : List α := [e.rDual, e.rComp, e.rPrimalEq, e.rPrimalIneq]
@[inherit_doc doublesErrors] def doublesQPIter (e : QPIter α) : List α :=
  doublesKKT e.kktInitial ++ doublesKKT e.kktFinal ++ doublesIP e.ip
@[inherit_doc doublesErrors] def doublesLagrange (e : QPLagrangeMultipliers α) : List α := [e.min, e.lInfinity]
@[inherit_doc doublesErrors] def doublesQPOuts (e : QPOuts α) : List α :=
  e.iterations.flatMap doublesQPIter ++ (e.lagrange.map doublesLagrange).getD []
@[inherit_doc doublesErrors] def doublesQPRes : QPRes α → List α
  | .nullSpace _ => []
  | .interiorPoint o => doublesQPOuts o
@[inherit_doc doublesErrors] def doublesIter (e : Iter α) : List α :=
  e.lambda :: doublesErrors e.errorsInitial ++ doublesQPRes e.qpOutputs ++
    (e.qpEigenvalues.map doublesEigen).getD [] ++ doublesDeriv e.directionalDerivatives ++
    e.penalty :: e.lineSearchSteps.flatMap doublesStep

/-- All the doubles in the outputs of a nonlinear solve. -/
def doubles (o : Outputs α) : List α := o.iterations.flatMap doublesIter

end MiniOpt.Spec
