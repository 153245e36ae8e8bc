import Verif.Model.ScopedTrace
import Verif.Model.Nonlinear

/-!
# The traced scopes of `Solve`  (`/repo/source/nonlinear.cc:77,173,218,280,355,459`)

The structured program of traced scopes that a solve runs through. `MINI_OPT_FUNCTION_TRACE()` opens a scope named
`__FUNCTION__`, the unqualified name of the function, as the first statement of six functions. Residuals, retractions and
callbacks of the user are taken to contain no traced scopes of their own. Faults (failed assertions, exceptions of user code)
leave the functions as exceptions; undefined behaviour is treated as an exception too, nothing is claimed about it.
-/

set_option autoImplicit false

namespace MiniOpt.NLS

open MiniOpt.Trace

variable {α : Type} [Scalar α] {n D : Nat}

/-- The loop of `SelectStepSize` (`nonlinear.cc:365-415`), with the scope of `EvaluateNonlinearErrors`
(`nonlinear.cc:280`) per candidate. Arguments as in `lsLoop`. -/
def lsProg (env : Env n D α) (prm : NLSParams α) (x : Fin n → α) (dx : Fin D → α) (pre : Errors α)
    (d : DirectionalDerivatives α) (penalty : α) : Nat → Nat → α → List (LineSearchStep α) → Prog
  | 0, _, _, _ => .skip
  | fuel + 1, iter, alpha, steps =>
    match nextAlpha prm.lineSearchStrategy prm.armijoSearchTau iter pre d penalty alpha steps with
    | .error _ => .throw
    | .ok none => .skip
    | .ok (some a) =>
      match retract env x dx a with
      | .error _ => .throw
      | .ok cand =>
        match evalErrors env.p cand with
        | .error _ => .scope "EvaluateNonlinearErrors".toList .throw
        | .ok es =>
          .seq (.scope "EvaluateNonlinearErrors".toList .skip)
            (if es.containsInvalid then .skip
             else if d.lInfinity < prm.absoluteFirstDerivativeTol then .skip
             else if 0 < d.total penalty then .skip
             else if es.total penalty ≤ pre.total penalty + d.total penalty * a * armijoC1 then .skip
             else lsProg env prm x dx pre d penalty fuel (iter + 1) a (steps ++ [⟨a, es⟩]))

/-- `SelectStepSize` (`nonlinear.cc:351-416`). -/
def selectProg (env : Env n D α) (prm : NLSParams α) (pre : Errors α) (d : DirectionalDerivatives α)
    (penalty : α) (o : env.Obj) : Prog :=
  .scope "SelectStepSize".toList
    (if ¬ 0 < penalty then .throw
     else if pre.containsInvalid then .throw
     else lsProg env prm o.vars o.dx pre d penalty (prm.maxLineSearchIterations + 1).toNat 0 1 [])

/-- One pass of the loop of `Solve` (`nonlinear.cc:97-155`). What follows `SelectStepSize` (`nonlinear.cc:128-155`, including
the user callback) opens no scopes; it ends as `body` says. -/
def bodyProg (env : Env n D α) (prm : NLSParams α) (iter : Nat) (s : Loop env) : Prog :=
  match linearize env.p s.obj.vars s.lambda s.obj.qp with
  | .error _ => .scope "LinearizeAndFillQP".toList .throw
  | .ok (qp, pre) =>
    .seq (.scope "LinearizeAndFillQP".toList .skip)
      (match stepDirection env prm { s.obj with qp := qp } with
       | .error _ => .scope "ComputeStepDirection".toList .throw
       | .ok (o1, out) =>
         .seq (.scope "ComputeStepDirection".toList .skip)
           (if wasIndefinite out then .skip
            else
              .seq (.scope "ComputeQPCostDerivative".toList .skip)
                (.seq (selectProg env prm pre (costDerivative o1.qp o1.dx)
                    (raisePenalty env.p prm o1.qp o1.dx out s.penalty) o1)
                  (match body env prm iter s with
                   | .error _ => .throw
                   | .ok _ => .skip))))

/-- The loop of `Solve` (`nonlinear.cc:96-157`). -/
def loopProg (env : Env n D α) (prm : NLSParams α) : Nat → Nat → Loop env → Prog
  | 0, _, _ => .skip
  | fuel + 1, iter, s =>
    .seq (bodyProg env prm iter s)
      (match body env prm iter s with
       | .ok (s', none) => loopProg env prm fuel (iter + 1) s'
       | _ => .skip)

/-- `Solve` (`nonlinear.cc:75-158`). -/
def solveProg (env : Env n D α) (prm : NLSParams α) (x0 : Fin n → α) (o : env.Obj) : Prog :=
  .scope "Solve".toList
    (match checkParams prm with
     | .error _ => .throw
     | .ok _ => loopProg env prm prm.maxIterations.toNat 0 (start env prm x0 o))

end MiniOpt.NLS
