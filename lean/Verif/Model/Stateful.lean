import Verif.Model.Nonlinear

/-!
# User code with side effects

`Verif/Model/Nonlinear.lean` takes residuals and retractions as functions of their arguments.  In the C++ they are
`std::function`s and functors that may read and change anything: here every call of user code gets the state `W` of the
world and returns a new one, together with an answer or an exception (`none`).  What is not user code is the same as in
`Verif/Model/Nonlinear.lean` and `Verif/Model/Residual.lean`, and is used from there; of the residuals of `Env.p` only
dimensions and indices are read.
-/

set_option autoImplicit false

namespace MiniOpt
namespace NLS

variable {α : Type} [Scalar α] {n D : Nat} {W : Type}

/-- Which list of the problem a residual belongs to (`nonlinear.hpp:40-50`). -/
inductive Role where
  | cost
  | equality
  deriving DecidableEq

/-- The user code of a problem: the answer of residual number `i` of a list (of the shape of `r`) without and with a
Jacobian (`residual.hpp:77-106`), of the custom retraction and of the callback (`nonlinear.hpp:57-60`,
`nonlinear.hpp:127`). -/
structure World (W : Type) (n D : Nat) (α : Type) where
  value : W → Role → Nat → (r : Residual α) → (Fin r.P → α) → W × Option (Fin r.dim → α)
  valueJ : W → Role → Nat → (r : Residual α) → (Fin r.P → α) →
    W × Option ((Fin r.dim → α) × (Fin r.dim → Fin r.P → α))
  retraction : W → (Fin n → α) → (Fin D → α) → α → W × Option (Fin n → α)
  callback : W → NLSIteration α → W × Option Bool

/-- `ErrorVector` (`residual.hpp:174-180`). -/
def errorVectorW (u : World W n D α) (role : Role) (i : Nat) (r : Residual α) (x : Fin n → α) (w : W) :
    W × Res (Fin r.dim → α) :=
  match r.gather x with
  | .error e => (w, .error e)
  | .ok q =>
    match u.value w role i r q with
    | (w', none) => (w', .error .user)
    | (w', some v) => (w', .ok v)

/-- `UpdateHessian` (`residual.hpp:185-226`). -/
def updateHessianW (u : World W n D α) (role : Role) (i : Nat) (r : Residual α) (x : Fin n → α)
    (H : Fin D → Fin D → α) (b : Fin D → α) (w : W) :
    W × Except (Fault × (Fin D → Fin D → α) × (Fin D → α)) ((Fin D → Fin D → α) × (Fin D → α) × α) :=
  match r.gather x with
  | .error e => (w, .error (e, H, b))
  | .ok q =>
    match u.valueJ w role i r q with
    | (w', none) => (w', .error (.user, H, b))
    | (w', some (v, J)) =>
      match Residual.hessRows r.index J v (List.finRange r.P) H b with
      | .error e => (w', .error e)
      | .ok (H', b') => (w', .ok (H', b', Residual.half * squaredNorm v))

/-- `UpdateJacobian` (`residual.hpp:229-250`) on blocks of the right size (`nonlinear.cc:200-201`). -/
def updateJacobianW (u : World W n D α) (role : Role) (i : Nat) (r : Residual α) (x : Fin n → α)
    (A : Fin r.dim → Fin D → α) (b : Fin r.dim → α) (w : W) :
    W × Except (Fault × (Fin r.dim → Fin D → α) × (Fin r.dim → α)) ((Fin r.dim → Fin D → α) × (Fin r.dim → α)) :=
  match r.gather x with
  | .error e => (w, .error (e, A, b))
  | .ok q =>
    match u.valueJ w role i r q with
    | (w', none) => (w', .error (.user, A, b))
    | (w', some (v, J)) =>
      match Residual.scatterCols r.index J (List.finRange r.P) A with
      | .error (e, A') => (w', .error (e, A', v))
      | .ok A' => (w', .ok (A', v))

/-- The cost loop of `LinearizeAndFillQP` (`nonlinear.cc:184-186`) from cost number `i` on. -/
def linCostsW (u : World W n D α) (x : Fin n → α) : Nat → List (Residual α) → (Fin D → Fin D → α) → (Fin D → α) → α →
    W → W × Except (Fault × (Fin D → Fin D → α) × (Fin D → α)) ((Fin D → Fin D → α) × (Fin D → α) × α)
  | _, [], G, c, f, w => (w, .ok (G, c, f))
  | i, r :: rs, G, c, f, w =>
    match updateHessianW u .cost i r x G c w with
    | (w', .error e) => (w', .error e)
    | (w', .ok (G', c', e)) => linCostsW u x (i + 1) rs G' c' (f + e) w'

/-- The equality loop of `LinearizeAndFillQP` (`nonlinear.cc:194-206`) from constraint number `i` on. -/
def linEqsW {K : Nat} (u : World W n D α) (x : Fin n → α) : Nat → List (Residual α) → Nat → (Fin K → Fin D → α) →
    (Fin K → α) → α → W → W × Except (Fault × (Fin K → Fin D → α) × (Fin K → α)) ((Fin K → Fin D → α) × (Fin K → α) × α)
  | _, [], _, A, b, err, w => (w, .ok (A, b, err))
  | i, r :: rs, row, A, b, err, w =>
    if h : row + r.dim ≤ K then
      match updateJacobianW u .equality i r x (getRows A row h) (getRows b row h) w with
      | (w', .error (e, A', b')) => (w', .error (e, setRows A row A', setRows b row b'))
      | (w', .ok (A', b')) =>
        linEqsW u x (i + 1) rs (row + r.dim) (setRows A row A') (setRows b row b') (err + lpNorm1 b') w'
    else (w, .error (.assertion "row + dim <= qp->A_eq.rows()", A, b))

/-- `LinearizeAndFillQP` (`nonlinear.cc:170-214`). -/
def linearizeW (u : World W n D α) (p : Problem D α) (x : Fin n → α) (lambda : α) (qp : QPData D p.M p.K α) (w : W) :
    W × Except (Fault × QPData D p.M p.K α) (QPData D p.M p.K α × Errors α) :=
  match linCostsW u x 0 p.costs (fun _ _ => 0) (fun _ => 0) 0 w with
  | (w', .error (e, G, c)) => (w', .error (e, { qp with G := G, c := c }))
  | (w', .ok (G, c, f)) =>
    let G' : Fin D → Fin D → α :=
      if 0 < lambda then fun i j => if i = j then G i j + lambda else G i j else G
    match linEqsW u x 0 p.eqs 0 (fun _ _ => 0) (fun _ => 0) 0 w' with
    | (w'', .error (e, A, b)) => (w'', .error (e, { qp with G := G', c := c, A := A, b := b }))
    | (w'', .ok (A, b, err)) =>
      match shiftLoop x p.ineq with
      | .error e => (w'', .error (e, { qp with G := G', c := c, A := A, b := b }))
      | .ok con => (w'', .ok (⟨G', c, A, b, con⟩, ⟨f, err⟩))

/-- `RetractCandidateVars` (`nonlinear.cc:160-168`). -/
def retractW (u : World W n D α) (env : Env n D α) (x : Fin n → α) (dx : Fin D → α) (alpha : α) (w : W) :
    W × Res (Fin n → α) :=
  match env.retraction with
  | some _ =>
    match u.retraction w x dx alpha with
    | (w', none) => (w', .error .user)
    | (w', some y) => (w', .ok y)
  | none =>
    if h : n = D then (w, .ok fun i => x i + dx (i.cast h) * alpha)
    else (w, .error (.ub "candidate_vars_ += dx_ * alpha with different sizes"))

/-- The cost loop of `EvaluateNonlinearErrors` (`nonlinear.cc:282-286`) from cost number `i` on. -/
def evalCostsW (u : World W n D α) (x : Fin n → α) : Nat → List (Residual α) → α → W → W × Res α
  | _, [], f, w => (w, .ok f)
  | i, r :: rs, f, w =>
    match errorVectorW u .cost i r x w with
    | (w', .error e) => (w', .error e)
    | (w', .ok v) => evalCostsW u x (i + 1) rs (f + Residual.half * squaredNorm v) w'

/-- The equality loop of `EvaluateNonlinearErrors` (`nonlinear.cc:287-291`) from constraint number `i` on. -/
def evalEqsW (u : World W n D α) (x : Fin n → α) : Nat → List (Residual α) → α → W → W × Res α
  | _, [], f, w => (w, .ok f)
  | i, r :: rs, f, w =>
    match errorVectorW u .equality i r x w with
    | (w', .error e) => (w', .error e)
    | (w', .ok v) => evalEqsW u x (i + 1) rs (f + lpNorm1 v) w'

/-- `EvaluateNonlinearErrors` (`nonlinear.cc:279-293`). -/
def evalErrorsW (u : World W n D α) (p : Problem D α) (x : Fin n → α) (w : W) : W × Res (Errors α) :=
  match evalCostsW u x 0 p.costs 0 w with
  | (w', .error e) => (w', .error e)
  | (w', .ok f) =>
    match evalEqsW u x 0 p.eqs 0 w' with
    | (w'', .error e) => (w'', .error e)
    | (w'', .ok q) => (w'', .ok ⟨f, q⟩)

/-- The loop of `SelectStepSize` (`nonlinear.cc:365-415`). -/
def lsLoopW (u : World W n D α) (env : Env n D α) (prm : NLSParams α) (x : Fin n → α) (dx : Fin D → α) (pre : Errors α)
    (d : DirectionalDerivatives α) (penalty : α) :
    Nat → Nat → α → List (LineSearchStep α) → (Fin n → α) → W →
      W × Except (Fault × List (LineSearchStep α) × (Fin n → α)) (StepResult × List (LineSearchStep α) × (Fin n → α))
  | 0, _, _, steps, cand, w => (w, .ok (.maxIterations, steps, cand))
  | fuel + 1, iter, alpha, steps, cand, w =>
    match nextAlpha prm.lineSearchStrategy prm.armijoSearchTau iter pre d penalty alpha steps with
    | .error e => (w, .error (e, steps, cand))
    | .ok none => (w, .ok (.failureInvalidAlpha, steps, cand))
    | .ok (some a) =>
      match retractW u env x dx a w with
      | (w', .error e) => (w', .error (e, steps, x))
      | (w', .ok cand') =>
        match evalErrorsW u env.p cand' w' with
        | (w'', .error e) => (w'', .error (e, steps, cand'))
        | (w'', .ok es) =>
          let steps' := steps ++ [⟨a, es⟩]
          if es.containsInvalid then (w'', .ok (.failureNonFiniteCost, steps', cand'))
          else if d.lInfinity < prm.absoluteFirstDerivativeTol then (w'', .ok (.firstOrderSatisfied, steps', cand'))
          else if 0 < d.total penalty then (w'', .ok (.positiveDerivative, steps', cand'))
          else if es.total penalty ≤ pre.total penalty + d.total penalty * a * armijoC1 then
            (w'', .ok (.success, steps', cand'))
          else lsLoopW u env prm x dx pre d penalty fuel (iter + 1) a steps' cand' w''

/-- `SelectStepSize` (`nonlinear.cc:351-416`). -/
def selectStepSizeW (u : World W n D α) (env : Env n D α) (prm : NLSParams α) (pre : Errors α)
    (d : DirectionalDerivatives α) (penalty : α) (o : env.Obj) (w : W) :
    W × Except (Fault × env.Obj) (env.Obj × StepResult) :=
  if ¬ 0 < penalty then (w, .error (.assertion "penalty > 0.0", o))
  else if pre.containsInvalid then (w, .error (.assertion "!errors_pre.ContainsInvalidValues()", o))
  else
    match lsLoopW u env prm o.vars o.dx pre d penalty (prm.maxLineSearchIterations + 1).toNat 0 1 [] o.cand w with
    | (w', .error (e, steps, cand)) => (w', .error (e, { o with steps := steps, cand := cand }))
    | (w', .ok (res, steps, cand)) => (w', .ok ({ o with steps := steps, cand := cand }, res))

/-- The callback call and the exit decision at the end of the loop body (`nonlinear.cc:145-155`): the calls so far and
the termination state, if any; `none` if the callback throws. -/
def finishW (u : World W n D α) (env : Env n D α) (info : NLSIteration α) (exit : Option NLSTermination)
    (calls : List (NLSIteration α)) (w : W) : W × Option (List (NLSIteration α) × Option NLSTermination) :=
  match env.callback with
  | none => (w, some (calls, exit))
  | some _ =>
    match u.callback w info with
    | (w', none) => (w', none)
    | (w', some proceed) =>
      (w', some (calls ++ [info], match exit with
        | some t => some t
        | none => if proceed then none else some .userCallback))

/-- One pass of the loop of `Solve` (`nonlinear.cc:97-155`). -/
def bodyW (u : World W n D α) (env : Env n D α) (prm : NLSParams α) (iter : Nat) (s : Loop env) (w : W) :
    W × Except (Fault × env.Obj) (Loop env × Option NLSTermination) :=
  match linearizeW u env.p s.obj.vars s.lambda s.obj.qp w with
  | (w1, .error (e, qp)) => (w1, .error (e, { s.obj with qp := qp }))
  | (w1, .ok (qp, pre)) =>
    match stepDirection env prm { s.obj with qp := qp } with
    | .error e => (w1, .error e)
    | .ok (o1, out) =>
      if wasIndefinite out then (w1, .ok ({ s with obj := o1 }, some .qpIndefinite))
      else
        let d := costDerivative o1.qp o1.dx
        let penalty := raisePenalty env.p prm o1.qp o1.dx out s.penalty
        match selectStepSizeW u env prm pre d penalty o1 w1 with
        | (w2, .error e) => (w2, .error e)
        | (w2, .ok (o2, res)) =>
          match updateLambda env prm res pre penalty s.lambda o2 with
          | .error e => (w2, .error e)
          | .ok (o3, lambda', exit) =>
            let info : NLSIteration α := {
              iteration := iter
              optimizerState := o3.state
              lambda := s.lambda
              errorsInitial := pre
              qpOutputs := out
              qpEigenvalues := if prm.logQPEigenvalues then some (eigenStats (env.eigenvalues o3.qp.G)) else none
              directionalDerivatives := d
              penalty := penalty
              stepResult := res
              lineSearchSteps := o3.steps }
            match finishW u env info exit s.calls w2 with
            | (w3, none) => (w3, .error (.user, { o3 with steps := [] }))
            | (w3, some fin) => (w3, .ok (⟨{ o3 with steps := [] }, lambda', penalty, s.log ++ [info], fin.1⟩, fin.2))

/-- The loop of `Solve` (`nonlinear.cc:96-157`). -/
def loopW (u : World W n D α) (env : Env n D α) (prm : NLSParams α) : Nat → Nat → Loop env → W →
    W × Except (Fault × env.Obj) (Loop env × NLSTermination)
  | 0, _, s, w => (w, .ok (s, .maxIterations))
  | fuel + 1, iter, s, w =>
    match bodyW u env prm iter s w with
    | (w', .error e) => (w', .error e)
    | (w', .ok (s', some t)) => (w', .ok (s', t))
    | (w', .ok (s', none)) => loopW u env prm fuel (iter + 1) s' w'

/-- `Solve` (`nonlinear.cc:75-158`) with user code that has side effects. -/
def solveW (u : World W n D α) (env : Env n D α) (prm : NLSParams α) (x0 : Fin n → α) (o : env.Obj) (w : W) :
    W × Except (Fault × env.Obj) (env.Obj × NLSOutputs α × List (NLSIteration α)) :=
  match checkParams prm with
  | .error e => (w, .error (e, o))
  | .ok _ =>
    match loopW u env prm prm.maxIterations.toNat 0 (start env prm x0 o) w with
    | (w', .error e) => (w', .error e)
    | (w', .ok (s, t)) => (w', .ok (s.obj, ⟨t, s.log⟩, s.calls))

end NLS
end MiniOpt
