import Verif.Model.Stateful
import Verif.Spec.NLSSpec

/-!
# Calls of user code

What a caller can observe through side effects of residuals, retraction and callback: which of them is called, in which
order and with which arguments.
-/

set_option autoImplicit false

namespace MiniOpt.Spec

open MiniOpt MiniOpt.NLS

variable {α : Type} [Scalar α] {n D : Nat}

/-- One call of user code. `residual role i jacobian q`: residual number `i` of the costs or of the equality
constraints, asked for its Jacobian or not, at parameters `q`. -/
inductive UserCall (n D : Nat) (α : Type) where
  | residual (role : Role) (i : Nat) (jacobian : Bool) (q : List α)
  | retraction (x : Fin n → α) (dx : Fin D → α) (alpha : α)
  | callback (info : NLSIteration α)

/-- The residuals of a problem by role. -/
def residualsOf (p : Problem D α) : Role → List (Residual α)
  | .cost => p.costs
  | .equality => p.eqs

/-- User code with side effects that gives the answers of `env`, whatever else it does: each call changes the world in a
way (`step`) that depends on nothing but the call and the state of the world. `seen` is what the callback remembers of
its former calls; only calls of the callback add to it. -/
structure AnswersLike {W : Type} (env : Env n D α) (u : World W n D α) (step : W → UserCall n D α → W)
    (seen : W → List (NLSIteration α)) : Prop where
  value : ∀ w role i r q, (residualsOf env.p role)[i]? = some r → u.value w role i r q =
    (step w (.residual role i false (List.ofFn q)), if r.throws q then none else some (r.value q))
  valueJ : ∀ w role i r q, (residualsOf env.p role)[i]? = some r → u.valueJ w role i r q =
    (step w (.residual role i true (List.ofFn q)), if r.throwsJ q then none else some (r.valueJ q, r.jac q))
  retraction : ∀ R, env.retraction = some R → ∀ w x dx a, u.retraction w x dx a =
    (step w (.retraction x dx a), if env.retractionThrows x dx a then none else some (R x dx a))
  callback : ∀ cb, env.callback = some cb → ∀ w info, u.callback w info =
    (step w (.callback info),
      if env.callbackThrows (seen w ++ [info]) then none else some (cb (seen w ++ [info])))
  seenResidual : ∀ w role i j q, seen (step w (.residual role i j q)) = seen w
  seenRetraction : ∀ w x dx a, seen (step w (.retraction x dx a)) = seen w
  seenCallback : ∀ w info, seen (step w (.callback info)) = seen w ++ [info]

/-- All residuals of the problem, once each: the costs in order, then the equality constraints in order, at `x`. -/
def residualCalls (p : Problem D α) (jacobian : Bool) (x : Fin n → α) : List (UserCall n D α) :=
  (p.costs.mapIdx fun i r => .residual .cost i jacobian (List.ofFn (params r x))) ++
  (p.eqs.mapIdx fun i r => .residual .equality i jacobian (List.ofFn (params r x)))

/-- `x` moved by `a * dx`: by the custom retraction, if there is one. -/
def movedBy (env : Env n D α) (x : Fin n → α) (dx : Fin D → α) (a : α) : Fin n → α :=
  match env.retraction with
  | some R => R x dx a
  | none => if h : n = D then fun i => x i + dx (i.cast h) * a else x

/-- The calls for one trial step: the retraction, if there is a custom one, and every residual at the new point. -/
def trialCalls (env : Env n D α) (x : Fin n → α) (dx : Fin D → α) (a : α) : List (UserCall n D α) :=
  (if env.retraction.isSome then [.retraction x dx a] else []) ++ residualCalls env.p false (movedBy env x dx a)

/-- The calls of a logged iteration at the variables `x` with direction `dx`: every residual with its Jacobian at `x`,
the calls for every logged trial step, then the callback with the logged iteration, if there is a callback. -/
def iterationCalls (env : Env n D α) (x : Fin n → α) (dx : Fin D → α) (it : NLSIteration α) : List (UserCall n D α) :=
  residualCalls env.p true x ++ it.lineSearchSteps.flatMap (fun st => trialCalls env x dx st.alpha) ++
  (if env.callback.isSome then [.callback it] else [])

/-- A call that throws. -/
def Throwing (env : Env n D α) : UserCall n D α → Prop
  | .residual role i jacobian q => ∃ r, (residualsOf env.p role)[i]? = some r ∧
      ∃ q', q = List.ofFn q' ∧ (if jacobian then r.throwsJ q' else r.throws q') = true
  | .retraction x dx a => env.retractionThrows x dx a = true
  | .callback info => ∃ before, env.callbackThrows (before ++ [info]) = true

/-- The call evaluates residual number `i` of the given list, with its Jacobian or without. -/
def Evaluates (role : Role) (i : Nat) (jacobian : Bool) : UserCall n D α → Prop
  | .residual role' i' jacobian' _ => role' = role ∧ i' = i ∧ jacobian' = jacobian
  | _ => False

/-- `count` counts, in the state of the world, the evaluations of one residual. -/
structure Counts {W : Type} (step : W → UserCall n D α → W) (role : Role) (i : Nat) (jacobian : Bool)
    (count : W → Nat) : Prop where
  yes : ∀ w c, Evaluates role i jacobian c → count (step w c) = count w + 1
  no : ∀ w c, ¬ Evaluates role i jacobian c → count (step w c) = count w

end MiniOpt.Spec
