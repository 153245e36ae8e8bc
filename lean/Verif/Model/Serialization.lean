import Verif.Model.CppStructs

/-!
# JSON serialisation  (`/repo/source/serialization.cc`, built with `MINI_OPT_SERIALIZATION`)

`Json` is `nlohmann::json` as far as it is used; the library functions the code calls are modelled from their
documentation.  Objects are association lists (the library keeps them in a `std::map`; order is never observed).
-/

set_option autoImplicit false

namespace MiniOpt.Ser

open MiniOpt.Cpp

variable {α : Type} [Scalar α]

/-- `nlohmann::json`. `num` is a floating point number (NaN and infinities included), `int` an integer. -/
inductive Json (α : Type) where
  | null
  | bool (b : Bool)
  | int (i : Int)
  | num (x : α)
  | str (s : String)
  | arr (l : List (Json α))
  | obj (l : List (String × Json α))

/-- How reading can fail: exceptions of the library, or undefined behaviour (`operator[]` of a const object with an
absent key). -/
inductive JErr where
  | typeError
  | outOfRange
  | ub
  deriving DecidableEq

/-- Value stored for a key. -/
def lookup (k : String) : List (String × Json α) → Option (Json α)
  | [] => none
  | (k', v) :: r => if k' = k then some v else lookup k r

/-- `j.contains(k)`: false for anything that is not an object. -/
def contains (j : Json α) (k : String) : Bool :=
  match j with
  | .obj l => (lookup k l).isSome
  | _ => false

/-- `j.at(k)`: `type_error` unless an object, `out_of_range` if the key is absent. -/
def at' (j : Json α) (k : String) : Except JErr (Json α) :=
  match j with
  | .obj l => match lookup k l with
    | some v => .ok v
    | none => .error .outOfRange
  | _ => .error .typeError

/-- `j[k]` on a const value: `type_error` unless an object, undefined if the key is absent. -/
def index (j : Json α) (k : String) : Except JErr (Json α) :=
  match j with
  | .obj l => match lookup k l with
    | some v => .ok v
    | none => .error .ub
  | _ => .error .typeError

/-- `j.get<double>()`: numbers only. -/
def getDouble : Json α → Except JErr α
  | .num x => .ok x
  | .int i => .ok (Scalar.lit i)
  | _ => .error .typeError

/-- `j.get<int>()`. Simplification: reading a floating point number or a Boolean as `int` (which the library
converts) is not modelled and counts as `ub`; the code never writes one where it reads an `int`. -/
def getInt : Json α → Except JErr Int
  | .int i => .ok i
  | .num _ => .error .ub
  | .bool _ => .error .ub
  | _ => .error .typeError

/-- `j.get<std::vector<T>>()`: arrays only, element by element. -/
def getList {β : Type} (g : Json α → Except JErr β) : Json α → Except JErr (List β)
  | .arr l => l.mapM g
  | _ => .error .typeError

/-- `to_json` for `std::optional` (`serialization.cc:14-21`). -/
def optJson {β : Type} (f : β → Json α) : Option β → Json α
  | some x => f x
  | none => .null

/-- `from_json` for `std::optional` (`serialization.cc:23-30`). -/
def getOpt {β : Type} (g : Json α → Except JErr β) : Json α → Except JErr (Option β)
  | .null => .ok none
  | j => match g j with
    | .ok x => .ok (some x)
    | .error e => .error e

/-- `to_json` generated by `NLOHMANN_JSON_SERIALIZE_ENUM` from a table: the first entry with that value. -/
def enumJson {ε : Type} [DecidableEq ε] (first : ε × String) (rest : List (ε × String)) (e : ε) : Json α :=
  match (first :: rest).find? (fun q => q.1 = e) with
  | some q => .str q.2
  | none => .str first.2

/-- `from_json` generated by `NLOHMANN_JSON_SERIALIZE_ENUM`: the first entry whose name equals the JSON value, and
the first entry of the table for anything else. -/
def getEnum {ε : Type} (first : ε × String) (rest : List (ε × String)) (j : Json α) : ε :=
  match j with
  | .str s => match (first :: rest).find? (fun q => q.2 = s) with
    | some q => q.1
    | none => first.1
  | _ => first.1

/-! ## Enum tables (`serialization.cc:32-63`) -/

/-- `serialization.cc:32-34`. -/
def optimizerStateTable : (OptimizerState × String) × List (OptimizerState × String) :=
  ((.attemptingRestoreLM, "ATTEMPTING_RESTORE_LM"), [(.nominal, "NOMINAL")])

/-- `serialization.cc:36-43`. -/
def stepResultTable : (StepResult × String) × List (StepResult × String) :=
  ((.success, "SUCCESS"), [(.maxIterations, "MAX_ITERATIONS"), (.firstOrderSatisfied, "FIRST_ORDER_SATISFIED"),
    (.positiveDerivative, "POSITIVE_DERIVATIVE"), (.failureNonFiniteCost, "FAILURE_NON_FINITE_COST"),
    (.failureInvalidAlpha, "FAILURE_INVALID_ALPHA")])

/-- `serialization.cc:45-53`. -/
def nlsTerminationTable : (NLSTermination × String) × List (NLSTermination × String) :=
  ((.maxIterations, "MAX_ITERATIONS"), [(.satisfiedAbsoluteTol, "SATISFIED_ABSOLUTE_TOL"),
    (.satisfiedRelativeTol, "SATISFIED_RELATIVE_TOL"), (.satisfiedFirstOrderTol, "SATISFIED_FIRST_ORDER_TOL"),
    (.maxLambda, "MAX_LAMBDA"), (.qpIndefinite, "QP_INDEFINITE"), (.userCallback, "USER_CALLBACK")])

/-- `serialization.cc:55-58`. -/
def qpTerminationTable : (QPTermination × String) × List (QPTermination × String) :=
  ((.maxIterations, "MAX_ITERATIONS"), [(.satisfiedKktTol, "SATISFIED_KKT_TOL")])

/-- `serialization.cc:60-63`. -/
def nullSpaceTable : (NullSpaceTermination × String) × List (NullSpaceTermination × String) :=
  ((.success, "SUCCESS"), [(.notPositiveDefinite, "NOT_POSITIVE_DEFINITE")])

/-! ## Writing. `num` says how a double is put into the JSON value; the code uses `Json.num`. -/

section Write
variable (num : α → Json α)

/-- `Errors` (`serialization.cc:65`). -/
def errorsJson (e : Errors α) : Json α := .obj [("f", num e.f), ("equality", num e.equality)]
/-- `QPEigenvalues` (`serialization.cc:66`). -/
def eigenJson (e : QPEigenvalues α) : Json α := .obj [("min", num e.min), ("max", num e.max), ("abs_min", num e.absMin)]
/-- `DirectionalDerivatives` (`serialization.cc:67`). -/
def derivJson (d : DirectionalDerivatives α) : Json α := .obj [("d_f", num d.dF), ("d_equality", num d.dEquality)]
/-- `LineSearchStep` (`serialization.cc:68`). -/
def stepJson (s : LineSearchStep α) : Json α := .obj [("alpha", num s.alpha), ("errors", errorsJson num s.errors)]
/-- `AlphaValues` (`serialization.cc:71`). -/
def alphaJson (a : AlphaValues α) : Json α := .obj [("primal", num a.primal), ("dual", num a.dual)]
/-- `IPIterationOutputs` (`serialization.cc:72`). -/
def ipJson (o : IPOutputs α) : Json α := .obj [("mu", num o.mu), ("alpha", alphaJson num o.alpha),
  ("alpha_probe", alphaJson num o.alphaProbe), ("mu_affine", num o.muAffine)]
/-- `KKTError` (`serialization.cc:73`). -/
def kktJson (k : KKTError α) : Json α := .obj [("r_dual", num k.rDual), ("r_comp", num k.rComp),
  ("r_primal_eq", num k.rPrimalEq), ("r_primal_ineq", num k.rPrimalIneq)]
/-- `QPInteriorPointIteration` (`serialization.cc:74`). -/
def qpIterJson (i : QPIter α) : Json α := .obj [("kkt_initial", kktJson num i.kktInitial),
  ("kkt_final", kktJson num i.kktFinal), ("ip_outputs", ipJson num i.ip)]
/-- `QPLagrangeMultipliers` (`serialization.cc:75`). -/
def lagrangeJson (l : QPLagrangeMultipliers α) : Json α := .obj [("min", num l.min), ("l_infinity", num l.lInfinity)]
/-- `QPInteriorPointSolverOutputs` (`serialization.cc:76-77`). -/
def qpOutsJson (o : QPOuts α) : Json α := .obj [
  ("termination_state", enumJson qpTerminationTable.1 qpTerminationTable.2 o.termination),
  ("iterations", .arr (o.iterations.map (qpIterJson num))), ("lagrange_multipliers", optJson (lagrangeJson num) o.lagrange)]
/-- The variant of QP outputs (`serialization.cc:79-82`). -/
def qpResJson : QPRes α → Json α
  | .nullSpace t => enumJson nullSpaceTable.1 nullSpaceTable.2 t
  | .interiorPoint o => qpOutsJson num o
/-- `NLSIteration` (`serialization.cc:112-123`). -/
def iterJson (i : Iter α) : Json α := .obj [
  ("iteration", .int i.iteration),
  ("optimizer_state", enumJson optimizerStateTable.1 optimizerStateTable.2 i.optimizerState),
  ("lambda", num i.lambda),
  ("errors_initial", errorsJson num i.errorsInitial),
  ("qp_outputs", qpResJson num i.qpOutputs),
  ("qp_eigenvalues", optJson (eigenJson num) i.qpEigenvalues),
  ("directional_derivatives", derivJson num i.directionalDerivatives),
  ("penalty", num i.penalty),
  ("step_result", enumJson stepResultTable.1 stepResultTable.2 i.stepResult),
  ("line_search_steps", .arr (i.lineSearchSteps.map (stepJson num)))]
/-- `NLSSolverOutputs` (`serialization.cc:131-134`). -/
def outputsJsonWith (o : Outputs α) : Json α := .obj [
  ("termination_state", enumJson nlsTerminationTable.1 nlsTerminationTable.2 o.termination),
  ("iterations", .arr (o.iterations.map (iterJson num)))]
end Write

/-- `to_json(NLSSolverOutputs)`. -/
def toJson (o : Outputs α) : Json α := outputsJsonWith Json.num o

/-! ## Reading -/

/-- `Errors` (`serialization.cc:65`); the macro uses `at`. -/
def getErrors (j : Json α) : Except JErr (Errors α) := do
  let f ← at' j "f" >>= getDouble
  let q ← at' j "equality" >>= getDouble
  pure ⟨f, q⟩
/-- `QPEigenvalues` (`serialization.cc:66`). -/
def getEigen (j : Json α) : Except JErr (QPEigenvalues α) := do
  let a ← at' j "min" >>= getDouble
  let b ← at' j "max" >>= getDouble
  let c ← at' j "abs_min" >>= getDouble
  pure ⟨a, b, c⟩
/-- `DirectionalDerivatives` (`serialization.cc:67`). -/
def getDeriv (j : Json α) : Except JErr (DirectionalDerivatives α) := do
  let a ← at' j "d_f" >>= getDouble
  let b ← at' j "d_equality" >>= getDouble
  pure ⟨a, b⟩
/-- `LineSearchStep` (`serialization.cc:68`). -/
def getStep (j : Json α) : Except JErr (LineSearchStep α) := do
  let a ← at' j "alpha" >>= getDouble
  let b ← at' j "errors" >>= getErrors
  pure ⟨a, b⟩
/-- `AlphaValues` (`serialization.cc:71`). -/
def getAlpha (j : Json α) : Except JErr (AlphaValues α) := do
  let a ← at' j "primal" >>= getDouble
  let b ← at' j "dual" >>= getDouble
  pure ⟨a, b⟩
/-- `IPIterationOutputs` (`serialization.cc:72`). -/
def getIP (j : Json α) : Except JErr (IPOutputs α) := do
  let a ← at' j "mu" >>= getDouble
  let b ← at' j "alpha" >>= getAlpha
  let c ← at' j "alpha_probe" >>= getAlpha
  let d ← at' j "mu_affine" >>= getDouble
  pure ⟨a, b, c, d⟩
/-- `KKTError` (`serialization.cc:73`). -/
def getKKT (j : Json α) : Except JErr (KKTError α) := do
  let a ← at' j "r_dual" >>= getDouble
  let b ← at' j "r_comp" >>= getDouble
  let c ← at' j "r_primal_eq" >>= getDouble
  let d ← at' j "r_primal_ineq" >>= getDouble
  pure ⟨a, b, c, d⟩
/-- `QPInteriorPointIteration` (`serialization.cc:74`). -/
def getQPIter (j : Json α) : Except JErr (QPIter α) := do
  let a ← at' j "kkt_initial" >>= getKKT
  let b ← at' j "kkt_final" >>= getKKT
  let c ← at' j "ip_outputs" >>= getIP
  pure ⟨a, b, c⟩
/-- `QPLagrangeMultipliers` (`serialization.cc:75`). -/
def getLagrange (j : Json α) : Except JErr (QPLagrangeMultipliers α) := do
  let a ← at' j "min" >>= getDouble
  let b ← at' j "l_infinity" >>= getDouble
  pure ⟨a, b⟩
/-- `QPInteriorPointSolverOutputs` (`serialization.cc:76-77`). -/
def getQPOuts (j : Json α) : Except JErr (QPOuts α) := do
  let a ← at' j "termination_state"
  let b ← at' j "iterations" >>= getList getQPIter
  let c ← at' j "lagrange_multipliers" >>= getOpt getLagrange
  pure ⟨getEnum qpTerminationTable.1 qpTerminationTable.2 a, b, c⟩
/-- The variant of QP outputs (`serialization.cc:84-91`). -/
def getQPRes (j : Json α) : Except JErr (QPRes α) :=
  if contains j "termination_state" && contains j "iterations" then
    match getQPOuts j with
    | .ok o => .ok (.interiorPoint o)
    | .error e => .error e
  else .ok (.nullSpace (getEnum nullSpaceTable.1 nullSpaceTable.2 j))
/-- `NLSIteration` (`serialization.cc:100-110`); uses `operator[]`. The order in which the ten constructor arguments
are evaluated is unspecified in C++; left to right here. -/
def getIter (j : Json α) : Except JErr (Iter α) := do
  let a ← index j "iteration" >>= getInt
  let b ← index j "optimizer_state"
  let c ← index j "lambda" >>= getDouble
  let d ← index j "errors_initial" >>= getErrors
  let e ← index j "qp_outputs" >>= getQPRes
  let f ← index j "qp_eigenvalues" >>= getOpt getEigen
  let g ← index j "directional_derivatives" >>= getDeriv
  let h ← index j "penalty" >>= getDouble
  let i ← index j "step_result"
  let k ← index j "line_search_steps" >>= getList getStep
  pure ⟨a, getEnum optimizerStateTable.1 optimizerStateTable.2 b, c, d, e, f, g, h,
    getEnum stepResultTable.1 stepResultTable.2 i, k⟩
/-- `NLSSolverOutputs` (`serialization.cc:126-129`). -/
def fromJson (j : Json α) : Except JErr (Outputs α) := do
  let a ← index j "termination_state"
  let b ← index j "iterations" >>= getList getIter
  pure ⟨getEnum nlsTerminationTable.1 nlsTerminationTable.2 a, b⟩

/-! ## Text -/

mutual
/-- What is left of a JSON value after `dump` and `parse`: floating point numbers that are not finite are written as
`null`. -/
def throughText : Json α → Json α
  | .num x => if Scalar.isFinite x then .num x else .null
  | .arr l => .arr (throughTextList l)
  | .obj l => .obj (throughTextFields l)
  | .null => .null
  | .bool b => .bool b
  | .int i => .int i
  | .str s => .str s
/-- Elements of an array. -/
def throughTextList : List (Json α) → List (Json α)
  | [] => []
  | j :: js => throughText j :: throughTextList js
/-- Members of an object. -/
def throughTextFields : List (String × Json α) → List (String × Json α)
  | [] => []
  | (k, j) :: js => (k, throughText j) :: throughTextFields js
end

end MiniOpt.Ser
