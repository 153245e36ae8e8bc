import Verif.Model.Format

/-!
# Format strings

What `fmt::format(pattern, args...)` does with the patterns used by the library: replacement fields `{}` and `{:spec}`
are replaced, from left to right, by the arguments. (No pattern of the library contains an escaped brace.)
-/

set_option autoImplicit false

namespace MiniOpt.Spec

open MiniOpt MiniOpt.Cpp MiniOpt.Fmt

/-- An argument of a format call: a double, or something whose text is already known (integers, enums, colours). -/
inductive Arg (α : Type) where
  | num (x : α)
  | text (t : List Char)

/-- The format specification between the braces. -/
def specOf (s : List Char) : Fmt.Spec :=
  if s = ":.16e".toList then .e16
  else if s = ":.16f".toList then .f16
  else if s = ":.10f".toList then .f10
  else .plain

/-- One argument, as text. -/
def render {α : Type} (fd : FmtDouble α) (spec : List Char) : Arg α → List Char
  | .num x => fd (specOf spec) x
  | .text t => t

/-- `fmt::format`: the first argument is the specification read so far if we are between braces. -/
def substFrom {α : Type} (fd : FmtDouble α) : Option (List Char) → List Char → List (Arg α) → List Char
  | _, [], _ => []
  | none, c :: cs, args => if c = '{' then substFrom fd (some []) cs args else c :: substFrom fd none cs args
  | some spec, c :: cs, args =>
    if c = '}' then
      match args with
      | [] => []
      | a :: as => render fd spec a ++ substFrom fd none cs as
    else substFrom fd (some (spec ++ [c])) cs args

/-- `fmt::format(pattern, args...)`. -/
def subst {α : Type} (fd : FmtDouble α) (pattern : String) (args : List (Arg α)) : List Char :=
  substFrom fd none pattern.toList args

variable {α : Type} [Scalar α]

/-- The text of one interior point iteration: the format strings of `structs.cc:124-146` and their arguments. -/
def qpIterReport (fd : FmtDouble α) (i : QPIter α) : List Char :=
  subst fd "Iteration summary: ||kkt|| max: {} --> {}, mu = {}, a_p = {}, a_d = {}\n"
    [.num i.kktInitial.max, .num i.kktFinal.max, .num i.ip.mu, .num i.ip.alpha.primal, .num i.ip.alpha.dual]
  ++ (if Scalar.feq i.ip.muAffine i.ip.muAffine then
        subst fd " Probe alphas: a_p = {}, a_d = {}, mu_affine = {}\n"
          [.num i.ip.alphaProbe.primal, .num i.ip.alphaProbe.dual, .num i.ip.muAffine]
      else [])
  ++ subst fd
      " KKT errors, L2:\n r_dual = {} --> {}\n r_comp = {} --> {}\n r_p_eq = {} --> {}\n r_p_ineq = {} --> {}\n"
      [.num i.kktInitial.rDual, .num i.kktFinal.rDual, .num i.kktInitial.rComp, .num i.kktFinal.rComp,
        .num i.kktInitial.rPrimalEq, .num i.kktFinal.rPrimalEq, .num i.kktInitial.rPrimalIneq,
        .num i.kktFinal.rPrimalIneq]

/-- The escape sequence that selects colour number `code` of the 256 colour palette (nothing if colour is off). -/
def colorOn (enabled : Bool) (code : String) : List Char :=
  if enabled then Char.ofNat 27 :: ("[38;5;" ++ code ++ "m").toList else []

/-- The escape sequence that ends colouring (nothing if colour is off). -/
def colorOff (enabled : Bool) : List Char := if enabled then Char.ofNat 27 :: "[0m".toList else []

/-- The line for line search step number `n` (`structs.cc:192-195`). -/
def stepReport (fd : FmtDouble α) (penalty : α) (n : Nat) (s : LineSearchStep α) : List Char :=
  subst fd "  f({}): {:.16e}, c({}): {:.16e}, total: {:.16e}, alpha = {:.10f}\n"
    [.text (Trace.digits n), .num s.errors.f, .text (Trace.digits n), .num s.errors.equality,
      .num (s.errors.f + penalty * s.errors.equality), .num s.alpha]

/-- The line about the QP (`structs.cc:173-182`). -/
def qpReport (fd : FmtDouble α) : QPRes α → List Char
  | .interiorPoint ip =>
    subst fd "  QP-IP: {}, {}\n" [.text (nameQP ip.termination).toList, .text (Trace.digits ip.iterations.length)]
  | .nullSpace t => subst fd "  QP: {}\n" [.text (nameNullSpace t).toList]

/-- The text of one nonlinear iteration: the format strings of `structs.cc:159-206` and their arguments. A search
that succeeded is green (112), any other red (160). -/
def iterReport (fd : FmtDouble α) (useColor includeQP : Bool) (i : Iter α) : List Char :=
  subst fd "Iteration # {}, state = {}, lambda = {}\n"
    [.text (Trace.fmtInt i.iteration), .text (nameState i.optimizerState).toList, .num i.lambda]
  ++ (subst fd "  f(0): {:.16e}, c(0): {:.16e}, total: {:.16e}\n"
    [.num i.errorsInitial.f, .num i.errorsInitial.equality,
      .num (i.errorsInitial.f + i.penalty * i.errorsInitial.equality)]
  ++ ((match i.qpEigenvalues with
      | some q => subst fd "  min, max, |min| eig = {:.16e}, {:.16e}, {:.16e}\n" [.num q.min, .num q.max, .num q.absMin]
      | none => [])
  ++ (subst fd "  penalty = {:.16f}\n" [.num i.penalty]
  ++ (qpReport fd i.qpOutputs
  ++ (subst fd "  df/dalpha = {}, dc/dalpha = {}\n"
    [.num i.directionalDerivatives.dF, .num i.directionalDerivatives.dEquality]
  ++ (subst fd "  Search result: {}{}{}\n"
    [.text (colorOn useColor (if i.stepResult = .success then "112" else "160")), .text (nameStep i.stepResult).toList,
      .text (colorOff useColor)]
  ++ ((i.lineSearchSteps.zipIdx.flatMap fun s => stepReport fd i.penalty s.2 s.1)
  ++ (match i.qpOutputs, includeQP with
      | .interiorPoint ip, true => ip.iterations.flatMap (qpIterReport fd)
      | _, _ => []))))))))

/-- The colour of the last line: green for a satisfied tolerance, red for an indefinite QP, orange otherwise. -/
def exitColor : NLSTermination → String
  | .satisfiedAbsoluteTol => "112"
  | .satisfiedRelativeTol => "112"
  | .satisfiedFirstOrderTol => "112"
  | .qpIndefinite => "160"
  | .maxLambda => "202"
  | .maxIterations => "202"
  | .userCallback => "202"

/-- The whole report (`structs.cc:259-268`): the iterations in order, and the termination state. -/
def outputsReport (fd : FmtDouble α) (useColor includeQP : Bool) (o : Outputs α) : List Char :=
  o.iterations.flatMap (iterReport fd useColor includeQP)
  ++ subst fd "  termination = {}{}{}\n"
      [.text (colorOn useColor (exitColor o.termination)), .text (nameNLS o.termination).toList,
        .text (colorOff useColor)]

/-- The number of lines the report of one iteration should have. -/
def iterLines (includeQP : Bool) (i : Iter α) : Nat :=
  6 + (if i.qpEigenvalues.isSome then 1 else 0) + i.lineSearchSteps.length
  + (match i.qpOutputs, includeQP with
      | .interiorPoint ip, true =>
        (ip.iterations.map fun q => 6 + if Scalar.feq q.ip.muAffine q.ip.muAffine then 1 else 0).sum
      | _, _ => 0)

end MiniOpt.Spec
