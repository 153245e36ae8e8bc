import Verif.Model.Structs

/-!
# The log structures exactly as stored  (`/repo/include/mini_opt/structs.hpp`)

`Verif/Model/Structs.lean` represents the probe fields of `IPIterationOutputs`, which are NaN unless the
predictor-corrector strategy filled them, by `Option`.  Printing and serialisation see the doubles, so this file
repeats the affected structures with plain doubles and gives the translation.
-/

set_option autoImplicit false

namespace MiniOpt.Cpp

variable {α : Type} [Scalar α]

/-- `struct IPIterationOutputs` (`structs.hpp:53-64`). -/
structure IPOutputs (α : Type) where
  mu : α
  alpha : AlphaValues α
  alphaProbe : AlphaValues α
  muAffine : α

/-- `struct QPInteriorPointIteration` (`structs.hpp:81-94`). -/
structure QPIter (α : Type) where
  kktInitial : KKTError α
  kktFinal : KKTError α
  ip : IPOutputs α

/-- `struct QPInteriorPointSolverOutputs` (`structs.hpp:116-134`). -/
structure QPOuts (α : Type) where
  termination : QPTermination
  iterations : List (QPIter α)
  lagrange : Option (QPLagrangeMultipliers α)

/-- The `std::variant` of QP outputs (`structs.hpp:307`). -/
inductive QPRes (α : Type) where
  | nullSpace (t : NullSpaceTermination)
  | interiorPoint (o : QPOuts α)

/-- `struct NLSIteration` (`structs.hpp:277-326`). -/
structure Iter (α : Type) where
  iteration : Int
  optimizerState : OptimizerState
  lambda : α
  errorsInitial : Errors α
  qpOutputs : QPRes α
  qpEigenvalues : Option (QPEigenvalues α)
  directionalDerivatives : DirectionalDerivatives α
  penalty : α
  stepResult : StepResult
  lineSearchSteps : List (LineSearchStep α)

/-- `struct NLSSolverOutputs` (`structs.hpp:329-347`). -/
structure Outputs (α : Type) where
  termination : NLSTermination
  iterations : List (Iter α)

/-! Translation from `Verif/Model/Structs.lean`; `nan` is the quiet NaN of the default member initialisers
(`structs.hpp:60-63`). -/

/-- See the file header. -/
def IPOutputs.of (nan : α) (o : IPIterationOutputs α) : IPOutputs α :=
  ⟨o.mu, o.alpha, o.alphaProbe.getD ⟨nan, nan⟩, o.muAffine.getD nan⟩

/-- See the file header. -/
def QPIter.of (nan : α) (i : QPIteration α) : QPIter α := ⟨i.kktInitial, i.kktFinal, .of nan i.ip⟩

/-- See the file header. -/
def QPOuts.of (nan : α) (o : QPOutputs α) : QPOuts α := ⟨o.termination, o.iterations.map (.of nan), o.lagrange⟩

/-- See the file header. -/
def QPRes.of (nan : α) : QPResult α → QPRes α
  | .nullSpace t => .nullSpace t
  | .interiorPoint o => .interiorPoint (.of nan o)

/-- See the file header. -/
def Iter.of (nan : α) (i : NLSIteration α) : Iter α where
  iteration := i.iteration
  optimizerState := i.optimizerState
  lambda := i.lambda
  errorsInitial := i.errorsInitial
  qpOutputs := .of nan i.qpOutputs
  qpEigenvalues := i.qpEigenvalues
  directionalDerivatives := i.directionalDerivatives
  penalty := i.penalty
  stepResult := i.stepResult
  lineSearchSteps := i.lineSearchSteps

/-- See the file header. -/
def Outputs.of (nan : α) (o : NLSOutputs α) : Outputs α := ⟨o.termination, o.iterations.map (.of nan)⟩

end MiniOpt.Cpp
